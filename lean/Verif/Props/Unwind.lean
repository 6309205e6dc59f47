import Verif.Proofs.Unwind
import Verif.Props.Block

/-! # C80: what a caught panic leaves behind -/

namespace Bellframe.Props

open Utils (Bound)

variable {A : Type}

/-- For a caller who does not catch panics, the models with the state after a panic are the models
of the other properties. -/
theorem C80_agreement (v other : SameStageVec) (rows : List Row) (t : Row) (b c : AnnotBlock A)
    (lo hi : Bound) :
    onReturn (v.extendUnwind (rows.map .ok)) = v.extend rows ∧
    onReturn (v.extendRangeTransposedUnwind t other lo hi) = v.extendRangeTransposed t other lo hi ∧
    onReturn (v.extendTransposedFromWithinUnwind lo hi t) = v.extendTransposedFromWithin lo hi t ∧
    onReturn (b.extendRangeUnwind .ok c lo hi) = b.extendRange c lo hi ∧
    onReturn (b.extendUnwind .ok c) = b.extend c ∧
    (onReturn (b.extendFromWithinUnwind .ok lo hi)).map Prod.fst = b.extendFromWithin lo hi :=
  ⟨SameStageVec.extendUnwindLoop_agrees _ rows v,
    SameStageVec.extendRangeTransposedUnwind_agrees v t other lo hi,
    SameStageVec.extendTransposedFromWithinUnwind_agrees v t lo hi,
    AnnotBlock.extendRangeUnwind_agrees b c lo hi,
    AnnotBlock.extendRangeUnwind_agrees b c _ _,
    AnnotBlock.extendFromWithinUnwind_agrees b lo hi⟩

/-- `extend` with an iterator that panics after yielding the rows `good`: the vector keeps these rows,
so it holds whole, valid rows but not only the old ones.  A row of another stage makes it return an
error before anything that comes later is asked for, and then the vector is as before. -/
theorem C80_extend (s : Stage) (rows good : List Row) (h : RowsOf s (rows ++ good)) (p : Panic)
    (r : Row) (hr : r.Valid) (hl : r.bells.length ≠ s.numBells) (rest : List (Res Row)) :
    (SameStageVec.ofRows s rows).extendUnwind (good.map .ok ++ .error p :: rest) =
      (.ofRows s (rows ++ good), .error p) ∧
    (SameStageVec.ofRows s rows).extendUnwind (good.map .ok ++ .ok r :: rest) =
      (.ofRows s rows, .ok (.error ⟨s, ⟨r.bells.length⟩⟩)) := by
  have hg : ∀ x ∈ good, x.Valid ∧ x.bells.length = s.numBells := fun x hx => h.2 x (by simp [hx])
  have hrows : RowsOf s rows := h.of_subset (by simp +contextual)
  unfold SameStageVec.extendUnwind
  rw [SameStageVec.extendUnwindLoop_good _ good _ rows hg,
    SameStageVec.extendUnwindLoop_good _ good _ rows hg]
  refine ⟨rfl, ?_⟩
  have hst : s ≠ ⟨r.bells.length⟩ := by intro h; apply hl; rw [h]
  rw [SameStageVec.extendUnwindLoop]
  simp only [hr.stage_eq, SameStageVec.ofRows_stage]
  rw [Row.testErr_ne hst]
  simp only [SameStageVec.ofRows_append, List.take_left]
  rfl

/-- An iterator that yields one row on three bells and then panics. -/
example : RowsOf ⟨3⟩ ([Row.rounds ⟨3⟩] ++ [Row.backrounds ⟨3⟩]) ∧ (Row.rounds ⟨4⟩).Valid := by decide

/-- A panic of `extend_range_transposed` (from a vector of the same stage) or of
`extend_transposed_from_within` leaves the vector as it was: every panic comes before the first bell
is added. -/
theorem C80_vectors (s : Stage) (rows rows2 : List Row) (h : RowsOf s rows) (h2 : RowsOf s rows2)
    (t : Row) (ht : t.Valid) (lo hi : Bound) (v : SameStageVec) (p : Panic) :
    ((SameStageVec.ofRows s rows).extendRangeTransposedUnwind t (.ofRows s rows2) lo hi =
      (v, .error p) → v = .ofRows s rows) ∧
    ((SameStageVec.ofRows s rows).extendTransposedFromWithinUnwind lo hi t = (v, .error p) →
      v = .ofRows s rows) := by
  constructor
  · rw [SameStageVec.ofRows_extendRangeTransposedUnwind t ht s rows2 h2 (fun _ => rfl)]
    intro hp
    split at hp
    · simp only at hp
      split at hp
      · cases hp
      · exact (Prod.mk.inj hp).1.symm
    · cases hp
  · intro hp
    by_cases hl : t.bells.length = s.numBells
    · obtain ⟨h3, h4, h5⟩ := SameStageVec.ofRows_extendTransposedFromWithinUnwind h t ht hl lo hi
        (Utils.clampRange lo hi rows.length).1 (Utils.clampRange lo hi rows.length).2 rfl
      by_cases h6 : (Utils.clampRange lo hi rows.length).2 ≤ (Utils.clampRange lo hi rows.length).1
      · rw [h3 h6] at hp; cases hp
      · by_cases h7 : (Utils.clampRange lo hi rows.length).1 < rows.length
        · obtain ⟨more, -, -, -, h8⟩ := h5 (by omega) h7
          rw [h8] at hp; cases hp
        · rw [h4 (by omega) (by omega)] at hp
          exact (Prod.mk.inj hp).1.symm
    · have hg := SameStageVec.extendTransposedFromWithinUnwind_agrees (.ofRows s rows) t lo hi
      rw [hp, SameStageVec.ofRows_extendTransposedFromWithin h t ht, if_neg hl] at hg
      cases hg

/-- Both functions do panic. -/
example : (SameStageVec.ofRows ⟨2⟩ [Row.rounds ⟨2⟩]).extendRangeTransposedUnwind (Row.rounds ⟨2⟩)
      (.ofRows ⟨2⟩ [Row.rounds ⟨2⟩]) (.included 0) (.excluded 2) =
        (.ofRows ⟨2⟩ [Row.rounds ⟨2⟩], .error .index) ∧
    (SameStageVec.ofRows ⟨2⟩ [Row.rounds ⟨2⟩]).extendTransposedFromWithinUnwind (.included 1)
      (.excluded 2) (Row.rounds ⟨2⟩) = (.ofRows ⟨2⟩ [Row.rounds ⟨2⟩], .error .index) := by
  decide

/-- With a vector of a larger stage, `extend_range_transposed` panics after adding a part of a row.
The vector is then broken for good: its length is no longer a multiple of the stage, so that `len`
(in builds with debug assertions) and iterating over it panic. -/
theorem C80_vectors_false : ∃ (v w v' : SameStageVec) (t : Row),
    RowsOf ⟨2⟩ [Row.rounds ⟨2⟩] ∧ v = .ofRows ⟨2⟩ [Row.rounds ⟨2⟩] ∧
    RowsOf ⟨3⟩ [⟨[⟨0⟩, ⟨2⟩, ⟨1⟩]⟩] ∧ w = .ofRows ⟨3⟩ [⟨[⟨0⟩, ⟨2⟩, ⟨1⟩]⟩] ∧ t.Valid ∧
    v.extendRangeTransposedUnwind t w .unbounded .unbounded = (v', .error .index) ∧ v' ≠ v ∧
    v'.len = .error .assert ∧ v'.iter.collect = .error .index := by
  refine ⟨_, _, ⟨[⟨0⟩, ⟨1⟩, ⟨0⟩], ⟨2⟩⟩, Row.rounds ⟨2⟩, by decide, rfl, by decide, rfl, by decide,
    by decide, by decide, by decide, ?_⟩
  decide +kernel

/-- The state of a block after `extend_range` (and with it `extend`) in every case in which it does
not return: `b` is a block with rows `σs`, left-over row `l` and annotations `annots`, the other block
is of the same stage and has `bnnots.length` rows, and `lo..hi` is the range after `clamp_range`.

* If the range starts after the left-over row of the other block, the block is unchanged.
* If it starts before that but is not a range of the other block, the left-over row of the block is
  gone.
* If `Clone` of the annotation `x` panics, then the rows are extended completely, but the annotations
  only with those cloned earlier. -/
theorem C80_extend_range {n : Nat} (hn : 0 < n) (σs τs : List (Equiv.Perm (Fin n)))
    (l m : Equiv.Perm (Fin n)) (annots bnnots : List A) (h2 : τs.length = bnnots.length)
    (clone : A → Res A) (a b : Bound) (lo hi : Nat)
    (hr : Utils.clampRange a b bnnots.length = (lo, hi)) :
    (bnnots.length < lo →
      (AnnotBlock.ofPerms σs l annots).extendRangeUnwind clone (.ofPerms τs m bnnots) a b =
        (.ofPerms σs l annots, .error .unwrap)) ∧
    (lo ≤ bnnots.length → ¬ (lo ≤ hi + 1 ∧ hi ≤ bnnots.length) →
      (AnnotBlock.ofPerms σs l annots).extendRangeUnwind clone (.ofPerms τs m bnnots) a b =
        (⟨.ofRows ⟨n⟩ (σs.map Row.ofPerm), annots⟩, .error .index)) ∧
    (∀ f done cs x rest p, (τs ++ [m])[lo]? = some f → lo ≤ hi + 1 → hi ≤ bnnots.length →
      bnnots = done ++ x :: rest → List.Forall₂ (fun a c => clone a = .ok c) done cs →
      clone x = .error p →
      (AnnotBlock.ofPerms σs l annots).extendRangeUnwind clone (.ofPerms τs m bnnots) a b =
        (⟨.ofRows ⟨n⟩ ((σs ++ (((τs ++ [m]).take (hi + 1)).drop lo).map
            (l * f⁻¹ * ·)).map Row.ofPerm), annots ++ cs⟩, .error p)) := by
  obtain ⟨h3, h4, h5⟩ := AnnotBlock.extendRangeUnwind_ofPerms hn σs l annots clone τs m bnnots h2 a b
    lo hi hr
  refine ⟨h3, h5, fun f done cs x rest p hf h6 h7 hb hd hx => ?_⟩
  rw [h4 f hf h6 h7, hb, mapUntilPanic_panic done rest cs x p hd hx]
  rfl

example := C80_extend_range (A := Nat) (n := 3) (by decide) [1] [1, Equiv.swap 0 1] (Equiv.swap 1 2)
  (Equiv.swap 0 1) [7] [8, 9] rfl (fun x => if x = 9 then .error .explicit else .ok x) (.included 0) (.excluded 2) 0 2 rfl

/-- Blocks of different stages: `extend_range` changes nothing, whether it panics or returns the
error. -/
theorem C80_extend_range_mismatch {n k : Nat} (hn : 0 < n) (hk : 0 < k) (hnk : n ≠ k)
    (σs : List (Equiv.Perm (Fin n))) (τs : List (Equiv.Perm (Fin k)))
    (l : Equiv.Perm (Fin n)) (m : Equiv.Perm (Fin k)) (annots bnnots : List A)
    (h2 : τs.length = bnnots.length) (clone : A → Res A) (a b : Bound) (lo hi : Nat)
    (hr : Utils.clampRange a b bnnots.length = (lo, hi)) :
    (AnnotBlock.ofPerms σs l annots).extendRangeUnwind clone (.ofPerms τs m bnnots) a b =
      (.ofPerms σs l annots,
        if bnnots.length < lo then .error .unwrap else .ok (.error ⟨⟨n⟩, ⟨k⟩⟩)) :=
  AnnotBlock.extendRangeUnwind_mismatch hn σs l annots clone hk hnk τs m bnnots h2 a b lo hi hr

example := C80_extend_range_mismatch (A := Nat) (n := 3) (k := 2) (by decide) (by decide) (by decide) [1]
  [1, Equiv.swap 0 1] (Equiv.swap 1 2) (Equiv.swap 0 1) [7] [8, 9] rfl .ok (.included 0) (.excluded 2) 0 2 rfl

/-- The state of a block after `extend_from_within` in every case in which it does not return, with
`lo..hi` the range after `clamp_range`.

* If the range starts after the left-over row, starts at it and is not empty, or ends before it
  starts, the block is unchanged.
* If the range starts at a row and ends after the left-over row, then `hi - lo` rows but no annotations
  are added, as if the block went on with itself.
* If `Clone` of the annotation `x` panics, then the rows are extended completely, but the annotations
  only with those cloned earlier. -/
theorem C80_extend_from_within {n : Nat} (hn : 0 < n) (σs : List (Equiv.Perm (Fin n)))
    (l : Equiv.Perm (Fin n)) (annots : List A) (h : σs.length = annots.length)
    (clone : A → Res A) (a b : Bound) (lo hi : Nat)
    (hr : Utils.clampRange a b annots.length = (lo, hi)) :
    (annots.length < lo ∨ hi < lo ∨ lo = annots.length ∧ annots.length < hi →
      ∃ p, (AnnotBlock.ofPerms σs l annots).extendFromWithinUnwind clone a b =
        (.ofPerms σs l annots, .error p)) ∧
    (lo < annots.length → annots.length < hi → ∃ more, GoesOnLike σs l lo (hi - lo) more ∧
      (AnnotBlock.ofPerms σs l annots).extendFromWithinUnwind clone a b =
        (⟨.ofRows ⟨n⟩ ((σs ++ [l] ++ more).map Row.ofPerm), annots⟩, .error .index)) ∧
    (∀ done cs x rest p, lo ≤ hi → hi ≤ annots.length →
      (annots.take hi).drop lo = done ++ x :: rest →
      List.Forall₂ (fun a c => clone a = .ok c) done cs → clone x = .error p →
      ∃ more, GoesOnLike σs l lo (hi - lo) more ∧
        (AnnotBlock.ofPerms σs l annots).extendFromWithinUnwind clone a b =
          (⟨.ofRows ⟨n⟩ ((σs ++ [l] ++ more).map Row.ofPerm), annots ++ cs⟩, .error p)) := by
  obtain ⟨h3, h4, h5, h6⟩ := AnnotBlock.extendFromWithinUnwind_ofPerms hn σs l annots clone h a b
    lo hi hr
  refine ⟨fun hbad => ?_, h6, fun done cs x rest p h7 h8 hb hd hx => ?_⟩
  · by_cases hlt : annots.length < lo
    · exact ⟨_, h3 hlt⟩
    · exact ⟨_, h4 (by omega) (by omega)⟩
  · obtain ⟨more, h9, h11⟩ := h5 h7 h8
    refine ⟨more, h9, ?_⟩
    rw [h11, hb, mapUntilPanic_panic done rest cs x p hd hx]

example := C80_extend_from_within (A := Nat) (n := 3) (by decide) [1, Equiv.swap 0 1] (Equiv.swap 1 2) [8, 9] rfl
  (fun x => if x = 9 then .error .explicit else .ok x) (.included 0) (.excluded 3) 0 3 rfl

/-- The invariant does not hold when the number of rows is not one more than that of the
annotations. -/
theorem not_wellFormed_of_length {s : Stage} {rows : List Row} (h : RowsOf s rows) (annots : List A)
    (hl : rows.length ≠ annots.length + 1) :
    ¬ (AnnotBlock.mk (.ofRows s rows) annots).WellFormed := by
  rintro ⟨rows', h1, h2, h3⟩
  have h4 := SameStageVec.collect_ofRows _ h
  have h2 : SameStageVec.ofRows s rows = .ofRows s rows' := h2
  have h1 : RowsOf s rows' := h1
  rw [h2, SameStageVec.collect_ofRows _ h1] at h4
  exact hl ((Except.ok.inj h4) ▸ h3)

/-- Whatever panics (a bad range, or `Clone` of an annotation), a panic of `extend` or
`extend_from_within` either leaves the block exactly as it was, or leaves it with numbers of rows and
annotations that do not fit together; there is no third case.  Without panics of `Clone`, the block is
unchanged precisely if the range does not start at one of the block's rows and end after its left-over
row; and `extend` does not panic at all.
Missing: that the block is always unchanged, which is false, see `C80_blocks_false`. -/
theorem C80_blocks_partial {n : Nat} (hn : 0 < n) (σs τs : List (Equiv.Perm (Fin n)))
    (l m : Equiv.Perm (Fin n)) (annots bnnots : List A) (h : σs.length = annots.length)
    (h2 : τs.length = bnnots.length) (clone : A → Res A) (a b : Bound) (c : AnnotBlock A)
    (p : Panic) :
    ((AnnotBlock.ofPerms σs l annots).extendUnwind clone (.ofPerms τs m bnnots) = (c, .error p) →
      ¬ c.WellFormed ∧ ∃ x ∈ bnnots, clone x = .error p) ∧
    ((AnnotBlock.ofPerms σs l annots).extendFromWithinUnwind clone a b = (c, .error p) →
      c = .ofPerms σs l annots ∨ ¬ c.WellFormed) ∧
    ((∀ x, ∃ y, clone x = .ok y) →
      (AnnotBlock.ofPerms σs l annots).extendFromWithinUnwind clone a b = (c, .error p) →
      (c = .ofPerms σs l annots ↔
        ¬ ((Utils.clampRange a b annots.length).1 < annots.length ∧
          annots.length < (Utils.clampRange a b annots.length).2))) := by
  have hpan : ∀ (as : List A), (mapUntilPanic clone as).2 = .error p → ∃ x ∈ as, clone x = .error p := by
    intro as
    induction as with
    | nil => intro h; cases h
    | cons x as ih =>
      intro h
      rw [mapUntilPanic] at h
      cases hx : clone x with
      | error q => rw [hx] at h; cases h; exact ⟨x, by simp, hx⟩
      | ok y =>
        rw [hx] at h
        obtain ⟨z, hz, hz'⟩ := ih h
        exact ⟨z, by simp [hz], hz'⟩
  obtain ⟨f, hf⟩ : ∃ f, (τs ++ [m])[0]? = some f := ⟨_, List.getElem?_eq_getElem (by simp)⟩
  obtain ⟨-, h4, -⟩ := AnnotBlock.extendRangeUnwind_ofPerms hn σs l annots clone τs m bnnots h2
    .unbounded .unbounded 0 bnnots.length rfl
  have h4 := h4 f hf (by omega) (by omega)
  obtain ⟨h5, h6, h7, h8⟩ := AnnotBlock.extendFromWithinUnwind_ofPerms hn σs l annots clone h a b
    (Utils.clampRange a b annots.length).1 (Utils.clampRange a b annots.length).2 rfl
  generalize (Utils.clampRange a b annots.length).1 = lo at *
  generalize (Utils.clampRange a b annots.length).2 = hi at *
  have hcases : (AnnotBlock.ofPerms σs l annots).extendFromWithinUnwind clone a b = (c, .error p) →
      (c = .ofPerms σs l annots ∧ ¬ (lo < annots.length ∧ annots.length < hi)) ∨
      (¬ c.WellFormed ∧ ((lo < annots.length ∧ annots.length < hi) ∨
        ∃ x ∈ annots, clone x = .error p)) := by
    intro hp
    by_cases hlt : annots.length < lo
    · rw [h5 hlt] at hp
      exact Or.inl ⟨(Prod.mk.inj hp).1.symm, by omega⟩
    · by_cases hb1 : hi < lo ∨ lo = annots.length ∧ annots.length < hi
      · rw [h6 (by omega) hb1] at hp
        exact Or.inl ⟨(Prod.mk.inj hp).1.symm, by omega⟩
      · by_cases hb2 : annots.length < hi
        · obtain ⟨more, ⟨h10, -⟩, h11⟩ := h8 (by omega) hb2
          rw [h11] at hp
          obtain ⟨rfl, -⟩ := Prod.mk.inj hp
          refine Or.inr ⟨not_wellFormed_of_length (RowsOf.perms hn _) _ ?_,
            Or.inl (by omega)⟩
          simp
          omega
        · obtain ⟨more, ⟨h10, -⟩, h11⟩ := h7 (by omega) (by omega)
          rw [h11] at hp
          obtain ⟨rfl, hp'⟩ := Prod.mk.inj hp
          have hlen := mapUntilPanic_length _ _ hp'
          refine Or.inr ⟨not_wellFormed_of_length (RowsOf.perms hn _) _ ?_, Or.inr ?_⟩
          · simp only [List.length_append, List.length_map, List.length_drop, List.length_take,
              List.length_cons, List.length_nil] at hlen ⊢
            omega
          · obtain ⟨x, hx, hx'⟩ := hpan _ hp'
            exact ⟨x, List.mem_of_mem_take (List.mem_of_mem_drop hx), hx'⟩
  refine ⟨fun hp => ?_, fun hp => ?_, fun htot hp => ?_⟩
  · unfold AnnotBlock.extendUnwind at hp
    rw [h4] at hp
    obtain ⟨rfl, hp⟩ := Prod.mk.inj hp
    have hp' : (mapUntilPanic clone bnnots).2 = .error p := by
      cases hm : (mapUntilPanic clone bnnots).2 with
      | error q => rw [hm] at hp; cases hp; rfl
      | ok u => rw [hm] at hp; cases hp
    have hlen := mapUntilPanic_length _ _ hp'
    refine ⟨not_wellFormed_of_length (RowsOf.perms hn _) _ ?_, hpan _ hp'⟩
    simp
    omega
  · rcases hcases hp with h | h
    · exact Or.inl h.1
    · exact Or.inr h.1
  · rcases hcases hp with ⟨h9, h10⟩ | ⟨h9, h10⟩
    · exact ⟨fun _ => h10, fun _ => h9⟩
    · have : lo < annots.length ∧ annots.length < hi := by
        rcases h10 with h10 | ⟨x, -, hx⟩
        · exact h10
        · obtain ⟨y, hy⟩ := htot x
          rw [hx] at hy; cases hy
      refine ⟨?_, fun h => absurd this h⟩
      rintro rfl
      exact absurd (AnnotBlock.ofPerms_wellFormed hn h) h9

example := C80_blocks_partial (A := Nat) (n := 3) (by decide) [1] [1, Equiv.swap 0 1] (Equiv.swap 1 2)
  (Equiv.swap 0 1) [7] [8, 9] rfl rfl (fun x => if x = 9 then .error .explicit else .ok x)

/-- The claim that a caught panic leaves a block as it was is false, in three ways.
* `extend_range(&other, 0..2)` with a block of length 1 panics after removing the left-over row; if the
  block was empty it now has no row at all, and asking for its first or left-over row panics.
* `extend_from_within(0..2)` on a block of length 1 panics after extending the rows; iterating over
  the annotated rows then panics.
* The same happens in `extend` when `Clone` of an annotation panics. -/
theorem C80_blocks_false :
    (∃ b other c : AnnotBlock Nat, b.WellFormed ∧ other.WellFormed ∧ other.len = 1 ∧
      b.extendRangeUnwind .ok other (.included 0) (.excluded 2) = (c, .error .index) ∧
      c.leftoverRow = .error .unwrap ∧ c.firstRow = .error .unwrap) ∧
    (∃ b c : AnnotBlock Nat, b.WellFormed ∧ b.len = 1 ∧
      b.extendFromWithinUnwind .ok (.included 0) (.excluded 2) = (c, .error .index) ∧
      c.annotRows = .error .zipEq) ∧
    (∃ b other c : AnnotBlock Nat, b.WellFormed ∧ other.WellFormed ∧
      b.extendUnwind (fun x => if x = 7 then .error .explicit else .ok x) other =
        (c, .error .explicit) ∧ c.annotRows = .error .zipEq) := by
  have h0 : (AnnotBlock.mk (.ofRows ⟨2⟩ [Row.rounds ⟨2⟩]) ([] : List Nat)).WellFormed :=
    ⟨[Row.rounds ⟨2⟩], by decide, rfl, rfl⟩
  have h1 : (AnnotBlock.mk (.ofRows ⟨2⟩ [Row.rounds ⟨2⟩, Row.backrounds ⟨2⟩]) [7]).WellFormed :=
    ⟨[Row.rounds ⟨2⟩, Row.backrounds ⟨2⟩], by decide, rfl, rfl⟩
  refine ⟨⟨_, _, ⟨⟨[], ⟨2⟩⟩, []⟩, h0, h1, rfl, by decide, by decide, by decide⟩,
    ⟨_, ⟨⟨[⟨0⟩, ⟨1⟩, ⟨1⟩, ⟨0⟩, ⟨0⟩, ⟨1⟩, ⟨1⟩, ⟨0⟩], ⟨2⟩⟩, [7]⟩, h1, rfl, by decide, ?_⟩,
    ⟨_, _, ⟨⟨[⟨0⟩, ⟨1⟩, ⟨1⟩, ⟨0⟩], ⟨2⟩⟩, []⟩, h0, h1, by decide, ?_⟩⟩ <;> decide +kernel

/-- Blocks, a range and a clone as in the theorems. -/
example : (Utils.clampRange (.included 0) (.excluded 3) [7, 8].length = (0, 3)) ∧
    (AnnotBlock.ofPerms (n := 2) [1, Equiv.swap 0 1] 1 [7, 8]).WellFormed ∧
    List.Forall₂ (fun a c => (fun x => if x = 8 then Except.error Panic.explicit else .ok x) a =
      Except.ok c) [7] [7] :=
  ⟨rfl, AnnotBlock.ofPerms_wellFormed (by omega) rfl, .cons rfl .nil⟩

end Bellframe.Props
