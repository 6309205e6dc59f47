import Verif.Proofs.Mask
import Mathlib.Data.List.Sort
import Mathlib.Tactic.FinCases

/-!
# Masks (C37–C40, C58)
-/

namespace Bellframe.Props

open Mask

/-- A mask used in the examples: `x2x` on three bells. -/
private def exampleMask : Mask := Mask.parse "x2x".toList

private theorem exampleMask_eq : exampleMask = ⟨[none, some ⟨1⟩, none]⟩ := by decide

private theorem exampleMask_matches : exampleMask.Matches ⟨[⟨2⟩, ⟨1⟩, ⟨0⟩]⟩ := by
  rw [exampleMask_eq]
  simp only [matches_cons]
  exact ⟨by simp, by simp, by simp, rfl, by simp [Gives]⟩

private theorem exampleMask_wf : exampleMask.WellFormed :=
  wellFormed_of_row (r := ⟨[⟨2⟩, ⟨1⟩, ⟨0⟩]⟩) (by decide) exampleMask_matches

/-! ## C37 -/

/-- A mask matches a row exactly when they have the same stage and every specified place holds the
specified bell; the test never panics. -/
theorem C37_matches (m : Mask) (hm : m.bells ≠ []) (r : Row) (hr : r.Valid) :
    ∃ v, m.matches_ r = .ok v ∧ (v = true ↔ m.Matches r) :=
  matches_eq hm (List.ne_nil_of_length_pos hr.length_pos)

example : exampleMask.matches_ ⟨[⟨2⟩, ⟨1⟩, ⟨0⟩]⟩ = .ok true ∧
    exampleMask.matches_ ⟨[⟨1⟩, ⟨2⟩, ⟨0⟩]⟩ = .ok false ∧
    exampleMask.matches_ ⟨[⟨0⟩, ⟨1⟩, ⟨2⟩, ⟨3⟩]⟩ = .ok false := by decide

/-- `full_row(r)` matches `r` and no other row. -/
theorem C37_full_row (r r' : Row) : (Mask.fullRow r).Matches r' ↔ r' = r := by
  unfold Matches fullRow Gives
  constructor
  · rintro ⟨hl, h⟩
    apply Row.ext'
    apply List.ext_getElem?
    intro i
    by_cases hi : i < r.bells.length
    · rw [h i r.bells[i] (by simp [hi]), List.getElem?_eq_getElem hi]
    · simp only [List.length_map] at hl
      rw [List.getElem?_eq_none (by omega), List.getElem?_eq_none (by omega)]
  · rintro rfl
    refine ⟨by simp, fun i b h => ?_⟩
    simpa [List.getElem?_map] using h

/-- `empty(stage)` matches exactly the rows of that stage. -/
theorem C37_empty (s : Stage) (r : Row) : (Mask.empty s).Matches r ↔ r.bells.length = s.numBells := by
  unfold Matches Mask.empty Gives
  simp only [List.length_replicate]
  refine ⟨fun h => h.1.symm, fun h => ⟨h.symm, fun i b hb => ?_⟩⟩
  have := List.mem_of_getElem? hb
  simp at this

theorem fixAll_spec : ∀ (bs : List Bell) (m : Mask), (∀ b ∈ bs, b.index < m.bells.length) →
    (∀ i c, m.Gives i c → c.index = i) →
    ∃ m', fixAll bs m = .ok m' ∧ m'.bells.length = m.bells.length ∧
      ∀ i c, m'.Gives i c ↔ m.Gives i c ∨ (c ∈ bs ∧ c.index = i)
  | [], m, _, _ => ⟨m, rfl, rfl, by simp⟩
  | b :: bs, m, h, hm => by
    have hb : b.index < m.bells.length := h b (by simp)
    have hg := setIdx_gives (b := b) hb
    obtain ⟨m', h1, h2, h3⟩ := fixAll_spec bs ⟨m.bells.set b.index (some b)⟩
      (by simpa using fun c hc => h c (by simp [hc]))
      (fun i c hc => by
        rw [hg] at hc
        rcases hc with ⟨rfl, rfl⟩ | ⟨_, hc⟩
        · rfl
        · exact hm i c hc)
    refine ⟨m', ?_, by simpa using h2, fun i c => ?_⟩
    · simp only [fixAll, fixUnchecked, setBellUnchecked]
      rw [setIdx_of_lt _ _ _ hb]
      exact h1
    · rw [h3, hg]
      constructor
      · rintro ((⟨rfl, rfl⟩ | ⟨_, h⟩) | ⟨h, h'⟩)
        · exact .inr ⟨by simp, rfl⟩
        · exact .inl h
        · exact .inr ⟨by simp [h], h'⟩
      · rintro (h | ⟨h, h'⟩)
        · by_cases hi : i = b.index
          · left; left
            refine ⟨hi, Bell.ext' ?_⟩
            rw [hm i c h, hi]
          · exact .inl (.inr ⟨hi, h⟩)
        · rcases List.mem_cons.1 h with rfl | h
          · exact .inl (.inl ⟨h'.symm, rfl⟩)
          · exact .inr ⟨h, h'⟩

theorem empty_gives (s : Stage) (i : Nat) (c : Bell) : ¬ (Mask.empty s).Gives i c := by
  intro h
  have := List.mem_of_getElem? h
  simp [Mask.empty] at this

theorem fixAll_oob : ∀ (bs : List Bell) (m : Mask), (∃ b ∈ bs, m.bells.length ≤ b.index) →
    fixAll bs m = .error .index
  | [], m, h => by simp at h
  | b :: bs, m, h => by
    simp only [fixAll, fixUnchecked, setBellUnchecked, setIdx]
    by_cases hb : b.index < m.bells.length
    · rw [if_pos hb]
      simp only [Res.ok_bind, Res.pure_eq]
      apply fixAll_oob
      obtain ⟨c, hc, hl⟩ := h
      rcases List.mem_cons.1 hc with rfl | hc
      · omega
      · exact ⟨c, hc, by simpa using hl⟩
    · rw [if_neg hb]
      rfl

/-- `fix_bells` gives the mask matched by exactly the rows that keep all the given bells home. -/
theorem C37_fix_bells (s : Stage) (bs : List Bell) (h : ∀ b ∈ bs, b.index < s.numBells) :
    ∃ m, Mask.fixBells s bs = .ok m ∧
      ∀ r : Row, m.Matches r ↔ r.bells.length = s.numBells ∧ ∀ b ∈ bs, r.bells[b.index]? = some b := by
  obtain ⟨m, h1, h2, h3⟩ := fixAll_spec bs (Mask.empty s) (by simpa [Mask.empty] using h)
    (fun i c hc => absurd hc (empty_gives s i c))
  refine ⟨m, h1, fun r => ?_⟩
  unfold Matches
  rw [h2]
  simp only [Mask.empty, List.length_replicate]
  constructor
  · rintro ⟨hl, hm⟩
    exact ⟨hl.symm, fun b hb => hm _ _ ((h3 _ _).2 (.inr ⟨hb, rfl⟩))⟩
  · rintro ⟨hl, hm⟩
    refine ⟨hl.symm, fun i b hb => ?_⟩
    rcases (h3 i b).1 hb with hb' | ⟨hb', rfl⟩
    · exact absurd hb' (empty_gives s i b)
    · exact hm b hb'

example : Mask.fixBells ⟨4⟩ [⟨0⟩, ⟨2⟩] = .ok ⟨[some ⟨0⟩, none, some ⟨2⟩, none]⟩ := by decide

/-- `fix_bells` panics if a bell is outside the stage. -/
theorem C37_fix_bells_outside (s : Stage) (bs : List Bell) (h : ∃ b ∈ bs, s.numBells ≤ b.index) :
    Mask.fixBells s bs = .error .index :=
  fixAll_oob bs _ (by simpa [Mask.empty] using h)

example : ∃ b ∈ [(⟨0⟩ : Bell), ⟨7⟩], (⟨4⟩ : Stage).numBells ≤ b.index := ⟨⟨7⟩, by simp, by decide⟩

/-- `as_row` returns a row exactly when all places are given, and it is the row given. -/
theorem C37_as_row (m : Mask) (r : Row) :
    m.asRow = some r ↔ (∀ i < m.bells.length, ∃ b, m.Gives i b ∧ r.bells[i]? = some b) ∧
      r.bells.length = m.bells.length := by
  have key : ∀ (xs : List (Option Bell)) (bs : List Bell),
      (xs.all Option.isSome = true ∧ xs.filterMap id = bs) ↔ xs = bs.map some := by
    intro xs
    induction xs with
    | nil => intro bs; cases bs <;> simp
    | cons x xs ih =>
      intro bs
      cases x with
      | none => cases bs <;> simp
      | some c =>
        cases bs with
        | nil => simp
        | cons b bs =>
          have := ih bs
          simp only [List.all_cons, Option.isSome_some, Bool.true_and, List.filterMap_cons, id,
            List.cons.injEq, List.map_cons, Option.some.injEq]
          rw [← this]
          tauto
  have h1 : m.asRow = some r ↔ m.bells = r.bells.map some := by
    rw [← key]
    unfold asRow
    by_cases h : m.bells.all Option.isSome = true
    · rw [if_pos h]
      simp only [Option.some.injEq]
      constructor
      · rintro rfl; exact ⟨h, rfl⟩
      · rintro ⟨_, h'⟩; exact Row.ext' h'
    · rw [if_neg h]
      simp [h]
  rw [h1]
  constructor
  · intro h
    refine ⟨fun i hi => ?_, by rw [h]; simp⟩
    have hi' : i < r.bells.length := by rw [h] at hi; simpa using hi
    refine ⟨r.bells[i], ?_, by simp [hi']⟩
    unfold Gives
    rw [h]
    simp [hi']
  · rintro ⟨h, hl⟩
    apply List.ext_getElem?
    intro i
    by_cases hi : i < m.bells.length
    · obtain ⟨b, h1, h2⟩ := h i hi
      rw [h1, List.getElem?_map, h2]
      rfl
    · rw [List.getElem?_eq_none (by omega), List.getElem?_eq_none (by simp; omega)]

example : (Mask.parse "213".toList).asRow = some ⟨[⟨1⟩, ⟨0⟩, ⟨2⟩]⟩ ∧ exampleMask.asRow = none := by
  decide

/-- On a well-formed mask, the row returned by `as_row` is a valid row, and the only row matched. -/
theorem C37_as_row_valid (m : Mask) (hm : m.WellFormed) (r : Row) (h : m.asRow = some r) :
    r.Valid ∧ ∀ r', m.Matches r' ↔ r' = r := by
  obtain ⟨hg, hl⟩ := (C37_as_row m r).1 h
  have hall : ∀ r', m.Matches r' ↔ r' = r := by
    intro r'
    unfold Matches
    constructor
    · rintro ⟨hl', h'⟩
      apply Row.ext'
      apply List.ext_getElem?
      intro i
      by_cases hi : i < m.bells.length
      · obtain ⟨b, h1, h2⟩ := hg i hi
        rw [h2, h' i b h1]
      · rw [List.getElem?_eq_none (by omega), List.getElem?_eq_none (by omega)]
    · rintro rfl
      refine ⟨hl.symm, fun i b hb => ?_⟩
      obtain ⟨c, h1, h2⟩ := hg i (gives_lt hb)
      rw [h2, gives_unique h1 hb]
  obtain ⟨r', hv, hm'⟩ := hm.exists_row
  rw [(hall r').1 hm'] at hv
  exact ⟨hv, hall⟩

example : (⟨[some ⟨1⟩, some ⟨0⟩]⟩ : Mask).WellFormed :=
  wellFormed_of_row (r := ⟨[⟨1⟩, ⟨0⟩]⟩) (by decide) ((C37_full_row ⟨[⟨1⟩, ⟨0⟩]⟩ _).2 rfl)

/-- `unspecified_places` lists the open places in ascending order, `is_empty` says that all places are
open, and `place_of` finds the place at which the bell is given. -/
theorem C37_places (m : Mask) :
    (m.unspecifiedPlaces.Pairwise (· < ·) ∧ ∀ i, i ∈ m.unspecifiedPlaces ↔ m.Open i) ∧
    (m.isEmpty = true ↔ ∀ i < m.bells.length, m.Open i) ∧
    (m.WellFormed → ∀ b i, m.placeOf b = some i ↔ m.Gives i b) := by
  refine ⟨⟨?_, fun i => ?_⟩, ?_, fun hm b i => ?_⟩
  · unfold unspecifiedPlaces
    have h2 : (m.bells.zipIdx.map (fun p => p.2)).Pairwise (· < ·) := by
      rw [show (fun p : Option Bell × Nat => p.2) = Prod.snd from rfl, List.zipIdx_map_snd]
      exact List.pairwise_lt_range'
    exact h2.sublist (List.filter_sublist.map _)
  · unfold unspecifiedPlaces Open
    simp only [List.mem_map, List.mem_filter]
    constructor
    · rintro ⟨⟨x, j⟩, ⟨h1, h2⟩, rfl⟩
      rw [List.mem_zipIdx_iff_getElem?] at h1
      simp only [Option.isNone_iff_eq_none] at h2
      subst h2
      simpa using h1
    · intro h
      exact ⟨(none, i), ⟨by rw [List.mem_zipIdx_iff_getElem?]; simpa using h, rfl⟩, rfl⟩
  · unfold Mask.isEmpty Open
    rw [List.all_eq_true]
    constructor
    · intro h i hi
      have := h _ (List.getElem_mem hi)
      rw [List.getElem?_eq_getElem hi, Option.isNone_iff_eq_none.1 this]
    · intro h x hx
      obtain ⟨i, hi⟩ := List.getElem?_of_mem hx
      obtain ⟨hlt, _⟩ := List.getElem?_eq_some_iff.1 hi
      rw [h i hlt] at hi
      rw [← Option.some.inj hi]
      rfl
  · unfold Mask.placeOf
    constructor
    · exact findIdx?_gives
    · intro h
      cases hf : m.bells.findIdx? (fun x => x == some b) with
      | none => exact absurd h (findIdx?_none hf i)
      | some p => rw [hm.2.1 _ _ _ h (findIdx?_gives hf)]

example : exampleMask.unspecifiedPlaces = [0, 2] ∧ exampleMask.placeOf ⟨1⟩ = some 1 := by decide

/-! ## C38 -/

/-- Well-formed masks are exactly those matched by some row. -/
theorem C38_well_formed_iff (m : Mask) : m.WellFormed ↔ ∃ r : Row, r.Valid ∧ m.Matches r :=
  wellFormed_iff

example : ∃ m : Mask, m.WellFormed := ⟨_, exampleMask_wf⟩

/-- `is_compatible_with` holds exactly when some row is matched by both masks. -/
theorem C38_compatible (a b : Mask) (ha : a.WellFormed) (hb : b.WellFormed) :
    ∃ v, a.isCompatibleWith b = .ok v ∧
      (v = true ↔ ∃ r : Row, r.Valid ∧ a.Matches r ∧ b.Matches r) := by
  obtain ⟨v, hv, hiff⟩ := isCompatibleWith_eq ha hb.1
  refine ⟨v, hv, hiff.trans ⟨fun h => ?_, ?_⟩⟩
  · rcases combine_eq ha hb with ⟨hc, _⟩ | ⟨hl, _, m, _, hwf, hml, hg⟩
    · exact absurd h hc
    · obtain ⟨r, hr, hm⟩ := hwf.exists_row
      exact ⟨r, hr, (matches_and hl hml hg r).1 hm⟩
  · rintro ⟨r, hr, ⟨hl1, h1⟩, ⟨hl2, h2⟩⟩
    refine ⟨by omega, fun i c d hc hd => ?_, fun i j c hc hd => ?_⟩
    · have e1 := h1 i c hc
      have e2 := h2 i d hd
      rw [e1] at e2
      exact Option.some.inj e2
    · have hi : i < r.bells.length := hl1 ▸ gives_lt hc
      exact (List.getElem?_inj hi hr.nodup).1 ((h1 i c hc).trans (h2 j c hd).symm)

example : exampleMask.isCompatibleWith ⟨[some ⟨2⟩, none, none]⟩ = .ok true ∧
    exampleMask.isCompatibleWith ⟨[some ⟨1⟩, none, none]⟩ = .ok false := by decide

/-- `combine` matches exactly the rows matched by both masks, and is `None` exactly when there are no
such rows; the result is well-formed. -/
theorem C38_combine (a b : Mask) (ha : a.WellFormed) (hb : b.WellFormed) :
    ∃ o, a.combine b = .ok o ∧
      (o = none ↔ ¬ ∃ r : Row, r.Valid ∧ a.Matches r ∧ b.Matches r) ∧
      ∀ m, o = some m → m.WellFormed ∧ ∀ r : Row, m.Matches r ↔ a.Matches r ∧ b.Matches r := by
  obtain ⟨v, hv, hiff⟩ := C38_compatible a b ha hb
  obtain ⟨v', hv', hiff'⟩ := isCompatibleWith_eq ha hb.1
  have : v = v' := by rw [hv] at hv'; exact Except.ok.inj hv'
  subst this
  rcases combine_eq ha hb with ⟨hc, ho⟩ | ⟨hl, hag, m, ho, hwf, hml, hg⟩
  · refine ⟨none, ho, ?_, by simp⟩
    simp only [true_iff]
    exact fun h => hc (hiff'.1 (hiff.2 h))
  · refine ⟨some m, ho, ?_, fun m' hm' => ?_⟩
    · simp only [reduceCtorEq, false_iff, not_not]
      exact hiff.1 (hiff'.2 ⟨hl, hag⟩)
    · cases hm'
      exact ⟨hwf, matches_and hl hml hg⟩

example : exampleMask.combine ⟨[some ⟨2⟩, none, none]⟩ = .ok (some ⟨[some ⟨2⟩, some ⟨1⟩, none]⟩) := by
  decide

/-- If `is_subset_of` answers yes, every row matched by the first mask is matched by the second. -/
theorem C38_subset_sound (a b : Mask) (ha : a.bells ≠ []) (hb : b.bells ≠ []) :
    a.isSubsetOf b = .ok true → ∀ r : Row, a.Matches r → b.Matches r := by
  intro h r hr
  obtain ⟨v, hv, hiff⟩ := isSubsetOf_eq ha hb
  rw [h] at hv
  obtain ⟨hl, hg⟩ := hiff.1 (Except.ok.inj hv).symm
  exact ⟨by rw [← hl]; exact hr.1, fun i c hc => hr.2 i c (hg i c hc)⟩

example : exampleMask.isSubsetOf ⟨[none, none, none]⟩ = .ok true := by decide

/-- `is_subset_of` is the inclusion of the sets of rows, except that it says no if the second mask gives a
bell for the only open place of the first. -/
theorem C38_subset_exact (a b : Mask) (ha : a.WellFormed) (hb : b.WellFormed) :
    ∃ v, a.isSubsetOf b = .ok v ∧
      (v = true ↔ (∀ r : Row, r.Valid → a.Matches r → b.Matches r) ∧
        ¬ ∃ i, a.Open i ∧ (∀ j, a.Open j → j = i) ∧ ∃ c, b.Gives i c) := by
  obtain ⟨v, hv, hiff⟩ := isSubsetOf_eq ha.1 hb.1
  refine ⟨v, hv, ?_, ?_⟩
  · intro h
    subst h
    refine ⟨fun r _ hr => C38_subset_sound a b ha.1 hb.1 hv r hr, ?_⟩
    rintro ⟨i, ho, -, c, hc⟩
    exact not_open_of_gives ((hiff.1 rfl).2 i c hc) ho
  · rintro ⟨h, hone⟩
    rw [hiff]
    obtain ⟨r, hr, hm⟩ := ha.exists_row
    have hl : a.bells.length = b.bells.length := hm.1.trans (h r hr hm).1.symm
    refine ⟨hl, fun i c hc => ?_⟩
    have hi : i < a.bells.length := hl ▸ gives_lt hc
    rcases gives_or_open hi with ⟨d, hd⟩ | ho
    · have e1 := hm.2 i d hd
      have e2 := (h r hr hm).2 i c hc
      rw [e1] at e2
      rwa [← Option.some.inj e2]
    · obtain ⟨j, hji, hj⟩ : ∃ j, j ≠ i ∧ a.Open j := by
        by_contra hcon
        exact hone ⟨i, ho, fun j hj => by_contra fun hji => hcon ⟨j, hji, hj⟩, c, hc⟩
      have hjl := open_lt hj
      obtain ⟨n, hn, σ, rfl⟩ := Row.valid_iff_exists_perm.1 hr
      have hln : a.bells.length = n := by simpa using hm.1
      have hln' : b.bells.length = n := by omega
      let fi : Fin n := ⟨i, hln ▸ hi⟩
      let fj : Fin n := ⟨j, hln ▸ hjl⟩
      have hm' : a.Matches (Row.ofPerm (σ * Equiv.swap fi fj)) := by
        rw [matches_ofPerm hln] at hm ⊢
        intro k d hd
        have hki : k ≠ fi := by
          rintro rfl
          exact not_open_of_gives hd ho
        have hkj : k ≠ fj := by
          rintro rfl
          exact not_open_of_gives hd hj
        rw [Equiv.Perm.mul_apply, Equiv.swap_apply_of_ne_of_ne hki hkj]
        exact hm k d hd
      have e1 := (matches_ofPerm hln' σ).1 (h _ hr hm) fi c hc
      have e2 := (matches_ofPerm hln' _).1 (h _ (Row.ofPerm_valid hn _) hm') fi c hc
      rw [Equiv.Perm.mul_apply, Equiv.swap_apply_left] at e2
      have : fi = fj := σ.injective (Fin.ext (e1.trans e2.symm))
      exact absurd (congrArg Fin.val this).symm hji

example := C38_subset_exact _ _ exampleMask_wf exampleMask_wf

/-- `is_subset_of` is the inclusion of the sets of rows, for every first mask which does not have
exactly one open place.  (Missing: masks with exactly one open place, of which it is false.) -/
theorem C38_subset_partial (a b : Mask) (ha : a.WellFormed) (hb : b.WellFormed)
    (hopen : ∀ i, a.Open i → ∃ j, j ≠ i ∧ a.Open j) :
    ∃ v, a.isSubsetOf b = .ok v ∧
      (v = true ↔ ∀ r : Row, r.Valid → a.Matches r → b.Matches r) := by
  obtain ⟨v, hv, hiff⟩ := C38_subset_exact a b ha hb
  refine ⟨v, hv, fun h => (hiff.1 h).1, fun h => hiff.2 ⟨h, ?_⟩⟩
  rintro ⟨i, ho, hone, -⟩
  obtain ⟨j, hji, hj⟩ := hopen i ho
  exact hji (hone j hj)

example : ∀ i, exampleMask.Open i → ∃ j, j ≠ i ∧ exampleMask.Open j := by
  rw [exampleMask_eq]
  intro i hi
  have hlt := open_lt hi
  simp only [List.length_cons, List.length_nil] at hlt
  by_cases h : i = 0
  · exact ⟨2, by omega, rfl⟩
  · exact ⟨0, by omega, rfl⟩

/-- `is_subset_of` misses inclusions: `12x` and `xx3` are matched by the same, single row, but the first
is reported not to be a subset of the second. -/
theorem C38_subset_false :
    ¬ ∀ a b : Mask, a.WellFormed → b.WellFormed →
      (a.isSubsetOf b = .ok true ↔ ∀ r : Row, r.Valid → a.Matches r → b.Matches r) := by
  intro h
  have ha : (⟨[some ⟨0⟩, some ⟨1⟩, none]⟩ : Mask).Matches ⟨[⟨0⟩, ⟨1⟩, ⟨2⟩]⟩ := by
    simp only [matches_cons]
    exact ⟨by simp, by simp, by simp, rfl, by simp [Gives]⟩
  have hb : (⟨[none, none, some ⟨2⟩]⟩ : Mask).Matches ⟨[⟨0⟩, ⟨1⟩, ⟨2⟩]⟩ := by
    simp only [matches_cons]
    exact ⟨by simp, by simp, by simp, rfl, by simp [Gives]⟩
  have hv : (⟨[⟨0⟩, ⟨1⟩, ⟨2⟩]⟩ : Row).Valid := by decide
  have := (h _ _ (wellFormed_of_row hv ha) (wellFormed_of_row hv hb)).2 (fun r hr hm => by
    obtain ⟨n, hn, σ, rfl⟩ := Row.valid_iff_exists_perm.1 hr
    have hln : 3 = n := by simpa using hm.1
    subst hln
    rw [matches_ofPerm rfl] at hm ⊢
    have e0 : σ 0 = 0 := Fin.ext (hm 0 ⟨0⟩ rfl)
    have e1 : σ 1 = 1 := Fin.ext (hm 1 ⟨1⟩ rfl)
    intro i c hc
    have h2 : i = 2 ∧ c = ⟨2⟩ := by
      fin_cases i <;> simp [Gives] at hc
      exact ⟨rfl, hc.symm⟩
    obtain ⟨rfl, rfl⟩ := h2
    have n0 : σ 2 ≠ 0 := fun e => by
      have := σ.injective (e.trans e0.symm); revert this; decide
    have n1 : σ 2 ≠ 1 := fun e => by
      have := σ.injective (e.trans e1.symm); revert this; decide
    revert n0 n1
    generalize σ 2 = x
    revert x
    decide)
  revert this
  decide

/-! ## C39 -/

/-- `m * t` matches `r * t` exactly when `m` matches `r`. -/
theorem C39_mask_mul_row (m : Mask) (hm : m.WellFormed) (t r : Row) (ht : t.Valid) (hr : r.Valid)
    (hmt : t.bells.length = m.bells.length) (hrt : r.bells.length = m.bells.length) :
    ∃ m', m.mulRow t = .ok m' ∧ m'.WellFormed ∧ (m'.Matches (Row.comp r t) ↔ m.Matches r) := by
  obtain ⟨n, hn, τ, rfl⟩ := Row.valid_iff_exists_perm.1 ht
  have hln : m.bells.length = n := by simpa using hmt.symm
  obtain ⟨σ, rfl⟩ := hr.exists_perm' (n := n) (by omega)
  obtain ⟨m', h1, h2, h3⟩ := mulRow_eq hn hln τ
  have key : ∀ σ : Equiv.Perm (Fin n), m'.Matches (Row.ofPerm (σ * τ)) ↔ m.Matches (Row.ofPerm σ) := by
    intro σ
    rw [matches_ofPerm h2, matches_ofPerm hln]
    constructor
    · intro h i b hb
      have := h (τ.symm i) b ((h3 _ _).2 (by simpa using hb))
      simpa using this
    · intro h i b hb
      simpa using h (τ i) b ((h3 i b).1 hb)
  refine ⟨m', h1, ?_, ?_⟩
  · obtain ⟨r, hr, hmr⟩ := hm.exists_row
    obtain ⟨ρ, rfl⟩ := hr.exists_perm' (n := n) (by rw [← hmr.1]; exact hln)
    exact wellFormed_of_row (Row.ofPerm_valid hn _) ((key ρ).2 hmr)
  · rw [Row.comp_ofPerm]
    exact key σ

example : exampleMask.mulRow ⟨[⟨1⟩, ⟨2⟩, ⟨0⟩]⟩ = .ok ⟨[some ⟨1⟩, none, none]⟩ := by decide

/-- `t * m` matches `t * r` exactly when `m` matches `r`. -/
theorem C39_row_mul_mask (m : Mask) (hm : m.WellFormed) (t r : Row) (ht : t.Valid) (hr : r.Valid)
    (hmt : t.bells.length = m.bells.length) (hrt : r.bells.length = m.bells.length) :
    ∃ m', Mask.rowMul t m = .ok m' ∧ m'.WellFormed ∧ (m'.Matches (Row.comp t r) ↔ m.Matches r) := by
  obtain ⟨n, hn, τ, rfl⟩ := Row.valid_iff_exists_perm.1 ht
  have hln : m.bells.length = n := by simpa using hmt.symm
  obtain ⟨σ, rfl⟩ := hr.exists_perm' (n := n) (by omega)
  obtain ⟨m', h1, h2, h3⟩ := rowMul_eq hn hln (fun i b hb => hln ▸ hm.2.2 i b hb) τ
  have key : ∀ σ : Equiv.Perm (Fin n), m'.Matches (Row.ofPerm (τ * σ)) ↔ m.Matches (Row.ofPerm σ) := by
    intro σ
    rw [matches_ofPerm h2, matches_ofPerm hln]
    constructor
    · intro h i b hb
      have hbn : b.index < n := hln ▸ hm.2.2 i b hb
      have := h i ⟨(τ ⟨b.index, hbn⟩).val⟩ ((h3 _ _).2 ⟨⟨b.index, hbn⟩, hb, rfl⟩)
      simp only [Equiv.Perm.mul_apply] at this
      have := τ.injective (Fin.ext this)
      rw [this]
    · intro h i b hb
      obtain ⟨c, hc, rfl⟩ := (h3 i b).1 hb
      have := h i _ hc
      simp only [Equiv.Perm.mul_apply]
      rw [show σ i = c from Fin.ext this]
  refine ⟨m', h1, ?_, ?_⟩
  · obtain ⟨r, hr, hmr⟩ := hm.exists_row
    obtain ⟨ρ, rfl⟩ := hr.exists_perm' (n := n) (by rw [← hmr.1]; exact hln)
    exact wellFormed_of_row (Row.ofPerm_valid hn _) ((key ρ).2 hmr)
  · rw [Row.comp_ofPerm]
    exact key σ

example : Mask.rowMul ⟨[⟨1⟩, ⟨2⟩, ⟨0⟩]⟩ exampleMask = .ok ⟨[none, some ⟨2⟩, none]⟩ := by decide

/-- Both products panic exactly when the stages differ (for well-formed masks). -/
theorem C39_stage_mismatch (m : Mask) (hm : m.WellFormed) (t : Row) (ht : t.Valid)
    (h : t.bells.length ≠ m.bells.length) :
    m.mulRow t = .error .assert ∧ Mask.rowMul t m = .error .assert := by
  unfold mulRow rowMul
  rw [stage_of_ne hm.1, ht.stage_eq]
  have h1 : ((⟨m.bells.length⟩ : Stage) == ⟨t.bells.length⟩) = false := by
    simpa using fun e => h e.symm
  have h2 : ((⟨t.bells.length⟩ : Stage) == ⟨m.bells.length⟩) = false := by
    simpa using h
  simp only [Res.ok_bind]
  rw [h1, h2]
  exact ⟨rfl, rfl⟩

example : ((Row.rounds ⟨4⟩).bells.length ≠ exampleMask.bells.length) := by decide

/-! ## C40 -/

/-- `set_bell` rejects a bell placed elsewhere, without changing the mask; otherwise it changes exactly
the given place.  It panics exactly when the bell is not yet in the mask and the place does not exist. -/
theorem C40_set_bell (m : Mask) (hm : m.WellFormed) (b : Bell) (p : Nat) :
    ((∃ q, q ≠ p ∧ m.Gives q b) → m.setBell b p = .ok (m, .error .mk)) ∧
    (m.Gives p b → m.setBell b p = .ok (m, .ok ())) ∧
    ((∀ q, ¬ m.Gives q b) → p < m.bells.length →
      ∃ m', m.setBell b p = .ok (m', .ok ()) ∧ m'.bells.length = m.bells.length ∧ m'.Gives p b ∧
        ∀ i, i ≠ p → m'.bells[i]? = m.bells[i]?) ∧
    ((∀ q, ¬ m.Gives q b) → m.bells.length ≤ p → m.setBell b p = .error .index) := by
  have hfind : ∀ q, m.Gives q b → m.bells.findIdx? (fun x => x == some b) = some q := by
    intro q hq
    exact ((C37_places m).2.2 hm b q).2 hq
  have hnone : (∀ q, ¬ m.Gives q b) → m.bells.findIdx? (fun x => x == some b) = none := by
    intro h
    cases hf : m.bells.findIdx? (fun x => x == some b) with
    | none => rfl
    | some q => exact absurd (findIdx?_gives hf) (h q)
  refine ⟨?_, ?_, ?_, ?_⟩
  · rintro ⟨q, hq, hg⟩
    simp only [setBell, hfind q hg, if_neg hq]
  · intro hg
    simp only [setBell, hfind p hg, if_true]
  · intro h hp
    refine ⟨⟨m.bells.set p (some b)⟩, ?_, by simp, ?_, ?_⟩
    · simp only [setBell, hnone h, setBellUnchecked, setIdx_of_lt _ _ _ hp]
      rfl
    · simp [Gives, hp]
    · intro i hi
      simp [Ne.symm hi]
  · intro h hp
    simp only [setBell, hnone h, setBellUnchecked, setIdx, if_neg (show ¬ p < m.bells.length by omega)]
    rfl

example := C40_set_bell _ exampleMask_wf ⟨0⟩ 2

/-- `fix` puts a bell in its home place: it rejects a bell placed elsewhere, without changing the mask;
otherwise the bell is at home afterwards, and nothing else has changed.  It panics exactly when the bell is
not yet in the mask and not of the stage. -/
theorem C40_fix (m : Mask) (hm : m.WellFormed) (b : Bell) :
    ((∃ q, q ≠ b.index ∧ m.Gives q b) → m.fix b = .ok (m, .error .mk)) ∧
    (m.Gives b.index b → m.fix b = .ok (m, .ok ())) ∧
    ((∀ q, ¬ m.Gives q b) → b.index < m.bells.length →
      ∃ m', m.fix b = .ok (m', .ok ()) ∧ m'.bells.length = m.bells.length ∧ m'.Gives b.index b ∧
        ∀ i, i ≠ b.index → m'.bells[i]? = m.bells[i]?) ∧
    ((∀ q, ¬ m.Gives q b) → m.bells.length ≤ b.index → m.fix b = .error .index) :=
  C40_set_bell m hm b b.index

example : (exampleMask.setBell ⟨1⟩ 0 = .ok (exampleMask, .error .mk)) ∧
    exampleMask.setBell ⟨1⟩ 1 = .ok (exampleMask, .ok ()) ∧
    exampleMask.setBell ⟨0⟩ 2 = .ok (⟨[none, some ⟨1⟩, some ⟨0⟩]⟩, .ok ()) := by decide

/-- Calling `set_bell` for each pair of bell and place in turn, ignoring its answers. -/
def setBells (m : Mask) (calls : List (Bell × Nat)) : Res Mask :=
  calls.foldlM (fun m c => do
    let p ← m.setBell c.1 c.2
    return p.1) m

/-- Every history of `set_bell` (and hence `fix`) calls with bells and places of the stage keeps a mask
well-formed and of its stage, without panicking.  (Missing: bells outside the stage, which are accepted,
and places outside the stage, which panic.) -/
theorem C40_history_partial (m : Mask) (hm : m.WellFormed) (calls : List (Bell × Nat))
    (hc : ∀ c ∈ calls, c.1.index < m.bells.length ∧ c.2 < m.bells.length) :
    ∃ m', setBells m calls = .ok m' ∧ m'.WellFormed ∧ m'.bells.length = m.bells.length := by
  induction calls generalizing m with
  | nil => exact ⟨m, rfl, hm, rfl⟩
  | cons c calls ih =>
    obtain ⟨b, p⟩ := c
    obtain ⟨hb, hp⟩ := hc (b, p) (by simp)
    simp only at hb hp
    obtain ⟨h1, h2, h3, -⟩ := C40_set_bell m hm b p
    have step : ∃ m' v, m.setBell b p = .ok (m', v) ∧ m'.WellFormed ∧
        m'.bells.length = m.bells.length := by
      by_cases hq : ∃ q, q ≠ p ∧ m.Gives q b
      · exact ⟨m, _, h1 hq, hm, rfl⟩
      · by_cases hg : m.Gives p b
        · exact ⟨m, _, h2 hg, hm, rfl⟩
        · have hno : ∀ q, ¬ m.Gives q b := by
            intro q hq'
            by_cases hqp : q = p
            · exact hg (hqp ▸ hq')
            · exact hq ⟨q, hqp, hq'⟩
          obtain ⟨m', e1, e2, e3, e4⟩ := h3 hno hp
          refine ⟨m', _, e1, ⟨?_, ?_, ?_⟩, e2⟩
          · intro h
            rw [h] at e2
            simp at e2
            omega
          · have hback : ∀ i c, m'.Gives i c → (i = p ∧ c = b) ∨ (i ≠ p ∧ m.Gives i c) := by
              intro i c hic
              by_cases hi : i = p
              · subst hi
                exact .inl ⟨rfl, gives_unique hic e3⟩
              · refine .inr ⟨hi, ?_⟩
                unfold Gives at *
                rwa [← e4 i hi]
            intro i j c hi hj
            rcases hback i c hi with ⟨rfl, rfl⟩ | ⟨_, hi'⟩ <;> rcases hback j _ hj with ⟨rfl, hcb⟩ | ⟨_, hj'⟩
            · rfl
            · exact absurd hj' (hno j)
            · subst hcb; exact absurd hi' (hno i)
            · exact hm.2.1 _ _ _ hi' hj'
          · intro i c hic
            rw [e2]
            by_cases hi : i = p
            · subst hi
              rw [gives_unique hic e3]
              exact hb
            · unfold Gives at *
              rw [e4 i hi] at hic
              exact hm.2.2 i c hic
    obtain ⟨m', v, e1, e2, e3⟩ := step
    obtain ⟨m'', f1, f2, f3⟩ := ih m' e2 (fun c hc' => by rw [e3]; exact hc c (by simp [hc']))
    refine ⟨m'', ?_, f2, by omega⟩
    unfold setBells at *
    rw [List.foldlM_cons]
    simp only [e1, Res.ok_bind, Res.pure_eq]
    exact f1

example : setBells exampleMask [(⟨0⟩, 2), (⟨1⟩, 0), (⟨2⟩, 0)] = .ok ⟨[some ⟨2⟩, some ⟨1⟩, some ⟨0⟩]⟩ := by
  decide

/-- `full_row`, `empty` and `fix_bells` give well-formed masks of the right stage.  (Missing: `parse`,
which does not; and bells outside the stage, for which `fix_bells` panics.) -/
theorem C40_constructors_partial :
    (∀ r : Row, r.Valid → (Mask.fullRow r).WellFormed) ∧
    (∀ s : Stage, s.Valid → (Mask.empty s).WellFormed) ∧
    ∀ s : Stage, s.Valid → ∀ bs : List Bell, (∀ b ∈ bs, b.index < s.numBells) →
      ∃ m, Mask.fixBells s bs = .ok m ∧ m.WellFormed := by
  refine ⟨fun r hr => ?_, fun s hs => ?_, fun s hs bs hb => ?_⟩
  · exact wellFormed_of_row hr ((C37_full_row r r).2 rfl)
  · exact wellFormed_of_row (Row.rounds_valid hs) ((C37_empty s _).2 (by simp [Row.rounds]))
  · obtain ⟨m, h1, h2⟩ := C37_fix_bells s bs hb
    refine ⟨m, h1, wellFormed_of_row (Row.rounds_valid hs) ((h2 _).2 ⟨by simp [Row.rounds], ?_⟩)⟩
    intro b hb'
    simp [Row.rounds, hb b hb', Bell.fromIndex]

example : (Row.rounds ⟨3⟩).Valid ∧ (⟨3⟩ : Stage).Valid := by decide

/-- A parsed mask is well-formed exactly when some character means something, no bell is named twice and
all bells are in the stage. -/
theorem C40_parse_partial (s : List Char) :
    (Mask.parse s).WellFormed ↔
      Mask.parse s ≠ ⟨[]⟩ ∧ (s.filterMap Bell.fromName).Nodup ∧
        ∀ b ∈ s.filterMap Bell.fromName, b.index < (Mask.parse s).bells.length := by
  have hgiven : (Mask.parse s).bells.filterMap id = s.filterMap Bell.fromName := by
    unfold Mask.parse
    simp only
    rw [List.filterMap_filterMap]
    congr 1
    funext c
    unfold parseChar
    by_cases hc : c = 'x' ∨ c = 'X' ∨ c = '.'
    · rw [if_pos hc]
      rcases hc with rfl | rfl | rfl <;> decide
    · rw [if_neg hc]
      cases Bell.fromName c <;> rfl
  rw [← hgiven]
  rw [wellFormed_iff_given]
  simp only [ne_eq, Mask.ext_iff']

/-- What `parse` makes of a text, character by character: `x`, `X` and `.` leave a place open, the name of
a bell (see C01) gives that bell, and every other character is ignored. -/
theorem C40_parse_text (s : List Char) (c : Char) :
    Mask.parse [] = ⟨[]⟩ ∧
    (c ∈ ['x', 'X', '.'] → (Mask.parse (s ++ [c])).bells = (Mask.parse s).bells ++ [none]) ∧
    (∀ b, Bell.fromName c = some b →
      (Mask.parse (s ++ [c])).bells = (Mask.parse s).bells ++ [some b]) ∧
    (c ∉ ['x', 'X', '.'] → Bell.fromName c = none → Mask.parse (s ++ [c]) = Mask.parse s) := by
  refine ⟨rfl, ?_, ?_, ?_⟩
  · intro h
    have h' : c = 'x' ∨ c = 'X' ∨ c = '.' := by simpa using h
    simp [Mask.parse, parseChar, h']
  · intro b hb
    have h' : ¬ (c = 'x' ∨ c = 'X' ∨ c = '.') := by
      rintro (rfl | rfl | rfl)
      · exact absurd hb (by decide +revert)
      · exact absurd hb (by decide +revert)
      · exact absurd hb (by decide +revert)
    simp [Mask.parse, parseChar, h', hb]
  · intro h hb
    have h' : ¬ (c = 'x' ∨ c = 'X' ∨ c = '.') := by simpa using h
    simp [Mask.parse, parseChar, h', hb]

example : (Mask.parse "x 2X.".toList) = ⟨[none, some ⟨1⟩, none, none]⟩ := by decide

/-- The safe API does not keep masks well-formed: `parse` accepts a bell twice, and `as_row` then returns
a `Row` which is not a row; `parse` accepts the empty text, and asking for the stage then panics;
`set_bell` accepts bells outside the stage, and multiplying by a row then panics; and `set_bell` with a
place outside the stage panics. -/
theorem C40_false :
    ((Mask.parse "11".toList).asRow = some ⟨[⟨0⟩, ⟨0⟩]⟩ ∧ ¬ (⟨[⟨0⟩, ⟨0⟩]⟩ : Row).Valid) ∧
    ((Mask.parse "".toList).stage = .error .unwrap ∧
      (Mask.parse "".toList).matches_ (Row.rounds ⟨1⟩) = .error .unwrap) ∧
    ((Mask.empty ⟨2⟩).setBell ⟨4⟩ 0 = .ok (⟨[some ⟨4⟩, none]⟩, .ok ()) ∧
      Mask.rowMul (Row.rounds ⟨2⟩) ⟨[some ⟨4⟩, none]⟩ = .error .index) ∧
    (Mask.empty ⟨2⟩).setBell ⟨0⟩ 2 = .error .index := by
  decide

/-! ## C58 -/

/-- Writing a mask and parsing the text gives the mask back, if all its bells have one-character names
(which is the case for every well-formed mask of at most 33 bells). -/
theorem C58_text_round_trip (m : Mask) (h : ∀ i b, m.Gives i b → b.index < 33) :
    Mask.parse m.display = m := by
  have hname : ∀ i < 33, (Bell.name ⟨i⟩).filterMap parseChar = [some ⟨i⟩] := by decide
  obtain ⟨xs⟩ := m
  have hmem : ∀ b : Bell, some b ∈ xs → b.index < 33 := by
    intro b hb
    obtain ⟨i, hi⟩ := List.getElem?_of_mem hb
    exact h i b hi
  clear h
  unfold Mask.parse
  congr 1
  induction xs with
  | nil => rfl
  | cons x xs ih =>
    simp only [Mask.display, List.flatMap_cons, List.filterMap_append] at *
    rw [ih fun b hb => hmem b (by simp [hb])]
    cases x with
    | none => rfl
    | some b =>
      simp only
      rw [hname b.index (hmem b (by simp))]
      rfl

/-- In particular for well-formed masks of at most 33 bells. -/
theorem C58_well_formed (m : Mask) (hm : m.WellFormed) (h : m.bells.length ≤ 33) :
    Mask.parse m.display = m :=
  C58_text_round_trip m fun i b hb => by
    have := hm.2.2 i b hb
    omega

example : exampleMask.WellFormed ∧ exampleMask.bells.length ≤ 33 ∧
    exampleMask.display = "x2x".toList := ⟨exampleMask_wf, by decide, by decide⟩

/-- Beyond 33 bells it fails: the bell 34 is written `<34>`, which is read as the bells 3 and 4. -/
theorem C58_beyond_33 : Mask.parse (⟨[some ⟨33⟩]⟩ : Mask).display = ⟨[some ⟨2⟩, some ⟨3⟩]⟩ := by
  decide

end Bellframe.Props
