import Verif.Proofs.Block
import Mathlib.Tactic.Ring

/-! # C26–C29: annotated blocks

`AnnotBlock.ofPerms σs l annots` is the block with rows `σs`, left-over row `l` and annotations
`annots`; by `C26_wellFormed_iff` those with as many annotations as rows are exactly the blocks that
satisfy the block invariant. -/

namespace Bellframe.Props

open Utils (Bound)

variable {A : Type}

/-! ## C26: the block invariant -/

/-- The blocks satisfying the invariant are those given by `len` rows, a left-over row and `len`
annotations. -/
theorem C26_wellFormed_iff (b : AnnotBlock A) : b.WellFormed ↔
    ∃ n, 0 < n ∧ ∃ (σs : List (Equiv.Perm (Fin n))) (l : Equiv.Perm (Fin n)) (annots : List A),
      σs.length = annots.length ∧ b = .ofPerms σs l annots := by
  constructor
  · intro h; exact h.cases
  · rintro ⟨n, hn, σs, l, annots, h, rfl⟩
    exact AnnotBlock.ofPerms_wellFormed hn h

/-- All constructors give blocks satisfying the invariant. -/
theorem C26_constructors (dflt : A) (f : Nat → A) (s : Stage) (rows : List Row) (h : RowsOf s rows)
    (text : List Char) :
    (∃ b, (AnnotBlock.empty s : Res (AnnotBlock A)) = .ok b ∧ b.WellFormed ∧ b.len = 0 ∧
      b.leftoverRow = .ok (Row.rounds s)) ∧
    (rows ≠ [] → (∃ b, AnnotBlock.withDefaultAnnots dflt (.ofRows s rows) = .ok b ∧ b.WellFormed ∧
        b.rows = .ofRows s rows ∧ b.annots = List.replicate (rows.length - 1) dflt) ∧
      (∃ b, AnnotBlock.withAnnotsFromIndices (.ofRows s rows) f = .ok (some b) ∧ b.WellFormed ∧
        b.rows = .ofRows s rows ∧ b.annots = (List.range (rows.length - 1)).map f)) ∧
    (rows = [] → AnnotBlock.withDefaultAnnots dflt (.ofRows s rows) = .error .assert ∧
      AnnotBlock.withAnnotsFromIndices (.ofRows s rows) f = .ok none) ∧
    (∀ b, AnnotBlock.parse dflt text = .ok (.ok b) → b.WellFormed ∧
      SameStageVec.parse text = .ok (.ok b.rows) ∧ b.annots = List.replicate b.len dflt) := by
  have hdef : ∀ (s : Stage) (rows : List Row), RowsOf s rows → rows ≠ [] →
      AnnotBlock.withDefaultAnnots dflt (.ofRows s rows) =
        .ok ⟨.ofRows s rows, List.replicate (rows.length - 1) dflt⟩ ∧
      (AnnotBlock.mk (.ofRows s rows) (List.replicate (rows.length - 1) dflt)).WellFormed := by
    intro s rows h hne
    have hl : 1 ≤ rows.length := List.length_pos_iff.2 hne
    constructor
    · have hemp : rows.isEmpty = false := by cases rows <;> simp_all
      simp [AnnotBlock.withDefaultAnnots, SameStageVec.ofRows_isEmpty h, hemp, assertThat,
        SameStageVec.ofRows_len h, checkedSub, hl]
    · exact ⟨rows, h, rfl, by simp; omega⟩
  refine ⟨?_, ?_, ?_, ?_⟩
  · have hv := Row.rounds_valid h.1
    have hr : RowsOf s [Row.rounds s] := RowsOf.single hv (by simp [Row.rounds])
    refine ⟨⟨.ofRows s [Row.rounds s], []⟩, ?_, ⟨[Row.rounds s], hr, rfl, rfl⟩, rfl, ?_⟩
    · simp only [AnnotBlock.empty, SameStageVec.ofRows_fromRowBuf hv, Res.ok_bind]
      simp [Row.rounds]
    · simp [AnnotBlock.leftoverRow, SameStageVec.ofRows_last hr]
  · intro hne
    have hl : 1 ≤ rows.length := List.length_pos_iff.2 hne
    refine ⟨⟨_, (hdef s rows h hne).1, (hdef s rows h hne).2, rfl, rfl⟩,
      ⟨⟨.ofRows s rows, (List.range (rows.length - 1)).map f⟩, ?_, ?_, rfl, rfl⟩⟩
    · simp only [AnnotBlock.withAnnotsFromIndices, SameStageVec.ofRows_len h, Res.ok_bind,
        if_neg (show ¬ rows.length < 1 by omega)]
      rfl
    · exact ⟨rows, h, rfl, by simp; omega⟩
  · rintro rfl
    exact ⟨by simp [AnnotBlock.withDefaultAnnots, SameStageVec.ofRows_isEmpty h],
      by simp [AnnotBlock.withAnnotsFromIndices, SameStageVec.ofRows_len h]⟩
  · intro b hb
    unfold AnnotBlock.parse at hb
    by_cases ht : text = []
    · subst ht
      simp [show SameStageVec.parse [] = .error .unwrap from rfl] at hb
    · rcases hp : SameStageVec.parse text with e | (e | v)
      · rw [hp] at hb; cases hb
      · rw [hp] at hb; cases hb
      · have hv : ∃ st rows, rows ≠ [] ∧ RowsOf st rows ∧ v = .ofRows st rows := by
          unfold SameStageVec.parse at hp
          split at hp
          · cases hp
          · rename_i line lines _
            split at hp
            · cases hp
            · rename_i r hr
              have hrv := SameStageVec.parse_valid hr
              have hro : RowsOf ⟨r.bells.length⟩ [r] := RowsOf.single hrv rfl
              rw [SameStageVec.ofRows_fromRowBuf hrv] at hp
              simp only [Res.ok_bind] at hp
              rcases SameStageVec.parseLoop_ofRows lines 2 [r] hro with
                ⟨rows', -, h2, h3⟩ | ⟨_, _, _, _, e, -, -, -, h3, -⟩
              · rw [h3] at hp
                cases hp
                exact ⟨_, [r] ++ rows', by simp, hro.append h2, rfl⟩
              · rw [h3] at hp; cases hp
        obtain ⟨st, rs, hne, hrs, rfl⟩ := hv
        simp only [hp, Res.ok_bind, SameStageVec.ofRows_isEmpty hrs] at hb
        have hemp : rs.isEmpty = false := by cases rs <;> simp_all
        simp only [hemp, Bool.false_eq_true, if_false, (hdef st rs hrs hne).1, Res.ok_bind] at hb
        cases hb
        exact ⟨(hdef st rs hrs hne).2, rfl, by simp [AnnotBlock.len]⟩

example := C26_constructors (A := Nat) 0 (· + 1) ⟨3⟩ [⟨[⟨0⟩, ⟨1⟩, ⟨2⟩]⟩, ⟨[⟨1⟩, ⟨0⟩, ⟨2⟩]⟩] (by decide) "123\n213".toList

/-- One call on a block that may change it. -/
inductive BlockOp (A : Type) where
  | preMultiply (t : Row)
  | extend (other : AnnotBlock A)
  | extendRange (other : AnnotBlock A) (lo hi : Bound)
  | extendFromWithin (lo hi : Bound)
  | keepLeft (i : Nat)
  | keepRight (i : Nat)
  | setAnnot (i : Nat) (a : A)
  | mapAnnots (f : Nat → A → A)

/-- The block after the call. -/
def BlockOp.run (b : AnnotBlock A) : BlockOp A → Res (AnnotBlock A)
  | .preMultiply t => do let (b', _) ← b.preMultiply t; return b'
  | .extend other => do let (b', _) ← b.extend other; return b'
  | .extendRange other lo hi => do let (b', _) ← b.extendRange other lo hi; return b'
  | .extendFromWithin lo hi => b.extendFromWithin lo hi
  | .keepLeft i => do
    match ← b.split i with
    | some (x, _) => return x
    | none => return b
  | .keepRight i => do
    match ← b.split i with
    | some (_, y) => return y
    | none => return b
  | .setAnnot i a => .ok ((b.setAnnot i a).getD b)
  | .mapAnnots f => .ok (b.mapAnnotsWithIndex f)

/-- Valid arguments; `extend_range` only with a range that covers the whole other block. -/
def BlockOp.Ok : BlockOp A → Prop
  | .preMultiply t => t.Valid
  | .extend other => other.WellFormed
  | .extendRange other lo hi =>
    other.WellFormed ∧ Utils.clampRange lo hi other.len = (0, other.len)
  | _ => True

/-- A history of calls, stopping at the first panic. -/
def BlockOp.runs (b : AnnotBlock A) : List (BlockOp A) → Res (AnnotBlock A)
  | [] => .ok b
  | op :: ops => do
    let b' ← op.run b
    BlockOp.runs b' ops

/-- Extending keeps the invariant: general form used below. -/
theorem extendRange_full_wellFormed (b other : AnnotBlock A) (hb : b.WellFormed)
    (ho : other.WellFormed) (lo hi : Bound)
    (hr : Utils.clampRange lo hi other.len = (0, other.len)) :
    ∃ b' res, b.extendRange other lo hi = .ok (b', res) ∧ b'.WellFormed := by
  obtain ⟨n, hn, σs, l, annots, h1, rfl⟩ := hb.cases
  obtain ⟨k, hk, τs, m, bnnots, h2, rfl⟩ := ho.cases
  by_cases hnk : n = k
  · subst hnk
    have hl : (AnnotBlock.ofPerms τs m bnnots).len = bnnots.length := rfl
    rw [hl] at hr
    obtain ⟨f, hf⟩ : ∃ f, (τs ++ [m])[0]? = some f := by cases τs <;> simp
    refine ⟨_, _, AnnotBlock.extendRange_ofPerms hn σs l annots τs m bnnots lo hi 0 bnnots.length hr
      f hf (by omega) (by omega), ?_⟩
    exact ⟨_, RowsOf.perms hn _, rfl, by
      rw [List.drop_zero, List.take_of_length_le (by simp; omega)]
      simp; omega⟩
  · have : (AnnotBlock.ofPerms σs l annots).extendRange (.ofPerms τs m bnnots) lo hi =
        (AnnotBlock.ofPerms σs l annots).extend (.ofPerms τs m bnnots) := by
      unfold AnnotBlock.extend AnnotBlock.extendRange
      rw [hr]; rfl
    rw [this, AnnotBlock.extend_mismatch hn σs l annots hk hnk]
    exact ⟨_, _, rfl, AnnotBlock.ofPerms_wellFormed hn h1⟩

/-- Every finite history of block operations that does not panic keeps the invariant: exactly one
more row than annotations, at least one row, all rows valid and of the block's stage.
Missing: `extend_range` with a range that is not the whole other block, for which the property is
false (`C26_extend_range_breaks`, `C26_extend_range_exact`). -/
theorem C26_invariant_partial (b : AnnotBlock A) (hb : b.WellFormed) (ops : List (BlockOp A))
    (hops : ∀ op ∈ ops, op.Ok) (b' : AnnotBlock A) (h : BlockOp.runs b ops = .ok b') :
    b'.WellFormed := by
  induction ops generalizing b with
  | nil => cases h; exact hb
  | cons op ops ih =>
    have ih := fun b hb h => ih b hb (fun o ho => hops o (by simp [ho])) h
    have hop := hops op (by simp)
    suffices hstep : ∀ c, op.run b = .ok c → c.WellFormed by
      simp only [BlockOp.runs] at h
      cases hr : op.run b with
      | error e => rw [hr] at h; cases h
      | ok c =>
        rw [hr] at h
        exact ih c (hstep c hr) h
    intro c hc
    cases op with
    | preMultiply t =>
      obtain ⟨n, hn, σs, l, annots, h1, rfl⟩ := hb.cases
      by_cases ht : t.bells.length = n
      · obtain ⟨τ, rfl⟩ := Row.Valid.exists_perm' (r := t) hop ht
        simp only [BlockOp.run, AnnotBlock.preMultiply_ofPerms hn, Res.ok_bind] at hc
        cases hc
        exact AnnotBlock.ofPerms_wellFormed hn (by simpa using h1)
      · simp only [BlockOp.run, AnnotBlock.preMultiply_mismatch hn σs l annots t hop ht,
          Res.ok_bind] at hc
        cases hc
        exact AnnotBlock.ofPerms_wellFormed hn h1
    | extend other =>
      obtain ⟨b'', res, h1, h2⟩ := extendRange_full_wellFormed b other hb hop .unbounded .unbounded rfl
      simp only [BlockOp.run, AnnotBlock.extend, h1, Res.ok_bind] at hc
      cases hc
      exact h2
    | extendRange other lo hi =>
      obtain ⟨b'', res, h1, h2⟩ := extendRange_full_wellFormed b other hb hop.1 lo hi hop.2
      simp only [BlockOp.run, h1, Res.ok_bind] at hc
      cases hc
      exact h2
    | extendFromWithin lo hi =>
      obtain ⟨n, hn, σs, l, annots, h1, rfl⟩ := hb.cases
      simp only [BlockOp.run] at hc
      rcases hr : Utils.clampRange lo hi annots.length with ⟨a, z⟩
      by_cases hbad : z < a ∨ annots.length < z
      · obtain ⟨e, he⟩ := AnnotBlock.extendFromWithin_panics hn σs l annots h1 lo hi a z hr hbad
        rw [he] at hc
        cases hc
      · have hf : (σs ++ [l])[a]? = some ((σs ++ [l])[a]'(by simp; omega)) :=
          List.getElem?_eq_getElem _
        rw [AnnotBlock.extendFromWithin_ofPerms hn σs l annots h1 lo hi a z hr _ hf (by omega)
          (by omega)] at hc
        cases hc
        exact ⟨_, RowsOf.perms hn _, rfl, by simp; omega⟩
    | keepLeft i =>
      obtain ⟨n, hn, σs, l, annots, h1, rfl⟩ := hb.cases
      simp only [BlockOp.run, AnnotBlock.split_ofPerms hn σs l annots h1] at hc
      split at hc
      · cases hc
        exact AnnotBlock.ofPerms_wellFormed hn (by simp [h1])
      · cases hc
        exact AnnotBlock.ofPerms_wellFormed hn h1
    | keepRight i =>
      obtain ⟨n, hn, σs, l, annots, h1, rfl⟩ := hb.cases
      simp only [BlockOp.run, AnnotBlock.split_ofPerms hn σs l annots h1] at hc
      split at hc
      · cases hc
        exact AnnotBlock.ofPerms_wellFormed hn (by simp [h1])
      · cases hc
        exact AnnotBlock.ofPerms_wellFormed hn h1
    | setAnnot i a =>
      simp only [BlockOp.run, AnnotBlock.setAnnot] at hc
      obtain ⟨rows, h1, h2, h3⟩ := hb
      split at hc
      · cases hc
        exact ⟨rows, h1, h2, by simpa using h3⟩
      · cases hc
        exact ⟨rows, h1, h2, h3⟩
    | mapAnnots f =>
      obtain ⟨rows, h1, h2, h3⟩ := hb
      simp only [BlockOp.run, AnnotBlock.mapAnnotsWithIndex] at hc
      cases hc
      exact ⟨rows, h1, h2, by simpa using h3⟩

/-- `extend_range(other, lo..hi)` with `lo ≤ hi ≤ other.len()` and equal stages keeps the invariant
only if `lo..hi` is the whole of `other`: all annotations of `other` are copied, whatever the range
(src/block.rs:335). -/
theorem C26_extend_range_exact {n : Nat} (hn : 0 < n) (σs τs : List (Equiv.Perm (Fin n)))
    (l m : Equiv.Perm (Fin n)) (annots bnnots : List A) (h1 : σs.length = annots.length)
    (h2 : τs.length = bnnots.length) (lo hi : Nat) (hlo : lo ≤ hi) (hhi : hi ≤ bnnots.length) :
    ∃ b', (AnnotBlock.ofPerms σs l annots).extendRange (.ofPerms τs m bnnots) (.included lo)
        (.excluded hi) = .ok (b', .ok ()) ∧
      b'.annots = annots ++ bnnots ∧ b'.rows.len = .ok (annots.length + (hi - lo) + 1) ∧
      (b'.WellFormed ↔ lo = 0 ∧ hi = bnnots.length) := by
  have hf : (τs ++ [m])[lo]? = some ((τs ++ [m])[lo]'(by simp; omega)) := List.getElem?_eq_getElem _
  refine ⟨_, AnnotBlock.extendRange_ofPerms hn σs l annots τs m bnnots _ _ lo hi rfl _ hf (by omega)
    (by omega), rfl, ?_, ?_⟩
  · rw [SameStageVec.ofRows_len (RowsOf.perms hn _)]
    simp
    omega
  · constructor
    · rintro ⟨rows, h3, h4, h5⟩
      have hl : (SameStageVec.ofRows ⟨n⟩ rows).bells.length = rows.length * n :=
        SameStageVec.ofRows_length h3
      have hl2 := SameStageVec.ofRows_length (RowsOf.perms hn (σs ++ List.map
        (l * ((τs ++ [m])[lo]'(by simp; omega))⁻¹ * ·) (List.drop lo (List.take (hi + 1) (τs ++ [m])))))
      simp only [SameStageVec.ofRows_stage] at h4
      rw [h4, hl] at hl2
      have := Nat.eq_of_mul_eq_mul_right hn hl2
      simp at this h5
      omega
    · rintro ⟨rfl, rfl⟩
      exact ⟨_, RowsOf.perms hn _, rfl, by simp; omega⟩

example := C26_extend_range_exact (A := Nat) (n := 3) (by decide) [1] [1, Equiv.swap 0 1] (Equiv.swap 1 2)
  (Equiv.swap 0 1) [7] [8, 9] rfl rfl 1 2 (by decide) (by decide)

/-- The invariant is not kept by all safe calls: extending by a strict part of a block gives a block
whose rows and annotations cannot even be iterated over together. -/
theorem C26_extend_range_breaks : ∃ (a b c : AnnotBlock Nat), a.WellFormed ∧ b.WellFormed ∧
    a.extendRange b (.included 0) (.excluded 1) = .ok (c, .ok ()) ∧ b.len = 2 ∧ ¬ c.WellFormed ∧
    c.annotRows = .error .zipEq := by
  obtain ⟨c, h1, h2, h3, h4⟩ := C26_extend_range_exact (A := Nat) (n := 1) (by omega) [] [1, 1] 1 1 []
    [7, 8] rfl rfl 0 1 (by omega) (by decide)
  have hx := AnnotBlock.extendRange_ofPerms (A := Nat) (n := 1) (by omega) [] 1 [] [1, 1] 1 [7, 8]
    (.included 0) (.excluded 1) 0 1 rfl 1 rfl (by omega) (by decide)
  rw [h1] at hx
  simp only [Except.ok.injEq, Prod.mk.injEq, and_true] at hx
  refine ⟨_, _, c, AnnotBlock.ofPerms_wellFormed (by omega) rfl,
    AnnotBlock.ofPerms_wellFormed (by omega) rfl, h1, rfl, by rw [h4]; decide, ?_⟩
  rw [hx]
  simp only [AnnotBlock.annotRows, AnnotBlock.rowsIter, AnnotBlock.allRows]
  rw [SameStageVec.nextBack_ofRows (RowsOf.perms (by omega) _)]
  simp only [Res.ok_bind, Res.pure_eq]
  rw [SameStageVec.collect_ofRows _ ((RowsOf.perms (by omega) _).of_subset
    fun r hr => List.mem_of_mem_dropLast hr)]
  rfl

/-- A history on a block of two rows of stage 3. -/
example : ∃ b : AnnotBlock Nat, b.WellFormed ∧ b.len = 2 ∧ (BlockOp.extend b).Ok ∧
    (BlockOp.preMultiply (A := Nat) ⟨[⟨1⟩, ⟨0⟩, ⟨2⟩]⟩).Ok :=
  ⟨.ofPerms (n := 3) [1, Equiv.swap 0 1] (Equiv.swap 1 2) [7, 8],
    AnnotBlock.ofPerms_wellFormed (by omega) rfl, rfl,
    AnnotBlock.ofPerms_wellFormed (by omega) rfl, by simp only [BlockOp.Ok]; decide⟩

/-- The getters of a block satisfying the invariant: the length, each row with its annotation, the
left-over row, the first row (the left-over one if there is no other) also with its annotation, and all
rows in order; none of them panics. -/
theorem C26_getters {n : Nat} (hn : 0 < n) (σs : List (Equiv.Perm (Fin n))) (l : Equiv.Perm (Fin n))
    (annots : List A) (h : σs.length = annots.length) :
    let b := AnnotBlock.ofPerms σs l annots
    b.len = σs.length ∧ b.stage = ⟨n⟩ ∧ b.leftoverRow = .ok (.ofPerm l) ∧
    b.annotRows = .ok ((σs.map Row.ofPerm).zip annots) ∧
    b.allRows.collect = .ok ((σs ++ [l]).map Row.ofPerm) ∧
    (∃ it, b.rowsIter = .ok it ∧ it.collect = .ok (σs.map Row.ofPerm)) ∧
    (∀ (i : Nat) (σ : Equiv.Perm (Fin n)) (a : A), σs[i]? = some σ → annots[i]? = some a →
      b.getRow i = some (.ofPerm σ) ∧ b.getAnnot i = some a ∧
      b.getAnnotRow i = some (.ofPerm σ, a)) ∧
    b.getRow σs.length = some (.ofPerm l) ∧
    (∀ i, σs.length ≤ i → b.getAnnotRow i = none) ∧
    (∀ i, σs.length < i → b.getRow i = none) ∧
    (∃ first, (σs ++ [l])[0]? = some first ∧ b.firstRow = .ok (.ofPerm first) ∧
      b.firstAnnotRow = annots[0]?.map fun a => (.ofPerm first, a)) ∧
    (b.isEmpty = true ↔ σs = []) ∧ b.rowVec = .ofRows ⟨n⟩ ((σs ++ [l]).map Row.ofPerm) := by
  intro b
  have hget : ∀ (i : Nat) (σ : Equiv.Perm (Fin n)), σs[i]? = some σ → b.getRow i = some (.ofPerm σ) := by
    intro i σ hi
    rw [AnnotBlock.getRow_ofPerms hn, List.getElem?_append_left
      (List.getElem?_eq_some_iff.1 hi).1, hi]
    rfl
  refine ⟨h.symm, rfl, AnnotBlock.leftover_ofPerms hn _ _ _, AnnotBlock.annotRows_ofPerms hn _ _ _ h,
    SameStageVec.collect_ofRows _ (RowsOf.perms hn _),
    ⟨_, AnnotBlock.rowsIter_ofPerms hn _ _ _, SameStageVec.collect_ofRows _ (RowsOf.perms hn _)⟩,
    ?_, ?_, ?_, ?_, ?_, ?_, rfl⟩
  · intro i σ a hi ha
    have hg := hget i σ hi
    have ha' : b.getAnnot i = some a := ha
    refine ⟨hg, ha', ?_⟩
    simp [AnnotBlock.getAnnotRow, hg, ha']
  · rw [AnnotBlock.getRow_ofPerms hn]
    simp
  · intro i hi
    have ha' : b.getAnnot i = none := List.getElem?_eq_none (by
      show annots.length ≤ i
      omega)
    simp only [AnnotBlock.getAnnotRow, ha']
    split <;> rfl
  · intro i hi
    rw [AnnotBlock.getRow_ofPerms hn, List.getElem?_eq_none (by simp; omega)]
    rfl
  · have h0 : (σs ++ [l])[0]? = some (σs.head?.getD l) := by cases σs <;> rfl
    refine ⟨_, h0, AnnotBlock.firstRow_ofPerms hn _ _ _, ?_⟩
    unfold AnnotBlock.firstAnnotRow AnnotBlock.getAnnotRow
    rw [AnnotBlock.getRow_ofPerms hn, h0]
    have ha : b.getAnnot 0 = annots[0]? := rfl
    rw [ha]
    cases annots[0]? <;> rfl
  · change annots.isEmpty = true ↔ σs = []
    rw [List.isEmpty_iff, ← List.length_eq_zero_iff, ← h, List.length_eq_zero_iff]

example := C26_getters (A := Nat) (n := 3) (by decide) [1, Equiv.swap 0 1] (Equiv.swap 1 2) [7, 8] rfl

/-- `full_path_of(b)` lists the place of `b` in every row, the left-over row last; `path_of(b)` is the
same with the place in the left-over row given separately.  Both are `None` for a bell outside the
stage. -/
theorem C24_block_paths {n : Nat} (hn : 0 < n) (σs : List (Equiv.Perm (Fin n)))
    (l : Equiv.Perm (Fin n)) (annots : List A) :
    (∀ b : Fin n,
      (AnnotBlock.ofPerms σs l annots).fullPathOf ⟨b.val⟩ =
        .ok (some (σs.map (fun σ => (σ⁻¹ b).val) ++ [(l⁻¹ b).val])) ∧
      (AnnotBlock.ofPerms σs l annots).pathOf ⟨b.val⟩ =
        .ok (some (σs.map (fun σ => (σ⁻¹ b).val), (l⁻¹ b).val))) ∧
    (∀ b, n ≤ b → (AnnotBlock.ofPerms σs l annots).fullPathOf ⟨b⟩ = .ok none ∧
      (AnnotBlock.ofPerms σs l annots).pathOf ⟨b⟩ = .ok none) := by
  constructor
  · intro b
    have h := fullPathOf_ofPerms hn σs l annots b
    rw [List.map_append, List.map_singleton] at h
    refine ⟨h, ?_⟩
    unfold AnnotBlock.pathOf
    rw [h]
    simp
  · intro b hb
    have h : (AnnotBlock.ofPerms σs l annots).fullPathOf ⟨b⟩ = .ok none := by
      rcases SameStageVec.ofRows_pathOf (RowsOf.perms hn (σs ++ [l])) ⟨b⟩ with
        ⟨path, h1, h2, h3, h4⟩ | ⟨h1, h2⟩
      · exact absurd hb (by simpa using h2)
      · exact h2
    refine ⟨h, ?_⟩
    unfold AnnotBlock.pathOf
    rw [h]
    rfl

/-- Changing annotations.  `map_annots` and `map_annots_with_index` keep the rows and give row `i` the
new annotation computed from its old one (and `i`); storing through `get_annot_mut(i)` changes the
annotation of row `i` only, and is possible exactly for the rows that have one. -/
theorem C26_annotations {B : Type} {n : Nat} (hn : 0 < n) (σs : List (Equiv.Perm (Fin n)))
    (l : Equiv.Perm (Fin n)) (annots : List A) (h : σs.length = annots.length) (f : A → B)
    (g : Nat → A → B) (x : A) :
    let b := AnnotBlock.ofPerms σs l annots
    (b.mapAnnots f).annotRows = .ok ((σs.map Row.ofPerm).zip (annots.map f)) ∧
    (b.mapAnnots f).leftoverRow = .ok (.ofPerm l) ∧
    (b.mapAnnotsWithIndex g).annotRows = .ok ((σs.map Row.ofPerm).zip (annots.mapIdx g)) ∧
    (b.mapAnnotsWithIndex g).leftoverRow = .ok (.ofPerm l) ∧
    (∀ i < σs.length, ∃ b', b.setAnnot i x = some b' ∧ b'.leftoverRow = .ok (.ofPerm l) ∧
      b'.annotRows = .ok ((σs.map Row.ofPerm).zip (annots.set i x))) ∧
    (∀ i, σs.length ≤ i → b.setAnnot i x = none) := by
  intro b
  have hi : b.mapAnnotsWithIndex g = .ofPerms σs l (annots.mapIdx g) := by
    simp [b, AnnotBlock.mapAnnotsWithIndex, AnnotBlock.ofPerms, List.mapIdx_eq_zipIdx_map]
  rw [hi]
  refine ⟨AnnotBlock.annotRows_ofPerms hn σs l (annots.map f) (by simpa using h),
    AnnotBlock.leftover_ofPerms hn σs l (annots.map f),
    AnnotBlock.annotRows_ofPerms hn σs l _ (by simpa using h),
    AnnotBlock.leftover_ofPerms hn σs l _, ?_, ?_⟩
  · intro i hi
    refine ⟨.ofPerms σs l (annots.set i x), if_pos (by show i < annots.length; omega),
      AnnotBlock.leftover_ofPerms hn σs l _, AnnotBlock.annotRows_ofPerms hn σs l _ (by simpa using h)⟩
  · intro i hi
    exact if_neg (by show ¬ i < annots.length; omega)

example := C26_annotations (A := Nat) (n := 3) (by decide) [1, Equiv.swap 0 1] (Equiv.swap 1 2) [7, 8] rfl (· + 1)
  (· + ·) 5

/-! ## C27: extending -/

/-- `a.extend(b)`: `b` is premultiplied by the one transposition that takes `b`'s first row to `a`'s
left-over row; rows and annotations of `b` follow those of `a`. -/
theorem C27_extend {n : Nat} (hn : 0 < n) (σs τs : List (Equiv.Perm (Fin n)))
    (l m first : Equiv.Perm (Fin n)) (annots bnnots : List A) (h2 : τs.length = bnnots.length)
    (hf : (τs ++ [m]).head? = some first) :
    ∃ t, t * first = l ∧
    (AnnotBlock.ofPerms σs l annots).extend (.ofPerms τs m bnnots) =
      .ok (.ofPerms (σs ++ τs.map (t * ·)) (t * m) (annots ++ bnnots), .ok ()) := by
  refine ⟨l * first⁻¹, by simp, ?_⟩
  apply AnnotBlock.extend_ofPerms hn _ _ _ _ _ _ h2
  rw [List.head?_eq_some_head (by simp)] at hf
  exact (Option.some.inj hf).symm

example := C27_extend (A := Nat) (n := 3) (by decide) [1] [Equiv.swap 0 1, 1] (Equiv.swap 1 2) (Equiv.swap 0 1)
  (Equiv.swap 0 1) [7] [8, 9] rfl rfl

/-- If `b` starts from rounds then its rows are premultiplied by `a`'s left-over row, and the new
left-over row is the product of the two. -/
theorem C27_extend_from_rounds {n : Nat} (hn : 0 < n) (σs τs : List (Equiv.Perm (Fin n)))
    (l m : Equiv.Perm (Fin n)) (annots bnnots : List A) (h2 : τs.length = bnnots.length)
    (hf : (τs ++ [m]).head? = some 1) :
    (AnnotBlock.ofPerms σs l annots).extend (.ofPerms τs m bnnots) =
      .ok (.ofPerms (σs ++ τs.map (l * ·)) (l * m) (annots ++ bnnots), .ok ()) := by
  obtain ⟨t, ht, h⟩ := C27_extend hn σs τs l m 1 annots bnnots h2 hf
  rw [mul_one] at ht
  subst ht
  exact h

example := C27_extend_from_rounds (A := Nat) (n := 3) (by decide) [1] [1, Equiv.swap 0 1] (Equiv.swap 1 2)
  (Equiv.swap 0 1) [7] [8, 9] rfl rfl

/-- Extension is associative. -/
theorem C27_extend_assoc (a b c : AnnotBlock A) (ha : a.WellFormed) (hb : b.WellFormed)
    (hc : c.WellFormed) (hab : a.stage = b.stage) (hbc : b.stage = c.stage) :
    ∃ ab bc abc, a.extend b = .ok (ab, .ok ()) ∧ b.extend c = .ok (bc, .ok ()) ∧
      ab.extend c = .ok (abc, .ok ()) ∧ a.extend bc = .ok (abc, .ok ()) ∧ abc.WellFormed := by
  obtain ⟨n, hn, σs, l, as, h1, rfl⟩ := ha.cases
  obtain ⟨n', hn', τs, m, bs, h2, rfl⟩ := hb.cases
  obtain ⟨n'', hn'', υs, k, cs, h3, rfl⟩ := hc.cases
  have e1 : n = n' := congrArg Stage.numBells hab
  have e2 : n' = n'' := congrArg Stage.numBells hbc
  subst e1 e2
  obtain ⟨fb, hfb⟩ : ∃ f, (τs ++ [m]).head? = some f := by cases τs <;> simp
  obtain ⟨fc, hfc⟩ : ∃ f, (υs ++ [k]).head? = some f := by cases υs <;> simp
  obtain ⟨t, ht, h4⟩ := C27_extend hn σs τs l m fb as bs h2 hfb
  obtain ⟨u, hu, h5⟩ := C27_extend hn τs υs m k fc bs cs h3 hfc
  obtain ⟨v, hv, h6⟩ := C27_extend hn (σs ++ τs.map (t * ·)) υs (t * m) k fc (as ++ bs) cs h3 hfc
  have hfbc : ((τs ++ υs.map (u * ·)) ++ [u * k]).head? = some fb := by
    cases τs with
    | cons x τs => simpa using hfb
    | nil =>
      simp only [List.nil_append, List.head?_cons, Option.some.injEq] at hfb
      subst hfb
      cases υs with
      | nil => simp at hfc; subst hfc; simp [hu]
      | cons y υs => simp at hfc; subst hfc; simp [hu]
  obtain ⟨w, hw, h7⟩ := C27_extend hn σs (τs ++ υs.map (u * ·)) l (u * k) fb as (bs ++ cs)
    (by simp [h2, h3]) hfbc
  have hwt : w = t := by
    have : w * fb = t * fb := by rw [hw, ht]
    exact mul_right_cancel this
  have hvt : v = t * u := by
    have : v * fc = t * u * fc := by rw [hv, mul_assoc, hu]
    exact mul_right_cancel this
  refine ⟨_, _, _, h4, h5, h6, ?_, ?_⟩
  · rw [h7, hwt, hvt]
    simp [mul_assoc, Function.comp_def]
  · exact AnnotBlock.ofPerms_wellFormed hn (by simp; omega)

/-- If the stages differ the block is left unchanged and the error names both stages. -/
theorem C27_extend_mismatch (a b : AnnotBlock A) (ha : a.WellFormed) (hb : b.WellFormed)
    (hne : a.stage ≠ b.stage) : a.extend b = .ok (a, .error ⟨a.stage, b.stage⟩) := by
  obtain ⟨n, hn, σs, l, as, h1, rfl⟩ := ha.cases
  obtain ⟨n', hn', τs, m, bs, h2, rfl⟩ := hb.cases
  apply AnnotBlock.extend_mismatch hn σs l as hn'
  rintro rfl
  exact hne rfl

example := C27_extend_mismatch (.ofPerms (A := Nat) (n := 3) [1, Equiv.swap 0 1] (Equiv.swap 1 2) [7, 8] : AnnotBlock Nat)
  (.ofPerms (n := 2) [1] (Equiv.swap 0 1) [9]) (AnnotBlock.ofPerms_wellFormed (by omega) rfl)
  (AnnotBlock.ofPerms_wellFormed (by omega) rfl) (by decide)

/-- `extend_from_within(lo..hi)` for `lo ≤ hi ≤ len` appends the rows `lo..hi` of the block itself,
transposed to start from its left-over row, with their annotations; every other range panics. -/
theorem C27_extend_from_within {n : Nat} (hn : 0 < n) (σs : List (Equiv.Perm (Fin n)))
    (l : Equiv.Perm (Fin n)) (annots : List A) (h : σs.length = annots.length) (lo hi : Nat) :
    (lo ≤ hi → hi ≤ annots.length → ∃ t first last, (σs ++ [l])[lo]? = some first ∧
      (σs ++ [l])[hi]? = some last ∧ t * first = l ∧
      (AnnotBlock.ofPerms σs l annots).extendFromWithin (.included lo) (.excluded hi) =
        .ok (.ofPerms (σs ++ ((σs.take hi).drop lo).map (t * ·)) (t * last)
          (annots ++ (annots.take hi).drop lo))) ∧
    (¬ (lo ≤ hi ∧ hi ≤ annots.length) →
      ∃ e, (AnnotBlock.ofPerms σs l annots).extendFromWithin (.included lo) (.excluded hi) =
        .error e) := by
  constructor
  · intro hlo hhi
    have hf : (σs ++ [l])[lo]? = some ((σs ++ [l])[lo]'(by simp; omega)) :=
      List.getElem?_eq_getElem _
    have hg : (σs ++ [l])[hi]? = some ((σs ++ [l])[hi]'(by simp; omega)) :=
      List.getElem?_eq_getElem _
    generalize ((σs ++ [l])[lo]'(by simp; omega)) = f at hf
    generalize ((σs ++ [l])[hi]'(by simp; omega)) = g at hg
    refine ⟨l * f⁻¹, f, g, hf, hg, by simp, ?_⟩
    rw [AnnotBlock.extendFromWithin_ofPerms hn σs l annots h _ _ lo hi rfl f hf hlo hhi]
    have key : σs ++ [l] ++ (((σs ++ [l]).take (hi + 1)).drop (lo + 1)).map (l * f⁻¹ * ·) =
        σs ++ ((σs.take hi).drop lo).map (l * f⁻¹ * ·) ++ [l * f⁻¹ * g] := by
      have e1 : (σs ++ [l]).take (hi + 1) = σs.take hi ++ [g] := by
        rw [List.take_add_one, hg, List.take_append_of_le_length (by omega)]
        rfl
      have e2 : ((σs ++ [l]).take (hi + 1)).drop lo =
          f :: ((σs ++ [l]).take (hi + 1)).drop (lo + 1) := by
        have hlt : lo < ((σs ++ [l]).take (hi + 1)).length := by simp; omega
        rw [List.drop_eq_getElem_cons hlt]
        congr 1
        rw [List.getElem_take]
        have := List.getElem?_eq_some_iff.1 hf
        exact this.2
      have e3 : [l] ++ (((σs ++ [l]).take (hi + 1)).drop (lo + 1)).map (l * f⁻¹ * ·) =
          (((σs ++ [l]).take (hi + 1)).drop lo).map (l * f⁻¹ * ·) := by
        rw [e2]; simp
      rw [List.append_assoc, e3, e1, List.drop_append_of_le_length (by simp; omega)]
      simp
    rw [key]
    rfl
  · intro hbad
    exact AnnotBlock.extendFromWithin_panics hn σs l annots h _ _ lo hi rfl (by omega)

example : ∃ (a b : AnnotBlock Nat), a.WellFormed ∧ b.WellFormed ∧ a.stage = b.stage ∧
    a.len = 1 ∧ b.len = 2 :=
  ⟨.ofPerms (n := 3) [1] (Equiv.swap 0 1) [7], .ofPerms (n := 3) [1, Equiv.swap 0 1] (Equiv.swap 1 2) [8, 9],
    AnnotBlock.ofPerms_wellFormed (by omega) rfl, AnnotBlock.ofPerms_wellFormed (by omega) rfl, rfl,
    rfl, rfl⟩

/-! ## C28: splitting -/

/-- `split(i)` succeeds exactly for `i ≤ len`; the first part has the first `i` rows and annotations
and is left over at the row where the second part starts; the second part has the rest; extending
the first part by the second gives back the block. -/
theorem C28_split {n : Nat} (hn : 0 < n) (σs : List (Equiv.Perm (Fin n))) (l : Equiv.Perm (Fin n))
    (annots : List A) (h : σs.length = annots.length) (i : Nat) :
    (i ≤ annots.length → ∃ a b meet, (AnnotBlock.ofPerms σs l annots).split i = .ok (some (a, b)) ∧
      (σs ++ [l])[i]? = some meet ∧
      a = .ofPerms (σs.take i) meet (annots.take i) ∧ b = .ofPerms (σs.drop i) l (annots.drop i) ∧
      a.WellFormed ∧ b.WellFormed ∧ a.len = i ∧
      a.leftoverRow = .ok (.ofPerm meet) ∧ b.firstRow = .ok (.ofPerm meet) ∧
      a.extend b = .ok (.ofPerms σs l annots, .ok ())) ∧
    (annots.length < i → (AnnotBlock.ofPerms σs l annots).split i = .ok none) := by
  rw [AnnotBlock.split_ofPerms hn σs l annots h]
  constructor
  · intro hi
    have hg : (σs ++ [l])[i]? = some ((σs ++ [l])[i]'(by simp; omega)) :=
      List.getElem?_eq_getElem _
    generalize ((σs ++ [l])[i]'(by simp; omega)) = f at hg
    rw [if_pos hi, hg]
    have hhead : (σs.drop i ++ [l]).head? = some f := by
      rw [← List.drop_append_of_le_length (by omega), List.head?_drop, hg]
    refine ⟨_, _, f, rfl, rfl, rfl, rfl, AnnotBlock.ofPerms_wellFormed hn (by simp [h]),
      AnnotBlock.ofPerms_wellFormed hn (by simp [h]), ?_, AnnotBlock.leftover_ofPerms hn _ _ _, ?_, ?_⟩
    · show (annots.take i).length = i
      simp; omega
    · rw [AnnotBlock.firstRow_ofPerms hn]
      congr 2
      cases hd : σs.drop i with
      | nil => simpa [hd] using hhead
      | cons x xs => simpa [hd] using hhead
    · obtain ⟨t, ht, he⟩ := C27_extend hn (σs.take i) (σs.drop i) f l f (annots.take i)
        (annots.drop i) (by simp [h]) hhead
      have : t = 1 := by simpa using ht
      subst this
      simp only [Option.getD_some]
      rw [he]
      simp
  · intro hi
    rw [if_neg (by omega)]

example : ∃ a : AnnotBlock Nat, a = .ofPerms (n := 2) [1, Equiv.swap 0 1] 1 [7, 8] ∧
    a.WellFormed ∧ a.len = 2 :=
  ⟨_, rfl, AnnotBlock.ofPerms_wellFormed (by omega) rfl, rfl⟩

/-! ## C29: the repeat iterator -/

/-- The item returned by the `(k+1)`-th call of `next`. -/
def nthItem (it : RepeatIter A) : Nat → Res (Option (Row × Nat × A))
  | 0 => do let (x, _) ← it.next; return x
  | k + 1 => do let (_, it') ← it.next; nthItem it' k

/-- The iterator `j` rows into the block, after some whole blocks. -/
def iterAt {n : Nat} (σs : List (Equiv.Perm (Fin n))) (l : Equiv.Perm (Fin n)) (annots : List A)
    (head : Equiv.Perm (Fin n)) (j : Nat) : RepeatIter A :=
  ⟨.ofPerm head, ⟨(SameStageVec.ofRows ⟨n⟩ ((σs.drop j).map Row.ofPerm)).iter, annots.drop j, j⟩,
    .ofPerms σs l annots⟩

theorem inner_next {n : Nat} (hn : 0 < n) (σs : List (Equiv.Perm (Fin n))) (annots : List A)
    (j : Nat) :
    (∀ σ a, σs[j]? = some σ → annots[j]? = some a →
      InnerIter.next ⟨(SameStageVec.ofRows ⟨n⟩ ((σs.drop j).map Row.ofPerm)).iter, annots.drop j, j⟩ =
        .ok (some (j, .ofPerm σ, a),
          ⟨(SameStageVec.ofRows ⟨n⟩ ((σs.drop (j + 1)).map Row.ofPerm)).iter, annots.drop (j + 1), j + 1⟩)) ∧
    (σs.length ≤ j → annots.length ≤ j →
      ∃ it, InnerIter.next
        ⟨(SameStageVec.ofRows ⟨n⟩ ((σs.drop j).map Row.ofPerm)).iter, annots.drop j, j⟩ =
        .ok (none, it)) := by
  constructor
  · intro σ a hσ ha
    obtain ⟨h1, rfl⟩ := List.getElem?_eq_some_iff.1 hσ
    obtain ⟨h2, rfl⟩ := List.getElem?_eq_some_iff.1 ha
    simp only [InnerIter.next, SameStageVec.next_ofRows (RowsOf.perms hn _), Res.ok_bind]
    rw [List.drop_eq_getElem_cons h1, List.drop_eq_getElem_cons h2]
    rfl
  · intro h1 h2
    simp only [InnerIter.next, SameStageVec.next_ofRows (RowsOf.perms hn _), Res.ok_bind]
    rw [List.drop_of_length_le h1, List.drop_of_length_le h2]
    exact ⟨_, rfl⟩

theorem next_iterAt {n : Nat} (hn : 0 < n) (σs : List (Equiv.Perm (Fin n)))
    (l : Equiv.Perm (Fin n)) (annots : List A) (h : σs.length = annots.length)
    (head : Equiv.Perm (Fin n)) (j : Nat) :
    (∀ σ a, σs[j]? = some σ → annots[j]? = some a →
      (iterAt σs l annots head j).nextUntransposedRow =
        .ok (some (j, .ofPerm σ, a), iterAt σs l annots head (j + 1))) ∧
    (σs.length ≤ j → ∀ σ a, σs[0]? = some σ → annots[0]? = some a →
      (iterAt σs l annots head j).nextUntransposedRow =
        .ok (some (0, .ofPerm σ, a), iterAt σs l annots (head * l) 1)) := by
  constructor
  · intro σ a hσ ha
    simp only [RepeatIter.nextUntransposedRow, iterAt, (inner_next hn σs annots j).1 σ a hσ ha,
      Res.ok_bind]
    rfl
  · intro hj σ a hσ ha
    obtain ⟨it, hit⟩ := (inner_next hn σs annots j).2 hj (by omega)
    have h0 := (inner_next hn σs annots 0).1 σ a hσ ha
    simp only [List.drop_zero] at h0
    simp only [RepeatIter.nextUntransposedRow, iterAt, hit, Res.ok_bind,
      AnnotBlock.leftover_ofPerms hn, Row.mul_ofPerm hn, RepeatIter.getIter,
      AnnotBlock.rowsIter_ofPerms hn, Res.pure_eq]
    rw [show (AnnotBlock.ofPerms σs l annots).annots = annots from rfl, h0]
    rfl

theorem next_iterAt_row {n : Nat} (hn : 0 < n) (σs : List (Equiv.Perm (Fin n)))
    (l : Equiv.Perm (Fin n)) (annots : List A) (h : σs.length = annots.length)
    (start : Equiv.Perm (Fin n)) (e j : Nat) (hj : j ≤ σs.length) (hpos : 0 < σs.length)
    (σ : Equiv.Perm (Fin n)) (a : A)
    (hσ : σs[(e * σs.length + j) % σs.length]? = some σ)
    (ha : annots[(e * σs.length + j) % σs.length]? = some a) :
    ∃ e' j', j' ≤ σs.length ∧ e' * σs.length + j' = e * σs.length + j + 1 ∧
      (iterAt σs l annots (start * l ^ e) j).next =
        .ok (some (.ofPerm (start * l ^ ((e * σs.length + j) / σs.length) * σ),
          (e * σs.length + j) % σs.length, a), iterAt σs l annots (start * l ^ e') j') := by
  by_cases hlt : j < σs.length
  · have hm : (e * σs.length + j) % σs.length = j := by
      rw [Nat.mul_comm, Nat.mul_add_mod, Nat.mod_eq_of_lt hlt]
    have hd : (e * σs.length + j) / σs.length = e := by
      rw [Nat.mul_comm, Nat.mul_add_div hpos, Nat.div_eq_of_lt hlt, Nat.add_zero]
    rw [hm] at hσ ha ⊢
    rw [hd]
    refine ⟨e, j + 1, by omega, by omega, ?_⟩
    simp only [RepeatIter.next, (next_iterAt hn σs l annots h _ j).1 σ a hσ ha, Res.ok_bind]
    simp only [iterAt, Row.mul_ofPerm hn, Res.ok_bind]
    rfl
  · have hj' : j = σs.length := by omega
    have ht : e * σs.length + j = (e + 1) * σs.length := by rw [hj', Nat.add_mul]; omega
    have hm : (e * σs.length + j) % σs.length = 0 := by rw [ht]; simp
    have hd : (e * σs.length + j) / σs.length = e + 1 := by rw [ht]; exact Nat.mul_div_cancel _ hpos
    rw [hm] at hσ ha ⊢
    rw [hd, ht]
    refine ⟨e + 1, 1, hpos, rfl, ?_⟩
    simp only [RepeatIter.next, (next_iterAt hn σs l annots h _ j).2 (by omega) σ a hσ ha,
      Res.ok_bind]
    simp only [iterAt, Row.mul_ofPerm hn, Res.ok_bind, mul_assoc, pow_succ]
    rfl

theorem nthItem_iterAt {n : Nat} (hn : 0 < n) (σs : List (Equiv.Perm (Fin n)))
    (l : Equiv.Perm (Fin n)) (annots : List A) (h : σs.length = annots.length)
    (start : Equiv.Perm (Fin n)) (hpos : 0 < σs.length) (k : Nat) : ∀ (e j : Nat),
    j ≤ σs.length → ∀ (σ : Equiv.Perm (Fin n)) (a : A),
    σs[(e * σs.length + j + k) % σs.length]? = some σ →
    annots[(e * σs.length + j + k) % σs.length]? = some a →
    nthItem (iterAt σs l annots (start * l ^ e) j) k =
      .ok (some (.ofPerm (start * l ^ ((e * σs.length + j + k) / σs.length) * σ),
        (e * σs.length + j + k) % σs.length, a)) := by
  induction k with
  | zero =>
    intro e j hj σ a hσ ha
    obtain ⟨e', j', -, -, hx⟩ := next_iterAt_row hn σs l annots h start e j hj hpos σ a hσ ha
    simp only [nthItem, hx, Res.ok_bind, Nat.add_zero]
    rfl
  | succ k ih =>
    intro e j hj σ a hσ ha
    have hlt := Nat.mod_lt (e * σs.length + j) hpos
    obtain ⟨e', j', h1, h2, hx⟩ := next_iterAt_row hn σs l annots h start e j hj hpos _ _
      (List.getElem?_eq_getElem hlt) (List.getElem?_eq_getElem (by omega))
    have ht : e * σs.length + j + (k + 1) = e' * σs.length + j' + k := by omega
    rw [ht] at hσ ha ⊢
    simp only [nthItem, hx, Res.ok_bind]
    exact ih e' j' h1 σ a hσ ha

/-- The `k`-th item (from 0) of `repeat_iter(start)` on a block of `len > 0` rows is
`start * L^(k / len) * row(k % len)`, with index `k % len` and that row's annotation, for every `k`:
no call of `next` ever panics or ends the iteration. -/
theorem C29_repeat_iter {n : Nat} (hn : 0 < n) (σs : List (Equiv.Perm (Fin n)))
    (l : Equiv.Perm (Fin n)) (annots : List A) (h : σs.length = annots.length)
    (hpos : 0 < σs.length) (start : Equiv.Perm (Fin n)) :
    ∃ it, RepeatIter.new (.ofPerm start) (.ofPerms σs l annots) = .ok (.ok it) ∧
      ∀ k, ∃ σ a, σs[k % σs.length]? = some σ ∧ annots[k % σs.length]? = some a ∧
        nthItem it k = .ok (some (.ofPerm (start * l ^ (k / σs.length) * σ), k % σs.length, a)) := by
  refine ⟨iterAt σs l annots start 0, ?_, ?_⟩
  · simp only [RepeatIter.new, Row.ofPerm_stage hn, Res.ok_bind, AnnotBlock.stage, AnnotBlock.ofPerms,
      SameStageVec.ofRows_stage, Row.testErr_self]
    have := AnnotBlock.rowsIter_ofPerms hn σs l annots
    simp only [AnnotBlock.ofPerms] at this
    simp only [RepeatIter.getIter, this, Res.ok_bind]
    rfl
  · intro k
    have hlt := Nat.mod_lt k hpos
    refine ⟨_, _, List.getElem?_eq_getElem hlt, List.getElem?_eq_getElem (by omega), ?_⟩
    have ht : 0 * σs.length + 0 + k = k := by omega
    have := nthItem_iterAt hn σs l annots h start hpos k 0 0 (by omega)
      (σs[k % σs.length]'hlt) (annots[k % σs.length]'(by omega))
    rw [ht] at this
    have := this (List.getElem?_eq_getElem hlt) (List.getElem?_eq_getElem (by omega))
    rwa [pow_zero, mul_one] at this

/-- A start row of another stage is rejected; the iterator of an empty block ends at once; and
`next_into` gives the same rows, indices, annotations and next state as `next`, whatever the buffer
holds. -/
theorem C29_edge_cases {n : Nat} (hn : 0 < n) (l : Equiv.Perm (Fin n)) (b : AnnotBlock A) (r : Row) (hr : r.Valid) (start : Equiv.Perm (Fin n)) (it : RepeatIter A)
    (out : Row) :
    ((⟨r.bells.length⟩ : Stage) ≠ b.stage →
      RepeatIter.new r b = .ok (.error ⟨⟨r.bells.length⟩, b.stage⟩)) ∧
    (∃ it, RepeatIter.new (.ofPerm start) (.ofPerms [] l ([] : List A)) = .ok (.ok it) ∧
      nthItem it 0 = .ok none) ∧
    (∀ x idx a it', it.next = .ok (some (x, idx, a), it') →
      it.nextInto out = .ok (some (idx, a), x, it')) ∧
    (∀ it', it.next = .ok (none, it') → it.nextInto out = .ok (none, out, it')) := by
  refine ⟨?_, ?_, ?_, ?_⟩
  · intro hne
    simp only [RepeatIter.new, hr.stage_eq, Res.ok_bind, Row.testErr_ne hne]
    rfl
  · refine ⟨iterAt [] l [] start 0, ?_, ?_⟩
    · simp only [RepeatIter.new, Row.ofPerm_stage hn, Res.ok_bind, AnnotBlock.stage,
        AnnotBlock.ofPerms, SameStageVec.ofRows_stage, Row.testErr_self]
      have := AnnotBlock.rowsIter_ofPerms hn [] l ([] : List A)
      simp only [AnnotBlock.ofPerms] at this
      simp only [RepeatIter.getIter, this, Res.ok_bind]
      rfl
    · have h1 : InnerIter.next (A := A) ⟨(SameStageVec.ofRows ⟨n⟩ []).iter, [], 0⟩ =
          .ok (none, ⟨(SameStageVec.ofRows ⟨n⟩ []).iter, [], 0⟩) := rfl
      have h2 := AnnotBlock.rowsIter_ofPerms hn [] l ([] : List A)
      simp only [List.map_nil] at h2
      simp only [nthItem, RepeatIter.next, RepeatIter.nextUntransposedRow, iterAt, List.drop_nil,
        List.map_nil, h1, Res.ok_bind, AnnotBlock.leftover_ofPerms hn, Row.mul_ofPerm hn,
        RepeatIter.getIter, h2, Res.pure_eq]
      rw [show (AnnotBlock.ofPerms [] l ([] : List A)).annots = [] from rfl, h1]
      rfl
  · intro x idx a it' hx
    unfold RepeatIter.next at hx
    unfold RepeatIter.nextInto
    cases hu : it.nextUntransposedRow with
    | error e => rw [hu] at hx; cases hx
    | ok p =>
      obtain ⟨item, it2⟩ := p
      rw [hu] at hx
      simp only [Res.ok_bind] at hx ⊢
      cases item with
      | none => cases hx
      | some q =>
        obtain ⟨idx', row, a'⟩ := q
        simp only at hx ⊢
        unfold Row.mul Row.mulResult at hx
        unfold Row.mulInto
        cases hs1 : it2.currentBlockHead.stage with
        | error e => rw [hs1] at hx; cases hx
        | ok s1 =>
          cases hs2 : row.stage with
          | error e => rw [hs1, hs2] at hx; cases hx
          | ok s2 =>
            simp only [hs1, hs2, Res.ok_bind] at hx ⊢
            cases ht : IncompatibleStages.testErr s1 s2 with
            | error e => rw [ht] at hx; cases hx
            | ok u =>
              simp only [ht] at hx ⊢
              unfold Row.mulUnchecked at hx
              unfold Row.mulIntoUnchecked
              cases hm : Row.mulBells it2.currentBlockHead.bells row.bells with
              | error e => rw [hm] at hx; cases hx
              | ok bs =>
                rw [hm] at hx
                cases hx
                rfl
  · intro it' hx
    unfold RepeatIter.next at hx
    unfold RepeatIter.nextInto
    cases hu : it.nextUntransposedRow with
    | error e => rw [hu] at hx; cases hx
    | ok p =>
      obtain ⟨item, it2⟩ := p
      rw [hu] at hx
      simp only [Res.ok_bind] at hx ⊢
      cases item with
      | none => cases hx; rfl
      | some q =>
        obtain ⟨idx', row, a'⟩ := q
        simp only at hx
        cases hm : it2.currentBlockHead.mul row with
        | error e => rw [hm] at hx; cases hx
        | ok r => rw [hm] at hx; cases hx

/-- The 7th item of the plain course of the two-row block 12, 21 with left-over 12. -/
example : ∃ it, RepeatIter.new (.ofPerm (n := 2) 1)
      (.ofPerms (n := 2) [1, Equiv.swap 0 1] (Equiv.swap 0 1) ['a', 'b']) = .ok (.ok it) ∧
    nthItem it 6 = .ok (some (.ofPerm (n := 2) (1 * Equiv.swap 0 1 ^ (6 / 2) * 1), 0, 'a')) := by
  obtain ⟨it, h1, h2⟩ := C29_repeat_iter (n := 2) (by omega) [1, Equiv.swap 0 1] (Equiv.swap 0 1)
    ['a', 'b'] rfl (by decide) 1
  obtain ⟨σ, a, h3, h4, h5⟩ := h2 6
  cases h3
  cases h4
  exact ⟨it, h1, h5⟩

end Bellframe.Props
