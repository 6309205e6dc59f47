import Verif.Model.Unchecked
import Verif.Props.Mask
import Verif.Props.Music
import Verif.Props.PnBlock
import Verif.Props.PlaceNot
import Verif.Props.RowAlgebra
import Verif.Props.RowBuild
import Verif.Props.SameStageVec
import Verif.Proofs.Block

/-! # C83: unsafe functions called as their documentation allows -/

namespace Bellframe.Props

open Equiv

/-! ## Constructors of rows -/

/-- The documented condition for making a row without checks: the bells are distinct, and each has
an index below the number of bells. -/
def SafeBells (bells : List Bell) : Prop :=
  bells.Nodup ∧ ∀ b ∈ bells, b.index < bells.length

/-- The condition as documented does not give a valid row: no bells at all satisfy it, and asking
the result for its stage panics. The checked constructor rejects them. -/
theorem C83_false :
    ¬ (∀ bells, SafeBells bells → (Row.fromVecUnchecked bells).Valid) ∧
    SafeBells [] ∧ (Row.fromVecUnchecked []).stage = .error .unwrap ∧
    Row.fromVec [] = .error .noBells := by
  have h0 : SafeBells [] := ⟨List.nodup_nil, by simp⟩
  refine ⟨fun h => ?_, h0, rfl, rfl⟩
  exact (h [] h0).1 rfl

/-- That is the only exception: the bells are a valid row exactly when they satisfy the condition
and there is at least one, and exactly then the checked constructor accepts them, with the same
row. -/
theorem C83_constructors_partial (bells : List Bell) :
    ((Row.fromVecUnchecked bells).Valid ↔ SafeBells bells ∧ bells ≠ []) ∧
    (SafeBells bells → bells ≠ [] →
      Row.fromVec bells = .ok (Row.fromVecUnchecked bells) ∧
      (Row.fromVecUnchecked bells).stage = .ok ⟨bells.length⟩) ∧
    (¬ (SafeBells bells ∧ bells ≠ []) → ∃ e, Row.fromVec bells = .error e) := by
  have hiff : (Row.fromVecUnchecked bells).Valid ↔ SafeBells bells ∧ bells ≠ [] := by
    constructor
    · intro h
      refine ⟨⟨h.nodup, fun b hb => (h.mem_iff b).1 hb⟩, h.1⟩
    · rintro ⟨⟨h1, h2⟩, h3⟩
      exact Row.valid_of_nodup_lt h3 h1 h2
  refine ⟨hiff, fun h1 h2 => ?_, fun h => ?_⟩
  · have hv := hiff.2 ⟨h1, h2⟩
    exact ⟨(C06_from_vec_ok _ _).2 ⟨rfl, hv⟩, hv.stage_eq⟩
  · cases he : Row.fromVec bells with
    | error e => exact ⟨e, rfl⟩
    | ok r =>
      obtain ⟨h1, h2⟩ := (C06_from_vec_ok _ _).1 he
      refine absurd (hiff.1 ?_) h
      rw [← h1]
      exact h2

example : SafeBells [⟨3⟩, ⟨1⟩, ⟨0⟩, ⟨2⟩] ∧ ([⟨3⟩, ⟨1⟩, ⟨0⟩, ⟨2⟩] : List Bell) ≠ [] := by
  unfold SafeBells; decide

/-! ## Rows -/

/-- Reading a bell is safe at exactly the places inside the row, and gives the bell that indexing
gives. -/
theorem C83_get (r : Row) (hr : r.Valid) (place : Nat) :
    (∀ s, r.stage = .ok s → place < s.numBells →
      ∃ b, r.getBellUnchecked place = .ok b ∧ r.get place = .ok b) ∧
    (r.getBellUnchecked place = .error .undefined ↔ ∀ s, r.stage = .ok s → s.numBells ≤ place) := by
  have hs := hr.stage_eq
  have hu : ∀ h : place < r.bells.length, r.getBellUnchecked place = .ok r.bells[place] := by
    intro h
    unfold Row.getBellUnchecked getUnchecked
    rw [List.getElem?_eq_getElem h]
  refine ⟨fun s h hp => ?_, ?_⟩
  · rw [hs] at h
    obtain rfl := Except.ok.inj h
    refine ⟨_, hu hp, ?_⟩
    unfold Row.get getIdx
    rw [List.getElem?_eq_getElem hp]
  · constructor
    · intro h s hs'
      rw [hs] at hs'
      obtain rfl := Except.ok.inj hs'
      by_contra hlt
      rw [hu (by simpa using hlt)] at h
      cases h
    · intro h
      have := h _ hs
      unfold Row.getBellUnchecked getUnchecked
      rw [List.getElem?_eq_none this]

example := C83_get ⟨[⟨1⟩, ⟨2⟩, ⟨0⟩]⟩ (by decide) 1

theorem mulIntoRowUnchecked_of_mulIntoRow {a b out c : Row} (ha : a.Valid) (hb : b.Valid)
    (ho : out.Valid) (h1 : a.bells.length = b.bells.length)
    (h2 : a.bells.length = out.bells.length) (h : a.mulIntoRow b out = .ok (.ok c)) :
    a.mulIntoRowUnchecked b.bells out.bells = .ok c.bells := by
  unfold Row.mulIntoRow at h
  rw [ha.stage_eq, hb.stage_eq, ho.stage_eq, ← h1, ← h2] at h
  simp only [IncompatibleStages.testErr, if_true, bind, Except.bind, pure, Except.pure] at h
  cases hx : a.mulIntoRowUnchecked b.bells out.bells with
  | error e => rw [hx] at h; cases h
  | ok bs =>
    rw [hx] at h
    simp only [Except.ok.injEq] at h
    rw [← h]

/-- With equal stages every unchecked multiplication is the checked one, whatever the buffer held,
and the result is a valid row of that stage. -/
theorem C83_rows (a b out : Row) (ha : a.Valid) (hb : b.Valid)
    (h : a.bells.length = b.bells.length) :
    ∃ c, c.Valid ∧ c.bells.length = a.bells.length ∧
      a.mulResult b = .ok (.ok c) ∧ a.mulUnchecked b = .ok c ∧
      a.mulIntoUnchecked b out = .ok c ∧
      (out.Valid → out.bells.length = a.bells.length →
        a.mulIntoRow b out = .ok (.ok c) ∧
        a.mulIntoRowUnchecked b.bells out.bells = .ok c.bells) := by
  obtain ⟨c, _, h2, h3, _, h5, h6⟩ := C10_entry_points_agree a b out ha hb h
  obtain ⟨n, hn, σ, rfl⟩ := (C06_valid_iff a).2.1 ha
  obtain ⟨m, hm, τ, rfl⟩ := (C06_valid_iff b).2.1 hb
  simp only [Row.ofPerm_length] at h
  subst h
  have hc := h3
  rw [Row.mulUnchecked_ofPerm] at hc
  obtain rfl := Except.ok.inj hc
  refine ⟨_, Row.ofPerm_valid hn _, by simp, h2, h3, h5, fun ho hlen => ?_⟩
  exact ⟨h6 hlen, mulIntoRowUnchecked_of_mulIntoRow ha hb ho (by simp) hlen.symm (h6 hlen)⟩

example := C83_rows ⟨[⟨1⟩, ⟨2⟩, ⟨0⟩]⟩ ⟨[⟨1⟩, ⟨0⟩, ⟨2⟩]⟩ ⟨[⟨0⟩, ⟨1⟩]⟩ (by decide) (by decide) rfl

/-- With equal stages `tranposition_to_unchecked` is the checked function: the row that
pre-multiplies the first row to the second. -/
theorem C83_transposition (a b : Row) (ha : a.Valid) (hb : b.Valid)
    (h : a.bells.length = b.bells.length) :
    ∃ x, x.Valid ∧ a.transpositionToUnchecked b = .ok x ∧
      Row.solveXaEqualsB a b = .ok (.ok x) ∧ x.mul a = .ok b := by
  obtain ⟨n, hn, σ, rfl⟩ := (C06_valid_iff a).2.1 ha
  obtain ⟨m, hm, τ, rfl⟩ := (C06_valid_iff b).2.1 hb
  simp only [Row.ofPerm_length] at h
  subst h
  refine ⟨_, Row.ofPerm_valid hn (τ * σ⁻¹), ?_, Row.solveXa_ofPerm hn σ τ, ?_⟩
  · unfold Row.transpositionToUnchecked
    rw [Row.inv_ofPerm hn]
    exact Row.mulUnchecked_ofPerm τ σ⁻¹
  · rw [Row.mul_ofPerm hn, inv_mul_cancel_right]

/-- Two rows of one stage. -/
example : (⟨[⟨1⟩, ⟨2⟩, ⟨0⟩]⟩ : Row).Valid ∧ (⟨[⟨0⟩, ⟨2⟩, ⟨1⟩]⟩ : Row).Valid ∧
    (⟨[⟨1⟩, ⟨2⟩, ⟨0⟩]⟩ : Row).transpositionToUnchecked ⟨[⟨0⟩, ⟨2⟩, ⟨1⟩]⟩ =
      .ok ⟨[⟨1⟩, ⟨0⟩, ⟨2⟩]⟩ :=
  ⟨((C83_constructors_partial _).1).2 (by unfold SafeBells; decide),
    ((C83_constructors_partial _).1).2 (by unfold SafeBells; decide), rfl⟩

/-- With different stages, outside what the documentation allows, an unchecked multiplication
panics when the left row is the shorter one. When it is the longer one the result has as many bells
as the right row, and is a valid row exactly when the left row keeps those bells among
themselves. -/
theorem C83_mul_other_stages (a b : Row) (ha : a.Valid) (hb : b.Valid) :
    (a.bells.length < b.bells.length → a.mulUnchecked b = .error .index) ∧
    (b.bells.length ≤ a.bells.length →
      ∃ c : Row, a.mulUnchecked b = .ok c ∧ c.bells.length = b.bells.length ∧
        (c.Valid ↔ ∀ x ∈ a.bells.take b.bells.length, x.index < b.bells.length)) := by
  have hmap : ∀ l : List Bell, (∀ y ∈ l, y.index < a.bells.length) →
      Row.mulBells a.bells l = .ok (l.map fun y => a.bells[y.index]?.getD y) := by
    intro l
    induction l with
    | nil => intro _; rfl
    | cons y l ih =>
      intro hy
      have h1 := hy y (by simp)
      have h2 := ih (fun z hz => hy z (by simp [hz]))
      unfold Row.mulBells at h2 ⊢
      rw [List.mapM_cons, h2]
      simp [getIdx, List.getElem?_eq_getElem h1, bind, Except.bind, pure, Except.pure]
  constructor
  · intro hlt
    have hx : (⟨a.bells.length⟩ : Bell) ∈ b.bells := (hb.mem_iff _).2 hlt
    have : ∀ l : List Bell, (⟨a.bells.length⟩ : Bell) ∈ l →
        Row.mulBells a.bells l = .error .index := by
      intro l
      induction l with
      | nil => intro h; cases h
      | cons y l ih =>
        intro hy
        by_cases hlt' : y.index < a.bells.length
        · have hne : (⟨a.bells.length⟩ : Bell) ≠ y := by rintro rfl; exact absurd hlt' (lt_irrefl _)
          have h2 := ih ((List.mem_cons.1 hy).resolve_left hne)
          unfold Row.mulBells at h2 ⊢
          rw [List.mapM_cons, h2]
          simp [getIdx, List.getElem?_eq_getElem hlt', bind, Except.bind]
        · unfold Row.mulBells
          rw [List.mapM_cons]
          simp [getIdx, List.getElem?_eq_none (not_lt.1 hlt'), bind, Except.bind]
    unfold Row.mulUnchecked
    rw [this _ hx]
    rfl
  · intro hle
    have hidx : ∀ y ∈ b.bells, y.index < b.bells.length := fun y hy => (hb.mem_iff y).1 hy
    have hm := hmap b.bells (fun y hy => lt_of_lt_of_le (hidx y hy) hle)
    refine ⟨Row.comp a b, ?_, by simp [Row.comp], ?_⟩
    · unfold Row.mulUnchecked
      rw [hm]
      rfl
    · have hlen : (Row.comp a b).bells.length = b.bells.length := by simp [Row.comp]
      constructor
      · intro hv x hx
        obtain ⟨i, hi, rfl⟩ := List.mem_iff_getElem.1 hx
        have hi' : i < b.bells.length := by simp at hi; omega
        have hs : ∀ x ∈ (Row.comp a b).bells, x.index < b.bells.length := by
          rw [← hlen]
          exact fun x hx => (hv.mem_iff x).1 hx
        refine hs _ ?_
        refine List.mem_map.2 ⟨⟨i⟩, (hb.mem_iff _).2 hi', ?_⟩
        have : i < a.bells.length := lt_of_lt_of_le hi' hle
        simp [List.getElem?_eq_getElem this]
      · intro hx
        refine Row.valid_of_nodup_lt (bs := (Row.comp a b).bells) ?_ ?_ ?_
        · intro h0
          have := hlen
          rw [h0] at this
          exact hb.1 (List.length_eq_zero_iff.1 this.symm)
        · refine List.Nodup.map_on ?_ hb.nodup
          intro y hy z hz heq
          have hy' := lt_of_lt_of_le (hidx y hy) hle
          have hz' := lt_of_lt_of_le (hidx z hz) hle
          rw [List.getElem?_eq_getElem hy', List.getElem?_eq_getElem hz'] at heq
          have := (List.Nodup.getElem_inj_iff ha.nodup).1 heq
          cases y; cases z; simp_all
        · intro c hc
          obtain ⟨y, hy, rfl⟩ := List.mem_map.1 hc
          have hy' := lt_of_lt_of_le (hidx y hy) hle
          rw [List.getElem?_eq_getElem hy', hlen]
          refine hx _ ?_
          rw [List.mem_take_iff_getElem]
          exact ⟨y.index, by have := hidx y hy; omega, rfl⟩

/-- The two rows of the example in the documentation of `mul_unchecked`. -/
example : (⟨[⟨0⟩, ⟨2⟩, ⟨3⟩, ⟨6⟩, ⟨4⟩, ⟨5⟩, ⟨1⟩, ⟨7⟩]⟩ : Row).mulUnchecked ⟨[⟨3⟩, ⟨2⟩, ⟨1⟩, ⟨0⟩]⟩ =
    .ok ⟨[⟨6⟩, ⟨3⟩, ⟨2⟩, ⟨0⟩]⟩ := rfl

/-! ## Vectors of rows -/

/-- The concatenated bells of rows of one stage give the vector of those rows. -/
theorem C83_vectors (s : Stage) (rows : List Row) (h : RowsOf s rows) :
    (SameStageVec.fromBellVecUnchecked (rows.flatMap Row.bells) s).len = .ok rows.length ∧
    (SameStageVec.fromBellVecUnchecked (rows.flatMap Row.bells) s).iter.collect = .ok rows ∧
    (SameStageVec.fromBellVecUnchecked (rows.flatMap Row.bells) s).stage = s := by
  have he : SameStageVec.fromBellVecUnchecked (rows.flatMap Row.bells) s = .ofRows s rows := rfl
  rw [he]
  refine ⟨SameStageVec.ofRows_len h, ?_, rfl⟩
  obtain ⟨it, h1, h2⟩ := C23_iterator_history s rows h []
  simp only [IterOp.runs, IterOp.specs] at h1 h2
  cases h1
  exact h2

example : RowsOf ⟨2⟩ [⟨[⟨0⟩, ⟨1⟩]⟩, ⟨[⟨1⟩, ⟨0⟩]⟩] ∧
    SameStageVec.fromBellVecUnchecked [⟨0⟩, ⟨1⟩, ⟨1⟩, ⟨0⟩] ⟨2⟩ =
      .ofRows ⟨2⟩ [⟨[⟨0⟩, ⟨1⟩]⟩, ⟨[⟨1⟩, ⟨0⟩]⟩] := by
  decide

/-! ## Place notation -/

/-- On places in increasing order, `from_sorted_slice` never panics, and accepts exactly the places
that determine a change, with the implicit places added. -/
theorem C83_from_sorted_slice (l : List Nat) (hl : l.Pairwise (· ≤ ·)) (n : Nat) :
    (Completable n l → ∃ τ : Perm (Fin n), IsChange τ ∧
      PlaceNot.fromSortedSlice l ⟨n⟩ = .ok (.ok (.ofChange τ)) ∧
      ∀ x : Fin n, τ x = x ↔ Completed n l x.val) ∧
    (¬ Completable n l → ∃ e, PlaceNot.fromSortedSlice l ⟨n⟩ = .ok (.error e)) := by
  rcases fromSortedSlice_spec (n := n) l hl with
    ⟨h1, h2⟩ | ⟨p, h1, h2, h3, h4⟩ | ⟨h1, d, h2, h3⟩ | ⟨h1, a, b, h2, h3, h4, h5⟩ | ⟨h1, ps, h2, h3, h4⟩
  · exact ⟨fun hc => absurd h1 hc.1, fun _ => ⟨_, h2⟩⟩
  · exact ⟨fun hc => absurd (hc.2.1 p h1) (by omega), fun _ => ⟨_, h4⟩⟩
  · refine ⟨fun hc => ?_, fun _ => ⟨_, h2⟩⟩
    have := List.nodup_iff_count_le_one.1 hc.2.2.1 d
    omega
  · refine ⟨fun hc => ?_, fun _ => ⟨_, h2⟩⟩
    have := hc.2.2.2 a b h3
    omega
  · refine ⟨fun _ => ?_, fun hc => absurd h1 hc⟩
    obtain ⟨τ, h5, h6⟩ := PlaceNot.ofChange_of_gaps h3
    refine ⟨τ, h5, by rw [h6]; exact h2, fun x => ?_⟩
    have hpl := PlaceNot.ofChange_places τ
    rw [h6] at hpl
    have : τ x = x ↔ x.val ∈ ps := by
      simp only at hpl
      rw [hpl, mem_fixedFrom]
      exact ⟨fun h => ⟨Nat.zero_le _, x.isLt, h⟩, fun ⟨_, _, h'⟩ => h'⟩
    rw [this, h4 x.val]

/-- Sorted places that are completed; and, outside what the documentation allows, places that are
not sorted, where the subtraction underflows. -/
example : PlaceNot.fromSortedSlice [1, 3] ⟨6⟩ = .ok (.ok ⟨[0, 1, 2, 3], ⟨6⟩⟩) ∧
    PlaceNot.fromSortedSlice [2, 0] ⟨6⟩ = .error .overflow := by
  decide

/-- With equal stages the unchecked permutations are the checked ones. -/
theorem C83_permute {n : Nat} (hn : 0 < n) (τ : Perm (Fin n)) (hc : IsChange τ) (r : Row)
    (hr : r.Valid) (h : r.bells.length = n) :
    ∃ r', r'.Valid ∧ (PlaceNot.ofChange τ).permute r = .ok (r', .ok ()) ∧
      (PlaceNot.ofChange τ).permuteUnchecked r = .ok r' ∧
      (PlaceNot.ofChange τ).permuteNew r = .ok (.ok r') ∧
      (PlaceNot.ofChange τ).permuteNewUnchecked r = .ok r' := by
  obtain ⟨m, hm, σ, rfl⟩ := (C06_valid_iff r).2.1 hr
  simp only [Row.ofPerm_length] at h
  subst h
  obtain ⟨h1, h2, _⟩ := C31_permute hn τ σ hc
  have h3 := PlaceNot.permuteUnchecked_ofChange hc σ
  exact ⟨_, Row.ofPerm_valid hn _, h1, h3, h2, h3⟩

example := C83_permute (n := 4) (by decide) (swap 1 2) (by decide) ⟨[⟨3⟩, ⟨1⟩, ⟨2⟩, ⟨0⟩]⟩ (by decide) rfl

/-- The unchecked constructor of blocks is the checked one exactly when its two conditions hold. -/
theorem C83_pn_block (pns : List PlaceNot) :
    PnBlock.fromVec pns = .ok (PnBlock.fromVecUnchecked pns) ↔
      pns ≠ [] ∧ ∀ p ∈ pns, ∀ q ∈ pns, p.stage = q.stage := by
  rcases C36_from_vec pns with ⟨h1, h2⟩ | ⟨pn, rest, h1, h2, h3⟩ | ⟨pn, same, q, rest, h1, _, h3, h4⟩
  · rw [h2]
    simp [h1]
  · rw [h3]
    refine ⟨fun _ => ⟨by simp [h1], ?_⟩, fun _ => rfl⟩
    have : ∀ p ∈ pns, p.stage = pn.stage := by
      intro p hp
      rw [h1] at hp
      rcases List.mem_cons.1 hp with rfl | hp
      · rfl
      · exact h2 p hp
    intro p hp q hq
    rw [this p hp, this q hq]
  · rw [h4]
    refine ⟨fun h => by simp at h, fun h => absurd (h.2 q ?_ pn ?_) h3⟩ <;> simp [h1]

/-! ## Regexes -/

/-- On elements that satisfy the normalisation rules the unchecked constructor of regexes is the
checked one. On others it is not: the checked one changes them, without changing what they match. -/
theorem C83_regex (elems : List RegexElem) :
    (Regex.fromVec elems = .ok (Regex.fromVecUnchecked elems) ↔
      (Regex.fromVecUnchecked elems).Normal) ∧
    ∃ re, Regex.fromVec elems = .ok re ∧ re.Normal ∧
      ∀ bs, Lang re.elems bs ↔ Lang (Regex.fromVecUnchecked elems).elems bs := by
  obtain ⟨re, h1, h2, h3, _⟩ := C42_normalise ⟨elems⟩
  refine ⟨⟨fun h => ?_, fun h => C42_normal_unchanged _ h⟩, re, h1, h3, h2⟩
  have : (Except.ok re : Res Regex) = .ok (Regex.fromVecUnchecked elems) := h1.symm.trans h
  rw [← Except.ok.inj this]
  exact h3

/-! ## Masks -/

/-- When the bell is not yet fixed, or is fixed at that place, setting it without checks is setting
it with checks, panics included. The result is well formed if the bell belongs to the stage, and
only then. -/
theorem C83_masks (m : Mask) (hm : m.WellFormed) (b : Bell) (p : Nat)
    (hsafe : (∀ q, ¬ m.Gives q b) ∨ m.Gives p b) :
    m.setBell b p = (m.setBellUnchecked b p).map (fun m' => (m', .ok ())) ∧
    (m.setBellUnchecked b p = .error .index ↔ m.bells.length ≤ p) ∧
    ∀ m', m.setBellUnchecked b p = .ok m' → (m'.WellFormed ↔ b.index < m.bells.length) := by
  by_cases hp : p < m.bells.length
  · have hu : m.setBellUnchecked b p = .ok ⟨m.bells.set p (some b)⟩ := by
      simp only [Mask.setBellUnchecked, setIdx_of_lt _ _ _ hp]
      rfl
    refine ⟨?_, by rw [hu]; simp [hp], ?_⟩
    · rw [hu]
      rcases hsafe with h | h
      · simp only [Mask.setBell]
        cases hf : m.bells.findIdx? (fun x => x == some b) with
        | some q => exact absurd (Mask.findIdx?_gives hf) (h q)
        | none => simp only [hu]; rfl
      · rw [(C40_set_bell m hm b p).2.1 h]
        have : m.bells.set p (some b) = m.bells := by
          apply List.ext_getElem?
          intro i
          by_cases hi : p = i
          · subst hi
            rw [List.getElem?_set_self hp]
            exact h.symm
          · rw [List.getElem?_set_ne hi]
        rw [this]
        rfl
    · intro m' hm'
      rw [hu] at hm'
      obtain rfl := Except.ok.inj hm'
      have hg : ∀ i c, (⟨m.bells.set p (some b)⟩ : Mask).Gives i c ↔
          (i = p ∧ c = b) ∨ (i ≠ p ∧ m.Gives i c) := by
        intro i c
        unfold Mask.Gives
        by_cases hi : p = i
        · subst hi
          simp [List.getElem?_set_self hp, eq_comm]
        · simp [List.getElem?_set_ne hi, Ne.symm hi]
      constructor
      · intro hw
        have := hw.2.2 p b ((hg p b).2 (.inl ⟨rfl, rfl⟩))
        simpa using this
      · intro hb
        refine ⟨fun h0 => ?_, fun i j c hi hj => ?_, fun i c hi => ?_⟩
        · have := congrArg List.length h0
          simp only [List.length_set, List.length_nil] at this
          omega
        · have hother : ∀ q, q ≠ p → ¬ m.Gives q b := by
            intro q hq hgq
            rcases hsafe with h | h
            · exact h q hgq
            · exact hq (hm.2.1 q p b hgq h)
          rcases (hg i c).1 hi with ⟨rfl, rfl⟩ | ⟨hi1, hi2⟩ <;>
            rcases (hg j _).1 hj with ⟨rfl, h2⟩ | ⟨hj1, hj2⟩
          · rfl
          · exact absurd hj2 (hother j hj1)
          · subst h2
            exact absurd hi2 (hother i hi1)
          · exact hm.2.1 i j c hi2 hj2
        · rw [List.length_set]
          rcases (hg i c).1 hi with ⟨_, rfl⟩ | ⟨_, h2⟩
          · exact hb
          · exact hm.2.2 i c h2
  · have hu : m.setBellUnchecked b p = .error .index := by
      simp only [Mask.setBellUnchecked, setIdx, if_neg hp]
      rfl
    have hnot : ¬ m.Gives p b := by
      intro h
      unfold Mask.Gives at h
      rw [List.getElem?_eq_none (not_lt.1 hp)] at h
      cases h
    rw [hu]
    refine ⟨?_, by simp [not_lt.1 hp], fun _ h => by cases h⟩
    rw [(C40_set_bell m hm b p).2.2.2 (hsafe.resolve_right hnot) (not_lt.1 hp)]
    rfl

/-- The same for fixing a bell in its home place: the bell's own place is in the mask exactly when
the bell is of the stage, so the result is always well formed. -/
theorem C83_fix (m : Mask) (hm : m.WellFormed) (b : Bell)
    (hsafe : (∀ q, ¬ m.Gives q b) ∨ m.Gives b.index b) :
    (b.index < m.bells.length → ∃ m', m.fixUnchecked b = .ok m' ∧ m.fix b = .ok (m', .ok ()) ∧
      m'.WellFormed) ∧
    (m.bells.length ≤ b.index → m.fixUnchecked b = .error .index ∧ m.fix b = .error .index) := by
  obtain ⟨h1, h2, h3⟩ := C83_masks m hm b b.index hsafe
  unfold Mask.fixUnchecked Mask.fix
  constructor
  · intro hb
    cases hu : m.setBellUnchecked b b.index with
    | error e =>
      have : m.setBellUnchecked b b.index = .error .index := by
        simp only [Mask.setBellUnchecked, setIdx_of_lt _ _ _ hb] at hu
        cases hu
      exact absurd (h2.1 this) (by omega)
    | ok m' =>
      refine ⟨m', rfl, by rw [h1, hu]; rfl, (h3 m' hu).2 hb⟩
  · intro hb
    have := h2.2 hb
    exact ⟨this, by rw [h1, this]; rfl⟩

/-- A mask with a bell fixed at the place asked for, and one where the bell is still free. -/
example : (⟨[none, some ⟨1⟩, none]⟩ : Mask).WellFormed ∧
    (⟨[none, some ⟨1⟩, none]⟩ : Mask).Gives 1 ⟨1⟩ ∧
    ∀ q, ¬ (⟨[none, some ⟨1⟩, none]⟩ : Mask).Gives q ⟨2⟩ := by
  refine ⟨(C40_parse_partial "x2x".toList).2 (by decide), by simp [Mask.Gives], fun q => ?_⟩
  unfold Mask.Gives
  rcases q with _ | _ | _ | q <;> simp

end Bellframe.Props
