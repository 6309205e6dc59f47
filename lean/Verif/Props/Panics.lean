import Verif.Spec.Panics
import Verif.Props.Text
import Verif.Props.Errors
import Verif.Props.RowAlgebra
import Verif.Props.RowSets
import Verif.Props.RowAccumulator
import Verif.Props.SameStageVec
import Verif.Props.Unwind
import Verif.Props.Mask
import Verif.Props.Music
import Verif.Props.Method
import Verif.Props.MethodLib
import Verif.Props.Call

/-! # C82: exactly when calls panic or run forever -/

namespace Bellframe.Props

open Equiv

/-! ## Outcomes -/

theorem outcome_ok {α : Type} {x : Res α} (h : ∃ a, x = .ok a) : x.outcome = .returns := by
  obtain ⟨a, rfl⟩ := h
  rfl

theorem outcome_error {α : Type} {x : Res α} (h : ∃ p, x = .error p) : x.outcome = .panics := by
  obtain ⟨a, rfl⟩ := h
  rfl

theorem outcome_iff {α : Type} {x : Res α} {P : Prop} (h1 : P → ∃ p, x = .error p)
    (h2 : ¬ P → ∃ a, x = .ok a) : x.outcome = .panics ↔ P := by
  by_cases hP : P
  · simp [outcome_error (h1 hP), hP]
  · simp [outcome_ok (h2 hP), hP]

theorem outcome_never {α : Type} {x : Res α} (h : ∃ a, x = .ok a) : x.outcome = .panics ↔ False :=
  outcome_iff (fun h => h.elim) (fun _ => h)

theorem outcome_ne_runsForever {α : Type} (x : Res α) : x.outcome ≠ .runsForever := by
  cases x <;> simp [Res.outcome]

theorem run_outcome_returns {α : Type} {x : Run α} (h : ∃ a, x.Returns a) :
    x.outcome = .returns := by
  obtain ⟨a, h⟩ := h
  rw [h]
  rfl

theorem run_outcome_panics {α : Type} {x : Run α} (h : ∃ p, x.Panics p) : x.outcome = .panics := by
  obtain ⟨a, h⟩ := h
  rw [h]
  rfl

theorem run_outcome_diverges {α : Type} {x : Run α} (h : x.Diverges) :
    x.outcome = .runsForever := by
  rw [h]
  rfl

theorem run_outcome_never {α : Type} {x : Run α} (h : ∃ a, x.Returns a) :
    x.outcome = .panics ↔ False := by
  simp [run_outcome_returns h]

/-! ## Rows -/

theorem stage_visit_panics (toLower : String → String) (v : Bell.SerdeValue) :
    (Stage.visit toLower v).outcome = .panics ↔ v = .u64 0 ∨ v = .uSmall 0 ∨ v = .int 0 := by
  obtain ⟨h1, h2, h3, h4, h5⟩ := C04_never_panics_partial toLower
  obtain ⟨z1, z2, z3⟩ := C04_zero_panics toLower
  refine outcome_iff ?_ ?_
  · rintro (rfl | rfl | rfl)
    exacts [⟨_, z1⟩, ⟨_, z2⟩, ⟨_, z3⟩]
  · intro h
    cases v with
    | u64 n => exact ⟨_, (h1 n (Nat.pos_of_ne_zero fun h0 => h (by simp [h0]))).1⟩
    | uSmall n => exact ⟨_, (h1 n (Nat.pos_of_ne_zero fun h0 => h (by simp [h0]))).2⟩
    | int n =>
      rcases lt_trichotomy n 0 with hn | hn | hn
      · exact ⟨_, h3 n hn⟩
      · exact absurd (by simp [hn]) h
      · exact ⟨_, h2 n hn⟩
    | str s => exact ⟨_, h4 s⟩
    | char c => exact h5 c

theorem isGroup_total (rows : List Row) (hv : ∀ r ∈ rows, r.Valid) : ∃ x, Row.isGroup rows = .ok x := by
  by_cases hne : rows = []
  · subst hne
    exact ⟨_, C19_degenerate.1⟩
  · by_cases hmix : ∃ n, ∀ r ∈ rows, r.bells.length = n
    · obtain ⟨n, hn⟩ := hmix
      obtain ⟨b, hb, -⟩ := C19_is_group_intrinsic rows n hne (fun r hr => ⟨hv r hr, hn r hr⟩)
      exact ⟨_, hb⟩
    · obtain ⟨_, _, _, _, _, h⟩ := C19_degenerate.2 rows hv hmix
      exact ⟨_, h⟩

theorem leastGroup_total (rows : List Row) (hv : ∀ r ∈ rows, r.Valid) :
    ∃ x, (Row.leastGroupContaining rows).Returns x := by
  by_cases hne : rows = []
  · subst hne
    exact ⟨_, C18_empty⟩
  · by_cases hmix : ∃ n, ∀ r ∈ rows, r.bells.length = n
    · obtain ⟨n, hn⟩ := hmix
      obtain ⟨σs, rfl⟩ : ∃ σs : List (Perm (Fin n)), rows = σs.map Row.ofPerm := by
        clear hne
        induction rows with
        | nil => exact ⟨[], rfl⟩
        | cons r rows ih =>
          obtain ⟨σs, rfl⟩ := ih (fun r hr => hv r (by simp [hr])) (fun r hr => hn r (by simp [hr]))
          obtain ⟨k, hk, σ, rfl⟩ := C16_covers_valid_rows r (hv r (by simp))
          have : k = n := by simpa using hn (.ofPerm σ) (by simp)
          subst this
          exact ⟨σ :: σs, rfl⟩
      have hn0 : 0 < n := by
        obtain ⟨r, hr⟩ := List.exists_mem_of_ne_nil _ hne
        have := (hv r hr).1
        rw [← hn r hr]
        exact List.length_pos_iff.2 this
      obtain ⟨out, h, -⟩ := C18_least_group hn0 σs (by simpa using hne)
      exact ⟨_, h⟩
    · obtain ⟨_, _, _, _, _, _, _, _, _, h⟩ := C18_mixed_stages rows hv hmix
      exact ⟨_, h⟩

theorem powI_total (r : Row) (h : r.Valid) (k : Int) : ∃ a, r.powI k = .ok a := by
  obtain ⟨a, _, _, _, h, _⟩ := C13_pow_i_laws r h k 0
  exact ⟨a, h⟩

theorem mulIntoRow_total (a b out : Row) (ha : a.Valid) (hb : b.Valid) (hout : out.Valid) :
    ∃ x, a.mulIntoRow b out = .ok x := by
  obtain ⟨h1, h2⟩ := C10_mul_mismatch a b out ha hb
  by_cases h : a.bells.length = b.bells.length
  · obtain ⟨-, -, h3⟩ := h2 h
    by_cases h' : out.bells.length = a.bells.length
    · obtain ⟨c, hc⟩ := (h3 hout).1.2 h'
      exact ⟨_, hc⟩
    · exact ⟨_, (h3 hout).2 h'⟩
  · exact ⟨_, (h1 h).2.2.1⟩

theorem acc_total (op : AccOp) (hop : op.row.Valid) (a : RowAccumulator) (ha : a.total.Valid) :
    ∃ x, AccOp.run [op] a = .ok x := by
  obtain ⟨total, temp⟩ := a
  obtain ⟨⟨temp', h⟩, -⟩ := C21_accumulator [op] (by simpa using hop) total temp ha
  exact ⟨_, h⟩

theorem swap_cases (r : Row) (i j : Nat) :
    (r.bells.length ≤ i ∨ r.bells.length ≤ j → ∃ p, r.swap i j = .error p) ∧
    (¬ (r.bells.length ≤ i ∨ r.bells.length ≤ j) → ∃ r', r.swap i j = .ok r') := by
  constructor
  · intro h
    by_cases hi : r.bells.length ≤ i
    · have : getIdx r.bells i = .error .index := by simp [getIdx, hi]
      exact ⟨.index, by simp [Row.swap, this]⟩
    · have h1 : getIdx r.bells i = .ok r.bells[i] := by
        simp [getIdx, List.getElem?_eq_getElem (show i < r.bells.length by omega)]
      have h2 : getIdx r.bells j = .error .index := by
        simp [getIdx, show r.bells.length ≤ j by omega]
      exact ⟨.index, by simp [Row.swap, h1, h2]⟩
  · intro h
    have h1 : getIdx r.bells i = .ok r.bells[i] := by
      simp [getIdx, List.getElem?_eq_getElem (show i < r.bells.length by omega)]
    have h2 : getIdx r.bells j = .ok r.bells[j] := by
      simp [getIdx, List.getElem?_eq_getElem (show j < r.bells.length by omega)]
    exact ⟨⟨(r.bells.set i r.bells[j]).set j r.bells[i]⟩, by simp [Row.swap, h1, h2]⟩

/-- Calls about bells, stages and rows panic exactly when `RowCall.PanicsWhen` says. -/
theorem C82_rows (c : RowCall) (h : c.ArgsOk) :
    (c.outcome = .panics ↔ c.PanicsWhen) ∧ c.outcome ≠ .runsForever := by
  cases c with
  | bellSub b n =>
    refine ⟨outcome_iff ?_ ?_, outcome_ne_runsForever _⟩
    · intro h1
      exact (C01_arithmetic b b n).2.2.2.2 (by simp [Bell.number, RowCall.PanicsWhen] at h1 ⊢; omega)
    · intro h1
      simp only [RowCall.PanicsWhen] at h1
      exact ⟨⟨b.index - n⟩, (C01_arithmetic b ⟨b.index - n⟩ n).2.1.2 (by simp [Bell.number]; omega)⟩
  | bellDeserialize v => exact ⟨outcome_never ((C02_round_trip_partial ⟨0⟩).1 v), outcome_ne_runsForever _⟩
  | stageNew n =>
    refine ⟨outcome_iff ?_ ?_, outcome_ne_runsForever _⟩
    · intro h1
      simp only [RowCall.PanicsWhen] at h1
      subst h1
      exact ⟨_, (C03_stage_nonzero 0 ⟨1⟩).2.2.1⟩
    · intro h1
      exact ⟨⟨n⟩, (C03_stage_nonzero n ⟨n⟩).2.1.2 ⟨Nat.pos_of_ne_zero h1, rfl⟩⟩
  | stageTenor s => exact ⟨outcome_never ⟨_, (C03_stage_bells s h).2.2.1⟩, outcome_ne_runsForever _⟩
  | stageDeserialize toLower v => exact ⟨stage_visit_panics toLower v, outcome_ne_runsForever _⟩
  | stageDebug s => exact ⟨outcome_never (C69_stages s s h h).1, outcome_ne_runsForever _⟩
  | fromVecWithStage bells s => exact ⟨outcome_never (C07_never_panics bells s), outcome_ne_runsForever _⟩
  | parseWithStage text s => exact ⟨outcome_never (C07_never_panics _ s), outcome_ne_runsForever _⟩
  | stage r => exact ⟨outcome_never ⟨_, Row.Valid.stage_eq h⟩, outcome_ne_runsForever _⟩
  | extendToStage r s =>
    refine ⟨outcome_iff ?_ ?_, outcome_ne_runsForever _⟩ <;> intro h1 <;>
      simp only [RowCall.PanicsWhen] at h1 <;>
      simp only [Row.extendToStage, h.1.stage_eq, Res.ok_bind, assertThat]
    · rw [if_neg (by simpa using h1)]
      exact ⟨_, rfl⟩
    · rw [if_pos (by simpa using h1)]
      exact ⟨_, rfl⟩
  | index r i =>
    refine ⟨outcome_iff ?_ ?_, outcome_ne_runsForever _⟩ <;> intro h1 <;>
      simp only [RowCall.PanicsWhen] at h1
    · exact ⟨.index, by simp [Row.get, getIdx, h1]⟩
    · exact ⟨r.bells[i], by
        simp [Row.get, getIdx, List.getElem?_eq_getElem (show i < r.bells.length by omega)]⟩
  | swap r i j => exact ⟨outcome_iff (swap_cases r i j).1 (swap_cases r i j).2, outcome_ne_runsForever _⟩
  | parity r =>
    obtain ⟨p, hp⟩ := C14_parity_leaves_rounds r h
    exact ⟨run_outcome_never ⟨_, hp⟩, by simp [RowCall.outcome, run_outcome_returns ⟨_, hp⟩]⟩
  | effectiveStage r =>
    obtain ⟨s, hs, -⟩ := C15_effective_stage r
    exact ⟨outcome_never ⟨_, hs⟩, outcome_ne_runsForever _⟩
  | mul a b =>
    refine ⟨outcome_iff ?_ ?_, outcome_ne_runsForever _⟩
    · intro h1
      exact ⟨_, ((C10_mul_mismatch a b a h.1 h.2).1 h1).2.2.2⟩
    · intro h1
      obtain ⟨c, hc, -⟩ := C10_mul_spec a b h.1 h.2 (by simpa [RowCall.PanicsWhen] using h1)
      exact ⟨c, hc⟩
  | mulResult a b =>
    refine ⟨outcome_never ?_, outcome_ne_runsForever _⟩
    by_cases h1 : a.bells.length = b.bells.length
    · obtain ⟨c, hc⟩ := ((C10_mul_mismatch a b a h.1 h.2).2 h1).1
      exact ⟨_, hc⟩
    · exact ⟨_, ((C10_mul_mismatch a b a h.1 h.2).1 h1).1⟩
  | mulInto a b out =>
    refine ⟨outcome_never ?_, outcome_ne_runsForever _⟩
    by_cases h1 : a.bells.length = b.bells.length
    · obtain ⟨c, hc⟩ := ((C10_mul_mismatch a b out h.1 h.2.1).2 h1).2.1
      exact ⟨_, hc⟩
    · exact ⟨_, ((C10_mul_mismatch a b out h.1 h.2.1).1 h1).2.1⟩
  | mulIntoRow a b out =>
    exact ⟨outcome_never (mulIntoRow_total a b out h.1 h.2.1 h.2.2), outcome_ne_runsForever _⟩
  | inv r =>
    obtain ⟨ri, hri, -⟩ := C11_inverse r h
    exact ⟨outcome_never ⟨_, hri⟩, outcome_ne_runsForever _⟩
  | invInto r out =>
    obtain ⟨ri, -, -, hri⟩ := C11_entry_points_agree r out h.1 h.2.1
    exact ⟨outcome_never ⟨_, hri⟩, outcome_ne_runsForever _⟩
  | invIntoBuf r out =>
    obtain ⟨ri, -, hri, -⟩ := C11_entry_points_agree r out h.1 h.2.1
    exact ⟨outcome_never ⟨_, hri⟩, outcome_ne_runsForever _⟩
  | solveAxEqualsB a b =>
    refine ⟨outcome_never ?_, outcome_ne_runsForever _⟩
    by_cases h1 : a.bells.length = b.bells.length
    · obtain ⟨⟨x, -, -, hx⟩, -⟩ := (C12_solutions_exist a b h.1 h.2).1 h1
      exact ⟨_, hx⟩
    · exact ⟨_, ((C12_solutions_exist a b h.1 h.2).2 h1).1⟩
  | solveXaEqualsB a b =>
    refine ⟨outcome_never ?_, outcome_ne_runsForever _⟩
    by_cases h1 : a.bells.length = b.bells.length
    · obtain ⟨-, ⟨x, -, -, hx⟩⟩ := (C12_solutions_exist a b h.1 h.2).1 h1
      exact ⟨_, hx⟩
    · exact ⟨_, ((C12_solutions_exist a b h.1 h.2).2 h1).2⟩
  | powU r k =>
    obtain ⟨-, p, -, hp, -⟩ := C13_pow_u_product r h k
    exact ⟨outcome_never ⟨_, hp⟩, outcome_ne_runsForever _⟩
  | powI r k => exact ⟨outcome_never (powI_total r h k), outcome_ne_runsForever _⟩
  | closure r =>
    obtain ⟨n, hn, σ, rfl⟩ := C16_covers_valid_rows r h
    obtain ⟨l, hl, -⟩ := C16_closure σ
    exact ⟨run_outcome_never ⟨_, hl⟩, by simp [RowCall.outcome, run_outcome_returns ⟨_, hl⟩]⟩
  | closureFromRounds r =>
    obtain ⟨n, hn, σ, rfl⟩ := C16_covers_valid_rows r h
    obtain ⟨l, hl, -⟩ := C16_closure_from_rounds hn σ
    exact ⟨run_outcome_never ⟨_, hl⟩, by simp [RowCall.outcome, run_outcome_returns ⟨_, hl⟩]⟩
  | multiCartesianProduct sets =>
    exact ⟨outcome_never (C17_stage_error sets h).1, outcome_ne_runsForever _⟩
  | leastGroupContaining rows =>
    have := leastGroup_total rows h
    exact ⟨run_outcome_never this, by simp [RowCall.outcome, run_outcome_returns this]⟩
  | isGroup rows => exact ⟨outcome_never (isGroup_total rows h), outcome_ne_runsForever _⟩
  | fastHash w r =>
    obtain ⟨h1, h2, -⟩ := C20_checked w r h
    refine ⟨outcome_iff (fun h3 => ⟨_, h2 h3⟩) (fun h3 => ?_), outcome_ne_runsForever _⟩
    obtain ⟨x, hx, -⟩ := h1 (by simpa [RowCall.PanicsWhen] using h3)
    exact ⟨_, hx⟩
  | accNew r =>
    obtain ⟨t, ht⟩ := (C21_constructors r h ⟨1⟩ Nat.one_pos ⟨r, r⟩ h).1
    exact ⟨outcome_never ⟨_, ht⟩, outcome_ne_runsForever _⟩
  | accRounds s =>
    have hr := (C09_named_rows s h).1
    obtain ⟨t, ht⟩ := (C21_constructors _ hr s h ⟨_, Row.rounds s⟩ hr).2.1
    exact ⟨outcome_never ⟨_, ht⟩, outcome_ne_runsForever _⟩
  | accAccumulate a r =>
    refine ⟨outcome_never ?_, outcome_ne_runsForever _⟩
    obtain ⟨x, hx⟩ := acc_total (.accumulate r) h.2 a h.1
    simp only [AccOp.run] at hx
    cases hy : a.accumulate r with
    | ok y => exact ⟨_, rfl⟩
    | error p => rw [hy] at hx; cases hx
  | accPreAccumulate a r =>
    refine ⟨outcome_never ?_, outcome_ne_runsForever _⟩
    obtain ⟨x, hx⟩ := acc_total (.preAccumulate r) h.2 a h.1
    simp only [AccOp.run] at hx
    cases hy : a.preAccumulate r with
    | ok y => exact ⟨_, rfl⟩
    | error p => rw [hy] at hx; cases hx
  | accMulAssign a r =>
    obtain ⟨-, -, h1, h2⟩ := C21_constructors r h.2 ⟨1⟩ Nat.one_pos a h.1
    refine ⟨outcome_iff (fun h3 => ⟨_, h2 h3⟩) (fun h3 => ?_), outcome_ne_runsForever _⟩
    obtain ⟨t, ht⟩ := h1 (by simpa [RowCall.PanicsWhen] using h3)
    exact ⟨_, ht⟩

/-! ## Vectors -/

theorem clampRange_eq (a b : Utils.Bound) (len : Nat) :
    Utils.clampRange a b len = (a.first, b.stop len) := by
  cases a <;> cases b <;> rfl

theorem parse_vec_cases (text : List Char) :
    (text = [] → ∃ p, SameStageVec.parse text = .error p) ∧
    (text ≠ [] → ∃ r, SameStageVec.parse text = .ok r) := by
  constructor
  · rintro rfl
    exact ⟨_, C25_empty_panics⟩
  · intro h
    obtain ⟨ls, hls, -⟩ := C25_lines_unique text
    rcases C25_parse_partial text ls hls h with ⟨_, _, _, _, _, h⟩ | ⟨_, _, _, _, _, _, _, _, h, _⟩
    · exact ⟨_, h⟩
    · exact ⟨_, h⟩

/-- Calls about vectors of rows panic exactly when `VecCall.PanicsWhen` says. -/
theorem C82_vectors (c : VecCall) (h : c.ArgsOk) :
    (c.outcome = .panics ↔ c.PanicsWhen) ∧ c.outcome ≠ .runsForever := by
  cases c with
  | fromRowBuf r =>
    exact ⟨outcome_never ⟨_, (C23_constructors ⟨1⟩ r h [] [] ⟨Nat.one_pos, by simp⟩
      ⟨Nat.one_pos, by simp⟩).2.1⟩, outcome_ne_runsForever _⟩
  | parse text =>
    exact ⟨outcome_iff (parse_vec_cases text).1 (parse_vec_cases text).2, outcome_ne_runsForever _⟩
  | len s rows => exact ⟨outcome_never ⟨_, SameStageVec.ofRows_len h⟩, outcome_ne_runsForever _⟩
  | last s rows => exact ⟨outcome_never ⟨_, SameStageVec.ofRows_last h⟩, outcome_ne_runsForever _⟩
  | collect s rows =>
    exact ⟨outcome_never ⟨_, SameStageVec.collect_ofRows _ h⟩, outcome_ne_runsForever _⟩
  | debug s rows =>
    obtain ⟨m, -, hm, -⟩ := C69_vectors s s rows rows h h
    exact ⟨outcome_never ⟨_, hm⟩, outcome_ne_runsForever _⟩
  | index s rows i =>
    refine ⟨outcome_iff ?_ ?_, outcome_ne_runsForever _⟩ <;> intro h1 <;>
      simp only [VecCall.PanicsWhen] at h1 <;> rw [SameStageVec.ofRows_index h]
    · exact ⟨.index, by simp [getIdx, h1]⟩
    · exact ⟨rows[i], by
        simp [getIdx, List.getElem?_eq_getElem (show i < rows.length by omega)]⟩
  | swapInRow s rows i j k =>
    have hg := SameStageVec.ofRows_get h i
    unfold SameStageVec.get at hg
    simp only [SameStageVec.ofRows_stage] at hg
    refine ⟨outcome_iff ?_ ?_, outcome_ne_runsForever _⟩ <;> intro h1 <;>
      simp only [VecCall.PanicsWhen] at h1 <;> unfold SameStageVec.setRow <;>
      simp only [SameStageVec.ofRows_stage]
    · rw [List.getElem?_eq_getElem h1.1] at hg
      split at hg
      · cases hg
      · rename_i bells hb
        have hl := (h.2 rows[i] (List.getElem_mem _)).2
        rw [← Option.some.inj hg] at hl
        obtain ⟨p, hp⟩ := (swap_cases ⟨bells⟩ j k).1 (by rw [hl]; exact h1.2)
        exact ⟨p, by simp [hp]⟩
    · split at hg
      · rename_i hb
        exact ⟨none, by simp [hb]⟩
      · rename_i bells hb
        obtain ⟨hi, hg⟩ := List.getElem?_eq_some_iff.1 hg.symm
        have hl := (h.2 rows[i] (List.getElem_mem _)).2
        rw [hg] at hl
        obtain ⟨r', hr'⟩ := (swap_cases ⟨bells⟩ j k).2 (by rw [hl]; exact fun h2 => h1 ⟨hi, h2⟩)
        simp only [hb, hr', Res.ok_bind]
        exact ⟨_, rfl⟩
  | push s rows r =>
    refine ⟨outcome_never ?_, outcome_ne_runsForever _⟩
    rw [SameStageVec.ofRows_push r h.2]
    split <;> exact ⟨_, rfl⟩
  | pop s rows => exact ⟨outcome_never ⟨_, SameStageVec.ofRows_pop h⟩, outcome_ne_runsForever _⟩
  | extend s rows more =>
    refine ⟨outcome_never ?_, outcome_ne_runsForever _⟩
    rw [SameStageVec.ofRows_extend more h.2]
    split <;> exact ⟨_, rfl⟩
  | pathOf s rows b =>
    refine ⟨outcome_never ?_, outcome_ne_runsForever _⟩
    by_cases hb : b.index < s.numBells
    · obtain ⟨path, hp, -⟩ := (C24_path_of s rows h b).1 hb
      exact ⟨_, hp⟩
    · exact ⟨_, (C24_path_of s rows h b).2 (by omega)⟩
  | preMultiply s rows r =>
    refine ⟨outcome_never ?_, outcome_ne_runsForever _⟩
    by_cases hl : r.bells.length = s.numBells
    · obtain ⟨_, _, _, hp, _⟩ := (C24_pre_multiply s rows h.1 r h.2).1 hl
      exact ⟨_, hp⟩
    · exact ⟨_, ((C24_pre_multiply s rows h.1 r h.2).2 hl).1⟩
  | preMultiplied s rows r =>
    refine ⟨outcome_never ?_, outcome_ne_runsForever _⟩
    by_cases hl : r.bells.length = s.numBells
    · obtain ⟨_, _, _, _, hp⟩ := (C24_pre_multiply s rows h.1 r h.2).1 hl
      exact ⟨_, hp⟩
    · exact ⟨_, ((C24_pre_multiply s rows h.1 r h.2).2 hl).2⟩
  | extendRangeTransposed s rows t s2 other a b =>
    obtain ⟨h1, ht, h2⟩ := h
    by_cases hl : t.bells.length = s.numBells
    · obtain ⟨e1, e2, e3⟩ := C24_other_stage_exact s s2 rows other h2 t ht hl a b _ _
        (clampRange_eq a b other.length)
      refine ⟨outcome_iff ?_ ?_, outcome_ne_runsForever _⟩
      · rintro ⟨-, hc | hc | hc⟩
        · exact ⟨_, e1 (.inl hc)⟩
        · exact ⟨_, e1 (.inr hc)⟩
        · by_cases hlt : other.length < b.stop other.length
          · exact ⟨_, e1 (.inr hlt)⟩
          · exact ⟨_, e3 hc.1 (by omega) hc.2⟩
      · intro hc
        simp only [VecCall.PanicsWhen, hl, true_and, not_or, not_lt, not_and] at hc
        obtain ⟨_, -, hok⟩ := e2 hc.1 hc.2.1 (by
          rcases Nat.lt_or_ge a.first (b.stop other.length) with hlt | hge
          · exact .inl (hc.2.2 hlt)
          · exact .inr (by omega))
        exact ⟨_, hok⟩
    · refine ⟨outcome_iff (fun hc => absurd hc.1 hl) (fun _ => ?_), outcome_ne_runsForever _⟩
      have hst : s ≠ ⟨t.bells.length⟩ := by intro h; apply hl; rw [h]
      simp only [SameStageVec.extendRangeTransposed, ht.stage_eq, Res.ok_bind,
        SameStageVec.ofRows_stage, Row.testErr_ne hst]
      exact ⟨_, rfl⟩
  | extendTransposedFromWithin s rows a b t =>
    obtain ⟨h1, ht⟩ := h
    by_cases hl : t.bells.length = s.numBells
    · obtain ⟨e1, e2, e3⟩ := C24_from_within_exact s rows h1 t ht hl a b _ _
        (clampRange_eq a b rows.length)
      refine ⟨outcome_iff ?_ ?_, outcome_ne_runsForever _⟩
      · rintro ⟨-, hc1, hc2⟩
        exact ⟨_, e2 hc1 hc2⟩
      · intro hc
        simp only [VecCall.PanicsWhen, hl, true_and, not_and, not_le] at hc
        rcases Nat.lt_or_ge a.first (b.stop rows.length) with hlt | hge
        · obtain ⟨_, hok, -⟩ := e3 hlt (hc hlt)
          exact ⟨_, hok⟩
        · exact ⟨_, e1 hge⟩
    · refine ⟨outcome_iff (fun hc => absurd hc.1 hl) (fun _ => ?_), outcome_ne_runsForever _⟩
      have hst : s ≠ ⟨t.bells.length⟩ := by intro h; apply hl; rw [h]
      simp only [SameStageVec.extendTransposedFromWithin, ht.stage_eq, Res.ok_bind,
        SameStageVec.ofRows_stage, Row.testErr_ne hst]
      exact ⟨_, rfl⟩

/-! ## Blocks -/

variable {A : Type}

theorem parse_block_cases (dflt : A) (text : List Char) :
    (text = [] → ∃ p, AnnotBlock.parse dflt text = .error p) ∧
    (text ≠ [] → ∃ r, AnnotBlock.parse dflt text = .ok r) := by
  constructor
  · rintro rfl
    exact ⟨_, rfl⟩
  · intro h
    obtain ⟨ls, hls, -⟩ := C25_lines_unique text
    rcases C25_parse_partial text ls hls h with
      ⟨st, rows, hne, hrows, _, h⟩ | ⟨_, _, _, _, _, _, _, _, h, _⟩
    · obtain ⟨⟨b, hb, -⟩, -⟩ := (C26_constructors dflt (fun _ => dflt) st rows hrows text).2.1 hne
      simp only [AnnotBlock.parse, h, Res.ok_bind, SameStageVec.ofRows_isEmpty hrows, hb]
      cases rows with
      | nil => exact absurd rfl hne
      | cons => exact ⟨_, rfl⟩
    · simp only [AnnotBlock.parse, h, Res.ok_bind]
      exact ⟨_, rfl⟩

/-- One call of `next` of the repeating iterator returns and leaves an iterator of the same kind. -/
theorem next_iterAt_total {n : Nat} (hn : 0 < n) (σs : List (Perm (Fin n)))
    (l : Perm (Fin n)) (annots : List A) (h : σs.length = annots.length)
    (head : Perm (Fin n)) (j : Nat) (hj : j ≤ σs.length) :
    ∃ item head' j', j' ≤ σs.length ∧
      (iterAt σs l annots head j).next = .ok (item, iterAt σs l annots head' j') := by
  rcases Nat.eq_zero_or_pos σs.length with h0 | hpos
  · have h1 : InnerIter.next (A := A) ⟨(SameStageVec.ofRows ⟨n⟩ []).iter, [], 0⟩ =
        .ok (none, ⟨(SameStageVec.ofRows ⟨n⟩ []).iter, [], 0⟩) := rfl
    have hσ : σs = [] := List.length_eq_zero_iff.1 h0
    have ha : annots = [] := List.length_eq_zero_iff.1 (by omega)
    have hj0 : j = 0 := by omega
    subst hσ ha hj0
    refine ⟨none, head * l, 0, by simp, ?_⟩
    have h2 := AnnotBlock.rowsIter_ofPerms hn [] l ([] : List A)
    simp only [List.map_nil] at h2
    simp only [RepeatIter.next, RepeatIter.nextUntransposedRow, iterAt, List.drop_nil,
      List.map_nil, h1, Res.ok_bind, AnnotBlock.leftover_ofPerms hn, Row.mul_ofPerm hn,
      RepeatIter.getIter, h2, Res.pure_eq]
    rw [show (AnnotBlock.ofPerms [] l ([] : List A)).annots = [] from rfl, h1]
    rfl
  · by_cases hlt : j < σs.length
    · obtain ⟨e', j', h1, -, h2⟩ := next_iterAt_row hn σs l annots h head 0 j hj hpos
        (σs[j]) (annots[j]) (by simp [Nat.mod_eq_of_lt hlt]) (by simp [Nat.mod_eq_of_lt hlt])
      rw [pow_zero, mul_one] at h2
      exact ⟨_, _, j', h1, h2⟩
    · have hj' : j = σs.length := by omega
      obtain ⟨e', j', h1, -, h2⟩ := next_iterAt_row hn σs l annots h head 0 j hj hpos
        (σs[0]) (annots[0]) (by simp [hj', hpos]) (by simp [hj'])
      rw [pow_zero, mul_one] at h2
      exact ⟨_, _, j', h1, h2⟩

theorem nth_iterAt_total {n : Nat} (hn : 0 < n) (σs : List (Perm (Fin n)))
    (l : Perm (Fin n)) (annots : List A) (h : σs.length = annots.length) (k : Nat) :
    ∀ (head : Perm (Fin n)) (j : Nat), j ≤ σs.length →
      ∃ x, ExactIter.nth RepeatIter.next k (iterAt σs l annots head j) = .ok x := by
  have key : ∀ (head : Perm (Fin n)) (j : Nat), j ≤ σs.length → ∃ b head' j', j' ≤ σs.length ∧
      ExactIter.advance RepeatIter.next k (iterAt σs l annots head j) =
        .ok (b, iterAt σs l annots head' j') := by
    induction k with
    | zero => exact fun head j hj => ⟨true, head, j, hj, rfl⟩
    | succ k ih =>
      intro head j hj
      obtain ⟨item, head', j', hj', hx⟩ := next_iterAt_total hn σs l annots h head j hj
      simp only [ExactIter.advance, hx, Res.ok_bind]
      cases item with
      | none => exact ⟨false, head', j', hj', rfl⟩
      | some a => exact ih head' j' hj'
  intro head j hj
  obtain ⟨b, head', j', hj', hx⟩ := key head j hj
  simp only [ExactIter.nth, hx, Res.ok_bind]
  cases b with
  | false => exact ⟨_, rfl⟩
  | true =>
    obtain ⟨item, head'', j'', -, hy⟩ := next_iterAt_total hn σs l annots h head' j' hj'
    exact ⟨_, hy⟩

/-- Calls about blocks panic exactly when `BlockCall.PanicsWhen` says. -/
theorem C82_blocks (c : BlockCall A) (h : c.ArgsOk) :
    (c.outcome = .panics ↔ c.PanicsWhen) ∧ c.outcome ≠ .runsForever := by
  refine ⟨?_, by cases c <;> exact outcome_ne_runsForever _⟩
  cases c with
  | empty s =>
    refine outcome_never ?_
    simp only [AnnotBlock.empty, SameStageVec.fromRowBuf, (C09_named_rows s h).1.stage_eq, Res.ok_bind]
    exact ⟨_, rfl⟩
  | withDefaultAnnots dflt s rows =>
    obtain ⟨-, h1, h2, -⟩ := C26_constructors dflt (fun _ => dflt) s rows h []
    refine outcome_iff (fun h3 => ⟨_, (h2 h3).1⟩) (fun h3 => ?_)
    obtain ⟨⟨b, hb, -⟩, -⟩ := h1 h3
    exact ⟨_, hb⟩
  | withAnnotsFromIndices s rows f =>
    obtain ⟨-, h1, h2, -⟩ := C26_constructors (f 0) f s rows h []
    refine outcome_never ?_
    by_cases h3 : rows = []
    · exact ⟨_, (h2 h3).2⟩
    · obtain ⟨-, b, hb, -⟩ := h1 h3
      exact ⟨_, hb⟩
  | parse dflt text => exact outcome_iff (parse_block_cases dflt text).1 (parse_block_cases dflt text).2
  | rowsIter b =>
    obtain ⟨n, hn, σs, l, annots, hl, rfl⟩ := AnnotBlock.WellFormed.cases h
    exact outcome_never ⟨_, AnnotBlock.rowsIter_ofPerms hn σs l annots⟩
  | effectiveStage b =>
    obtain ⟨n, hn, σs, l, annots, hl, rfl⟩ := AnnotBlock.WellFormed.cases h
    obtain ⟨s, hs, -⟩ := C62_block_effective_stage hn σs l annots
    exact outcome_never ⟨_, hs⟩
  | firstRow b =>
    obtain ⟨n, hn, σs, l, annots, hl, rfl⟩ := AnnotBlock.WellFormed.cases h
    exact outcome_never ⟨_, AnnotBlock.firstRow_ofPerms hn σs l annots⟩
  | leftoverRow b =>
    obtain ⟨n, hn, σs, l, annots, hl, rfl⟩ := AnnotBlock.WellFormed.cases h
    exact outcome_never ⟨_, AnnotBlock.leftover_ofPerms hn σs l annots⟩
  | annotRows b =>
    obtain ⟨n, hn, σs, l, annots, hl, rfl⟩ := AnnotBlock.WellFormed.cases h
    exact outcome_never ⟨_, AnnotBlock.annotRows_ofPerms hn σs l annots hl⟩
  | fullPathOf b bell =>
    obtain ⟨n, hn, σs, l, annots, hl, rfl⟩ := AnnotBlock.WellFormed.cases h
    obtain ⟨h1, h2⟩ := C24_block_paths hn σs l annots
    refine outcome_never ?_
    by_cases hb : bell.index < n
    · exact ⟨_, (h1 ⟨bell.index, hb⟩).1⟩
    · exact ⟨_, (h2 bell.index (by omega)).1⟩
  | pathOf b bell =>
    obtain ⟨n, hn, σs, l, annots, hl, rfl⟩ := AnnotBlock.WellFormed.cases h
    obtain ⟨h1, h2⟩ := C24_block_paths hn σs l annots
    refine outcome_never ?_
    by_cases hb : bell.index < n
    · exact ⟨_, (h1 ⟨bell.index, hb⟩).2⟩
    · exact ⟨_, (h2 bell.index (by omega)).2⟩
  | preMultiply b r =>
    obtain ⟨n, hn, σs, l, annots, hl, rfl⟩ := AnnotBlock.WellFormed.cases h.1
    refine outcome_never ?_
    by_cases hr : r.bells.length = n
    · obtain ⟨k, hk, σ, rfl⟩ := C16_covers_valid_rows r h.2
      simp only [Row.ofPerm_length] at hr
      subst hr
      exact ⟨_, AnnotBlock.preMultiply_ofPerms hn σs l annots σ⟩
    · exact ⟨_, AnnotBlock.preMultiply_mismatch hn σs l annots r h.2 hr⟩
  | extend b other =>
    obtain ⟨n, hn, σs, l, annots, hl, rfl⟩ := AnnotBlock.WellFormed.cases h.1
    obtain ⟨k, hk, τs, m, bnnots, hl2, rfl⟩ := AnnotBlock.WellFormed.cases h.2
    refine outcome_never ?_
    by_cases hnk : n = k
    · subst hnk
      exact ⟨_, AnnotBlock.extend_ofPerms hn σs l annots τs m bnnots hl2 _ rfl⟩
    · exact ⟨_, AnnotBlock.extend_mismatch hn σs l annots hk hnk τs m bnnots⟩
  | extendRange b other x y =>
    obtain ⟨n, hn, σs, l, annots, hl, rfl⟩ := AnnotBlock.WellFormed.cases h.1
    obtain ⟨k, hk, τs, m, bnnots, hl2, rfl⟩ := AnnotBlock.WellFormed.cases h.2
    have hc := clampRange_eq x y bnnots.length
    have hag := (C80_agreement (.new ⟨1⟩) (.new ⟨1⟩) [] ⟨[]⟩ (AnnotBlock.ofPerms σs l annots)
      (.ofPerms τs m bnnots) x y).2.2.2.1
    by_cases hnk : n = k
    · subst hnk
      obtain ⟨e1, e2, -⟩ := C80_extend_range hn σs τs l m annots bnnots hl2 .ok x y _ _ hc
      refine outcome_iff (fun hp => ?_) (fun hp => ?_)
      · by_cases hlt : bnnots.length < x.first
        · rw [← hag, e1 hlt]
          exact ⟨_, rfl⟩
        · rw [← hag, e2 (by omega) (by
            rcases hp with hp | ⟨-, hp | hp⟩ <;> simp only [AnnotBlock.ofPerms] at hp <;> omega)]
          exact ⟨_, rfl⟩
      · simp only [BlockCall.PanicsWhen, AnnotBlock.ofPerms, SameStageVec.ofRows_stage, true_and,
          not_or, not_lt] at hp
        exact ⟨_, AnnotBlock.extendRange_ofPerms hn σs l annots τs m bnnots x y _ _ hc
          ((τs ++ [m])[x.first]'(by simp; omega)) (List.getElem?_eq_getElem _) (by omega) (by omega)⟩
    · have e := C80_extend_range_mismatch hn hk hnk σs τs l m annots bnnots hl2 .ok x y _ _ hc
      refine outcome_iff (fun hp => ?_) (fun hp => ?_) <;> rw [← hag, e]
      · rcases hp with hp | ⟨hp, -⟩
        · rw [if_pos (show bnnots.length < x.first from hp)]
          exact ⟨_, rfl⟩
        · exact absurd (congrArg Stage.numBells hp) hnk
      · rw [if_neg (show ¬ bnnots.length < x.first from fun h => hp (.inl h))]
        exact ⟨_, rfl⟩
  | extendFromWithin b x y =>
    obtain ⟨n, hn, σs, l, annots, hl, rfl⟩ := AnnotBlock.WellFormed.cases h
    have hc := clampRange_eq x y annots.length
    refine outcome_iff (AnnotBlock.extendFromWithin_panics hn σs l annots hl x y _ _ hc) (fun hp => ?_)
    simp only [BlockCall.PanicsWhen, AnnotBlock.ofPerms, not_or, not_lt] at hp
    exact ⟨_, AnnotBlock.extendFromWithin_ofPerms hn σs l annots hl x y _ _ hc
      ((σs ++ [l])[x.first]'(by simp; omega)) (List.getElem?_eq_getElem _) (by omega) (by omega)⟩
  | split b i =>
    obtain ⟨n, hn, σs, l, annots, hl, rfl⟩ := AnnotBlock.WellFormed.cases h
    refine outcome_never ?_
    by_cases hi : i ≤ annots.length
    · obtain ⟨_, _, _, hs, _⟩ := (C28_split hn σs l annots hl i).1 hi
      exact ⟨_, hs⟩
    · exact ⟨_, (C28_split hn σs l annots hl i).2 (by omega)⟩
  | repeatIter b r k =>
    obtain ⟨n, hn, σs, l, annots, hl, rfl⟩ := AnnotBlock.WellFormed.cases h.1
    refine outcome_never ?_
    by_cases hr : r.bells.length = n
    · obtain ⟨m, hm, σ, rfl⟩ := C16_covers_valid_rows r h.2
      simp only [Row.ofPerm_length] at hr
      subst hr
      have hnew : RepeatIter.new (.ofPerm σ) (.ofPerms σs l annots) =
          .ok (.ok (iterAt σs l annots σ 0)) := by
        simp only [RepeatIter.new, Row.ofPerm_stage hn, Res.ok_bind, AnnotBlock.stage,
          AnnotBlock.ofPerms, SameStageVec.ofRows_stage, Row.testErr_self]
        have := AnnotBlock.rowsIter_ofPerms hn σs l annots
        simp only [AnnotBlock.ofPerms] at this
        simp only [RepeatIter.getIter, this, Res.ok_bind]
        rfl
      obtain ⟨x, hx⟩ := nth_iterAt_total hn σs l annots hl k σ 0 (by omega)
      simp only [hnew, Res.ok_bind, hx]
      exact ⟨_, rfl⟩
    · have hne : (⟨r.bells.length⟩ : Stage) ≠ (AnnotBlock.ofPerms σs l annots).stage :=
        fun h => hr (congrArg Stage.numBells h)
      simp only [RepeatIter.new, h.2.stage_eq, Res.ok_bind, Row.testErr_ne hne]
      exact ⟨_, rfl⟩

/-- A transposition of different stages, of equal stages, a row extended downwards, and ranges of rows
inside and outside a vector of one row. -/
example : (RowCall.mul ⟨[⟨1⟩, ⟨0⟩]⟩ ⟨[⟨0⟩]⟩).outcome = .panics ∧
    (RowCall.mul ⟨[⟨1⟩, ⟨0⟩]⟩ ⟨[⟨1⟩, ⟨0⟩]⟩).outcome ≠ .panics ∧
    (RowCall.extendToStage ⟨[⟨1⟩, ⟨0⟩]⟩ ⟨1⟩).outcome = .panics ∧
    (VecCall.index ⟨2⟩ [⟨[⟨1⟩, ⟨0⟩]⟩] 1).outcome = .panics ∧
    (VecCall.index ⟨2⟩ [⟨[⟨1⟩, ⟨0⟩]⟩] 0).outcome ≠ .panics ∧
    (VecCall.extendTransposedFromWithin ⟨2⟩ [⟨[⟨1⟩, ⟨0⟩]⟩] (.included 1) (.excluded 4)
      ⟨[⟨1⟩, ⟨0⟩]⟩).outcome = .panics ∧
    (BlockCall.withDefaultAnnots () ⟨2⟩ []).outcome = .panics ∧
    (BlockCall.withDefaultAnnots () ⟨2⟩ [⟨[⟨1⟩, ⟨0⟩]⟩]).outcome ≠ .panics := by
  have hv : RowsOf ⟨2⟩ [⟨[⟨1⟩, ⟨0⟩]⟩] := by decide
  have h0 : RowsOf ⟨2⟩ [] := by decide
  exact ⟨(C82_rows (.mul ⟨[⟨1⟩, ⟨0⟩]⟩ ⟨[⟨0⟩]⟩) (by simp only [RowCall.ArgsOk]; decide)).1.2
      (by simp only [RowCall.PanicsWhen]; decide),
    fun h => absurd ((C82_rows (.mul ⟨[⟨1⟩, ⟨0⟩]⟩ ⟨[⟨1⟩, ⟨0⟩]⟩) (by simp only [RowCall.ArgsOk]; decide)).1.1 h)
      (by simp only [RowCall.PanicsWhen]; decide),
    (C82_rows (.extendToStage ⟨[⟨1⟩, ⟨0⟩]⟩ ⟨1⟩) (by simp only [RowCall.ArgsOk]; decide)).1.2
      (by simp only [RowCall.PanicsWhen]; decide),
    (C82_vectors (.index ⟨2⟩ [⟨[⟨1⟩, ⟨0⟩]⟩] 1) hv).1.2
      (by simp only [VecCall.PanicsWhen]; decide),
    fun h => absurd ((C82_vectors (.index ⟨2⟩ [⟨[⟨1⟩, ⟨0⟩]⟩] 0) hv).1.1 h)
      (by simp only [VecCall.PanicsWhen]; decide),
    (C82_vectors (.extendTransposedFromWithin ⟨2⟩ [⟨[⟨1⟩, ⟨0⟩]⟩] (.included 1) (.excluded 4)
      ⟨[⟨1⟩, ⟨0⟩]⟩) ⟨hv, by decide⟩).1.2
      (by simp only [VecCall.PanicsWhen]; decide),
    (C82_blocks (.withDefaultAnnots () ⟨2⟩ []) h0).1.2 rfl,
    fun h => absurd ((C82_blocks (.withDefaultAnnots () ⟨2⟩ [⟨[⟨1⟩, ⟨0⟩]⟩]) hv).1.1 h) (by
      simp [BlockCall.PanicsWhen])⟩

end Bellframe.Props
