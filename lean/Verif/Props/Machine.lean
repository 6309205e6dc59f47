import Verif.Proofs.Machine
import Verif.Proofs.RowAlgebra
import Mathlib.Tactic.Positivity

/-!
# C73, C74: the limits of machine words

Elsewhere in the model numbers are unbounded.  Here are the functions that calculate with numbers the
caller can choose freely, on machines with words of `m.bits` bits, in builds with overflow checks and
without.
-/

namespace Bellframe.Props

open Bellframe

/-- A build of the crate for a usual machine, with overflow checks. -/
def debug64 : Build := ⟨64, true⟩

/-- A build of the crate for a usual machine, without overflow checks. -/
def release64 : Build := ⟨64, false⟩

/-! ## C73 -/

/-- Every bell but the very last has the next number; the last has none (or, without checks, number 0). -/
theorem C73_number (m : Build) (b : Bell) (hb : b.index < 2 ^ m.bits) :
    (b.index + 1 < 2 ^ m.bits → b.numberOn m = .ok b.number) ∧
    (b.index + 1 = 2 ^ m.bits → b.numberOn m = if m.overflowChecks then .error .overflow else .ok 0) := by
  unfold Bell.numberOn
  refine ⟨fun h => m.add_of_lt h, fun h => ?_⟩
  unfold Build.add
  rw [if_neg (by omega), h, Nat.mod_self]

/-- Every bell but the very last has its name; the last has none (or, without checks, the name `<0>`). -/
theorem C73_name (m : Build) (h6 : 6 ≤ m.bits) (b : Bell) (hb : b.index < 2 ^ m.bits) :
    (b.index + 1 < 2 ^ m.bits → b.nameOn m = .ok b.name) ∧
    (b.index + 1 = 2 ^ m.bits →
      b.nameOn m = if m.overflowChecks then .error .overflow else .ok ['<', '0', '>']) := by
  obtain ⟨h1, h2⟩ := C73_number m b hb
  unfold Bell.nameOn Bell.name
  constructor
  · intro h
    rw [h1 h]
    cases b.toChar <;> rfl
  · intro h
    have h64 : 2 ^ 6 ≤ 2 ^ m.bits := Nat.pow_le_pow_right (by decide) h6
    have : b.toChar = none := by
      unfold Bell.toChar
      rw [List.getElem?_eq_none_iff]
      have : Bell.bellNames.length = 33 := by decide
      omega
    rw [this, h2 h]
    cases m.overflowChecks <;> rfl

/-- The very last bell of a 64-bit machine is called `<0>`. -/
example : (⟨2 ^ 64 - 1⟩ : Bell).nameOn release64 = .ok ['<', '0', '>'] ∧
    (⟨2 ^ 64 - 1⟩ : Bell).nameOn debug64 = .error .overflow := by
  exact ⟨(C73_name release64 (by decide) _ (by decide)).2 (by decide),
    (C73_name debug64 (by decide) _ (by decide)).2 (by decide)⟩

example : (⟨2 ^ 64 - 2⟩ : Bell).numberOn debug64 = .ok (2 ^ 64 - 1) :=
  (C73_number debug64 ⟨2 ^ 64 - 2⟩ (by decide)).1 (by decide)

/-- Sums and differences of bells and numbers are right when they are bells; otherwise there is a panic
(or, without checks, they wrap around). -/
theorem C73_add_sub (m : Build) (b : Bell) (k : Nat) (hb : b.index < 2 ^ m.bits) (hk : k < 2 ^ m.bits) :
    (b.index + k < 2 ^ m.bits → b.addOn m k = .ok ⟨b.index + k⟩) ∧
    (2 ^ m.bits ≤ b.index + k →
      b.addOn m k = if m.overflowChecks then .error .overflow else .ok ⟨b.index + k - 2 ^ m.bits⟩) ∧
    (k ≤ b.index → b.subOn m k = .ok ⟨b.index - k⟩) ∧
    (b.index < k →
      b.subOn m k = if m.overflowChecks then .error .overflow else .ok ⟨b.index + 2 ^ m.bits - k⟩) := by
  unfold Bell.addOn Bell.subOn
  refine ⟨fun h => ?_, fun h => ?_, fun h => ?_, fun h => ?_⟩
  · rw [m.add_of_lt h]
    rfl
  · unfold Build.add
    rw [if_neg (by omega), Nat.mod_eq_sub_mod h, Nat.mod_eq_of_lt (by omega)]
    cases m.overflowChecks <;> rfl
  · unfold Build.sub
    rw [if_pos h]
    rfl
  · unfold Build.sub
    rw [if_neg (by omega), Nat.mod_eq_of_lt (by omega)]
    cases m.overflowChecks <;> rfl

example : (⟨3⟩ : Bell).subOn release64 5 = .ok ⟨2 ^ 64 - 2⟩ :=
  (C73_add_sub release64 ⟨3⟩ 5 (by decide) (by decide)).2.2.2 (by decide)

/-- The numbers of a range fit into a word. -/
def BoundFits (m : Build) : Utils.Bound → Prop
  | .included v => v < 2 ^ m.bits
  | .excluded v => v < 2 ^ m.bits
  | .unbounded => True

/-- Ranges are as in unbounded arithmetic if both ends of the range are words.  The exceptions are ranges
that end with, or start after, the largest number: there is a panic or, without checks, the end is 0. -/
theorem C73_ranges (m : Build) (start stop : Utils.Bound) (length : Nat) (h1 : BoundFits m start)
    (h2 : BoundFits m stop) (hl : length < 2 ^ m.bits) :
    let r := Utils.clampRange start stop length
    (r.1 < 2 ^ m.bits → r.2 < 2 ^ m.bits → Utils.clampRangeOn m start stop length = .ok r) ∧
    (¬ (r.1 < 2 ^ m.bits ∧ r.2 < 2 ^ m.bits) → Utils.clampRangeOn m start stop length =
      if m.overflowChecks then .error .overflow
      else .ok (if r.1 < 2 ^ m.bits then r.1 else 0, if r.2 < 2 ^ m.bits then r.2 else 0)) := by
  have hpos : 0 < 2 ^ m.bits := by positivity
  let lim : Nat → Res Nat := fun v =>
    if v < 2 ^ m.bits then .ok v else if m.overflowChecks then .error .overflow else .ok 0
  have hlim : ∀ v, v < 2 ^ m.bits → lim v = .ok v := fun v h => if_pos h
  have hadd : ∀ v, v < 2 ^ m.bits → m.add v 1 = lim (v + 1) := by
    intro v h
    unfold Build.add
    by_cases h' : v + 1 < 2 ^ m.bits
    · rw [if_pos h', hlim _ h']
    · simp only [lim]
      rw [if_neg h', if_neg h', show v + 1 = 2 ^ m.bits by omega, Nat.mod_self]
  have heq : Utils.clampRangeOn m start stop length = (do
      let lo ← lim (Utils.clampRange start stop length).1
      let hi ← lim (Utils.clampRange start stop length).2
      return (lo, hi)) := by
    cases start <;> cases stop <;> simp only [BoundFits] at h1 h2 <;>
      simp [Utils.clampRange, Utils.clampRangeOn, hadd, hlim, *]
  intro r
  rw [heq]
  refine ⟨fun a b => by rw [hlim _ a, hlim _ b]; rfl, fun a => ?_⟩
  simp only [lim]
  by_cases h3 : r.1 < 2 ^ m.bits
  · have h4 : ¬ r.2 < 2 ^ m.bits := fun h => a ⟨h3, h⟩
    simp only [r] at h3 h4 ⊢
    rw [if_pos h3, if_neg h4, if_pos h3, if_neg h4]
    cases m.overflowChecks <;> rfl
  · simp only [r] at h3 ⊢
    rw [if_neg h3, if_neg h3]
    cases m.overflowChecks
    · simp only [Bool.false_eq_true, if_false, Res.ok_bind]
      split <;> rfl
    · rfl

/-- All rows up to the largest index: no rows at all without checks. -/
example : Utils.clampRangeOn release64 .unbounded (.included (2 ^ 64 - 1)) 5 = .ok (0, 0) :=
  (C73_ranges release64 .unbounded (.included (2 ^ 64 - 1)) 5 trivial (by simp [BoundFits, release64])
    (by decide)).2 (by decide)

/-- Powers are right for every exponent.  With checks, the least exponent panics. -/
theorem C73_powers (m : Build) (hm : 0 < m.bits) (r : Row) (hr : r.Valid) (e : Int)
    (he : m.FitsSigned e) :
    r.powIOn m e = if m.overflowChecks ∧ e = -2 ^ (m.bits - 1) then .error .overflow else r.powI e := by
  obtain ⟨n, hn, σ, rfl⟩ := Row.valid_iff_exists_perm.1 hr
  have h2 := m.two_pow_pred hm
  unfold Build.FitsSigned at he
  have hpos : (0 : Int) < 2 ^ (m.bits - 1) := by positivity
  unfold Row.powIOn Row.powI
  by_cases h0 : e < 0
  · rw [if_pos h0, if_pos h0, Row.inv_ofPerm hn]
    simp only [Res.ok_bind]
    by_cases hmin : e = -2 ^ (m.bits - 1)
    · have hnf : ¬ m.FitsSigned (-e) := by
        unfold Build.FitsSigned
        omega
      unfold Build.signedResult
      rw [if_neg hnf]
      cases hc : m.overflowChecks with
      | true => simp [hmin]
      | false =>
        have hw : m.wrapSigned (-e) = e := by
          unfold Build.wrapSigned
          rw [hmin, neg_neg, ← two_mul, ← h2, Int.emod_self, zero_sub]
        have hcast : m.castInt e = (-e).toNat := by
          unfold Build.castInt
          congr 1
          rw [← Int.add_emod_right, Int.emod_eq_of_lt (by omega) (by omega)]
          omega
        simp [hw, hcast]
    · have hf : m.FitsSigned (-e) := by
        unfold Build.FitsSigned
        omega
      rw [if_neg (fun h => hmin h.2), m.signedResult_of_fits hf]
      simp only [Res.ok_bind]
      rw [m.castInt_of_lt (by omega) (by omega)]
  · rw [if_neg h0, if_neg h0, if_neg (by omega), m.castInt_of_lt (by omega) (by omega)]

/-- The least power of a row, which takes half of all numbers as its exponent. -/
example : (Row.rounds ⟨3⟩).powIOn debug64 (-2 ^ 63) = .error .overflow ∧
    (Row.rounds ⟨3⟩).powIOn release64 (-2 ^ 63) = (Row.rounds ⟨3⟩).powI (-2 ^ 63) := by
  have hv : (Row.rounds ⟨3⟩).Valid := by
    rw [Row.rounds_eq_ofPerm]
    exact Row.ofPerm_valid (by decide) _
  exact ⟨(C73_powers debug64 (by decide) _ hv (-2 ^ 63) (by decide)).trans (if_pos (by decide)),
    (C73_powers release64 (by decide) _ hv (-2 ^ 63) (by decide)).trans (if_neg (by decide))⟩

theorem differByOneOn_of_lt (m : Build) (hm : 0 < m.bits) {i j : Nat} (hi : (i : Int) < 2 ^ (m.bits - 1))
    (hj : (j : Int) < 2 ^ (m.bits - 1)) :
    Utils.differByOneOn m i j = .ok (((i : Int) - j).natAbs == 1) := by
  have hpos : (0 : Int) < 2 ^ (m.bits - 1) := by positivity
  unfold Utils.differByOneOn
  rw [m.wrapSigned_of_fits hm ⟨by omega, hi⟩, m.wrapSigned_of_fits hm ⟨by omega, hj⟩,
    m.signedResult_of_fits ⟨by omega, by omega⟩]
  simp only [Res.ok_bind]
  rw [m.signedResult_of_fits ⟨by omega, by omega⟩]
  simp only [Res.ok_bind, Res.pure_eq]
  congr 1
  rw [Bool.eq_iff_iff]
  simp only [beq_iff_eq]
  omega

/-- Run lengths are as in unbounded arithmetic, for all bells in the lower half of the range (and so for
all bells of rows that fit into memory). -/
theorem C73_run_len (m : Build) (hm : 0 < m.bits) (bells : List Bell)
    (hb : ∀ b ∈ bells, (b.index : Int) < 2 ^ (m.bits - 1)) (hl : bells.length + 1 < 2 ^ m.bits) :
    Utils.runLenOn m bells = .ok (Utils.runLen bells) := by
  have hloop : Utils.runLoopOn m bells =
      .ok (((bells.map Bell.index).zip (bells.map Bell.index).tail).takeWhile
        (fun p => ((p.1 : Int) - (p.2 : Int)).natAbs == 1)).length := by
    clear hl
    induction bells with
    | nil => rfl
    | cons a rest ih =>
      cases rest with
      | nil => rfl
      | cons b rest =>
        have ih := ih (fun x hx => hb x (List.mem_cons_of_mem _ hx))
        unfold Utils.runLoopOn
        rw [differByOneOn_of_lt m hm (hb a (by simp)) (hb b (by simp))]
        simp only [Res.ok_bind]
        by_cases h : ((a.index : Int) - b.index).natAbs = 1
        · rw [if_pos (by simpa using h), ih]
          simp [h]
        · rw [if_neg (by simpa using h)]
          simp [h]
  unfold Utils.runLenOn
  rw [hloop]
  simp only [Res.ok_bind]
  rw [m.add_of_lt]
  · rfl
  · refine Nat.lt_of_le_of_lt ?_ hl
    have h1 := List.IsPrefix.length_le (List.takeWhile_prefix (l := (bells.map Bell.index).zip
      (bells.map Bell.index).tail) (fun p => ((p.1 : Int) - (p.2 : Int)).natAbs == 1))
    have h2 : ((bells.map Bell.index).zip (bells.map Bell.index).tail).length ≤ bells.length := by
      simp
    omega

example : Utils.runLenOn debug64 [⟨3⟩, ⟨4⟩, ⟨5⟩, ⟨0⟩] = .ok 3 :=
  (C73_run_len debug64 (by decide) _ (by decide) (by decide)).trans (by decide)

/-- Beyond that, run lengths can be wrong without checks and panic with checks: the first and the very last
bell are taken for a run. -/
theorem C73_run_len_limits :
    Utils.runLenOn release64 [⟨0⟩, ⟨2 ^ 64 - 1⟩] = .ok 2 ∧ Utils.runLen [⟨0⟩, ⟨2 ^ 64 - 1⟩] = 1 ∧
    Utils.runLenOn debug64 [⟨2 ^ 63⟩, ⟨1⟩] = .error .overflow ∧
    Utils.runLenOn release64 [⟨2 ^ 63⟩, ⟨1⟩] = .ok 1 := by
  refine ⟨by decide +kernel, by decide +kernel, by decide +kernel, by decide +kernel⟩

/-! ## C74 -/

/-- The number fits into a word. -/
def ValueFits (m : Build) : Bell.SerdeValue → Prop
  | .uSmall v => v < 2 ^ m.bits
  | .u64 v => v < 2 ^ m.bits
  | .int v => v < 2 ^ m.bits
  | _ => True

/-- The value is of the type it says it is: numbers have at most 64 bits, and short ones 32. -/
def ValueTyped : Bell.SerdeValue → Prop
  | .uSmall v => v < 2 ^ 32
  | .u64 v => v < 2 ^ 64
  | .int v => -2 ^ 63 ≤ v ∧ v < 2 ^ 63
  | _ => True

/-- Reading bells and stages does not depend on the machine, as far as the numbers read fit into its words:
so it never does on 64-bit machines, and what such a machine has written is read back.  (Missing: larger
numbers on 32-bit machines, of which it is false.) -/
theorem C74_reading_partial (m : Build) (toLower : String → String) :
    (∀ v, ValueFits m v →
      Bell.visitOn m v = Bell.visit v ∧ Stage.visitOn m toLower v = Stage.visit toLower v) ∧
    (64 ≤ m.bits → ∀ v, ValueTyped v → ValueFits m v) ∧
    (∀ s : Stage, s.Valid → s.numBells < 2 ^ m.bits → Stage.visitOn m toLower s.serialize = .ok (some s)) := by
  have hcast : ∀ v : Int, 0 ≤ v → v < 2 ^ m.bits → m.castInt v = v.toNat := fun v => m.castInt_of_lt
  refine ⟨?_, ?_, ?_⟩
  · intro v hv
    cases v with
    | uSmall v =>
      have h : (v : Int) < 2 ^ m.bits := by exact_mod_cast hv
      simp [Bell.visitOn, Bell.visit, Bell.tryParseBellOn, Bell.tryParseBell, Stage.visitOn, Stage.visit,
        m.castUnsigned_of_lt hv, hcast v (by omega) h]
    | u64 v =>
      simp [Bell.visitOn, Bell.visit, Stage.visitOn, Stage.visit, m.castUnsigned_of_lt hv]
    | int v =>
      simp only [Bell.visitOn, Bell.visit, Bell.tryParseBellOn, Bell.tryParseBell, Stage.visitOn,
        Stage.visit, Stage.tryParseStageOn, Stage.tryParseStage]
      constructor <;> split <;> first | rfl | rw [hcast v (by omega) hv]
    | char c => exact ⟨rfl, rfl⟩
    | str s => exact ⟨rfl, rfl⟩
  · intro h v hv
    have h1 : 2 ^ 32 ≤ 2 ^ m.bits := Nat.pow_le_pow_right (by decide) (by omega)
    have h2 : 2 ^ 64 ≤ 2 ^ m.bits := Nat.pow_le_pow_right (by decide) h
    cases v with
    | uSmall v => exact Nat.lt_of_lt_of_le hv h1
    | u64 v => exact Nat.lt_of_lt_of_le hv h2
    | int v =>
      have h3 : (2 : Int) ^ 64 ≤ 2 ^ m.bits := by exact_mod_cast h2
      have h4 : v < 2 ^ 63 := hv.2
      exact lt_of_lt_of_le (lt_trans h4 (by decide)) h3
    | char c => trivial
    | str s => trivial
  · intro s hs h
    unfold Stage.serialize Stage.visitOn
    simp only [m.castUnsigned_of_lt h]
    obtain ⟨n⟩ := s
    unfold Stage.Valid at hs
    cases n with
    | zero => simp at hs
    | succ n => rfl

/-- On 32-bit machines numbers are cut off: a large number is read as another bell or stage, and some
numbers panic. -/
theorem C74_false (checks : Bool) (toLower : String → String) :
    Bell.visitOn ⟨32, checks⟩ (.u64 (2 ^ 32 + 5)) = .ok (some ⟨4⟩) ∧
    Bell.visit (.u64 (2 ^ 32 + 5)) = .ok (some ⟨2 ^ 32 + 4⟩) ∧
    Bell.visitOn ⟨32, checks⟩ (.int (2 ^ 32)) = .error .unwrap ∧
    Stage.visitOn ⟨32, checks⟩ toLower (.u64 (2 ^ 32 + 6)) = .ok (some ⟨6⟩) ∧
    Stage.visitOn ⟨32, checks⟩ toLower (.u64 (2 ^ 32)) = .error .unwrap := by
  have h : ∀ v w, v % 2 ^ 32 = w → Stage.visitOn ⟨32, checks⟩ toLower (.u64 v) =
      (Stage.new w).bind (fun s => .ok (some s)) := by
    rintro v w rfl
    rfl
  refine ⟨?_, by decide +kernel, ?_, ?_, ?_⟩
  · cases checks <;> decide +kernel
  · cases checks <;> decide +kernel
  · rw [h _ 6 (by decide +kernel)]
    rfl
  · rw [h _ 0 (by decide +kernel)]
    rfl

end Bellframe.Props
