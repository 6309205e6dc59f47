import Verif.Proofs.MachineMusic
import Verif.Props.Music

/-! # C81: counting matching rows at the limits of machine words -/

namespace Bellframe.Props

open Bellframe Bellframe.Regex

/-- With overflow checks the program computes what C45 describes, with `usize::MAX` as the largest number. -/
theorem C81_checks (m : Build) (hc : m.overflowChecks = true) (re : Regex) (s : Stage)
    (hs : s.numBells < 2 ^ m.bits) (hl : 2 * re.elems.length < 2 ^ m.bits) :
    re.numMatchingRowsOn m s = re.numMatchingRows (2 ^ m.bits - 1) s := by
  have hM := m.pow_pos
  have hlen := bellsNamed_length re.elems
  unfold numMatchingRowsOn numMatchingRows
  rw [countElemsOn_checks hc _ _ _ _ (by omega) (by omega)]
  by_cases h1 : s.numBells < (bellsNamed re.elems).length
  · rw [countElems_underflow _ _ _ _ h1]; rfl
  rw [countElems_eq _ _ _ _ (by omega)]
  simp only [Res.ok_bind, Nat.zero_add]
  by_cases h2 : s.numBells - (bellsNamed re.elems).length < re.elems.count .any
  · rw [C47_choice_underflow _ _ _ h2]
    unfold Utils.choiceOn
    rw [Build.sub_of_checks hc, show checkedSub _ _ = .error .overflow from if_neg (by omega)]
    rfl
  rw [Utils.choiceOn_of_le (by omega) (by omega)]
  cases Utils.choice (2 ^ m.bits - 1) (s.numBells - (bellsNamed re.elems).length)
      (re.elems.count .any) with
  | error e => rfl
  | ok r =>
    cases r with
    | none => rfl
    | some ways =>
      simp only [Res.ok_bind]
      rw [Build.sub_of_checks hc, show checkedSub _ _ = .ok _ from if_pos (by omega)]
      simp only [Res.ok_bind]
      rw [m.add_of_lt (by omega)]
      simp only [Res.ok_bind]
      cases checkedFactorial (2 ^ m.bits - 1) (s.numBells - (bellsNamed re.elems).length -
          re.elems.count .any + (re.elems.count .any - 1)) with
      | none => rfl
      | some num =>
        cases checkedFactorial (2 ^ m.bits - 1) (re.elems.count .glob - 1) with
        | none => rfl
        | some den =>
          simp only
          by_cases h3 : ways * (num / den) ≤ 2 ^ m.bits - 1
          · rw [if_pos h3, m.mul_of_lt (by omega)]; rfl
          · rw [if_neg h3, m.mul_of_checks hc (by omega)]; rfl

example := C81_checks ⟨64, true⟩ rfl ⟨[.any, .glob, .bell ⟨4⟩]⟩ ⟨6⟩ (by decide) (by decide)

/-- Without overflow checks, in all cases. -/
theorem C81_release (m : Build) (hc : m.overflowChecks = false) (h3 : 3 ≤ m.bits) (re : Regex)
    (s : Stage) (hs : s.numBells < 2 ^ m.bits) (hl : 2 * re.elems.length < 2 ^ m.bits) :
    let max := 2 ^ m.bits - 1
    let named := (bellsNamed re.elems).length
    let w := re.elems.count .any
    let g := re.elems.count .glob
    let u := s.numBells - named
    let value := u.choose w * ((u - w + (w - 1)).factorial / (g - 1).factorial)
    re.numMatchingRowsOn m s =
      if s.numBells < named then .ok none
      else if s.numBells < named + w then
        if u + 3 ≤ w then .ok none
        else if w.factorial % 2 ^ m.bits = 0 then .error .divByZero
        else if u = 0 ∨ max < (u - 1).factorial ∨ max < (g - 1).factorial then .ok none
        else .ok (some 0)
      else if max < u.descFactorial (min w (u - w)) ∨ max < (u - w + (w - 1)).factorial ∨
        max < (g - 1).factorial then .ok none
      else .ok (some (value % 2 ^ m.bits)) := by
  intro max named w g u value
  have hM := m.pow_pos
  have hlen : named + w + g = re.elems.length := bellsNamed_length re.elems
  have h8 : 8 ≤ 2 ^ m.bits := by
    calc 8 = 2 ^ 3 := rfl
      _ ≤ 2 ^ m.bits := Nat.pow_le_pow_right (by decide) h3
  have hmax : max = 2 ^ m.bits - 1 := rfl
  have hu : u = s.numBells - named := rfl
  have hv : value = u.choose w * ((u - w + (w - 1)).factorial / (g - 1).factorial) := rfl
  unfold numMatchingRowsOn
  rw [countElemsOn_release hc _ _ _ _ hs (by omega) (by omega)]
  simp only [Res.ok_bind, Nat.zero_add]
  rw [show (bellsNamed re.elems).length = named from rfl, show re.elems.count .any = w from rfl,
    show re.elems.count .glob = g from rfl]
  clear_value value u w g named max
  subst hmax
  have hfact : ∀ x, 3 ≤ x → 2 * x ≤ x.factorial := by
    intro x hx
    obtain ⟨y, rfl⟩ : ∃ y, x = y + 1 := ⟨x - 1, by omega⟩
    rw [Nat.factorial_succ, Nat.mul_comm]
    exact Nat.mul_le_mul_left _ (Nat.le_trans (by omega) (Nat.self_le_factorial y))
  by_cases c1 : s.numBells < named
  · rw [if_pos c1]
    rw [show (s.numBells + 2 ^ m.bits - named) % 2 ^ m.bits = s.numBells + 2 ^ m.bits - named from
      Nat.mod_eq_of_lt (by omega)]
    generalize hn : s.numBells + 2 ^ m.bits - named = n
    have hw1 : w ≤ n := by omega
    rw [Utils.choiceOn_huge (by omega) (by omega) h3]
    simp only [Res.ok_bind]
    by_cases hw : w ≤ 1
    · have hf : checkedFactorial (2 ^ m.bits - 1) (n - w + (w - 1)) = none := by
        rw [checkedFactorial_eq, if_neg]
        have := hfact (n - w + (w - 1)) (by omega)
        omega
      rw [Build.sub_of_le hw1]
      simp only [Res.ok_bind]
      rw [m.add_of_lt (by omega)]
      simp only [Res.ok_bind, hf]
      by_cases h0 : w = 0
      · subst h0; rfl
      · have : w = 1 := by omega
        subst this; rfl
    · rw [if_neg (by omega), if_neg (by omega)]; rfl
  rw [if_neg c1]
  rw [show (s.numBells + 2 ^ m.bits - named) % 2 ^ m.bits = u by
    rw [show s.numBells + 2 ^ m.bits - named = u + 2 ^ m.bits by omega, Nat.add_mod_right,
      Nat.mod_eq_of_lt (by omega)]]
  by_cases c2 : s.numBells < named + w
  · rw [if_pos c2, Utils.choiceOn_release_lt hc (by omega) (by omega)]
    by_cases c3 : u + 3 ≤ w
    · rw [if_pos c3, if_pos c3]; rfl
    rw [if_neg c3, if_neg c3]
    by_cases c4 : w.factorial % 2 ^ m.bits = 0
    · rw [if_pos c4, if_pos c4]; rfl
    rw [if_neg c4, if_neg c4]
    simp only [Res.ok_bind]
    rw [Build.sub_of_release hc _ (by omega)]
    simp only [Res.ok_bind]
    rw [show (u + 2 ^ m.bits - w) % 2 ^ m.bits = u + 2 ^ m.bits - w from Nat.mod_eq_of_lt (by omega),
      Build.add_of_release hc]
    simp only [Res.ok_bind]
    by_cases c5 : u = 0
    · rw [if_pos (Or.inl c5), show (u + 2 ^ m.bits - w + (w - 1)) % 2 ^ m.bits = 2 ^ m.bits - 1 by
        rw [show u + 2 ^ m.bits - w + (w - 1) = 2 ^ m.bits - 1 by omega]
        exact Nat.mod_eq_of_lt (by omega)]
      have := hfact (2 ^ m.bits - 1) (by omega)
      rw [checkedFactorial_eq, if_neg (by omega)]
      rfl
    rw [show (u + 2 ^ m.bits - w + (w - 1)) % 2 ^ m.bits = u - 1 by
      rw [show u + 2 ^ m.bits - w + (w - 1) = (u - 1) + 2 ^ m.bits by omega, Nat.add_mod_right]
      exact Nat.mod_eq_of_lt (by omega)]
    simp only [checkedFactorial_eq]
    by_cases c6 : (u - 1).factorial ≤ 2 ^ m.bits - 1
    · by_cases c7 : (g - 1).factorial ≤ 2 ^ m.bits - 1
      · rw [if_pos c6, if_pos c7, if_neg (by omega)]
        simp only [m.mul_of_release hc, Nat.zero_mul, Nat.zero_mod]
        rfl
      · rw [if_pos c6, if_neg c7, if_pos (by omega)]; rfl
    · rw [if_neg c6]
      exact (if_pos (Or.inr (Or.inl (by omega)))).symm
  rw [if_neg c2, Utils.choiceOn_of_le (by omega) (by omega), C47_choice _ _ _ (by omega) (by omega)]
  by_cases f1 : u.descFactorial (min w (u - w)) ≤ 2 ^ m.bits - 1
  · simp only [if_pos f1, Res.ok_bind]
    rw [Build.sub_of_le (by omega)]
    simp only [Res.ok_bind]
    rw [m.add_of_lt (by omega)]
    simp only [Res.ok_bind, checkedFactorial_eq]
    by_cases c6 : (u - w + (w - 1)).factorial ≤ 2 ^ m.bits - 1
    · by_cases c7 : (g - 1).factorial ≤ 2 ^ m.bits - 1
      · rw [if_pos c6, if_pos c7, if_neg (by omega)]
        simp only [m.mul_of_release hc, hv]
        rfl
      · rw [if_pos c6, if_neg c7, if_pos (by omega)]; rfl
    · rw [if_neg c6]
      exact (if_pos (Or.inr (Or.inl (by omega)))).symm
  · rw [if_neg f1, if_pos (by omega)]; rfl

/-- `x*` on four bells with 8-bit and with 64-bit words. -/
example : (⟨[.any, .glob]⟩ : Regex).numMatchingRowsOn ⟨8, false⟩ ⟨4⟩ = .ok (some 24) ∧
    (⟨[.any, .glob]⟩ : Regex).numMatchingRowsOn ⟨64, true⟩ ⟨4⟩ = .ok (some 24) ∧
    2 * (⟨[.any, .glob]⟩ : Regex).elems.length < 2 ^ 8 := by decide +kernel

/-- In every build: if no part of the computation overflows the answer is the computed number; if the falling
factorial inside the binomial coefficient or one of the two factorials does, the answer is `None`; so it is
without overflow checks if more bells are named than there are.

Missing, because it is false: `None` if the last product or the subtraction of the wildcards overflows, and,
with overflow checks, if more bells are named than there are. -/
theorem C81_partial (m : Build) (h3 : 3 ≤ m.bits) (re : Regex) (s : Stage)
    (hs : s.numBells < 2 ^ m.bits) (hl : 2 * re.elems.length < 2 ^ m.bits) :
    let named := (bellsNamed re.elems).length
    let w := re.elems.count .any
    let g := re.elems.count .glob
    let u := s.numBells - named
    let value := u.choose w * ((u - w + (w - 1)).factorial / (g - 1).factorial)
    (named + w ≤ s.numBells → u.descFactorial (min w (u - w)) < 2 ^ m.bits →
      (u - w + (w - 1)).factorial < 2 ^ m.bits → (g - 1).factorial < 2 ^ m.bits →
      value < 2 ^ m.bits → re.numMatchingRowsOn m s = .ok (some value)) ∧
    (named + w ≤ s.numBells → (2 ^ m.bits ≤ u.descFactorial (min w (u - w)) ∨
      2 ^ m.bits ≤ (u - w + (w - 1)).factorial ∨ 2 ^ m.bits ≤ (g - 1).factorial) →
      re.numMatchingRowsOn m s = .ok none) ∧
    (m.overflowChecks = false → s.numBells < named → re.numMatchingRowsOn m s = .ok none) := by
  intro named w g u value
  have hM := m.pow_pos
  have h8 : 8 ≤ 2 ^ m.bits := by
    calc 8 = 2 ^ 3 := rfl
      _ ≤ 2 ^ m.bits := Nat.pow_le_pow_right (by decide) h3
  cases hc : m.overflowChecks with
  | true =>
    rw [C81_checks m hc re s hs hl]
    have h := C45_computed_exact (2 ^ m.bits - 1) (by omega) re s
    simp only at h
    change re.numMatchingRows (2 ^ m.bits - 1) s =
      if s.numBells < named + w then .error .overflow
      else if 2 ^ m.bits - 1 < u.descFactorial (min w (u - w)) ∨
        2 ^ m.bits - 1 < (u - w + (w - 1)).factorial ∨ 2 ^ m.bits - 1 < (g - 1).factorial then .ok none
      else if value ≤ 2 ^ m.bits - 1 then .ok (some value) else .error .overflow at h
    refine ⟨fun a b c d e => ?_, fun a b => ?_, fun a => by simp at a⟩
    · rw [h, if_neg (by omega), if_neg (by omega), if_pos (by omega)]
    · rw [h, if_neg (by omega), if_pos (by omega)]
  | false =>
    have h := C81_release m hc h3 re s hs hl
    simp only at h
    change re.numMatchingRowsOn m s =
      if s.numBells < named then .ok none
      else if s.numBells < named + w then
        if u + 3 ≤ w then .ok none
        else if w.factorial % 2 ^ m.bits = 0 then .error .divByZero
        else if u = 0 ∨ 2 ^ m.bits - 1 < (u - 1).factorial ∨ 2 ^ m.bits - 1 < (g - 1).factorial then .ok none
        else .ok (some 0)
      else if 2 ^ m.bits - 1 < u.descFactorial (min w (u - w)) ∨
        2 ^ m.bits - 1 < (u - w + (w - 1)).factorial ∨ 2 ^ m.bits - 1 < (g - 1).factorial then .ok none
      else .ok (some (value % 2 ^ m.bits)) at h
    refine ⟨fun a b c d e => ?_, fun a b => ?_, fun _ a => ?_⟩
    · rw [h, if_neg (by omega), if_neg (by omega), if_neg (by omega), Nat.mod_eq_of_lt e]
    · rw [h, if_neg (by omega), if_neg (by omega), if_pos (by omega)]
    · rw [h, if_pos a]

/-- `xx*1*` on eight bells: all parts fit into 64 bits. -/
example : let re : Regex := ⟨[.any, .any, .glob, .bell ⟨0⟩, .glob]⟩
    (bellsNamed re.elems).length + re.elems.count .any ≤ 8 ∧
    (7 : Nat).descFactorial (min 2 (7 - 2)) < 2 ^ 64 ∧ (7 - 2 + (2 - 1) : Nat).factorial < 2 ^ 64 ∧
    re.numMatchingRowsOn ⟨64, false⟩ ⟨8⟩ = .ok (some 15120) := by decide +kernel

/-- The documented promise fails on a 64-bit machine in four ways.  Without overflow checks `x*` on 21 bells is
given the wrong number 21! mod 2^64, sixty-six wildcards on 65 bells divide by zero, and two wildcards on one
bell give `Some(0)`; with overflow checks the same three and a pattern naming two bells on one bell panic. -/
theorem C81_false :
    (⟨[.any, .glob]⟩ : Regex).numMatchingRowsOn ⟨64, false⟩ ⟨21⟩ =
      .ok (some (Nat.factorial 21 % 2 ^ 64)) ∧
    2 ^ 64 ≤ Nat.factorial 21 ∧
    (⟨List.replicate 66 .any⟩ : Regex).numMatchingRowsOn ⟨64, false⟩ ⟨65⟩ = .error .divByZero ∧
    (⟨[.any, .any]⟩ : Regex).numMatchingRowsOn ⟨64, false⟩ ⟨1⟩ = .ok (some 0) ∧
    (⟨[.any, .glob]⟩ : Regex).numMatchingRowsOn ⟨64, true⟩ ⟨21⟩ = .error .overflow ∧
    (⟨List.replicate 66 .any⟩ : Regex).numMatchingRowsOn ⟨64, true⟩ ⟨65⟩ = .error .overflow ∧
    (⟨[.any, .any]⟩ : Regex).numMatchingRowsOn ⟨64, true⟩ ⟨1⟩ = .error .overflow ∧
    (⟨[.bell ⟨0⟩, .bell ⟨1⟩]⟩ : Regex).numMatchingRowsOn ⟨64, true⟩ ⟨1⟩ = .error .overflow := by
  decide +kernel

end Bellframe.Props
