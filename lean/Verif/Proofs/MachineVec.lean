import Verif.Model.MachineVec
import Verif.Proofs.Machine
import Verif.Proofs.SameStageVec

/-! # Lemmas about indices in machine words -/

namespace Bellframe

namespace Build

variable (m : Build)

theorem arith_mul (a b : Nat) : m.arith.mul a b = if a * b < 2 ^ m.bits then .ok (a * b)
    else if m.overflowChecks then .error .overflow else .ok (a * b % 2 ^ m.bits) := by
  unfold arith
  split
  · rfl
  · split
    · rename_i h
      show (.ok (a * b % 2 ^ m.bits) : Res Nat) = _
      rw [Nat.mod_eq_of_lt h]
    · rfl

theorem mul_of_lt {a b : Nat} (h : a * b < 2 ^ m.bits) : m.arith.mul a b = .ok (a * b) := by
  rw [arith_mul, if_pos h]

theorem mul_of_checks (hc : m.overflowChecks = true) {a b : Nat} (h : 2 ^ m.bits ≤ a * b) :
    m.arith.mul a b = .error .overflow := by
  rw [arith_mul, if_neg (Nat.not_lt.2 h), if_pos hc]

theorem mul_of_release (hc : m.overflowChecks = false) (a b : Nat) :
    m.arith.mul a b = .ok (a * b % 2 ^ m.bits) := by
  rw [arith, hc]
  rfl

end Build

end Bellframe
