import Verif.Model.Machine
import Mathlib.Tactic.Ring
import Mathlib.Tactic.Positivity
import Mathlib.Algebra.Order.Ring.Int
import Mathlib.Algebra.Order.Group.Unbundled.Int

/-! # Lemmas about machine words -/

namespace Bellframe

namespace Build

variable (m : Build)

theorem two_pow_pred (h : 0 < m.bits) : (2 : Int) ^ m.bits = 2 * 2 ^ (m.bits - 1) := by
  rw [← pow_succ', Nat.sub_add_cancel h]

theorem add_of_lt {a b : Nat} (h : a + b < 2 ^ m.bits) : m.add a b = .ok (a + b) := if_pos h

theorem castUnsigned_of_lt {v : Nat} (h : v < 2 ^ m.bits) : m.castUnsigned v = v := Nat.mod_eq_of_lt h

theorem castInt_natCast (v : Nat) : m.castInt v = v % 2 ^ m.bits := by
  unfold castInt
  norm_cast

theorem castInt_of_lt {v : Int} (h0 : 0 ≤ v) (h : v < 2 ^ m.bits) : m.castInt v = v.toNat := by
  unfold castInt
  rw [Int.emod_eq_of_lt h0 h]

theorem wrapSigned_of_fits (h : 0 < m.bits) {v : Int} (hv : m.FitsSigned v) : m.wrapSigned v = v := by
  have := m.two_pow_pred h
  unfold wrapSigned
  unfold FitsSigned at hv
  rw [Int.emod_eq_of_lt (by omega) (by omega)]
  omega

theorem wrapSigned_fits (h : 0 < m.bits) (v : Int) : m.FitsSigned (m.wrapSigned v) := by
  have h1 := m.two_pow_pred h
  have h2 : (0 : Int) < 2 ^ m.bits := by positivity
  have h3 := Int.emod_nonneg (v + 2 ^ (m.bits - 1)) h2.ne'
  have h4 := Int.emod_lt_of_pos (v + 2 ^ (m.bits - 1)) h2
  unfold wrapSigned FitsSigned
  omega

theorem signedResult_of_fits {v : Int} (hv : m.FitsSigned v) : m.signedResult v = .ok v := if_pos hv

end Build

end Bellframe
