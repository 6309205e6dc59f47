import Verif.Model.Utils
import Verif.Proofs.RowBasic
import Mathlib.Data.Nat.Choose.Basic
import Mathlib.Data.Nat.Factorial.Basic

/-! # Lemmas about the utility functions -/

namespace Bellframe.Utils

theorem choiceLoop_spec (max m k : Nat) : ∀ (fuel i : Nat), i + fuel = k →
    (m + 1).ascFactorial i ≤ max ∨ i = 0 →
    choiceLoop max (m + k) k fuel (i + 1) ((m + 1).ascFactorial i) i.factorial =
      .ok (if (m + 1).ascFactorial k ≤ max ∨ k = 0 then some ((m + k).choose k) else none)
  | 0, i, hi, hle => by
    have : i = k := by omega
    subst this
    rw [choiceLoop, if_neg (Nat.factorial_pos i).ne', if_pos hle,
      Nat.ascFactorial_eq_factorial_mul_choose, Nat.mul_div_cancel_left _ (Nat.factorial_pos i)]
  | fuel + 1, i, hi, hle => by
    have hnum : (m + 1).ascFactorial i * (m + k - k + (i + 1)) = (m + 1).ascFactorial (i + 1) := by
      rw [Nat.ascFactorial_succ, Nat.mul_comm]
      congr 1
      omega
    have hden : i.factorial * (i + 1) = (i + 1).factorial := by
      rw [Nat.factorial_succ, Nat.mul_comm]
    have hmono : (m + 1).ascFactorial (i + 1) ≤ (m + 1).ascFactorial k := by
      obtain ⟨d, hd⟩ : ∃ d, k = (i + 1) + d := ⟨k - (i + 1), by omega⟩
      have h := Nat.ascFactorial_mul_ascFactorial (m + 1) (i + 1) d
      rw [hd, ← h, show m + 1 + (i + 1) = (m + i + 1) + 1 by omega]
      exact Nat.le_mul_of_pos_right _ (Nat.ascFactorial_pos _ _)
    have hfac : (i + 1).factorial ≤ (m + 1).ascFactorial (i + 1) := by
      rw [Nat.ascFactorial_eq_factorial_mul_choose]
      exact Nat.le_mul_of_pos_right _ (Nat.choose_pos (by omega))
    rw [choiceLoop, hnum, hden]
    by_cases hbig : (m + 1).ascFactorial (i + 1) > max
    · rw [if_pos hbig, if_neg (by omega)]
    · rw [if_neg hbig, if_neg (by omega)]
      exact choiceLoop_spec max m k fuel (i + 1) (by omega) (Or.inl (by omega))

theorem takeWhile_zip_tail (p : Nat × Nat → Bool) (l : List Nat) :
    let t := ((l.zip l.tail).takeWhile p).length
    (∀ i x y, i < t → l[i]? = some x → l[i + 1]? = some y → p (x, y) = true) ∧
    (l ≠ [] → t + 1 ≤ l.length) ∧
    (∀ x y, l[t]? = some x → l[t + 1]? = some y → p (x, y) = false) := by
  intro t
  have hget : ∀ i x y, l[i]? = some x → l[i + 1]? = some y → (l.zip l.tail)[i]? = some (x, y) := by
    intro i x y hx hy
    rw [List.getElem?_zip_eq_some]
    exact ⟨hx, by rw [List.getElem?_tail]; exact hy⟩
  refine ⟨?_, ?_, ?_⟩
  · intro i x y hi hx hy
    have h1 := hget i x y hx hy
    have h2 : ((l.zip l.tail).takeWhile p)[i]? = some (x, y) := by
      have hpre := List.takeWhile_prefix (l := l.zip l.tail) p
      rw [List.prefix_iff_getElem?] at hpre
      have := hpre i hi
      rw [h1] at this
      rw [List.getElem?_eq_getElem hi]
      exact this.symm
    exact List.all_eq_true.1 List.all_takeWhile _ (List.mem_of_getElem? h2)
  · intro hl
    have h1 : t ≤ (l.zip l.tail).length := (List.takeWhile_prefix p).length_le
    rw [List.length_zip, List.length_tail] at h1
    have := List.length_pos_iff.2 hl
    omega
  · intro x y hx hy
    have h1 := hget t x y hx hy
    have hsplit := List.takeWhile_append_dropWhile (p := p) (l := l.zip l.tail)
    rw [← hsplit, List.getElem?_append_right (le_refl _), Nat.sub_self] at h1
    have := List.head?_dropWhile_not p (l.zip l.tail)
    rw [List.head?_eq_getElem?, h1] at this
    simpa using this

end Bellframe.Utils
