import Verif.Props.RowAlgebra
import Verif.Props.RowBuild
import Mathlib.Data.Nat.ModEq

/-! # C115: repeating Queens and backrounds -/

namespace Bellframe.Props

open Equiv

variable {n : Nat}

/-- Queens doubles places, modulo the odd one of `n` and `n - 1`. -/
theorem queens_doubles (hn : 0 < n) (m : Nat) (hm : m = if n % 2 = 0 then n - 1 else n) :
    ∃ q : Perm (Fin n), Row.queens ⟨n⟩ = .ofPerm q ∧ (∀ x : Fin n, x.val < m → (q x).val = 2 * x.val % m) ∧
      ∀ x : Fin n, m ≤ x.val → q x = x := by
  obtain ⟨-, -, hv, -, -, hlen, -, -, h1, h2⟩ := C09_named_rows ⟨n⟩ hn
  obtain ⟨n', hn', q, hq⟩ := Row.valid_iff_exists_perm.1 hv
  obtain rfl : n' = n := by rw [hq, Row.ofPerm_length] at hlen; exact hlen
  rw [hq] at h1 h2
  have hval : ∀ x : Fin n', (q x).val = if x.val < (n' + 1) / 2 then 2 * x.val else 2 * (x.val - (n' + 1) / 2) + 1 := by
    intro x
    have hx := x.isLt
    have e : (Row.ofPerm q).bells[x.val]? = some ⟨(q x).val⟩ := Row.ofPerm_getElem? q x.val hx
    split
    · next h =>
      have := h1 x.val h
      rw [e] at this
      exact congrArg Bell.index (Option.some.inj this)
    · next h =>
      have h4 := h2 (x.val - (n' + 1) / 2) (by show _ < n' / 2; omega)
      rw [show (Stage.mk n').numBells = n' from rfl, Nat.add_sub_cancel' (by omega), e] at h4
      exact congrArg Bell.index (Option.some.inj h4)
  refine ⟨q, hq, ?_, ?_⟩
  · intro x hx
    rw [hval]
    have := x.isLt
    split at hm <;> split
    · rw [Nat.mod_eq_of_lt (by omega)]
    · rw [Nat.mod_eq_sub_mod (by omega), Nat.mod_eq_of_lt (by omega)]
      omega
    · rw [Nat.mod_eq_of_lt (by omega)]
    · rw [Nat.mod_eq_sub_mod (by omega), Nat.mod_eq_of_lt (by omega)]
      omega
  · intro x hx
    apply Fin.ext
    rw [hval]
    have := x.isLt
    split at hm <;> split <;> omega

theorem queens_pow (q : Perm (Fin n)) (m : Nat) (h1 : ∀ x : Fin n, x.val < m → (q x).val = 2 * x.val % m) (k : Nat)
    (x : Fin n) (hx : x.val < m) : ((q ^ k) x).val = 2 ^ k * x.val % m := by
  induction k with
  | zero => simp [Nat.mod_eq_of_lt hx]
  | succ k ih =>
    rw [pow_succ', Perm.mul_apply, h1 _ (by rw [ih]; exact Nat.mod_lt _ (by omega)), ih, Nat.mul_mod_mod, ← mul_assoc,
      pow_succ']

theorem queens_pow_one (q : Perm (Fin n)) (m : Nat) (hm0 : 0 < m) (hmn : m ≤ n)
    (h1 : ∀ x : Fin n, x.val < m → (q x).val = 2 * x.val % m) (h2 : ∀ x : Fin n, m ≤ x.val → q x = x) (k : Nat) :
    q ^ k = 1 ↔ m ∣ 2 ^ k - 1 := by
  have hpos : 1 ≤ 2 ^ k := Nat.one_le_two_pow
  rw [← Nat.modEq_iff_dvd' hpos]
  constructor
  · intro h
    by_cases hm1 : m = 1
    · subst hm1
      exact Nat.modEq_one
    · have := queens_pow q m h1 k ⟨1, by omega⟩ (by show 1 < m; omega)
      rw [h, Perm.one_apply] at this
      show 1 % m = 2 ^ k % m
      rw [Nat.mod_eq_of_lt (by omega)]
      simpa using this
  · intro h
    ext x
    rw [Perm.one_apply]
    by_cases hx : x.val < m
    · rw [queens_pow q m h1 k x hx]
      have := (h.mul_right x.val).symm
      rw [one_mul] at this
      rw [this, Nat.mod_eq_of_lt hx]
    · rw [Perm.pow_apply_eq_self_of_apply_eq_self (h2 x (by omega))]

/-- Repeating Queens on `n` bells brings up rounds for the first time after as many steps as it takes the powers of two
to come back to one modulo the odd one of `n` and `n - 1`.  The inverse of Queens is Tittums, in which the bells of the
first half and those of the second alternate. -/
theorem C115_queens (n : Nat) (hn : 0 < n) (m : Nat) (hm : m = if n % 2 = 0 then n - 1 else n) :
    ∃ cl tittums, (Row.queens ⟨n⟩).closure.Returns cl ∧ 0 < cl.length ∧ m ∣ 2 ^ cl.length - 1 ∧
      (∀ k, 0 < k → m ∣ 2 ^ k - 1 → cl.length ≤ k) ∧
      (Row.queens ⟨n⟩).inv = .ok tittums ∧ tittums.bells.length = n ∧
      (∀ i < (n + 1) / 2, tittums.bells[2 * i]? = some ⟨i⟩) ∧
      (∀ i < n / 2, tittums.bells[2 * i + 1]? = some ⟨(n + 1) / 2 + i⟩) := by
  obtain ⟨q, hq, h1, h2⟩ := queens_doubles hn m hm
  obtain ⟨-, -, -, -, -, -, -, -, g1, g2⟩ := C09_named_rows ⟨n⟩ hn
  rw [hq] at g1 g2
  have hm0 : 0 < m := by split at hm <;> omega
  have hmn : m ≤ n := by split at hm <;> omega
  obtain ⟨cl, c1, c2, -⟩ := C16_closure q
  have hinv : ∀ i j (hi : i < n) (hj : j < n), (Row.ofPerm q).bells[i]? = some ⟨j⟩ →
      (Row.ofPerm q⁻¹).bells[j]? = some ⟨i⟩ := by
    intro i j hi hj h
    rw [Row.ofPerm_getElem? q i hi] at h
    have e : q ⟨i, hi⟩ = ⟨j, hj⟩ := Fin.ext (congrArg Bell.index (Option.some.inj h))
    have e2 : q⁻¹ ⟨j, hj⟩ = ⟨i, hi⟩ := by rw [Perm.inv_eq_iff_eq, e]
    rw [Row.ofPerm_getElem? _ j hj, e2]
  refine ⟨cl, .ofPerm q⁻¹, by rw [hq]; exact c1, by rw [c2]; exact orderOf_pos q, ?_, ?_, by rw [hq, Row.inv_ofPerm hn],
    Row.ofPerm_length _, ?_, ?_⟩
  · rw [c2, ← queens_pow_one q m hm0 hmn h1 h2, pow_orderOf_eq_one]
  · intro k hk h
    rw [c2]
    exact orderOf_le_of_pow_eq_one hk ((queens_pow_one q m hm0 hmn h1 h2 k).2 h)
  · intro i hi
    exact hinv i (2 * i) (by omega) (by omega) (g1 i hi)
  · intro i hi
    exact hinv ((n + 1) / 2 + i) (2 * i + 1) (by omega) (by omega) (g2 i hi)

/-- On eight bells Queens comes round after three steps, and on twelve bells after ten. -/
example : (7 ∣ 2 ^ 3 - 1 ∧ ∀ k < 3, 0 < k → ¬ 7 ∣ 2 ^ k - 1) ∧ (11 ∣ 2 ^ 10 - 1 ∧ ∀ k < 10, 0 < k → ¬ 11 ∣ 2 ^ k - 1) := by
  decide

example := C115_queens 8 (by decide) 7 (by decide)

/-- Backrounds twice is rounds: the closure of backrounds is backrounds and rounds, which on one bell are the same. -/
theorem C115_backrounds (n : Nat) (hn : 0 < n) :
    (Row.backrounds ⟨n⟩).mul (Row.backrounds ⟨n⟩) = .ok (.rounds ⟨n⟩) ∧
    (Row.backrounds ⟨n⟩).inv = .ok (.backrounds ⟨n⟩) ∧
    (Row.backrounds ⟨n⟩).closure.Returns
      (if n = 1 then [Row.rounds ⟨n⟩] else [Row.backrounds ⟨n⟩, Row.rounds ⟨n⟩]) := by
  obtain ⟨-, hv, -, -, hlen, -, -, h1, -⟩ := C09_named_rows ⟨n⟩ hn
  obtain ⟨n', hn', q, hq⟩ := Row.valid_iff_exists_perm.1 hv
  obtain rfl : n' = n := by rw [hq, Row.ofPerm_length] at hlen; exact hlen
  rw [hq] at h1
  have hval : ∀ x : Fin n', (q x).val = n' - 1 - x.val := by
    intro x
    have := h1 x.val x.isLt
    rw [Row.ofPerm_getElem? q x.val x.isLt] at this
    exact congrArg Bell.index (Option.some.inj this)
  have h2 : q * q = 1 := by
    ext x
    rw [Perm.mul_apply, hval, hval, Perm.one_apply]
    have := x.isLt
    omega
  have hinv : q⁻¹ = q := inv_eq_of_mul_eq_one_right h2
  rw [hq, Row.mul_ofPerm hn, Row.inv_ofPerm hn, h2, hinv, Row.rounds_eq_ofPerm n']
  refine ⟨rfl, rfl, ?_⟩
  obtain ⟨cl, c1, c2, -, c4, -⟩ := C16_closure q
  have hcl : cl = if n' = 1 then [Row.ofPerm (1 : Perm (Fin n'))] else
      [Row.ofPerm q, Row.ofPerm (1 : Perm (Fin n'))] := by
    split
    · next h =>
      subst h
      have hq1 : q = 1 := Subsingleton.elim _ _
      rw [hq1, orderOf_one] at c2
      obtain ⟨a, rfl⟩ := List.length_eq_one_iff.1 c2
      have := c4 0 (by simp)
      simpa [hq1] using this
    · next h =>
      have hne : q ≠ 1 := by
        rintro rfl
        have := hval ⟨0, hn⟩
        simp at this
        omega
      have ho : orderOf q = 2 := orderOf_eq_prime (by rw [pow_two, h2]) hne
      rw [ho] at c2
      obtain ⟨a, b, rfl⟩ := List.length_eq_two.1 c2
      have e0 := c4 0 (by simp)
      have e1 := c4 1 (by simp)
      simp only [List.getElem?_cons_zero, List.getElem?_cons_succ, Option.some.injEq, Nat.zero_add, pow_one,
        Nat.reduceAdd, pow_two, h2] at e0 e1
      rw [e0, e1]
  rw [← hcl]
  exact c1

example := C115_backrounds 6 (by decide)

end Bellframe.Props
