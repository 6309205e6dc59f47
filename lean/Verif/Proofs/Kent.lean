import Verif.Spec.Kent
import Verif.Proofs.PlainHunt
import Mathlib.Tactic.Linarith
import Mathlib.Tactic.Group
import Mathlib.GroupTheory.Perm.Basic

/-! # The changes and rows of Kent Treble Bob -/

namespace Bellframe

open Equiv

variable {n : Nat}

/-! ## The changes -/

def kentFn (n x : Nat) : Nat := if x = 2 ∨ x = 3 then x else huntFn n 0 x

theorem kentFn_lt {x : Nat} (h : x < n) : kentFn n x < n := by
  have := huntFn_lt (k := 0) h
  unfold kentFn; split
  all_goals omega

theorem kentFn_invol {x : Nat} (h : x < n) : kentFn n (kentFn n x) = x := by
  unfold kentFn
  by_cases h2 : x = 2 ∨ x = 3
  · rw [if_pos h2, if_pos h2]
  · rw [if_neg h2, if_neg, huntFn_invol h]
    unfold huntFn; repeat' split
    all_goals omega

/-- The change with the Kent places. -/
def kentChange (n : Nat) : Perm (Fin n) :=
  permOfInvol (kentFn n) (fun _ h => kentFn_lt h) (fun _ h => kentFn_invol h)

@[simp] theorem kentChange_val (x : Fin n) : (kentChange n x).val = kentFn n x := rfl
@[simp] theorem kentChange_inv_val (x : Fin n) : ((kentChange n)⁻¹ x).val = kentFn n x := rfl

theorem kentChange_isChange : IsChange (kentChange n) := by
  intro x
  simp only [kentChange_val]
  unfold kentFn huntFn; repeat' split
  all_goals omega

theorem kentChange_mul_self : kentChange n * kentChange n = 1 := by
  ext x
  simp [Perm.mul_apply, kentFn_invol x.isLt]

theorem bobChange_mul_self : bobChange n * bobChange n = 1 := by
  ext x
  simp [Perm.mul_apply, bobFn_invol x.isLt]

/-- Dodging and seconds place. -/
theorem cross_mul_bob (h4 : 4 ≤ n) :
    huntChange n 0 * bobChange n = swap ⟨0, by omega⟩ ⟨1, by omega⟩ := by
  ext x
  rw [Perm.mul_apply, huntChange_val, bobChange_val, swap_apply_def]
  have hx := x.isLt
  by_cases h2 : x.val < 2
  · have : x.val = 0 ∨ x.val = 1 := by omega
    rw [bobFn, if_pos h2]
    rcases this with h | h
    · rw [if_pos (Fin.ext h), h, huntFn]; simp; omega
    · rw [if_neg (by rw [Fin.ext_iff, h]; simp), if_pos (Fin.ext h), h, huntFn]; simp
  · rw [bobFn, if_neg h2, huntFn_invol hx, if_neg (by rw [Fin.ext_iff]; simp; omega),
      if_neg (by rw [Fin.ext_iff]; simp; omega)]

theorem kent_mul_cross (h4 : 4 ≤ n) :
    kentChange n * huntChange n 0 = swap ⟨2, by omega⟩ ⟨3, by omega⟩ := by
  ext x
  rw [Perm.mul_apply, kentChange_val, huntChange_val, swap_apply_def]
  have hx := x.isLt
  by_cases h2 : x.val = 2 ∨ x.val = 3
  · rcases h2 with h | h
    · have e : huntFn n 0 2 = 3 := by unfold huntFn; rw [if_pos rfl, if_pos (by omega)]
      rw [if_pos (Fin.ext h), h, e]; rfl
    · have e : huntFn n 0 3 = 2 := by unfold huntFn; simp
      rw [if_neg (by rw [Fin.ext_iff, h]; simp), if_pos (Fin.ext h), h, e]; rfl
  · have e : ¬ (huntFn n 0 x.val = 2 ∨ huntFn n 0 x.val = 3) := by
      unfold huntFn; repeat' split
      all_goals omega
    rw [kentFn, if_neg e, huntFn_invol hx, if_neg (by rw [Fin.ext_iff]; simp; omega),
      if_neg (by rw [Fin.ext_iff]; simp; omega)]

theorem comm_of_mul_sq {a b : Perm (Fin n)} (ha : a * a = 1) (hb : b * b = 1)
    (h : (a * b) * (a * b) = 1) : a * b = b * a := by
  have h1 : (a * b)⁻¹ = a * b := inv_eq_of_mul_eq_one_left h
  rw [mul_inv_rev, inv_eq_of_mul_eq_one_left ha, inv_eq_of_mul_eq_one_left hb] at h1
  exact h1.symm

theorem cross_comm_bob (h4 : 4 ≤ n) : huntChange n 0 * bobChange n = bobChange n * huntChange n 0 :=
  comm_of_mul_sq (huntChange_mul_self 0) bobChange_mul_self (by rw [cross_mul_bob h4]; simp)

theorem kent_comm_cross (h4 : 4 ≤ n) : kentChange n * huntChange n 0 = huntChange n 0 * kentChange n :=
  comm_of_mul_sq kentChange_mul_self (huntChange_mul_self 0) (by rw [kent_mul_cross h4]; simp)

/-! ## The lead head -/

/-- The lead head of Kent. -/
def kentHead (n : Nat) : Perm (Fin n) := bobChange n * huntChange n 1

theorem kentHead_eq (h4 : 4 ≤ n) : kentHead n = (bobHead n)⁻¹ := by
  rw [bobHead, huntRow_last (by omega), mul_inv_rev, inv_eq_of_mul_eq_one_left bobChange_mul_self,
    inv_eq_of_mul_eq_one_left (huntChange_mul_self 1)]
  rfl

theorem orderOf_kentHead (h4 : 4 ≤ n) : orderOf (kentHead n) = n - 1 := by
  rw [kentHead_eq h4, orderOf_inv, orderOf_bobHead (by omega)]

theorem hunt_kentHead : huntChange n 1 * kentHead n = (kentHead n)⁻¹ * huntChange n 1 := by
  rw [kentHead, mul_inv_rev, inv_eq_of_mul_eq_one_left bobChange_mul_self,
    inv_eq_of_mul_eq_one_left (huntChange_mul_self 1), mul_assoc]

theorem hunt_kentHead_pow (k : ℕ) :
    huntChange n 1 * kentHead n ^ k = (kentHead n ^ k)⁻¹ * huntChange n 1 := by
  have h : SemiconjBy (huntChange n 1) (kentHead n) (kentHead n)⁻¹ := hunt_kentHead
  have := h.pow_right k
  rw [inv_pow] at this
  exact this

theorem hunt_kentHead_zpow (k : ℤ) :
    huntChange n 1 * kentHead n ^ k = (kentHead n ^ k)⁻¹ * huntChange n 1 := by
  have h : SemiconjBy (huntChange n 1) (kentHead n) (kentHead n)⁻¹ := hunt_kentHead
  have := h.zpow_right k
  rw [inv_zpow] at this
  exact this

theorem kentHead_fixes_treble (h4 : 4 ≤ n) (b : Fin n) (hb : b.val = 0) : kentHead n b = b := by
  rw [kentHead_eq h4, Perm.inv_eq_iff_eq]
  exact (bobHead_fixes_treble (by omega) b hb).symm

theorem kentHead_pow_fixes (h4 : 4 ≤ n) (i : Nat) (b : Fin n) (hb : b.val ≠ 0) :
    (kentHead n ^ i) b = b ↔ (n - 1) ∣ i := by
  rw [kentHead_eq h4, inv_pow, Perm.inv_eq_iff_eq, eq_comm, bobHead_pow_fixes (by omega) i b hb]

theorem minimalPeriod_kentHead (h4 : 4 ≤ n) (b : Fin n) (hb : b.val ≠ 0) :
    Function.minimalPeriod (kentHead n) b = n - 1 := by
  have key : ∀ i, Function.IsPeriodicPt (kentHead n) i b ↔ (n - 1) ∣ i := by
    intro i
    rw [← kentHead_pow_fixes h4 i b hb, Function.IsPeriodicPt, Function.IsFixedPt, Perm.coe_pow]
  apply Nat.dvd_antisymm
  · exact (Function.isPeriodicPt_iff_minimalPeriod_dvd).1 ((key _).2 (dvd_refl _))
  · exact (key _).1 (Function.isPeriodicPt_minimalPeriod _ _)

/-! ## The rows -/

/-- The change after row `k` of the first half of the lead. -/
def kentHalf (n k : Nat) : Perm (Fin n) :=
  if k % 4 = 3 then huntChange n 1
  else if k % 4 = 1 then (if k < 4 then huntChange n 0 else bobChange n)
  else (if k < 4 then kentChange n else huntChange n 0)

theorem kentHalf_isChange (k : Nat) : IsChange (kentHalf n k) := by
  unfold kentHalf
  repeat' split
  all_goals first
    | exact huntChange_isChange _
    | exact bobChange_isChange
    | exact kentChange_isChange

theorem kentHalf_mul_self (k : Nat) : kentHalf n k * kentHalf n k = 1 := by
  unfold kentHalf
  repeat' split
  all_goals first
    | exact huntChange_mul_self _
    | exact bobChange_mul_self
    | exact kentChange_mul_self

/-- The row with which the treble comes into the pair of places number `q`. -/
def kentBase (n : Nat) : Nat → Perm (Fin n)
  | 0 => 1
  | q + 1 => huntChange n 0 * huntChange n 1 * kentHead n ^ q

/-- The four rows while it is there. -/
def kentPart (n : Nat) : Nat → Nat → Perm (Fin n)
  | _, 0 => 1
  | 0, 1 => kentChange n
  | 0, 2 => kentChange n * huntChange n 0
  | 0, _ => huntChange n 0
  | _ + 1, 1 => huntChange n 0
  | _ + 1, 2 => huntChange n 0 * bobChange n
  | _ + 1, _ => bobChange n

/-- Row `t` of the first half of the lead. -/
def kentUp (n t : Nat) : Perm (Fin n) := kentBase n (t / 4) * kentPart n (t / 4) (t % 4)

theorem kentUp_add (q s : Nat) (hs : s < 4) : kentUp n (4 * q + s) = kentBase n q * kentPart n q s := by
  unfold kentUp
  rw [show (4 * q + s) / 4 = q by omega, show (4 * q + s) % 4 = s by omega]

theorem kentUp_succ (h4 : 4 ≤ n) (k : Nat) : kentUp n (k + 1) = kentUp n k * kentHalf n k := by
  obtain ⟨q, s, hs, rfl⟩ : ∃ q s, s < 4 ∧ k = 4 * q + s := ⟨k / 4, k % 4, Nat.mod_lt _ (by omega), by omega⟩
  have hc0 := huntChange_mul_self (n := n) 0
  have hmod : (4 * q + s) % 4 = s := by omega
  have hhalf : kentHalf n (4 * q + s) = if s = 3 then huntChange n 1
      else if s = 1 then (if q = 0 then huntChange n 0 else bobChange n)
      else (if q = 0 then kentChange n else huntChange n 0) := by
    unfold kentHalf
    rw [hmod]
    have : 4 * q + s < 4 ↔ q = 0 := by omega
    simp only [this]
  rw [hhalf, kentUp_add q s hs]
  by_cases h3 : s = 3
  · subst h3
    rw [if_pos rfl, show 4 * q + 3 + 1 = 4 * (q + 1) + 0 by omega, kentUp_add _ _ (by omega)]
    cases q with
    | zero => simp [kentBase, kentPart]
    | succ q =>
      rw [kentBase, kentPart, kentBase, kentPart, mul_one, pow_succ]
      · simp only [kentHead, mul_assoc]
      all_goals simp
  · rw [show 4 * q + s + 1 = 4 * q + (s + 1) by omega, kentUp_add _ _ (by omega), if_neg h3, mul_assoc]
    congr 1
    have hs' : s = 0 ∨ s = 1 ∨ s = 2 := by omega
    rcases hs' with rfl | rfl | rfl
    · cases q <;> simp [kentPart]
    · cases q <;> simp [kentPart]
    · cases q with
      | zero =>
        simp only [kentPart]
        rw [if_neg (by omega), if_pos trivial, kent_comm_cross h4, mul_assoc, kentChange_mul_self, mul_one]
      | succ q =>
        simp only [kentPart]
        rw [if_neg (by omega), if_neg (by omega), cross_comm_bob h4, mul_assoc, hc0, mul_one]

/-- The change after row `k` of the lead. -/
def kentAt (n k : Nat) : Perm (Fin n) :=
  if k < 2 * n then kentHalf n k else if k = 4 * n - 1 then huntChange n 1 else kentHalf n (4 * n - 2 - k)

theorem kentAt_isChange (k : Nat) : IsChange (kentAt n k) := by
  unfold kentAt
  repeat' split
  all_goals first
    | exact kentHalf_isChange _
    | exact huntChange_isChange _

/-- Row `t` of the lead; the second half is the first half backwards, seen from the lead end. -/
def kentRow (n t : Nat) : Perm (Fin n) :=
  if t < 2 * n then kentUp n t else bobChange n * kentUp n (4 * n - 1 - t)

theorem kent_turn (h4 : 4 ≤ n) (he : n % 2 = 0) :
    bobChange n * kentUp n (2 * n - 1) = kentUp n (2 * n - 1) * huntChange n 1 := by
  obtain ⟨m, rfl⟩ : ∃ m, n = 2 * (m + 2) := ⟨n / 2 - 2, by omega⟩
  have hc0 := huntChange_mul_self (n := 2 * (m + 2)) 0
  have hc1 := huntChange_mul_self (n := 2 * (m + 2)) 1
  have hp := bobChange_mul_self (n := 2 * (m + 2))
  have hcp := cross_comm_bob h4
  have hord : kentHead (2 * (m + 2)) ^ (2 * m + 3) = 1 := by
    rw [← show 2 * (m + 2) - 1 = 2 * m + 3 by omega, ← orderOf_kentHead h4, pow_orderOf_eq_one]
  have hpow := hunt_kentHead_pow (n := 2 * (m + 2))
  have hgd : bobChange (2 * (m + 2)) * huntChange (2 * (m + 2)) 1 = kentHead (2 * (m + 2)) := rfl
  have hup : kentUp (2 * (m + 2)) (2 * (2 * (m + 2)) - 1) =
      huntChange (2 * (m + 2)) 0 * huntChange (2 * (m + 2)) 1 * kentHead (2 * (m + 2)) ^ m *
        bobChange (2 * (m + 2)) := by
    rw [show 2 * (2 * (m + 2)) - 1 = 4 * (m + 1) + 3 by omega, kentUp_add _ _ (by omega)]
    rfl
  rw [hup]
  generalize huntChange (2 * (m + 2)) 0 = c at *
  generalize huntChange (2 * (m + 2)) 1 = h at *
  generalize bobChange (2 * (m + 2)) = p at *
  generalize kentHead (2 * (m + 2)) = g at *
  have hpg : p = g * h := by rw [← hgd, mul_assoc, hc1, mul_one]
  have e1 : p * (c * h * g ^ m * p) = c * (g ^ (m + 2) * h) := by
    calc p * (c * h * g ^ m * p) = (p * c) * h * g ^ m * p := by simp only [mul_assoc]
      _ = c * (p * h) * g ^ m * p := by rw [← hcp]; simp only [mul_assoc]
      _ = c * g * g ^ m * (g * h) := by rw [hgd, ← hpg]
      _ = c * (g ^ (m + 2) * h) := by
        rw [pow_succ', pow_succ]; simp only [mul_assoc]
  have e2 : c * h * g ^ m * p * h = c * (h * g ^ (m + 1)) := by
    calc c * h * g ^ m * p * h = c * (h * (g ^ m * (p * h))) := by simp only [mul_assoc]
      _ = _ := by rw [hgd, ← pow_succ]
  rw [e1, e2, hpow]
  have : g ^ (m + 2) = (g ^ (m + 1))⁻¹ := by
    rw [eq_inv_iff_mul_eq_one, ← pow_add, show m + 2 + (m + 1) = 2 * m + 3 by omega, hord]
  rw [this]

theorem kentRow_succ (h4 : 4 ≤ n) (he : n % 2 = 0) (k : Nat) (hk : k + 1 < 4 * n) :
    kentRow n (k + 1) = kentRow n k * kentAt n k := by
  unfold kentRow kentAt
  by_cases h1 : k + 1 < 2 * n
  · rw [if_pos h1, if_pos (by omega), if_pos (by omega), kentUp_succ h4]
  · by_cases h2 : k + 1 = 2 * n
    · rw [if_neg (by omega), if_pos (by omega), if_pos (by omega), h2,
        show 4 * n - 1 - 2 * n = 2 * n - 1 by omega, kent_turn h4 he, show k = 2 * n - 1 by omega]
      congr 1
      unfold kentHalf
      rw [if_pos (by omega)]
    · rw [if_neg h1, if_neg (by omega), if_neg (by omega), if_neg (by omega)]
      have := kentUp_succ h4 (4 * n - 2 - k)
      rw [show 4 * n - 2 - k + 1 = 4 * n - 1 - k by omega] at this
      rw [this, show 4 * n - 1 - (k + 1) = 4 * n - 2 - k by omega, mul_assoc, mul_assoc,
        kentHalf_mul_self, mul_one]

theorem kentRow_zero (h4 : 4 ≤ n) : kentRow n 0 = 1 := by
  unfold kentRow
  rw [if_pos (by omega)]
  rfl

theorem kentRow_last (h4 : 4 ≤ n) : kentRow n (4 * n - 1) * kentAt n (4 * n - 1) = kentHead n := by
  unfold kentRow kentAt
  rw [if_neg (by omega), if_neg (by omega), if_pos rfl, Nat.sub_self]
  change bobChange n * 1 * huntChange n 1 = _
  rw [mul_one]
  rfl

/-! ## The treble -/

theorem bobHead_two (h4 : 4 ≤ n) (q : Nat) (hq : 2 * q + 2 < n) (he : n % 2 = 0) (x : Fin n)
    (hx : x.val = 2) : ((bobHead n ^ q) x).val = 2 * q + 2 := by
  induction q with
  | zero => simpa using hx
  | succ q ih =>
    have hb : bobHead n = huntChange n 1 * bobChange n := by
      rw [bobHead, huntRow_last (by omega)]
    rw [pow_succ', Perm.mul_apply]
    generalize (bobHead n ^ q) x = y at ih
    rw [hb, Perm.mul_apply, huntChange_val, bobChange_val, ih (by omega)]
    have e : bobFn n (2 * q + 2) = 2 * q + 3 := by
      unfold bobFn huntFn
      repeat' split
      all_goals omega
    rw [e]
    unfold huntFn
    repeat' split
    all_goals omega

theorem kentBase_inv (h4 : 4 ≤ n) (he : n % 2 = 0) (q : Nat) (hq : 2 * q < n) (z : Fin n) (hz : z.val = 0) :
    ((kentBase n q)⁻¹ z).val = 2 * q := by
  cases q with
  | zero => simpa [kentBase] using hz
  | succ q =>
    rw [kentBase, mul_inv_rev, mul_inv_rev, Perm.mul_apply, Perm.mul_apply, kentHead_eq h4, inv_pow, inv_inv]
    rw [bobHead_two h4 q (by omega) he]
    · omega
    · rw [huntChange_inv_val, huntChange_inv_val, hz]
      unfold huntFn
      repeat' split
      all_goals omega

theorem kentUp_inv (h4 : 4 ≤ n) (he : n % 2 = 0) (t : Nat) (ht : t < 2 * n) (z : Fin n) (hz : z.val = 0) :
    ((kentUp n t)⁻¹ z).val = 2 * (t / 4) + t % 2 := by
  obtain ⟨q, s, hs, rfl⟩ : ∃ q s, s < 4 ∧ t = 4 * q + s := ⟨t / 4, t % 4, Nat.mod_lt _ (by omega), by omega⟩
  have hb := kentBase_inv h4 he q (by omega) z hz
  rw [kentUp_add q s hs, mul_inv_rev, Perm.mul_apply, show (4 * q + s) / 4 = q by omega,
    show (4 * q + s) % 2 = s % 2 by omega]
  generalize (kentBase n q)⁻¹ z = x at hb
  have hs' : s = 0 ∨ s = 1 ∨ s = 2 ∨ s = 3 := by omega
  rcases hs' with rfl | rfl | rfl | rfl
  · have : kentPart n q 0 = 1 := by cases q <;> rfl
    rw [this]
    simpa using hb
  all_goals
    cases q with
    | zero =>
      simp only [kentPart, mul_inv_rev, Perm.mul_apply, huntChange_inv_val, kentChange_inv_val, hb]
      try unfold kentFn
      unfold huntFn
      repeat' split
      all_goals omega
    | succ q =>
      simp only [kentPart, mul_inv_rev, Perm.mul_apply, huntChange_inv_val, bobChange_inv_val, hb]
      try unfold bobFn
      unfold huntFn
      repeat' split
      all_goals omega

theorem kentRow_treble (h4 : 4 ≤ n) (he : n % 2 = 0) (t : Nat) (ht : t < 4 * n) (z : Fin n)
    (hz : z.val = 0) : ((kentRow n t)⁻¹ z).val = trebleBobPlace n t := by
  unfold kentRow trebleBobPlace
  by_cases h : t < 2 * n
  · rw [if_pos h, if_pos h, kentUp_inv h4 he t h z hz]
  · rw [if_neg h, if_neg h, mul_inv_rev, Perm.mul_apply]
    have : (bobChange n)⁻¹ z = z := Fin.ext (by rw [bobChange_inv_val, hz]; rfl)
    rw [this, kentUp_inv h4 he _ (by omega) z hz]

/-! ## Truth -/

theorem kent_odd_order (h4 : 4 ≤ n) (he : n % 2 = 0) (a : ℤ) (h : (kentHead n ^ a) * (kentHead n ^ a) = 1) :
    kentHead n ^ a = 1 := by
  obtain ⟨m, hm⟩ : ∃ m, n - 1 = 2 * m + 1 := ⟨n / 2 - 1, by omega⟩
  have h1 : kentHead n ^ (2 * m + 1) = 1 := by rw [← hm, ← orderOf_kentHead h4, pow_orderOf_eq_one]
  have h2 : (kentHead n ^ a) ^ (2 * m + 1) = 1 := by
    rw [← zpow_natCast, ← zpow_mul, mul_comm, zpow_mul, zpow_natCast, h1, one_zpow]
  rwa [pow_succ, pow_mul, pow_two, h, one_pow, one_mul] at h2

theorem kent_half_pow (h4 : 4 ≤ n) (he : n % 2 = 0) (a : ℤ) :
    ∃ d : ℤ, kentHead n ^ a = kentHead n ^ d * kentHead n ^ d := by
  obtain ⟨m, hm⟩ : ∃ m, n - 1 = 2 * m + 1 := ⟨n / 2 - 1, by omega⟩
  have h1 : kentHead n ^ (2 * (m : ℤ) + 1) = 1 := by
    have : kentHead n ^ (2 * m + 1) = 1 := by rw [← hm, ← orderOf_kentHead h4, pow_orderOf_eq_one]
    rw [← this, ← zpow_natCast]
    push_cast
    rfl
  refine ⟨a * (m + 1), ?_⟩
  rw [← zpow_add, show a * ((m : ℤ) + 1) + a * (m + 1) = a + (2 * m + 1) * a by ring, zpow_add, zpow_mul, h1,
    one_zpow, mul_one]

theorem conj_swap (σ : Perm (Fin n)) (a b : Fin n) : σ * swap a b * σ⁻¹ = swap (σ a) (σ b) := by
  rw [Equiv.swap_apply_apply]

/-- The change with the first and the last place made is not a power of the lead head times a swap, nor a power
of the lead head. -/
theorem kent_hunt_ne (h6 : 6 ≤ n) (he : n % 2 = 0) (a : ℤ) (x y : Fin n) :
    huntChange n 1 * kentHead n ^ a ≠ swap x y := by
  intro h
  obtain ⟨d, hd⟩ := kent_half_pow (by omega) he a
  rw [hd, ← mul_assoc, hunt_kentHead_zpow] at h
  have h2 : huntChange n 1 = kentHead n ^ d * swap x y * (kentHead n ^ d)⁻¹ := by
    rw [← h]; group
  rw [conj_swap] at h2
  generalize (kentHead n ^ d) x = u at h2
  generalize (kentHead n ^ d) y = v at h2
  have v1 : (huntChange n 1 ⟨1, by omega⟩).val = 2 := by
    rw [huntChange_val]; unfold huntFn; simp; omega
  have v3 : (huntChange n 1 ⟨3, by omega⟩).val = 4 := by
    rw [huntChange_val]; unfold huntFn; simp; omega
  rw [h2, swap_apply_def] at v1 v3
  have ne : ∀ (w : Fin n) (k : Nat) (hk : k < n), (⟨k, hk⟩ : Fin n) = w ↔ w.val = k := by
    intro w k hk
    rw [Fin.ext_iff, eq_comm]
  simp only [ne] at v1 v3
  split at v1
  · split at v3
    · omega
    · split at v3
      · omega
      · simp at v3
  · split at v1
    · split at v3
      · omega
      · split at v3
        · omega
        · simp at v3
    · simp at v1

theorem kentUp_pair (h4 : 4 ≤ n) (q s : Nat) (hs : s < 2) :
    ∃ x y : Fin n, x ≠ y ∧ kentUp n (4 * q + s + 2) * (kentUp n (4 * q + s))⁻¹ = swap x y := by
  rw [show 4 * q + s + 2 = 4 * q + (s + 2) by omega, kentUp_add _ _ (by omega), kentUp_add _ _ (by omega)]
  have key : ∃ x y : Fin n, x ≠ y ∧ kentPart n q (s + 2) * (kentPart n q s)⁻¹ = swap x y := by
    have hs' : s = 0 ∨ s = 1 := by omega
    cases q with
    | zero =>
      refine ⟨⟨2, by omega⟩, ⟨3, by omega⟩, by rw [Ne, Fin.ext_iff]; simp, ?_⟩
      rcases hs' with rfl | rfl
      · simp only [kentPart, Nat.zero_add, inv_one, mul_one]
        exact kent_mul_cross h4
      · simp only [kentPart]
        rw [inv_eq_of_mul_eq_one_left kentChange_mul_self, ← kent_comm_cross h4, kent_mul_cross h4]
    | succ q =>
      refine ⟨⟨0, by omega⟩, ⟨1, by omega⟩, by rw [Ne, Fin.ext_iff]; simp, ?_⟩
      rcases hs' with rfl | rfl
      · simp only [kentPart, Nat.zero_add, inv_one, mul_one]
        exact cross_mul_bob h4
      · simp only [kentPart]
        rw [inv_eq_of_mul_eq_one_left (huntChange_mul_self 0), ← cross_comm_bob h4, cross_mul_bob h4]
  obtain ⟨x, y, hne, h⟩ := key
  refine ⟨kentBase n q x, kentBase n q y, fun e => hne ((kentBase n q).injective e), ?_⟩
  rw [← conj_swap, ← h]
  group

/-- Rows of the first half with the treble in the same place differ by a swap, if they differ. -/
theorem kentUp_same_treble (h4 : 4 ≤ n) {u v : Nat} (h : 2 * (u / 4) + u % 2 = 2 * (v / 4) + v % 2)
    (hne : u ≠ v) : ∃ x y : Fin n, x ≠ y ∧ kentUp n u * (kentUp n v)⁻¹ = swap x y := by
  rcases Nat.lt_or_ge v u with hlt | hge
  · obtain ⟨x, y, h1, h2⟩ := kentUp_pair h4 (v / 4) (v % 4) (by omega)
    rw [show 4 * (v / 4) + v % 4 + 2 = u by omega, show 4 * (v / 4) + v % 4 = v by omega] at h2
    exact ⟨x, y, h1, h2⟩
  · obtain ⟨x, y, h1, h2⟩ := kentUp_pair h4 (u / 4) (u % 4) (by omega)
    rw [show 4 * (u / 4) + u % 4 + 2 = v by omega, show 4 * (u / 4) + u % 4 = u by omega] at h2
    refine ⟨x, y, h1, ?_⟩
    have := congrArg (·⁻¹) h2
    simpa using this

theorem kentUp_distinct (h4 : 4 ≤ n) (he : n % 2 = 0) {u v : Nat}
    (h : 2 * (u / 4) + u % 2 = 2 * (v / 4) + v % 2) (a : ℤ) (hr : kentHead n ^ a * kentUp n v = kentUp n u) :
    u = v ∧ kentHead n ^ a = 1 := by
  have hr' : kentUp n u * (kentUp n v)⁻¹ = kentHead n ^ a := by rw [← hr]; group
  by_cases hne : u = v
  · subst hne
    rw [mul_inv_cancel] at hr'
    exact ⟨rfl, hr'.symm⟩
  · exfalso
    obtain ⟨x, y, h1, h2⟩ := kentUp_same_treble h4 h hne
    rw [hr'] at h2
    have h3 := kent_odd_order h4 he a (by rw [h2]; simp)
    rw [h2] at h3
    exact h1 (by rwa [swap_eq_one_iff] at h3)

theorem kentUp_ne_down (h6 : 6 ≤ n) (he : n % 2 = 0) {u v : Nat}
    (h : 2 * (u / 4) + u % 2 = 2 * (v / 4) + v % 2) (a : ℤ) :
    kentHead n ^ a * (bobChange n * kentUp n v) ≠ kentUp n u := by
  intro hr
  have h4 : 4 ≤ n := by omega
  have hp : bobChange n = huntChange n 1 * (kentHead n)⁻¹ := by
    rw [kentHead, mul_inv_rev, inv_eq_of_mul_eq_one_left bobChange_mul_self,
      inv_eq_of_mul_eq_one_left (huntChange_mul_self 1), ← mul_assoc, huntChange_mul_self, one_mul]
  have hr' : kentUp n u * (kentUp n v)⁻¹ = huntChange n 1 * kentHead n ^ (-a - 1) := by
    rw [← hr, hp]
    have := hunt_kentHead_zpow (n := n) (-a)
    rw [zpow_neg, inv_inv] at this
    calc kentHead n ^ a * (huntChange n 1 * (kentHead n)⁻¹ * kentUp n v) * (kentUp n v)⁻¹
        = (kentHead n ^ a * huntChange n 1) * (kentHead n)⁻¹ := by group
      _ = _ := by rw [← this, mul_assoc, ← zpow_neg, ← zpow_neg_one, ← zpow_add]; rfl
  by_cases hne : u = v
  · subst hne
    rw [mul_inv_cancel] at hr'
    exact kent_hunt_ne h6 he _ ⟨0, by omega⟩ ⟨0, by omega⟩ (by rw [swap_self, ← hr']; rfl)
  · obtain ⟨x, y, -, h2⟩ := kentUp_same_treble h4 h hne
    rw [hr'] at h2
    exact kent_hunt_ne h6 he _ x y h2

theorem bob_kentHead_zpow (k : ℤ) :
    bobChange n * kentHead n ^ k = kentHead n ^ (-k) * bobChange n := by
  have h : SemiconjBy (bobChange n) (kentHead n) (kentHead n)⁻¹ := by
    unfold SemiconjBy
    rw [kentHead, mul_inv_rev, inv_eq_of_mul_eq_one_left bobChange_mul_self,
      inv_eq_of_mul_eq_one_left (huntChange_mul_self 1), ← mul_assoc, bobChange_mul_self, one_mul, mul_assoc,
      bobChange_mul_self, mul_one]
  have := h.zpow_right k
  rw [inv_zpow, ← zpow_neg] at this
  exact this

/-- No two rows of the course are equal, on six bells or more. -/
theorem kent_distinct (h6 : 6 ≤ n) (he : n % 2 = 0) {i j t s : Nat} (hi : i < n - 1) (hj : j < n - 1)
    (ht : t < 4 * n) (hs : s < 4 * n) (h : kentHead n ^ i * kentRow n t = kentHead n ^ j * kentRow n s) :
    i = j ∧ t = s := by
  have h4 : 4 ≤ n := by omega
  set z : Fin n := ⟨0, by omega⟩ with hz
  have hfix : ∀ k : Nat, (kentHead n ^ k)⁻¹ z = z := by
    intro k
    rw [Perm.inv_eq_iff_eq]
    exact (Function.IsFixedPt.perm_pow (kentHead_fixes_treble h4 z rfl) k).symm
  have htr : trebleBobPlace n t = trebleBobPlace n s := by
    rw [← kentRow_treble h4 he t ht z rfl, ← kentRow_treble h4 he s hs z rfl]
    have := congrArg (fun σ => (σ⁻¹ z).val) h
    simpa only [mul_inv_rev, Perm.mul_apply, hfix] using this
  have hinj : ∀ a b : Nat, a < n - 1 → b < n - 1 → kentHead n ^ ((a : ℤ) - b) = 1 → a = b := by
    intro a b ha hb h1
    rw [zpow_sub, mul_inv_eq_one, zpow_natCast, zpow_natCast] at h1
    exact pow_injOn_Iio_orderOf (x := kentHead n) (by simpa [orderOf_kentHead h4] using ha)
      (by simpa [orderOf_kentHead h4] using hb) h1
  have hz' : kentHead n ^ ((j : ℤ) - i) * kentRow n s = kentRow n t := by
    rw [sub_eq_neg_add, zpow_add, zpow_natCast, mul_assoc, ← h, zpow_neg, zpow_natCast, inv_mul_cancel_left]
  unfold trebleBobPlace at htr
  unfold kentRow at hz'
  by_cases h1 : t < 2 * n <;> by_cases h2 : s < 2 * n
  · simp only [if_pos h1, if_pos h2] at hz' htr
    obtain ⟨e1, e2⟩ := kentUp_distinct h4 he htr _ hz'
    exact ⟨(hinj j i hj hi e2).symm, e1⟩
  · simp only [if_pos h1, if_neg h2] at hz' htr
    exact absurd hz' (kentUp_ne_down h6 he htr _)
  · simp only [if_neg h1, if_pos h2] at hz' htr
    refine absurd ?_ (kentUp_ne_down h6 he htr.symm ((i : ℤ) - j))
    rw [← hz', ← mul_assoc, ← zpow_add]
    simp
  · simp only [if_neg h1, if_neg h2] at hz' htr
    rw [← mul_assoc, ← neg_sub (i : ℤ) j, ← bob_kentHead_zpow, mul_assoc, mul_left_cancel_iff] at hz'
    obtain ⟨e1, e2⟩ := kentUp_distinct h4 he htr _ hz'
    exact ⟨hinj i j hi hj e2, by omega⟩

end Bellframe
