import Verif.Spec.PlainHunt
import Verif.Spec.Class
import Verif.Proofs.Method

/-! # Proofs about plain hunting -/

namespace Bellframe

open Equiv

/-! ## Steps of the way -/

theorem wayPlace_lt {n x : Nat} (h : x < 2 * n) : wayPlace n x < n := by
  unfold wayPlace; split <;> omega

theorem wayStart_lt {n b : Nat} (h : b < n) : wayStart n b < 2 * n := by
  unfold wayStart; split <;> omega

theorem wayStart_even (n b : Nat) (h : b < n) : wayStart n b % 2 = 0 := by
  unfold wayStart; split <;> omega

theorem wayPlace_wayStart {n b : Nat} (h : b < n) : wayPlace n (wayStart n b) = b := by
  unfold wayPlace wayStart
  repeat' split
  all_goals omega

theorem wayStart_wayPlace {n x : Nat} (h : x < 2 * n) (h2 : x % 2 = 0) :
    wayStart n (wayPlace n x) = x := by
  unfold wayPlace wayStart
  repeat' split
  all_goals omega

theorem wayPlace_eq {n x y : Nat} (hx : x < 2 * n) (hy : y < 2 * n) :
    wayPlace n x = wayPlace n y ↔ x = y ∨ x + y = 2 * n - 1 := by
  unfold wayPlace; split <;> split <;> omega

theorem huntPlace_lt {n b : Nat} (h : b < n) (t : Nat) : huntPlace n b t < n :=
  wayPlace_lt (Nat.mod_lt _ (by omega))

/-- Where a change of plain hunting takes the bell in place `x`. -/
def huntFn (n k x : Nat) : Nat :=
  if x % 2 = k % 2 then (if x + 1 < n then x + 1 else x) else x - 1

theorem huntFn_lt {n k x : Nat} (h : x < n) : huntFn n k x < n := by
  unfold huntFn; split
  · split <;> omega
  · omega

theorem huntFn_invol {n k x : Nat} (h : x < n) : huntFn n k (huntFn n k x) = x := by
  unfold huntFn
  split
  · split
    · rw [if_neg (by omega)]; omega
    · rfl
  · by_cases h0 : x = 0
    · subst h0; rw [if_neg (by omega)]
    · rw [if_pos (by omega), if_pos (by omega)]; omega

theorem huntFn_way {n k x : Nat} (h : x < 2 * n) (hk : x % 2 = k % 2) :
    huntFn n k (wayPlace n x) = wayPlace n ((x + 1) % (2 * n)) := by
  rcases Nat.lt_or_ge (x + 1) (2 * n) with h1 | h1
  · rw [Nat.mod_eq_of_lt h1]
    unfold huntFn wayPlace
    repeat' split
    all_goals omega
  · have : x + 1 = 2 * n := by omega
    rw [this, Nat.mod_self]
    unfold huntFn wayPlace
    repeat' split
    all_goals omega

theorem huntPlace_zero {n b : Nat} (h : b < n) : huntPlace n b 0 = b := by
  unfold huntPlace
  rw [Nat.add_zero, Nat.mod_eq_of_lt (wayStart_lt h), wayPlace_wayStart h]

theorem huntPlace_succ {n b : Nat} (h : b < n) (t : Nat) :
    huntPlace n b (t + 1) = huntFn n t (huntPlace n b t) := by
  unfold huntPlace
  have h2 := wayStart_even n b h
  rw [huntFn_way (Nat.mod_lt _ (by omega)), Nat.mod_add_mod, Nat.add_assoc]
  rw [Nat.mod_mul_right_mod]
  omega

theorem huntPlace_period {n b : Nat} (t : Nat) : huntPlace n b (t + 2 * n) = huntPlace n b t := by
  unfold huntPlace
  rw [← Nat.add_assoc, Nat.add_mod_right]

theorem huntPlace_even_eq {n b t : Nat} (h : b < n) : huntPlace n b (2 * t) = b ↔ n ∣ t := by
  have h1 := wayStart_lt h
  have h2 := wayStart_even n b h
  have h3 : (wayStart n b + 2 * t) % (2 * n) < 2 * n := Nat.mod_lt _ (by omega)
  have h4 : (wayStart n b + 2 * t) % (2 * n) % 2 = 0 := by rw [Nat.mod_mul_right_mod]; omega
  constructor
  · intro he
    have : (wayStart n b + 2 * t) % (2 * n) = wayStart n b := by
      rw [← wayStart_wayPlace h3 h4]; exact congrArg _ he
    have hd : 2 * n ∣ 2 * t := by
      have h5 : (wayStart n b + 2 * t) ≡ wayStart n b + 0 [MOD 2 * n] := by
        unfold Nat.ModEq; rw [this, Nat.add_zero, Nat.mod_eq_of_lt h1]
      exact (Nat.modEq_zero_iff_dvd).1 (Nat.ModEq.add_left_cancel' _ h5)
    exact Nat.dvd_of_mul_dvd_mul_left (by omega) hd
  · rintro ⟨c, rfl⟩
    unfold huntPlace
    rw [show 2 * (n * c) = 2 * n * c by rw [Nat.mul_assoc], Nat.add_mul_mod_self_left,
      Nat.mod_eq_of_lt h1, wayPlace_wayStart h]

theorem huntPlace_reach {n a b : Nat} (ha : a < n) (hb : b < n) : ∃ j, huntPlace n a (2 * j) = b := by
  have h1 := wayStart_lt ha
  have h2 := wayStart_even n a ha
  have h3 := wayStart_lt hb
  have h4 := wayStart_even n b hb
  refine ⟨(wayStart n b + 2 * n - wayStart n a) / 2, ?_⟩
  unfold huntPlace
  rw [show wayStart n a + 2 * ((wayStart n b + 2 * n - wayStart n a) / 2) = wayStart n b + 2 * n by omega,
    Nat.add_mod_right, Nat.mod_eq_of_lt h3, wayPlace_wayStart hb]

/-! ## The changes -/

variable {n : Nat}

def permOfInvol (f : Nat → Nat) (h1 : ∀ x < n, f x < n) (h2 : ∀ x < n, f (f x) = x) : Perm (Fin n) where
  toFun x := ⟨f x, h1 x x.isLt⟩
  invFun x := ⟨f x, h1 x x.isLt⟩
  left_inv x := Fin.ext (h2 x x.isLt)
  right_inv x := Fin.ext (h2 x x.isLt)

/-- Change `k` of plain hunting. -/
def huntChange (n k : Nat) : Perm (Fin n) :=
  permOfInvol (huntFn n k) (fun _ h => huntFn_lt h) (fun _ h => huntFn_invol h)

def bobFn (n x : Nat) : Nat := if x < 2 then x else huntFn n 0 x

theorem bobFn_lt {x : Nat} (h : x < n) : bobFn n x < n := by
  unfold bobFn; split
  · exact h
  · exact huntFn_lt h

theorem huntFn_ge {x : Nat} (h : 2 ≤ x) : 2 ≤ huntFn n 0 x := by
  unfold huntFn; repeat' split
  all_goals omega

theorem bobFn_invol {x : Nat} (h : x < n) : bobFn n (bobFn n x) = x := by
  unfold bobFn
  by_cases h2 : x < 2
  · rw [if_pos h2, if_pos h2]
  · rw [if_neg h2, if_neg (by have := @huntFn_ge n x (by omega); omega), huntFn_invol h]

/-- The change at the lead end of Plain Bob. -/
def bobChange (n : Nat) : Perm (Fin n) :=
  permOfInvol (bobFn n) (fun _ h => bobFn_lt h) (fun _ h => bobFn_invol h)

@[simp] theorem huntChange_val (k : Nat) (x : Fin n) : (huntChange n k x).val = huntFn n k x := rfl
@[simp] theorem huntChange_inv_val (k : Nat) (x : Fin n) :
    ((huntChange n k)⁻¹ x).val = huntFn n k x := rfl
@[simp] theorem bobChange_val (x : Fin n) : (bobChange n x).val = bobFn n x := rfl
@[simp] theorem bobChange_inv_val (x : Fin n) : ((bobChange n)⁻¹ x).val = bobFn n x := rfl

theorem huntChange_isChange (k : Nat) : IsChange (huntChange n k) := by
  intro x
  simp only [huntChange_val]
  unfold huntFn; repeat' split
  all_goals omega

theorem bobChange_isChange : IsChange (bobChange n) := by
  intro x
  simp only [bobChange_val]
  unfold bobFn huntFn; repeat' split
  all_goals omega

theorem huntChange_mod (k : Nat) : huntChange n k = huntChange n (k % 2) := by
  ext x
  simp [huntFn]

theorem huntChange_add_two (k : Nat) : huntChange n (k + 2) = huntChange n k := by
  rw [huntChange_mod, huntChange_mod k, Nat.add_mod_right]

theorem huntChange_mul_self (k : Nat) : huntChange n k * huntChange n k = 1 := by
  ext x
  simp [Perm.mul_apply, huntFn_invol x.isLt]

/-- Row `t` of plain hunting. -/
def huntRow (n t : Nat) : Perm (Fin n) := ((List.range t).map (huntChange n)).prod

theorem huntRow_zero : huntRow n 0 = 1 := rfl

theorem huntRow_succ (t : Nat) : huntRow n (t + 1) = huntRow n t * huntChange n t := by
  simp [huntRow, List.range_succ]

theorem huntRow_inv_val (t : Nat) (b : Fin n) : ((huntRow n t)⁻¹ b).val = huntPlace n b t := by
  induction t with
  | zero => simp [huntRow_zero, huntPlace_zero b.isLt]
  | succ t ih =>
    rw [huntRow_succ, mul_inv_rev, Perm.mul_apply, huntChange_inv_val, ih, huntPlace_succ b.isLt]

theorem huntRow_eq_of_places {σ : Perm (Fin n)} {t : Nat} (h : ∀ b, (σ⁻¹ b).val = huntPlace n b t) :
    σ = huntRow n t := by
  have : σ⁻¹ = (huntRow n t)⁻¹ := by
    ext b; rw [h, huntRow_inv_val]
  exact inv_injective this

theorem huntRow_period : huntRow n (2 * n) = 1 := by
  symm
  apply huntRow_eq_of_places
  intro b
  have := huntPlace_period (n := n) (b := b.val) 0
  rw [Nat.zero_add] at this
  rw [this, huntPlace_zero b.isLt]; rfl

theorem huntRow_add (k t : Nat) (hk : k % 2 = 0) : huntRow n (k + t) = huntRow n k * huntRow n t := by
  induction t with
  | zero => simp [huntRow_zero]
  | succ t ih =>
    rw [← Nat.add_assoc, huntRow_succ, ih, huntRow_succ, mul_assoc, huntChange_mod (k + t),
      huntChange_mod t]
    congr 3
    omega

theorem huntRow_last (hn : 0 < n) : huntRow n (2 * n - 1) = huntChange n 1 := by
  have h : huntRow n (2 * n - 1) * huntChange n (2 * n - 1) = 1 := by
    rw [← huntRow_succ, show 2 * n - 1 + 1 = 2 * n by omega, huntRow_period]
  rw [huntChange_mod (2 * n - 1), show (2 * n - 1) % 2 = 1 by omega] at h
  have h2 := huntChange_mul_self (n := n) 1
  exact mul_right_cancel (h.trans h2.symm)

/-- Plain hunting goes back the way it came. -/
theorem huntRow_back (k : Nat) (hk : k < 2 * n) :
    huntRow n (2 * n - 1 - k) = huntChange n 1 * huntRow n k := by
  induction k with
  | zero => rw [Nat.sub_zero, huntRow_last (by omega), huntRow_zero, mul_one]
  | succ k ih =>
    rw [huntRow_succ, ← mul_assoc, ← ih (by omega), show 2 * n - 1 - k = 2 * n - 1 - (k + 1) + 1 by omega,
      huntRow_succ, mul_assoc, huntChange_mod (2 * n - 1 - (k + 1)), huntChange_mod k,
      show (2 * n - 1 - (k + 1)) % 2 = k % 2 by omega, huntChange_mul_self, mul_one]

/-! ## The lead head of Plain Bob -/

/-- The lead head of Plain Bob. -/
def bobHead (n : Nat) : Perm (Fin n) := huntRow n (2 * n - 1) * bobChange n

theorem bobHead_inv_val (hn : 2 ≤ n) (b : Fin n) :
    ((bobHead n)⁻¹ b).val = bobLeadHeadPlace n b 1 := by
  have hb := b.isLt
  unfold bobHead
  rw [huntRow_last (by omega), mul_inv_rev, Perm.mul_apply, bobChange_inv_val, huntChange_inv_val]
  unfold bobLeadHeadPlace
  by_cases h0 : b.val = 0
  · rw [h0, if_pos rfl]; simp [huntFn, bobFn]
  · rw [if_neg h0, huntPlace_succ (by omega), huntPlace_succ (by omega), huntPlace_zero (by omega)]
    unfold bobFn huntFn
    repeat' split
    all_goals omega

theorem bobLeadHeadPlace_lt {b : Nat} (h : b < n) (i : Nat) : bobLeadHeadPlace n b i < n := by
  unfold bobLeadHeadPlace
  split
  · omega
  · have := @huntPlace_lt (n - 1) (b - 1) (by omega) (2 * i); omega

theorem huntPlace_add {n b : Nat} (h : b < n) (k t : Nat) :
    huntPlace n (huntPlace n b (2 * k)) t = huntPlace n b (2 * k + t) := by
  induction t with
  | zero => rw [huntPlace_zero (huntPlace_lt h _), Nat.add_zero]
  | succ t ih =>
    rw [huntPlace_succ (huntPlace_lt h _), ih, ← Nat.add_assoc, huntPlace_succ h]
    unfold huntFn
    rw [show (2 * k + t) % 2 = t % 2 by omega]

theorem bobLeadHeadPlace_add {b : Nat} (h : b < n) (i j : Nat) :
    bobLeadHeadPlace n (bobLeadHeadPlace n b i) j = bobLeadHeadPlace n b (i + j) := by
  by_cases h0 : b = 0
  · subst h0; simp [bobLeadHeadPlace]
  · unfold bobLeadHeadPlace
    rw [if_neg h0, if_neg (by omega), if_neg h0, Nat.add_sub_cancel, huntPlace_add (by omega),
      Nat.mul_add]

theorem bobHead_pow_inv_val (hn : 2 ≤ n) (i : Nat) (b : Fin n) :
    ((bobHead n ^ i)⁻¹ b).val = bobLeadHeadPlace n b i := by
  induction i with
  | zero =>
    have := b.isLt
    simp only [pow_zero, inv_one, Perm.one_apply, bobLeadHeadPlace]
    split
    · assumption
    · rw [Nat.mul_zero, huntPlace_zero (by omega)]; omega
  | succ i ih =>
    rw [pow_succ, mul_inv_rev, Perm.mul_apply, bobHead_inv_val hn, ih, bobLeadHeadPlace_add b.isLt]

theorem bobLeadHeadPlace_eq {b i : Nat} (hb : 0 < b) (h : b < n) :
    bobLeadHeadPlace n b i = b ↔ (n - 1) ∣ i := by
  unfold bobLeadHeadPlace
  rw [if_neg (by omega), ← huntPlace_even_eq (show b - 1 < n - 1 by omega)]
  omega

/-- The powers of the lead head that fix a working bell. -/
theorem bobHead_pow_fixes (hn : 2 ≤ n) (i : Nat) (b : Fin n) (hb : b.val ≠ 0) :
    (bobHead n ^ i) b = b ↔ (n - 1) ∣ i := by
  rw [← bobLeadHeadPlace_eq (n := n) (b := b.val) (by omega) b.isLt, ← bobHead_pow_inv_val hn]
  constructor
  · intro h
    rw [Perm.inv_eq_iff_eq.2 h.symm]
  · intro h
    exact (Perm.inv_eq_iff_eq.1 (Fin.ext h)).symm

theorem bobHead_fixes_treble (hn : 2 ≤ n) (b : Fin n) (hb : b.val = 0) : bobHead n b = b := by
  have h : (bobHead n)⁻¹ b = b := Fin.ext (by rw [bobHead_inv_val hn, bobLeadHeadPlace, if_pos hb, hb])
  exact (Perm.inv_eq_iff_eq.1 h).symm

theorem orderOf_bobHead (hn : 2 ≤ n) : orderOf (bobHead n) = n - 1 := by
  apply Nat.dvd_antisymm
  · apply orderOf_dvd_of_pow_eq_one
    ext b
    congr 1
    by_cases hb : b.val = 0
    · rw [Perm.one_apply]
      have := (bobHead_fixes_treble hn b hb)
      exact Function.IsFixedPt.perm_pow this _
    · exact (bobHead_pow_fixes hn _ b hb).2 (dvd_refl _)
  · rw [← bobHead_pow_fixes hn _ ⟨1, by omega⟩ (by simp), pow_orderOf_eq_one]; rfl

theorem minimalPeriod_bobHead (hn : 2 ≤ n) (b : Fin n) (hb : b.val ≠ 0) :
    Function.minimalPeriod (bobHead n) b = n - 1 := by
  have key : ∀ i, Function.IsPeriodicPt (bobHead n) i b ↔ (n - 1) ∣ i := by
    intro i
    rw [← bobHead_pow_fixes hn i b hb, Function.IsPeriodicPt, Function.IsFixedPt, Perm.coe_pow]
  apply Nat.dvd_antisymm
  · exact (Function.isPeriodicPt_iff_minimalPeriod_dvd).1 ((key _).2 (dvd_refl _))
  · exact (key _).1 (Function.isPeriodicPt_minimalPeriod _ _)

/-! ## The lead head of plain hunting -/

theorem huntRow_pow (i : Nat) : huntRow n 2 ^ i = huntRow n (2 * i) := by
  induction i with
  | zero => rfl
  | succ i ih => rw [pow_succ, ih, Nat.mul_add, huntRow_add _ _ (by omega)]

theorem huntRow_pow_fixes (i : Nat) (b : Fin n) : (huntRow n 2 ^ i) b = b ↔ n ∣ i := by
  rw [huntRow_pow, ← huntPlace_even_eq b.isLt, ← huntRow_inv_val]
  constructor
  · intro h
    rw [Perm.inv_eq_iff_eq.2 h.symm]
  · intro h
    exact (Perm.inv_eq_iff_eq.1 (Fin.ext h)).symm

theorem orderOf_huntRow (hn : 0 < n) : orderOf (huntRow n 2) = n := by
  apply Nat.dvd_antisymm
  · apply orderOf_dvd_of_pow_eq_one
    rw [huntRow_pow, huntRow_period]
  · rw [← huntRow_pow_fixes _ ⟨0, hn⟩, pow_orderOf_eq_one]; rfl

theorem minimalPeriod_huntRow (b : Fin n) : Function.minimalPeriod (huntRow n 2) b = n := by
  have key : ∀ i, Function.IsPeriodicPt (huntRow n 2) i b ↔ n ∣ i := by
    intro i
    rw [← huntRow_pow_fixes i b, Function.IsPeriodicPt, Function.IsFixedPt, Perm.coe_pow]
  apply Nat.dvd_antisymm
  · exact (Function.isPeriodicPt_iff_minimalPeriod_dvd).1 ((key _).2 (dvd_refl _))
  · exact (key _).1 (Function.isPeriodicPt_minimalPeriod _ _)

/-! ## Leads -/

def huntLead (n L : Nat) : List (Perm (Fin n)) := (List.range L).map (huntRow n)

theorem courseRow_hunt (t : Nat) : courseRow (huntLead n 2) (huntRow n 2) t = huntRow n t := by
  unfold courseRow huntLead
  rw [huntRow_pow, List.length_map, List.length_range,
    List.getElem?_eq_getElem (by simp; omega), List.getElem_map, List.getElem_range, Option.getD_some,
    ← huntRow_add _ _ (by omega), Nat.div_add_mod]

theorem courseRow_bob (hn : 2 ≤ n) (t : Nat) :
    courseRow (huntLead n (2 * n)) (bobHead n) t =
      bobHead n ^ (t / (2 * n)) * huntRow n (t % (2 * n)) := by
  have : t % (2 * n) < 2 * n := Nat.mod_lt _ (by omega)
  unfold courseRow huntLead
  rw [List.length_map, List.length_range, List.getElem?_eq_getElem (by simpa using this),
    List.getElem_map, List.getElem_range, Option.getD_some]

theorem placeOfBell_bob (hn : 2 ≤ n) (b : Fin n) (t : Nat) :
    (placeOfBell (huntLead n (2 * n)) (bobHead n) b t).val = bobPlace n b t := by
  unfold placeOfBell bobPlace
  rw [courseRow_bob hn, mul_inv_rev, Perm.mul_apply, huntRow_inv_val, bobHead_pow_inv_val hn]

theorem bobPlace_treble (hn : 2 ≤ n) (t : Nat) : bobPlace n 0 t = wayPlace n (t % (2 * n)) := by
  unfold bobPlace bobLeadHeadPlace huntPlace wayStart
  simp

/-- No two rows of the plain course of Plain Bob are equal. -/
theorem bob_distinct (hn : 4 ≤ n) {i j : Nat} (hi : i < 2 * n * (n - 1)) (hj : j < 2 * n * (n - 1))
    (h : courseRow (huntLead n (2 * n)) (bobHead n) i = courseRow (huntLead n (2 * n)) (bobHead n) j) :
    i = j := by
  have hn2 : 2 ≤ n := by omega
  have hpos : 0 < 2 * n := by omega
  have hpl : ∀ b : Fin n, bobPlace n b i = bobPlace n b j := by
    intro b
    rw [← placeOfBell_bob hn2, ← placeOfBell_bob hn2, placeOfBell, h, ← placeOfBell]
  have h0 := hpl ⟨0, by omega⟩
  simp only [bobPlace_treble hn2] at h0
  rw [wayPlace_eq (Nat.mod_lt _ hpos) (Nat.mod_lt _ hpos)] at h0
  rw [courseRow_bob hn2, courseRow_bob hn2] at h
  have hid : i / (2 * n) < n - 1 := Nat.div_lt_of_lt_mul hi
  have hjd : j / (2 * n) < n - 1 := Nat.div_lt_of_lt_mul hj
  rcases h0 with h0 | h0
  · rw [h0] at h
    have h1 := mul_right_cancel h
    have h2 := pow_injOn_Iio_orderOf (x := bobHead n)
      (by simpa [orderOf_bobHead hn2] using hid) (by simpa [orderOf_bobHead hn2] using hjd) h1
    rw [← Nat.div_add_mod i (2 * n), ← Nat.div_add_mod j (2 * n), h0]
    rw [show i / (2 * n) = j / (2 * n) from h2]
  · exfalso
    have hjm := Nat.mod_lt j hpos
    have him := Nat.mod_lt i hpos
    rw [show j % (2 * n) = 2 * n - 1 - i % (2 * n) by omega, huntRow_back _ him, ← mul_assoc] at h
    have h1 := mul_right_cancel h
    -- a power of the lead head is the change at the half lead
    have h2 : bobHead n ^ (i / (2 * n) + (n - 1 - j / (2 * n))) = huntChange n 1 := by
      have e : bobHead n ^ (j / (2 * n)) * bobHead n ^ (n - 1 - j / (2 * n)) = 1 := by
        rw [← pow_add, show j / (2 * n) + (n - 1 - j / (2 * n)) = n - 1 by omega, ← orderOf_bobHead hn2,
          pow_orderOf_eq_one]
      have e2 : bobHead n ^ (n - 1 - j / (2 * n)) * bobHead n ^ (j / (2 * n)) = 1 := by
        rw [← pow_add, show n - 1 - j / (2 * n) + j / (2 * n) = n - 1 by omega, ← orderOf_bobHead hn2,
          pow_orderOf_eq_one]
      rw [Nat.add_comm, pow_add, h1, ← mul_assoc, e2, one_mul]
    generalize hs : i / (2 * n) + (n - 1 - j / (2 * n)) = s at h2
    have h3 : ∀ b : Fin n, bobLeadHeadPlace n b s = huntFn n 1 b := by
      intro b
      rw [← bobHead_pow_inv_val hn2, h2, huntChange_inv_val]
    have e1 := h3 ⟨1, by omega⟩
    have e3 := h3 ⟨3, by omega⟩
    have hw : ∀ q, q % 2 = 0 → q < n - 1 → huntPlace (n - 1) q (2 * s) =
        wayPlace (n - 1) ((q + 2 * s) % (2 * (n - 1))) := by
      intro q hq hq2
      rw [huntPlace, wayStart, if_pos hq]
    have f1 : huntFn n 1 1 = 2 := by unfold huntFn; rw [if_pos rfl, if_pos (by omega)]
    have f3 : huntFn n 1 3 = if 4 < n then 4 else 3 := by unfold huntFn; rw [if_pos rfl]
    simp only [bobLeadHeadPlace, f1, f3, Nat.one_ne_zero, if_false, Nat.sub_self,
      show ¬ (3 = 0) by decide, show 3 - 1 = 2 from rfl] at e1 e3
    rw [hw 0 rfl (by omega)] at e1
    rw [hw 2 rfl (by omega)] at e3
    rw [Nat.zero_add] at e1
    have hm := Nat.mod_lt (2 * s) (show 0 < 2 * (n - 1) by omega)
    have e4 : (2 + 2 * s) % (2 * (n - 1)) = if 2 * s % (2 * (n - 1)) + 2 < 2 * (n - 1) then
        2 * s % (2 * (n - 1)) + 2 else 2 * s % (2 * (n - 1)) + 2 - 2 * (n - 1) := by
      rw [Nat.add_mod, Nat.mod_eq_of_lt (show 2 < 2 * (n - 1) by omega), Nat.add_comm]
      split
      · exact Nat.mod_eq_of_lt (by omega)
      · rw [Nat.mod_eq_sub_mod (by omega), Nat.mod_eq_of_lt (by omega)]
    have e5 : 2 * s % (2 * (n - 1)) % 2 = 0 := by rw [Nat.mod_mul_right_mod]; omega
    rw [e4] at e3
    generalize 2 * s % (2 * (n - 1)) = u at e1 e3 hm e5
    unfold wayPlace at e1 e3
    clear e4 hw f1 f3 h3 h2 h1 h hpl
    split at e1 <;> split at e3 <;> split at e3 <;> split at e3 <;> omega

/-- All working bells do the same work. -/
theorem bob_same_work {a b : Nat} (ha : 0 < a ∧ a < n) (hb : 0 < b ∧ b < n) :
    ∃ j, ∀ t, bobPlace n b t = bobPlace n a (t + j * (2 * n)) := by
  obtain ⟨j, hj⟩ := huntPlace_reach (n := n - 1) (a := a - 1) (b := b - 1) (by omega) (by omega)
  refine ⟨j, fun t => ?_⟩
  unfold bobPlace
  rw [Nat.add_mul_mod_self_right, Nat.add_mul_div_right _ _ (by omega), Nat.add_comm _ j,
    ← bobLeadHeadPlace_add ha.2]
  congr 2
  unfold bobLeadHeadPlace
  rw [if_neg (show a ≠ 0 by omega), hj]
  omega

/-- No two rows of plain hunting are equal, on more than two bells. -/
theorem hunt_distinct (hn : 3 ≤ n) {i j : Nat} (hi : i < 2 * n) (hj : j < 2 * n)
    (h : huntRow n i = huntRow n j) : i = j := by
  have hpl : ∀ b : Fin n, huntPlace n b i = huntPlace n b j := by
    intro b; rw [← huntRow_inv_val, h, huntRow_inv_val]
  have h0 := hpl ⟨0, by omega⟩
  have h2 := hpl ⟨2, by omega⟩
  unfold huntPlace wayStart at h0 h2
  simp only [Nat.zero_mod, if_true, Nat.zero_add, Nat.mod_self] at h0 h2
  rw [wayPlace_eq (Nat.mod_lt _ (by omega)) (Nat.mod_lt _ (by omega)), Nat.mod_eq_of_lt hi,
    Nat.mod_eq_of_lt hj] at h0
  rw [wayPlace_eq (Nat.mod_lt _ (by omega)) (Nat.mod_lt _ (by omega))] at h2
  have e : ∀ k < 2 * n, (2 + k) % (2 * n) = if k + 2 < 2 * n then k + 2 else k + 2 - 2 * n := by
    intro k hk
    rw [Nat.add_comm]
    split
    · exact Nat.mod_eq_of_lt (by omega)
    · rw [Nat.mod_eq_sub_mod (by omega), Nat.mod_eq_of_lt (by omega)]
  rw [e i hi, e j hj] at h2
  split at h2 <;> split at h2 <;> omega

end Bellframe
