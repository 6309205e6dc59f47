import Verif.Spec.Grandsire
import Verif.Proofs.PlainHunt

/-! # Proofs about Grandsire -/

namespace Bellframe

open Equiv

variable {n : Nat}

/-- Where the first change of Grandsire takes the bell in place `x`. -/
def thirdsFn (n x : Nat) : Nat := if x < 2 then 1 - x else if x = 2 then 2 else huntFn n 1 x

theorem thirdsFn_lt {x : Nat} (hn : 2 ≤ n) (h : x < n) : thirdsFn n x < n := by
  unfold thirdsFn
  split
  · omega
  · split
    · omega
    · exact huntFn_lt h

theorem huntFn_one_ge {x : Nat} (h : 3 ≤ x) : 3 ≤ huntFn n 1 x := by
  unfold huntFn; repeat' split
  all_goals omega

theorem thirdsFn_invol {x : Nat} (h : x < n) : thirdsFn n (thirdsFn n x) = x := by
  unfold thirdsFn
  by_cases h2 : x < 2
  · rw [if_pos h2, if_pos (by omega)]; omega
  · by_cases h3 : x = 2
    · subst h3; simp
    · have := @huntFn_one_ge n x (by omega)
      rw [if_neg h2, if_neg h3, if_neg (by omega), if_neg (by omega), huntFn_invol h]

/-- The first change of Grandsire. -/
def thirdsChange (n : Nat) (hn : 2 ≤ n) : Perm (Fin n) :=
  permOfInvol (thirdsFn n) (fun _ h => thirdsFn_lt hn h) (fun _ h => thirdsFn_invol h)

@[simp] theorem thirdsChange_val (hn : 2 ≤ n) (x : Fin n) : (thirdsChange n hn x).val = thirdsFn n x := rfl
@[simp] theorem thirdsChange_inv_val (hn : 2 ≤ n) (x : Fin n) :
    ((thirdsChange n hn)⁻¹ x).val = thirdsFn n x := rfl

theorem thirdsChange_isChange (hn : 2 ≤ n) : IsChange (thirdsChange n hn) := by
  intro x
  simp only [thirdsChange_val]
  unfold thirdsFn huntFn; repeat' split
  all_goals omega

/-- The lead head of Grandsire. -/
def grandsireHead (n : Nat) (hn : 2 ≤ n) : Perm (Fin n) := thirdsChange n hn * huntChange n 0

theorem grandsireHeadPlace_lt {b : Nat} (h : b < n) (i : Nat) : grandsireHeadPlace n b i < n := by
  unfold grandsireHeadPlace
  split
  · omega
  · have := @huntPlace_lt (n - 2) (b - 2) (by omega) (2 * ((n - 3) * i)); omega

theorem huntPlace_back {n b : Nat} (h : b < n) (h1 : 1 ≤ n) :
    huntPlace n b (2 * (n - 1)) = huntFn n 0 (huntFn n 1 b) := by
  set c := huntFn n 0 (huntFn n 1 b) with hc
  have hcl : c < n := huntFn_lt (huntFn_lt h)
  have h2 : huntPlace n c (2 * 1) = b := by
    rw [show 2 * 1 = 0 + 1 + 1 from rfl, huntPlace_succ hcl, huntPlace_succ hcl, huntPlace_zero hcl, hc,
      huntFn_invol (huntFn_lt h), huntFn_invol h]
  conv_lhs => rw [← h2]
  rw [huntPlace_add hcl, show 2 * 1 + 2 * (n - 1) = 0 + 2 * n by omega, huntPlace_period, huntPlace_zero hcl]

theorem grandsireHead_inv_val (hn : 4 ≤ n) (b : Fin n) :
    ((grandsireHead n (by omega))⁻¹ b).val = grandsireHeadPlace n b 1 := by
  have hb := b.isLt
  unfold grandsireHead
  rw [mul_inv_rev, Perm.mul_apply, huntChange_inv_val, thirdsChange_inv_val]
  unfold grandsireHeadPlace
  by_cases h0 : b.val < 2
  · rw [if_pos h0]
    unfold thirdsFn huntFn
    rw [if_pos h0]
    split
    · rw [if_pos (by omega)]; omega
    · omega
  · rw [if_neg h0, Nat.mul_one, show n - 3 = n - 2 - 1 by omega, huntPlace_back (by omega) (by omega)]
    unfold thirdsFn huntFn
    repeat' split
    all_goals omega

theorem grandsireHeadPlace_add {b : Nat} (h : b < n) (i j : Nat) :
    grandsireHeadPlace n (grandsireHeadPlace n b i) j = grandsireHeadPlace n b (i + j) := by
  by_cases h0 : b < 2
  · simp [grandsireHeadPlace, h0]
  · unfold grandsireHeadPlace
    rw [if_neg h0, if_neg (by omega), if_neg h0, Nat.add_sub_cancel, huntPlace_add (by omega),
      Nat.mul_add, Nat.mul_add]

theorem grandsireHead_pow_inv_val (hn : 4 ≤ n) (i : Nat) (b : Fin n) :
    ((grandsireHead n (by omega) ^ i)⁻¹ b).val = grandsireHeadPlace n b i := by
  induction i with
  | zero =>
    have := b.isLt
    simp only [pow_zero, inv_one, Perm.one_apply, grandsireHeadPlace]
    split
    · rfl
    · rw [Nat.mul_zero, Nat.mul_zero, huntPlace_zero (by omega)]; omega
  | succ i ih =>
    rw [pow_succ, mul_inv_rev, Perm.mul_apply, grandsireHead_inv_val hn, ih, grandsireHeadPlace_add b.isLt]

theorem grandsireHeadPlace_eq {b i : Nat} (hb : 2 ≤ b) (h : b < n) :
    grandsireHeadPlace n b i = b ↔ (n - 2) ∣ i := by
  unfold grandsireHeadPlace
  rw [if_neg (by omega)]
  have hc : Nat.Coprime (n - 2) (n - 3) := by
    rw [show n - 2 = n - 3 + 1 by omega, Nat.coprime_self_add_left]
    exact Nat.coprime_one_left _
  rw [← hc.dvd_mul_left (n := i), ← huntPlace_even_eq (show b - 2 < n - 2 by omega)]
  omega

theorem grandsireHead_pow_fixes (hn : 4 ≤ n) (i : Nat) (b : Fin n) (hb : 2 ≤ b.val) :
    (grandsireHead n (by omega) ^ i) b = b ↔ (n - 2) ∣ i := by
  rw [← grandsireHeadPlace_eq (n := n) (b := b.val) hb b.isLt, ← grandsireHead_pow_inv_val hn]
  constructor
  · intro h
    rw [Perm.inv_eq_iff_eq.2 h.symm]
  · intro h
    exact (Perm.inv_eq_iff_eq.1 (Fin.ext h)).symm

theorem grandsireHead_fixes_hunts (hn : 4 ≤ n) (b : Fin n) (hb : b.val < 2) :
    grandsireHead n (by omega) b = b := by
  have h : (grandsireHead n (by omega))⁻¹ b = b :=
    Fin.ext (by rw [grandsireHead_inv_val hn, grandsireHeadPlace, if_pos hb])
  exact (Perm.inv_eq_iff_eq.1 h).symm

theorem orderOf_grandsireHead (hn : 4 ≤ n) : orderOf (grandsireHead n (by omega)) = n - 2 := by
  apply Nat.dvd_antisymm
  · apply orderOf_dvd_of_pow_eq_one
    ext b
    congr 1
    by_cases hb : b.val < 2
    · rw [Perm.one_apply]
      exact Function.IsFixedPt.perm_pow (grandsireHead_fixes_hunts hn b hb) _
    · exact (grandsireHead_pow_fixes hn _ b (by omega)).2 (dvd_refl _)
  · rw [← grandsireHead_pow_fixes hn _ ⟨2, by omega⟩ (by simp), pow_orderOf_eq_one]; rfl

theorem minimalPeriod_grandsireHead (hn : 4 ≤ n) (b : Fin n) (hb : 2 ≤ b.val) :
    Function.minimalPeriod (grandsireHead n (by omega)) b = n - 2 := by
  have key : ∀ i, Function.IsPeriodicPt (grandsireHead n (by omega)) i b ↔ (n - 2) ∣ i := by
    intro i
    rw [← grandsireHead_pow_fixes hn i b hb, Function.IsPeriodicPt, Function.IsFixedPt, Perm.coe_pow]
  apply Nat.dvd_antisymm
  · exact (Function.isPeriodicPt_iff_minimalPeriod_dvd).1 ((key _).2 (dvd_refl _))
  · exact (key _).1 (Function.isPeriodicPt_minimalPeriod _ _)

/-! ## The lead -/

def grandsireRow (n : Nat) (hn : 2 ≤ n) (t : Nat) : Perm (Fin n) :=
  if t = 0 then 1 else grandsireHead n hn * huntRow n t

theorem grandsireRow_one (hn : 2 ≤ n) : grandsireRow n hn 1 = thirdsChange n hn := by
  rw [grandsireRow, if_neg (by decide), grandsireHead, huntRow_succ, huntRow_zero, one_mul, mul_assoc,
    huntChange_mul_self, mul_one]

theorem grandsireRow_succ (hn : 2 ≤ n) (t : Nat) :
    grandsireRow n hn (t + 1 + 1) = grandsireRow n hn (t + 1) * huntChange n (t + 1) := by
  rw [grandsireRow, if_neg (by omega), grandsireRow, if_neg (by omega), huntRow_succ, mul_assoc]

theorem grandsireRow_last (hn : 2 ≤ n) : grandsireRow n hn (2 * n) = grandsireHead n hn := by
  rw [grandsireRow, if_neg (by omega), huntRow_period, mul_one]

def grandsireLead (n : Nat) (hn : 2 ≤ n) : List (Perm (Fin n)) := (List.range (2 * n)).map (grandsireRow n hn)

theorem ceil_of_zero {m t : Nat} (hm : 0 < m) (h : t % m = 0) : (t + (m - 1)) / m = t / m := by
  obtain ⟨q, rfl⟩ := Nat.dvd_of_mod_eq_zero h
  rw [Nat.mul_add_div hm, Nat.div_eq_of_lt (by omega), Nat.mul_div_cancel_left _ hm, Nat.add_zero]

theorem ceil_of_pos {m t : Nat} (hm : 0 < m) (h : t % m ≠ 0) : (t + (m - 1)) / m = t / m + 1 := by
  have hl := Nat.mod_lt t hm
  have hd := Nat.div_add_mod t m
  generalize t % m = r at h hl hd
  generalize t / m = q at hd
  rw [← hd, Nat.add_assoc, Nat.mul_add_div hm, show r + (m - 1) = r - 1 + m by omega, Nat.add_div_right _ hm,
    Nat.div_eq_of_lt (by omega)]

theorem courseRow_grandsire (hn : 2 ≤ n) (t : Nat) :
    courseRow (grandsireLead n hn) (grandsireHead n hn) t =
      grandsireHead n hn ^ ((t + (2 * n - 1)) / (2 * n)) * huntRow n (t % (2 * n)) := by
  have hpos : 0 < 2 * n := by omega
  have hm : t % (2 * n) < 2 * n := Nat.mod_lt _ hpos
  unfold courseRow grandsireLead
  rw [List.length_map, List.length_range, List.getElem?_eq_getElem (by simpa using hm),
    List.getElem_map, List.getElem_range, Option.getD_some, grandsireRow]
  split
  · next h0 => rw [ceil_of_zero hpos h0, h0, huntRow_zero]
  · next h0 => rw [ceil_of_pos hpos h0, pow_succ, mul_assoc]

theorem placeOfBell_grandsire (hn : 4 ≤ n) (b : Fin n) (t : Nat) :
    (placeOfBell (grandsireLead n (by omega)) (grandsireHead n (by omega)) b t).val =
      grandsirePlace n b t := by
  unfold placeOfBell grandsirePlace
  rw [courseRow_grandsire (by omega), mul_inv_rev, Perm.mul_apply, huntRow_inv_val,
    grandsireHead_pow_inv_val hn]

theorem huntPlace_mod (n b t : Nat) : huntPlace n b (t % (2 * n)) = huntPlace n b t := by
  unfold huntPlace
  rw [Nat.add_mod_mod]

theorem grandsirePlace_hunt {b : Nat} (hb : b < 2) (t : Nat) : grandsirePlace n b t = huntPlace n b t := by
  unfold grandsirePlace grandsireHeadPlace
  rw [if_pos hb, huntPlace_mod]

/-- No two rows of the plain course of Grandsire are equal. -/
theorem grandsire_distinct (hn : 4 ≤ n) {i j : Nat} (hi : i < 2 * n * (n - 2)) (hj : j < 2 * n * (n - 2))
    (h : courseRow (grandsireLead n (by omega)) (grandsireHead n (by omega)) i =
      courseRow (grandsireLead n (by omega)) (grandsireHead n (by omega)) j) : i = j := by
  have hpos : 0 < 2 * n := by omega
  have hpl : ∀ b : Fin n, grandsirePlace n b i = grandsirePlace n b j := by
    intro b
    rw [← placeOfBell_grandsire hn, ← placeOfBell_grandsire hn, placeOfBell, h, ← placeOfBell]
  have h0 := hpl ⟨0, by omega⟩
  have h1 := hpl ⟨1, by omega⟩
  rw [grandsirePlace_hunt (by simp), grandsirePlace_hunt (by simp), ← huntPlace_mod n _ i,
    ← huntPlace_mod n _ j] at h0 h1
  have him := Nat.mod_lt i hpos
  have hjm := Nat.mod_lt j hpos
  simp only [huntPlace, wayStart, Nat.zero_mod, if_true, Nat.zero_add] at h0
  simp only [huntPlace, wayStart, show ¬ (1 % 2 = 0) by decide, if_false] at h1
  rw [wayPlace_eq (Nat.mod_lt _ hpos) (Nat.mod_lt _ hpos), Nat.mod_eq_of_lt him, Nat.mod_eq_of_lt hjm] at h0
  rw [wayPlace_eq (Nat.mod_lt _ hpos) (Nat.mod_lt _ hpos)] at h1
  have e : ∀ k < 2 * n, (2 * n - 1 - 1 + k) % (2 * n) = if k < 2 then 2 * n - 2 + k else k - 2 := by
    intro k hk
    split
    · exact Nat.mod_eq_of_lt (by omega)
    · rw [show 2 * n - 1 - 1 + k = k - 2 + 2 * n by omega, Nat.add_mod_right, Nat.mod_eq_of_lt (by omega)]
  rw [e _ him, e _ hjm] at h1
  have heq : i % (2 * n) = j % (2 * n) := by
    rcases h0 with h0 | h0
    · exact h0
    · split at h1 <;> split at h1 <;> omega
  unfold courseRow at h
  have hl : (grandsireLead n (by omega)).length = 2 * n := by simp [grandsireLead]
  rw [hl, heq] at h
  have h2 := mul_right_cancel h
  have hid : i / (2 * n) < n - 2 := Nat.div_lt_of_lt_mul hi
  have hjd : j / (2 * n) < n - 2 := Nat.div_lt_of_lt_mul hj
  have h3 := pow_injOn_Iio_orderOf (x := grandsireHead n (by omega))
    (by simpa [orderOf_grandsireHead hn] using hid) (by simpa [orderOf_grandsireHead hn] using hjd) h2
  rw [← Nat.div_add_mod i (2 * n), ← Nat.div_add_mod j (2 * n), heq,
    show i / (2 * n) = j / (2 * n) from h3]

theorem huntPlace_back_back {n b : Nat} (h : b < n) (j : Nat) :
    huntPlace n b (2 * ((n - 1) * ((n - 1) * j))) = huntPlace n b (2 * j) := by
  obtain ⟨k, rfl⟩ : ∃ k, n = k + 1 := ⟨n - 1, by omega⟩
  rw [Nat.add_sub_cancel, ← huntPlace_mod, ← huntPlace_mod _ _ (2 * j)]
  congr 1
  apply Nat.ModEq.mul_left'
  rcases k with _ | k
  · exact Nat.modEq_one
  · have e : (k + 1) * ((k + 1) * j) = j + (k + 1 + 1) * (k * j) := by ring
    rw [e]
    exact Nat.add_mul_mod_self_left _ _ _

/-- All working bells do the same work. -/
theorem grandsire_same_work {a b : Nat} (ha : 2 ≤ a ∧ a < n) (hb : 2 ≤ b ∧ b < n) :
    ∃ j, ∀ t, grandsirePlace n b t = grandsirePlace n a (t + j * (2 * n)) := by
  obtain ⟨j, hj⟩ := huntPlace_reach (n := n - 2) (a := a - 2) (b := b - 2) (by omega) (by omega)
  -- `j` leads back are `(n - 3) * j` leads ahead
  have hj2 : grandsireHeadPlace n a ((n - 3) * j) = b := by
    unfold grandsireHeadPlace
    rw [if_neg (by omega), show n - 3 = n - 2 - 1 by omega, huntPlace_back_back (by omega), hj]
    omega
  refine ⟨(n - 3) * j, fun t => ?_⟩
  unfold grandsirePlace
  rw [Nat.add_mul_mod_self_right,
    show t + (n - 3) * j * (2 * n) + (2 * n - 1) = t + (2 * n - 1) + (n - 3) * j * (2 * n) by omega,
    Nat.add_mul_div_right _ _ (by omega), Nat.add_comm _ ((n - 3) * j), ← grandsireHeadPlace_add ha.2, hj2]

end Bellframe
