import Verif.Spec.PlaceNot
import Mathlib.Algebra.BigOperators.Intervals
import Mathlib.Algebra.BigOperators.Group.Finset.Basic
import Mathlib.Order.Fin.Basic

/-! # Sorting by changes: at most as many changes as there are bells

Comparing neighbours, in the odd pairs and in the even pairs by turns, sorts any `n` numbers in `n` rounds. -/

namespace Bellframe

open Equiv

/-- One round of comparing neighbours: the first pair begins at 0 if `t` is even and at 1 if it is odd. -/
def sortStep (n t : Nat) (a : Nat → Nat) (i : Nat) : Nat :=
  if n ≤ i then a i
  else if i % 2 = t % 2 then (if i + 1 < n then min (a i) (a (i + 1)) else a i)
  else if i = 0 then a 0 else max (a (i - 1)) (a i)

def sortSeq (n : Nat) (a : Nat → Nat) : Nat → Nat → Nat
  | 0 => a
  | t + 1 => sortStep n t (sortSeq n a t)

/-- How many of the numbers from place `x` on are at least `k`. -/
def above (n k : Nat) (a : Nat → Nat) (x : Nat) : Nat :=
  ∑ i ∈ Finset.Ico x n, if k ≤ a i then 1 else 0

section
variable {n k : Nat} {a : Nat → Nat}

theorem above_succ {x : Nat} (h : x < n) : above n k a x = (if k ≤ a x then 1 else 0) + above n k a (x + 1) :=
  Finset.sum_eq_sum_Ico_succ_bot h _

theorem above_ge {x : Nat} (h : n ≤ x) : above n k a x = 0 := by
  unfold above
  rw [Finset.Ico_eq_empty (by omega), Finset.sum_empty]

theorem above_anti {x : Nat} : above n k a (x + 1) ≤ above n k a x := by
  by_cases h : x < n
  · rw [above_succ h]; omega
  · rw [above_ge (by omega)]; omega

theorem above_anti' {x y : Nat} (h : x ≤ y) : above n k a y ≤ above n k a x := by
  induction y, h using Nat.le_induction with
  | base => exact le_refl _
  | succ y _ ih => exact above_anti.trans ih

theorem above_add {x : Nat} : above n k a 0 ≤ above n k a x + x := by
  induction x with
  | zero => simp
  | succ x ih =>
    by_cases h : x < n
    · rw [above_succ h] at ih
      split at ih <;> omega
    · rw [above_ge (by omega : n ≤ x)] at ih
      omega

theorem above_le (x : Nat) : above n k a x ≤ n - x := by
  induction h : n - x generalizing x with
  | zero => rw [above_ge (by omega)]
  | succ d ih =>
    rw [above_succ (by omega)]
    have := ih (x + 1) (by omega)
    split <;> omega

theorem above_lt {x p : Nat} (hx : x ≤ p) (hp : p < n) (h : ¬ k ≤ a p) : above n k a x + 1 ≤ n - x := by
  induction h' : p - x generalizing x with
  | zero =>
    obtain rfl : x = p := by omega
    rw [above_succ hp, if_neg h]
    have := above_le (n := n) (k := k) (a := a) (x + 1)
    omega
  | succ d ih =>
    rw [above_succ (by omega)]
    have := ih (x := x + 1) (by omega) (by omega)
    split <;> omega

theorem sortStep_left {t y : Nat} (h : y % 2 = t % 2) (hy : y + 1 < n) :
    sortStep n t a y = min (a y) (a (y + 1)) := by
  unfold sortStep
  rw [if_neg (by omega), if_pos h, if_pos hy]

theorem sortStep_right {t y : Nat} (h : y % 2 = t % 2) (hy : y + 1 < n) :
    sortStep n t a (y + 1) = max (a y) (a (y + 1)) := by
  unfold sortStep
  rw [if_neg (by omega), if_neg (by omega), if_neg (by omega), Nat.add_sub_cancel]

theorem above_pair {t : Nat} (x : Nat) (h : x % 2 = t % 2) : above n k (sortStep n t a) x = above n k a x := by
  induction hd : n - x using Nat.strong_induction_on generalizing x with
  | _ d ih =>
    by_cases h1 : x < n
    · by_cases h2 : x + 1 < n
      · rw [above_succ h1, above_succ h2, above_succ h1, above_succ h2,
          ih (n - (x + 2)) (by omega) (x + 2) (by omega) rfl, sortStep_left h h2, sortStep_right h h2]
        rcases le_total (a x) (a (x + 1)) with hle | hle
        · rw [min_eq_left hle, max_eq_right hle]
        · rw [min_eq_right hle, max_eq_left hle, Nat.add_left_comm]
      · have e1 : sortStep n t a x = a x := by
          unfold sortStep
          rw [if_neg (by omega), if_pos h, if_neg h2]
        rw [above_succ h1, above_succ h1, above_ge (by omega), above_ge (by omega), e1]
    · rw [above_ge (by omega), above_ge (by omega)]

theorem above_mid {t y : Nat} (h : y % 2 = t % 2) (hy : y + 1 < n) :
    above n k (sortStep n t a) (y + 1) = (if k ≤ max (a y) (a (y + 1)) then 1 else 0) + above n k a (y + 2) := by
  rw [above_succ hy, above_pair (y + 2) (by omega), sortStep_right h hy]

theorem above_zero (t : Nat) : above n k (sortStep n t a) 0 = above n k a 0 := by
  by_cases h : 0 % 2 = t % 2
  · exact above_pair 0 h
  · by_cases h0 : 0 < n
    · have e1 : sortStep n t a 0 = a 0 := by
        unfold sortStep
        rw [if_neg (by omega), if_neg h, if_pos rfl]
      rw [above_succ h0, above_succ h0, above_pair 1 (by omega), e1]
    · rw [above_ge (by omega), above_ge (by omega)]

theorem above_mono (t x : Nat) : above n k a x ≤ above n k (sortStep n t a) x := by
  by_cases h : x % 2 = t % 2
  · rw [above_pair x h]
  · rcases x with _ | y
    · rw [above_zero]
    · by_cases hy : y + 1 < n
      · rw [above_mid (by omega) hy, above_succ hy]
        have : k ≤ a (y + 1) → k ≤ max (a y) (a (y + 1)) := fun h => h.trans (le_max_right _ _)
        by_cases h1 : k ≤ a (y + 1)
        · rw [if_pos h1, if_pos (this h1)]
        · rw [if_neg h1]
          exact Nat.add_le_add_right (Nat.zero_le _) _
      · rw [above_ge (by omega)]; omega

theorem above_seq_zero (t : Nat) : above n k (sortSeq n a t) 0 = above n k a 0 := by
  induction t with
  | zero => rfl
  | succ t ih => rw [sortSeq, above_zero, ih]

/-- The `j`th largest number (from 0) among those at least `k` is delayed by `2 j` rounds at most. -/
theorem above_seq (m e : Nat) (hm : above n k a 0 = m) (he : (e + m) % 2 = 1) (t j x : Nat)
    (hj : j < m) (hx : x + j + 1 ≤ n) (ht : x + 2 * j + 1 + e ≤ m + t) :
    j + 1 ≤ above n k (sortSeq n a t) x := by
  induction t generalizing j x with
  | zero =>
    have := above_add (n := n) (k := k) (a := a) (x := x)
    simp only [sortSeq]
    omega
  | succ t ih =>
    by_cases hle : x + 2 * j + 1 + e ≤ m + t
    · exact (ih j x hj hx hle).trans (above_mono t x)
    · rcases x with _ | y
      · rw [above_seq_zero, hm]; omega
      · rw [sortSeq, above_mid (by omega) (by omega)]
        have h1 := ih j y hj (by omega) (by omega)
        rw [above_succ (by omega), above_succ (by omega)] at h1
        have h2 : j ≤ above n k (sortSeq n a t) (y + 2) := by
          rcases j with _ | j
          · omega
          · exact ih j (y + 2) (by omega) (by omega) (by omega)
        split
        · omega
        · rename_i hk
          have h3 : ¬ k ≤ sortSeq n a t y := fun h => hk (h.trans (le_max_left _ _))
          have h4 : ¬ k ≤ sortSeq n a t (y + 1) := fun h => hk (h.trans (le_max_right _ _))
          rw [if_neg h3, if_neg h4] at h1
          simpa using h1

/-- After `n` rounds the numbers are in order. -/
theorem sortSeq_sorted (n : Nat) (a : Nat → Nat) {i j : Nat} (hij : i ≤ j) (hj : j < n) :
    sortSeq n a n i ≤ sortSeq n a n j := by
  set b := sortSeq n a n with hb
  set k := b i with hk
  have hm0 : above n k b 0 = above n k a 0 := above_seq_zero n
  have hi1 : 1 + above n k b (i + 1) = above n k b i := by
    rw [above_succ (by omega : i < n), if_pos (le_refl _)]
  have hi0 := above_anti' (n := n) (k := k) (a := b) (Nat.zero_le i)
  have hle := above_le (n := n) (k := k) (a := b) 0
  have hfin : above n k a 0 ≤ above n k b (n - above n k a 0) := by
    have := above_seq (n := n) (k := k) (a := a) (above n k a 0) ((above n k a 0 + 1) % 2) rfl (by omega) n
      (above n k a 0 - 1) (n - above n k a 0) (by omega) (by omega) (by omega)
    rw [← hb] at this
    omega
  have hpos : n - above n k a 0 ≤ i := by
    by_contra hlt
    have := above_anti' (n := n) (k := k) (a := b) (show i + 1 ≤ n - above n k a 0 by omega)
    omega
  by_contra hnot
  have := above_lt (n := n) (k := k) (a := b) (x := n - above n k a 0) (p := j) (by omega) hj hnot
  omega

end

/-! ## The changes -/

/-- The row as numbers. -/
def rowSeq {n : Nat} (ρ : Perm (Fin n)) (i : Nat) : Nat := if h : i < n then (ρ ⟨i, h⟩).val else 0

theorem rowSeq_of_lt {n : Nat} (ρ : Perm (Fin n)) (x : Fin n) : rowSeq ρ x.val = (ρ x).val := by
  unfold rowSeq
  rw [dif_pos x.isLt]

/-- Which place the bell comes from that is in place `i` after a round. -/
def sortFrom (n t : Nat) (a : Nat → Nat) (i : Nat) : Nat :=
  if i % 2 = t % 2 then (if i + 1 < n ∧ a (i + 1) < a i then i + 1 else i)
  else if 0 < i ∧ a i < a (i - 1) then i - 1 else i

theorem sortFrom_lt {n t : Nat} {a : Nat → Nat} {i : Nat} (h : i < n) : sortFrom n t a i < n := by
  unfold sortFrom
  split <;> split <;> omega

theorem sortFrom_near (n t : Nat) (a : Nat → Nat) (i : Nat) :
    sortFrom n t a i ≤ i + 1 ∧ i ≤ sortFrom n t a i + 1 := by
  unfold sortFrom
  split <;> split <;> omega

theorem sortFrom_invol {n t : Nat} {a : Nat → Nat} {i : Nat} (h : i < n) :
    sortFrom n t a (sortFrom n t a i) = i := by
  by_cases h1 : i % 2 = t % 2
  · by_cases h2 : i + 1 < n ∧ a (i + 1) < a i
    · have e1 : sortFrom n t a i = i + 1 := by unfold sortFrom; rw [if_pos h1, if_pos h2]
      rw [e1]
      unfold sortFrom
      rw [if_neg (by omega), Nat.add_sub_cancel, if_pos ⟨by omega, h2.2⟩]
    · have e1 : sortFrom n t a i = i := by unfold sortFrom; rw [if_pos h1, if_neg h2]
      rw [e1, e1]
  · by_cases h2 : 0 < i ∧ a i < a (i - 1)
    · have e1 : sortFrom n t a i = i - 1 := by unfold sortFrom; rw [if_neg h1, if_pos h2]
      rw [e1]
      unfold sortFrom
      rw [if_pos (by omega), Nat.sub_add_cancel h2.1, if_pos ⟨h, h2.2⟩]
    · have e1 : sortFrom n t a i = i := by unfold sortFrom; rw [if_neg h1, if_neg h2]
      rw [e1, e1]

theorem sortFrom_step {n t : Nat} {a : Nat → Nat} {i : Nat} (h : i < n) :
    a (sortFrom n t a i) = sortStep n t a i := by
  unfold sortFrom sortStep
  rw [if_neg (show ¬ n ≤ i by omega)]
  by_cases h1 : i % 2 = t % 2
  · rw [if_pos h1, if_pos h1]
    by_cases h2 : i + 1 < n
    · rw [if_pos h2]
      by_cases h3 : a (i + 1) < a i
      · rw [if_pos ⟨h2, h3⟩, min_eq_right h3.le]
      · rw [if_neg (by tauto), min_eq_left (by omega)]
    · rw [if_neg h2, if_neg (by tauto)]
  · rw [if_neg h1, if_neg h1]
    by_cases h2 : i = 0
    · subst h2
      rw [if_pos rfl, if_neg (by omega)]
    · rw [if_neg h2]
      by_cases h3 : a i < a (i - 1)
      · rw [if_pos ⟨by omega, h3⟩, max_eq_left h3.le]
      · rw [if_neg (by tauto), max_eq_right (by omega)]

theorem exists_sortChange {n : Nat} (t : Nat) (ρ : Perm (Fin n)) :
    ∃ τ : Perm (Fin n), IsChange τ ∧ ∀ i < n, rowSeq (ρ * τ) i = sortStep n t (rowSeq ρ) i := by
  have hinv : Function.Involutive fun x : Fin n => (⟨sortFrom n t (rowSeq ρ) x.val, sortFrom_lt x.isLt⟩ : Fin n) :=
    fun x => Fin.ext (sortFrom_invol x.isLt)
  refine ⟨hinv.toPerm _, fun x => sortFrom_near n t _ _, fun i hi => ?_⟩
  rw [← sortFrom_step hi]
  unfold rowSeq
  rw [dif_pos hi, dif_pos (sortFrom_lt hi)]
  rfl

theorem sortStep_congr {n t : Nat} {a b : Nat → Nat} (h : ∀ i < n, a i = b i) {i : Nat} (hi : i < n) :
    sortStep n t a i = sortStep n t b i := by
  unfold sortStep
  rw [h i hi, h 0 (by omega)]
  by_cases h2 : i + 1 < n
  · rw [h (i + 1) h2, h (i - 1) (by omega)]
  · rw [if_neg h2, if_neg h2, h (i - 1) (by omega)]

theorem exists_sortChanges {n : Nat} (ρ : Perm (Fin n)) (t : Nat) :
    ∃ τs : List (Perm (Fin n)), τs.length = t ∧ (∀ τ ∈ τs, IsChange τ) ∧
      ∀ i < n, rowSeq (ρ * τs.prod) i = sortSeq n (rowSeq ρ) t i := by
  induction t with
  | zero => exact ⟨[], rfl, by simp, fun i _ => by simp [sortSeq]⟩
  | succ t ih =>
    obtain ⟨τs, h1, h2, h3⟩ := ih
    obtain ⟨τ, h4, h5⟩ := exists_sortChange t (ρ * τs.prod)
    refine ⟨τs ++ [τ], by simp [h1], fun x hx => ?_, fun i hi => ?_⟩
    · rcases List.mem_append.1 hx with hx | hx
      · exact h2 x hx
      · rw [List.mem_singleton.1 hx]; exact h4
    · rw [List.prod_append, List.prod_singleton, ← mul_assoc, h5 i hi, sortSeq]
      exact sortStep_congr h3 hi

/-- Any permutation is undone by `n` changes. -/
theorem exists_changes_to_one {n : Nat} (ρ : Perm (Fin n)) :
    ∃ τs : List (Perm (Fin n)), τs.length = n ∧ (∀ τ ∈ τs, IsChange τ) ∧ ρ * τs.prod = 1 := by
  obtain ⟨τs, h1, h2, h3⟩ := exists_sortChanges ρ n
  refine ⟨τs, h1, h2, ?_⟩
  have hmono : Monotone (ρ * τs.prod) := by
    intro x y hxy
    have h := sortSeq_sorted n (rowSeq ρ) (show x.val ≤ y.val from hxy) y.isLt
    rw [← h3 x.val x.isLt, ← h3 y.val y.isLt, rowSeq_of_lt, rowSeq_of_lt] at h
    exact h
  have hs : StrictMono (ρ * τs.prod) := hmono.strictMono_of_injective (ρ * τs.prod).injective
  have h : ⇑(ρ * τs.prod) = id := StrictMono.range_inj hs strictMono_id |>.1 (by
    rw [(ρ * τs.prod).surjective.range_eq, Set.range_id])
  exact Equiv.ext fun x => congrFun h x

end Bellframe
