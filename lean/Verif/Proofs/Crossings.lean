import Verif.Spec.PlaceNot
import Mathlib.GroupTheory.Perm.Sign
import Mathlib.GroupTheory.Perm.Support
import Mathlib.Order.Fin.Basic
import Mathlib.Data.Fintype.Prod
import Mathlib.Data.Fintype.Card
import Mathlib.Tactic.Ring

/-! Pairs out of order in a permutation, and how changes affect them. -/

namespace Bellframe

open Equiv

variable {n : Nat}

/-- The pairs which `ω` puts out of order. -/
def outOfOrder (ω : Perm (Fin n)) : Finset (Fin n × Fin n) :=
  Finset.univ.filter fun p => p.1 < p.2 ∧ ω p.2 < ω p.1

theorem mem_outOfOrder {ω : Perm (Fin n)} {p : Fin n × Fin n} : p ∈ outOfOrder ω ↔ p.1 < p.2 ∧ ω p.2 < ω p.1 := by
  simp [outOfOrder]

theorem outOfOrder_one : outOfOrder (1 : Perm (Fin n)) = ∅ := by
  apply Finset.eq_empty_of_forall_notMem
  intro p hp
  rw [mem_outOfOrder] at hp
  exact absurd hp.1 (not_lt.2 hp.2.le)

/-- The lower places of the pairs swapped. -/
def lowerPlaces (τ : Perm (Fin n)) : Finset (Fin n) := Finset.univ.filter fun x => x < τ x

theorem card_lowerPlaces {τ : Perm (Fin n)} (hi : ∀ x, τ (τ x) = x) : 2 * (lowerPlaces τ).card = τ.support.card := by
  have hd : Disjoint (lowerPlaces τ) ((lowerPlaces τ).map τ.toEmbedding) := by
    rw [Finset.disjoint_left]
    intro x hx hx'
    obtain ⟨y, hy, rfl⟩ := Finset.mem_map.1 hx'
    simp only [lowerPlaces, Finset.mem_filter, Finset.mem_univ, true_and, Equiv.coe_toEmbedding, hi] at hx hy
    exact absurd hx (not_lt.2 hy.le)
  have hu : τ.support = (lowerPlaces τ).disjUnion _ hd := by
    ext x
    simp only [Perm.mem_support, Finset.mem_disjUnion, Finset.mem_map, lowerPlaces, Finset.mem_filter,
      Finset.mem_univ, true_and, Equiv.coe_toEmbedding]
    constructor
    · intro h
      rcases lt_or_gt_of_ne h with h | h
      · exact .inr ⟨τ x, by rwa [hi], hi x⟩
      · exact .inl h
    · rintro (h | ⟨y, hy, rfl⟩)
      · exact h.ne'
      · rw [hi]; exact hy.ne
  rw [hu, Finset.card_disjUnion, Finset.card_map]
  omega

/-- A change puts no more pairs out of order than it swaps. -/
theorem outOfOrder_change {τ : Perm (Fin n)} (hc : IsChange τ) (ω : Perm (Fin n)) :
    (outOfOrder (τ * ω)).card ≤ (outOfOrder ω).card + (lowerPlaces τ).card := by
  classical
  have hkey : ∀ p ∈ outOfOrder (τ * ω) \ outOfOrder ω, ω p.1 < τ (ω p.1) ∧ ω p.2 = τ (ω p.1) := by
    intro p hp
    rw [Finset.mem_sdiff, mem_outOfOrder, mem_outOfOrder] at hp
    obtain ⟨⟨h1, h2⟩, h3⟩ := hp
    have hne : (ω p.1).val ≠ (ω p.2).val := fun h => h1.ne (ω.injective (Fin.ext h))
    have h4 : ¬ ω p.2 < ω p.1 := fun h => h3 ⟨h1, h⟩
    have ha := hc (ω p.1)
    have hb := hc (ω p.2)
    simp only [Perm.coe_mul, Function.comp, Fin.lt_def, Fin.ext_iff] at h2 h4 ⊢
    omega
  have hcard : (outOfOrder (τ * ω) \ outOfOrder ω).card ≤ (lowerPlaces τ).card := by
    refine Finset.card_le_card_of_injOn (fun p => ω p.1) ?_ ?_
    · intro p hp
      simpa [lowerPlaces] using (hkey p hp).1
    · intro p hp q hq h
      have h1 : p.1 = q.1 := ω.injective h
      have h2 : p.2 = q.2 := ω.injective (by rw [(hkey p hp).2, (hkey q hq).2, h1])
      exact Prod.ext h1 h2
  have := Finset.card_le_card_sdiff_add_card (s := outOfOrder (τ * ω)) (t := outOfOrder ω)
  omega

/-- Neighbours in the wrong order, swapped: one pair fewer is out of order. -/
theorem outOfOrder_swap {ω : Perm (Fin n)} (i : Nat) (h : i + 1 < n)
    (hd : ω⁻¹ ⟨i + 1, h⟩ < ω⁻¹ ⟨i, by omega⟩) :
    (outOfOrder ω).card = (outOfOrder (swap (⟨i, by omega⟩ : Fin n) ⟨i + 1, h⟩ * ω)).card + 1 := by
  classical
  set a : Fin n := ⟨i, by omega⟩ with ha
  set b : Fin n := ⟨i + 1, h⟩ with hb
  have hab : a < b := by simp [Fin.lt_def, ha, hb]
  have hins : outOfOrder ω = insert (ω⁻¹ b, ω⁻¹ a) (outOfOrder (swap a b * ω)) := by
    ext ⟨x, y⟩
    rw [Finset.mem_insert, mem_outOfOrder, mem_outOfOrder]
    simp only [Perm.coe_mul, Function.comp, Prod.mk.injEq, Perm.eq_inv_iff_eq]
    constructor
    · rintro ⟨h1, h2⟩
      by_cases hxy : ω x = b ∧ ω y = a
      · exact .inl hxy
      · refine .inr ⟨h1, ?_⟩
        rw [swap_apply_def, swap_apply_def]
        simp only [Fin.lt_def, Fin.ext_iff, ha, hb] at h2 hxy ⊢
        split_ifs <;> (try simp only) <;> omega
    · rintro (⟨h1, h2⟩ | ⟨h1, h2⟩)
      · refine ⟨?_, by rw [h1, h2]; exact hab⟩
        rw [← h1, ← h2] at hd
        simpa using hd
      · refine ⟨h1, ?_⟩
        by_contra hcon
        have hne : ω x ≠ ω y := fun e => h1.ne (ω.injective e)
        have key : ω x = a ∧ ω y = b := by
          rw [swap_apply_def, swap_apply_def] at h2
          simp only [Fin.lt_def, Fin.ext_iff, ha, hb, ne_eq] at h2 hcon hne ⊢
          split_ifs at h2 <;> (try simp only at h2) <;> omega
        rw [← key.1, ← key.2] at hd
        have hd' : y < x := by simpa using hd
        exact absurd hd' (not_lt.2 h1.le)
  rw [hins, Finset.card_insert_of_notMem]
  rw [mem_outOfOrder]
  simp [hab.le]

theorem eq_one_of_no_descent {π : Perm (Fin n)}
    (h : ∀ i (hi : i + 1 < n), ¬ π ⟨i + 1, hi⟩ < π ⟨i, by omega⟩) : π = 1 := by
  have hstep : ∀ d i (hi : i + d < n), (π ⟨i, by omega⟩).val ≤ (π ⟨i + d, hi⟩).val := by
    intro d
    induction d with
    | zero => intro i hi; exact le_rfl
    | succ d ih =>
        intro i hi
        have h1 := ih i (by omega)
        have h2 := h (i + d) (by omega)
        rw [Fin.lt_def, not_lt] at h2
        exact h1.trans h2
  have hmono : Monotone π := by
    intro x y hxy
    have := hstep (y.val - x.val) x.val (by have : x.val ≤ y.val := hxy; omega)
    have e : (⟨x.val + (y.val - x.val), by have : x.val ≤ y.val := hxy; omega⟩ : Fin n) = y := by
      apply Fin.ext
      have : x.val ≤ y.val := hxy
      simp only
      omega
    rw [e] at this
    exact this
  have hs : StrictMono π := hmono.strictMono_of_injective π.injective
  have e : ⇑π = id := StrictMono.range_inj hs strictMono_id |>.1 (by rw [π.surjective.range_eq, Set.range_id])
  exact Equiv.ext fun x => congrFun e x

/-- Every permutation is a product of as many swaps of neighbours as it has pairs out of order. -/
theorem exists_swaps (π : Perm (Fin n)) :
    ∃ τs : List (Perm (Fin n)), τs.length = (outOfOrder π⁻¹).card ∧ τs.prod = π ∧
      ∀ τ ∈ τs, ∃ (i : Nat) (h : i + 1 < n), τ = swap ⟨i, by omega⟩ ⟨i + 1, h⟩ := by
  generalize hm : (outOfOrder π⁻¹).card = m
  induction m generalizing π with
  | zero =>
      refine ⟨[], rfl, ?_, by simp⟩
      refine (eq_one_of_no_descent fun i hi hd => ?_).symm
      have := outOfOrder_swap (ω := π⁻¹) i hi (by simpa using hd)
      omega
  | succ m ih =>
      have hex : ∃ i, ∃ hi : i + 1 < n, π ⟨i + 1, hi⟩ < π ⟨i, by omega⟩ := by
        by_contra hcon
        have : π = 1 := eq_one_of_no_descent fun i hi hd => hcon ⟨i, hi, hd⟩
        rw [this, inv_one, outOfOrder_one] at hm
        simp at hm
      obtain ⟨i, hi, hd⟩ := hex
      have h1 := outOfOrder_swap (ω := π⁻¹) i hi (by simpa using hd)
      obtain ⟨τs, h2, h3, h4⟩ := ih (π * swap ⟨i, by omega⟩ ⟨i + 1, hi⟩) (by
        rw [mul_inv_rev, swap_inv]
        omega)
      refine ⟨τs ++ [swap ⟨i, by omega⟩ ⟨i + 1, hi⟩], by simp [h2], by simp [h3, mul_assoc], ?_⟩
      intro τ hτ
      rcases List.mem_append.1 hτ with hτ | hτ
      · exact h4 τ hτ
      · exact ⟨i, hi, List.mem_singleton.1 hτ⟩

theorem sign_outOfOrder (π : Perm (Fin n)) : Perm.sign π = (-1) ^ (outOfOrder π⁻¹).card := by
  obtain ⟨τs, h1, h2, h3⟩ := exists_swaps π
  have : ∀ l : List (Perm (Fin n)), (∀ τ ∈ l, ∃ (i : Nat) (h : i + 1 < n), τ = swap ⟨i, by omega⟩ ⟨i + 1, h⟩) →
      Perm.sign l.prod = (-1) ^ l.length := by
    intro l
    induction l with
    | nil => simp
    | cons τ l ih =>
        intro hl
        obtain ⟨i, hi, rfl⟩ := hl τ List.mem_cons_self
        rw [List.prod_cons, Perm.sign_mul, ih fun τ h => hl τ (List.mem_cons_of_mem _ h),
          Perm.sign_swap (by simp [Fin.ext_iff]), List.length_cons, pow_succ']
  rw [← h1, ← this τs h3, h2]

/-- All pairs. -/
theorem card_pairs (n : Nat) : 2 * (Finset.univ.filter fun p : Fin n × Fin n => p.1 < p.2).card = n * (n - 1) := by
  classical
  have h1 : (Finset.univ.filter fun p : Fin n × Fin n => p.1 < p.2).card =
      (Finset.univ.filter fun p : Fin n × Fin n => p.2 < p.1).card := by
    refine Finset.card_bij (fun p _ => (p.2, p.1)) ?_ ?_ ?_
    · simp
    · rintro ⟨a, b⟩ _ ⟨c, d⟩ _ h
      simp only [Prod.mk.injEq] at h
      exact Prod.ext h.2 h.1
    · rintro ⟨a, b⟩ h
      exact ⟨(b, a), by simpa using h, rfl⟩
  have h2 : (Finset.univ.filter fun p : Fin n × Fin n => p.1 < p.2).card +
      (Finset.univ.filter fun p : Fin n × Fin n => p.2 < p.1).card = (Finset.univ : Finset (Fin n)).offDiag.card := by
    rw [← Finset.card_union_of_disjoint]
    · congr 1
      ext p
      simp only [Finset.mem_union, Finset.mem_filter, Finset.mem_univ, true_and, Finset.mem_offDiag]
      exact ne_iff_lt_or_gt.symm
    · rw [Finset.disjoint_left]
      intro p hp hp'
      simp only [Finset.mem_filter, Finset.mem_univ, true_and] at hp hp'
      exact absurd hp (not_lt.2 hp'.le)
  rw [Finset.offDiag_card, Finset.card_univ, Fintype.card_fin] at h2
  rw [Nat.mul_sub_one]
  omega

/-- At most all pairs are out of order, and all of them only backwards. -/
theorem outOfOrder_le (ω : Perm (Fin n)) :
    2 * (outOfOrder ω).card ≤ n * (n - 1) ∧ (2 * (outOfOrder ω).card = n * (n - 1) ↔ ω = Fin.revPerm) := by
  have hsub : outOfOrder ω ⊆ Finset.univ.filter fun p : Fin n × Fin n => p.1 < p.2 := by
    intro p hp
    simpa using (mem_outOfOrder.1 hp).1
  have hle := Finset.card_le_card hsub
  have hp := card_pairs n
  refine ⟨by omega, ?_⟩
  constructor
  · intro h
    have heq := Finset.eq_of_subset_of_card_le hsub (by omega)
    have hanti : ∀ x y : Fin n, x < y → ω y < ω x := fun x y hxy =>
      (mem_outOfOrder (p := (x, y)).1 (by rw [heq]; simpa using hxy)).2
    have hs : StrictMono ⇑(ω * (Fin.revPerm : Perm (Fin n))) := by
      intro x y hxy
      exact hanti _ _ (by simpa using hxy)
    have e : ⇑(ω * (Fin.revPerm : Perm (Fin n))) = id := StrictMono.range_inj hs strictMono_id |>.1 (by
      rw [(ω * (Fin.revPerm : Perm (Fin n))).surjective.range_eq, Set.range_id])
    have e' : ω * Fin.revPerm = 1 := Equiv.ext fun x => congrFun e x
    rw [eq_inv_of_mul_eq_one_left e']
    rfl
  · rintro rfl
    have : outOfOrder (Fin.revPerm : Perm (Fin n)) = Finset.univ.filter fun p : Fin n × Fin n => p.1 < p.2 := by
      ext p
      rw [mem_outOfOrder]
      simp
    rw [this, hp]

end Bellframe
