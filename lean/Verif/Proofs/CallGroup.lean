import Mathlib.GroupTheory.Perm.Sign
import Mathlib.GroupTheory.Perm.Fin
import Mathlib.GroupTheory.Perm.Cycle.Type
import Verif.Proofs.PlainHunt

/-! The group generated by a cycle through all working bells and a rotation of three neighbours of the cycle. -/

namespace Bellframe

open Equiv

section

variable {α : Type} [Fintype α] [DecidableEq α]

theorem conj_swaps (g : Perm α) (a b c d : α) :
    g * (swap a b * swap c d) * g⁻¹ = swap (g a) (g b) * swap (g c) (g d) := by
  rw [swap_apply_apply, swap_apply_apply]
  group

/-- Rotations of the first two bells of the cycle with any later one. -/
theorem rotations_mem (H : Subgroup (Perm α)) (P : Perm α) (hP : P ∈ H) (c : Nat → α) (hc : ∀ i, c (i + 1) = P (c i))
    (M : Nat) (hinj : ∀ i j, i < j → j < M → c i ≠ c j)
    (h : swap (c 0) (c 1) * swap (c 0) (c 2) ∈ H) :
    ∀ k, k + 2 < M → swap (c 0) (c 1) * swap (c 0) (c (k + 2)) ∈ H := by
  have hw : ∀ k, swap (c k) (c (k + 1)) * swap (c k) (c (k + 2)) ∈ H := by
    intro k
    induction k with
    | zero => exact h
    | succ k ih =>
      have := H.mul_mem (H.mul_mem hP ih) (H.inv_mem hP)
      rw [conj_swaps, ← hc, ← hc, ← hc] at this
      exact this
  intro k
  induction k with
  | zero => intro _; exact h
  | succ k ih =>
    intro hk
    have ih := ih (by omega)
    have h1 := hw (k + 1)
    rw [show k + 1 + 1 = k + 2 from rfl, show k + 1 + 2 = k + 3 from rfl] at h1
    rw [show k + 1 + 2 = k + 3 from rfl]
    have e1 : c (k + 1) ≠ c (k + 2) := hinj _ _ (by omega) (by omega)
    have e2 : c (k + 1) ≠ c (k + 3) := hinj _ _ (by omega) (by omega)
    have e3 : c (k + 2) ≠ c (k + 3) := hinj _ _ (by omega) (by omega)
    have f1 : c 0 ≠ c (k + 1) := hinj _ _ (by omega) (by omega)
    have f2 : c 0 ≠ c (k + 2) := hinj _ _ (by omega) (by omega)
    have f3 : c 0 ≠ c (k + 3) := hinj _ _ (by omega) (by omega)
    rcases Nat.eq_zero_or_pos k with rfl | hpos
    · have := H.inv_mem (H.mul_mem (H.mul_mem h1 ih) (H.inv_mem h1))
      rw [conj_swaps, mul_inv_rev, swap_inv, swap_inv] at this
      simp only [Perm.mul_apply, Nat.zero_add] at this e1 e2 e3 f1 f2 f3 ⊢
      rwa [swap_apply_of_ne_of_ne f1 f3, swap_apply_of_ne_of_ne f1 f2, swap_apply_left,
        swap_apply_of_ne_of_ne e2.symm e3.symm, swap_apply_of_ne_of_ne e1.symm e3,
        swap_apply_right] at this
    · have g1 : c 1 ≠ c (k + 1) := hinj _ _ (by omega) (by omega)
      have g2 : c 1 ≠ c (k + 2) := hinj _ _ (by omega) (by omega)
      have g3 : c 1 ≠ c (k + 3) := hinj _ _ (by omega) (by omega)
      have := H.mul_mem (H.mul_mem (H.inv_mem h1) ih) (H.inv_mem (H.inv_mem h1))
      rw [conj_swaps, mul_inv_rev, swap_inv, swap_inv] at this
      simp only [Perm.mul_apply] at this
      rwa [swap_apply_of_ne_of_ne f1 f2, swap_apply_of_ne_of_ne f1 f3, swap_apply_of_ne_of_ne g1 g2,
        swap_apply_of_ne_of_ne g1 g3, swap_apply_right, swap_apply_left] at this

/-- All even rearrangements are generated by the products of two swaps of the same bell. -/
theorem even_mem_of_star (H : Subgroup (Perm α)) (s r z : α)
    (hu : ∀ x, x ≠ z → x ≠ s → swap s r * swap s x ∈ H) (σ : Perm α) (hσ : σ z = z) (hs : Perm.sign σ = 1) : σ ∈ H := by
  let Q : Perm α → Prop := fun σ => (Perm.sign σ = 1 → σ ∈ H) ∧ (Perm.sign σ = -1 → swap s r * σ ∈ H)
  have hstar : ∀ x, x ≠ z → x ≠ s → ∀ τ, Q τ → Q (swap s x * τ) := by
    rintro x hx hx0 τ ⟨q1, q2⟩
    have hm := hu x hx hx0
    have hsx : Perm.sign (swap s x * τ) = -Perm.sign τ := by
      rw [Perm.sign_mul, Perm.sign_swap hx0.symm]; simp
    refine ⟨fun hh => ?_, fun hh => ?_⟩
    · rw [hsx] at hh
      have := H.mul_mem (H.inv_mem hm) (q2 (by rw [← hh, neg_neg]))
      rwa [mul_inv_rev, swap_inv, swap_inv, mul_assoc, swap_mul_self_mul] at this
    · rw [hsx] at hh
      have := H.mul_mem hm (q1 (by rw [← neg_neg (Perm.sign τ), hh, neg_neg]))
      rwa [mul_assoc] at this
  have hswap : ∀ x y, x ≠ z → y ≠ z → x ≠ y → ∀ τ, Q τ → Q (swap x y * τ) := by
    intro x y hx hy hxy τ hq
    by_cases hx0 : x = s
    · subst hx0; exact hstar y hy hxy.symm τ hq
    · by_cases hy0 : y = s
      · subst hy0; rw [swap_comm]; exact hstar x hx hx0 τ hq
      · have e : swap x y = swap s x * swap s y * swap s x := by
          have := swap_apply_apply (swap s x) s y
          rwa [swap_apply_left, swap_apply_of_ne_of_ne hy0 hxy.symm, swap_inv] at this
        rw [e, mul_assoc, mul_assoc]
        exact hstar x hx hx0 _ (hstar y hy hy0 _ (hstar x hx hx0 _ hq))
  have hall : ∀ τ : Perm {x // x ≠ z}, Q (Perm.ofSubtype τ) := by
    intro τ
    induction τ using Perm.swap_induction_on with
    | one =>
      rw [map_one]
      exact ⟨fun _ => H.one_mem, fun hh => absurd hh (by simp)⟩
    | swap_mul f x y hxy ih =>
      rw [map_mul, Perm.ofSubtype_swap_eq]
      exact hswap x y x.2 y.2 (fun hh => hxy (Subtype.ext hh)) _ ih
  have hz : ∀ x, x ≠ z ↔ σ x ≠ z := by
    intro x
    rw [not_iff_not]
    constructor
    · rintro rfl; exact hσ
    · intro hx; exact σ.injective (hx.trans hσ.symm)
  have := (hall (σ.subtypePerm (fun x => (hz x).symm))).1
  rw [Perm.ofSubtype_subtypePerm] at this
  · exact this hs
  · rintro x hx rfl; exact hx hσ

/-- All even rearrangements of the bells of the cycle are generated. -/
theorem even_mem (H : Subgroup (Perm α)) (P : Perm α) (hP : P ∈ H) (c : Nat → α) (hc : ∀ i, c (i + 1) = P (c i))
    (M : Nat) (hinj : ∀ i j, i < j → j < M → c i ≠ c j) (z : α)
    (hcov : ∀ x, x ≠ z → ∃ i < M, c i = x)
    (h : swap (c 0) (c 1) * swap (c 0) (c 2) ∈ H) (σ : Perm α) (hσ : σ z = z) (hs : Perm.sign σ = 1) : σ ∈ H := by
  have hrot := rotations_mem H P hP c hc M hinj h
  refine even_mem_of_star H (c 0) (c 1) z (fun x hx hx0 => ?_) σ hσ hs
  obtain ⟨i, hi, rfl⟩ := hcov x hx
  match i with
  | 0 => exact absurd rfl hx0
  | 1 => rw [swap_mul_self]; exact H.one_mem
  | k + 2 => exact hrot k hi

/-- The same for a cycle of all bells but one, with a rotation of that one and two neighbours of the cycle. -/
theorem even_mem_of_fixed (H : Subgroup (Perm α)) (P : Perm α) (hP : P ∈ H) (c : Nat → α) (hc : ∀ i, c (i + 1) = P (c i))
    (s : α) (hs' : P s = s) (M : Nat) (z : α) (hcov : ∀ x, x ≠ z → x ≠ s → ∃ i < M, c i = x)
    (h : swap s (c 0) * swap s (c 1) ∈ H) (σ : Perm α) (hσ : σ z = z) (hs : Perm.sign σ = 1) : σ ∈ H := by
  have hw : ∀ k, swap s (c k) * swap s (c (k + 1)) ∈ H := by
    intro k
    induction k with
    | zero => exact h
    | succ k ih =>
      have := H.mul_mem (H.mul_mem hP ih) (H.inv_mem hP)
      rw [conj_swaps, ← hc, ← hc, hs'] at this
      exact this
  have hw2 : ∀ k, swap s (c 0) * swap s (c k) ∈ H := by
    intro k
    induction k with
    | zero => rw [swap_mul_self]; exact H.one_mem
    | succ k ih =>
      have := H.mul_mem ih (hw k)
      rwa [mul_assoc, swap_mul_self_mul] at this
  refine even_mem_of_star H s (c 0) z (fun x hx hx0 => ?_) σ hσ hs
  obtain ⟨i, -, rfl⟩ := hcov x hx hx0
  exact hw2 i

/-- With an odd element all rearrangements are generated. -/
theorem all_mem (H : Subgroup (Perm α)) (z : α) (heven : ∀ σ : Perm α, σ z = z → Perm.sign σ = 1 → σ ∈ H)
    (ρ : Perm α) (hρ : ρ ∈ H) (hz : ρ z = z) (ho : Perm.sign ρ = -1) (σ : Perm α) (hσ : σ z = z) : σ ∈ H := by
  rcases Int.units_eq_one_or (Perm.sign σ) with h | h
  · exact heven σ hσ h
  · have := H.mul_mem hρ (heven (ρ⁻¹ * σ) (by rw [Perm.mul_apply, hσ, Perm.inv_eq_iff_eq, hz])
      (by rw [Perm.sign_mul, Perm.sign_inv, ho, h]; rfl))
    rwa [mul_inv_cancel_left] at this

end

variable {n : Nat}

theorem bobHead_inv_pow_val (hn : 2 ≤ n) (i : Nat) (b : Fin n) :
    (((bobHead n)⁻¹ ^ i) b).val = bobLeadHeadPlace n b i := by
  rw [inv_pow, bobHead_pow_inv_val hn]

/-- The lead head of Plain Bob takes each working bell to every place but the first. -/
theorem bobHead_reach (hn : 2 ≤ n) (a b : Fin n) (ha : a.val ≠ 0) (hb : b.val ≠ 0) :
    ∃ i < n - 1, (bobHead n ^ i) a = b := by
  have e1 := a.isLt
  have e2 := b.isLt
  obtain ⟨j, hj⟩ := huntPlace_reach (n := n - 1) (a := b.val - 1) (b := a.val - 1) (by omega) (by omega)
  have h1 : (bobHead n ^ j)⁻¹ b = a := by
    apply Fin.ext
    rw [bobHead_pow_inv_val hn, bobLeadHeadPlace, if_neg hb, hj]
    omega
  refine ⟨j % (n - 1), Nat.mod_lt _ (by omega), ?_⟩
  have := pow_mod_orderOf (bobHead n) j
  rw [orderOf_bobHead hn] at this
  rw [this]
  exact (Perm.inv_eq_iff_eq.1 h1).symm

theorem bobHead_isCycle (hn : 3 ≤ n) : (bobHead n).IsCycle := by
  refine ⟨⟨1, by omega⟩, ?_, ?_⟩
  · intro h
    have := (bobHead_pow_fixes (n := n) (by omega) 1 ⟨1, by omega⟩ (by simp)).1 (by rwa [pow_one])
    have := Nat.le_of_dvd (by omega) this
    omega
  · intro y hy
    have hy0 : y.val ≠ 0 := fun h => hy (bobHead_fixes_treble (by omega) y h)
    obtain ⟨i, -, hi⟩ := bobHead_reach (n := n) (by omega) ⟨1, by omega⟩ y (by simp) hy0
    exact ⟨i, by simpa using hi⟩

theorem sign_bobHead (hn : 3 ≤ n) : Perm.sign (bobHead n) = (-1) ^ n := by
  have h := bobHead_isCycle hn
  rw [h.sign, ← h.orderOf, orderOf_bobHead (by omega), neg_eq_neg_one_mul, ← pow_succ',
    Nat.sub_add_cancel (by omega)]

end Bellframe
