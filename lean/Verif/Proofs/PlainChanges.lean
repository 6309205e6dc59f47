import Mathlib.GroupTheory.Perm.ViaEmbedding
import Mathlib.Data.Nat.Factorial.Basic
import Mathlib.Data.Fin.SuccPred
import Mathlib.Data.Fin.Embedding
import Mathlib.Order.Fin.Basic
import Mathlib.Data.Fintype.Perm
import Mathlib.Tactic.Ring

/-! The extent on every stage by plain changes: the heaviest bell hunts through the rows of the others, which
are themselves rung by plain changes. -/

namespace Bellframe

open Equiv

/-- A row of `n` bells as a row of `n + 1` bells, with the new bell last. -/
noncomputable def liftPerm (n : Nat) : Perm (Fin n) →* Perm (Fin (n + 1)) :=
  Perm.viaEmbeddingHom (Fin.castSuccEmb : Fin n ↪ Fin (n + 1))

theorem liftPerm_castSucc (ρ : Perm (Fin n)) (x : Fin n) : liftPerm n ρ x.castSucc = (ρ x).castSucc :=
  Perm.viaEmbedding_apply ρ (Fin.castSuccEmb : Fin n ↪ Fin (n + 1)) x

theorem liftPerm_last (ρ : Perm (Fin n)) : liftPerm n ρ (Fin.last n) = Fin.last n := by
  apply Perm.viaEmbedding_apply_of_notMem
  rintro ⟨x, hx⟩
  exact absurd hx (Fin.castSucc_lt_last x).ne

theorem liftPerm_injective : Function.Injective (liftPerm n) := by
  intro ρ τ h
  ext x
  have := congrArg (fun σ => (σ x.castSucc).val) h
  simpa [liftPerm_castSucc] using this

theorem liftPerm_swap (a b : Fin n) : liftPerm n (swap a b) = swap a.castSucc b.castSucc := by
  apply Equiv.ext
  intro x
  refine Fin.lastCases ?_ (fun y => ?_) x
  · rw [liftPerm_last, swap_apply_of_ne_of_ne (Fin.castSucc_lt_last a).ne' (Fin.castSucc_lt_last b).ne']
  · rw [liftPerm_castSucc]
    exact (Fin.castSucc_injective n).swap_apply a b y |>.symm

/-- The heaviest bell hunts down `j` places. -/
def huntDown (n : Nat) : Nat → Perm (Fin (n + 1))
  | 0 => 1
  | j + 1 => huntDown n j * swap ⟨n - (j + 1), by omega⟩ ⟨n - j, by omega⟩

theorem huntDown_apply (j : Nat) (hj : j ≤ n) (x : Fin (n + 1)) :
    (huntDown n j x).val = if x.val < n - j then x.val else if x.val = n - j then n else x.val - 1 := by
  induction j generalizing x with
  | zero =>
      have := x.isLt
      simp only [huntDown, Perm.coe_one, id]
      split_ifs <;> omega
  | succ j ih =>
      simp only [huntDown, Perm.coe_mul, Function.comp]
      rw [ih (by omega)]
      have := x.isLt
      have hp : n - (j + 1) < n + 1 := by omega
      have hq : n - j < n + 1 := by omega
      rcases eq_or_ne x ⟨n - (j + 1), hp⟩ with h1 | h1
      · rw [h1, swap_apply_left]
        simp
      rcases eq_or_ne x ⟨n - j, hq⟩ with h2 | h2
      · rw [h2, swap_apply_right]
        simp only
        rw [if_pos (show n - (j + 1) < n - j by omega), if_neg (show ¬ n - j < n - (j + 1) by omega),
          if_neg (show ¬ n - j = n - (j + 1) by omega)]
        omega
      · rw [swap_apply_of_ne_of_ne h1 h2]
        have h1' : x.val ≠ n - (j + 1) := fun h => h1 (Fin.ext h)
        have h2' : x.val ≠ n - j := fun h => h2 (Fin.ext h)
        split_ifs <;> omega

/-- A cyclic sequence of all rows, one pair of adjacent bells changing at a time. -/
structure PlainExtent (n : Nat) (row : Nat → Perm (Fin n)) : Prop where
  start : row 0 = 1
  round : row n.factorial = 1
  change : ∀ t < n.factorial, ∃ (i : Nat) (h : i + 1 < n),
    row (t + 1) = row t * swap ⟨i, by omega⟩ ⟨i + 1, h⟩
  inj : ∀ s < n.factorial, ∀ t < n.factorial, row s = row t → s = t

/-- How far down the heaviest bell is after `t` changes. -/
def huntAt (n t : Nat) : Nat := if t / (n + 1) % 2 = 0 then t % (n + 1) else n - t % (n + 1)

theorem huntAt_le (n t : Nat) : huntAt n t ≤ n := by
  have := Nat.mod_lt t n.add_one_pos
  unfold huntAt
  split <;> omega

noncomputable def plainStep (n : Nat) (row : Nat → Perm (Fin n)) (t : Nat) : Perm (Fin (n + 1)) :=
  liftPerm n (row (t / (n + 1))) * huntDown n (huntAt n t)

theorem swap_huntDown (i : Nat) (h : i + 1 < n) :
    swap (⟨i, by omega⟩ : Fin (n + 1)) ⟨i + 1, by omega⟩ * huntDown n n =
      huntDown n n * swap ⟨i + 1, by omega⟩ ⟨i + 2, by omega⟩ := by
  have ha : huntDown n n ⟨i + 1, by omega⟩ = ⟨i, by omega⟩ := by
    apply Fin.ext
    rw [huntDown_apply n le_rfl]
    simp
  have hb : huntDown n n ⟨i + 2, by omega⟩ = ⟨i + 1, by omega⟩ := by
    apply Fin.ext
    rw [huntDown_apply n le_rfl]
    simp
  rw [Equiv.mul_swap_eq_swap_mul, ha, hb]

theorem plainStep_ok (hn : 2 ≤ n) {row : Nat → Perm (Fin n)} (h : PlainExtent n row) :
    PlainExtent (n + 1) (plainStep n row) where
  start := by simp [plainStep, h.start, huntAt, huntDown]
  round := by
    have h2 : n.factorial % 2 = 0 := Nat.mod_eq_zero_of_dvd (Nat.dvd_factorial (by omega) hn)
    simp [plainStep, huntAt, h.round, h2, Nat.factorial_succ, huntDown]
  change := by
    intro t ht
    have hj := Nat.mod_lt t n.add_one_pos
    have ht' := Nat.div_add_mod t (n + 1)
    have hk : t / (n + 1) < n.factorial := by
      rw [Nat.div_lt_iff_lt_mul n.add_one_pos, Nat.mul_comm]
      rwa [Nat.factorial_succ] at ht
    rcases Nat.lt_or_ge (t % (n + 1)) n with hlt | hge
    · obtain ⟨hd, hm⟩ : (t + 1) / (n + 1) = t / (n + 1) ∧ (t + 1) % (n + 1) = t % (n + 1) + 1 :=
        (Nat.div_mod_unique n.add_one_pos).2 ⟨by omega, by omega⟩
      unfold plainStep huntAt
      rw [hd, hm]
      generalize t % (n + 1) = j at *
      rcases Nat.mod_two_eq_zero_or_one (t / (n + 1)) with hp | hp
      · refine ⟨n - (j + 1), by omega, ?_⟩
        rw [if_pos hp, if_pos hp, huntDown, mul_assoc]
        have : n - j = n - (j + 1) + 1 := by omega
        congr 4
      · refine ⟨j, by omega, ?_⟩
        rw [if_neg (by omega), if_neg (by omega)]
        have : n - j = (n - (j + 1)) + 1 := by omega
        rw [this, huntDown, mul_assoc, mul_assoc]
        have e1 : (⟨n - (n - (j + 1) + 1), by omega⟩ : Fin (n + 1)) = ⟨j, by omega⟩ := by
          apply Fin.ext; simp only; omega
        have e2 : (⟨n - (n - (j + 1)), by omega⟩ : Fin (n + 1)) = ⟨j + 1, by omega⟩ := by
          apply Fin.ext; simp only; omega
        rw [e1, e2, swap_mul_self, mul_one]
    · have hjn : t % (n + 1) = n := by omega
      have hd : (t + 1) / (n + 1) = t / (n + 1) + 1 := by
        conv_lhs => rw [← ht', hjn]
        rw [show (n + 1) * (t / (n + 1)) + n + 1 = (n + 1) * (t / (n + 1) + 1) by ring,
          Nat.mul_div_cancel_left _ n.add_one_pos]
      have hm : (t + 1) % (n + 1) = 0 := by
        rw [← ht', hjn, show (n + 1) * (t / (n + 1)) + n + 1 = (n + 1) * (t / (n + 1) + 1) by ring,
          Nat.mul_mod_right]
      obtain ⟨i, hi, he⟩ := h.change _ hk
      unfold plainStep huntAt
      rw [hd, hm, hjn, he, map_mul, liftPerm_swap]
      rcases Nat.mod_two_eq_zero_or_one (t / (n + 1)) with hp | hp
      · refine ⟨i + 1, by omega, ?_⟩
        rw [if_pos hp, if_neg (show ¬ (t / (n + 1) + 1) % 2 = 0 by omega), Nat.sub_zero, mul_assoc, mul_assoc]
        congr 1
        exact swap_huntDown i hi
      · refine ⟨i, by omega, ?_⟩
        rw [if_neg (show ¬ t / (n + 1) % 2 = 0 by omega), if_pos (show (t / (n + 1) + 1) % 2 = 0 by omega),
          Nat.sub_self]
        simp only [huntDown, mul_one]
        rfl
  inj := by
    intro s hs t ht hst
    have hks : s / (n + 1) < n.factorial := by
      rw [Nat.div_lt_iff_lt_mul n.add_one_pos, Nat.mul_comm]
      rwa [Nat.factorial_succ] at hs
    have hkt : t / (n + 1) < n.factorial := by
      rw [Nat.div_lt_iff_lt_mul n.add_one_pos, Nat.mul_comm]
      rwa [Nat.factorial_succ] at ht
    unfold plainStep at hst
    have hls := huntAt_le n s
    have hlt := huntAt_le n t
    have hh : huntAt n s = huntAt n t := by
      have hlast : ∀ j ≤ n, huntDown n j ⟨n - j, by omega⟩ = Fin.last n := fun j hj => by
        apply Fin.ext
        rw [huntDown_apply j hj]
        simp
      have e := congrArg (fun σ => σ ⟨n - huntAt n s, by omega⟩) hst
      simp only [Perm.coe_mul, Function.comp, hlast _ hls, liftPerm_last] at e
      have e' := (liftPerm n (row (t / (n + 1)))).injective ((liftPerm_last _).trans e)
      have e3 := (huntDown n (huntAt n t)).injective ((hlast _ hlt).trans e')
      have := congrArg Fin.val e3
      simp only at this
      omega
    rw [hh] at hst
    have hk := h.inj _ hks _ hkt (liftPerm_injective (mul_right_cancel hst))
    have hjs := Nat.mod_lt s n.add_one_pos
    have hjt := Nat.mod_lt t n.add_one_pos
    unfold huntAt at hh
    rw [hk] at hh
    have hj : s % (n + 1) = t % (n + 1) := by
      split_ifs at hh <;> omega
    rw [← Nat.div_add_mod s (n + 1), ← Nat.div_add_mod t (n + 1), hk, hj]

/-- Plain changes on every stage. -/
theorem exists_plainExtent (hn : 2 ≤ n) : ∃ row, PlainExtent n row := by
  induction n, hn using Nat.le_induction with
  | base =>
      refine ⟨fun t => if t % 2 = 0 then 1 else swap 0 1, ⟨rfl, rfl, ?_, ?_⟩⟩
      · intro t ht
        refine ⟨0, by omega, ?_⟩
        have : t = 0 ∨ t = 1 := by
          have : Nat.factorial 2 = 2 := rfl
          omega
        rcases this with rfl | rfl <;> decide
      · decide
  | succ n hn ih =>
      obtain ⟨row, h⟩ := ih
      exact ⟨_, plainStep_ok hn h⟩

end Bellframe
