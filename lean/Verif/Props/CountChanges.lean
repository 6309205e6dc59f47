import Mathlib.Data.Nat.Fib.Basic
import Mathlib.GroupTheory.Perm.Fin
import Verif.Props.PlaceNot

/-! # C114: how many changes there are -/

namespace Bellframe.Props

open Equiv Equiv.Perm

/-- All changes: the first bell stays, or the first two bells swap. -/
def allChanges : (n : Nat) → List (Perm (Fin n))
  | 0 => [1]
  | 1 => [1]
  | n + 2 => (allChanges (n + 1)).map (fun e => decomposeFin.symm (0, e)) ++
      (allChanges n).map (fun e => decomposeFin.symm (1, decomposeFin.symm (0, e)))

theorem allChanges_length : ∀ n, (allChanges n).length = Nat.fib (n + 1)
  | 0 => rfl
  | 1 => rfl
  | n + 2 => by
    rw [allChanges, List.length_append, List.length_map, List.length_map, allChanges_length (n + 1),
      allChanges_length n, Nat.fib_add_two (n := n + 1), Nat.add_comm]

theorem allChanges_nodup : ∀ n, (allChanges n).Nodup
  | 0 => by simp [allChanges]
  | 1 => by simp [allChanges]
  | n + 2 => by
    rw [allChanges, List.nodup_append']
    refine ⟨(allChanges_nodup (n + 1)).map ?_, (allChanges_nodup n).map ?_, ?_⟩
    · intro x y h
      exact (Prod.ext_iff.1 (decomposeFin.symm.injective h)).2
    · intro x y h
      exact (Prod.ext_iff.1 (decomposeFin.symm.injective (Prod.ext_iff.1 (decomposeFin.symm.injective h)).2)).2
    · intro x h1 h2
      obtain ⟨e, -, rfl⟩ := List.mem_map.1 h1
      obtain ⟨e', -, h3⟩ := List.mem_map.1 h2
      have := (Prod.ext_iff.1 (decomposeFin.symm.injective h3)).1
      exact absurd this (by simp)

theorem isChange_keep {n : Nat} (e : Perm (Fin n)) : IsChange (decomposeFin.symm ((0 : Fin (n + 1)), e)) ↔ IsChange e := by
  unfold IsChange
  rw [Fin.forall_fin_succ]
  simp only [decomposeFin_symm_apply_zero, decomposeFin_symm_apply_succ, swap_self, Equiv.refl_apply, Fin.val_succ]
  constructor
  · rintro ⟨-, h⟩ x
    have := h x
    omega
  · intro h
    refine ⟨by simp, fun x => ?_⟩
    have := h x
    omega

theorem isChange_swap {n : Nat} (e : Perm (Fin n)) :
    IsChange (decomposeFin.symm ((1 : Fin (n + 2)), decomposeFin.symm ((0 : Fin (n + 1)), e))) ↔ IsChange e := by
  have h2 : ∀ x : Fin n, swap (0 : Fin (n + 2)) 1 (e x).succ.succ = (e x).succ.succ := fun x =>
    swap_apply_of_ne_of_ne (Fin.succ_ne_zero _) (fun h => by
      have := congrArg Fin.val h
      simp at this)
  unfold IsChange
  rw [Fin.forall_fin_succ, Fin.forall_fin_succ]
  simp only [decomposeFin_symm_apply_zero, decomposeFin_symm_apply_succ, swap_self, Equiv.refl_apply, h2,
    Fin.val_succ, Fin.succ_zero_eq_one, swap_apply_right]
  constructor
  · rintro ⟨-, -, h⟩ x
    have := h x
    omega
  · intro h
    refine ⟨by simp, by simp, fun x => ?_⟩
    have := h x
    omega

theorem mem_allChanges : ∀ n (τ : Perm (Fin n)), τ ∈ allChanges n ↔ IsChange τ
  | 0, τ => by
    rw [allChanges, List.mem_singleton, Subsingleton.elim τ 1]
    exact ⟨fun _ x => x.elim0, fun _ => rfl⟩
  | 1, τ => by
    rw [allChanges, List.mem_singleton, Subsingleton.elim τ 1]
    exact ⟨fun _ x => by simp, fun _ => rfl⟩
  | n + 2, τ => by
    obtain ⟨⟨p, e⟩, rfl⟩ := decomposeFin.symm.surjective τ
    rw [allChanges, List.mem_append, List.mem_map, List.mem_map]
    constructor
    · rintro (⟨e', h1, h2⟩ | ⟨e', h1, h2⟩)
      · rw [← h2, isChange_keep]
        exact (mem_allChanges _ _).1 h1
      · rw [← h2, isChange_swap]
        exact (mem_allChanges _ _).1 h1
    · intro h
      have h0 := (h 0).1
      rw [decomposeFin_symm_apply_zero] at h0
      by_cases hp : p = 0
      · subst hp
        exact .inl ⟨e, (mem_allChanges _ _).2 ((isChange_keep e).1 h), rfl⟩
      · have hp1 : p = 1 := by
          apply Fin.ext
          have : p.val ≠ 0 := fun h => hp (Fin.ext h)
          simp at h0 ⊢
          omega
        subst hp1
        obtain ⟨⟨q, e'⟩, rfl⟩ := decomposeFin.symm.surjective e
        have hinv : decomposeFin.symm ((1 : Fin (n + 2)), decomposeFin.symm (q, e')) 1 = 0 := by
          have h3 := Equiv.ext_iff.1 h.involution 0
          rw [Perm.mul_apply, decomposeFin_symm_apply_zero] at h3
          exact h3
        have hq : q = 0 := by
          rw [decomposeFin_symm_apply_one, decomposeFin_symm_apply_zero] at hinv
          have h4 := congrArg (swap (0 : Fin (n + 2)) 1) hinv
          rw [swap_apply_self, swap_apply_left] at h4
          exact Fin.succ_injective _ (by rw [h4]; simp)
        subst hq
        exact .inr ⟨e', (mem_allChanges _ _).2 ((isChange_swap e').1 h), rfl⟩

/-- On `n` bells there are as many place notations as the Fibonacci number `n + 1` says: 1, 2, 3, 5, 8, 13 from one to
six bells.  Up to 33 bells each of them is what some text is read as, and nothing else is. -/
theorem C114_changes (n : Nat) (hn : 0 < n) : ∃ pns : List PlaceNot, pns.length = Nat.fib (n + 1) ∧ pns.Nodup ∧
    (∀ pn, pn ∈ pns ↔ pn.WellFormed ∧ pn.stage = ⟨n⟩) ∧
    (n ≤ 33 → ∀ pn, pn ∈ pns ↔ ∃ text, PlaceNot.parse text ⟨n⟩ = .ok (.ok pn)) := by
  have hmem : ∀ pn, pn ∈ (allChanges n).map PlaceNot.ofChange ↔ pn.WellFormed ∧ pn.stage = ⟨n⟩ := by
    intro pn
    rw [List.mem_map]
    constructor
    · rintro ⟨τ, h, rfl⟩
      exact ⟨⟨n, hn, τ, (mem_allChanges n τ).1 h, rfl⟩, rfl⟩
    · rintro ⟨⟨n', hn', τ, h, rfl⟩, h2⟩
      obtain rfl : n' = n := congrArg Stage.numBells h2
      exact ⟨τ, (mem_allChanges _ τ).2 h, rfl⟩
  refine ⟨(allChanges n).map PlaceNot.ofChange, by rw [List.length_map, allChanges_length], ?_, hmem, ?_⟩
  · exact (allChanges_nodup n).map_on fun x hx y hy h =>
      (C31_injective x y ((mem_allChanges n x).1 hx) ((mem_allChanges n y).1 hy)).1 h
  · intro h33 pn
    rw [hmem]
    constructor
    · rintro ⟨h1, h2⟩
      exact ⟨pn.display, by rw [← h2]; exact C33_display_parse pn h1 (by rw [h2]; exact h33)⟩
    · rintro ⟨text, h⟩
      exact (C30_well_formed text ⟨n⟩ hn [] .nil (.rounds ⟨1⟩) (.rounds ⟨1⟩) (Row.rounds_valid (by decide))
        (Row.rounds_valid (by decide)) pn).1 h

/-- From every row as many different rows can be rung next, counting the row itself, and these are the rows to which
`pn_between` finds a place notation. -/
theorem C114_next_rows (r : Row) (hr : r.Valid) : ∃ rows : List Row, rows.length = Nat.fib (r.bells.length + 1) ∧
    rows.Nodup ∧ ∀ s, s.Valid → (s ∈ rows ↔ ∃ pn, PlaceNot.pnBetween r s = .ok (some pn)) := by
  obtain ⟨n, hn, σ, rfl⟩ := Row.valid_iff_exists_perm.1 hr
  refine ⟨(allChanges n).map fun τ => .ofPerm (σ * τ), ?_, ?_, ?_⟩
  · rw [List.length_map, allChanges_length, Row.ofPerm_length]
  · exact (allChanges_nodup n).map fun x y h => mul_left_cancel (Row.ofPerm_inj.1 h)
  · intro s hs
    rw [List.mem_map]
    by_cases hst : (Row.ofPerm σ).bells.length = s.bells.length
    · simp only [(C32_pn_between _ s hr hs hst).1]
      constructor
      · rintro ⟨τ, h, rfl⟩
        have hc := (mem_allChanges n τ).1 h
        exact ⟨.ofChange τ, ⟨n, hn, τ, hc, rfl⟩, (C31_permute hn τ σ hc).2.1⟩
      · rintro ⟨pn, ⟨n', hn', τ, hc, rfl⟩, h⟩
        by_cases he : n' = n
        · subst he
          rw [(C31_permute hn τ σ hc).2.1] at h
          exact ⟨τ, (mem_allChanges _ τ).2 hc, Except.ok.inj (Except.ok.inj h)⟩
        · rw [(C31_mismatch _ _ hr (by rw [Row.ofPerm_length]; intro h'; exact he (congrArg Stage.numBells h').symm)).2] at h
          simp at h
    · rw [C32_mismatch _ s hr hs hst]
      constructor
      · rintro ⟨τ, -, rfl⟩
        simp [Row.ofPerm_length] at hst
      · rintro ⟨pn, h⟩
        simp at h

/-- On four bells there are five. -/
example : (allChanges 4).length = 5 ∧ (Row.ofPerm (swap (0 : Fin 4) 1)).Valid :=
  ⟨by decide +kernel, Row.ofPerm_valid (by decide) _⟩

example := C114_next_rows (.ofPerm (swap (0 : Fin 4) 1)) (Row.ofPerm_valid (by decide) _)

end Bellframe.Props
