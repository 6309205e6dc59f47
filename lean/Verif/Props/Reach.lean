import Verif.Proofs.SortRows
import Verif.Props.PnParity
import Mathlib.Logic.Equiv.Fin.Basic
import Mathlib.Order.Fin.Basic

/-! # C107: how many changes lie between two rows -/

namespace Bellframe.Props

open Equiv

variable {n : Nat}

/-- The last row of a block of changes. -/
theorem toRows_last (hn : 0 < n) (σ : Perm (Fin n)) (τs : List (Perm (Fin n))) (hne : τs ≠ [])
    (hc : ∀ τ ∈ τs, IsChange τ) :
    ∃ v, PnBlock.toRows ⟨τs.map PlaceNot.ofChange⟩ (.ofPerm σ) = .ok (.ok v) ∧
      v.first = some (.ofPerm σ) ∧ v.last = .ok (some (.ofPerm (σ * τs.prod))) := by
  obtain ⟨⟨ρs, hf, hrows⟩, _⟩ := C36_rows (A := Unit) () hn σ τs hne hc
  refine ⟨_, hrows, ?_, ?_⟩
  · rw [SameStageVec.ofRows_first (RowsOf.perms hn ρs), List.head?_map, List.head?_eq_getElem?, hf.2.1]
    rfl
  · rw [SameStageVec.ofRows_last (RowsOf.perms hn ρs), List.getLast?_eq_getElem?, List.length_map, hf.1,
      Nat.add_sub_cancel, List.getElem?_map, follows_prod hf _ (le_refl _), List.take_length]
    rfl

/-- The changes behind a block of place notation that was rung from one row to another. -/
theorem changes_of_block (b : PnBlock) (hb : b.WellFormed) (r r' : Row) (hr : r.Valid) (v : SameStageVec)
    (h : b.toRows r = .ok (.ok v)) (hl : v.last = .ok (some r')) :
    ∃ n, 0 < n ∧ ∃ (σ : Perm (Fin n)) (τs : List (Perm (Fin n))), r = .ofPerm σ ∧ r' = .ofPerm (σ * τs.prod) ∧
      b.len = τs.length ∧ (∀ τ ∈ τs, IsChange τ) ∧ b.pns = τs.map PlaceNot.ofChange := by
  obtain ⟨pns⟩ := b
  obtain ⟨hne, n, hn, τs, hc, rfl⟩ := hb
  have hτ : τs ≠ [] := by simpa using hne
  by_cases hlen : r.bells.length = n
  · obtain ⟨σ, rfl⟩ := hr.exists_perm' hlen
    obtain ⟨v', h1, -, h2⟩ := toRows_last hn σ τs hτ hc
    obtain rfl := Except.ok.inj (Except.ok.inj (h1.symm.trans h))
    rw [hl] at h2
    obtain rfl := Option.some.inj (Except.ok.inj h2)
    exact ⟨n, hn, σ, τs, rfl, rfl, by simp [PnBlock.len], hc, rfl⟩
  · rw [(C36_mismatch (A := Unit) () r hr hlen τs hτ).1] at h
    cases Except.ok.inj h

/-- Any row is reached from any other of the same stage by a block of exactly as many changes as there are
bells. -/
theorem C107_any_row (a b : Row) (ha : a.Valid) (hb : b.Valid) (h : a.bells.length = b.bells.length) :
    ∃ (block : PnBlock) (v : SameStageVec), block.WellFormed ∧ block.len = a.bells.length ∧ block.toRows a = .ok (.ok v) ∧
      v.first = some a ∧ v.last = .ok (some b) := by
  obtain ⟨m, σ, rfl⟩ : ∃ (m : Nat) (σ : Perm (Fin m)), a = .ofPerm σ := by
    obtain ⟨σ, h⟩ := ha.exists_perm' rfl
    exact ⟨_, σ, h⟩
  have hm : (Row.ofPerm σ).bells.length = m := by simp [Row.ofPerm]
  obtain ⟨ρ, rfl⟩ := hb.exists_perm' (n := m) (by rw [← h, hm])
  have hpos : 0 < m := by
    have := ha.1
    rcases Nat.eq_zero_or_pos m with h0 | h0
    · exfalso
      apply this
      apply List.eq_nil_of_length_eq_zero
      rw [hm, h0]
    · exact h0
  obtain ⟨τs, h1, h2, h3⟩ := exists_changes_to_one (ρ⁻¹ * σ)
  have hne : τs ≠ [] := by
    rintro rfl
    simp at h1
    omega
  obtain ⟨v, h4, h5, h6⟩ := toRows_last hpos σ τs hne h2
  have h7 : σ * τs.prod = ρ := by
    have := congrArg (ρ * ·) h3
    simpa [mul_assoc] using this
  rw [h7] at h6
  exact ⟨⟨τs.map PlaceNot.ofChange⟩, v, ⟨by simpa using hne, m, hpos, τs, h2, rfl⟩,
    by rw [hm]; simpa [PnBlock.len] using h1, h4, h5, h6⟩

example := C107_any_row ⟨[⟨0⟩, ⟨1⟩, ⟨2⟩, ⟨3⟩]⟩ ⟨[⟨2⟩, ⟨0⟩, ⟨3⟩, ⟨1⟩]⟩ (by decide) (by decide) rfl

theorem inv_of_isChange {τ : Perm (Fin n)} (hc : IsChange τ) : τ⁻¹ = τ :=
  inv_eq_of_mul_eq_one_left hc.involution

/-- The place of the bell that is in place `x` at first, after `t` changes. -/
def placeAfter (τs : List (Perm (Fin n))) (x : Fin n) (t : Nat) : Nat := ((τs.take t).prod⁻¹ x).val

theorem placeAfter_zero (τs : List (Perm (Fin n))) (x : Fin n) : placeAfter τs x 0 = x.val := by
  simp [placeAfter]

theorem placeAfter_step {τs : List (Perm (Fin n))} (hc : ∀ τ ∈ τs, IsChange τ) (x : Fin n) (t : Nat) :
    placeAfter τs x (t + 1) ≤ placeAfter τs x t + 1 ∧ placeAfter τs x t ≤ placeAfter τs x (t + 1) + 1 := by
  unfold placeAfter
  by_cases ht : t < τs.length
  · rw [List.take_add_one, List.getElem?_eq_getElem ht, Option.toList_some, List.prod_append,
      List.prod_singleton, mul_inv_rev, Perm.mul_apply, inv_of_isChange (hc _ (List.getElem_mem ht))]
    exact hc _ (List.getElem_mem ht) _
  · rw [List.take_of_length_le (by omega), List.take_of_length_le (by omega)]
    omega

theorem placeAfter_le {τs : List (Perm (Fin n))} (hc : ∀ τ ∈ τs, IsChange τ) (x : Fin n) (t d : Nat) :
    placeAfter τs x (t + d) ≤ placeAfter τs x t + d ∧ placeAfter τs x t ≤ placeAfter τs x (t + d) + d := by
  induction d with
  | zero => simp
  | succ d ih =>
    have := placeAfter_step hc x (t + d)
    rw [← Nat.add_assoc t d 1]
    omega

theorem placeAfter_inj {τs : List (Perm (Fin n))} {x y : Fin n} {t : Nat}
    (h : placeAfter τs x t = placeAfter τs y t) : x = y :=
  (τs.take t).prod⁻¹.injective (Fin.ext h)

theorem placeAfter_all (τs : List (Perm (Fin n))) (x : Fin n) :
    placeAfter τs x τs.length = (τs.prod⁻¹ x).val := by
  unfold placeAfter
  rw [List.take_length]

/-- No bell is moved further than there are changes. -/
theorem C107_moves (block : PnBlock) (hw : block.WellFormed) (a b : Row) (ha : a.Valid) (v : SameStageVec)
    (h : block.toRows a = .ok (.ok v)) (hl : v.last = .ok (some b)) (bell : Bell) (p q : Nat)
    (hp : a.placeOf bell = some p) (hq : b.placeOf bell = some q) :
    p ≤ q + block.len ∧ q ≤ p + block.len := by
  obtain ⟨n, hn, σ, τs, rfl, rfl, hlen, hc, -⟩ := changes_of_block block hw a b ha v h hl
  by_cases hb : bell.index < n
  · have e : bell = ⟨(⟨bell.index, hb⟩ : Fin n).val⟩ := rfl
    rw [e, placeOf_ofPerm] at hp hq
    obtain rfl := Option.some.inj hp
    obtain rfl := Option.some.inj hq
    rw [hlen, mul_inv_rev, Perm.mul_apply, ← placeAfter_all]
    have := placeAfter_le hc (σ⁻¹ ⟨bell.index, hb⟩) 0 τs.length
    rw [Nat.zero_add, placeAfter_zero] at this
    omega
  · exfalso
    rw [(C11_place_of _ ha bell).2.1.2 (by simpa using hb)] at hp
    cases hp

example := C107_moves ⟨[⟨[2], ⟨3⟩⟩, ⟨[0], ⟨3⟩⟩, ⟨[2], ⟨3⟩⟩]⟩
  ⟨by decide, 3, by decide, [swap 0 1, swap 1 2, swap 0 1], by decide, by decide⟩
  ⟨[⟨0⟩, ⟨1⟩, ⟨2⟩]⟩ ⟨[⟨2⟩, ⟨1⟩, ⟨0⟩]⟩ (by decide)
  (.ofRows ⟨3⟩ [⟨[⟨0⟩, ⟨1⟩, ⟨2⟩]⟩, ⟨[⟨1⟩, ⟨0⟩, ⟨2⟩]⟩, ⟨[⟨1⟩, ⟨2⟩, ⟨0⟩]⟩, ⟨[⟨2⟩, ⟨1⟩, ⟨0⟩]⟩])
  (by decide +kernel) (by decide +kernel) ⟨0⟩ 0 2 rfl rfl

theorem rev_changes (h3 : 3 ≤ n) {τs : List (Perm (Fin n))} (hc : ∀ τ ∈ τs, IsChange τ)
    (hrev : τs.prod⁻¹ = Fin.revPerm) : n ≤ τs.length := by
  by_contra hlt
  have e0 : (0 : Nat) < n := by omega
  have e1 : 1 < n := by omega
  have e2 : n - 1 < n := by omega
  have hend : ∀ x : Fin n, placeAfter τs x τs.length = n - (x.val + 1) := by
    intro x
    rw [placeAfter_all, hrev]
    simp [Fin.val_rev]
  have hL : τs.length = n - 1 := by
    have := placeAfter_le hc ⟨0, e0⟩ 0 τs.length
    rw [Nat.zero_add, placeAfter_zero, hend] at this
    simp only at this
    omega
  have h0 : ∀ t ≤ n - 1, placeAfter τs ⟨0, e0⟩ t = t := by
    intro t ht
    have h1 := placeAfter_le hc ⟨0, e0⟩ 0 t
    have h2 := placeAfter_le hc ⟨0, e0⟩ t (τs.length - t)
    rw [Nat.zero_add, placeAfter_zero] at h1
    rw [show t + (τs.length - t) = τs.length by omega, hend] at h2
    simp only at h1 h2
    omega
  have hlast : ∀ t ≤ n - 1, placeAfter τs ⟨n - 1, e2⟩ t = n - 1 - t := by
    intro t ht
    have h1 := placeAfter_le hc ⟨n - 1, e2⟩ 0 t
    have h2 := placeAfter_le hc ⟨n - 1, e2⟩ t (τs.length - t)
    rw [Nat.zero_add, placeAfter_zero] at h1
    rw [show t + (τs.length - t) = τs.length by omega, hend] at h2
    simp only at h1 h2
    omega
  rcases Nat.even_or_odd' n with ⟨m, hm | hm⟩
  · have h1 : placeAfter τs ⟨1, e1⟩ 1 = 0 := by
      have h2 := h0 1 (by omega)
      have hτ : ∃ τ ∈ τs, τs.take 1 = [τ] := by
        cases τs with
        | nil => simp at hL; omega
        | cons τ τs => exact ⟨τ, List.mem_cons_self, rfl⟩
      obtain ⟨τ, hmem, hτ⟩ := hτ
      unfold placeAfter at h2 ⊢
      rw [hτ, List.prod_singleton, inv_of_isChange (hc τ hmem)] at h2 ⊢
      have h3 : τ ⟨0, e0⟩ = ⟨1, e1⟩ := Fin.ext h2
      have h4 : τ (τ ⟨0, e0⟩) = ⟨0, e0⟩ := by
        rw [← Perm.mul_apply, (hc τ hmem).involution]; rfl
      rw [h3] at h4
      rw [h4]
    have h2 : placeAfter τs ⟨1, e1⟩ m = m - 1 := by
      have h3 := placeAfter_le hc ⟨1, e1⟩ 1 (m - 1)
      have h4 := placeAfter_le hc ⟨1, e1⟩ m (τs.length - m)
      rw [show 1 + (m - 1) = m by omega, h1] at h3
      rw [show m + (τs.length - m) = τs.length by omega, hend] at h4
      simp only at h3 h4
      omega
    have h3 := hlast m (by omega)
    have h4 := placeAfter_inj (τs := τs) (x := ⟨1, e1⟩) (y := ⟨n - 1, e2⟩) (t := m) (by omega)
    have := congrArg Fin.val h4
    simp only at this
    omega
  · have h1 := h0 m (by omega)
    have h2 := hlast m (by omega)
    have h4 := placeAfter_inj (τs := τs) (x := ⟨0, e0⟩) (y := ⟨n - 1, e2⟩) (t := m) (by omega)
    have := congrArg Fin.val h4
    simp only at this
    omega

/-- On three bells or more, a row and the same row backwards are not joined by fewer changes than there are
bells. -/
theorem C107_backwards (block : PnBlock) (hw : block.WellFormed) (a b : Row) (ha : a.Valid)
    (h3 : 3 ≤ a.bells.length) (hrev : b.bells = a.bells.reverse) (v : SameStageVec)
    (h : block.toRows a = .ok (.ok v)) (hl : v.last = .ok (some b)) : a.bells.length ≤ block.len := by
  obtain ⟨n, hn, σ, τs, rfl, rfl, hlen, hc, -⟩ := changes_of_block block hw a b ha v h hl
  rw [Row.ofPerm_length] at h3 ⊢
  rw [hlen]
  refine rev_changes h3 hc ?_
  have hp : τs.prod = Fin.revPerm := by
    refine Equiv.ext fun x => σ.injective ?_
    have h1 := congrArg (fun l => l[x.val]?) hrev
    rw [List.getElem?_reverse (by simp), Row.ofPerm_length, Row.ofPerm_getElem? _ _ x.isLt,
      Row.ofPerm_getElem? _ _ (by omega)] at h1
    have h2 := congrArg Bell.index (Option.some.inj h1)
    refine Fin.ext ?_
    have e : (⟨n - 1 - x.val, by omega⟩ : Fin n) = Fin.revPerm x := by
      ext; simp [Fin.val_rev]; omega
    rw [← e]
    exact h2
  rw [hp]
  rfl

example := C107_backwards ⟨[⟨[2], ⟨3⟩⟩, ⟨[0], ⟨3⟩⟩, ⟨[2], ⟨3⟩⟩]⟩
  ⟨by decide, 3, by decide, [swap 0 1, swap 1 2, swap 0 1], by decide, by decide⟩
  ⟨[⟨0⟩, ⟨1⟩, ⟨2⟩]⟩ ⟨[⟨2⟩, ⟨1⟩, ⟨0⟩]⟩ (by decide) (by decide) rfl
  (.ofRows ⟨3⟩ [⟨[⟨0⟩, ⟨1⟩, ⟨2⟩]⟩, ⟨[⟨1⟩, ⟨0⟩, ⟨2⟩]⟩, ⟨[⟨1⟩, ⟨2⟩, ⟨0⟩]⟩, ⟨[⟨2⟩, ⟨1⟩, ⟨0⟩]⟩])
  (by decide +kernel) (by decide +kernel)

end Bellframe.Props
