import Verif.Spec.Crossings
import Verif.Proofs.Crossings
import Verif.Props.PlainChanges
import Verif.Props.Reach

/-! # C109: how many pairs must be swapped between two rows -/

namespace Bellframe.Props

open Equiv

variable {n : Nat}

theorem mem_crossed_ofPerm (σ ρ : Perm (Fin n)) (i j : Fin n) :
    ((⟨(σ i).val⟩ : Bell), (⟨(σ j).val⟩ : Bell)) ∈ Row.crossed (.ofPerm σ) (.ofPerm ρ) ↔
      i < j ∧ ρ⁻¹ (σ j) < ρ⁻¹ (σ i) := by
  unfold Row.crossed
  rw [List.mem_filter]
  simp only [placeOf_ofPerm]
  constructor
  · rintro ⟨-, h⟩
    simpa using h
  · intro h
    refine ⟨?_, by simpa using h⟩
    rw [List.mem_flatMap]
    exact ⟨⟨(σ i).val⟩, by simp [Row.ofPerm], List.mem_map.2 ⟨⟨(σ j).val⟩, by simp [Row.ofPerm], rfl⟩⟩

theorem crossed_length (σ π : Perm (Fin n)) :
    (Row.crossed (.ofPerm σ) (.ofPerm (σ * π))).length = (outOfOrder π⁻¹).card := by
  have hnd : (Row.ofPerm σ).bells.Nodup := by
    unfold Row.ofPerm
    rw [List.nodup_ofFn]
    intro x y h
    exact σ.injective (Fin.ext (congrArg Bell.index h))
  have hnd' : (Row.crossed (.ofPerm σ) (.ofPerm (σ * π))).Nodup := by
    unfold Row.crossed
    exact (List.Nodup.product hnd hnd).filter _
  rw [← List.toFinset_card_of_nodup hnd']
  symm
  refine Finset.card_bij (fun p _ => ((⟨(σ p.1).val⟩ : Bell), (⟨(σ p.2).val⟩ : Bell))) ?_ ?_ ?_
  · rintro ⟨i, j⟩ h
    rw [List.mem_toFinset, mem_crossed_ofPerm]
    rw [mem_outOfOrder] at h
    simpa [mul_inv_rev] using h
  · rintro ⟨i, j⟩ _ ⟨k, l⟩ _ h
    simp only [Prod.mk.injEq, Bell.mk.injEq] at h
    exact Prod.ext (σ.injective (Fin.ext h.1)) (σ.injective (Fin.ext h.2))
  · rintro ⟨x, y⟩ h
    rw [List.mem_toFinset] at h
    have hmem : x ∈ (Row.ofPerm σ).bells ∧ y ∈ (Row.ofPerm σ).bells := by
      have := (List.mem_filter.1 h).1
      obtain ⟨x', hx', h2⟩ := List.mem_flatMap.1 this
      obtain ⟨y', hy', e⟩ := List.mem_map.1 h2
      obtain ⟨rfl, rfl⟩ := Prod.mk.inj e
      exact ⟨hx', hy'⟩
    obtain ⟨i, rfl⟩ := List.mem_ofFn.1 hmem.1
    obtain ⟨j, rfl⟩ := List.mem_ofFn.1 hmem.2
    rw [mem_crossed_ofPerm] at h
    exact ⟨(i, j), by rw [mem_outOfOrder]; simpa [mul_inv_rev] using h, rfl⟩

theorem outOfOrder_changes (τs : List (Perm (Fin n))) (hc : ∀ τ ∈ τs, IsChange τ)
    (ks : List Nat) (hks : PnBlock.SwapsPairs (τs.map PlaceNot.ofChange) ks) :
    ∀ ω, (outOfOrder (τs.prod⁻¹ * ω)).card ≤ (outOfOrder ω).card + ks.sum := by
  induction τs generalizing ks with
  | nil =>
    cases hks
    simp
  | cons τ τs ih =>
    cases hks with
    | cons hk hks =>
      rename_i k ks
      intro ω
      have hτ := hc τ List.mem_cons_self
      have hinv : τ⁻¹ = τ := inv_of_isChange hτ
      have hi : ∀ x, τ (τ x) = x := fun x => by
        rw [← Perm.mul_apply, hτ.involution]
        rfl
      have h1 := ih (fun t ht => hc t (List.mem_cons_of_mem _ ht)) _ hks (τ * ω)
      have h2 := outOfOrder_change hτ ω
      have h3 := card_lowerPlaces hi
      have h4 : 2 * k + (PlaceNot.ofChange τ).places.length = n := hk
      rw [ofChange_places_length, Perm.card_fixedPoints, Perm.sum_cycleType, Fintype.card_fin] at h4
      have h5 := Finset.card_le_univ τ.support
      rw [Fintype.card_fin] at h5
      rw [List.prod_cons, mul_inv_rev, hinv, mul_assoc, List.sum_cons]
      omega

/-- However a row is reached from another one, at least as many pairs are swapped as there are pairs of bells
in a different order, and the same number up to a multiple of two. -/
theorem C109_least (block : PnBlock) (hw : block.WellFormed) (ks : List Nat)
    (hks : PnBlock.SwapsPairs block.pns ks) (a b : Row) (ha : a.Valid) (v : SameStageVec)
    (h : block.toRows a = .ok (.ok v)) (hl : v.last = .ok (some b)) :
    (a.crossed b).length ≤ ks.sum ∧ (a.crossed b).length % 2 = ks.sum % 2 := by
  obtain ⟨n, hn, σ, τs, rfl, rfl, -, hc, hp⟩ := changes_of_block block hw a b ha v h hl
  rw [hp] at hks
  rw [crossed_length]
  constructor
  · have := outOfOrder_changes τs hc ks hks 1
    rwa [mul_one, outOfOrder_one, Finset.card_empty, Nat.zero_add] at this
  · have h1 := sign_prod_take hn τs hc ks hks τs.length
    have hlen : ks.length = τs.length := by simpa using hks.length_eq.symm
    rw [List.take_length, ← hlen, List.take_length, sign_outOfOrder] at h1
    generalize (outOfOrder τs.prod⁻¹).card = x at *
    generalize ks.sum = y at *
    rcases Nat.mod_two_eq_zero_or_one x with hx | hx <;> rcases Nat.mod_two_eq_zero_or_one y with hy | hy <;>
      rw [hx, hy]
    · rw [(Nat.even_iff.2 hx).neg_one_pow, (Nat.odd_iff.2 hy).neg_one_pow] at h1
      exact absurd h1 (by decide)
    · rw [(Nat.odd_iff.2 hx).neg_one_pow, (Nat.even_iff.2 hy).neg_one_pow] at h1
      exact absurd h1 (by decide)

/-- And exactly that many pairs, swapped one after another, do. -/
theorem C109_enough (a b : Row) (ha : a.Valid) (hb : b.Valid) (h : a.bells.length = b.bells.length)
    (hne : a ≠ b) :
    ∃ (block : PnBlock) (v : SameStageVec), block.WellFormed ∧ (∀ pn ∈ block.pns, pn.SwapsPairs 1) ∧
      block.len = (a.crossed b).length ∧ block.toRows a = .ok (.ok v) ∧
      v.first = some a ∧ v.last = .ok (some b) := by
  obtain ⟨m, hpos, σ, rfl⟩ := Row.valid_iff_exists_perm.1 ha
  obtain ⟨ρ, rfl⟩ := hb.exists_perm' (n := m) (by rw [← h, Row.ofPerm_length])
  obtain ⟨τs, h1, h2, h3⟩ := exists_swaps (σ⁻¹ * ρ)
  have hτ : τs ≠ [] := by
    rintro rfl
    rw [List.prod_nil] at h2
    exact hne (by rw [inv_mul_eq_one.1 h2.symm])
  have hc : ∀ τ ∈ τs, IsChange τ := by
    intro τ hτ
    obtain ⟨i, hi, rfl⟩ := h3 τ hτ
    exact swap_isChange i hi
  have hρ : σ * τs.prod = ρ := by rw [h2, mul_inv_cancel_left]
  obtain ⟨v, h4, h5, h6⟩ := toRows_last hpos σ τs hτ hc
  rw [hρ] at h6
  refine ⟨⟨τs.map PlaceNot.ofChange⟩, v, ⟨by simpa using hτ, m, hpos, τs, hc, rfl⟩, ?_, ?_, h4, h5, h6⟩
  · intro pn hpn
    obtain ⟨τ, hτ', rfl⟩ := List.mem_map.1 hpn
    obtain ⟨i, hi, rfl⟩ := h3 τ hτ'
    exact swap_swapsPairs i hi
  · have := crossed_length σ (σ⁻¹ * ρ)
    rw [mul_inv_cancel_left] at this
    rw [this, ← h1]
    simp [PnBlock.len]

/-- The number is greatest, namely that of all pairs of bells, if and only if one row is the other backwards. -/
theorem C109_most (a b : Row) (ha : a.Valid) (hb : b.Valid) (h : a.bells.length = b.bells.length) :
    2 * (a.crossed b).length ≤ a.bells.length * (a.bells.length - 1) ∧
    (2 * (a.crossed b).length = a.bells.length * (a.bells.length - 1) ↔ b.bells = a.bells.reverse) := by
  obtain ⟨m, hpos, σ, rfl⟩ := Row.valid_iff_exists_perm.1 ha
  obtain ⟨ρ, rfl⟩ := hb.exists_perm' (n := m) (by rw [← h, Row.ofPerm_length])
  have hcr := crossed_length σ (σ⁻¹ * ρ)
  rw [mul_inv_cancel_left] at hcr
  rw [hcr, Row.ofPerm_length]
  obtain ⟨h1, h2⟩ := outOfOrder_le (σ⁻¹ * ρ)⁻¹
  refine ⟨h1, h2.trans ?_⟩
  have hrev : (Row.ofPerm σ).bells.reverse = (Row.ofPerm (σ * Fin.revPerm)).bells := by
    apply List.ext_getElem?
    intro i
    by_cases hi : i < m
    · rw [List.getElem?_reverse (by simpa using hi), Row.ofPerm_length, Row.ofPerm_getElem? _ _ hi,
        Row.ofPerm_getElem? _ _ (by omega)]
      have e : (⟨m - 1 - i, by omega⟩ : Fin m) = Fin.revPerm ⟨i, hi⟩ := by
        ext; simp [Fin.val_rev]; omega
      rw [e]
      rfl
    · rw [List.getElem?_eq_none (by simpa using hi), List.getElem?_eq_none (by simpa using hi)]
  rw [hrev]
  constructor
  · intro e
    have : ρ = σ * Fin.revPerm := by
      rw [inv_eq_iff_eq_inv] at e
      rw [← mul_inv_cancel_left σ ρ, e]
      rfl
    rw [this]
  · intro e
    have : ρ = σ * Fin.revPerm := by
      have e' : Row.ofPerm ρ = Row.ofPerm (σ * Fin.revPerm) := by
        cases hA : Row.ofPerm ρ
        cases hB : Row.ofPerm (σ * Fin.revPerm)
        rw [hA, hB] at e
        simpa using e
      exact Row.ofPerm_inj.1 e'
    rw [this, inv_mul_cancel_left]
    rfl

example : (Row.crossed ⟨[⟨0⟩, ⟨1⟩, ⟨2⟩]⟩ ⟨[⟨1⟩, ⟨2⟩, ⟨0⟩]⟩) = [(⟨0⟩, ⟨1⟩), (⟨0⟩, ⟨2⟩)] := by decide

example := C109_least ⟨[⟨[2], ⟨3⟩⟩, ⟨[0], ⟨3⟩⟩, ⟨[2], ⟨3⟩⟩]⟩
  ⟨by decide, 3, by decide, [swap 0 1, swap 1 2, swap 0 1], by decide, by decide⟩ [1, 1, 1]
  (.cons rfl (.cons rfl (.cons rfl .nil)))
  ⟨[⟨0⟩, ⟨1⟩, ⟨2⟩]⟩ ⟨[⟨2⟩, ⟨1⟩, ⟨0⟩]⟩ (by decide)
  (.ofRows ⟨3⟩ [⟨[⟨0⟩, ⟨1⟩, ⟨2⟩]⟩, ⟨[⟨1⟩, ⟨0⟩, ⟨2⟩]⟩, ⟨[⟨1⟩, ⟨2⟩, ⟨0⟩]⟩, ⟨[⟨2⟩, ⟨1⟩, ⟨0⟩]⟩])
  (by decide +kernel) (by decide +kernel)

example := C109_enough ⟨[⟨0⟩, ⟨1⟩, ⟨2⟩, ⟨3⟩]⟩ ⟨[⟨2⟩, ⟨0⟩, ⟨3⟩, ⟨1⟩]⟩ (by decide) (by decide) rfl (by decide)

example := C109_most ⟨[⟨0⟩, ⟨1⟩, ⟨2⟩, ⟨3⟩]⟩ ⟨[⟨3⟩, ⟨2⟩, ⟨1⟩, ⟨0⟩]⟩ (by decide) (by decide) rfl

end Bellframe.Props
