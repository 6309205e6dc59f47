import Verif.Proofs.PlainChanges
import Verif.Props.Touch
import Verif.Props.Truth
import Verif.Props.PnParity

/-! # C108: an extent on every stage, one pair of bells changing at a time -/

namespace Bellframe.Props

open Equiv

variable {n : Nat}

theorem swap_isChange (i : Nat) (h : i + 1 < n) : IsChange (swap (⟨i, by omega⟩ : Fin n) ⟨i + 1, h⟩) := by
  intro x
  rw [swap_apply_def]
  split_ifs with h1 h2
  · rw [h1]; simp only; omega
  · rw [h2]; simp only; omega
  · omega

theorem swap_swapsPairs (i : Nat) (h : i + 1 < n) :
    (PlaceNot.ofChange (swap (⟨i, by omega⟩ : Fin n) ⟨i + 1, h⟩)).SwapsPairs 1 := by
  unfold PlaceNot.SwapsPairs
  have hs : (swap (⟨i, by omega⟩ : Fin n) ⟨i + 1, h⟩).support.card = 2 :=
    Perm.card_support_swap (by simp [Fin.ext_iff])
  rw [ofChange_places_length, Perm.card_fixedPoints, Perm.sum_cycleType, hs]
  simp only [Fintype.card_fin, PlaceNot.ofChange]
  omega

/-- On every stage of two bells or more there is a block of place notation, swapping a single pair of bells at
every change, which rings every row once and comes round. -/
theorem C108_plain_changes (hn : 2 ≤ n) :
    ∃ (block : PnBlock) (touch : AnnotBlock Unit),
      block.WellFormed ∧ (∀ pn ∈ block.pns, pn.stage = ⟨n⟩ ∧ pn.SwapsPairs 1) ∧
      block.len = n.factorial ∧
      block.toBlockFromRounds () = .ok touch ∧ touch.len = n.factorial ∧ touch.IsTrue ∧
      touch.leftoverRow = .ok (.rounds ⟨n⟩) ∧
      ∀ r : Row, r.Valid → r.bells.length = n → ∃ i, touch.Rings i r := by
  obtain ⟨row, h⟩ := exists_plainExtent hn
  have hpos : 0 < n := by omega
  let τ : Nat → Perm (Fin n) := fun t => (row t)⁻¹ * row (t + 1)
  let τs := (List.range n.factorial).map τ
  have hlen : τs.length = n.factorial := by simp [τs]
  have hne : τs ≠ [] := by
    intro e
    have := n.factorial_pos
    rw [← hlen, e] at this
    simp at this
  have hτ : ∀ ρ ∈ τs, ∃ (i : Nat) (h : i + 1 < n), ρ = swap ⟨i, by omega⟩ ⟨i + 1, h⟩ := by
    intro ρ hρ
    obtain ⟨t, ht, rfl⟩ := List.mem_map.1 hρ
    obtain ⟨i, hi, e⟩ := h.change t (List.mem_range.1 ht)
    exact ⟨i, hi, by simp [τ, e]⟩
  have hc : ∀ ρ ∈ τs, IsChange ρ := by
    intro ρ hρ
    obtain ⟨i, hi, rfl⟩ := hτ ρ hρ
    exact swap_isChange i hi
  have hprod : ∀ t ≤ n.factorial, (τs.take t).prod = row t := by
    intro t
    induction t with
    | zero => intro _; simp [h.start]
    | succ t ih =>
        intro ht
        rw [List.prod_take_succ _ _ (by omega), ih (by omega)]
        simp [τs, τ]
  have hall : τs.prod = 1 := by
    rw [← h.round, ← hprod _ le_rfl, ← hlen, List.take_length]
  have hrung := C97_rung () hpos τs hne hc
  have htrue : (AnnotBlock.rung τs (List.replicate τs.length ())).IsTrue := by
    unfold AnnotBlock.rung
    rw [true_iff_nodup hpos _ _ _ (by simp)]
    refine List.Nodup.map_on ?_ List.nodup_range
    intro s hs t ht e
    rw [List.mem_range, hlen] at hs ht
    rw [hprod s hs.le, hprod t ht.le] at e
    exact h.inj s hs t ht e
  have hblen : (AnnotBlock.rung τs (List.replicate τs.length ())).len = n.factorial := by
    rw [← hlen]
    exact List.length_replicate
  have hwf : (AnnotBlock.rung τs (List.replicate τs.length ())).WellFormed :=
    AnnotBlock.ofPerms_wellFormed hpos (by simp)
  refine ⟨⟨τs.map PlaceNot.ofChange⟩, _, ⟨by simpa using hne, n, hpos, τs, hc, rfl⟩, ?_, ?_, hrung, hblen, htrue, ?_, ?_⟩
  · intro pn hpn
    obtain ⟨ρ, hρ, rfl⟩ := List.mem_map.1 hpn
    obtain ⟨i, hi, rfl⟩ := hτ ρ hρ
    exact ⟨rfl, swap_swapsPairs i hi⟩
  · simpa [PnBlock.len] using hlen
  · unfold AnnotBlock.rung
    rw [AnnotBlock.leftover_ofPerms hpos, hall, Row.rounds_eq_ofPerm]
  · exact (C99_extent _ hwf htrue).2.1 hblen

/-- On four bells. -/
example := C108_plain_changes (n := 4) (by decide)

end Bellframe.Props
