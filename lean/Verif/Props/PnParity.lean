import Verif.Props.PnRecover
import Verif.Props.RowAlgebra
import Verif.Spec.PnParity
import Mathlib.GroupTheory.SpecificGroups.Alternating

/-! # C88: what parity says about coming round and about repeated rows -/

namespace Bellframe.Props

open Equiv PlaceNot

theorem hasParity_ofPerm_iff {n : Nat} (hn : 0 < n) (σ : Perm (Fin n)) (p : Parity) :
    (Row.ofPerm σ).HasParity p ↔ Perm.sign σ = (-1) ^ p.zeroOrOne := by
  obtain ⟨q, h, h1, h2⟩ := Row.parity_ofPerm hn σ
  have hq : Perm.sign σ = (-1) ^ q.zeroOrOne := by
    cases q
    · simpa [Parity.zeroOrOne] using h1.1 rfl
    · simpa [Parity.zeroOrOne] using h2.1 rfl
  constructor
  · rintro ⟨r', hr⟩
    have := Run.Returns.unique hr h
    simp only [Prod.mk.injEq] at this
    rw [this.2, hq]
  · intro hp
    have : q = p := by
      rw [hq] at hp
      cases p <;> cases q <;> first | rfl | exact absurd hp (by decide)
    exact ⟨_, this ▸ h⟩

theorem zeroOrOne_fromNumber (k : Nat) :
    ((-1 : ℤˣ)) ^ (Parity.fromNumber k).zeroOrOne = (-1) ^ k := by
  rcases Nat.even_or_odd k with h | h
  · rw [h.neg_one_pow]
    have : k % 2 = 0 := Nat.even_iff.1 h
    simp [Parity.fromNumber, Parity.fromIsOdd, this, Parity.zeroOrOne]
  · rw [h.neg_one_pow]
    have : k % 2 = 1 := Nat.odd_iff.1 h
    simp [Parity.fromNumber, Parity.fromIsOdd, this, Parity.zeroOrOne]

theorem zeroOrOne_mul (p q : Parity) :
    ((-1 : ℤˣ)) ^ (p.mul q).zeroOrOne = (-1) ^ p.zeroOrOne * (-1) ^ q.zeroOrOne := by
  cases p <;> cases q <;> decide

theorem isChange_sq {n : Nat} {τ : Perm (Fin n)} (hn : 0 < n) (hc : IsChange τ) : τ ^ 2 = 1 := by
  have := (C31_permute hn τ 1 hc).2.2.2.2
  ext x
  rcases this x with h | ⟨_, h⟩
  · simp [pow_two, h]
  · simp [pow_two, h]

theorem ofChange_places_length {n : Nat} (τ : Perm (Fin n)) :
    (PlaceNot.ofChange τ).places.length = Fintype.card (Function.fixedPoints τ) := by
  rw [Fintype.card_subtype]
  simp only [PlaceNot.ofChange, List.length_map, Function.mem_fixedPoints, Function.IsFixedPt]
  rw [← List.toFinset_card_of_nodup ((List.nodup_finRange n).filter _)]
  congr 1
  ext x
  simp

theorem ofChange_swaps {n : Nat} (hn : 0 < n) {τ : Perm (Fin n)} (hc : IsChange τ) :
    ∃ k, (PlaceNot.ofChange τ).SwapsPairs k := by
  obtain ⟨k, hk⟩ := Perm.two_dvd_card_support (isChange_sq hn hc)
  refine ⟨k, ?_⟩
  unfold PlaceNot.SwapsPairs
  rw [ofChange_places_length, Perm.card_fixedPoints, ← hk]
  have := (Finset.card_le_univ τ.support)
  simp only [Fintype.card_fin] at this
  simp only [Fintype.card_fin, PlaceNot.ofChange, Perm.sum_cycleType]
  omega

theorem sign_swapsPairs {n k : Nat} (hn : 0 < n) {τ : Perm (Fin n)} (hc : IsChange τ)
    (hk : (PlaceNot.ofChange τ).SwapsPairs k) : Perm.sign τ = (-1) ^ k := by
  rw [Perm.sign_of_pow_two_eq_one (isChange_sq hn hc), ← ofChange_places_length, Fintype.card_fin]
  congr 1
  have : 2 * k + (PlaceNot.ofChange τ).places.length = n := hk
  omega

theorem sign_prod_take {n : Nat} (hn : 0 < n) (τs : List (Perm (Fin n))) (hc : ∀ τ ∈ τs, IsChange τ)
    (ks : List Nat) (hks : PnBlock.SwapsPairs (τs.map PlaceNot.ofChange) ks) (i : Nat) :
    Perm.sign (τs.take i).prod = (-1) ^ (ks.take i).sum := by
  induction τs generalizing ks i with
  | nil =>
    cases hks
    simp
  | cons τ τs ih =>
    cases hks with
    | cons hk hks =>
      cases i with
      | zero => simp
      | succ i =>
        simp only [List.take_succ_cons, List.prod_cons, List.sum_cons, Perm.sign_mul, pow_add]
        rw [ih (fun t ht => hc t (List.mem_cons_of_mem _ ht)) _ hks,
          sign_swapsPairs hn (hc τ List.mem_cons_self) hk]

/-- The rows of a block of place notation: the parity of the `i`th one is that of the first one and of the
number of pairs swapped before it. -/
theorem C88_block (b : PnBlock) (hb : b.WellFormed) (ks : List Nat) (hks : PnBlock.SwapsPairs b.pns ks)
    (r : Row) (hr : r.Valid) (p : Parity) (hp : r.HasParity p) (v : SameStageVec)
    (h : b.toRows r = .ok (.ok v)) (i : Nat) (row : Row) (hrow : v.get i = some row) :
    row.HasParity (p.mul (Parity.fromNumber (ks.take i).sum)) := by
  obtain ⟨pns⟩ := b
  obtain ⟨hne, n, hn, τs, hc, rfl⟩ := hb
  have hτ : τs ≠ [] := by simpa using hne
  by_cases hlen : r.bells.length = n
  · obtain ⟨σ, rfl⟩ := hr.exists_perm' hlen
    obtain ⟨⟨ρs, hf, hrows⟩, _⟩ := C36_rows (A := Unit) () hn σ τs hτ hc
    rw [hrows] at h
    obtain rfl := Except.ok.inj (Except.ok.inj h)
    rw [SameStageVec.ofRows_get (RowsOf.perms hn ρs), List.getElem?_map] at hrow
    have hi : i ≤ τs.length := by
      by_contra hgt
      rw [List.getElem?_eq_none (by rw [hf.1]; omega)] at hrow
      simp at hrow
    rw [follows_prod hf i hi] at hrow
    simp only [Option.map_some, Option.some.injEq] at hrow
    subst hrow
    rw [hasParity_ofPerm_iff hn] at hp ⊢
    rw [zeroOrOne_mul, zeroOrOne_fromNumber, Perm.sign_mul, hp, sign_prod_take hn τs hc ks hks]
  · rw [(C36_mismatch (A := Unit) () r hr hlen τs hτ).1] at h
    cases Except.ok.inj h

example : (match PnBlock.toRows ⟨[⟨[4], ⟨5⟩⟩, ⟨[0], ⟨5⟩⟩, ⟨[0, 1, 2], ⟨5⟩⟩]⟩ (.rounds ⟨5⟩) with
      | .ok (.ok v) => v.get 3
      | _ => none) = some ⟨[⟨1⟩, ⟨3⟩, ⟨0⟩, ⟨2⟩, ⟨4⟩]⟩ ∧
    PnBlock.SwapsPairs [⟨[4], ⟨5⟩⟩, ⟨[0], ⟨5⟩⟩, ⟨[0, 1, 2], ⟨5⟩⟩] [2, 2, 1] :=
  ⟨by decide +kernel, .cons rfl (.cons rfl (.cons rfl .nil))⟩

/-- A block which comes round (its last row is its first) swaps an even number of pairs altogether. -/
theorem C88_comes_round (b : PnBlock) (hb : b.WellFormed) (ks : List Nat)
    (hks : PnBlock.SwapsPairs b.pns ks) (r : Row) (hr : r.Valid) (v : SameStageVec)
    (h : b.toRows r = .ok (.ok v)) (hlast : v.last = .ok (some r)) : ks.sum % 2 = 0 := by
  have hbb := hb
  obtain ⟨pns⟩ := b
  obtain ⟨hne, n, hn, τs, hc, rfl⟩ := hb
  have hτ : τs ≠ [] := by simpa using hne
  by_cases hlen : r.bells.length = n
  · obtain ⟨σ, rfl⟩ := hr.exists_perm' hlen
    obtain ⟨⟨ρs, hf, hrows⟩, _⟩ := C36_rows (A := Unit) () hn σ τs hτ hc
    rw [hrows] at h
    obtain rfl := Except.ok.inj (Except.ok.inj h)
    rw [SameStageVec.ofRows_last (RowsOf.perms hn ρs), List.getLast?_eq_getElem?, List.length_map, hf.1,
      Nat.add_sub_cancel, List.getElem?_map, follows_prod hf _ (le_refl _)] at hlast
    simp only [Option.map_some, Except.ok.injEq, Option.some.injEq] at hlast
    have h1 : τs.prod = 1 := by
      have := Row.ofPerm_injective hlast
      simpa using this
    have h2 := sign_prod_take hn τs hc ks hks ks.length
    have hl : ks.length = τs.length := by simpa using hks.length_eq.symm
    rw [List.take_length, hl, List.take_length, h1, Perm.sign_one] at h2
    by_contra hodd
    rw [Odd.neg_one_pow (Nat.odd_iff.2 (by omega))] at h2
    exact absurd h2 (by decide)
  · rw [(C36_mismatch (A := Unit) () r hr hlen τs hτ).1] at h
    cases Except.ok.inj h

example := C88_comes_round ⟨[⟨[0, 3], ⟨4⟩⟩, ⟨[0, 3], ⟨4⟩⟩]⟩
  ⟨by decide, 4, by decide, [swap 1 2, swap 1 2], by decide, by decide⟩ [1, 1]
  (.cons rfl (.cons rfl .nil)) ⟨[⟨0⟩, ⟨1⟩, ⟨2⟩, ⟨3⟩]⟩ (by decide)
  (.ofRows ⟨4⟩ [⟨[⟨0⟩, ⟨1⟩, ⟨2⟩, ⟨3⟩]⟩, ⟨[⟨0⟩, ⟨2⟩, ⟨1⟩, ⟨3⟩]⟩, ⟨[⟨0⟩, ⟨1⟩, ⟨2⟩, ⟨3⟩]⟩]) (by decide +kernel)
  (by decide +kernel)

/-- If every change swaps an even number of pairs, no more than half of the extent can be rung without
repeating a row: of more rows two are the same. -/
theorem C88_half_extent (b : PnBlock) (hb : b.WellFormed) (ks : List Nat)
    (hks : PnBlock.SwapsPairs b.pns ks) (heven : ∀ k ∈ ks, k % 2 = 0) (r : Row) (hr : r.Valid)
    (h2 : 2 ≤ r.bells.length) (v : SameStageVec) (h : b.toRows r = .ok (.ok v))
    (hlen : r.bells.length.factorial < 2 * b.len) :
    ∃ i j row, i < j ∧ j < b.len ∧ v.get i = some row ∧ v.get j = some row := by
  obtain ⟨pns⟩ := b
  obtain ⟨hne, n, hn, τs, hc, rfl⟩ := hb
  have hτ : τs ≠ [] := by simpa using hne
  by_cases hst : r.bells.length = n
  · obtain ⟨σ, rfl⟩ := hr.exists_perm' hst
    obtain ⟨⟨ρs, hf, hrows⟩, _⟩ := C36_rows (A := Unit) () hn σ τs hτ hc
    rw [hrows] at h
    obtain rfl := Except.ok.inj (Except.ok.inj h)
    rw [Row.ofPerm_length] at h2 hlen
    simp only [PnBlock.len, List.length_map] at hlen ⊢
    have : Nontrivial (Fin n) := Fin.nontrivial_iff_two_le.2 h2
    have hmem : ∀ i : Fin τs.length, (τs.take i).prod ∈ alternatingGroup (Fin n) := by
      intro i
      rw [Perm.mem_alternatingGroup, sign_prod_take hn τs hc ks hks]
      apply Even.neg_one_pow
      rw [Nat.even_iff]
      have : ∀ l : List Nat, (∀ k ∈ l, k % 2 = 0) → l.sum % 2 = 0 := by
        intro l hl
        induction l with
        | nil => rfl
        | cons a l ih =>
          rw [List.sum_cons, Nat.add_mod, hl a List.mem_cons_self,
            ih fun k hk => hl k (List.mem_cons_of_mem _ hk)]
      exact this _ fun k hk => heven k (List.mem_of_mem_take hk)
    let f : Fin τs.length → alternatingGroup (Fin n) := fun i => ⟨_, hmem i⟩
    have hcard : Fintype.card (alternatingGroup (Fin n)) < Fintype.card (Fin τs.length) := by
      have := two_mul_card_alternatingGroup (α := Fin n)
      rw [Fintype.card_perm, Fintype.card_fin] at this
      rw [Fintype.card_fin]
      omega
    obtain ⟨x, y, hxy, hfe⟩ := Fintype.exists_ne_map_eq_of_card_lt f hcard
    have hprod : (τs.take x).prod = (τs.take y).prod := congrArg Subtype.val hfe
    have key : ∀ x y : Fin τs.length, x < y → (τs.take x).prod = (τs.take y).prod →
        ∃ i j row, i < j ∧ j < τs.length ∧
          (SameStageVec.ofRows ⟨n⟩ (ρs.map Row.ofPerm)).get i = some row ∧
          (SameStageVec.ofRows ⟨n⟩ (ρs.map Row.ofPerm)).get j = some row := by
      intro x y hlt he
      refine ⟨x, y, Row.ofPerm (σ * (τs.take x).prod), hlt, y.2, ?_, ?_⟩
      · rw [SameStageVec.ofRows_get (RowsOf.perms hn ρs), List.getElem?_map,
          follows_prod hf _ (by omega)]
        rfl
      · rw [SameStageVec.ofRows_get (RowsOf.perms hn ρs), List.getElem?_map,
          follows_prod hf _ (by omega), he]
        rfl
    rcases lt_or_gt_of_ne hxy with hlt | hlt
    · exact key x y hlt hprod
    · exact key y x hlt hprod.symm
  · rw [(C36_mismatch (A := Unit) () r hr hst τs hτ).1] at h
    cases Except.ok.inj h

/-- Changes with one place on five bells swap two pairs: 62 of them repeat a row. -/
example : let pns : List PlaceNot := (List.replicate 31 [⟨[4], ⟨5⟩⟩, ⟨[0], ⟨5⟩⟩]).flatten
    PnBlock.WellFormed ⟨pns⟩ ∧ PnBlock.SwapsPairs pns (List.replicate 62 2) ∧
      (5).factorial < 2 * PnBlock.len ⟨pns⟩ := by
  refine ⟨⟨by decide, 5, by decide,
    (List.replicate 31 [Equiv.swap 0 1 * Equiv.swap 2 3, Equiv.swap 1 2 * Equiv.swap 3 4]).flatten,
    by decide +kernel, by decide +kernel⟩, ?_, by decide⟩
  unfold PnBlock.SwapsPairs PlaceNot.SwapsPairs
  decide

end Bellframe.Props
