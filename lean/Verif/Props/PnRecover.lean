import Verif.Props.Call
import Verif.Props.PnBlock
import Verif.Props.PlaceNot
import Verif.Proofs.SameStageVec
import Verif.Proofs.Block

/-! # C85: rows and place notation determine each other -/

namespace Bellframe.Props

open Equiv PlaceNot

/-- The place notation between each two consecutive rows is the next of the list. -/
def PnsBetween (rows : List Row) (pns : List PlaceNot) : Prop :=
  rows.length = pns.length + 1 ∧ ∀ i pn, pns[i]? = some pn →
    ∃ a b, rows[i]? = some a ∧ rows[i + 1]? = some b ∧ pnBetween a b = .ok (some pn)

theorem follows_unique {n : Nat} {σ : Perm (Fin n)} {τs ρs ρs' : List (Perm (Fin n))}
    (h : Follows σ τs ρs) (h' : Follows σ τs ρs') : ρs = ρs' := by
  apply List.ext_getElem?
  intro i
  by_cases hi : i ≤ τs.length
  · rw [follows_prod h i hi, follows_prod h' i hi]
  · rw [List.getElem?_eq_none (by rw [h.1]; omega), List.getElem?_eq_none (by rw [h'.1]; omega)]

/-- The rows rung by a block of place notation, from any row, give the place notation back: it is
what `pn_between` finds between the rows. -/
theorem C85_recover (b : PnBlock) (hb : b.WellFormed) (r : Row) (hr : r.Valid) (v : SameStageVec)
    (h : b.toRows r = .ok (.ok v)) :
    ∃ rows, v.iter.collect = .ok rows ∧ rows.head? = some r ∧ PnsBetween rows b.pns := by
  obtain ⟨pns⟩ := b
  obtain ⟨hne, n, hn, τs, hc, rfl⟩ := hb
  have hτ : τs ≠ [] := by simpa using hne
  by_cases hlen : r.bells.length = n
  · obtain ⟨σ, rfl⟩ := hr.exists_perm' hlen
    obtain ⟨⟨ρs, hf, hrows⟩, _⟩ := C36_rows (A := Unit) () hn σ τs hτ hc
    rw [hrows] at h
    obtain rfl := Except.ok.inj (Except.ok.inj h)
    refine ⟨ρs.map Row.ofPerm, SameStageVec.collect_ofRows _ (RowsOf.perms hn ρs), ?_, ?_, ?_⟩
    · rw [List.head?_map, List.head?_eq_getElem?, hf.2.1]
      rfl
    · simp [hf.1]
    · intro i pn hi
      rw [List.getElem?_map] at hi
      obtain ⟨τ, hτi, rfl⟩ := Option.map_eq_some_iff.1 hi
      obtain ⟨ρ, h1, h2⟩ := hf.2.2 i τ hτi
      refine ⟨Row.ofPerm ρ, Row.ofPerm (ρ * τ), by simp [h1], by simp [h2], ?_⟩
      rw [pnBetween_ofPerm hn, inv_mul_cancel_left, if_pos (hc τ (List.mem_of_getElem? hτi))]
  · rw [(C36_mismatch (A := Unit) () r hr hlen τs hτ).1] at h
    cases h

example := C85_recover ⟨[⟨[], ⟨4⟩⟩, ⟨[0, 3], ⟨4⟩⟩]⟩
  ⟨by decide, 4, by decide, [Equiv.swap 0 1 * Equiv.swap 2 3, Equiv.swap 1 2], by decide, by decide⟩
  ⟨[⟨0⟩, ⟨1⟩, ⟨2⟩, ⟨3⟩]⟩ (by decide)
  (.ofRows ⟨4⟩ [⟨[⟨0⟩, ⟨1⟩, ⟨2⟩, ⟨3⟩]⟩, ⟨[⟨1⟩, ⟨0⟩, ⟨3⟩, ⟨2⟩]⟩, ⟨[⟨1⟩, ⟨3⟩, ⟨0⟩, ⟨2⟩]⟩]) (by decide +kernel)

/-- Conversely, if there is a place notation between all consecutive rows, then these place
notations are a block that rings exactly these rows. -/
theorem C85_rebuild (s : Stage) (rows : List Row) (h : RowsOf s rows) (pns : List PlaceNot)
    (hne : pns ≠ []) (hp : PnsBetween rows pns) :
    ∃ b, PnBlock.fromVec pns = .ok b ∧ b.WellFormed ∧ b.pns = pns ∧
      ∀ r, rows.head? = some r → ∃ v, b.toRows r = .ok (.ok v) ∧ v.iter.collect = .ok rows := by
  obtain ⟨n⟩ := s
  have hn : 0 < n := h.pos
  obtain ⟨ρs, rfl⟩ := Row.exists_perms (n := n) (rows := rows)
    (fun r hr => ⟨(h.2 r hr).1, (h.2 r hr).2⟩)
  obtain ⟨hl, hp⟩ := hp
  rw [List.length_map] at hl
  -- the changes
  obtain ⟨τs, hτ, hc, hstep⟩ : ∃ τs : List (Perm (Fin n)), pns = τs.map PlaceNot.ofChange ∧
      (∀ τ ∈ τs, IsChange τ) ∧
      ∀ (k : Nat) τ, τs[k]? = some τ → ∃ ρ, ρs[k]? = some ρ ∧ ρs[k + 1]? = some (ρ * τ) := by
    have hstep : ∀ (i : Nat) pn, pns[i]? = some pn → ∃ ρ τ, ρs[i]? = some ρ ∧
        ρs[i + 1]? = some (ρ * τ) ∧ IsChange τ ∧ pn = PlaceNot.ofChange τ := by
      intro i pn hi
      obtain ⟨a, b, ha, hb, hab⟩ := hp i pn hi
      rw [List.getElem?_map] at ha hb
      obtain ⟨α, hα, rfl⟩ := Option.map_eq_some_iff.1 ha
      obtain ⟨β, hβ, rfl⟩ := Option.map_eq_some_iff.1 hb
      rw [pnBetween_ofPerm hn] at hab
      split at hab
      · rename_i hc
        cases hab
        exact ⟨α, α⁻¹ * β, hα, by rw [mul_inv_cancel_left]; exact hβ, hc, rfl⟩
      · cases hab
    refine ⟨List.zipWith (fun a b => a⁻¹ * b) ρs ρs.tail, ?_, ?_, ?_⟩
    · apply List.ext_getElem?
      intro i
      rw [List.getElem?_map, List.getElem?_zipWith, List.getElem?_tail]
      cases hi : pns[i]? with
      | none =>
        have := List.getElem?_eq_none_iff.1 hi
        rw [List.getElem?_eq_none (l := ρs) (i := i + 1) (by omega)]
        cases ρs[i]? <;> rfl
      | some pn =>
        obtain ⟨ρ, τ, h1, h2, _, rfl⟩ := hstep i pn hi
        rw [h1, h2]
        simp
    · intro τ hτ
      obtain ⟨i, hi, he⟩ := List.mem_iff_getElem.1 hτ
      have hi' : i < pns.length := by
        have := hi
        simp only [List.length_zipWith, List.length_tail] at this
        omega
      obtain ⟨ρ, τ', h1, h2, hc, _⟩ := hstep i _ (List.getElem?_eq_getElem hi')
      have : (List.zipWith (fun a b => a⁻¹ * b) ρs ρs.tail)[i]? = some τ' := by
        rw [List.getElem?_zipWith, List.getElem?_tail, h1, h2]
        simp
      rw [List.getElem?_eq_getElem hi, he] at this
      obtain rfl := Option.some.inj this
      exact hc
    · intro k τ hk
      rw [List.getElem?_zipWith, List.getElem?_tail] at hk
      cases h1 : ρs[k]? with
      | none => rw [h1] at hk; cases hk
      | some α =>
        cases h2 : ρs[k + 1]? with
        | none => rw [h1, h2] at hk; cases hk
        | some β =>
          rw [h1, h2] at hk
          obtain rfl := Option.some.inj hk
          exact ⟨α, rfl, by simp⟩
  subst hτ
  have hτne : τs ≠ [] := by simpa using hne
  rw [List.length_map] at hl
  have hfrom : PnBlock.fromVec (τs.map PlaceNot.ofChange) = .ok ⟨τs.map PlaceNot.ofChange⟩ := by
    rcases C36_from_vec (τs.map PlaceNot.ofChange) with
      ⟨h1, _⟩ | ⟨_, _, _, _, h3⟩ | ⟨pn, same, q, rest, h1, _, h3, _⟩
    · exact absurd h1 hne
    · exact h3
    · have hst : ∀ p ∈ τs.map PlaceNot.ofChange, p.stage = ⟨n⟩ := by
        intro p hp
        obtain ⟨τ, _, rfl⟩ := List.mem_map.1 hp
        rfl
      exact absurd ((hst q (by rw [h1]; simp)).trans (hst pn (by rw [h1]; simp)).symm) h3
  refine ⟨_, hfrom, ⟨hne, n, hn, τs, hc, rfl⟩, rfl, fun r hr => ?_⟩
  rw [List.head?_map] at hr
  obtain ⟨σ, hσ, rfl⟩ := Option.map_eq_some_iff.1 hr
  have hf : Follows σ τs ρs := ⟨hl, by rw [← List.head?_eq_getElem?, hσ], hstep⟩
  obtain ⟨⟨ρs', hf', hrows⟩, _⟩ := C36_rows (A := Unit) () hn σ τs hτne hc
  obtain rfl := follows_unique hf hf'
  exact ⟨_, hrows, SameStageVec.collect_ofRows _ (RowsOf.perms hn ρs)⟩

example := C85_rebuild ⟨4⟩ [⟨[⟨0⟩, ⟨1⟩, ⟨2⟩, ⟨3⟩]⟩, ⟨[⟨1⟩, ⟨0⟩, ⟨3⟩, ⟨2⟩]⟩] (by decide)
  [⟨[], ⟨4⟩⟩] (by decide) ⟨rfl, fun i pn hi => by
    rcases i with _ | i
    · cases hi; exact ⟨_, _, rfl, rfl, by decide⟩
    · simp at hi⟩

/-- So two blocks of place notation that ring the same rows are equal. -/
theorem C85_unique (b c : PnBlock) (hb : b.WellFormed) (hc : c.WellFormed) (r : Row) (hr : r.Valid)
    (v : SameStageVec) (h1 : b.toRows r = .ok (.ok v)) (h2 : c.toRows r = .ok (.ok v)) : b = c := by
  obtain ⟨rows, e1, _, l1, p1⟩ := C85_recover b hb r hr v h1
  obtain ⟨rows', e2, _, l2, p2⟩ := C85_recover c hc r hr v h2
  rw [e1] at e2
  obtain rfl := Except.ok.inj e2
  obtain ⟨ps⟩ := b
  obtain ⟨qs⟩ := c
  congr 1
  apply List.ext_getElem?
  intro i
  simp only at l1 l2 p1 p2
  cases hi : ps[i]? with
  | none =>
    have := List.getElem?_eq_none_iff.1 hi
    rw [List.getElem?_eq_none (by omega)]
  | some p =>
    have hlt : i < qs.length := by
      have := (List.getElem?_eq_some_iff.1 hi).1
      omega
    obtain ⟨x, y, hx, hy, hp⟩ := p1 i p hi
    obtain ⟨x', y', hx', hy', hq⟩ := p2 i _ (List.getElem?_eq_getElem hlt)
    rw [hx] at hx'
    rw [hy] at hy'
    cases hx'
    cases hy'
    rw [hp] at hq
    cases hq
    rw [List.getElem?_eq_getElem hlt]

example := C85_unique ⟨[⟨[], ⟨4⟩⟩, ⟨[0, 3], ⟨4⟩⟩]⟩ ⟨[⟨[], ⟨4⟩⟩, ⟨[0, 3], ⟨4⟩⟩]⟩
  ⟨by decide, 4, by decide, [Equiv.swap 0 1 * Equiv.swap 2 3, Equiv.swap 1 2], by decide, by decide⟩
  ⟨by decide, 4, by decide, [Equiv.swap 0 1 * Equiv.swap 2 3, Equiv.swap 1 2], by decide, by decide⟩
  ⟨[⟨0⟩, ⟨1⟩, ⟨2⟩, ⟨3⟩]⟩ (by decide)
  (.ofRows ⟨4⟩ [⟨[⟨0⟩, ⟨1⟩, ⟨2⟩, ⟨3⟩]⟩, ⟨[⟨1⟩, ⟨0⟩, ⟨3⟩, ⟨2⟩]⟩, ⟨[⟨1⟩, ⟨3⟩, ⟨0⟩, ⟨2⟩]⟩]) (by decide +kernel)
  (by decide +kernel)

/-- If there is no place notation between two consecutive rows of a list, no block rings it. -/
theorem C85_impossible (rows : List Row) (i : Nat) (x y : Row) (hx : rows[i]? = some x)
    (hy : rows[i + 1]? = some y) (h : pnBetween x y = .ok none) (b : PnBlock) (hb : b.WellFormed)
    (r : Row) (hr : r.Valid) (v : SameStageVec) (hv : b.toRows r = .ok (.ok v)) :
    v.iter.collect ≠ .ok rows := by
  intro hcol
  obtain ⟨rows', e, _, l, p⟩ := C85_recover b hb r hr v hv
  rw [hcol] at e
  obtain rfl := Except.ok.inj e
  have hlt : i < b.pns.length := by
    have := (List.getElem?_eq_some_iff.1 hy).1
    omega
  obtain ⟨x', y', hx', hy', hp⟩ := p i _ (List.getElem?_eq_getElem hlt)
  rw [hx] at hx'
  rw [hy] at hy'
  cases hx'
  cases hy'
  rw [h] at hp
  cases hp

/-- Two changes of plain hunting on four bells. -/
example : PnsBetween [⟨[⟨0⟩, ⟨1⟩, ⟨2⟩, ⟨3⟩]⟩, ⟨[⟨1⟩, ⟨0⟩, ⟨3⟩, ⟨2⟩]⟩, ⟨[⟨1⟩, ⟨3⟩, ⟨0⟩, ⟨2⟩]⟩]
    [⟨[], ⟨4⟩⟩, ⟨[0, 3], ⟨4⟩⟩] := by
  refine ⟨rfl, fun i pn hi => ?_⟩
  rcases i with _ | _ | i
  · cases hi; exact ⟨_, _, rfl, rfl, by decide⟩
  · cases hi; exact ⟨_, _, rfl, rfl, by decide⟩
  · simp at hi

example : pnBetween ⟨[⟨0⟩, ⟨1⟩, ⟨2⟩]⟩ ⟨[⟨2⟩, ⟨1⟩, ⟨0⟩]⟩ = .ok none := by decide

end Bellframe.Props
