import Verif.Props.RowAlgebra
import Verif.Props.RowSets
import Mathlib.GroupTheory.Coset.Card
import Mathlib.GroupTheory.OrderOfElement
import Mathlib.Data.Fintype.Perm

/-! # C86: the functions about groups of rows fit together -/

namespace Bellframe.Props

open Equiv

theorem mem_map_ofPerm {n : Nat} {S : List (Perm (Fin n))} {σ : Perm (Fin n)} :
    Row.ofPerm σ ∈ S.map Row.ofPerm ↔ σ ∈ S := by
  rw [List.mem_map]
  constructor
  · rintro ⟨x, hx, he⟩; rw [Row.ofPerm_inj] at he; exact he ▸ hx
  · intro h; exact ⟨σ, h, rfl⟩

/-- A list of rows with the members of a subgroup passes the group test. -/
theorem isGroup_of_subgroup {n : Nat} (hn : 0 < n) (H : Subgroup (Perm (Fin n))) (rows : List Row)
    (h : ∀ r, r ∈ rows ↔ ∃ σ ∈ H, r = Row.ofPerm σ) : Row.isGroup rows = .ok (.ok true) := by
  obtain ⟨S, rfl⟩ := Row.exists_perms (n := n) (rows := rows) (fun r hr => by
    obtain ⟨σ, _, rfl⟩ := (h r).1 hr
    exact ⟨Row.ofPerm_valid hn σ, by simp⟩)
  have hS : ∀ σ, σ ∈ S ↔ σ ∈ H := by
    intro σ
    rw [← mem_map_ofPerm, h]
    constructor
    · rintro ⟨τ, hτ, he⟩
      rw [Row.ofPerm_injective he]
      exact hτ
    · intro hσ
      exact ⟨σ, hσ, rfl⟩
  have hne : S ≠ [] := by
    rintro rfl
    simpa using (hS 1).2 H.one_mem
  obtain ⟨b, h1, h2⟩ := C19_is_group hn S hne
  rw [h1, h2.2 ⟨H, hS⟩]

/-- The number of rows in a repetition-free list with the members of a subgroup. -/
theorem length_of_subgroup {n : Nat} (hn : 0 < n) (H : Subgroup (Perm (Fin n))) (rows : List Row)
    (hnd : rows.Nodup) (h : ∀ r, r ∈ rows ↔ ∃ σ ∈ H, r = Row.ofPerm σ) :
    rows.length = Nat.card H := by
  obtain ⟨S, rfl⟩ := Row.exists_perms (n := n) (rows := rows) (fun r hr => by
    obtain ⟨σ, _, rfl⟩ := (h r).1 hr
    exact ⟨Row.ofPerm_valid hn σ, by simp⟩)
  have hS : ∀ σ, σ ∈ S ↔ σ ∈ H := by
    intro σ
    rw [← mem_map_ofPerm, h]
    constructor
    · rintro ⟨τ, hτ, he⟩
      rw [Row.ofPerm_injective he]
      exact hτ
    · intro hσ
      exact ⟨σ, hσ, rfl⟩
  have hndS : S.Nodup := hnd.of_map
  classical
  rw [List.length_map, ← List.toFinset_card_of_nodup hndS, ← Nat.card_eq_finsetCard]
  exact Nat.card_congr (Equiv.subtypeEquivRight fun σ => by rw [List.mem_toFinset, hS σ])

/-- The closure of a row passes the group test, and has the same rows as the least group containing
the row. -/
theorem C86_closure (r : Row) (hr : r.Valid) :
    ∃ l out, r.closure.Returns l ∧ (Row.leastGroupContaining [r]).Returns (.ok out) ∧
      l.Perm out ∧ Row.isGroup l = .ok (.ok true) := by
  obtain ⟨n, hn, σ, rfl⟩ := C16_covers_valid_rows r hr
  obtain ⟨l, h1, h2, h3, h4, _⟩ := C16_closure σ
  obtain ⟨out, g1, g2, g3⟩ := C18_least_group hn [σ] (by simp)
  have hmem : ∀ x, x ∈ l ↔ ∃ τ ∈ Subgroup.closure {g | g ∈ [σ]}, x = Row.ofPerm τ := by
    have hset : {g | g ∈ [σ]} = ({σ} : Set (Perm (Fin n))) := by ext; simp
    rw [hset, ← Subgroup.zpowers_eq_closure]
    intro x
    constructor
    · intro hx
      obtain ⟨i, hi⟩ := List.mem_iff_getElem?.1 hx
      have := h4 i (List.getElem?_eq_some_iff.1 hi).1
      rw [hi] at this
      exact ⟨_, Subgroup.npow_mem_zpowers σ (i + 1), Option.some.inj this⟩
    · rintro ⟨τ, hτ, rfl⟩
      obtain ⟨k, hk, rfl⟩ := mem_zpowers_iff_mem_range_orderOf.1 hτ |> fun h => by
        simpa using h
      have hpos : 0 < orderOf σ := orderOf_pos σ
      rcases Nat.eq_zero_or_pos k with rfl | hk0
      · have := h4 (orderOf σ - 1) (by omega)
        rw [Nat.sub_add_cancel hpos, pow_orderOf_eq_one] at this
        rw [pow_zero]
        exact List.mem_of_getElem? this
      · have := h4 (k - 1) (by omega)
        rw [Nat.sub_add_cancel hk0] at this
        exact List.mem_of_getElem? this
  refine ⟨l, out, h1, g1, ?_, isGroup_of_subgroup hn _ l hmem⟩
  rw [List.perm_ext_iff_of_nodup h3 g2]
  intro x
  rw [hmem x, g3 x]

example := C86_closure ⟨[⟨1⟩, ⟨2⟩, ⟨0⟩]⟩ (by decide)

/-- The least group containing some rows of one stage passes the group test, contains the rows, and
is contained in every list of rows that contains them and passes the test. -/
theorem C86_least (rows : List Row) (n : Nat) (hne : rows ≠ [])
    (hv : ∀ r ∈ rows, r.Valid ∧ r.bells.length = n) :
    ∃ out, (Row.leastGroupContaining rows).Returns (.ok out) ∧
      Row.isGroup out = .ok (.ok true) ∧ (∀ r ∈ rows, r ∈ out) ∧
      ∀ group : List Row, (∀ r ∈ group, r.Valid ∧ r.bells.length = n) →
        Row.isGroup group = .ok (.ok true) → (∀ r ∈ rows, r ∈ group) → ∀ r ∈ out, r ∈ group := by
  have hn : 0 < n := by
    obtain ⟨r, hr⟩ := List.exists_mem_of_ne_nil rows hne
    rw [← (hv r hr).2]
    exact (hv r hr).1.length_pos
  obtain ⟨S, rfl⟩ := Row.exists_perms hv
  obtain ⟨out, g1, g2, g3⟩ := C18_least_group hn S (by simpa using hne)
  refine ⟨out, g1, isGroup_of_subgroup hn _ out g3, fun r hr => ?_, fun group hg ht hsub r hr => ?_⟩
  · obtain ⟨σ, hσ, rfl⟩ := List.mem_map.1 hr
    exact (g3 _).2 ⟨σ, Subgroup.subset_closure hσ, rfl⟩
  · obtain ⟨G, rfl⟩ := Row.exists_perms hg
    have hGne : G ≠ [] := by
      obtain ⟨x, hx⟩ := List.exists_mem_of_ne_nil _ hne
      rintro rfl
      simpa using hsub x hx
    obtain ⟨b, h1, h2⟩ := C19_is_group hn G hGne
    rw [ht] at h1
    cases h1
    obtain ⟨H, hH⟩ := h2.1 rfl
    obtain ⟨σ, hσ, rfl⟩ := (g3 r).1 hr
    rw [mem_map_ofPerm, hH]
    refine (Subgroup.closure_le H).2 (fun τ hτ => ?_) hσ
    exact (hH τ).1 (mem_map_ofPerm.1 (hsub _ (List.mem_map.2 ⟨τ, hτ, rfl⟩)))

example := C86_least [⟨[⟨1⟩, ⟨2⟩, ⟨0⟩]⟩, ⟨[⟨1⟩, ⟨0⟩, ⟨2⟩]⟩] 3 (by decide) (by decide)

/-- So the rows of a list (without repetitions) are already a group exactly when they are the least
group containing them. -/
theorem C86_fixed_point (rows : List Row) (n : Nat) (hne : rows ≠ []) (hnd : rows.Nodup)
    (hv : ∀ r ∈ rows, r.Valid ∧ r.bells.length = n) :
    Row.isGroup rows = .ok (.ok true) ↔
      ∃ out, (Row.leastGroupContaining rows).Returns (.ok out) ∧ out.Perm rows := by
  obtain ⟨out, h1, h2, h3, h4⟩ := C86_least rows n hne hv
  have hn : 0 < n := by
    obtain ⟨r, hr⟩ := List.exists_mem_of_ne_nil rows hne
    rw [← (hv r hr).2]
    exact (hv r hr).1.length_pos
  obtain ⟨S, rfl⟩ := Row.exists_perms hv
  obtain ⟨out', g1, g2, g3⟩ := C18_least_group hn S (by simpa using hne)
  have hout : out = out' := by
    have := h1.unique g1
    exact Except.ok.inj this
  subst hout
  constructor
  · intro hg
    refine ⟨out, h1, ?_⟩
    rw [List.perm_ext_iff_of_nodup g2 hnd]
    exact fun r => ⟨h4 _ hv hg (fun _ h => h) r, h3 r⟩
  · rintro ⟨out', e, hp⟩
    have : out = out' := Except.ok.inj (h1.unique e)
    subst this
    refine isGroup_of_subgroup hn (Subgroup.closure {g | g ∈ S}) _ fun r => ?_
    rw [← hp.mem_iff, g3]

example := C86_fixed_point [⟨[⟨1⟩, ⟨2⟩, ⟨0⟩]⟩, ⟨[⟨0⟩, ⟨1⟩, ⟨2⟩]⟩] 3 (by decide) (by decide) (by decide)

/-- Sizes: the number of rows of a group divides `n!`, and the number of rows in the closure of each
of its rows divides it. -/
theorem C86_sizes (rows : List Row) (n : Nat) (hne : rows ≠ [])
    (hv : ∀ r ∈ rows, r.Valid ∧ r.bells.length = n) (out : List Row)
    (h : (Row.leastGroupContaining rows).Returns (.ok out)) :
    out.length ∣ n.factorial ∧
    ∀ r ∈ out, ∃ l, r.closure.Returns l ∧ l.length ∣ out.length ∧ ∀ x ∈ l, x ∈ out := by
  have hn : 0 < n := by
    obtain ⟨r, hr⟩ := List.exists_mem_of_ne_nil rows hne
    rw [← (hv r hr).2]
    exact (hv r hr).1.length_pos
  obtain ⟨S, rfl⟩ := Row.exists_perms hv
  obtain ⟨out', g1, g2, g3⟩ := C18_least_group hn S (by simpa using hne)
  obtain rfl : out = out' := Except.ok.inj (h.unique g1)
  have hcard := length_of_subgroup hn _ out g2 g3
  constructor
  · rw [hcard]
    have := Subgroup.card_subgroup_dvd_card (Subgroup.closure {g | g ∈ S})
    rwa [Nat.card_eq_fintype_card (α := Perm (Fin n)), Fintype.card_perm, Fintype.card_fin] at this
  · intro r hr
    obtain ⟨σ, hσ, rfl⟩ := (g3 r).1 hr
    obtain ⟨l, h1, h2, _, h4, _⟩ := C16_closure σ
    refine ⟨l, h1, ?_, fun x hx => ?_⟩
    · rw [h2, hcard]
      exact Subgroup.orderOf_dvd_natCard _ hσ
    · obtain ⟨i, hi⟩ := List.mem_iff_getElem?.1 hx
      have := h4 i (List.getElem?_eq_some_iff.1 hi).1
      rw [hi] at this
      obtain rfl := Option.some.inj this
      exact (g3 _).2 ⟨_, Subgroup.pow_mem _ hσ _, rfl⟩

/-- Two swaps on three bells, which generate all six rows. -/
example : ∀ r ∈ ([⟨[⟨1⟩, ⟨0⟩, ⟨2⟩]⟩, ⟨[⟨0⟩, ⟨2⟩, ⟨1⟩]⟩] : List Row), r.Valid ∧ r.bells.length = 3 := by
  decide

end Bellframe.Props
