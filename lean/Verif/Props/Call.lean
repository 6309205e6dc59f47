import Verif.Model.Call
import Verif.Props.Method
import Verif.Props.RowAlgebra
import Verif.Props.RowSets
import Mathlib.Order.Bounds.Basic
import Mathlib.Algebra.BigOperators.Group.List.Basic

/-! # C56, C62: calls, and the effective stage of blocks -/

namespace Bellframe.Props

open Equiv

variable {n : Nat} {A : Type}

theorem maxStage_spec (ss : List Stage) (h : ss ≠ []) :
    ∃ s, AnnotBlock.maxStage ss = some s ∧ s ∈ ss ∧ ∀ t ∈ ss, t.numBells ≤ s.numBells := by
  induction ss with
  | nil => exact absurd rfl h
  | cons a ss ih =>
    cases ss with
    | nil => exact ⟨a, rfl, by simp, by simp⟩
    | cons b ss =>
      obtain ⟨s, h1, h2, h3⟩ := ih (by simp)
      rw [AnnotBlock.maxStage, h1]
      by_cases hc : a.numBells ≤ s.numBells
      · refine ⟨s, by simp [hc], by simp only [List.mem_cons] at h2 ⊢; tauto, ?_⟩
        intro t ht
        rcases List.mem_cons.1 ht with rfl | ht
        · exact hc
        · exact h3 t ht
      · refine ⟨a, by simp [hc], by simp, ?_⟩
        intro t ht
        rcases List.mem_cons.1 ht with rfl | ht
        · exact le_refl _
        · exact le_trans (h3 t ht) (by omega)

/-- The effective stage of a block is the least `k ≥ 1` such that in all rows, including the
left-over one, all places from `k` on hold their own bells. -/
theorem C62_block_effective_stage (hn : 0 < n) (σs : List (Perm (Fin n))) (l : Perm (Fin n))
    (annots : List A) :
    ∃ s, (AnnotBlock.ofPerms σs l annots).effectiveStage = .ok s ∧
      IsLeast {k | 1 ≤ k ∧ ∀ σ ∈ σs ++ [l], ∀ x : Fin n, k ≤ x.val → σ x = x} s.numBells := by
  have hrow : ∀ σ : Perm (Fin n), ∃ s, (Row.ofPerm σ).effectiveStage = .ok s ∧
      IsLeast {k | 1 ≤ k ∧ ∀ x : Fin n, k ≤ x.val → σ x = x} s.numBells := by
    intro σ
    obtain ⟨s, h1, h2⟩ := C15_effective_stage (Row.ofPerm σ)
    refine ⟨s, h1, ?_⟩
    have : {k | 1 ≤ k ∧ ∀ i x, k ≤ i → (Row.ofPerm σ).bells[i]? = some x → x = ⟨i⟩} =
        {k | 1 ≤ k ∧ ∀ x : Fin n, k ≤ x.val → σ x = x} := by
      ext k
      refine and_congr_right fun _ => ?_
      constructor
      · intro H x hx
        have := H x.val ⟨(σ x).val⟩ hx (by simp [Row.ofPerm])
        exact Fin.ext (by simpa using this)
      · intro H i b hi hb
        have hin : i < n := by
          by_contra h
          rw [List.getElem?_eq_none (by simpa [Row.ofPerm] using h)] at hb
          cases hb
        have := H ⟨i, hin⟩ hi
        simp [Row.ofPerm, hin, this] at hb
        exact hb.symm
    rwa [this] at h2
  choose f hf1 hf2 using hrow
  have hmap : ((σs ++ [l]).map Row.ofPerm).mapM Row.effectiveStage =
      (.ok ((σs ++ [l]).map f) : Res (List Stage)) := by
    generalize σs ++ [l] = L
    induction L with
    | nil => rfl
    | cons a L ih =>
      rw [List.map_cons, List.mapM_cons, hf1]
      simp only [Res.ok_bind, ih]
      rfl
  obtain ⟨s, h1, h2, h3⟩ := maxStage_spec ((σs ++ [l]).map f) (by simp)
  refine ⟨s, ?_, ?_, ?_⟩
  · unfold AnnotBlock.effectiveStage AnnotBlock.allRows AnnotBlock.ofPerms
    simp only
    rw [SameStageVec.collect_ofRows _ (RowsOf.perms hn _)]
    simp only [Res.ok_bind, hmap, h1, unwrap_some]
  · obtain ⟨σ, hσ, rfl⟩ := List.mem_map.1 h2
    refine ⟨(hf2 σ).1.1, ?_⟩
    intro ρ hρ x hx
    have := h3 (f ρ) (List.mem_map.2 ⟨ρ, hρ, rfl⟩)
    exact (hf2 ρ).1.2 x (by omega)
  · rintro k ⟨hk1, hk2⟩
    obtain ⟨σ, hσ, rfl⟩ := List.mem_map.1 h2
    exact (hf2 σ).2 ⟨hk1, hk2 σ hσ⟩

theorem follows_prod {σ : Perm (Fin n)} {τs ρs : List (Perm (Fin n))} (h : Follows σ τs ρs) (k : Nat)
    (hk : k ≤ τs.length) : ρs[k]? = some (σ * (τs.take k).prod) := by
  obtain ⟨h1, h2, h3⟩ := h
  induction k with
  | zero => simpa using h2
  | succ k ih =>
    obtain ⟨ρ, h4, h5⟩ := h3 k τs[k] (List.getElem?_eq_getElem (by omega))
    rw [ih (by omega)] at h4
    rw [h5, ← Option.some.inj h4, List.take_succ_eq_append_getElem (by omega)]
    simp only [List.prod_append, List.prod_singleton, mul_assoc]

theorem follows_last {σ : Perm (Fin n)} {τs lead : List (Perm (Fin n))} {τ : Perm (Fin n)}
    (h : Follows σ τs (lead ++ [τ])) : τ = σ * τs.prod := by
  have h1 := follows_prod h τs.length (le_refl _)
  have hl : lead.length = τs.length := by simpa using h.1
  rw [List.take_length, ← hl] at h1
  simpa using h1

/-- All rows leave a place alone if and only if all changes do. -/
theorem follows_fixes {τs ρs : List (Perm (Fin n))} (h : Follows 1 τs ρs) (x : Fin n) :
    (∀ ρ ∈ ρs, ρ x = x) ↔ ∀ τ ∈ τs, τ x = x := by
  obtain ⟨h1, h2, h3⟩ := h
  constructor
  · intro H τ hτ
    obtain ⟨k, hk, rfl⟩ := List.mem_iff_getElem.1 hτ
    obtain ⟨ρ, h4, h5⟩ := h3 k τs[k] (List.getElem?_eq_getElem hk)
    have e1 := H ρ (List.mem_of_getElem? h4)
    have e2 := H _ (List.mem_of_getElem? h5)
    rw [Perm.mul_apply] at e2
    exact ρ.injective (e2.trans e1.symm)
  · intro H ρ hρ
    obtain ⟨k, hk, rfl⟩ := List.mem_iff_getElem.1 hρ
    have hk' : k ≤ τs.length := by omega
    have := follows_prod ⟨h1, h2, h3⟩ k hk'
    rw [List.getElem?_eq_getElem hk] at this
    rw [Option.some.inj this, one_mul]
    have hp : ∀ L : List (Perm (Fin n)), (∀ τ ∈ L, τ x = x) → L.prod x = x := by
      intro L
      induction L with
      | nil => intro _; rfl
      | cons a L ih =>
        intro hL
        rw [List.prod_cons, Perm.mul_apply, ih (fun τ hτ => hL τ (by simp [hτ])), hL a (by simp)]
    exact hp _ fun τ hτ => H τ (List.mem_of_mem_take hτ)

/-- Bobs and singles at the lead end, for all place notation: the symbol, the place, how much is
covered and rung, the stage, the overall transposition, the rows rung (those of the changes, from rounds)
and the bells affected. -/
theorem C56_calls (hn : 0 < n) (τs : List (Perm (Fin n))) (hne : τs ≠ []) (hc : ∀ τ ∈ τs, IsChange τ) :
    ∃ bob single, Call.leBob ⟨τs.map PlaceNot.ofChange⟩ = .ok bob ∧
      Call.leSingle ⟨τs.map PlaceNot.ofChange⟩ = .ok single ∧
      bob.notation_ = '-' ∧ single.notation_ = 's' ∧
      ∀ c ∈ [bob, single], c.location = "LE" ∧ c.coverLen = τs.length ∧ c.len = τs.length ∧
        c.stage = ⟨n⟩ ∧ c.transposition = .ok (.ofPerm τs.prod) ∧
        c.block.firstRow = .ok (.ofPerm (1 : Perm (Fin n))) ∧
        (∃ ρs l, Follows 1 τs (ρs ++ [l]) ∧
          c.block = .ofPerms ρs l (List.replicate τs.length ())) ∧
        ∃ s, c.effectiveStage = .ok s ∧
          IsLeast {k | 1 ≤ k ∧ ∀ τ ∈ τs, ∀ x : Fin n, k ≤ x.val → τ x = x} s.numBells := by
  obtain ⟨-, -, ⟨lead, τ, h1, h2⟩, h3, -⟩ := C36_rows () hn 1 τs hne hc
  obtain ⟨h4, h5⟩ := follows_start hne h1
  have hτ := follows_last h1
  rw [one_mul] at hτ
  unfold Call.leBob Call.leSingle
  simp only [h2, Res.ok_bind, Res.pure_eq, h3]
  refine ⟨_, _, rfl, rfl, rfl, rfl, ?_⟩
  have key : ∀ c : Call, c.location = "LE" → c.covers = τs.length →
      c.block = .ofPerms lead τ (List.replicate τs.length ()) →
      c.location = "LE" ∧ c.coverLen = τs.length ∧ c.len = τs.length ∧
        c.stage = ⟨n⟩ ∧ c.transposition = .ok (.ofPerm τs.prod) ∧
        c.block.firstRow = .ok (.ofPerm (1 : Perm (Fin n))) ∧
        (∃ ρs l, Follows 1 τs (ρs ++ [l]) ∧
          c.block = .ofPerms ρs l (List.replicate τs.length ())) ∧
        ∃ s, c.effectiveStage = .ok s ∧
          IsLeast {k | 1 ≤ k ∧ ∀ τ ∈ τs, ∀ x : Fin n, k ≤ x.val → τ x = x} s.numBells := by
    intro c hl hcov hb
    refine ⟨hl, hcov, ?_, ?_, ?_, ?_, ⟨lead, τ, h1, hb⟩, ?_⟩
    · unfold Call.len
      rw [hb]
      simp [AnnotBlock.len, AnnotBlock.ofPerms]
    · unfold Call.stage
      rw [hb]
      rfl
    · unfold Call.transposition
      rw [hb, AnnotBlock.leftover_ofPerms hn, hτ]
    · rw [hb, AnnotBlock.firstRow_ofPerms hn, h4]
      rfl
    · obtain ⟨s, e1, e2⟩ := C62_block_effective_stage hn lead τ (List.replicate τs.length ())
      refine ⟨s, by unfold Call.effectiveStage; rw [hb]; exact e1, ?_⟩
      have : {k | 1 ≤ k ∧ ∀ σ ∈ lead ++ [τ], ∀ x : Fin n, k ≤ x.val → σ x = x} =
          {k | 1 ≤ k ∧ ∀ τ ∈ τs, ∀ x : Fin n, k ≤ x.val → τ x = x} := by
        ext k
        refine and_congr_right fun _ => ?_
        constructor
        · intro H ρ hρ x hx
          exact (follows_fixes h1 x).1 (fun σ hσ => H σ hσ x hx) ρ hρ
        · intro H σ hσ x hx
          exact (follows_fixes h1 x).2 (fun ρ hρ => H ρ hρ x hx) σ hσ
      rwa [this] at e2
  intro c hcm
  simp only [List.mem_cons, List.not_mem_nil, or_false] at hcm
  rcases hcm with rfl | rfl
  · exact key _ rfl rfl rfl
  · exact key _ rfl rfl rfl

example := C56_calls (n := 6) (by decide) [swap 4 5, swap 1 2 * swap 3 4] (by decide)
  (by decide +kernel)

/-- The transposition of a call takes the row where the call starts to the row where it ends. -/
theorem C56_transposition (hn : 0 < n) (τs : List (Perm (Fin n))) (hne : τs ≠ [])
    (hc : ∀ τ ∈ τs, IsChange τ) (σ : Perm (Fin n)) (c : Call)
    (hcall : Call.leBob ⟨τs.map PlaceNot.ofChange⟩ = .ok c ∨
      Call.leSingle ⟨τs.map PlaceNot.ofChange⟩ = .ok c) :
    ∃ t b, c.transposition = .ok t ∧
      PnBlock.toBlock () ⟨τs.map PlaceNot.ofChange⟩ (.ofPerm σ) = .ok (.ok b) ∧
      (Row.ofPerm σ).mul t = b.leftoverRow := by
  obtain ⟨bob, single, h1, h2, -, -, h3⟩ := C56_calls hn τs hne hc
  obtain ⟨-, ⟨lead, τ, h4, h5⟩, -⟩ := C36_rows () hn σ τs hne hc
  have ht : c.transposition = .ok (.ofPerm τs.prod) := by
    rcases hcall with h | h
    · rw [h1] at h
      cases h
      exact (h3 c (by simp)).2.2.2.2.1
    · rw [h2] at h
      cases h
      exact (h3 c (by simp)).2.2.2.2.1
  refine ⟨_, _, ht, h5, ?_⟩
  rw [Row.mul_ofPerm hn, AnnotBlock.leftover_ofPerms hn, follows_last h4]

/-- Two changes: the bob 14 on four bells after a cross. -/
example : ∃ τs : List (Perm (Fin 4)), τs ≠ [] ∧ (∀ τ ∈ τs, IsChange τ) ∧ τs.prod ≠ 1 := by
  refine ⟨[swap 0 1 * swap 2 3, swap 1 2], by simp, ?_, by decide⟩
  unfold IsChange
  decide

end Bellframe.Props
