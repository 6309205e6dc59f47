import Verif.Proofs.RowAlgebra
import Mathlib.Algebra.Group.Subgroup.Lattice
import Mathlib.GroupTheory.Perm.Finite
import Mathlib.Data.Fintype.Perm
import Mathlib.Algebra.BigOperators.Group.List.Basic
import Mathlib.Data.List.Sections
import Mathlib.Tactic.Ring
import Mathlib.Tactic.Positivity

/-! # Lemmas about sets of rows -/

namespace Bellframe

namespace Row

variable {n : Nat}

/-! ## Cartesian products -/

/-- The pure version of one step of the cartesian product. -/
def stepProd (acc S : List (Equiv.Perm (Fin n))) : List (Equiv.Perm (Fin n)) :=
  S.flatMap fun τ => acc.map (· * τ)

theorem mapM_mulUnchecked_ofPerm (acc : List (Equiv.Perm (Fin n))) (τ : Equiv.Perm (Fin n)) :
    (acc.map ofPerm).mapM (fun r1 => r1.mulUnchecked (ofPerm τ)) =
      .ok ((acc.map (· * τ)).map ofPerm) := by
  rw [mapM_res_eq_ok (g := fun r => Row.comp r (ofPerm τ))]
  · congr 1
    simp [comp_ofPerm]
  · intro a ha
    obtain ⟨σ, -, rfl⟩ := List.mem_map.1 ha
    rw [mulUnchecked_ofPerm, comp_ofPerm]

theorem mcpSet_ofPerm (hn : 0 < n) (acc : List (Equiv.Perm (Fin n))) :
    ∀ (S : List (Equiv.Perm (Fin n))) (dst : List Row),
    mcpSet ⟨n⟩ (acc.map ofPerm) (S.map ofPerm) dst =
      .ok (.ok (dst ++ (stepProd acc S).map ofPerm))
  | [], dst => by simp [mcpSet, stepProd]
  | τ :: S, dst => by
    simp only [List.map_cons, mcpSet, ofPerm_stage hn, Res.ok_bind, testErr_self,
      mapM_mulUnchecked_ofPerm, mcpSet_ofPerm hn acc S]
    simp [stepProd]

theorem mcpFirst_ofPerm (hn : 0 < n) : ∀ (S : List (Equiv.Perm (Fin n))) (st : Option Stage)
    (out : List Row), (st = none ∨ st = some ⟨n⟩) →
    mcpFirst (S.map ofPerm) st out =
      .ok (.ok (if S.isEmpty then st else some ⟨n⟩, out ++ S.map ofPerm))
  | [], st, out, _ => by simp [mcpFirst]
  | τ :: S, st, out, h => by
    have h1 : IncompatibleStages.testErrOpt st ⟨n⟩ = .ok (some ⟨n⟩) := by
      rcases h with rfl | rfl <;> simp [IncompatibleStages.testErrOpt, testErr_self]
    simp only [List.map_cons, mcpFirst, ofPerm_stage hn, Res.ok_bind, h1,
      mcpFirst_ofPerm hn S (some ⟨n⟩) _ (Or.inr rfl)]
    simp

theorem stepProd_nil_left (S : List (Equiv.Perm (Fin n))) : stepProd [] S = [] := by
  simp [stepProd]

theorem foldl_stepProd_nil (sets : List (List (Equiv.Perm (Fin n)))) :
    sets.foldl stepProd [] = [] := by
  induction sets with
  | nil => rfl
  | cons S sets ih => simpa [stepProd_nil_left] using ih

theorem mcpRest_ofPerm (hn : 0 < n) : ∀ (sets : List (List (Equiv.Perm (Fin n))))
    (acc : List (Equiv.Perm (Fin n))) (st : Option Stage), (acc ≠ [] → st = some ⟨n⟩) →
    mcpRest st (sets.map (·.map ofPerm)) (acc.map ofPerm) =
      .ok (.ok ((sets.foldl stepProd acc).map ofPerm))
  | [], acc, st, _ => by simp [mcpRest]
  | S :: sets, acc, st, h => by
    rw [List.map_cons, mcpRest]
    by_cases hacc : acc = []
    · subst hacc
      simp [stepProd_nil_left, foldl_stepProd_nil]
    · rw [if_neg (by simpa using hacc), h hacc]
      simp only [unwrap_some, Res.ok_bind, mcpSet_ofPerm hn, List.nil_append]
      exact mcpRest_ofPerm hn sets _ _ (fun _ => rfl)

theorem mcp_ofPerm (hn : 0 < n) (S : List (Equiv.Perm (Fin n)))
    (sets : List (List (Equiv.Perm (Fin n)))) :
    multiCartesianProduct ((S :: sets).map (·.map ofPerm)) =
      .ok (.ok ((sets.foldl stepProd S).map ofPerm)) := by
  simp only [multiCartesianProduct, List.map_cons, mcpFirst_ofPerm hn S none [] (Or.inl rfl),
    Res.ok_bind, List.nil_append]
  apply mcpRest_ofPerm hn
  intro h
  simp [h]

theorem foldl_stepProd_eq : ∀ (sets : List (List (Equiv.Perm (Fin n))))
    (acc : List (Equiv.Perm (Fin n))),
    sets.foldl stepProd acc = sets.sections.flatMap fun xs => acc.map (· * xs.prod)
  | [], acc => by simp [List.sections]
  | S :: sets, acc => by
    rw [List.foldl_cons, foldl_stepProd_eq sets, List.sections]
    simp [stepProd, List.map_flatMap, List.flatMap_assoc, List.flatMap_map, Function.comp_def,
      mul_assoc]

theorem mcp_sections (hn : 0 < n) (sets : List (List (Equiv.Perm (Fin n)))) (hne : sets ≠ []) :
    multiCartesianProduct (sets.map (·.map ofPerm)) =
      .ok (.ok (sets.sections.map fun xs => ofPerm xs.prod)) := by
  cases sets with
  | nil => exact absurd rfl hne
  | cons S sets =>
    rw [mcp_ofPerm hn, foldl_stepProd_eq, List.sections]
    simp [List.map_flatMap, Function.comp_def]

/-! ## Stage checks -/

/-- A list of valid rows of one length is a list of permutations. -/
theorem exists_perms {rows : List Row} (hv : ∀ r ∈ rows, r.Valid ∧ r.bells.length = n) :
    ∃ S : List (Equiv.Perm (Fin n)), rows = S.map ofPerm := by
  induction rows with
  | nil => exact ⟨[], rfl⟩
  | cons r rows ih =>
    obtain ⟨S, rfl⟩ := ih (fun r' h => hv r' (by simp [h]))
    obtain ⟨σ, rfl⟩ := (hv r (by simp)).1.exists_perm' (hv r (by simp)).2
    exact ⟨σ :: S, rfl⟩

theorem exists_perm_sets {sets : List (List Row)}
    (hv : ∀ s ∈ sets, ∀ r ∈ s, r.Valid ∧ r.bells.length = n) :
    ∃ S : List (List (Equiv.Perm (Fin n))), sets = S.map (·.map ofPerm) := by
  induction sets with
  | nil => exact ⟨[], rfl⟩
  | cons r sets ih =>
    obtain ⟨S, rfl⟩ := ih (fun r' h => hv r' (by simp [h]))
    obtain ⟨T, rfl⟩ := exists_perms (hv r (by simp))
    exact ⟨T :: S, rfl⟩

/-- The first row whose stage differs from `n`, if there is one. -/
theorem split_first_mismatch {rows : List Row} (h : ¬ ∀ r ∈ rows, r.bells.length = n) :
    ∃ pre r post, rows = pre ++ r :: post ∧ (∀ r' ∈ pre, r'.bells.length = n) ∧
      r.bells.length ≠ n := by
  induction rows with
  | nil => simp at h
  | cons r rows ih =>
    by_cases hr : r.bells.length = n
    · obtain ⟨pre, r', post, rfl, h1, h2⟩ := ih (fun hall => h (by
        intro x hx
        rcases List.mem_cons.1 hx with rfl | hx
        · exact hr
        · exact hall x hx))
      refine ⟨r :: pre, r', post, rfl, ?_, h2⟩
      intro x hx
      rcases List.mem_cons.1 hx with rfl | hx
      · exact hr
      · exact h1 x hx
    · exact ⟨[], r, rows, rfl, by simp, hr⟩

theorem mcpSet_mismatch (hn : 0 < n) (acc S : List (Equiv.Perm (Fin n))) (r : Row) (hr : r.Valid)
    (hne : r.bells.length ≠ n) (post : List Row) : ∀ (dst : List Row),
    mcpSet ⟨n⟩ (acc.map ofPerm) (S.map ofPerm ++ r :: post) dst =
      .ok (.error ⟨⟨n⟩, ⟨r.bells.length⟩⟩) := by
  have hs : (⟨n⟩ : Stage) ≠ ⟨r.bells.length⟩ := by simpa using Ne.symm hne
  induction S with
  | nil =>
    intro dst
    simp [mcpSet, hr.stage_eq, testErr_ne hs]
  | cons τ S ih =>
    intro dst
    simp only [List.map_cons, List.cons_append, mcpSet, ofPerm_stage hn, Res.ok_bind, testErr_self,
      mapM_mulUnchecked_ofPerm, ih]

theorem mcpFirst_mismatch (hn : 0 < n) (r : Row) (hr : r.Valid) (hne : r.bells.length ≠ n)
    (post : List Row) : ∀ (S : List (Equiv.Perm (Fin n))) (st : Option Stage) (out : List Row),
    (st = some ⟨n⟩ ∨ st = none ∧ S ≠ []) →
    mcpFirst (S.map ofPerm ++ r :: post) st out = .ok (.error ⟨⟨n⟩, ⟨r.bells.length⟩⟩)
  | [], st, out, h => by
    have hs : (⟨n⟩ : Stage) ≠ ⟨r.bells.length⟩ := by simpa using Ne.symm hne
    rcases h with rfl | ⟨-, h⟩
    · simp [mcpFirst, hr.stage_eq, IncompatibleStages.testErrOpt, testErr_ne hs]
    · exact absurd rfl h
  | τ :: S, st, out, h => by
    have h1 : IncompatibleStages.testErrOpt st ⟨n⟩ = .ok (some ⟨n⟩) := by
      rcases h with rfl | ⟨rfl, -⟩ <;> simp [IncompatibleStages.testErrOpt, testErr_self]
    simp only [List.map_cons, List.cons_append, mcpFirst, ofPerm_stage hn, Res.ok_bind, h1,
      mcpFirst_mismatch hn r hr hne post S (some ⟨n⟩) _ (Or.inl rfl)]

/-- An offending row in a set that is reached by the loop. -/
theorem mcpRest_mismatch (hn : 0 < n) (r : Row) (hr : r.Valid) (hne : r.bells.length ≠ n)
    (T : List (Equiv.Perm (Fin n))) (post : List Row) (rest : List (List Row)) :
    ∀ (sets : List (List (Equiv.Perm (Fin n)))) (acc : List (Equiv.Perm (Fin n))),
    acc ≠ [] → (∀ S ∈ sets, S ≠ []) →
    mcpRest (some ⟨n⟩) (sets.map (·.map ofPerm) ++ (T.map ofPerm ++ r :: post) :: rest)
      (acc.map ofPerm) = .ok (.error ⟨⟨n⟩, ⟨r.bells.length⟩⟩)
  | [], acc, hacc, _ => by
    rw [List.map_nil, List.nil_append, mcpRest, if_neg (by simpa using hacc)]
    simp only [unwrap_some, Res.ok_bind, mcpSet_mismatch hn acc T r hr hne post]
    rfl
  | S :: sets, acc, hacc, hall => by
    rw [List.map_cons, List.cons_append, mcpRest, if_neg (by simpa using hacc)]
    simp only [unwrap_some, Res.ok_bind, mcpSet_ofPerm hn, List.nil_append]
    apply mcpRest_mismatch hn r hr hne T post rest sets
    · intro h
      have hS := hall S (by simp)
      have := congrArg List.length h
      simp only [stepProd, List.length_flatMap, List.length_map, List.map_const', List.sum_replicate,
        List.length_nil, smul_eq_mul, Nat.mul_eq_zero, List.length_eq_zero_iff] at this
      tauto
    · exact fun S' h => hall S' (by simp [h])

/-- Once the running product is empty, later sets are ignored. -/
theorem mcpRest_nil (st : Option Stage) (rest : List (List Row)) :
    mcpRest st rest [] = .ok (.ok []) := by
  cases rest <;> simp [mcpRest]

/-- An empty set makes the product empty, and later sets are ignored. -/
theorem mcpRest_empty_set (hn : 0 < n) (rest : List (List Row)) :
    ∀ (sets : List (List (Equiv.Perm (Fin n)))) (acc : List (Equiv.Perm (Fin n))),
    acc ≠ [] →
    mcpRest (some ⟨n⟩) (sets.map (·.map ofPerm) ++ [] :: rest) (acc.map ofPerm) = .ok (.ok [])
  | [], acc, hacc => by
    rw [List.map_nil, List.nil_append, mcpRest, if_neg (by simpa using hacc)]
    simp only [unwrap_some, Res.ok_bind, mcpSet, mcpRest_nil]
  | S :: sets, acc, hacc => by
    rw [List.map_cons, List.cons_append, mcpRest, if_neg (by simpa using hacc)]
    simp only [unwrap_some, Res.ok_bind, mcpSet_ofPerm hn, List.nil_append]
    by_cases h : stepProd acc S = []
    · rw [h]; exact mcpRest_nil _ _
    · exact mcpRest_empty_set hn rest sets _ h

/-- The first set containing a row whose length is not `n`. -/
theorem split_first_bad_set {sets : List (List Row)}
    (hv : ∀ s ∈ sets, ∀ r ∈ s, r.Valid)
    (h : ¬ ∀ s ∈ sets, ∀ r ∈ s, r.bells.length = n) :
    ∃ (pre : List (List (Equiv.Perm (Fin n)))) (T : List (Equiv.Perm (Fin n))) (r : Row)
      (post : List Row) (rest : List (List Row)),
      sets = pre.map (·.map ofPerm) ++ (T.map ofPerm ++ r :: post) :: rest ∧ r.Valid ∧
      r.bells.length ≠ n := by
  induction sets with
  | nil => simp at h
  | cons s sets ih =>
    by_cases hs : ∀ r ∈ s, r.bells.length = n
    · obtain ⟨pre, T, r, post, rest, heq, h1, h2⟩ := ih (fun s' hs' => hv s' (by simp [hs']))
        (fun hall => h (by
          intro s' hs'
          rcases List.mem_cons.1 hs' with rfl | hs'
          · exact hs
          · exact hall s' hs'))
      obtain ⟨P, hP⟩ := exists_perms (n := n) (rows := s)
        (fun r hr => ⟨hv s (by simp) r hr, hs r hr⟩)
      exact ⟨P :: pre, T, r, post, rest, by simp [heq, hP], h1, h2⟩
    · obtain ⟨pre, r, post, heq, h1, h2⟩ := split_first_mismatch hs
      have hr : r ∈ s := by simp [heq]
      obtain ⟨P, hP⟩ := exists_perms (n := n) (rows := pre)
        (fun r' hr' => ⟨hv s (by simp) r' (by simp [heq, hr']), h1 r' hr'⟩)
      exact ⟨[], P, r, post, sets, by simp [heq, hP], hv s (by simp) r hr, h2⟩

/-! ## Least group -/

theorem lgcSeed_ofPerm (hn : 0 < n) : ∀ (S : List (Equiv.Perm (Fin n))) (st : Option Stage)
    (set : List (Equiv.Perm (Fin n))), (st = none ∨ st = some ⟨n⟩) → set.Nodup →
    ∃ set' : List (Equiv.Perm (Fin n)), set'.Nodup ∧ (∀ σ, σ ∈ set' ↔ σ ∈ set ∨ σ ∈ S) ∧
      lgcSeed (S.map ofPerm) st (set.map ofPerm) (set.map ofPerm) =
        .ok (.ok (set'.map ofPerm, set'.map ofPerm))
  | [], st, set, _, hnd => ⟨set, hnd, by simp, by simp [lgcSeed]⟩
  | τ :: S, st, set, h, hnd => by
    have h1 : IncompatibleStages.testErrOpt st ⟨n⟩ = .ok (some ⟨n⟩) := by
      rcases h with rfl | rfl <;> simp [IncompatibleStages.testErrOpt, testErr_self]
    have hmem : ofPerm τ ∈ set.map ofPerm ↔ τ ∈ set := by
      rw [List.mem_map]
      constructor
      · rintro ⟨x, hx, he⟩; rw [ofPerm_inj] at he; exact he ▸ hx
      · intro h; exact ⟨τ, h, rfl⟩
    simp only [List.map_cons, lgcSeed, ofPerm_stage hn, Res.ok_bind, h1, hmem]
    by_cases hτ : τ ∈ set
    · obtain ⟨set', a, b, c⟩ := lgcSeed_ofPerm hn S (some ⟨n⟩) set (Or.inr rfl) hnd
      refine ⟨set', a, ?_, by rw [if_pos hτ]; exact c⟩
      intro σ
      rw [b σ, List.mem_cons]
      constructor
      · tauto
      · rintro (h | rfl | h) <;> tauto
    · obtain ⟨set', a, b, c⟩ := lgcSeed_ofPerm hn S (some ⟨n⟩) (set ++ [τ]) (Or.inr rfl) (by
        rw [List.nodup_append]
        refine ⟨hnd, by simp, ?_⟩
        intro x hx y hy
        simp only [List.mem_singleton] at hy
        subst hy
        rintro rfl
        exact hτ hx)
      refine ⟨set', a, ?_, by rw [if_neg hτ]; simpa using c⟩
      intro σ
      rw [b σ, List.mem_append, List.mem_singleton, List.mem_cons]
      tauto

theorem lgcExpand_ofPerm (ρ : Equiv.Perm (Fin n)) : ∀ (S : List (Equiv.Perm (Fin n)))
    (set fr : List (Equiv.Perm (Fin n))), set.Nodup →
    ∃ new : List (Equiv.Perm (Fin n)), (set ++ new).Nodup ∧
      (∀ σ ∈ new, ∃ τ ∈ S, σ = ρ * τ) ∧ (∀ τ ∈ S, ρ * τ ∈ set ++ new) ∧
      lgcExpand (ofPerm ρ) (S.map ofPerm) (set.map ofPerm) (fr.map ofPerm) =
        .ok ((set ++ new).map ofPerm, (fr ++ new).map ofPerm)
  | [], set, fr, hnd => ⟨[], by simpa using hnd, by simp, by simp, by simp [lgcExpand]⟩
  | τ :: S, set, fr, hnd => by
    have hmem : ofPerm (ρ * τ) ∈ set.map ofPerm ↔ ρ * τ ∈ set := by
      rw [List.mem_map]
      constructor
      · rintro ⟨x, hx, he⟩; rw [ofPerm_inj] at he; exact he ▸ hx
      · intro h; exact ⟨_, h, rfl⟩
    simp only [List.map_cons, lgcExpand, mulUnchecked_ofPerm, Res.ok_bind, hmem]
    by_cases hτ : ρ * τ ∈ set
    · obtain ⟨new, a, b, c, d⟩ := lgcExpand_ofPerm ρ S set fr hnd
      refine ⟨new, a, ?_, ?_, by rw [if_pos hτ]; exact d⟩
      · intro σ hσ
        obtain ⟨τ', h1, h2⟩ := b σ hσ
        exact ⟨τ', by simp [h1], h2⟩
      · intro τ' h
        rcases List.mem_cons.1 h with rfl | h
        · simp [hτ]
        · exact c τ' h
    · obtain ⟨new, a, b, c, d⟩ := lgcExpand_ofPerm ρ S (set ++ [ρ * τ]) (fr ++ [ρ * τ]) (by
        rw [List.nodup_append]
        refine ⟨hnd, by simp, ?_⟩
        intro x hx y hy
        simp only [List.mem_singleton] at hy
        subst hy
        rintro rfl
        exact hτ hx)
      refine ⟨[ρ * τ] ++ new, by simpa using a, ?_, ?_, by rw [if_neg hτ]; simpa using d⟩
      · intro σ hσ
        rcases List.mem_append.1 hσ with h | h
        · rw [List.mem_singleton] at h
          exact ⟨τ, by simp, h⟩
        · obtain ⟨τ', h1, h2⟩ := b σ h
          exact ⟨τ', by simp [h1], h2⟩
      · intro τ' h
        rcases List.mem_cons.1 h with rfl | h
        · simp
        · simpa using c τ' h

theorem lgcLoop_ofPerm (S : List (Equiv.Perm (Fin n))) (G : Subgroup (Equiv.Perm (Fin n)))
    (hG : ∀ σ ∈ S, σ ∈ G) : ∀ (m : Nat) (set fr : List (Equiv.Perm (Fin n))),
    2 * (Fintype.card (Equiv.Perm (Fin n)) - set.length) + fr.length ≤ m →
    set.Nodup → (∀ σ ∈ set, σ ∈ G) → (∀ σ ∈ fr, σ ∈ set) →
    (∀ σ ∈ set, σ ∉ fr → ∀ τ ∈ S, σ * τ ∈ set) →
    ∃ out : List (Equiv.Perm (Fin n)), (lgcLoop (S.map ofPerm) (set.map ofPerm)
        (fr.map ofPerm)).Returns (out.map ofPerm) ∧ out.Nodup ∧ (∀ σ ∈ out, σ ∈ G) ∧
      (∀ σ ∈ set, σ ∈ out) ∧ (∀ σ ∈ out, ∀ τ ∈ S, σ * τ ∈ out)
  | m, set, [], _, hnd, hin, _, hcl => by
    refine ⟨set, ?_, hnd, hin, fun _ h => h, fun σ h τ hτ => hcl σ h (by simp) τ hτ⟩
    rw [List.map_nil, lgcLoop]
    simp
  | 0, set, ρ :: fr, hm, _, _, _, _ => by simp at hm
  | m + 1, set, ρ :: fr, hm, hnd, hin, hfr, hcl => by
    obtain ⟨new, a, b, c, d⟩ := lgcExpand_ofPerm ρ S set fr hnd
    have hle : (set ++ new).length ≤ Fintype.card (Equiv.Perm (Fin n)) := a.length_le_card
    have hρ : ρ ∈ set := hfr ρ (by simp)
    obtain ⟨out, h1, h2, h3, h4, h5⟩ := lgcLoop_ofPerm S G hG m (set ++ new) (fr ++ new)
      (by simp only [List.length_append, List.length_cons] at hle hm ⊢; omega) a
      (by
        intro σ h
        rcases List.mem_append.1 h with h | h
        · exact hin σ h
        · obtain ⟨τ, hτ, rfl⟩ := b σ h
          exact G.mul_mem (hin ρ hρ) (hG τ hτ))
      (by
        intro σ h
        rcases List.mem_append.1 h with h | h
        · exact List.mem_append_left _ (hfr σ (by simp [h]))
        · exact List.mem_append_right _ h)
      (by
        intro σ h hnf τ hτ
        simp only [List.mem_append, not_or] at hnf
        rcases List.mem_append.1 h with h | h
        · by_cases hσ : σ = ρ
          · subst hσ; exact c τ hτ
          · exact List.mem_append_left _ (hcl σ h (by simp [hσ, hnf.1]) τ hτ)
        · exact absurd h hnf.2)
    refine ⟨out, ?_, h2, h3, fun σ h => h4 σ (List.mem_append_left _ h), h5⟩
    rw [List.map_cons, lgcLoop]
    simp only [d, Run.lift_eq, Run.ofRes_ok_bind]
    exact h1

theorem closure_le_of_closed {S out : List (Equiv.Perm (Fin n))} (hne : S ≠ [])
    (hS : ∀ σ ∈ S, σ ∈ out) (hcl : ∀ σ ∈ out, ∀ τ ∈ S, σ * τ ∈ out) :
    ∀ σ ∈ Subgroup.closure {τ | τ ∈ S}, σ ∈ out := by
  have hpow : ∀ σ ∈ out, ∀ τ ∈ S, ∀ k : Nat, σ * τ ^ k ∈ out := by
    intro σ hσ τ hτ k
    induction k with
    | zero => simpa using hσ
    | succ k ih =>
      rw [pow_succ, ← mul_assoc]
      exact hcl _ ih τ hτ
  obtain ⟨g, hg⟩ : ∃ g, g ∈ S := List.exists_mem_of_ne_nil S hne
  have hone : (1 : Equiv.Perm (Fin n)) ∈ out := by
    have h1 := hpow g (hS g hg) g hg (orderOf g - 1)
    rw [← pow_succ', Nat.sub_add_cancel (orderOf_pos g), pow_orderOf_eq_one] at h1
    exact h1
  intro σ hσ
  induction hσ using Subgroup.closure_induction_right with
  | one => exact hone
  | mul_right x hx y hy ih => exact hcl x ih y hy
  | mul_inv_cancel x hx y hy ih =>
    have : y⁻¹ = y ^ (orderOf y - 1) := by
      rw [inv_eq_iff_mul_eq_one, ← pow_succ', Nat.sub_add_cancel (orderOf_pos y),
        pow_orderOf_eq_one]
    rw [this]
    exact hpow x ih y hy _

theorem leastGroupContaining_ofPerm (hn : 0 < n) (S : List (Equiv.Perm (Fin n))) (hne : S ≠ []) :
    ∃ out : List (Equiv.Perm (Fin n)), (leastGroupContaining (S.map ofPerm)).Returns
        (.ok (out.map ofPerm)) ∧ out.Nodup ∧
      ∀ σ, σ ∈ out ↔ σ ∈ Subgroup.closure {τ | τ ∈ S} := by
  obtain ⟨set, a, b, c⟩ := lgcSeed_ofPerm hn S none [] (Or.inl rfl) (by simp)
  have hsub : ∀ σ ∈ S, σ ∈ Subgroup.closure {τ | τ ∈ S} :=
    fun σ h => Subgroup.subset_closure h
  obtain ⟨out, h1, h2, h3, h4, h5⟩ := lgcLoop_ofPerm S _ hsub _ set set (le_refl _) a
    (fun σ h => hsub σ (by simpa [b] using h)) (fun _ h => h) (fun σ h h' => absurd h h')
  refine ⟨out, ?_, h2, fun σ => ⟨h3 σ, closure_le_of_closed hne
    (fun σ h => h4 σ (by simp [b, h])) h5 σ⟩⟩
  simp only [List.map_nil] at c
  simp only [leastGroupContaining, c, Run.lift_eq, Run.ofRes_ok_bind]
  rw [Run.returns_bind h1]
  simp

theorem lgcSeed_mismatch (hn : 0 < n) (r : Row) (hr : r.Valid) (hne : r.bells.length ≠ n)
    (post : List Row) : ∀ (S : List (Equiv.Perm (Fin n))) (st : Option Stage) (set fr : List Row),
    (st = some ⟨n⟩ ∨ st = none ∧ S ≠ []) →
    lgcSeed (S.map ofPerm ++ r :: post) st set fr = .ok (.error ⟨⟨n⟩, ⟨r.bells.length⟩⟩)
  | [], st, set, fr, h => by
    have hs : (⟨n⟩ : Stage) ≠ ⟨r.bells.length⟩ := by simpa using Ne.symm hne
    rcases h with rfl | ⟨-, h⟩
    · simp [lgcSeed, hr.stage_eq, IncompatibleStages.testErrOpt, testErr_ne hs]
    · exact absurd rfl h
  | τ :: S, st, set, fr, h => by
    have h1 : IncompatibleStages.testErrOpt st ⟨n⟩ = .ok (some ⟨n⟩) := by
      rcases h with rfl | ⟨rfl, -⟩ <;> simp [IncompatibleStages.testErrOpt, testErr_self]
    simp only [List.map_cons, List.cons_append, lgcSeed, ofPerm_stage hn, Res.ok_bind, h1]
    split
    · exact lgcSeed_mismatch hn r hr hne post S (some ⟨n⟩) _ _ (Or.inl rfl)
    · exact lgcSeed_mismatch hn r hr hne post S (some ⟨n⟩) _ _ (Or.inl rfl)

/-! ## is_group -/

theorem isGroupStages_ofPerm (hn : 0 < n) : ∀ (S : List (Equiv.Perm (Fin n))) (st : Option Stage),
    (st = none ∨ st = some ⟨n⟩) → isGroupStages (S.map ofPerm) st = .ok (.ok ())
  | [], st, _ => rfl
  | τ :: S, st, h => by
    rcases h with rfl | rfl
    · simp only [List.map_cons, isGroupStages, ofPerm_stage hn, Res.ok_bind]
      exact isGroupStages_ofPerm hn S _ (Or.inr rfl)
    · simp only [List.map_cons, isGroupStages, ofPerm_stage hn, Res.ok_bind, testErr_self]
      exact isGroupStages_ofPerm hn S _ (Or.inr rfl)

theorem isGroupStages_mismatch (hn : 0 < n) (r : Row) (hr : r.Valid) (hne : r.bells.length ≠ n)
    (post : List Row) : ∀ (S : List (Equiv.Perm (Fin n))) (st : Option Stage),
    (st = some ⟨n⟩ ∨ st = none ∧ S ≠ []) →
    isGroupStages (S.map ofPerm ++ r :: post) st = .ok (.error ⟨⟨n⟩, ⟨r.bells.length⟩⟩)
  | [], st, h => by
    have hs : (⟨n⟩ : Stage) ≠ ⟨r.bells.length⟩ := by simpa using Ne.symm hne
    rcases h with rfl | ⟨-, h⟩
    · simp [isGroupStages, hr.stage_eq, testErr_ne hs]
    · exact absurd rfl h
  | τ :: S, st, h => by
    rcases h with rfl | ⟨rfl, -⟩
    · simp only [List.map_cons, List.cons_append, isGroupStages, ofPerm_stage hn, Res.ok_bind,
        testErr_self]
      exact isGroupStages_mismatch hn r hr hne post S _ (Or.inl rfl)
    · simp only [List.map_cons, List.cons_append, isGroupStages, ofPerm_stage hn, Res.ok_bind]
      exact isGroupStages_mismatch hn r hr hne post S _ (Or.inl rfl)

theorem isGroupInner_ofPerm (set : List (Equiv.Perm (Fin n))) (τ : Equiv.Perm (Fin n)) :
    ∀ (as : List (Equiv.Perm (Fin n))) (buf : Row), ∃ buf',
    isGroupInner (set.map ofPerm) (ofPerm τ) (as.map ofPerm) buf =
      .ok (decide (∀ a ∈ as, a * τ ∈ set), buf')
  | [], buf => ⟨buf, by simp [isGroupInner]⟩
  | a :: as, buf => by
    have hmem : ofPerm (a * τ) ∈ set.map ofPerm ↔ a * τ ∈ set := by
      rw [List.mem_map]
      constructor
      · rintro ⟨x, hx, he⟩; rw [ofPerm_inj] at he; exact he ▸ hx
      · intro h; exact ⟨_, h, rfl⟩
    simp only [List.map_cons, isGroupInner, mulIntoUnchecked_ofPerm, Res.ok_bind, hmem]
    by_cases h : a * τ ∈ set
    · obtain ⟨buf', h1⟩ := isGroupInner_ofPerm set τ as (ofPerm (a * τ))
      refine ⟨buf', ?_⟩
      rw [if_pos h, h1]
      simp [h]
    · exact ⟨ofPerm (a * τ), by rw [if_neg h]; simp [h]⟩

theorem isGroupOuter_ofPerm (hn : 0 < n) (set : List (Equiv.Perm (Fin n))) :
    ∀ (bs : List (Equiv.Perm (Fin n))) (bInv buf : Row), bInv.bells ≠ [] →
    isGroupOuter (set.map ofPerm) (bs.map ofPerm) bInv buf =
      .ok (decide (∀ b ∈ bs, ∀ a ∈ set, a * b⁻¹ ∈ set))
  | [], bInv, buf, _ => by simp [isGroupOuter]
  | b :: bs, bInv, buf, hb => by
    obtain ⟨buf', h1⟩ := isGroupInner_ofPerm set b⁻¹ set buf
    simp only [List.map_cons, isGroupOuter, invIntoBuf_ofPerm hn b bInv hb, Res.ok_bind, h1]
    have hne : (ofPerm b⁻¹).bells ≠ [] := by
      intro he
      have := congrArg List.length he
      simp at this; omega
    by_cases h : ∀ a ∈ set, a * b⁻¹ ∈ set
    · rw [if_pos (by simpa using h), isGroupOuter_ofPerm hn set bs _ _ hne]
      congr 2
      rw [List.forall_mem_cons]
      exact propext ⟨fun h' => ⟨h, h'⟩, fun h' => h'.2⟩
    · rw [if_neg (by simpa using h)]
      congr 1
      symm
      rw [decide_eq_false_iff_not, List.forall_mem_cons]
      exact fun h' => h h'.1

theorem isGroup_ofPerm (hn : 0 < n) (set : List (Equiv.Perm (Fin n))) (hne : set ≠ []) :
    isGroup (set.map ofPerm) = .ok (.ok (decide (∀ b ∈ set, ∀ a ∈ set, a * b⁻¹ ∈ set))) := by
  have h1 : (rounds Stage.one).bells ≠ [] := by decide
  simp only [isGroup, List.isEmpty_iff, List.map_eq_nil_iff, hne, if_false,
    isGroupStages_ofPerm hn set none (Or.inl rfl), Res.ok_bind,
    isGroupOuter_ofPerm hn set set _ _ h1, Res.pure_eq]

theorem subgroup_iff_closed (set : List (Equiv.Perm (Fin n))) (hne : set ≠ []) :
    (∀ b ∈ set, ∀ a ∈ set, a * b⁻¹ ∈ set) ↔
      ∃ H : Subgroup (Equiv.Perm (Fin n)), ∀ σ, σ ∈ set ↔ σ ∈ H := by
  constructor
  · intro h
    obtain ⟨g, hg⟩ := List.exists_mem_of_ne_nil set hne
    have hone : (1 : Equiv.Perm (Fin n)) ∈ set := by simpa using h g hg g hg
    have hinv : ∀ a ∈ set, a⁻¹ ∈ set := fun a ha => by simpa using h a ha 1 hone
    refine ⟨{ carrier := {σ | σ ∈ set}, one_mem' := hone, inv_mem' := fun {a} ha => hinv a ha,
              mul_mem' := fun {a b} ha hb => ?_ }, fun σ => Iff.rfl⟩
    simpa using h b⁻¹ (hinv b hb) a ha
  · rintro ⟨H, hH⟩ b hb a ha
    rw [hH] at *
    exact H.mul_mem ha (H.inv_mem hb)

/-! ## fast_hash -/

/-- The value of the digits `bells` in base `n`, least significant first. -/
def digitSum (n : Nat) : List Bell → Nat
  | [] => 0
  | b :: bs => b.index + n * digitSum n bs

theorem digitSum_lt {bells : List Bell} (h : ∀ b ∈ bells, b.index < n) :
    digitSum n bells < n ^ bells.length := by
  induction bells with
  | nil => simp [digitSum]
  | cons b bs ih =>
    have h1 := h b (by simp)
    have h2 := ih (fun c hc => h c (by simp [hc]))
    simp only [digitSum, List.length_cons, pow_succ]
    calc b.index + n * digitSum n bs < n + n * digitSum n bs := by omega
      _ = n * (digitSum n bs + 1) := by ring
      _ ≤ n * n ^ bs.length := Nat.mul_le_mul_left _ h2
      _ = n ^ bs.length * n := Nat.mul_comm _ _

theorem digitSum_inj : ∀ {as bs : List Bell}, as.length = bs.length →
    (∀ b ∈ as, b.index < n) → (∀ b ∈ bs, b.index < n) → digitSum n as = digitSum n bs → as = bs
  | [], [], _, _, _, _ => rfl
  | a :: as, b :: bs, hl, ha, hb, h => by
    have ha1 := ha a (by simp)
    have hb1 := hb b (by simp)
    simp only [digitSum] at h
    have h0 : a.index = b.index := by
      have := congrArg (· % n) h
      simpa [Nat.add_mul_mod_self_left, Nat.mod_eq_of_lt ha1, Nat.mod_eq_of_lt hb1] using this
    have hn : 0 < n := by omega
    have h1 : digitSum n as = digitSum n bs := by
      rw [h0] at h
      exact Nat.eq_of_mul_eq_mul_left hn (by omega)
    rw [digitSum_inj (by simpa using hl) (fun c hc => ha c (by simp [hc]))
      (fun c hc => hb c (by simp [hc])) h1]
    cases a; cases b; simp at h0; rw [h0]

theorem fastHashLoop_wrapping (w : Nat) : ∀ (bells : List Bell) (accum mult : Nat),
    ∃ v, fastHashLoop (.wrapping w) n bells accum mult = .ok v ∧
      v % 2 ^ w = (accum + mult * digitSum n bells) % 2 ^ w ∧ (bells ≠ [] → v < 2 ^ w) ∧
      (bells = [] → v = accum)
  | [], accum, mult => ⟨accum, by simp [fastHashLoop, digitSum]⟩
  | b :: bs, accum, mult => by
    obtain ⟨v, h1, h2, h3, h4⟩ := fastHashLoop_wrapping w bs
      ((accum + b.index * mult % 2 ^ w) % 2 ^ w) (mult * n % 2 ^ w)
    refine ⟨v, ?_, ?_, ?_, by simp⟩
    · simp only [fastHashLoop, Arith.wrapping, Res.ok_bind]
      exact h1
    · rw [h2, digitSum]
      have : accum + mult * (b.index + n * digitSum n bs) =
          (accum + b.index * mult) + (mult * n) * digitSum n bs := by ring
      rw [this]
      simp [Nat.add_mod, Nat.mul_mod]
    · intro _
      by_cases hbs : bs = []
      · rw [h4 hbs]; exact Nat.mod_lt _ (by positivity)
      · exact h3 hbs

theorem fastHashLoop_checked (w : Nat) (hn : 0 < n) : ∀ (bells : List Bell) (accum k : Nat),
    (∀ b ∈ bells, b.index < n) → accum < n ^ k → n ^ (k + bells.length) < 2 ^ w →
    fastHashLoop (.checked w) n bells accum (n ^ k) = .ok (accum + n ^ k * digitSum n bells)
  | [], accum, k, _, _, _ => by simp [fastHashLoop, digitSum]
  | b :: bs, accum, k, hb, ha, hw => by
    have hb1 := hb b (by simp)
    have hk1 : n ^ (k + 1) ≤ n ^ (k + (b :: bs).length) :=
      Nat.pow_le_pow_right hn (by simp)
    have hsum : accum + b.index * n ^ k < n ^ (k + 1) := by
      rw [pow_succ]
      calc accum + b.index * n ^ k < n ^ k + b.index * n ^ k := by omega
        _ = (b.index + 1) * n ^ k := by ring
        _ ≤ n * n ^ k := Nat.mul_le_mul_right _ hb1
        _ = n ^ k * n := Nat.mul_comm _ _
    have h1 : (Arith.checked w).mul b.index (n ^ k) = .ok (b.index * n ^ k) := by
      unfold Arith.checked; dsimp only; rw [if_pos (by omega)]
    have h2 : (Arith.checked w).add accum (b.index * n ^ k) = .ok (accum + b.index * n ^ k) := by
      unfold Arith.checked; dsimp only; rw [if_pos (by omega)]
    have h3 : (Arith.checked w).mul (n ^ k) n = .ok (n ^ (k + 1)) := by
      unfold Arith.checked; dsimp only; rw [← pow_succ, if_pos (by omega)]
    simp only [fastHashLoop, h1, h2, h3, Res.ok_bind]
    rw [fastHashLoop_checked w hn bs _ (k + 1) (fun c hc => hb c (by simp [hc])) hsum (by
      rw [show k + 1 + bs.length = k + (b :: bs).length by simp; omega]; exact hw)]
    congr 1
    simp only [digitSum]
    ring

theorem fastHashLoop_checked_overflow (w : Nat) : ∀ (bells : List Bell) (accum k : Nat),
    bells ≠ [] → 2 ^ w ≤ n ^ (k + bells.length) →
    fastHashLoop (.checked w) n bells accum (n ^ k) = .error .overflow
  | [], _, _, h, _ => absurd rfl h
  | b :: bs, accum, k, _, hw => by
    have hch : ∀ a b, (Arith.checked w).mul a b =
        if a * b < 2 ^ w then .ok (a * b) else .error .overflow := fun _ _ => rfl
    have hca : ∀ a b, (Arith.checked w).add a b =
        if a + b < 2 ^ w then .ok (a + b) else .error .overflow := fun _ _ => rfl
    rw [fastHashLoop, hch]
    split
    · simp only [Res.ok_bind]
      rw [hca]
      split
      · simp only [Res.ok_bind]
        rw [hch, ← pow_succ]
        split
        · simp only [Res.ok_bind]
          by_cases hbs : bs = []
          · subst hbs
            simp at hw
            omega
          · exact fastHashLoop_checked_overflow w bs _ (k + 1) hbs (by
              rw [show k + 1 + bs.length = k + (b :: bs).length by simp; omega]; exact hw)
        · rfl
      · rfl
    · rfl

end Row

end Bellframe
