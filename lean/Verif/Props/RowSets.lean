import Verif.Proofs.RowSets

/-! # C17–C20: sets of rows and hashing -/

namespace Bellframe.Props

/-! ## C17: cartesian products -/

/-- For sets of rows of one stage, `multi_cartesian_product` returns the product of every choice of
one factor from each set (`List.sections` lists the choices), once per choice. -/
theorem C17_products {n : Nat} (hn : 0 < n) (sets : List (List (Equiv.Perm (Fin n))))
    (hne : sets ≠ []) :
    Row.multiCartesianProduct (sets.map (·.map Row.ofPerm)) =
      .ok (.ok (sets.sections.map fun xs => Row.ofPerm xs.prod)) :=
  Row.mcp_sections hn sets hne

example := C17_products (n := 3) (by omega) [[1, Equiv.swap 0 1], [Equiv.swap 1 2]] (by simp)

/-- In terms of membership: a row is in the result iff it is a product `s₁ * … * sₖ` with `sᵢ ∈ Sᵢ`,
and the number of results is the product of the sizes of the sets. -/
theorem C17_products_mem {n : Nat} (hn : 0 < n) (sets : List (List (Equiv.Perm (Fin n))))
    (hne : sets ≠ []) :
    ∃ out, Row.multiCartesianProduct (sets.map (·.map Row.ofPerm)) = .ok (.ok out) ∧
      out.length = (sets.map List.length).prod ∧
      ∀ r, r ∈ out ↔ ∃ xs, List.Forall₂ (fun x s => x ∈ s) xs sets ∧ r = Row.ofPerm xs.prod := by
  refine ⟨_, Row.mcp_sections hn sets hne, ?_, ?_⟩
  · rw [List.length_map]
    clear hne
    induction sets with
    | nil => rfl
    | cons s sets ih => simp [List.sections, List.length_flatMap, ih, Nat.mul_comm]
  · intro r
    simp only [List.mem_map, List.mem_sections]
    constructor
    · rintro ⟨xs, h, rfl⟩; exact ⟨xs, h, rfl⟩
    · rintro ⟨xs, h, rfl⟩; exact ⟨xs, h, rfl⟩

example := C17_products_mem (n := 3) (by omega) [[1, Equiv.swap 0 1], [Equiv.swap 1 2]] (by simp)

/-- With no sets at all the result is empty (not `[rounds]`: there is no stage). -/
theorem C17_no_sets : Row.multiCartesianProduct [] = .ok (.ok []) := rfl

/-- Stage errors: never a panic, and an error exactly when the rows of the sets before the first
empty set do not all share one stage. The error then names the stage of the very first row and that of
the first row that differs from it. -/
theorem C17_stage_error (sets : List (List Row)) (hv : ∀ s ∈ sets, ∀ r ∈ s, r.Valid) :
    (∃ res, Row.multiCartesianProduct sets = .ok res) ∧
    ((∃ e, Row.multiCartesianProduct sets = .ok (.error e)) ↔
      ¬ ∃ n, ∀ s ∈ sets.takeWhile (fun s => s ≠ []), ∀ r ∈ s, r.bells.length = n) ∧
    (∀ e, Row.multiCartesianProduct sets = .ok (.error e) →
      ∃ first same r rest, (sets.takeWhile (fun s => s ≠ [])).flatten = first :: same ++ r :: rest ∧
        (∀ x ∈ same, x.bells.length = first.bells.length) ∧
        r.bells.length ≠ first.bells.length ∧
        e = ⟨⟨first.bells.length⟩, ⟨r.bells.length⟩⟩) := by
  by_cases hsame : ∃ n, ∀ s ∈ sets.takeWhile (fun s => s ≠ []), ∀ r ∈ s, r.bells.length = n
  · -- no error
    suffices h : ∃ out, Row.multiCartesianProduct sets = .ok (.ok out) by
      obtain ⟨out, h⟩ := h
      refine ⟨⟨_, h⟩, ?_, fun e he => by rw [h] at he; cases he⟩
      simp only [h, hsame, not_true, iff_false]
      rintro ⟨e, he⟩; cases he
    obtain ⟨n, hn⟩ := hsame
    cases sets with
    | nil => exact ⟨_, rfl⟩
    | cons s sets =>
      by_cases hs : s = []
      · subst hs
        exact ⟨[], by simp [Row.multiCartesianProduct, Row.mcpFirst, Row.mcpRest_nil]⟩
      · rw [List.takeWhile_cons_of_pos (by simpa using hs)] at hn
        have hnpos : 0 < n := by
          obtain ⟨r, hr⟩ := List.exists_mem_of_ne_nil s hs
          rw [← hn s (by simp) r hr]
          exact (hv s (by simp) r hr).length_pos
        obtain ⟨S, rfl⟩ := Row.exists_perms (n := n) (rows := s)
          (fun r hr => ⟨hv s (by simp) r hr, hn s (by simp) r hr⟩)
        obtain ⟨P, hP⟩ := Row.exists_perm_sets (n := n)
          (sets := sets.takeWhile (fun s => s ≠ [])) (fun s' hs' r hr =>
            ⟨hv s' (by simp [(List.takeWhile_sublist _).subset hs']) r hr, hn s' (List.mem_cons_of_mem _ hs') r hr⟩)
        have hS : S ≠ [] := by simpa using hs
        have hsplit := List.takeWhile_append_dropWhile (p := fun s : List Row => s ≠ []) (l := sets)
        rw [hP] at hsplit
        cases hd : sets.dropWhile (fun s => s ≠ []) with
        | nil =>
          rw [hd, List.append_nil] at hsplit
          rw [← hsplit]
          exact ⟨_, Row.mcp_ofPerm hnpos S P⟩
        | cons t rest =>
          have ht : t = [] := by
            have := List.head?_dropWhile_not (fun s : List Row => s ≠ []) sets
            rw [hd] at this
            simpa using this
          subst ht
          rw [hd] at hsplit
          rw [← hsplit]
          refine ⟨[], ?_⟩
          simp only [Row.multiCartesianProduct, Row.mcpFirst_ofPerm hnpos S none [] (Or.inl rfl),
            Res.ok_bind, List.nil_append, List.isEmpty_iff, hS, if_false]
          exact Row.mcpRest_empty_set hnpos rest P S hS
  · suffices h : ∃ e, Row.multiCartesianProduct sets = .ok (.error e) ∧
        ∃ first same r rest, (sets.takeWhile (fun s => s ≠ [])).flatten = first :: same ++ r :: rest ∧
          (∀ x ∈ same, x.bells.length = first.bells.length) ∧
          r.bells.length ≠ first.bells.length ∧
          e = ⟨⟨first.bells.length⟩, ⟨r.bells.length⟩⟩ by
      obtain ⟨e, he, h⟩ := h
      refine ⟨⟨_, he⟩, by simp only [hsame, not_false_eq_true, iff_true]; exact ⟨e, he⟩, ?_⟩
      intro e' he'
      rw [he] at he'
      cases he'
      exact h
    cases sets with
    | nil => exact absurd ⟨0, by simp⟩ hsame
    | cons s sets =>
      by_cases hs : s = []
      · subst hs
        exact absurd ⟨0, by simp⟩ hsame
      · rw [List.takeWhile_cons_of_pos (by simpa using hs)] at hsame
        obtain ⟨r0, tl, rfl⟩ := List.exists_cons_of_ne_nil hs
        have hr0 := hv _ (List.mem_cons_self ..) r0 (by simp)
        obtain ⟨n, hn, σ, rfl⟩ := Row.valid_iff_exists_perm.1 hr0
        have hbad : ¬ ∀ s ∈ (Row.ofPerm σ :: tl) :: sets.takeWhile (fun s => s ≠ []),
            ∀ r ∈ s, r.bells.length = n := fun h => hsame ⟨n, h⟩
        by_cases htl : ∀ r ∈ tl, r.bells.length = n
        · obtain ⟨T0, rfl⟩ := Row.exists_perms (n := n) (rows := tl)
            (fun r hr => ⟨hv _ (List.mem_cons_self ..) r (by simp [hr]), htl r hr⟩)
          obtain ⟨pre, T, r, post, rest, heq, h1, h2⟩ := Row.split_first_bad_set (n := n)
            (sets := sets.takeWhile (fun s => s ≠ []))
            (fun s hs => hv s (by simp [(List.takeWhile_sublist _).subset hs]))
            (by
              intro hall
              apply hbad
              intro s hs
              rcases List.mem_cons.1 hs with rfl | hs
              · intro r hr
                rcases List.mem_cons.1 hr with rfl | hr
                · simp
                · exact htl r hr
              · exact hall s hs)
          have hpre : ∀ S ∈ pre, S ≠ [] := by
            intro S hS hnil
            have : S.map Row.ofPerm ∈ sets.takeWhile (fun s => s ≠ []) := by
              rw [heq]
              exact List.mem_append_left _ (List.mem_map.2 ⟨S, hS, rfl⟩)
            have := List.all_eq_true.1 (List.all_takeWhile (p := fun s : List Row => s ≠ [])
              (l := sets)) _ this
            simp [hnil] at this
          have hsplit := List.takeWhile_append_dropWhile (p := fun s : List Row => s ≠ [])
            (l := sets)
          rw [heq, List.append_assoc, List.cons_append] at hsplit
          refine ⟨⟨⟨n⟩, ⟨r.bells.length⟩⟩, ?_, Row.ofPerm σ,
            T0.map Row.ofPerm ++ (pre.map (·.map Row.ofPerm)).flatten ++ T.map Row.ofPerm, r,
            post ++ rest.flatten, ?_, ?_, by simpa using h2, by simp⟩
          swap
          · rw [List.takeWhile_cons_of_pos (by simp), heq]
            simp
          swap
          · intro x hx
            simp only [List.mem_append, List.mem_map, List.mem_flatten] at hx
            rcases hx with (⟨_, _, rfl⟩ | ⟨_, ⟨_, _, rfl⟩, hx⟩) | ⟨_, _, rfl⟩
            · simp
            · obtain ⟨_, _, rfl⟩ := List.mem_map.1 hx
              simp
            · simp
          rw [← hsplit]
          have hf := Row.mcpFirst_ofPerm hn (σ :: T0) none [] (Or.inl rfl)
          simp only [List.map_cons] at hf
          simp only [Row.multiCartesianProduct, hf, Res.ok_bind, List.nil_append, List.isEmpty_cons,
            Bool.false_eq_true, if_false]
          exact Row.mcpRest_mismatch hn r h1 h2 T post _ pre (σ :: T0) (by simp) hpre
        · obtain ⟨pre, r, post, rfl, h1, h2⟩ := Row.split_first_mismatch htl
          obtain ⟨T0, rfl⟩ := Row.exists_perms (n := n) (rows := pre)
            (fun r hr => ⟨hv _ (List.mem_cons_self ..) r (by simp [hr]), h1 r hr⟩)
          have := Row.mcpFirst_mismatch hn r (hv _ (List.mem_cons_self ..) r (by simp)) h2 post
            (σ :: T0) none [] (Or.inr ⟨rfl, by simp⟩)
          simp only [List.map_cons, List.cons_append] at this
          refine ⟨⟨⟨n⟩, ⟨r.bells.length⟩⟩, by simp only [Row.multiCartesianProduct, this]; rfl,
            Row.ofPerm σ, T0.map Row.ofPerm, r,
            post ++ (sets.takeWhile (fun s => s ≠ [])).flatten, ?_, ?_, by simpa using h2, by simp⟩
          · rw [List.takeWhile_cons_of_pos (by simp)]
            simp
          · intro x hx
            obtain ⟨_, _, rfl⟩ := List.mem_map.1 hx
            simp

/-- Two sets with rows of four and of two bells. -/
example := C17_stage_error [[⟨[⟨1⟩, ⟨2⟩, ⟨0⟩, ⟨3⟩]⟩, ⟨[⟨0⟩, ⟨2⟩, ⟨1⟩, ⟨3⟩]⟩], [⟨[⟨1⟩, ⟨0⟩]⟩]] (by decide)

/-- So the plain claim "an error iff the rows do not all share a stage" is false: after an empty set
nothing is checked. Witness: `{12}, {}, {123}` gives the empty product rather than an error. -/
theorem C17_all_rows_checked_false :
    ¬ ∀ sets : List (List Row), (∀ s ∈ sets, ∀ r ∈ s, r.Valid) →
      (¬ ∃ n, ∀ s ∈ sets, ∀ r ∈ s, r.bells.length = n) →
      ∃ e, Row.multiCartesianProduct sets = .ok (.error e) := by
  intro h
  obtain ⟨e, he⟩ := h [[⟨[⟨0⟩, ⟨1⟩]⟩], [], [⟨[⟨0⟩, ⟨1⟩, ⟨2⟩]⟩]] (by decide) (by
    rintro ⟨n, hn⟩
    have h1 := hn [⟨[⟨0⟩, ⟨1⟩]⟩] (by simp) _ (List.mem_singleton.2 rfl)
    have h2 := hn [⟨[⟨0⟩, ⟨1⟩, ⟨2⟩]⟩] (by simp) _ (List.mem_singleton.2 rfl)
    simp at h1 h2
    omega)
  have : Row.multiCartesianProduct [[⟨[⟨0⟩, ⟨1⟩]⟩], [], [⟨[⟨0⟩, ⟨1⟩, ⟨2⟩]⟩]] = .ok (.ok []) := by
    decide
  rw [this] at he
  cases he

example : Row.multiCartesianProduct [[⟨[⟨0⟩, ⟨1⟩, ⟨2⟩]⟩, ⟨[⟨1⟩, ⟨0⟩, ⟨2⟩]⟩], [⟨[⟨1⟩, ⟨2⟩, ⟨0⟩]⟩]] =
    .ok (.ok [⟨[⟨1⟩, ⟨2⟩, ⟨0⟩]⟩, ⟨[⟨0⟩, ⟨2⟩, ⟨1⟩]⟩]) := by decide

/-! ## C18: least group -/

/-- `least_group_containing` terminates, and for rows of one stage returns exactly the subgroup they
generate (each element once). -/
theorem C18_least_group {n : Nat} (hn : 0 < n) (gens : List (Equiv.Perm (Fin n)))
    (hne : gens ≠ []) :
    ∃ out, (Row.leastGroupContaining (gens.map Row.ofPerm)).Returns (.ok out) ∧ out.Nodup ∧
      (∀ r, r ∈ out ↔ ∃ σ ∈ Subgroup.closure {g | g ∈ gens}, r = Row.ofPerm σ) := by
  obtain ⟨out, h1, h2, h3⟩ := Row.leastGroupContaining_ofPerm hn gens hne
  refine ⟨_, h1, h2.map Row.ofPerm_injective, ?_⟩
  intro r
  rw [List.mem_map]
  constructor
  · rintro ⟨σ, hσ, rfl⟩; exact ⟨σ, (h3 σ).1 hσ, rfl⟩
  · rintro ⟨σ, hσ, rfl⟩; exact ⟨σ, (h3 σ).2 hσ, rfl⟩

example := C18_least_group (n := 4) (by omega) [Equiv.swap 0 1, Equiv.swap 1 2 * Equiv.swap 2 3] (by simp)

/-- With valid rows of several stages it returns the error for the first row whose stage differs from
the first row's. -/
theorem C18_mixed_stages (rows : List Row) (hv : ∀ r ∈ rows, r.Valid)
    (hmix : ¬ ∃ n, ∀ r ∈ rows, r.bells.length = n) :
    ∃ r0 tl pre r post, rows = r0 :: tl ∧ rows = pre ++ r :: post ∧
      (∀ r' ∈ pre, r'.bells.length = r0.bells.length) ∧ r.bells.length ≠ r0.bells.length ∧
      (Row.leastGroupContaining rows).Returns
        (.error ⟨⟨r0.bells.length⟩, ⟨r.bells.length⟩⟩) := by
  cases rows with
  | nil => exact absurd ⟨0, by simp⟩ hmix
  | cons r0 tl =>
    obtain ⟨n, hn, σ, rfl⟩ := Row.valid_iff_exists_perm.1 (hv r0 (by simp))
    obtain ⟨pre, r, post, heq, h1, h2⟩ := Row.split_first_mismatch (n := n)
      (fun h => hmix ⟨n, h⟩)
    obtain ⟨T, hT⟩ := Row.exists_perms (n := n) (rows := pre)
      (fun r' hr' => ⟨hv r' (by rw [heq]; simp [hr']), h1 r' hr'⟩)
    have hTne : T ≠ [] := by
      rintro rfl
      rw [hT] at heq
      simp only [List.map_nil, List.nil_append, List.cons.injEq] at heq
      rw [← heq.1] at h2
      simp at h2
    refine ⟨_, tl, pre, r, post, rfl, heq, by simpa using h1, by simpa using h2, ?_⟩
    have := Row.lgcSeed_mismatch hn r (hv r (by rw [heq]; simp)) h2 post T none [] []
      (Or.inr ⟨rfl, hTne⟩)
    rw [← hT] at this
    simp [Row.leastGroupContaining, heq, this]

example := C18_mixed_stages [⟨[⟨1⟩, ⟨2⟩, ⟨0⟩, ⟨3⟩]⟩, ⟨[⟨1⟩, ⟨0⟩]⟩] (by decide) (by
  rintro ⟨n, h⟩
  simp at h
  omega)

/-- Of the empty set, it returns the empty set (no stage is known), which is not a group. -/
theorem C18_empty : (Row.leastGroupContaining []).Returns (.ok []) := by
  simp only [Row.leastGroupContaining, Row.lgcSeed, Run.lift_eq, Run.ofRes_ok_bind]
  rw [Row.lgcLoop]
  simp

example : (2 : Nat) > 0 ∧ [Equiv.swap (0 : Fin 2) 1] ≠ [] := by simp

/-! ## C19: group test -/

/-- `is_group` is true exactly when the set of rows is (the set of rows of) a group of permutations.
`set` lists the distinct rows in whatever order the hash set yields them. -/
theorem C19_is_group {n : Nat} (hn : 0 < n) (set : List (Equiv.Perm (Fin n))) (hne : set ≠ []) :
    ∃ b, Row.isGroup (set.map Row.ofPerm) = .ok (.ok b) ∧
      (b = true ↔ ∃ H : Subgroup (Equiv.Perm (Fin n)), ∀ σ, σ ∈ set ↔ σ ∈ H) := by
  refine ⟨_, Row.isGroup_ofPerm hn set hne, ?_⟩
  rw [decide_eq_true_iff]
  exact Row.subgroup_iff_closed set hne

example := C19_is_group (n := 3) (by omega) [1, Equiv.swap 0 1] (by simp)

/-- The same, intrinsically: rounds is in the set and the set is closed under products and
inverses. -/
theorem C19_is_group_intrinsic (set : List Row) (n : Nat) (hne : set ≠ [])
    (hv : ∀ r ∈ set, r.Valid ∧ r.bells.length = n) :
    ∃ b, Row.isGroup set = .ok (.ok b) ∧
      (b = true ↔ Row.rounds ⟨n⟩ ∈ set ∧ (∀ a ∈ set, ∀ c ∈ set, ∃ p ∈ set, a.mul c = .ok p) ∧
        (∀ a ∈ set, ∃ p ∈ set, a.inv = .ok p)) := by
  have hn : 0 < n := by
    obtain ⟨r, hr⟩ := List.exists_mem_of_ne_nil set hne
    rw [← (hv r hr).2]
    exact (hv r hr).1.length_pos
  obtain ⟨S, rfl⟩ := Row.exists_perms hv
  have hS : S ≠ [] := by simpa using hne
  obtain ⟨b, h1, h2⟩ := C19_is_group hn S hS
  refine ⟨b, h1, h2.trans ?_⟩
  have hmem : ∀ σ, Row.ofPerm σ ∈ S.map Row.ofPerm ↔ σ ∈ S := by
    intro σ
    rw [List.mem_map]
    constructor
    · rintro ⟨x, hx, he⟩; rw [Row.ofPerm_inj] at he; exact he ▸ hx
    · intro h; exact ⟨σ, h, rfl⟩
  rw [Row.rounds_eq_ofPerm, hmem]
  constructor
  · rintro ⟨H, hH⟩
    refine ⟨(hH 1).2 H.one_mem, ?_, ?_⟩
    · intro a ha c hc
      obtain ⟨σ, hσ, rfl⟩ := List.mem_map.1 ha
      obtain ⟨τ, hτ, rfl⟩ := List.mem_map.1 hc
      exact ⟨_, (hmem (σ * τ)).2 ((hH _).2 (H.mul_mem ((hH _).1 hσ) ((hH _).1 hτ))),
        Row.mul_ofPerm hn σ τ⟩
    · intro a ha
      obtain ⟨σ, hσ, rfl⟩ := List.mem_map.1 ha
      exact ⟨_, (hmem σ⁻¹).2 ((hH _).2 (H.inv_mem ((hH _).1 hσ))), Row.inv_ofPerm hn σ⟩
  · rintro ⟨hone, hmul, hinv⟩
    refine ⟨{ carrier := {σ | σ ∈ S}, one_mem' := hone, inv_mem' := ?_, mul_mem' := ?_ },
      fun _ => Iff.rfl⟩
    · intro σ τ hσ hτ
      obtain ⟨p, hp, he⟩ := hmul _ ((hmem σ).2 hσ) _ ((hmem τ).2 hτ)
      rw [Row.mul_ofPerm hn] at he
      cases he
      exact (hmem _).1 hp
    · intro σ hσ
      obtain ⟨p, hp, he⟩ := hinv _ ((hmem σ).2 hσ)
      rw [Row.inv_ofPerm hn] at he
      cases he
      exact (hmem _).1 hp

example := C19_is_group_intrinsic [⟨[⟨1⟩, ⟨2⟩, ⟨0⟩, ⟨3⟩]⟩, ⟨[⟨0⟩, ⟨2⟩, ⟨1⟩, ⟨3⟩]⟩] 4 (by simp) (by decide)

/-- The empty set is not a group; a set of mixed stages is reported as an error, whichever order the
hash set iterates in. -/
theorem C19_degenerate :
    Row.isGroup [] = .ok (.ok false) ∧
    ∀ set : List Row, (∀ r ∈ set, r.Valid) → (¬ ∃ n, ∀ r ∈ set, r.bells.length = n) →
      ∃ r1 ∈ set, ∃ r2 ∈ set, r1.bells.length ≠ r2.bells.length ∧
        Row.isGroup set = .ok (.error ⟨⟨r1.bells.length⟩, ⟨r2.bells.length⟩⟩) := by
  refine ⟨rfl, ?_⟩
  intro set hv hmix
  cases set with
  | nil => exact absurd ⟨0, by simp⟩ hmix
  | cons r0 tl =>
    obtain ⟨n, hn, σ, rfl⟩ := Row.valid_iff_exists_perm.1 (hv r0 (by simp))
    obtain ⟨pre, r, post, heq, h1, h2⟩ := Row.split_first_mismatch (n := n)
      (fun h => hmix ⟨n, h⟩)
    obtain ⟨T, hT⟩ := Row.exists_perms (n := n) (rows := pre)
      (fun r' hr' => ⟨hv r' (by rw [heq]; simp [hr']), h1 r' hr'⟩)
    have hTne : T ≠ [] := by
      rintro rfl
      rw [hT] at heq
      simp only [List.map_nil, List.nil_append, List.cons.injEq] at heq
      rw [← heq.1] at h2
      simp at h2
    refine ⟨Row.ofPerm σ, by simp, r, by rw [heq]; simp, by simpa using Ne.symm h2, ?_⟩
    have := Row.isGroupStages_mismatch hn r (hv r (by rw [heq]; simp)) h2 post T none
      (Or.inr ⟨rfl, hTne⟩)
    rw [← hT, ← heq] at this
    simp only [Row.isGroup, this]
    simp

example : Row.isGroup [⟨[⟨0⟩, ⟨1⟩, ⟨2⟩]⟩, ⟨[⟨1⟩, ⟨2⟩, ⟨0⟩]⟩, ⟨[⟨2⟩, ⟨0⟩, ⟨1⟩]⟩] = .ok (.ok true) ∧
    Row.isGroup [⟨[⟨0⟩, ⟨1⟩, ⟨2⟩]⟩, ⟨[⟨1⟩, ⟨2⟩, ⟨0⟩]⟩] = .ok (.ok false) := by decide

/-! ## C20: fast_hash -/

/-- In a release build (wrapping arithmetic on `w`-bit words) `fast_hash` never panics and separates
different rows of the same stage `n` as long as `n ^ n ≤ 2 ^ w`. -/
theorem C20_wrapping_injective (w : Nat) (a b : Row) (ha : a.Valid) (hb : b.Valid)
    (hlen : a.bells.length = b.bells.length)
    (hw : a.bells.length ^ a.bells.length ≤ 2 ^ w) :
    ∃ x y, Row.fastHash (.wrapping w) a = .ok x ∧ Row.fastHash (.wrapping w) b = .ok y ∧
      (x = y ↔ a = b) := by
  have key : ∀ r : Row, r.Valid → r.bells.length ^ r.bells.length ≤ 2 ^ w →
      Row.fastHash (.wrapping w) r = .ok (Row.digitSum r.bells.length r.bells) := by
    intro r hr hw
    obtain ⟨v, h1, h2, h3, -⟩ := Row.fastHashLoop_wrapping (n := r.bells.length) w r.bells 0 1
    have hlt := Row.digitSum_lt (n := r.bells.length) (bells := r.bells)
      (fun b hb => (hr.mem_iff b).1 hb)
    rw [Nat.zero_add, Nat.one_mul, Nat.mod_eq_of_lt (h3 hr.1),
      Nat.mod_eq_of_lt (by omega)] at h2
    simp [Row.fastHash, hr.1, hr.stage_eq, h1, h2]
  refine ⟨_, _, key a ha hw, key b hb (hlen ▸ hw), ?_⟩
  constructor
  · intro h
    rw [← hlen] at h
    ext1
    exact Row.digitSum_inj hlen (fun c hc => (ha.mem_iff c).1 hc)
      (fun c hc => hlen ▸ (hb.mem_iff c).1 hc) h
  · rintro rfl; rfl

example := C20_wrapping_injective 16 ⟨[⟨1⟩, ⟨2⟩, ⟨0⟩, ⟨3⟩]⟩ ⟨[⟨0⟩, ⟨2⟩, ⟨1⟩, ⟨3⟩]⟩ (by decide) (by decide) rfl (by decide)

/-- The documented limits: stage 16 on 64-bit, 9 on 32-bit and 6 on 16-bit machines. -/
theorem C20_documented_limits (w limit : Nat)
    (hw : (w, limit) ∈ [(64, 16), (32, 9), (16, 6)]) (a b : Row) (ha : a.Valid) (hb : b.Valid)
    (hlen : a.bells.length = b.bells.length) (hlim : a.bells.length ≤ limit) :
    ∃ x y, Row.fastHash (.wrapping w) a = .ok x ∧ Row.fastHash (.wrapping w) b = .ok y ∧
      (x = y ↔ a = b) := by
  apply C20_wrapping_injective w a b ha hb hlen
  have hpos := ha.length_pos
  calc a.bells.length ^ a.bells.length ≤ limit ^ limit := by
        apply le_trans (Nat.pow_le_pow_left hlim _) (Nat.pow_le_pow_right (by omega) hlim)
    _ ≤ 2 ^ w := by
        simp only [List.mem_cons, Prod.mk.injEq, List.not_mem_nil, or_false] at hw
        rcases hw with ⟨rfl, rfl⟩ | ⟨rfl, rfl⟩ | ⟨rfl, rfl⟩ <;> decide

example := C20_documented_limits 32 9 (by decide) ⟨[⟨1⟩, ⟨2⟩, ⟨0⟩, ⟨3⟩]⟩ ⟨[⟨0⟩, ⟨2⟩, ⟨1⟩, ⟨3⟩]⟩ (by decide) (by decide) rfl (by decide)

/-- In a debug build (overflow checks) `fast_hash` returns the same value when `n ^ n < 2 ^ w` and
panics otherwise — so also for every row of stage 16 on a 64-bit machine, although no two rows
collide there. -/
theorem C20_checked (w : Nat) (r : Row) (h : r.Valid) :
    (r.bells.length ^ r.bells.length < 2 ^ w →
      ∃ x, Row.fastHash (.checked w) r = .ok x ∧ Row.fastHash (.wrapping w) r = .ok x) ∧
    (2 ^ w ≤ r.bells.length ^ r.bells.length → Row.fastHash (.checked w) r = .error .overflow) ∧
    (r.bells.length = 16 → Row.fastHash (.checked 64) r = .error .overflow) := by
  have hover : ∀ w, 2 ^ w ≤ r.bells.length ^ r.bells.length →
      Row.fastHash (.checked w) r = .error .overflow := by
    intro w hw
    have := Row.fastHashLoop_checked_overflow (n := r.bells.length) w r.bells 0 0 h.1
      (by simpa using hw)
    rw [pow_zero] at this
    simp [Row.fastHash, h.1, h.stage_eq, this]
  refine ⟨?_, hover w, ?_⟩
  · intro hw
    obtain ⟨v, h1, h2, h3, -⟩ := Row.fastHashLoop_wrapping (n := r.bells.length) w r.bells 0 1
    have hlt := Row.digitSum_lt (n := r.bells.length) (bells := r.bells)
      (fun b hb => (h.mem_iff b).1 hb)
    rw [Nat.zero_add, Nat.one_mul, Nat.mod_eq_of_lt (h3 h.1),
      Nat.mod_eq_of_lt (by omega)] at h2
    have hc := Row.fastHashLoop_checked (n := r.bells.length) w h.length_pos r.bells 0 0
      (fun b hb => (h.mem_iff b).1 hb) (by simp) (by simpa using hw)
    rw [pow_zero, Nat.zero_add, Nat.one_mul] at hc
    exact ⟨_, by simp [Row.fastHash, h.1, h.stage_eq, hc]; rfl,
      by simp [Row.fastHash, h.1, h.stage_eq, h1, h2]⟩
  · intro h16
    apply hover
    rw [h16]
    decide

theorem digitSum_eq (n : Nat) : ∀ (bells : List Bell) (k : Nat),
    ((bells.zipIdx k).map fun x => x.1.index * n ^ x.2).sum = n ^ k * Row.digitSum n bells
  | [], k => by simp [Row.digitSum]
  | b :: bs, k => by
    rw [List.zipIdx_cons, List.map_cons, List.sum_cons, digitSum_eq n bs (k + 1), Row.digitSum, pow_succ]
    ring

/-- The hash is the number that has the bells as its digits to the base of the stage, the first bell last, reduced to the
width of the machine word.  This holds for any bells, valid row or not. -/
theorem C20_value (w : Nat) (r : Row) : Row.fastHash (.wrapping w) r =
    .ok ((r.bells.zipIdx.map fun x => x.1.index * r.bells.length ^ x.2).sum % 2 ^ w) := by
  rw [digitSum_eq, pow_zero, Nat.one_mul]
  by_cases h0 : r.bells = []
  · simp [Row.fastHash, h0, Row.digitSum]
  · obtain ⟨v, h1, h2, h3, -⟩ := Row.fastHashLoop_wrapping (n := r.bells.length) w r.bells 0 1
    rw [Nat.zero_add, Nat.one_mul, Nat.mod_eq_of_lt (h3 h0)] at h2
    simp [Row.fastHash, h0, Row.stage_of_ne h0, h1, h2]

/-- 21345 and 12345 meet the hypotheses on 64-bit machines. -/
example : Row.fastHash (.wrapping 64) ⟨[⟨1⟩, ⟨0⟩, ⟨2⟩, ⟨3⟩, ⟨4⟩]⟩ = .ok 2926 ∧
    Row.Valid ⟨[⟨1⟩, ⟨0⟩, ⟨2⟩, ⟨3⟩, ⟨4⟩]⟩ ∧ 5 ^ 5 < 2 ^ 64 := by decide

end Bellframe.Props
