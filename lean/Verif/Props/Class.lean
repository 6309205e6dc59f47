import Verif.Proofs.Class
import Verif.Proofs.ClassRun
import Verif.Props.PnBlock
import Mathlib.Tactic.FinCases

/-!
# C50, C51: the classification of methods

The first lead is given by its rows `lead`, starting from rounds, and the lead head `τ`.
-/

namespace Bellframe.Props

open Equiv

variable {n : Nat} {A : Type}

/-! ## C50: cycles -/

/-- The cycles found for a lead: every bell is in exactly one of them, exactly once; two bells are in
the same cycle if and only if some number of leads takes one to the place of the other; every next
bell of a cycle is the bell whose lead is rung next; the path of the cycle is the path of its first
bell, over as many leads as there are bells. The hunt cycles are those of a single bell, which is
in its own place at the lead head. -/
theorem C50_cycles (hn : 0 < n) (lead : List (Perm (Fin n))) (τ : Perm (Fin n)) (annots : List A)
    (h0 : lead.head? = some 1) (hlen : lead.length = annots.length) :
    ∃ cycles, (Cycle.cyclesFromLead (.ofPerms lead τ annots)).Returns cycles ∧
      (∀ b : Fin n, ∃! c, c ∈ cycles ∧ (⟨b.val⟩ : Bell) ∈ c.placeBells) ∧
      (cycles.map Cycle.placeBells).flatten.Nodup ∧
      (∀ c ∈ cycles, ∀ a ∈ c.placeBells, a.index < n) ∧
      (∀ c ∈ cycles, ∀ a b : Fin n, (⟨a.val⟩ : Bell) ∈ c.placeBells →
        ((⟨b.val⟩ : Bell) ∈ c.placeBells ↔ τ.SameCycle a b)) ∧
      (∀ c ∈ cycles, ∃ s : Fin n, c.placeBells.head? = some ⟨s.val⟩ ∧
        c.numLeads = Function.minimalPeriod τ s ∧
        (∀ j < c.numLeads, c.placeBells[j]? = some ⟨((τ ^ j)⁻¹ s).val⟩) ∧
        c.fullPath.length = c.numLeads * lead.length ∧
        (∀ t < c.fullPath.length, c.fullPath[t]? = some (placeOfBell lead τ s t).val) ∧
        (c.isHunt = true ↔ IsHuntBell τ s)) := by
  have hne : lead ≠ [] := by rintro rfl; simp at h0
  obtain ⟨starts, h1, h2, h3⟩ := cyclesFromLead_returns hn lead τ annots h0 hlen
  have hmem : ∀ (s b : Fin n), (⟨b.val⟩ : Bell) ∈ (cycleFrom lead τ s).placeBells ↔ τ.SameCycle s b := by
    intro s b
    rw [← Equiv.Perm.sameCycle_inv, sameCycle_iff, minimalPeriod_inv]
    simp only [cycleFrom, List.mem_map, List.mem_range, Bell.mk.injEq, Fin.val_inj]
  refine ⟨_, h1, ?_, ?_, ?_, ?_, ?_⟩
  · intro b
    obtain ⟨s, hs, hsb⟩ := h2 b
    refine ⟨cycleFrom lead τ s, ⟨List.mem_map.2 ⟨s, hs, rfl⟩, (hmem s b).2 hsb⟩, ?_⟩
    rintro c ⟨hc, hcb⟩
    obtain ⟨s', hs', rfl⟩ := List.mem_map.1 hc
    by_cases h : s' = s
    · rw [h]
    · have hss := ((hmem s' b).1 hcb).trans hsb.symm
      exfalso
      have h3' : ∀ a ∈ starts, ∀ b ∈ starts, a ≠ b → ¬ τ.SameCycle a b := by
        intro a ha b hb hab
        haveI : Std.Symm fun a b => ¬ τ.SameCycle a b := ⟨fun x y hxy h => hxy h.symm⟩
        exact h3.forall ha hb hab
      exact h3' s' hs' s hs h hss
  · rw [List.map_map, List.nodup_flatten]
    constructor
    · intro l hl
      obtain ⟨s, -, rfl⟩ := List.mem_map.1 hl
      simp only [Function.comp_apply, cycleFrom]
      refine List.Nodup.map_on ?_ List.nodup_range
      intro i hi j hj hij
      rw [List.mem_range] at hi hj
      have hij' : ((τ⁻¹ : Perm (Fin n)) ^ i) s = ((τ⁻¹ : Perm (Fin n)) ^ j) s := Fin.ext (by simpa using hij)
      rw [← perm_iterate, ← perm_iterate] at hij'
      rw [← minimalPeriod_inv] at hi hj
      exact Function.iterate_injOn_Iio_minimalPeriod hi hj hij'
    · rw [List.pairwise_map]
      refine h3.imp ?_
      intro a b hab x hxa hxb
      simp only [Function.comp_apply] at hxa hxb
      have hx : ∃ y : Fin n, x = ⟨y.val⟩ := by
        simp only [cycleFrom, List.mem_map, List.mem_range] at hxa
        obtain ⟨j, -, rfl⟩ := hxa
        exact ⟨_, rfl⟩
      obtain ⟨y, rfl⟩ := hx
      exact hab (((hmem a y).1 hxa).trans ((hmem b y).1 hxb).symm)
  · intro c hc a ha
    obtain ⟨s, -, rfl⟩ := List.mem_map.1 hc
    simp only [cycleFrom, List.mem_map, List.mem_range] at ha
    obtain ⟨j, -, rfl⟩ := ha
    exact Fin.isLt _
  · intro c hc a b ha
    obtain ⟨s, -, rfl⟩ := List.mem_map.1 hc
    rw [hmem] at ha ⊢
    exact ⟨fun h => ha.symm.trans h, fun h => ha.trans h⟩
  · intro c hc
    obtain ⟨s, -, rfl⟩ := List.mem_map.1 hc
    have hp := minimalPeriod_pos τ s
    refine ⟨s, ?_, by simp [Cycle.numLeads, cycleFrom], ?_, by simp [Cycle.numLeads, cycleFrom], ?_, ?_⟩
    · obtain ⟨k, hk⟩ : ∃ k, Function.minimalPeriod τ s = k + 1 := ⟨Function.minimalPeriod τ s - 1, by omega⟩
      simp [cycleFrom, hk, List.range_succ_eq_map]
      rfl
    · intro j hj
      simp only [Cycle.numLeads, cycleFrom, List.length_map, List.length_range] at hj
      simp only [cycleFrom]
      rw [List.getElem?_map, List.getElem?_range hj, Option.map_some, inv_pow]
    · intro t ht
      simp only [cycleFrom, List.length_map, List.length_range] at ht
      simp only [cycleFrom]
      rw [List.getElem?_map, List.getElem?_range ht, Option.map_some]
    · rw [isHuntBell_iff, Cycle.isHunt, cycleFrom]
      simp

example := C50_cycles (A := Unit) (n := 4) (by decide) [1, swap 0 1 * swap 2 3] (swap 1 3) [(), ()] rfl rfl

/-! ## C51: the decisions -/

/-- The classification of a lead that starts from rounds, in which no bell jumps where a principal
hunt bell goes from one dodging position to another (see `C51_jump_panics` for the others). -/
theorem C51_classify (hn : 0 < n) (lead : List (Perm (Fin n))) (τ : Perm (Fin n)) (annots : List A)
    (h0 : lead.head? = some 1) (hlen : lead.length = annots.length) (hc : CrossesClear lead τ) :
    ∃ c, (FullClass.classify (.ofPerms lead τ annots)).Returns c ∧ c.isJump = false ∧
      (c.isDifferential = true ↔ IsDifferential τ) ∧ (c.isLittle = true ↔ IsLittle lead τ) ∧
      ClassIs lead τ c.cls := by
  obtain ⟨starts, h1, h2, -⟩ := cyclesFromLead_returns hn lead τ annots h0 hlen
  obtain ⟨c, h3, h4⟩ := (classifyCycles_spec hn annots h0 starts h2).1 hc
  refine ⟨c, ?_, h4⟩
  unfold FullClass.classify
  rw [Run.returns_bind h1, h3]
  simp

/-- What the class of a method says about its hunt bells: `hunt_bell_class` is the class of the paths of
the principal hunt bells, `None` if there are no hunt bells. -/
theorem C51_hunt_bell_class (lead : List (Perm (Fin n))) (τ : Perm (Fin n)) (c : MethodClass)
    (h : ClassIs lead τ c) :
    (∀ k, c.huntBellClass = some k ↔ ∃ b, Principal lead τ k b) ∧
    (c.huntBellClass = none ↔ ∀ b, ¬ IsHuntBell τ b) ∧
    (c.isPlain = true ↔ ∃ b, Principal lead τ .plain b) ∧
    (c.isTrebleDodging = true ↔ ∃ b, Principal lead τ .trebleDodging b) ∧
    (c.isSymmetricHunter = true ↔
      ∃ k b, Principal lead τ k b ∧ k ≠ .hybrid) := by
  have huniq : ∀ k k' b b', Principal lead τ k b → Principal lead τ k' b' → k = k' := by
    rintro k k' b b' ⟨h1, h2, h3⟩ ⟨h1', h2', h3'⟩
    have := Nat.le_antisymm (h3 _ h1' _ h2') (h3' _ h1 _ h2)
    cases k <;> cases k' <;> first | rfl | exact absurd this (by decide)
  have hex : (c = .principle ∧ ∀ b, ¬ IsHuntBell τ b) ∨
      ∃ k b, c.huntBellClass = some k ∧ Principal lead τ k b := by
    cases c with
    | principle => exact .inl ⟨rfl, h⟩
    | place => exact .inr ⟨_, h.1.choose, rfl, h.1.choose_spec⟩
    | bob => exact .inr ⟨_, h.1.choose, rfl, h.1.choose_spec⟩
    | trebleBob => exact .inr ⟨_, h.1.choose, rfl, h.1.choose_spec⟩
    | delight => exact .inr ⟨_, h.1.choose, rfl, h.1.choose_spec⟩
    | surprise => exact .inr ⟨_, h.1.choose, rfl, h.1.choose_spec⟩
    | treblePlace => exact .inr ⟨_, h.choose, rfl, h.choose_spec⟩
    | alliance => exact .inr ⟨_, h.choose, rfl, h.choose_spec⟩
    | hybrid => exact .inr ⟨_, h.choose, rfl, h.choose_spec⟩
  have hk : ∀ k, c.huntBellClass = some k ↔ ∃ b, Principal lead τ k b := by
    intro k
    rcases hex with ⟨rfl, hno⟩ | ⟨k', b', hc, hb⟩
    · exact ⟨nofun, fun ⟨b, hb⟩ => absurd hb.1 (hno b)⟩
    · rw [hc]
      exact ⟨fun h => ⟨b', Option.some.inj h ▸ hb⟩, fun ⟨b, h⟩ => congrArg some (huniq _ _ _ _ hb h)⟩
  refine ⟨hk, ?_, ?_, ?_, ?_⟩
  · rcases hex with ⟨rfl, hno⟩ | ⟨k', b', hc, hb⟩
    · exact ⟨fun _ => hno, fun _ => rfl⟩
    · rw [hc]
      exact ⟨nofun, fun h => absurd hb.1 (h b')⟩
  · rw [← hk]
    cases c <;> decide
  · rw [← hk]
    cases c <;> decide
  · constructor
    · intro hs
      rcases hex with ⟨rfl, hno⟩ | ⟨k', b', hc, hb⟩
      · cases hs
      · refine ⟨k', b', hb, ?_⟩
        rintro rfl
        revert hc hs
        cases c <;> decide
    · rintro ⟨k, b, hb, hne⟩
      have := (hk k).2 ⟨b, hb⟩
      cases c <;> first | rfl | cases this
      exact absurd rfl hne

/-- Except for plain methods, that is that the path of the principal hunt bells is symmetric: so
`is_symmetric_hunter` is right about all paths of which it says so. -/
theorem C51_symmetric_hunter (lead : List (Perm (Fin n))) (τ : Perm (Fin n)) (c : MethodClass)
    (h : ClassIs lead τ c) (hs : c.isSymmetricHunter = true) (hp : c.isPlain = false) (k : HuntBellClass)
    (b : Fin n) (hb : Principal lead τ k b) : Symmetric lead τ b := by
  have hk := ((C51_hunt_bell_class lead τ c h).1 k).2 ⟨b, hb⟩
  have hb2 := hb.2.1
  cases k with
  | plain =>
    exfalso
    revert hk hp
    cases c <;> decide
  | trebleDodging => exact hb2.2.2.1
  | treblePlace =>
    rcases hb2 with ⟨p, hp⟩ | hb2
    · exact ⟨0, fun s t _ => (hp s).trans (hp t).symm⟩
    · exact hb2.2.1
  | alliance => exact hb2.2.2.1
  | hybrid =>
    exfalso
    revert hk hs
    cases c <;> decide

/-- Where a bell jumps while a principal hunt bell goes from one dodging position to another, the
classification panics. -/
theorem C51_jump_panics (hn : 0 < n) (lead : List (Perm (Fin n))) (τ : Perm (Fin n)) (annots : List A)
    (h0 : lead.head? = some 1) (hlen : lead.length = annots.length) (hc : ¬ CrossesClear lead τ) :
    (FullClass.classify (.ofPerms lead τ annots)).Panics .unwrap := by
  obtain ⟨starts, h1, h2, -⟩ := cyclesFromLead_returns hn lead τ annots h0 hlen
  have h3 := (classifyCycles_spec hn annots h0 starts h2).2 hc
  unfold FullClass.classify
  rw [Run.returns_bind h1, h3]
  rfl

/-- Leads without rows and leads that do not start from rounds are not classified. -/
theorem C51_bad_start (hn : 0 < n) (τ : Perm (Fin n)) :
    (FullClass.classify (.ofPerms [] τ ([] : List A))).Panics .unwrap ∧
    ∀ (σ : Perm (Fin n)) (lead : List (Perm (Fin n))) (a : A) (annots : List A), σ ≠ 1 →
      (FullClass.classify (.ofPerms (σ :: lead) τ (a :: annots))).Panics .assert := by
  constructor
  · unfold FullClass.classify Cycle.cyclesFromLead
    rw [firstAnnotRow_ofPerms hn]
    rfl
  · intro σ lead a annots hσ
    unfold FullClass.classify Cycle.cyclesFromLead
    rw [firstAnnotRow_ofPerms hn]
    have : (Row.ofPerm σ).isRounds = false := by
      rw [← Bool.not_eq_true, Row.ofPerm_isRounds]
      exact hσ
    simp only [List.head?_cons, Option.getD_some, unwrap_some, Run.lift_eq, Run.ofRes_ok_bind, this,
      assertThat]
    rfl

/-- A lead has exactly one class. -/
theorem C51_class_unique (lead : List (Perm (Fin n))) (τ : Perm (Fin n)) (c c' : MethodClass)
    (h : ClassIs lead τ c) (h' : ClassIs lead τ c') : c = c' := by
  have huniq : ∀ {k b k' b'}, Principal lead τ k b → Principal lead τ k' b' → k = k' := by
    rintro k b k' b' ⟨h1, h2, h3⟩ ⟨h1', h2', h3'⟩
    exact HuntBellClass.idxOf_injective (le_antisymm (h3 b' h1' k' h2') (h3' b h1 k h2))
  have hno : ∀ {k b}, Principal lead τ k b → (∀ b, ¬ IsHuntBell τ b) → False := fun h h' => h' _ h.1
  cases c <;> cases c' <;> simp only [ClassIs] at h h' <;> first
    | rfl
    | (exfalso
       first
        | (obtain ⟨-, h⟩ := h
           obtain ⟨-, h'⟩ := h'
           grind)
        | exact hno h.choose_spec h'
        | exact hno h'.choose_spec h
        | exact hno h.1.choose_spec h'
        | exact hno h'.1.choose_spec h
        | exact absurd (huniq h.choose_spec h'.choose_spec) (by simp)
        | exact absurd (huniq h.1.choose_spec h'.choose_spec) (by simp)
        | exact absurd (huniq h.choose_spec h'.1.choose_spec) (by simp)
        | exact absurd (huniq h.1.choose_spec h'.1.choose_spec) (by simp))

/-- `Principle` is reported if and only if there is no hunt bell, i.e. no bell is in its own place at
the lead head. -/
theorem C50_principle (hn : 0 < n) (lead : List (Perm (Fin n))) (τ : Perm (Fin n)) (annots : List A)
    (h0 : lead.head? = some 1) (hlen : lead.length = annots.length) (c : FullClass)
    (hc : (FullClass.classify (.ofPerms lead τ annots)).Returns c) :
    c.cls = .principle ↔ ∀ b, τ b ≠ b := by
  have hclear : CrossesClear lead τ := by
    by_contra h
    have := C51_jump_panics hn lead τ annots h0 hlen h
    unfold Run.Panics Run.Returns at *
    rw [this] at hc
    injection hc with hc
    cases hc
  obtain ⟨c', h1, -, -, -, h2⟩ := C51_classify hn lead τ annots h0 hlen hclear
  have := hc.unique h1
  subst this
  constructor
  · intro h
    rw [h] at h2
    exact h2
  · intro h
    exact C51_class_unique lead τ _ .principle h2 h

theorem crossesClear_of_noJumps {lead : List (Perm (Fin n))} {τ : Perm (Fin n)}
    (h : NoJumps lead τ) : CrossesClear lead τ := fun t ht _ => h t ht

theorem follows_start {τs lead : List (Perm (Fin n))} {τ : Perm (Fin n)} (hne : τs ≠ [])
    (h : Follows 1 τs (lead ++ [τ])) : lead.head? = some 1 ∧ lead.length = τs.length := by
  obtain ⟨h1, h2, -⟩ := h
  have hl : lead.length = τs.length := by simpa using h1
  refine ⟨?_, hl⟩
  have : 0 < τs.length := List.length_pos_of_ne_nil hne
  rw [List.getElem?_append_left (by omega)] at h2
  rw [List.head?_eq_getElem?]
  exact h2

theorem noJumps_of_follows {τs lead : List (Perm (Fin n))} {τ : Perm (Fin n)} (hne : τs ≠ [])
    (hc : ∀ τ ∈ τs, IsChange τ) (h : Follows 1 τs (lead ++ [τ])) : NoJumps lead τ := by
  obtain ⟨h0, hl⟩ := follows_start hne h
  obtain ⟨-, -, h3⟩ := h
  have hrow : ∀ t ≤ lead.length, (lead ++ [τ])[t]? = some (courseRow lead τ t) := by
    intro t ht
    rcases Nat.lt_or_eq_of_le ht with h | h
    · rw [List.getElem?_append_left h, List.getElem?_eq_getElem h, courseRow_lead τ h]
    · have := courseRow_mul τ h0 1
      rw [Nat.one_mul, pow_one] at this
      rw [h, this]
      simp
  intro t ht
  obtain ⟨ρ, h4, h5⟩ := h3 t τs[t] (List.getElem?_eq_getElem (by omega))
  rw [hrow t (by omega)] at h4
  rw [hrow (t + 1) (by omega)] at h5
  rw [Option.some.inj h5, ← Option.some.inj h4, inv_mul_cancel_left]
  exact hc _ (List.getElem_mem _)

/-- Leads given by place notation are always classified. -/
theorem C51_place_notation (dflt : A) (hn : 0 < n) (τs : List (Perm (Fin n))) (hne : τs ≠ [])
    (hc : ∀ τ ∈ τs, IsChange τ) :
    ∃ lead τ c, Follows 1 τs (lead ++ [τ]) ∧
      PnBlock.toBlockFromRounds dflt ⟨τs.map PlaceNot.ofChange⟩ =
        .ok (.ofPerms lead τ (List.replicate τs.length dflt)) ∧
      (FullClass.classify (.ofPerms lead τ (List.replicate τs.length dflt))).Returns c ∧
      c.isJump = false ∧ (c.isDifferential = true ↔ IsDifferential τ) ∧
      (c.isLittle = true ↔ IsLittle lead τ) ∧ ClassIs lead τ c.cls := by
  obtain ⟨-, -, ⟨lead, τ, h1, h2⟩, -⟩ := C36_rows dflt hn 1 τs hne hc
  obtain ⟨h3, h4⟩ := follows_start hne h1
  obtain ⟨c, h5⟩ := C51_classify hn lead τ (List.replicate τs.length dflt) h3 (by simp [h4])
    (crossesClear_of_noJumps (noJumps_of_follows hne hc h1))
  exact ⟨lead, τ, c, h1, h2, h5⟩

example := C51_place_notation (A := Unit) (n := 4) () (by decide) [swap 0 1 * swap 2 3, swap 1 2] (by decide)
  (by decide)

/-- The class of the path of a hunt bell is unambiguous, too. -/
theorem C51_hunt_path (lead : List (Perm (Fin n))) (τ : Perm (Fin n)) (hne : lead ≠ []) (b : Fin n)
    (hb : IsHuntBell τ b) : ∃! k, HuntPathIs lead τ b k := by
  obtain ⟨k, hk⟩ := huntPathIs_exists hne hb
  exact ⟨k, hk, fun k' hk' => huntPathIs_unique hk' hk⟩

example := C51_hunt_path (n := 4) [1, swap 0 1 * swap 2 3] (swap 1 3) (by decide) 0 (by unfold IsHuntBell; decide)

/-- The search for a symmetry of a path: it is found if and only if the endlessly repeated path is
the same forwards and backwards around some point. -/
theorem C51_palindromic (g : Nat → Nat) (N : Nat) (hN : 0 < N) (hg : ∀ t, g (t + N) = g t) :
    Classify.isPalindromic ((List.range N).map g) = true ↔
      ∃ c, ∀ s t, s + t ≡ c [MOD N] → g s = g t := isPalindromic_range hN hg

/-! ## Concrete leads -/

/-- The hypotheses of `C50_cycles` and `C51_classify` for the lead of two changes on four bells. -/
example : ∃ (lead : List (Perm (Fin 4))) (τ : Perm (Fin 4)), lead.head? = some 1 ∧
    lead.length = [(), ()].length ∧ τ ≠ 1 ∧ CrossesClear lead τ := by
  refine ⟨[1, swap 0 1 * swap 2 3], swap 0 1 * swap 2 3 * swap 1 2, rfl, rfl, by decide, ?_⟩
  rintro t - ⟨b, hb, -⟩
  have hno : ∀ b : Fin 4, (swap 0 1 * swap 2 3 * swap 1 2 : Perm (Fin 4)) b ≠ b := by decide
  exact absurd hb.1 (hno b)

/-- Leads of all classes. -/
example :
    classifyText ['x', '1', '4', 'x', '1', '4', ',', '1', '2'] ⟨4⟩ = some (.ok ⟨false, false, false, .bob⟩) ∧
    classifyText ['1', '4', '.', '1', '4', ',', '1', '4'] ⟨4⟩ = some (.ok ⟨false, true, false, .place⟩) ∧
    classifyText ['x', '1', '4'] ⟨4⟩ = some (.ok ⟨false, false, false, .principle⟩) ∧
    classifyText ['x', '1', '4', 'x', '1', '6'] ⟨6⟩ = some (.ok ⟨false, false, true, .principle⟩) ∧
    classifyText ['1', '4'] ⟨4⟩ = some (.ok ⟨false, true, false, .treblePlace⟩) ∧
    classifyText ['x', 'x', '1', '4'] ⟨4⟩ = some (.ok ⟨false, true, false, .alliance⟩) ∧
    classifyText ['x', 'x'] ⟨4⟩ = some (.ok ⟨false, true, false, .hybrid⟩) := by
  decide +kernel

/-- Kent Treble Bob, Cambridge Surprise and Ipswich Delight Minor. -/
example :
    classifyText ['3', '4', '-', '3', '4', '.', '1', '6', '-', '1', '2', '-', '1', '6', '-', '1', '2',
      '-', '1', '6', ',', '1', '6'] ⟨6⟩ = some (.ok ⟨false, false, false, .trebleBob⟩) ∧
    classifyText ['-', '3', '6', '-', '1', '4', '-', '1', '2', '-', '3', '6', '-', '1', '4', '-', '5',
      '6', ',', '1', '2'] ⟨6⟩ = some (.ok ⟨false, false, false, .surprise⟩) ∧
    classifyText ['-', '3', '4', '-', '1', '4', '-', '1', '2', '-', '1', '6', '-', '1', '2', '-', '1',
      '6', ',', '1', '2'] ⟨6⟩ = some (.ok ⟨false, false, false, .delight⟩) := by
  decide +kernel

/-- The evaluation in the examples above is the classification. -/
example (text : List Char) (stage : Stage) (c : FullClass)
    (h : classifyText text stage = some (.ok c)) :
    ∃ pn lead, PnBlock.parse text stage = .ok (.ok pn) ∧ pn.toBlockFromRounds () = .ok lead ∧
      (FullClass.classify lead).Returns c := classifyText_sound h

/-- The rows of a lead: the treble dodges in 1-2, 3-4, 3-4 and 1-2; in between, the bells in 1 and 4
change places. -/
def jumpLead : List (Perm (Fin 4)) :=
  let x := swap 0 1 * swap 2 3
  let j := swap 1 2 * swap 0 3
  let m := swap 1 2
  [x, x, x, j, x, x, x, m, x, x, x, j, x, x, x, m].foldl (fun l c => l ++ [l.getLastD 1 * c]) [1]

/-- A lead in which the treble dodges in 1-2 and in 3-4, and in which another bell jumps, makes the
classification panic. -/
theorem C51_jump_witness : ∃ (lead : List (Perm (Fin 4))) (τ : Perm (Fin 4)) (annots : List Unit),
    lead.head? = some 1 ∧ lead.length = annots.length ∧ ¬ CrossesClear lead τ ∧
    (FullClass.classify (.ofPerms lead τ annots)).Panics .unwrap := by
  have hrun : classifyFuel (.ofPerms jumpLead.dropLast (jumpLead.getLastD 1) (List.replicate 16 ())) =
      some (.error .unwrap) := by decide +kernel
  have hpanic := classifyFuel_sound hrun
  refine ⟨jumpLead.dropLast, jumpLead.getLastD 1, List.replicate 16 (), by decide +kernel,
    by decide +kernel, ?_, hpanic⟩
  intro hc
  obtain ⟨c, h1, -⟩ := C51_classify (by omega) jumpLead.dropLast (jumpLead.getLastD 1)
    (List.replicate 16 ()) (by decide +kernel) (by decide +kernel) hc
  rw [hpanic, Run.returns_ofRes] at h1
  cases h1

end Bellframe.Props
