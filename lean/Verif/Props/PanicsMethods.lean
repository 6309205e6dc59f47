import Verif.Props.PanicsNotation

/-! # C82: exactly when calls about methods and libraries panic or run forever -/

namespace Bellframe.Props

open Equiv

theorem run_outcome_iff {α : Type} {x : Run α} {P : Prop} (h1 : P → ∃ p, x.Panics p)
    (h2 : ¬ P → ∃ a, x.Returns a) :
    (x.outcome = .panics ↔ P) ∧ (x.outcome = .runsForever ↔ False) := by
  by_cases hP : P
  · simp [run_outcome_panics (h1 hP), hP]
  · simp [run_outcome_returns (h2 hP), hP]

theorem res_outcome_iff {α : Type} {x : Res α} {P : Prop} (h1 : P → ∃ p, x = .error p)
    (h2 : ¬ P → ∃ a, x = .ok a) :
    (x.outcome = .panics ↔ P) ∧ (x.outcome = .runsForever ↔ False) :=
  ⟨outcome_iff h1 h2, iff_of_false (outcome_ne_runsForever x) id⟩

theorem res_outcome_never {α : Type} {x : Res α} (h : ∃ a, x = .ok a) :
    (x.outcome = .panics ↔ False) ∧ (x.outcome = .runsForever ↔ False) :=
  res_outcome_iff (fun h => h.elim) (fun _ => h)

theorem classify_cases {A : Type} {n : Nat} (hn : 0 < n) (lead : List (Perm (Fin n)))
    (τ : Perm (Fin n)) (annots : List A) (hlen : lead.length = annots.length) :
    ((lead.head? ≠ some 1 ∨ ¬ CrossesClear lead τ) →
      ∃ p, (FullClass.classify (.ofPerms lead τ annots)).Panics p) ∧
    (¬ (lead.head? ≠ some 1 ∨ ¬ CrossesClear lead τ) →
      ∃ c, (FullClass.classify (.ofPerms lead τ annots)).Returns c) := by
  constructor
  · intro h
    by_cases h0 : lead.head? = some 1
    · exact ⟨_, C51_jump_panics hn lead τ annots h0 hlen (h.resolve_left (not_not.2 h0))⟩
    · obtain ⟨b1, b2⟩ := C51_bad_start (A := A) hn τ
      match lead, annots, hlen with
      | [], [], _ => exact ⟨_, b1⟩
      | σ :: lead, a :: annots, _ => exact ⟨_, b2 σ lead a annots (by simpa using h0)⟩
  · intro h
    obtain ⟨h0, hc⟩ := not_or.1 h
    obtain ⟨c, hc, -⟩ := C51_classify hn lead τ annots (not_not.1 h0) hlen (not_not.1 hc)
    exact ⟨c, hc⟩

theorem getLabel_cases (m : Method) (i : Nat) :
    (m.firstLead.annots.length ≤ i → ∃ p, m.getLabel i = .error p) ∧
    (¬ m.firstLead.annots.length ≤ i → ∃ a, m.getLabel i = .ok a) := by
  constructor
  · intro h
    have := C49_set_label m i none
    rw [if_neg (show ¬ i < m.leadLen from Nat.not_lt.2 h)] at this
    exact ⟨_, this.2⟩
  · intro h
    have := C49_set_label m i none
    rw [if_pos (show i < m.leadLen from Nat.not_le.1 h)] at this
    obtain ⟨m', -, -⟩ := this
    have : i < m.firstLead.annots.length := Nat.not_le.1 h
    simp only [Method.getLabel, AnnotBlock.getAnnot, List.getElem?_eq_getElem this]
    exact ⟨_, rfl⟩

theorem setLabel_cases (m : Method) (i : Nat) (label : Option String) :
    (m.firstLead.annots.length ≤ i → ∃ p, m.setLabel i label = .error p) ∧
    (¬ m.firstLead.annots.length ≤ i → ∃ a, m.setLabel i label = .ok a) := by
  have := C49_set_label m i label
  constructor
  · intro h
    rw [if_neg (show ¬ i < m.leadLen from Nat.not_lt.2 h)] at this
    exact ⟨_, this.1⟩
  · intro h
    rw [if_pos (show i < m.leadLen from Nat.not_le.1 h)] at this
    obtain ⟨m', h, -⟩ := this
    exact ⟨m', h⟩

theorem getByTitle_total (lower : String → String) (lib : MethodLib) (title : String) :
    ∃ r, lib.getByTitle lower title = .ok r := by
  simp only [MethodLib.getByTitle, MethodLib.getByTitleOption_eq]
  cases hs : Stage.fromLowerCaseName (lastWord (lower title)) with
  | none => exact ⟨_, rfl⟩
  | some stage =>
    simp only
    cases lib.find stage (lower title) with
    | none => exact ⟨_, rfl⟩
    | some c =>
      have hv : stage.Valid := (C03_stage_nonzero 1 stage).2.2.2 _ hs
      rcases c.toMethod_total stage hv with ⟨e, -, h⟩ | ⟨m, -, h⟩ <;>
        · simp only [h]
          exact ⟨_, rfl⟩

/-- Methods and libraries panic exactly as listed, and only the plain course of a lead that does not
start from rounds can run forever. -/
theorem C82_methods (c : MethodCall) (h : c.ArgsOk) :
    (c.outcome = .panics ↔ c.PanicsWhen) ∧ (c.outcome = .runsForever ↔ c.RunsForeverWhen) := by
  cases c with
  | @classify n lead τ annots =>
    obtain ⟨h1, h2⟩ := classify_cases h.1 lead τ annots h.2
    exact run_outcome_iff h1 h2
  | @withName name n lead τ annots =>
    obtain ⟨h1, h2⟩ := classify_cases h.1 lead τ annots h.2
    have hst : (AnnotBlock.ofPerms lead τ annots).stage = ⟨n⟩ := rfl
    refine run_outcome_iff (fun hp => ?_) (fun hp => ?_)
    · by_cases hb : lead.head? ≠ some 1 ∨ ¬ CrossesClear lead τ
      · obtain ⟨p, hc⟩ := h1 hb
        refine ⟨p, ?_⟩
        unfold Run.Panics at hc ⊢
        simp only [Method.withName]
        rw [hc]
        rfl
      · obtain ⟨c, hc⟩ := h2 hb
        have h22 : 22 < n := by
          rcases hp with hp | hp | hp
          · exact absurd (.inl hp) hb
          · exact absurd (.inr hp) hb
          · exact hp
        refine ⟨.unwrap, ?_⟩
        simp only [Method.withName]
        rw [Run.returns_bind hc, hst, C52_title_panics name c ⟨n⟩ h22]
        rfl
    · obtain ⟨h0, hc, h22⟩ : lead.head? = some 1 ∧ CrossesClear lead τ ∧ n ≤ 22 := by
        simpa [MethodCall.PanicsWhen] using hp
      obtain ⟨c, hc⟩ := h2 (by simp [h0, hc])
      obtain ⟨t, ht⟩ := C52_title_exists name c ⟨n⟩ ⟨h.1, h22⟩
      refine ⟨⟨t, name, c, .ofPerms lead τ annots⟩, ?_⟩
      simp only [Method.withName]
      rw [Run.returns_bind hc, hst, ht]
      rfl
  | fromPlaceNotString name s text =>
    rcases C61_from_place_not_string name text s h with ⟨e, h1, h2⟩ | ⟨τs, -, -, h1, h2, h3⟩
    · refine run_outcome_iff ?_ (fun _ => ⟨_, h2⟩)
      rintro ⟨-, pns, hp⟩
      rw [(C34_syntax text s pns).2 hp] at h1
      cases h1
    · refine run_outcome_iff (fun hp => ⟨_, h3 hp.1⟩) (fun hp => ?_)
      obtain ⟨m, hm, -⟩ := h2 (by
        by_contra hc
        exact hp ⟨by omega, _, (C34_syntax text s _).1 h1⟩)
      exact ⟨_, hm⟩
  | withLeadEnd name b =>
    obtain ⟨pns⟩ := b
    obtain ⟨hne, n, hn, τs, hc, rfl⟩ := h
    replace hne : τs ≠ [] := by simpa using hne
    obtain ⟨h1, h2⟩ := C49_with_lead_end name hn τs hne hc
    refine run_outcome_iff ?_ (fun hp => ?_)
    · rintro ⟨pn, hpn, h22⟩
      obtain ⟨τ, -, rfl⟩ := List.mem_map.1 hpn
      exact ⟨_, h2 h22⟩
    · obtain ⟨m, hm, -⟩ := h1 (by
        by_contra hc
        obtain ⟨τ, hτ⟩ := List.exists_mem_of_ne_nil τs hne
        exact hp ⟨_, List.mem_map.2 ⟨τ, hτ, rfl⟩, Nat.not_le.1 hc⟩)
      exact ⟨m, hm⟩
  | leadHead m =>
    obtain ⟨n, hn, σs, l, annots, hl, hb⟩ := AnnotBlock.WellFormed.cases h
    exact res_outcome_never ⟨_, by rw [Method.leadHead, hb, AnnotBlock.leftover_ofPerms hn]⟩
  | rowInPlainLead m i =>
    obtain ⟨n, hn, σs, l, annots, hl, hb⟩ := AnnotBlock.WellFormed.cases h
    have e : m.rowInPlainLead i = getIdx ((σs ++ [l]).map Row.ofPerm) i := by
      rw [Method.rowInPlainLead, hb]
      exact SameStageVec.ofRows_index (RowsOf.perms hn _) i
    have hlen : m.firstLead.annots.length = σs.length := by rw [hb, hl]; rfl
    refine res_outcome_iff (fun hp => ?_) (fun hp => ?_) <;> rw [e]
    · rw [MethodCall.PanicsWhen, hlen] at hp
      exact ⟨_, getIdx_of_le (by simp; omega)⟩
    · rw [MethodCall.PanicsWhen, hlen] at hp
      exact ⟨_, getIdx_of_lt _ _ (by simp; omega)⟩
  | rowInPlainCourse m i =>
    obtain ⟨n, hn, σs, l, annots, hl, hb⟩ := AnnotBlock.WellFormed.cases h
    refine res_outcome_iff (fun hp => ⟨_, C48_empty_lead m hp i⟩) (fun hp => ?_)
    have hne : σs ≠ [] := by
      rintro rfl
      exact hp (by rw [MethodCall.PanicsWhen, hb]; simpa [AnnotBlock.ofPerms] using hl.symm)
    exact ⟨_, (C48_row_in_plain_course hn m σs l annots hb hl hne i).1⟩
  | @plainCourse m n lead τ annots =>
    obtain ⟨hn, hlen, hm⟩ := h
    obtain ⟨h1, h2⟩ := C48_plain_course_ends hn m lead τ annots hm hlen
    by_cases hj : ∃ j, τ * ((lead.head?.getD τ)⁻¹ * τ) ^ j = 1
    · have := run_outcome_returns (h1 hj)
      simp only [MethodCall.outcome, this, MethodCall.PanicsWhen, MethodCall.RunsForeverWhen,
        reduceCtorEq, true_and, false_iff, iff_self]
      exact fun h => hj.elim fun j hj => h j hj
    · have hj' := not_exists.1 hj
      have := run_outcome_diverges (h2 hj')
      simp only [MethodCall.outcome, this, MethodCall.PanicsWhen, MethodCall.RunsForeverWhen,
        reduceCtorEq, true_and, true_iff, iff_self]
      exact hj'
  | setLabel m i label => exact res_outcome_iff (setLabel_cases m i label).1 (setLabel_cases m i label).2
  | setLeadEndLabel m =>
    obtain ⟨h1, h2⟩ := setLabel_cases m 0 (some "LE")
    exact res_outcome_iff (fun hp => h1 (Nat.le_of_eq hp)) (fun hp => h2 fun h => hp (Nat.le_zero.1 h))
  | getLabel m i => exact res_outcome_iff (getLabel_cases m i).1 (getLabel_cases m i).2
  | getByTitle lower lib title => exact res_outcome_never (getByTitle_total lower lib title)
  | getByTitleWithSuggestions lower dist shortlist lib title num =>
    refine res_outcome_never ?_
    obtain ⟨r, hr⟩ := getByTitle_total lower lib (lower title)
    simp only [MethodLib.getByTitleWithSuggestions, hr, Res.ok_bind]
    cases r <;> exact ⟨_, rfl⟩
  | unwrapParseErr e =>
    cases e with
    | pnParseErr pn err =>
      exact res_outcome_iff (x := (QueryError.pnParseErr pn err : QueryError Unit).unwrapParseErr)
        (fun _ => ⟨_, rfl⟩) (fun h => absurd ⟨pn, err, rfl⟩ h)
    | notFound v =>
      exact res_outcome_iff (x := (QueryError.notFound v).unwrapParseErr)
        (by rintro ⟨_, _, h⟩; cases h) (fun _ => ⟨_, rfl⟩)
  | toJson order lib =>
    obtain ⟨ho, ⟨lower, hk⟩, hv⟩ := h
    refine res_outcome_iff (fun hp => C55_large_stage order ho lib hp) (fun hp => ?_)
    obtain ⟨json, _, hj, -⟩ := C55_round_trip lower order ho lib hk (fun stage key c hc =>
      ⟨hv stage key c hc, by
        by_contra h22
        exact hp ⟨stage, key, c, hc, by omega⟩⟩)
    exact ⟨json, hj⟩
  | fromJson lower json =>
    obtain ⟨h1, h2⟩ := C63_from_json_partial lower json
    refine res_outcome_iff ?_ (fun hp => ?_)
    · rintro ⟨groups, hg, hbad⟩
      exact (h2 groups ((Json.asLibSerde_eq_some json groups).2 hg)).2 hbad
    · cases hj : json.asLibSerde with
      | none => exact ⟨_, h1 hj⟩
      | some groups =>
        obtain ⟨lib, hl⟩ := (h2 groups hj).1 (fun g hg hb =>
          hp ⟨groups, (Json.asLibSerde_eq_some json groups).1 hj, g, hg, hb⟩)
        exact ⟨_, hl⟩

/-- Labels inside and outside the lead, a lead that starts from another row, and its plain course. -/
example (m : Method) (hm : m.firstLead = .ofPerms [swap 0 1] (swap 0 1 : Perm (Fin 3)) [none]) :
    (MethodCall.setLabel m 0 none).outcome = .returns ∧
    (MethodCall.setLabel m 1 none).outcome = .panics ∧
    (MethodCall.withName "x" [swap 0 1] (swap 0 1 : Perm (Fin 3)) [none]).outcome = .panics ∧
    (MethodCall.plainCourse m [swap 0 1] (swap 0 1 : Perm (Fin 3)) [none]).outcome = .runsForever := by
  have hl : m.firstLead.annots.length = 1 := by rw [hm]; rfl
  refine ⟨?_, ?_, ?_, ?_⟩
  · obtain ⟨h1, h2⟩ := C82_methods (.setLabel m 0 none) trivial
    have n1 : ¬ (MethodCall.setLabel m 0 none).PanicsWhen := by simp [MethodCall.PanicsWhen, hl]
    have n2 : ¬ (MethodCall.setLabel m 0 none).RunsForeverWhen := id
    cases h : (MethodCall.setLabel m 0 none).outcome with
    | returns => rfl
    | panics => exact absurd (h1.1 h) n1
    | runsForever => exact absurd (h2.1 h) n2
  · exact (C82_methods (.setLabel m 1 none) trivial).1.2 (by simp [MethodCall.PanicsWhen, hl])
  · exact (C82_methods (.withName "x" [swap 0 1] (swap 0 1 : Perm (Fin 3)) [none])
      ⟨by decide, rfl⟩).1.2 (.inl (by decide))
  · refine (C82_methods (.plainCourse m [swap 0 1] (swap 0 1 : Perm (Fin 3)) [none])
      ⟨by decide, rfl, hm⟩).2.2 ?_
    intro j
    simp only [List.head?_cons, Option.getD_some, inv_mul_cancel, one_pow, mul_one]
    decide

end Bellframe.Props
