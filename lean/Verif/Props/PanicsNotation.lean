import Verif.Props.Panics

/-! # C82: exactly when calls about place notation, masks and music panic -/

namespace Bellframe.Props

open Equiv

/-! ## Place notation -/

theorem pn_message_iff (e : PnParseError) :
    e.message.outcome = .panics ↔ ∃ p q, e = .ambiguousPlacesBetween p q ∧ q ≤ p := by
  cases e with
  | ambiguousPlacesBetween p q =>
    refine outcome_iff ?_ ?_
    · rintro ⟨p', q', h, hle⟩
      cases h
      simp only [PnParseError.message, checkedSub]
      split
      · simp only [Res.ok_bind]
        rw [if_neg (by omega)]
        exact ⟨_, rfl⟩
      · exact ⟨_, rfl⟩
    · intro h
      have : p < q := by
        by_contra hc
        exact h ⟨p, q, rfl, by omega⟩
      simp only [PnParseError.message, checkedSub]
      rw [if_pos (by omega)]
      simp only [Res.ok_bind]
      rw [if_pos (by omega)]
      exact ⟨_, rfl⟩
  | _ => exact outcome_iff (by rintro ⟨_, _, h, _⟩; cases h) (fun _ => ⟨_, rfl⟩)

/-- Place notation, blocks of it and calls never panic, for any text and any values, except when
showing errors that no parser reports. -/
theorem C82_place_notation (c : PnCall) (h : c.ArgsOk) :
    (c.outcome = .panics ↔ c.PanicsWhen) ∧ c.outcome ≠ .runsForever := by
  refine ⟨?_, by cases c <;> exact outcome_ne_runsForever _⟩
  cases c with
  | parse text s =>
    refine outcome_never ?_
    by_cases hx : IsCrossText text
    · rcases Nat.mod_two_eq_zero_or_one s.numBells with h0 | h0
      · exact ⟨_, ((C30_cross text hx s.numBells).1 h0).1⟩
      · exact ⟨_, (C30_cross text hx s.numBells).2 h0⟩
    · by_cases hc : Completable s.numBells (givenPlaces text)
      · obtain ⟨_, _, h, _⟩ := (C30_parse text hx s.numBells).1 hc
        exact ⟨_, h⟩
      · obtain ⟨_, h, _⟩ := (C30_parse text hx s.numBells).2 hc
        exact ⟨_, h⟩
  | pnBetween a b =>
    refine outcome_never ?_
    by_cases hl : a.bells.length = b.bells.length
    · obtain ⟨h1, h2⟩ := C32_pn_between a b h.1 h.2 hl
      by_cases hex : ∃ pn : PlaceNot, pn.WellFormed ∧ pn.permuteNew a = .ok (.ok b)
      · obtain ⟨pn, hpn⟩ := hex
        exact ⟨_, (h1 pn).2 hpn⟩
      · exact ⟨_, h2.2 hex⟩
    · exact ⟨_, C32_mismatch a b h.1 h.2 hl⟩
  | transposition pn =>
    obtain ⟨n, hn, τ, hτ, rfl⟩ := h
    exact outcome_never ⟨_, (C31_permute hn τ 1 hτ).2.2.1⟩
  | permute pn r =>
    obtain ⟨⟨n, hn, τ, hτ, rfl⟩, hr⟩ := h
    refine outcome_never ?_
    by_cases hl : r.bells.length = n
    · obtain ⟨m, hm, σ, rfl⟩ := C16_covers_valid_rows r hr
      simp only [Row.ofPerm_length] at hl
      subst hl
      exact ⟨_, (C31_permute hn τ σ hτ).1⟩
    · exact ⟨_, (C31_mismatch _ r hr (fun h => hl (congrArg Stage.numBells h))).1⟩
  | permuteNew pn r =>
    obtain ⟨⟨n, hn, τ, hτ, rfl⟩, hr⟩ := h
    refine outcome_never ?_
    by_cases hl : r.bells.length = n
    · obtain ⟨m, hm, σ, rfl⟩ := C16_covers_valid_rows r hr
      simp only [Row.ofPerm_length] at hl
      subst hl
      exact ⟨_, (C31_permute hn τ σ hτ).2.1⟩
    · exact ⟨_, (C31_mismatch _ r hr (fun h => hl (congrArg Stage.numBells h))).2⟩
  | parseBlock text s => exact outcome_never (C34_total text s)
  | blockStage b =>
    obtain ⟨pns⟩ := b
    obtain ⟨hne, n, hn, τs, hc, rfl⟩ := h
    exact outcome_never ⟨_, (C36_rows () hn 1 τs (by simpa using hne) hc).2.2.2.2⟩
  | toRows b r =>
    obtain ⟨pns⟩ := b
    obtain ⟨⟨hne, n, hn, τs, hc, rfl⟩, hr⟩ := h
    replace hne : τs ≠ [] := by simpa using hne
    refine outcome_never ?_
    by_cases hl : r.bells.length = n
    · obtain ⟨m, hm, σ, rfl⟩ := C16_covers_valid_rows r hr
      simp only [Row.ofPerm_length] at hl
      subst hl
      obtain ⟨_, -, h⟩ := (C36_rows () hn σ τs hne hc).1
      exact ⟨_, h⟩
    · exact ⟨_, (C36_mismatch () r hr hl τs hne).1⟩
  | toBlock b r =>
    obtain ⟨pns⟩ := b
    obtain ⟨⟨hne, n, hn, τs, hc, rfl⟩, hr⟩ := h
    replace hne : τs ≠ [] := by simpa using hne
    refine outcome_never ?_
    by_cases hl : r.bells.length = n
    · obtain ⟨m, hm, σ, rfl⟩ := C16_covers_valid_rows r hr
      simp only [Row.ofPerm_length] at hl
      subst hl
      obtain ⟨_, _, -, h⟩ := (C36_rows () hn σ τs hne hc).2.1
      exact ⟨_, h⟩
    · exact ⟨_, (C36_mismatch () r hr hl τs hne).2⟩
  | toBlockFromRounds b =>
    obtain ⟨pns⟩ := b
    obtain ⟨hne, n, hn, τs, hc, rfl⟩ := h
    obtain ⟨_, _, -, h⟩ := (C36_rows () hn 1 τs (by simpa using hne) hc).2.2.1
    exact outcome_never ⟨_, h⟩
  | errorMessage e =>
    rw [PnCall.outcome, pn_message_iff]
    cases e <;> simp [PnCall.PanicsWhen]
  | blockErrorMessage e =>
    cases e with
    | pnError a b e =>
      have : (PnBlockParseError.pnError a b e).message.outcome = e.message.outcome := by
        simp only [PnBlockParseError.message]
        cases e.message <;> rfl
      rw [PnCall.outcome, this, pn_message_iff]
      cases e <;> simp [PnCall.PanicsWhen]
    | emptyBlock => exact outcome_never (x := PnBlockParseError.emptyBlock.message) ⟨_, rfl⟩
    | plusNotAtBlockStart i =>
      exact outcome_never (x := (PnBlockParseError.plusNotAtBlockStart i).message) ⟨_, rfl⟩
  | leBob b =>
    obtain ⟨pns⟩ := b
    obtain ⟨hne, n, hn, τs, hc, rfl⟩ := h
    obtain ⟨_, _, h, -⟩ := C56_calls hn τs (by simpa using hne) hc
    exact outcome_never ⟨_, h⟩
  | leSingle b =>
    obtain ⟨pns⟩ := b
    obtain ⟨hne, n, hn, τs, hc, rfl⟩ := h
    obtain ⟨_, _, -, h, -⟩ := C56_calls hn τs (by simpa using hne) hc
    exact outcome_never ⟨_, h⟩
  | callEffectiveStage c =>
    obtain ⟨n, hn, σs, l, annots, hl, hb⟩ := AnnotBlock.WellFormed.cases h
    obtain ⟨s, h, -⟩ := C62_block_effective_stage hn σs l annots
    exact outcome_never ⟨s, by rw [Call.effectiveStage, hb, h]⟩
  | callTransposition c =>
    obtain ⟨n, hn, σs, l, annots, hl, hb⟩ := AnnotBlock.WellFormed.cases h
    exact outcome_never ⟨_, by rw [Call.transposition, hb, AnnotBlock.leftover_ofPerms hn]⟩

/-- Applying a change to a row of another stage, and showing errors with the places in either order. -/
example : (PnCall.permute ⟨[0, 3], ⟨4⟩⟩ ⟨[⟨1⟩, ⟨0⟩]⟩).outcome ≠ .panics ∧
    (PnCall.errorMessage (.ambiguousPlacesBetween 3 0)).outcome = .panics ∧
    (PnCall.errorMessage (.ambiguousPlacesBetween 0 4)).outcome ≠ .panics := by
  refine ⟨fun h => ?_, ?_, fun h => ?_⟩
  · exact (C82_place_notation (.permute ⟨[0, 3], ⟨4⟩⟩ ⟨[⟨1⟩, ⟨0⟩]⟩)
      ⟨⟨4, by decide, swap 1 2, by decide, by decide⟩, by decide⟩).1.1 h
  · exact (C82_place_notation (.errorMessage (.ambiguousPlacesBetween 3 0)) trivial).1.2
      (show 0 ≤ 3 by decide)
  · have := (C82_place_notation (.errorMessage (.ambiguousPlacesBetween 0 4)) trivial).1.1 h
    exact absurd (show 4 ≤ 0 from this) (by decide)

/-! ## Masks and music -/

theorem mask_stage_iff (m : Mask) :
    (m.bells = [] → m.stage = .error .unwrap) ∧ (m.bells ≠ [] → m.stage = .ok ⟨m.bells.length⟩) :=
  ⟨Mask.stage_of_nil, Mask.stage_of_ne⟩

theorem compatibleLoop_agree (m : Mask) : ∀ (xs ys : List (Option Bell)) (i : Nat),
    Mask.compatibleLoop m (xs.zip ys) i = true → ∀ (k : Nat) (c d : Bell),
      xs[k]? = some (some c) → ys[k]? = some (some d) → d = c
  | [], _, _, _ => by simp
  | _ :: _, [], _, _ => by simp
  | x :: xs, y :: ys, i, h => by
    intro k c d hc hd
    cases k with
    | zero =>
      simp only [List.getElem?_cons_zero, Option.some.injEq] at hc hd
      subst hc hd
      simp only [List.zip_cons_cons, Mask.compatibleLoop, Option.elim_some] at h
      by_contra hne
      simp [hne] at h
    | succ k =>
      have h' : Mask.compatibleLoop m (xs.zip ys) (i + 1) = true := by
        cases x with
        | none => simpa [Mask.compatibleLoop] using h
        | some b =>
          simp only [List.zip_cons_cons, Mask.compatibleLoop] at h
          split at h
          · cases h
          · split at h
            · cases h
            · exact h
      exact compatibleLoop_agree m xs ys (i + 1) h' k c d (by simpa using hc) (by simpa using hd)

theorem isCompatibleWith_total (m other : Mask) (hm : m.bells ≠ []) (ho : other.bells ≠ []) :
    ∃ v, m.isCompatibleWith other = .ok v ∧ (v = true → m.bells.length = other.bells.length ∧
      ∀ (i : Nat) (c d : Bell), m.bells[i]? = some (some c) → other.bells[i]? = some (some d) →
        c = d) := by
  simp only [Mask.isCompatibleWith, Mask.stage_of_ne hm, Mask.stage_of_ne ho, Res.ok_bind]
  by_cases hl : m.bells.length = other.bells.length
  · rw [if_neg (by simp [hl]), zipEq_eq_zip _ _ hl.symm]
    exact ⟨_, rfl, fun h => ⟨hl, fun i c d h1 h2 => compatibleLoop_agree m _ _ _ h i d c h2 h1⟩⟩
  · rw [if_pos (by simpa using hl)]
    exact ⟨false, rfl, by simp⟩

theorem setBell_iff (m : Mask) (b : Bell) (p : Nat) :
    (m.setBell b p).outcome = .panics ↔ (∀ q, ¬ m.Gives q b) ∧ m.bells.length ≤ p := by
  have hnone : m.bells.findIdx? (fun x => x == some b) = none ↔ ∀ q, ¬ m.Gives q b := by
    constructor
    · intro h q hq
      have := List.findIdx?_eq_none_iff.1 h (some b) (List.mem_of_getElem? hq)
      simp at this
    · intro h
      cases hf : m.bells.findIdx? (fun x => x == some b) with
      | none => rfl
      | some q => exact absurd (Mask.findIdx?_gives hf) (h q)
  rw [← hnone]
  cases hf : m.bells.findIdx? (fun x => x == some b) with
  | some q =>
    refine outcome_iff (by simp) (fun _ => ?_)
    simp only [Mask.setBell, hf]
    split <;> exact ⟨_, rfl⟩
  | none =>
    refine outcome_iff (fun hp => ?_) (fun hp => ?_) <;>
      simp only [Mask.setBell, hf, Mask.setBellUnchecked, setIdx]
    · rw [if_neg (by omega)]
      exact ⟨_, rfl⟩
    · rw [if_pos (by simpa using hp)]
      exact ⟨_, rfl⟩

theorem allRuns_zero (s : Stage) (re : Regex) (h : re ∈ Regex.allRuns s 0) :
    re.elems = [.glob, .glob] := by
  have hmem := mem_runs_iff (fun b => ⟨[.glob] ++ Regex.runElems b 0 ++ [.glob]⟩)
    (fun b => ⟨[.glob] ++ (Regex.runElems b 0).reverse ++ [.glob]⟩) s.numBells 0
  obtain ⟨b, _, rfl | rfl⟩ := (hmem re).1 h <;> rfl

/-- Masks panic only when they have no places, or for bells, places or rows that do not fit; regexes
only when they contain adjacent `*`s; counting only when there are too few places or the number is too
large. -/
theorem C82_music (c : MusicCall) (h : c.ArgsOk) :
    (c.outcome = .panics ↔ c.PanicsWhen) ∧ c.outcome ≠ .runsForever := by
  refine ⟨?_, by cases c <;> exact outcome_ne_runsForever _⟩
  cases c with
  | maskStage m =>
    exact outcome_iff (fun h => ⟨_, Mask.stage_of_nil h⟩) (fun h => ⟨_, Mask.stage_of_ne h⟩)
  | maskFixBells s bells =>
    refine outcome_iff (fun h => ⟨_, C37_fix_bells_outside s bells h⟩) (fun h => ?_)
    obtain ⟨m, hm, -⟩ := C37_fix_bells s bells (fun b hb => by
      by_contra hc
      exact h ⟨b, hb, by omega⟩)
    exact ⟨m, hm⟩
  | maskMatches m r =>
    refine outcome_iff (fun h => ?_) (fun hm => ?_)
    · simp only [Mask.matches_, Mask.stage_of_nil h]
      exact ⟨_, rfl⟩
    · obtain ⟨v, hv, -⟩ := C37_matches m hm r h
      exact ⟨v, hv⟩
  | maskSetBell m b p => exact setBell_iff m b p
  | maskFix m b => exact setBell_iff m b b.index
  | maskIsSubsetOf m other =>
    refine outcome_iff (fun h => ?_) (fun h => ?_)
    · by_cases hm : m.bells = []
      · simp only [Mask.isSubsetOf, Mask.stage_of_nil hm]
        exact ⟨_, rfl⟩
      · simp only [Mask.isSubsetOf, Mask.stage_of_ne hm, Mask.stage_of_nil (h.resolve_left hm)]
        exact ⟨_, rfl⟩
    · obtain ⟨hm, ho⟩ := not_or.1 h
      simp only [Mask.isSubsetOf, Mask.stage_of_ne hm, Mask.stage_of_ne ho, Res.ok_bind]
      by_cases hl : m.bells.length = other.bells.length
      · rw [if_neg (by simp [hl]), zipEq_eq_zip _ _ hl]
        exact ⟨_, rfl⟩
      · rw [if_pos (by simpa using hl)]
        exact ⟨_, rfl⟩
  | maskIsCompatibleWith m other =>
    refine outcome_iff (fun h => ?_) (fun h => ?_)
    · by_cases hm : m.bells = []
      · simp only [Mask.isCompatibleWith, Mask.stage_of_nil hm]
        exact ⟨_, rfl⟩
      · simp only [Mask.isCompatibleWith, Mask.stage_of_ne hm, Mask.stage_of_nil (h.resolve_left hm)]
        exact ⟨_, rfl⟩
    · obtain ⟨hm, ho⟩ := not_or.1 h
      obtain ⟨v, hv, -⟩ := isCompatibleWith_total m other hm ho
      exact ⟨v, hv⟩
  | maskCombine m other =>
    refine outcome_iff (fun h => ?_) (fun h => ?_)
    · by_cases hm : m.bells = []
      · simp only [Mask.combine, Mask.isCompatibleWith, Mask.stage_of_nil hm]
        exact ⟨_, rfl⟩
      · simp only [Mask.combine, Mask.isCompatibleWith, Mask.stage_of_ne hm,
          Mask.stage_of_nil (h.resolve_left hm)]
        exact ⟨_, rfl⟩
    · obtain ⟨hm, ho⟩ := not_or.1 h
      obtain ⟨v, hv, hag⟩ := isCompatibleWith_total m other hm ho
      simp only [Mask.combine, hv, Res.ok_bind]
      cases v with
      | false => exact ⟨_, rfl⟩
      | true =>
        obtain ⟨hl, hag⟩ := hag rfl
        simp only [Bool.not_true, Bool.false_eq_true, if_false, zipEq_eq_zip _ _ hl, Res.ok_bind,
          Mask.combine_mapM _ _ hag]
        exact ⟨_, rfl⟩
  | maskMulRow m r =>
    have hr : r.Valid := h
    refine outcome_iff (fun h => ?_) (fun h => ?_)
    · by_cases hm : m.bells = []
      · simp only [Mask.mulRow, Mask.stage_of_nil hm]
        exact ⟨_, rfl⟩
      · have : ((⟨m.bells.length⟩ : Stage) == ⟨r.bells.length⟩) = false := by
          simpa [MusicCall.PanicsWhen] using h
        simp only [Mask.mulRow, Mask.stage_of_ne hm, hr.stage_eq, Res.ok_bind, this]
        exact ⟨_, rfl⟩
    · replace h : m.bells.length = r.bells.length := not_not.1 h
      have hm : m.bells ≠ [] := by
        intro e
        have := hr.1
        rw [e] at h
        exact this (List.length_eq_zero_iff.1 h.symm)
      have : ((⟨m.bells.length⟩ : Stage) == ⟨r.bells.length⟩) = true := by simpa using h
      simp only [Mask.mulRow, Mask.stage_of_ne hm, hr.stage_eq, Res.ok_bind, this]
      obtain ⟨bs, hbs⟩ := MethodLib.mapM_ok_of_forall (f := fun b : Bell => getIdx m.bells b.index)
        (l := r.bells) (fun b hb => ⟨_, getIdx_of_lt _ _ (by rw [h]; exact (hr.mem_iff b).1 hb)⟩)
      rw [hbs]
      exact ⟨_, rfl⟩
  | rowMulMask r m =>
    have hr : r.Valid := h
    by_cases hl : m.bells.length = r.bells.length
    · have hm : m.bells ≠ [] := by
        intro e
        have := hr.1
        rw [e] at hl
        exact this (List.length_eq_zero_iff.1 hl.symm)
      have he : ((⟨r.bells.length⟩ : Stage) == ⟨m.bells.length⟩) = true := by simpa using hl.symm
      refine outcome_iff (fun h => ?_) (fun h => ?_) <;>
        simp only [Mask.rowMul, Mask.stage_of_ne hm, hr.stage_eq, Res.ok_bind, he]
      · obtain ⟨p, b, hg, hb⟩ := h.resolve_left (not_not.2 hl)
        obtain ⟨e, hbs⟩ := MethodLib.mapM_error_of_exists (f := Mask.transfigureBell r) (l := m.bells)
          ⟨some b, List.mem_of_getElem? hg, .index, by
            simp only [Mask.transfigureBell, getIdx_of_le hb]; rfl⟩
        rw [hbs]
        exact ⟨_, rfl⟩
      · obtain ⟨bs, hbs⟩ := MethodLib.mapM_ok_of_forall (f := Mask.transfigureBell r) (l := m.bells) (fun b hb => by
          cases b with
          | none => exact ⟨_, rfl⟩
          | some b =>
            obtain ⟨p, hp⟩ := List.getElem?_of_mem hb
            have : b.index < r.bells.length := by
              by_contra hc
              exact h (.inr ⟨p, b, hp, by omega⟩)
            simp only [Mask.transfigureBell, getIdx_of_lt _ _ this]
            exact ⟨_, rfl⟩)
        rw [hbs]
        exact ⟨_, rfl⟩
    · refine outcome_iff (fun _ => ?_) (fun h => absurd (.inl hl) h)
      by_cases hm : m.bells = []
      · simp only [Mask.rowMul, hr.stage_eq, Res.ok_bind, Mask.stage_of_nil hm]
        exact ⟨_, rfl⟩
      · have : ((⟨r.bells.length⟩ : Stage) == ⟨m.bells.length⟩) = false := by
          simpa using fun e => hl e.symm
        simp only [Mask.rowMul, Mask.stage_of_ne hm, hr.stage_eq, Res.ok_bind, this]
        exact ⟨_, rfl⟩
  | regexFromVec elems =>
    obtain ⟨re, h, -⟩ := C41_from_vec elems
    exact outcome_never ⟨re, h⟩
  | regexParse text =>
    obtain ⟨_, -, re, h, -⟩ := C41_parse text
    exact outcome_never ⟨re, h⟩
  | regexOfMask m =>
    obtain ⟨re, h, -⟩ := C46_mask_regex m
    exact outcome_never ⟨re, h⟩
  | regexMatches re r =>
    obtain ⟨hre, hr⟩ := h
    refine outcome_iff (fun hn => ?_) (fun hn => ?_)
    · obtain ⟨s, hs⟩ := hre.resolve_left hn
      exact ⟨_, (C44_all_runs_zero_false s).2 re hs r⟩
    · obtain ⟨v, hv, -⟩ := C41_normal re (not_not.1 hn) r hr
      exact ⟨v, hv⟩
  | regexMatchPattern re r =>
    obtain ⟨hre, hr⟩ := h
    refine outcome_iff (fun hn => ?_) (fun hn => ?_)
    · obtain ⟨s, hs⟩ := hre.resolve_left hn
      obtain ⟨es⟩ := re
      have : es = [.glob, .glob] := allRuns_zero s _ hs
      subst this
      exact ⟨_, rfl⟩
    · obtain ⟨v, hv, -⟩ := C43_match_pattern re (not_not.1 hn) r hr
      exact ⟨v, hv⟩
  | numMatchingRows max re s =>
    have e := C45_computed_exact max h.1 re s
    refine outcome_iff (fun hp => ?_) (fun hp => ?_) <;> rw [e]
    · rcases hp with hp | ⟨h1, h2, h3, h4⟩
      · rw [if_pos hp]
        exact ⟨_, rfl⟩
      · split
        · exact ⟨_, rfl⟩
        · rw [if_neg (by omega), if_neg (by omega)]
          exact ⟨_, rfl⟩
    · obtain ⟨h1, h2⟩ := not_or.1 hp
      rw [if_neg h1]
      split
      · exact ⟨_, rfl⟩
      · rename_i h3
        rw [if_pos (by
          by_contra hc
          exact h2 ⟨by omega, by omega, by omega, by omega⟩)]
        exact ⟨_, rfl⟩

/-- The mask read from the empty text panics, masks with repeated bells do not; a row times a mask with
a bell outside the stage panics. -/
example : (MusicCall.maskMatches (Mask.parse []) ⟨[⟨1⟩, ⟨0⟩]⟩).outcome = .panics ∧
    (MusicCall.maskMatches (Mask.parse ['1', '1']) ⟨[⟨1⟩, ⟨0⟩]⟩).outcome ≠ .panics ∧
    (MusicCall.rowMulMask ⟨[⟨1⟩, ⟨0⟩]⟩ (Mask.parse ['1', '3'])).outcome = .panics := by
  refine ⟨(C82_music (.maskMatches (Mask.parse []) ⟨[⟨1⟩, ⟨0⟩]⟩) (show Row.Valid _ by decide)).1.2 rfl,
    fun h => ?_,
    (C82_music (.rowMulMask ⟨[⟨1⟩, ⟨0⟩]⟩ (Mask.parse ['1', '3'])) (show Row.Valid _ by decide)).1.2
      (.inr ⟨1, ⟨2⟩, rfl, by decide⟩)⟩
  have := (C82_music (.maskMatches (Mask.parse ['1', '1']) ⟨[⟨1⟩, ⟨0⟩]⟩) (show Row.Valid _ by decide)).1.1 h
  exact absurd (show (Mask.parse ['1', '1']).bells = [] from this) (by decide)

end Bellframe.Props
