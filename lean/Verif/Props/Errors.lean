import Verif.Proofs.Errors
import Verif.Props.PnBlock

/-! # C68: the messages of errors -/

namespace Bellframe.Props

open List

/-! ## Formatting never panics -/

/-- The message of an error about a text can be formatted. In the message about an ambiguous gap, the
number is that of the places strictly inside the gap. -/
theorem message_of_trueOf (s : List Char) (stage : Stage) (e : PnParseError) (h : e.TrueOf s stage) :
    ∃ m, e.message = .ok m := by
  cases e with
  | ambiguousPlacesBetween p q =>
    obtain ⟨-, -, h, -⟩ := h
    simp only [PnParseError.message, checkedSub, if_pos (show p ≤ q by omega),
      if_pos (show 1 ≤ q - p by omega), Res.ok_bind]
    exact ⟨_, rfl⟩
  | _ => exact ⟨_, rfl⟩

theorem parse_error_trueOf (s : List Char) (stage : Stage) (e : PnParseError)
    (h : PlaceNot.parse s stage = .ok (.error e)) : e.TrueOf s stage := by
  by_cases hx : IsCrossText s
  · obtain ⟨h1, h2⟩ := C30_cross s hx stage.numBells
    rcases Nat.mod_two_eq_zero_or_one stage.numBells with h0 | h0
    · rw [(h1 h0).1] at h
      cases h
    · rw [h2 h0] at h
      cases h
      exact ⟨hx, rfl, h0⟩
  · obtain ⟨h1, h2⟩ := C30_parse s hx stage.numBells
    by_cases hc : Completable stage.numBells (givenPlaces s)
    · obtain ⟨τ, -, h3, -⟩ := h1 hc
      rw [h3] at h
      cases h
    · obtain ⟨e', h3, h4⟩ := h2 hc
      rw [h3] at h
      cases h
      exact h4

/-- All errors of `PlaceNot::parse` and `PnBlock::parse` can be formatted without a panic. -/
theorem C68_never_panics (s : List Char) (stage : Stage) :
    (∀ e, PlaceNot.parse s stage = .ok (.error e) → ∃ m, e.message = .ok m) ∧
    (∀ e, PnBlock.parse s stage = .ok (.error e) → ∃ m, e.message = .ok m) := by
  constructor
  · intro e h
    exact message_of_trueOf s stage e (parse_error_trueOf s stage e h)
  · intro e h
    have hpn : ∀ a b e', (∃ m, PnParseError.message e' = .ok m) →
        ∃ m, (PnBlockParseError.pnError a b e').message = .ok m := by
      rintro a b e' ⟨m, hm⟩
      simp only [PnBlockParseError.message, hm, Res.ok_bind]
      exact ⟨_, rfl⟩
    rcases (C35_positions_partial s stage e).1 h with ⟨rfl, -⟩ | ⟨done, part, todo, before, w, e0, -, -, -, h4, rfl⟩
    · exact ⟨_, rfl⟩
    · cases h4 with
      | plus => exact ⟨_, rfl⟩
      | cross => exact ⟨_, rfl⟩
      | @places group after e h1 _ _ h2 h3 h4 h5 =>
        have := message_of_trueOf _ _ _ (parse_error_trueOf _ stage _ h5)
        cases e <;> exact hpn _ _ _ this

/-- In the message about an ambiguous gap, the number is that of the places strictly inside the gap, and is
odd and more than one: otherwise the gap is not ambiguous. -/
theorem C68_gap (s : List Char) (stage : Stage) (p q : Nat)
    (h : PlaceNot.parse s stage = .ok (.error (.ambiguousPlacesBetween p q))) :
    ∃ k, k = ((List.range stage.numBells).filter fun x => p < x ∧ x < q).length ∧ k % 2 = 1 ∧ 1 < k ∧
      PnParseError.message (.ambiguousPlacesBetween p q) = .ok ("Ambiguous gap of ".toList ++ decimal k ++
        " bells between places '".toList ++ (Bell.fromIndex p).name ++ "' and '".toList ++
        (Bell.fromIndex q).name ++ "'.".toList) := by
  obtain ⟨h1, h2, h3, h4⟩ := parse_error_trueOf s stage _ h
  have hq : q < stage.numBells := h4 q h1.2.1
  refine ⟨q - p - 1, ?_, by omega, by omega, ?_⟩
  · have : ∀ n, q ≤ n → ((List.range n).filter fun x => p < x ∧ x < q).length = q - p - 1 := by
      intro n hn
      induction n, hn using Nat.le_induction with
      | base =>
        have : ∀ m, ((List.range m).filter fun x => p < x ∧ x < q).length = min m q - (p + 1) := by
          intro m
          induction m with
          | zero => simp
          | succ m ih =>
            rw [List.range_succ, List.filter_append, List.length_append, ih]
            by_cases hm : p < m ∧ m < q
            · simp [hm]
              omega
            · rw [List.filter_cons_of_neg (by simpa using hm)]
              simp
              omega
        rw [this]
        omega
      | succ n hn ih =>
        rw [List.range_succ, List.filter_append, List.length_append, ih]
        rw [List.filter_cons_of_neg (by simp; omega)]
        simp
    exact (this _ (by omega)).symm
  · simp only [PnParseError.message, checkedSub, if_pos (show p ≤ q by omega),
      if_pos (show 1 ≤ q - p by omega), Res.ok_bind]
    rfl

example := C68_gap "15".toList ⟨8⟩ 0 4 (by decide +kernel)

/-! ## Different errors have different messages -/

/-- The stages named by an error exist. -/
def RowErrorStages : InvalidRowError → Prop
  | .bellOutOfStage _ s => s.Valid
  | _ => True

def VecErrorStages : SsvParseError → Prop
  | .zeroStage => True
  | .invalidRow _ e => RowErrorStages e
  | .incompatibleStages _ s t => s.Valid ∧ t.Valid

def BlockErrorStages : BlockParseError → Prop
  | .zeroLengthBlock => True
  | .other e => VecErrorStages e

def MulErrorStages : MulIntoError → Prop
  | .rhsStage e => e.lhsStage.Valid ∧ e.rhsStage.Valid
  | .intoStage e => e.lhsStage.Valid ∧ e.rhsStage.Valid

def PnErrorStages : PnParseError → Prop
  | .placeOutOfStage _ s => s.Valid
  | .oddStageCross s => s.Valid
  | _ => True

def PnBlockErrorStages : InvalidPnBlockError → Prop
  | .incompatibleStages _ e => e.lhsStage.Valid ∧ e.rhsStage.Valid
  | .emptyBlock => True

theorem row_message_inj (e e' : InvalidRowError) (h1 : RowErrorStages e) (h2 : RowErrorStages e')
    (h : e.message = e'.message) : e = e' := by
  cases e <;> cases e' <;> simp [InvalidRowError.message_duplicate, InvalidRowError.message_outOfStage,
    InvalidRowError.message_missing, InvalidRowError.message_noBells] at h ⊢
  all_goals first
    | exact Bell.name_inj _ _ h
    | (obtain ⟨h3, h4⟩ := Bell.name_quote_inj _ _ _ _ h
       simp at h4
       try exact ⟨h3, Stage.display_inj _ _ h1 h2 (by rw [h4])⟩)

/-- Different errors about rows have different messages. -/
theorem C68_row_errors (e e' : InvalidRowError) (h1 : RowErrorStages e) (h2 : RowErrorStages e') :
    e.message = e'.message ↔ e = e' :=
  ⟨row_message_inj e e' h1 h2, fun h => by rw [h]⟩

example := C68_row_errors (.bellOutOfStage ⟨6⟩ ⟨5⟩) (.duplicateBell ⟨2⟩) (by simp only [RowErrorStages]; decide) trivial

theorem decimal_append_inj (m n : Nat) (c : Char) (x y : List Char) (hc : c.isDigit = false)
    (h : decimal m ++ c :: x = decimal n ++ c :: y) : m = n ∧ x = y := by
  obtain ⟨h1, h2⟩ := append_cons_inj c (not_mem_decimal _ _ hc) (not_mem_decimal _ _ hc) h
  exact ⟨decimal_inj _ _ h1, h2⟩

theorem vec_message_inj (e e' : SsvParseError) (h1 : VecErrorStages e) (h2 : VecErrorStages e')
    (h : e.message = e'.message) : e = e' := by
  cases e <;> cases e' <;> simp [SsvParseError.message_zero, SsvParseError.message_row,
    SsvParseError.message_stages] at h ⊢
  · obtain ⟨h3, h4⟩ := decimal_append_inj _ _ ':' _ _ (by decide) h
    simp at h4
    exact ⟨h3, row_message_inj _ _ h1 h2 h4⟩
  · obtain ⟨h3, h4⟩ := decimal_append_inj _ _ ' ' _ _ (by decide) h
    simp at h4
    obtain ⟨h5, h6⟩ := append_cons_inj ')' (Stage.not_mem_display _ h1.2 _ (.inr rfl))
      (Stage.not_mem_display _ h2.2 _ (.inr rfl)) h4
    simp at h6
    exact ⟨h3, Stage.display_inj _ _ h1.1 h2.1 (by rw [h6]), Stage.display_inj _ _ h1.2 h2.2 h5⟩

/-- Different errors about text of several rows have different messages. -/
theorem C68_vec_errors (e e' : SsvParseError) (h1 : VecErrorStages e) (h2 : VecErrorStages e') :
    e.message = e'.message ↔ e = e' :=
  ⟨vec_message_inj e e' h1 h2, fun h => by rw [h]⟩

example := C68_vec_errors (.invalidRow 3 .noBells) (.incompatibleStages 2 ⟨5⟩ ⟨6⟩) trivial
  (by simp only [VecErrorStages]; decide)

theorem C68_block_errors (e e' : BlockParseError) (h1 : BlockErrorStages e) (h2 : BlockErrorStages e') :
    e.message = e'.message ↔ e = e' := by
  refine ⟨fun h => ?_, fun h => by rw [h]⟩
  have hz : ∀ e : SsvParseError, e.message ≠ (BlockParseError.zeroLengthBlock).message := by
    intro e
    cases e <;> simp [SsvParseError.message_zero, SsvParseError.message_row, SsvParseError.message_stages,
      BlockParseError.message_zero]
  cases e <;> cases e'
  · rfl
  · exact absurd h.symm (hz _)
  · exact absurd h (hz _)
  · rw [vec_message_inj _ _ h1 h2 h]

example := C68_block_errors .zeroLengthBlock (.other (.incompatibleStages 2 ⟨5⟩ ⟨6⟩)) trivial
  (by simp only [BlockErrorStages, VecErrorStages]; decide)

/-- Different errors about stages have different messages. -/
theorem C68_stage_errors (e e' : MulIntoError) (h1 : MulErrorStages e) (h2 : MulErrorStages e') :
    e.message = e'.message ↔ e = e' := by
  refine ⟨fun h => ?_, fun h => by rw [h]⟩
  cases e <;> cases e' <;> simp [MulIntoError.message_rhs, MulIntoError.message_into] at h ⊢
  all_goals
    obtain ⟨h3, h4⟩ := Stage.display_space_inj _ _ h1.1 h2.1 _ _ h
    simp at h4
    have h5 := Stage.display_inj _ _ h1.2 h2.2 (by rw [h4])
    rename_i a b
    obtain ⟨a1, a2⟩ := a
    obtain ⟨b1, b2⟩ := b
    simp only at h3 h5
    rw [h3, h5]

example := C68_stage_errors (.rhsStage ⟨⟨5⟩, ⟨6⟩⟩) (.intoStage ⟨⟨5⟩, ⟨6⟩⟩)
  (by simp only [MulErrorStages]; decide) (by simp only [MulErrorStages]; decide)

theorem C68_incompatible_stages (e e' : IncompatibleStages) (h1 : e.lhsStage.Valid ∧ e.rhsStage.Valid)
    (h2 : e'.lhsStage.Valid ∧ e'.rhsStage.Valid) : e.message = e'.message ↔ e = e' := by
  refine ⟨fun h => ?_, fun h => by rw [h]⟩
  obtain ⟨a1, a2⟩ := e
  obtain ⟨b1, b2⟩ := e'
  simp [IncompatibleStages.message_mk] at h
  obtain ⟨h3, h4⟩ := Stage.display_space_inj _ _ h1.1 h2.1 _ _ h
  simp at h4
  have h5 := Stage.display_inj _ _ h1.2 h2.2 (by rw [h4])
  simp only at h3 h5
  rw [h3, h5]

example := C68_incompatible_stages ⟨⟨5⟩, ⟨6⟩⟩ ⟨⟨6⟩, ⟨5⟩⟩ (by decide) (by decide)

/-- Different errors about one piece of place notation have different messages. -/
theorem C68_pn_errors (e e' : PnParseError) (h1 : PnErrorStages e) (h2 : PnErrorStages e') (m : List Char)
    (h : e.message = .ok m) (h' : e'.message = .ok m) : e = e' := by
  have hamb : ∀ p q, PnParseError.message (.ambiguousPlacesBetween p q) = .ok m → p < q ∧
      m = "Ambiguous gap of ".toList ++ decimal (q - p - 1) ++ " bells between places '".toList ++
      (Bell.fromIndex p).name ++ "' and '".toList ++ (Bell.fromIndex q).name ++ "'.".toList := by
    intro p q hm
    by_cases h1 : p ≤ q
    · by_cases h2 : 1 ≤ q - p
      · simp only [PnParseError.message, checkedSub, if_pos h1, if_pos h2, Res.ok_bind] at hm
        exact ⟨by omega, (Except.ok.inj hm).symm⟩
      · simp only [PnParseError.message, checkedSub, if_pos h1, if_neg h2, Res.ok_bind] at hm
        cases hm
    · simp only [PnParseError.message, checkedSub, if_neg h1] at hm
      cases hm
  have hbell : ∀ p q, Bell.fromIndex p = Bell.fromIndex q → p = q := fun p q h => by
    simpa [Bell.fromIndex] using h
  cases e with
  | ambiguousPlacesBetween p q =>
    obtain ⟨hpq, rfl⟩ := hamb p q h
    cases e' with
    | ambiguousPlacesBetween p' q' =>
      obtain ⟨hpq', h''⟩ := hamb p' q' h'
      simp at h''
      obtain ⟨h3, h4⟩ := decimal_append_inj _ _ ' ' _ _ (by decide) h''
      simp at h4
      obtain ⟨h5, -⟩ := Bell.name_quote_inj _ _ _ _ h4
      have := hbell _ _ h5
      have : q = q' := by omega
      simp_all
    | _ => simp [PnParseError.message] at h'
  | _ =>
    cases e' with
    | ambiguousPlacesBetween p' q' =>
      obtain ⟨-, rfl⟩ := hamb p' q' h'
      simp [PnParseError.message] at h
    | _ =>
      replace h := h.trans h'.symm
      simp [PnParseError.message] at h ⊢ <;> first
        | exact hbell _ _ (Bell.name_inj _ _ h)
        | exact Stage.display_inj _ _ h1 h2 (by rw [h])
        | (obtain ⟨h3, h4⟩ := Bell.name_quote_inj _ _ _ _ h
           simp at h4
           try exact ⟨hbell _ _ h3, Stage.display_inj _ _ h1 h2 (by rw [h4])⟩)

example := C68_pn_errors (.oddStageCross ⟨5⟩) (.oddStageCross ⟨5⟩) (by simp only [PnErrorStages]; decide)
  (by simp only [PnErrorStages]; decide) _ rfl rfl

/-- Errors about blocks of place notation with the same message differ at most in where the offending
text ends. -/
theorem C68_pn_block_errors (e e' : PnBlockParseError) (m : List Char) (h : e.message = .ok m)
    (h' : e'.message = .ok m) :
    e = e' ∨ ∃ start stop stop' a a', e = .pnError start stop a ∧ e' = .pnError start stop' a' ∧
      ∃ m', a.message = .ok m' ∧ a'.message = .ok m' := by
  have hpn : ∀ start stop a, PnBlockParseError.message (.pnError start stop a) = .ok m →
      ∃ m', a.message = .ok m' ∧
        m = "Error parsing PN at index ".toList ++ decimal start ++ ": ".toList ++ m' := by
    intro start stop a hm
    cases ha : a.message with
    | error p =>
      simp only [PnBlockParseError.message, ha] at hm
      cases hm
    | ok m' =>
      simp only [PnBlockParseError.message, ha, Res.ok_bind] at hm
      exact ⟨m', rfl, (Except.ok.inj hm).symm⟩
  cases e with
  | pnError start stop a =>
    obtain ⟨m1, ha, rfl⟩ := hpn start stop a h
    cases e' with
    | pnError start' stop' a' =>
      obtain ⟨m2, ha', h''⟩ := hpn start' stop' a' h'
      simp at h''
      obtain ⟨h3, h4⟩ := decimal_append_inj _ _ ':' _ _ (by decide) h''
      simp at h4
      subst h3 h4
      exact .inr ⟨_, _, _, _, _, rfl, rfl, _, ha, ha'⟩
    | _ => simp [PnBlockParseError.message] at h'
  | _ =>
    cases e' with
    | pnError start' stop' a' =>
      obtain ⟨m2, -, rfl⟩ := hpn start' stop' a' h'
      simp [PnBlockParseError.message] at h
    | _ =>
      replace h := h.trans h'.symm
      simp [PnBlockParseError.message] at h ⊢
      first
        | done
        | exact decimal_inj _ _ h

example := C68_pn_block_errors (.pnError 1 3 .noPlacesGiven) (.pnError 1 4 .noPlacesGiven) _ rfl rfl

theorem C68_invalid_pn_blocks (e e' : InvalidPnBlockError) (h1 : PnBlockErrorStages e)
    (h2 : PnBlockErrorStages e') : e.message = e'.message ↔ e = e' := by
  refine ⟨fun h => ?_, fun h => by rw [h]⟩
  cases e <;> cases e' <;> simp [InvalidPnBlockError.message_stages,
    InvalidPnBlockError.message_empty] at h ⊢
  obtain ⟨h3, h4⟩ := append_cons_inj ',' (Stage.not_mem_display _ h1.1 _ (.inl rfl))
    (Stage.not_mem_display _ h2.1 _ (.inl rfl)) h
  simp at h4
  obtain ⟨h5, h6⟩ := decimal_append_inj _ _ 't' _ _ (by decide) h4
  simp at h6
  rename_i i a j b
  obtain ⟨a1, a2⟩ := a
  obtain ⟨b1, b2⟩ := b
  have h7 := Stage.display_inj _ _ h1.1 h2.1 h3
  have h8 := Stage.display_inj _ _ h1.2 h2.2 (by rw [h6])
  simp only at h7 h8
  rw [h7, h8]
  exact ⟨h5, rfl⟩

example : RowErrorStages (.bellOutOfStage ⟨6⟩ ⟨5⟩) ∧
    InvalidRowError.message (.bellOutOfStage ⟨6⟩ ⟨5⟩) = "Bell '7' is not within stage Doubles".toList :=
  ⟨by simp [RowErrorStages, Stage.Valid], by decide⟩

example : PlaceNot.parse "16".toList ⟨8⟩ = .ok (.ok ⟨[0, 5, 6, 7], ⟨8⟩⟩) ∨
    PlaceNot.parse "15".toList ⟨8⟩ = .ok (.error (.ambiguousPlacesBetween 0 4)) := .inr (by decide +kernel)

end Bellframe.Props
