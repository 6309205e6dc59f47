import Verif.Model.Errors
import Verif.Props.BellStage

/-! # Lemmas on the messages of errors -/

namespace Bellframe

theorem decimal_inj (m n : Nat) (h : decimal m = decimal n) : m = n := by
  have := congrArg (Nat.ofDigitChars 10 · 0) h
  simpa [decimal, Nat.ofDigitChars_toDigits] using this

theorem decimal_digits (n : Nat) : ∀ c ∈ decimal n, c.isDigit = true := by
  intro c hc
  exact Nat.isDigit_of_mem_toDigits (by decide) (by decide) hc

/-- Text up to a character that does not occur in it is determined. -/
theorem append_cons_inj {a b x y : List Char} (c : Char) (ha : c ∉ a) (hb : c ∉ b)
    (h : a ++ c :: x = b ++ c :: y) : a = b ∧ x = y := by
  induction a generalizing b with
  | nil =>
    cases b with
    | nil => simpa using h
    | cons d b =>
      simp only [List.nil_append, List.cons_append, List.cons.injEq] at h
      exact absurd (h.1 ▸ List.mem_cons_self) hb
  | cons d a ih =>
    cases b with
    | nil =>
      simp only [List.nil_append, List.cons_append, List.cons.injEq] at h
      exact absurd (h.1 ▸ List.mem_cons_self) ha
    | cons e b =>
      simp only [List.cons_append, List.cons.injEq] at h
      obtain ⟨rfl, h⟩ := h
      obtain ⟨rfl, rfl⟩ := ih (fun h' => ha (List.mem_cons_of_mem _ h'))
        (fun h' => hb (List.mem_cons_of_mem _ h')) h
      exact ⟨rfl, rfl⟩

theorem decimal_ne_nil (n : Nat) : decimal n ≠ [] := Nat.toDigits_ne_nil

theorem not_mem_decimal (n : Nat) (c : Char) (hc : c.isDigit = false) : c ∉ decimal n :=
  fun h => by rw [decimal_digits n c h] at hc; cases hc

theorem Bell.name_no_quote (b : Bell) : '\'' ∉ b.name := by
  rcases Props.C01_name_cases b with ⟨-, c, h1, h2⟩ | ⟨-, -, h⟩
  · rw [h2]
    have hm : c ∈ Bell.bellNames := List.mem_of_getElem? h1
    intro hq
    rw [List.mem_singleton] at hq
    subst hq
    exact absurd hm (by decide)
  · rw [h]
    simp only [List.mem_append, List.mem_singleton, not_or]
    exact ⟨⟨by decide, not_mem_decimal _ _ (by decide)⟩, by decide⟩

theorem Bell.name_inj (a b : Bell) (h : a.name = b.name) : a = b := by
  rcases Props.C01_name_cases a with ⟨-, c, h1, h2⟩ | ⟨-, -, h2⟩ <;>
  rcases Props.C01_name_cases b with ⟨-, d, h3, h4⟩ | ⟨-, -, h4⟩ <;> rw [h2, h4] at h
  · obtain rfl := List.singleton_inj.1 h
    rw [← Props.C01_from_name_iff_to_char] at h1 h3
    exact Option.some.inj (h1.symm.trans h3)
  · have := congrArg List.length h
    simp at this
  · have := congrArg List.length h
    simp at this
  · have h5 := List.append_cancel_right h
    have h6 := decimal_inj _ _ (List.append_cancel_left h5)
    obtain ⟨i⟩ := a
    obtain ⟨j⟩ := b
    simpa using h6

/-- Names followed by a quote are determined. -/
theorem Bell.name_quote_inj (a b : Bell) (x y : List Char)
    (h : a.name ++ '\'' :: x = b.name ++ '\'' :: y) : a = b ∧ x = y := by
  obtain ⟨h1, h2⟩ := append_cons_inj '\'' a.name_no_quote b.name_no_quote h
  exact ⟨a.name_inj b h1, h2⟩

theorem Stage.display_cases (s : Stage) (hs : s.Valid) :
    (∃ nm, s.name = some nm ∧ s.display = nm ∧ nm.toList ≠ [] ∧
      ∀ c ∈ nm.toList, c.isAlpha = true ∨ c = '-') ∨
    (s.name = none ∧ s.display.toList = decimal s.numBells ++ ' ' :: ['b', 'e', 'l', 'l', 's']) := by
  cases hn : s.name with
  | none =>
    right
    refine ⟨rfl, ?_⟩
    rw [Stage.display, hn]
    simp only [String.toList_append]
    congr 1
    exact Nat.toList_repr
  | some nm =>
    left
    refine ⟨nm, rfl, by rw [Stage.display, hn], ?_⟩
    have hr := (Props.C03_named_stages s).1 ⟨nm, hn⟩
    obtain ⟨k⟩ := s
    simp only at hr
    obtain ⟨h1, h2⟩ := hr
    have key : ∀ k ∈ List.range 23, 1 ≤ k → ∀ nm, Stage.name ⟨k⟩ = some nm → nm.toList ≠ [] ∧
        ∀ c ∈ nm.toList, c.isAlpha = true ∨ c = '-' := by
      intro k hk
      simp only [List.mem_range] at hk
      interval_cases k <;> intro h0 nm hnm <;> first | omega | skip
      all_goals
        simp only [Stage.name, Option.some.injEq] at hnm
        subst hnm
        decide
    exact key k (List.mem_range.2 (by omega)) h1 nm hn

theorem alpha_not_digit (c : Char) (h : c.isAlpha = true ∨ c = '-') : c.isDigit = false := by
  rcases h with h | rfl
  · by_contra hd
    rw [Bool.not_eq_false] at hd
    simp only [Char.isAlpha, Char.isUpper, Char.isLower, Char.isDigit, Bool.or_eq_true,
      Bool.and_eq_true, decide_eq_true_eq, ge_iff_le, UInt32.le_iff_toNat_le] at h hd
    have e1 : ('A'.val).toNat = 65 := rfl
    have e2 : ('a'.val).toNat = 97 := rfl
    have e3 : ('9'.val).toNat = 57 := rfl
    have e4 : (65 : UInt32).toNat = 65 := rfl
    have e5 : (97 : UInt32).toNat = 97 := rfl
    have e6 : (57 : UInt32).toNat = 57 := rfl
    omega
  · decide

/-- Stages followed by a space are determined. -/
theorem Stage.display_space_inj (s t : Stage) (hs : s.Valid) (ht : t.Valid) (x y : List Char)
    (h : s.display.toList ++ ' ' :: x = t.display.toList ++ ' ' :: y) : s = t ∧ x = y := by
  have hsp : ∀ l : List Char, (∀ c ∈ l, c.isAlpha = true ∨ c = '-') → ' ' ∉ l := by
    intro l hl hm
    have := hl ' ' hm
    revert this
    decide
  have hmix : ∀ (l : List Char) (n : Nat), l ≠ [] → (∀ c ∈ l, c.isAlpha = true ∨ c = '-') →
      l ≠ decimal n := by
    intro l n hne hl he
    cases l with
    | nil => exact hne rfl
    | cons c l =>
      have h1 := decimal_digits n c (he ▸ List.mem_cons_self)
      rw [alpha_not_digit c (hl c List.mem_cons_self)] at h1
      cases h1
  rcases s.display_cases hs with ⟨a, ha, hda, hna, hla⟩ | ⟨hn, hd⟩ <;>
  rcases t.display_cases ht with ⟨b, hb, hdb, hnb, hlb⟩ | ⟨hn', hd'⟩
  · rw [hda, hdb] at h
    obtain ⟨h1, h2⟩ := append_cons_inj ' ' (hsp _ hla) (hsp _ hlb) h
    have : a = b := String.ext h1
    subst this
    exact ⟨Props.C03_names_injective s t a ha hb, h2⟩
  · rw [hda, hd', List.append_assoc, List.cons_append] at h
    obtain ⟨h1, -⟩ := append_cons_inj ' ' (hsp _ hla) (not_mem_decimal _ _ (by decide)) h
    exact absurd h1 (hmix _ _ hna hla)
  · rw [hdb, hd, List.append_assoc, List.cons_append] at h
    obtain ⟨h1, -⟩ := append_cons_inj ' ' (not_mem_decimal _ _ (by decide)) (hsp _ hlb) h
    exact absurd h1.symm (hmix _ _ hnb hlb)
  · rw [hd, hd', List.append_assoc, List.cons_append, List.append_assoc, List.cons_append] at h
    obtain ⟨h1, h2⟩ := append_cons_inj ' ' (not_mem_decimal _ _ (by decide))
      (not_mem_decimal _ _ (by decide)) h
    obtain ⟨i⟩ := s
    obtain ⟨j⟩ := t
    have := decimal_inj _ _ h1
    simp only at this
    subst this
    simpa using h2

theorem Stage.display_inj (s t : Stage) (hs : s.Valid) (ht : t.Valid)
    (h : s.display.toList = t.display.toList) : s = t :=
  (s.display_space_inj t hs ht [] [] (by rw [h])).1

theorem Stage.not_mem_display (s : Stage) (hs : s.Valid) (c : Char) (hc : c = ',' ∨ c = ')') :
    c ∉ s.display.toList := by
  rcases s.display_cases hs with ⟨a, ha, hda, hna, hla⟩ | ⟨hn, hd⟩
  · rw [hda]
    intro hm
    have := hla c hm
    rcases hc with rfl | rfl <;> revert this <;> decide
  · rw [hd]
    simp only [List.mem_append, not_or]
    rcases hc with rfl | rfl
    · exact ⟨not_mem_decimal _ _ (by decide), by decide⟩
    · exact ⟨not_mem_decimal _ _ (by decide), by decide⟩

/-! ## The messages, constructor by constructor -/

theorem InvalidRowError.message_duplicate (b : Bell) : InvalidRowError.message (.duplicateBell b) =
    "Bell '".toList ++ b.name ++ "' appears twice.".toList := rfl

theorem InvalidRowError.message_outOfStage (b : Bell) (s : Stage) :
    InvalidRowError.message (.bellOutOfStage b s) =
    "Bell '".toList ++ b.name ++ "' is not within stage ".toList ++ s.display.toList := rfl

theorem InvalidRowError.message_missing (b : Bell) : InvalidRowError.message (.missingBell b) =
    "Bell '".toList ++ b.name ++ "' is missing".toList := rfl

theorem InvalidRowError.message_noBells : InvalidRowError.message .noBells =
    "Row would have no bells".toList := rfl

theorem IncompatibleStages.message_mk (s t : Stage) : IncompatibleStages.message ⟨s, t⟩ =
    "Incompatible stages: ".toList ++ s.display.toList ++ " (lhs), ".toList ++
    t.display.toList ++ " (rhs)".toList := rfl

theorem MulIntoError.message_rhs (e : IncompatibleStages) : MulIntoError.message (.rhsStage e) =
    "Can't multiply stage ".toList ++ e.lhsStage.display.toList ++ " with ".toList ++
      e.rhsStage.display.toList := rfl

theorem MulIntoError.message_into (e : IncompatibleStages) : MulIntoError.message (.intoStage e) =
    "Can't write stage ".toList ++ e.lhsStage.display.toList ++ " into ".toList ++
      e.rhsStage.display.toList := rfl

theorem SsvParseError.message_zero : SsvParseError.message .zeroStage =
    "Can't make a `SameStageVec` with stage 0".toList := rfl

theorem SsvParseError.message_row (line : Nat) (err : InvalidRowError) :
    SsvParseError.message (.invalidRow line err) =
    "Error parsing row on line ".toList ++ decimal line ++ ": ".toList ++ err.message := rfl

theorem SsvParseError.message_stages (line : Nat) (s t : Stage) :
    SsvParseError.message (.incompatibleStages line s t) =
    "Row on line ".toList ++ decimal line ++ " has different stage (".toList ++
      t.display.toList ++ ") to the first stage (".toList ++ s.display.toList ++ ")".toList := rfl

theorem BlockParseError.message_zero : BlockParseError.message .zeroLengthBlock =
    "Blocks must contain at least one row".toList := rfl

theorem BlockParseError.message_other (e : SsvParseError) :
    BlockParseError.message (.other e) = e.message := rfl

theorem InvalidPnBlockError.message_stages (i : Nat) (e : IncompatibleStages) :
    InvalidPnBlockError.message (.incompatibleStages i e) =
    "Incompatible stages: First PN has stage ".toList ++ e.lhsStage.display.toList ++
      ", whereas the ".toList ++ decimal i ++ "th has ".toList ++ e.rhsStage.display.toList := rfl

theorem InvalidPnBlockError.message_empty : InvalidPnBlockError.message .emptyBlock =
    "`PnBlock`s can't be empty.".toList := rfl

end Bellframe
