import Verif.Model.SerdeJson
import Verif.Spec.SerdeJson
import Verif.Proofs.JsonWrite

/-! # Lemmas about bells and stages in JSON -/

namespace Bellframe

namespace Json

open JsonGrammar

theorem noNum_digit {rest : List Char} (h : NoNum rest) : rest.head?.any Char.isDigit = false := by
  cases rest with
  | nil => rfl
  | cons c rest =>
    rw [List.head?_cons, Option.any_some]
    exact Bool.eq_false_iff.2 fun hc => h c rfl (Or.inl hc)

theorem num_of_text {n : Int} {t : List Char} (h : Text (.value (.num n)) t) : Num (.num n) t := by
  cases h with
  | num h => exact h

/-- A text that stands for a number is handed to the visitor. -/
theorem fromStr_number {α : Type} (visit : Bell.SerdeValue → Res (Option α)) {n : Int} {text : List Char}
    (h : Document (.num n) text) : fromStr visit text = visitNumber visit (.num n) := by
  obtain ⟨w, t, w', hw, ht, hw', rfl⟩ := h
  have hr : NoNum w' := by
    have := noNum_blanks hw' noNum_nil
    simpa using this
  obtain ⟨c, t', htc, hc, -, -⟩ := text_head ht
  have h1 : skipBlanks (w ++ t ++ w') = t ++ w' := by
    rw [append3, skipBlanks_append hw, htc, List.cons_append, skipBlanks_cons hc]
  rw [fromStr, readForU64, h1, readNumber_complete (num_of_text ht) hr]
  dsimp only
  rw [noNum_digit hr, if_neg (by simp)]
  dsimp only
  rw [skipBlanks_blanks hw']
  cases visitNumber visit (.num n) with
  | error e => rfl
  | ok o => cases o <;> rfl

/-- What is read without an error stands for a number. -/
theorem fromStr_some {α : Type} {visit : Bell.SerdeValue → Res (Option α)} {text : List Char} {a : α}
    (h : fromStr visit text = .ok (some a)) :
    ∃ n, Document (.num n) text ∧ visitNumber visit (.num n) = .ok (some a) := by
  rw [fromStr, readForU64] at h
  cases h1 : readNumber (skipBlanks text) with
  | none => rw [h1] at h; cases h
  | some p =>
    obtain ⟨j, rest⟩ := p
    rw [h1] at h
    dsimp only at h
    cases h2 : rest.head?.any Char.isDigit with
    | true => rw [h2] at h; cases h
    | false =>
      rw [h2, if_neg (by simp)] at h
      dsimp only at h
      cases h3 : visitNumber visit j with
      | error e => rw [h3] at h; cases h
      | ok o =>
        cases o with
        | none => rw [h3] at h; cases h
        | some a' =>
          rw [h3] at h
          dsimp only at h
          split at h
          · rename_i hr
            obtain rfl := Option.some.inj (Except.ok.inj h)
            obtain ⟨t, ht, ht'⟩ := readNumber_sound h1
            obtain ⟨w, hw, hw'⟩ := skipBlanks_split text
            obtain ⟨v, hv, hv'⟩ := skipBlanks_split rest
            rw [hr, List.append_nil] at hv'
            cases j with
            | num n =>
              refine ⟨n, ⟨w, t, v, hw, .num ht, hv, ?_⟩, h3⟩
              rw [append3, ← hv', ← ht']
              exact hw'
            | _ => cases h3
          · cases h

theorem le_ofDigitChars (ds : List Char) : ∀ n : Nat, n ≤ Nat.ofDigitChars 10 ds n := by
  induction ds with
  | nil => intro n; exact Nat.le_refl n
  | cons c ds ih =>
    intro n
    rw [Nat.ofDigitChars_cons]
    exact Nat.le_trans (by omega) (ih _)

/-- The only integer part of value zero is a zero. -/
theorem readInt_zero {cs ds rest : List Char} (h : readInt cs = some (ds, rest))
    (h0 : Nat.ofDigitChars 10 ds 0 = 0) : cs = '0' :: rest := by
  obtain ⟨hi, rfl⟩ := readInt_sound h
  rcases hi with rfl | ⟨⟨hd, ha⟩, h1⟩
  · rfl
  · match ds, hd, ha, h1 with
    | [], hd, _, _ => exact absurd rfl hd
    | c :: ds, _, ha, h1 =>
      have hc := ha c (by simp)
      have h2 := le_ofDigitChars ds (10 * 0 + (c.toNat - '0'.toNat))
      rw [Nat.ofDigitChars_cons] at h0
      rw [h0] at h2
      exfalso
      have h3 : c.toNat ≤ 48 := by
        have : '0'.toNat = 48 := rfl
        omega
      have h4 : c.isDigit = true := isDigit_iff.2 hc
      have h5 : 48 ≤ c.toNat := by
        have : 48 ≤ c.toNat ∧ c.toNat ≤ 57 := by simpa [Char.isDigit, UInt32.le_iff_toNat_le] using h4
        exact this.1
      apply h1
      have h6 : c.toNat = 48 := by omega
      rw [List.head?_cons, ← Char.ofNat_toNat c, h6]

theorem readNumber_zero {cs rest : List Char} (h : readNumber cs = some (.num 0, rest)) :
    cs = '0' :: rest ∧ (rest.head? ≠ some '.' ∧ rest.head? ≠ some 'e' ∧ rest.head? ≠ some 'E') := by
  have hf : ∀ {cs rest : List Char}, readFrac cs = some (false, rest) → rest = cs ∧ cs.head? ≠ some '.' := by
    intro cs rest h
    cases cs with
    | nil => exact ⟨(Prod.mk.inj (Option.some.inj h)).2.symm, by simp⟩
    | cons c cs =>
      rw [readFrac] at h
      split at h
      · cases h1 : readDigits cs with
        | none => rw [h1] at h; cases h
        | some p => rw [h1] at h; cases h
      · rename_i hc
        refine ⟨(Prod.mk.inj (Option.some.inj h)).2.symm, ?_⟩
        simpa using hc
  have he : ∀ {cs rest : List Char}, readExp cs = some (false, rest) →
      rest = cs ∧ cs.head? ≠ some 'e' ∧ cs.head? ≠ some 'E' := by
    intro cs rest h
    cases cs with
    | nil => exact ⟨(Prod.mk.inj (Option.some.inj h)).2.symm, by simp⟩
    | cons c cs =>
      rw [readExp] at h
      split at h
      · cases h1 : readDigits (skipSign cs) with
        | none => rw [h1] at h; cases h
        | some p => rw [h1] at h; cases h
      · rename_i hc
        refine ⟨(Prod.mk.inj (Option.some.inj h)).2.symm, ?_⟩
        simpa [not_or] using hc
  have hv : ∀ {neg : Bool} {ds : List Char} {b : Bool}, Json.num 0 = numValue neg ds b →
      neg = false ∧ b = false ∧ Nat.ofDigitChars 10 ds 0 = 0 := by
    intro neg ds b h
    rw [numValue] at h
    generalize Nat.ofDigitChars 10 ds 0 = n at h ⊢
    split at h
    · cases h
    · rename_i hb
      split at h
      · split at h
        · have := Json.num.inj h
          omega
        · cases h
      · rename_i hn
        split at h
        · have := Json.num.inj h
          exact ⟨by simpa using hn, by simpa using hb, by omega⟩
        · cases h
  have key : ∀ {neg : Bool} {cs : List Char}, readUnsigned neg cs = some (.num 0, rest) →
      neg = false ∧ cs = '0' :: rest ∧ (rest.head? ≠ some '.' ∧ rest.head? ≠ some 'e' ∧ rest.head? ≠ some 'E') := by
    intro neg cs h
    obtain ⟨ds, c1, f, c2, e, h1, h2, h3, h4⟩ := readUnsigned_iff.1 h
    obtain ⟨rfl, hb, h0⟩ := hv h4
    rw [Bool.or_eq_false_iff] at hb
    obtain ⟨rfl, rfl⟩ := hb
    obtain ⟨rfl, h5⟩ := hf h2
    obtain ⟨rfl, h6, h7⟩ := he h3
    exact ⟨rfl, readInt_zero h1 h0, h5, h6, h7⟩
  cases cs with
  | nil => cases h
  | cons c cs =>
    rw [readNumber] at h
    split at h
    · exact absurd (key h).1 (by simp)
    · exact (key h).2

theorem readForU64_zero {text rest : List Char} :
    readForU64 text = some (.num 0, rest) ↔
      skipBlanks text = '0' :: rest ∧ ∀ c, rest.head? = some c → c ∉ "0123456789.eE".toList := by
  have hmem : ∀ c : Char, c ∈ "0123456789.eE".toList ↔ c.isDigit = true ∨ c = '.' ∨ c = 'e' ∨ c = 'E' := by
    intro c
    rw [isDigit_iff]
    have : "0123456789.eE".toList = "0123456789".toList ++ ['.', 'e', 'E'] := by decide
    rw [this, List.mem_append]
    simp only [List.mem_cons, List.not_mem_nil, or_false]
  constructor
  · intro h
    rw [readForU64] at h
    cases h1 : readNumber (skipBlanks text) with
    | none => rw [h1] at h; cases h
    | some p =>
      obtain ⟨j, rest'⟩ := p
      rw [h1] at h
      dsimp only at h
      split at h
      · cases h
      · rename_i hd
        obtain ⟨rfl, rfl⟩ := Prod.mk.inj (Option.some.inj h)
        obtain ⟨h2, h3, h4, h5⟩ := readNumber_zero h1
        refine ⟨h2, fun c hc hm => ?_⟩
        rcases (hmem c).1 hm with h6 | rfl | rfl | rfl
        · rw [hc] at hd
          exact hd h6
        · exact h3 hc
        · exact h4 hc
        · exact h5 hc
  · rintro ⟨h1, h2⟩
    have hr : NoNum rest := fun c hc h => h2 c hc ((hmem c).2 h)
    have hn : Num (.num 0) ['0'] := ⟨[], ['0'], [], [], .inl rfl, .inl rfl, .inl rfl, .inl rfl, rfl, by
      have : Nat.ofDigitChars 10 ['0'] 0 = 0 := rfl
      rw [this]
      exact (if_pos ⟨rfl, rfl, by decide⟩).symm⟩
    rw [readForU64, h1]
    have := readNumber_complete hn hr
    rw [List.singleton_append] at this
    rw [this]
    dsimp only
    rw [noNum_digit hr, if_neg (by simp)]

theorem visitNumber_stage_error {toLower : String → String} {j : Json} {e : Panic}
    (h : visitNumber (Stage.visit toLower) j = .error e) : j = .num 0 ∧ e = .unwrap := by
  cases j with
  | num n =>
    rw [visitNumber] at h
    split at h
    · rename_i hn
      rw [Stage.visit, Stage.tryParseStage, if_neg (by omega)] at h
      cases h
    · rename_i hn
      by_cases h0 : n.toNat = 0
      · have : n = 0 := by omega
        subst this
        exact ⟨rfl, (Except.error.inj h).symm⟩
      · simp [Stage.visit, Stage.new, Stage.tryFrom, h0] at h
  | _ => cases h

/-- Reading a stage panics at a zero. -/
theorem fromStr_stage_error {toLower : String → String} {text : List Char} {e : Panic} :
    fromStr (Stage.visit toLower) text = .error e ↔ BeginsWithZero text ∧ e = .unwrap := by
  constructor
  · intro h
    rw [fromStr] at h
    cases h1 : readForU64 text with
    | none => rw [h1] at h; cases h
    | some p =>
      obtain ⟨j, rest⟩ := p
      rw [h1] at h
      dsimp only at h
      cases h2 : visitNumber (Stage.visit toLower) j with
      | error e' =>
        rw [h2] at h
        obtain rfl := Except.error.inj h
        obtain ⟨rfl, rfl⟩ := visitNumber_stage_error h2
        obtain ⟨h3, h4⟩ := readForU64_zero.1 h1
        obtain ⟨w, hw, hw'⟩ := skipBlanks_split text
        rw [h3] at hw'
        exact ⟨⟨w, rest, hw, hw', h4⟩, rfl⟩
      | ok o =>
        rw [h2] at h
        cases o with
        | none => cases h
        | some a =>
          dsimp only at h
          split at h <;> cases h
  · rintro ⟨⟨w, rest, hw, rfl, hr⟩, rfl⟩
    have h1 : skipBlanks (w ++ '0' :: rest) = '0' :: rest := by
      rw [skipBlanks_append hw, skipBlanks_cons (by decide)]
    rw [fromStr, readForU64_zero.2 ⟨h1, hr⟩]
    rfl

end Json

end Bellframe
