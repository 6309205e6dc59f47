import Verif.Proofs.SerdeJson
import Verif.Props.BellStage

/-! # Bells and stages in JSON (C92) -/

namespace Bellframe.Props

open JsonGrammar

/-! ## C92: bells and stages in JSON -/

/-- What the comments in the code promise (src/stage.rs:361-363, src/bell.rs:292-294): a JSON string with the name
of a stage or of a bell is read as that stage or bell, and so is a number. -/
def C92_statement : Prop :=
  (∀ (st : Stage) (name : String) (text : List Char), st.name = some name → Document (.str name) text →
    Stage.ofJsonText lowerAscii text = .ok (some st)) ∧
  (∀ (b : Bell) (c : Char) (text : List Char), b.toChar = some c → Document (.str (String.ofList [c])) text →
    Bell.ofJsonText text = .ok (some b)) ∧
  (∀ (st : Stage) (text : List Char), st.Valid → Document (.num st.numBells) text →
    Stage.ofJsonText lowerAscii text = .ok (some st)) ∧
  ∀ (b : Bell) (text : List Char), Document (.num b.number) text → Bell.ofJsonText text = .ok (some b)

/-- In JSON no string is read as a stage or as a bell. -/
theorem C92_no_names (toLower : String → String) (s : String) (text : List Char) (h : Document (.str s) text) :
    Stage.ofJsonText toLower text = .ok none ∧ Bell.ofJsonText text = .ok none := by
  obtain ⟨w, t, w', hw, ht, hw', rfl⟩ := h
  have h1 : Json.readForU64 (w ++ t ++ w') = none := by
    cases ht with
    | num ht =>
      obtain ⟨sign, int, frac, exp, -, -, -, -, -, hj⟩ := ht
      exfalso
      revert hj
      dsimp only
      split
      · intro hj; cases hj
      · split <;> intro hj <;> cases hj
    | str ht =>
      obtain ⟨t', -, rfl⟩ := ht
      rw [Json.readForU64, Json.append3, Json.skipBlanks_append hw, List.cons_append,
        Json.skipBlanks_cons (by decide), Json.readNumber, if_neg (by decide)]
      rfl
  constructor
  · rw [Stage.ofJsonText, Json.fromStr, h1]
  · rw [Bell.ofJsonText, Json.fromStr, h1]

theorem C92_false : ¬ C92_statement := by
  intro h
  have hd : Document (.str "Major") "\"Major\"".toList := by
    refine ⟨[], _, [], Json.blanks_nil, .str ⟨"Major".toList, ?_, rfl⟩, Json.blanks_nil, by decide⟩
    exact .plain (by decide) (by decide) (by decide) (.plain (by decide) (by decide) (by decide)
      (.plain (by decide) (by decide) (by decide) (.plain (by decide) (by decide) (by decide)
      (.plain (by decide) (by decide) (by decide) .nil))))
  have h1 := h.1 ⟨8⟩ "Major" _ rfl hd
  rw [(C92_no_names lowerAscii _ _ hd).1] at h1
  cases h1

/-- What is read as a stage: exactly the texts that stand for its number of bells, a positive integer. Reading
panics exactly at texts that begin with the number zero, even if no JSON follows; all other texts are errors. -/
theorem C92_stage (toLower : String → String) (text : List Char) :
    (∀ st, Stage.ofJsonText toLower text = .ok (some st) ↔
      0 < st.numBells ∧ Document (.num st.numBells) text) ∧
    (∀ e, Stage.ofJsonText toLower text = .error e ↔ BeginsWithZero text ∧ e = .unwrap) ∧
    (Stage.ofJsonText toLower text = .ok none ↔
      ¬ BeginsWithZero text ∧ ¬ ∃ n : Nat, 0 < n ∧ Document (.num n) text) := by
  have h1 : ∀ st, Stage.ofJsonText toLower text = .ok (some st) ↔
      0 < st.numBells ∧ Document (.num st.numBells) text := by
    intro st
    constructor
    · intro h
      obtain ⟨n, hd, hv⟩ := Json.fromStr_some h
      rw [Json.visitNumber] at hv
      split at hv
      · rename_i hn
        rw [Stage.visit, Stage.tryParseStage, if_neg (by omega)] at hv
        cases hv
      · rename_i hn
        by_cases h0 : n.toNat = 0
        · rw [h0] at hv
          cases hv
        · rw [((C04_never_panics_partial toLower).1 n.toNat (by omega)).1] at hv
          obtain rfl := Option.some.inj (Except.ok.inj hv)
          refine ⟨by simp only; omega, ?_⟩
          have : ((n.toNat : Nat) : Int) = n := by omega
          simp only [this]
          exact hd
    · rintro ⟨h0, hd⟩
      rw [Stage.ofJsonText, Json.fromStr_number _ hd, Json.visitNumber, if_neg (by omega), Int.toNat_natCast,
        ((C04_never_panics_partial toLower).1 _ h0).1]
  have h2 : ∀ e, Stage.ofJsonText toLower text = .error e ↔ BeginsWithZero text ∧ e = .unwrap :=
    fun e => Json.fromStr_stage_error
  refine ⟨h1, h2, ?_⟩
  constructor
  · intro h
    refine ⟨fun hz => ?_, ?_⟩
    · rw [(h2 .unwrap).2 ⟨hz, rfl⟩] at h
      cases h
    · rintro ⟨n, hn, hd⟩
      rw [(h1 ⟨n⟩).2 ⟨hn, hd⟩] at h
      cases h
  · rintro ⟨hz, hd⟩
    cases h : Stage.ofJsonText toLower text with
    | error e => exact absurd ((h2 e).1 h).1 hz
    | ok o =>
      cases o with
      | none => rfl
      | some st => exact absurd ⟨st.numBells, (h1 st).1 h⟩ hd

/-- What is read as a bell: exactly the texts that stand for its number, counted from one. Reading never panics. -/
theorem C92_bell (text : List Char) :
    (∀ b, Bell.ofJsonText text = .ok (some b) ↔ Document (.num b.number) text) ∧
    ∃ r, Bell.ofJsonText text = .ok r := by
  constructor
  · intro b
    constructor
    · intro h
      obtain ⟨n, hd, hv⟩ := Json.fromStr_some h
      rw [Json.visitNumber] at hv
      split at hv
      · rename_i hn
        rw [Bell.visit, Bell.tryParseBell, if_neg (by omega)] at hv
        cases hv
      · rename_i hn
        rw [Bell.visit] at hv
        have hv := Except.ok.inj hv
        have : n = b.number := by
          cases h0 : n.toNat with
          | zero => rw [h0] at hv; cases hv
          | succ k =>
            rw [h0] at hv
            obtain rfl := Option.some.inj hv
            change n = ((k + 1 : Nat) : Int)
            omega
        rw [← this]
        exact hd
    · intro hd
      rw [Bell.ofJsonText, Json.fromStr_number _ hd, Json.visitNumber, if_neg (by omega), Int.toNat_natCast]
      exact (C02_round_trip_partial b).2.2.1
  · have hv : ∀ j, ∃ r, Json.visitNumber Bell.visit j = .ok r := by
      intro j
      cases j with
      | num n =>
        rw [Json.visitNumber]
        split
        · exact (C02_round_trip_partial ⟨0⟩).1 _
        · exact (C02_round_trip_partial ⟨0⟩).1 _
      | _ => exact ⟨none, rfl⟩
    rw [Bell.ofJsonText, Json.fromStr]
    cases h1 : Json.readForU64 text with
    | none => exact ⟨none, rfl⟩
    | some p =>
      obtain ⟨r, hr⟩ := hv p.1
      dsimp only
      rw [hr]
      cases r with
      | none => exact ⟨none, rfl⟩
      | some a =>
        dsimp only
        split
        · exact ⟨_, rfl⟩
        · exact ⟨_, rfl⟩

/-- What does hold of the promise: numbers are read, and a stage that was written is read back. A bell that was
written is read back as the bell below it, and the treble as an error. -/
theorem C92_partial :
    (∀ (toLower : String → String) (st : Stage) (text : List Char), st.Valid → Document (.num st.numBells) text →
      Stage.ofJsonText toLower text = .ok (some st)) ∧
    (∀ (b : Bell) (text : List Char), Document (.num b.number) text → Bell.ofJsonText text = .ok (some b)) ∧
    (∀ (toLower : String → String) (st : Stage), st.Valid → st.numBells < 2 ^ 64 →
      Document (.num st.numBells) st.toJsonText ∧ Stage.ofJsonText toLower st.toJsonText = .ok (some st)) ∧
    (∀ i : Nat, i < 2 ^ 64 → Document (.num i) (Bell.mk i).toJsonText) ∧
    (Bell.ofJsonText (Bell.mk 0).toJsonText = .ok none) ∧
    ∀ i, i + 1 < 2 ^ 64 → Bell.ofJsonText (Bell.mk (i + 1)).toJsonText = .ok (some ⟨i⟩) := by
  have hw : ∀ n : Nat, n < 2 ^ 64 → Document (.num n) (Json.write (.num n)) := fun n hn =>
    Json.read_iff.1 (Json.read_write (.num (by omega) (by omega)))
  have hs : ∀ (toLower : String → String) (st : Stage) (text : List Char), st.Valid →
      Document (.num st.numBells) text → Stage.ofJsonText toLower text = .ok (some st) :=
    fun toLower st text hst hd => ((C92_stage toLower text).1 st).2 ⟨hst, hd⟩
  have hb : ∀ (b : Bell) (text : List Char), Document (.num b.number) text → Bell.ofJsonText text = .ok (some b) :=
    fun b text hd => ((C92_bell text).1 b).2 hd
  refine ⟨hs, hb, fun toLower st hst hlt => ⟨hw _ hlt, hs _ _ _ hst (hw _ hlt)⟩, fun i hi => hw i hi, rfl, ?_⟩
  intro i hi
  exact hb ⟨i⟩ _ (hw (i + 1) hi)

/-! ## Examples -/

example : Document (.num 8) " 8\n".toList := Json.read_iff.1 (by rfl)

example : Stage.ofJsonText lowerAscii "12 ".toList = .ok (some ⟨12⟩) ∧
    Stage.ofJsonText lowerAscii "\"Maximus\"".toList = .ok none ∧
    Stage.ofJsonText lowerAscii "0, 1]".toList = .error .unwrap ∧
    Stage.ofJsonText lowerAscii "-0".toList = .ok none ∧ Stage.ofJsonText lowerAscii "012".toList = .ok none ∧
    Bell.ofJsonText "1".toList = .ok (some ⟨0⟩) ∧ Bell.ofJsonText "\"1\"".toList = .ok none ∧
    (Bell.mk 4).toJsonText = "4".toList ∧ Bell.ofJsonText "4".toList = .ok (some ⟨3⟩) := by decide +kernel

end Bellframe.Props
