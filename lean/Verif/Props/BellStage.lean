import Verif.Spec
import Verif.Proofs.RowBasic
import Mathlib.Tactic.IntervalCases

/-! # C01–C05: bells, stages, parities -/

namespace Bellframe.Props

/-! ## C01: bell names -/

/-- The 33 names that bells can have, as a reader of the documentation would list them. -/
def validBellNames : List Char :=
  ['1','2','3','4','5','6','7','8','9','0','E','T','A','B','C','D','F','G','H','J','K','L','M','N',
   'P','Q','R','S','U','V','W','Y','Z']

theorem bellNames_eq : Bell.bellNames = validBellNames := by decide

theorem bellNames_nodup : Bell.bellNames.Nodup := by decide

/-- `from_name` and `to_char` are inverse to each other. -/
theorem C01_from_name_iff_to_char (c : Char) (b : Bell) :
    Bell.fromName c = some b ↔ b.toChar = some c := by
  unfold Bell.fromName Bell.toChar
  constructor
  · intro h
    rw [Option.map_eq_some_iff] at h
    obtain ⟨i, hi, rfl⟩ := h
    rw [List.findIdx?_eq_some_iff_getElem] at hi
    obtain ⟨hlt, heq, -⟩ := hi
    rw [Bell.fromIndex_index, List.getElem?_eq_getElem hlt]
    simpa using heq
  · intro h
    obtain ⟨hlt, heq⟩ := List.getElem?_eq_some_iff.1 h
    rw [Option.map_eq_some_iff]
    refine ⟨b.index, ?_, rfl⟩
    rw [List.findIdx?_eq_some_iff_getElem]
    refine ⟨hlt, by simpa using heq, ?_⟩
    intro j hj
    simp only [beq_iff_eq]
    intro hc
    have : j = b.index := (bellNames_nodup.getElem_inj_iff).1 (hc.trans heq.symm)
    omega

/-- A character names a bell exactly when it is one of the 33 bell names. -/
theorem C01_from_name_accepts (c : Char) :
    (∃ b, Bell.fromName c = some b) ↔ c ∈ validBellNames := by
  rw [← bellNames_eq]
  constructor
  · rintro ⟨b, hb⟩
    rw [C01_from_name_iff_to_char] at hb
    exact List.mem_of_getElem? hb
  · intro h
    obtain ⟨i, hi⟩ := List.mem_iff_getElem?.1 h
    exact ⟨⟨i⟩, (C01_from_name_iff_to_char _ _).2 hi⟩

/-- The `i`-th name (from zero) names the bell of index `i`. -/
theorem C01_from_name_position (i : Nat) (h : i < validBellNames.length) :
    Bell.fromName validBellNames[i] = some ⟨i⟩ := by
  rw [C01_from_name_iff_to_char]
  simp [Bell.toChar, bellNames_eq, h]

example : Bell.fromName 'E' = some ⟨10⟩ := C01_from_name_position 10 (by decide)

/-- Different characters name different bells. -/
theorem C01_from_name_injective (c d : Char) (b : Bell)
    (hc : Bell.fromName c = some b) (hd : Bell.fromName d = some b) : c = d := by
  rw [C01_from_name_iff_to_char] at hc hd
  exact Option.some.inj (hc.symm.trans hd)

example : Bell.fromName 'T' = some ⟨11⟩ := by decide

/-- A named bell displays as its one-character name. -/
theorem C01_name_of_named (c : Char) (b : Bell) (h : Bell.fromName c = some b) :
    b.name = [c] := by
  rw [C01_from_name_iff_to_char] at h
  simp [Bell.name, h]

example : (⟨11⟩ : Bell).name = ['T'] := C01_name_of_named 'T' ⟨11⟩ (by decide)

/-- Exactly the first 33 bells have a one-character name; the others display as `<number>`. -/
theorem C01_name_cases (b : Bell) :
    (b.index < 33 ∧ ∃ c, b.toChar = some c ∧ b.name = [c]) ∨
    (33 ≤ b.index ∧ b.toChar = none ∧
      b.name = ['<'] ++ Nat.toDigits 10 (b.index + 1) ++ ['>']) := by
  by_cases h : b.index < 33
  · left
    have hlt : b.index < Bell.bellNames.length := by
      have : Bell.bellNames.length = 33 := by decide
      omega
    refine ⟨h, Bell.bellNames[b.index], by simp [Bell.toChar, hlt], ?_⟩
    simp [Bell.name, Bell.toChar, hlt]
  · right
    have hle : Bell.bellNames.length ≤ b.index := by
      have : Bell.bellNames.length = 33 := by decide
      omega
    have : b.toChar = none := by simp [Bell.toChar, hle]
    exact ⟨by omega, this, by simp [Bell.name, this, Bell.number]⟩

/-- `number` is one more than `index`, `from_number` inverts it and rejects only zero. -/
theorem C01_number (n : Nat) (b : Bell) :
    b.number = b.index + 1 ∧ (Bell.fromNumber n = some b ↔ b.number = n) ∧
    (Bell.fromNumber n = none ↔ n = 0) ∧ (Bell.fromIndex n).index = n := by
  refine ⟨rfl, ?_, ?_, rfl⟩
  · cases n with
    | zero => simp [Bell.fromNumber, Bell.number]
    | succ n =>
      simp only [Bell.fromNumber, Bell.number, Option.some_inj, Bell.fromIndex]
      constructor
      · rintro rfl; rfl
      · intro h; ext; simp; omega
  · cases n <;> simp [Bell.fromNumber]

/-- Adding to a bell and subtracting from it move by that many bells; subtracting panics exactly when it
would go below the treble. -/
theorem C01_arithmetic (b c : Bell) (k : Nat) :
    (b.add k).number = b.number + k ∧ (b.sub k = .ok c ↔ c.number + k = b.number) ∧
    (b.add k).sub k = .ok b ∧ ((∃ p, b.sub k = .error p) ↔ b.number ≤ k) := by
  obtain ⟨i⟩ := b
  obtain ⟨j⟩ := c
  unfold Bell.add Bell.sub Bell.number checkedSub
  refine ⟨by dsimp only; omega, ?_, ?_, ?_⟩
  · dsimp only
    split
    · simp [pure, Except.pure, bind, Except.bind]
      omega
    · simp [bind, Except.bind]
      omega
  · simp [pure, Except.pure, bind, Except.bind]
  · dsimp only
    split
    · simp [pure, Except.pure, bind, Except.bind]
      omega
    · simp [bind, Except.bind]
      omega

example : (Bell.add ⟨3⟩ 4).name = ['8'] ∧ Bell.sub ⟨3⟩ 4 = .error .overflow := by decide

/-! ## C02: serialising bells -/

/-- What a user relies on; the code violates it for every bell. -/
def C02_round_trip_statement : Prop :=
  ∀ b : Bell, Bell.deserialize b.serialize = .ok (some b)

/-- The code writes the zero-based index but reads a one-based number: no bell survives. -/
theorem C02_no_bell_survives_serde (b : Bell) : Bell.deserialize b.serialize ≠ .ok (some b) := by
  unfold Bell.deserialize Bell.serialize Bell.visit
  obtain ⟨i⟩ := b
  cases i with
  | zero => simp [Bell.fromNumber]
  | succ n => simp [Bell.fromNumber, Bell.fromIndex]

theorem C02_round_trip_false : ¬ C02_round_trip_statement :=
  fun h => C02_no_bell_survives_serde ⟨3⟩ (h ⟨3⟩)

/-- What does hold: reading never panics, what is read back is the previous bell (an error for the
treble), and reading back the *number* of a bell, or the char of a named bell, gives that bell. -/
theorem C02_round_trip_partial (b : Bell) :
    (∀ v, ∃ r, Bell.deserialize v = .ok r) ∧
    Bell.deserialize b.serialize = .ok (Bell.fromNumber b.index) ∧
    Bell.deserialize (.u64 b.number) = .ok (some b) ∧
    Bell.deserialize (.int b.number) = .ok (some b) ∧
    (∀ c, b.toChar = some c → Bell.deserialize (.char c) = .ok (some b)) ∧
    (∀ c, b.toChar = some c → Bell.deserialize (.str [c]) = .ok (some b)) := by
  have key : ∀ v : Int, ∃ r, Bell.tryParseBell v = .ok r := by
    intro v
    unfold Bell.tryParseBell
    split
    · obtain ⟨k, hk⟩ : ∃ k, v.toNat = k + 1 := ⟨v.toNat - 1, by omega⟩
      exact ⟨some ⟨k⟩, by simp [hk, Bell.fromNumber, Bell.fromIndex]⟩
    · exact ⟨none, rfl⟩
  refine ⟨?_, rfl, ?_, ?_, ?_, ?_⟩
  · intro v
    cases v with
    | uSmall v => exact key _
    | u64 v => exact ⟨_, rfl⟩
    | int v => exact key _
    | char c => exact ⟨_, rfl⟩
    | str s => unfold Bell.deserialize Bell.visit; dsimp only; split <;> exact ⟨_, rfl⟩
  · simp [Bell.deserialize, Bell.visit, Bell.number, Bell.fromNumber, Bell.fromIndex]
  · have h1 : ((b.index : Int) + 1 > 0) := by omega
    have h2 : ((b.index : Int) + 1).toNat = b.index + 1 := by omega
    simp [Bell.deserialize, Bell.visit, Bell.tryParseBell, Bell.number, h1, h2, Bell.fromNumber,
      Bell.fromIndex]
  · intro c hc
    simp [Bell.deserialize, Bell.visit, (C01_from_name_iff_to_char c b).2 hc]
  · intro c hc
    have hmem : c ∈ validBellNames := (C01_from_name_accepts c).1
      ⟨b, (C01_from_name_iff_to_char c b).2 hc⟩
    have hsz : c.utf8Size = 1 := by
      revert hmem; revert c
      intro c _ hm
      have : ∀ d ∈ validBellNames, d.utf8Size = 1 := by decide
      exact this c hm
    simp [Bell.deserialize, Bell.visit, Bell.utf8Len, hsz,
      (C01_from_name_iff_to_char c b).2 hc]

/-! ## C03: stages -/

/-- Lower-casing of ASCII names. -/
def lowerAscii (s : String) : String := String.ofList (s.toList.map Char.toLower)

/-- The lower-case names are the lower-cased versions of the display names, for every string. -/
theorem C03_names_agree (s : String) (st : Stage) :
    Stage.fromLowerCaseName s = some st ↔ ∃ nm, st.name = some nm ∧ lowerAscii nm = s := by
  constructor
  · intro h
    unfold Stage.fromLowerCaseName at h
    split at h <;> first
      | (simp only [Option.some.injEq] at h; subst h; exact ⟨_, rfl, by decide⟩)
      | simp at h
  · rintro ⟨nm, hnm, rfl⟩
    obtain ⟨k⟩ := st
    unfold Stage.name at hnm
    split at hnm <;> first
      | (rename_i hk; simp only [Option.some.injEq] at hnm; subst hnm; dsimp only at hk; subst hk
         decide)
      | simp at hnm

/-- The names of the stages, from one bell on. -/
def stageNames : List String :=
  ["One", "Two", "Singles", "Minimus", "Doubles", "Minor", "Triples", "Major", "Caters", "Royal", "Cinques",
   "Maximus", "Sextuples", "Fourteen", "Septuples", "Sixteen", "Octuples", "Eighteen", "Nonuples", "Twenty",
   "Decuples", "Twenty-two"]

/-- The names are those of the table, and there are no others. -/
theorem C03_name_table (st : Stage) (h : st.Valid) : st.name = stageNames[st.numBells - 1]? := by
  obtain ⟨k⟩ := st
  change 0 < k at h
  change Stage.name ⟨k⟩ = stageNames[k - 1]?
  by_cases hk : k ≤ 22
  · interval_cases k <;> rfl
  · rw [List.getElem?_eq_none (by simp [stageNames]; omega)]
    unfold Stage.name
    split <;> first | rfl | (rename_i h'; dsimp only at h'; omega)

example : Stage.name ⟨8⟩ = some "Major" ∧ Stage.name ⟨23⟩ = none :=
  ⟨C03_name_table ⟨8⟩ (by decide), C03_name_table ⟨23⟩ (by decide)⟩

/-- The constants of `Stage`, with the names that they are given in the source. -/
def stageConstants : List (String × Stage) :=
  [("ONE", .one), ("TWO", .two), ("SINGLES", .singles), ("MINIMUS", .minimus), ("DOUBLES", .doubles), ("MINOR", .minor),
   ("TRIPLES", .triples), ("MAJOR", .major), ("CATERS", .caters), ("ROYAL", .royal), ("CINQUES", .cinques),
   ("MAXIMUS", .maximus), ("SEXTUPLES", .sextuples), ("FOURTEEN", .fourteen), ("SEPTUPLES", .septuples),
   ("SIXTEEN", .sixteen)]

/-- Each constant is the stage with the name of the constant, and a constant exists for each stage up to sixteen bells. -/
theorem C03_constants :
    (∀ c ∈ stageConstants, c.2.Valid ∧ ∃ nm, c.2.name = some nm ∧ lowerAscii nm = lowerAscii c.1) ∧
    ∀ st : Stage, st.Valid → (st.numBells ≤ 16 ↔ ∃ nm, (nm, st) ∈ stageConstants) := by
  constructor
  · intro c hc
    simp only [stageConstants, List.mem_cons, List.not_mem_nil, or_false] at hc
    rcases hc with rfl | rfl | rfl | rfl | rfl | rfl | rfl | rfl | rfl | rfl | rfl | rfl | rfl | rfl | rfl | rfl <;>
      exact ⟨by decide, _, rfl, by decide +kernel⟩
  · rintro ⟨k⟩ h
    change 0 < k at h
    change k ≤ 16 ↔ _
    constructor
    · intro hk
      interval_cases k <;> exact ⟨_, by simp [stageConstants, Stage.one, Stage.two, Stage.singles, Stage.minimus,
        Stage.doubles, Stage.minor, Stage.triples, Stage.major, Stage.caters, Stage.royal, Stage.cinques, Stage.maximus,
        Stage.sextuples, Stage.fourteen, Stage.septuples, Stage.sixteen]; rfl⟩
    · rintro ⟨nm, hm⟩
      simp only [stageConstants, List.mem_cons, List.not_mem_nil, or_false, Prod.mk.injEq] at hm
      rcases hm with ⟨-, e⟩ | ⟨-, e⟩ | ⟨-, e⟩ | ⟨-, e⟩ | ⟨-, e⟩ | ⟨-, e⟩ | ⟨-, e⟩ | ⟨-, e⟩ | ⟨-, e⟩ | ⟨-, e⟩ |
        ⟨-, e⟩ | ⟨-, e⟩ | ⟨-, e⟩ | ⟨-, e⟩ | ⟨-, e⟩ | ⟨-, e⟩ <;>
      · have := congrArg Stage.numBells e
        change k = _ at this
        rw [this]
        decide

example : Stage.name .minor = some "Minor" ∧ Stage.name .septuples = some "Septuples" := by decide

/-- Exactly the stages from 1 to 22 have names, and the names differ. -/
theorem C03_named_stages (st : Stage) : (∃ nm, st.name = some nm) ↔ 1 ≤ st.numBells ∧ st.numBells ≤ 22 := by
  obtain ⟨k⟩ := st
  constructor
  · rintro ⟨nm, h⟩
    unfold Stage.name at h
    split at h <;> first
      | (rename_i hk; dsimp only at hk ⊢; omega)
      | simp at h
  · rintro ⟨h1, h2⟩
    dsimp only at h1 h2
    interval_cases k <;> exact ⟨_, rfl⟩

theorem C03_names_injective (s t : Stage) (nm : String) (hs : s.name = some nm)
    (ht : t.name = some nm) : s = t := by
  have h1 := (C03_names_agree (lowerAscii nm) s).2 ⟨nm, hs, rfl⟩
  have h2 := (C03_names_agree (lowerAscii nm) t).2 ⟨nm, ht, rfl⟩
  exact Option.some.inj (h1.symm.trans h2)

example := C03_names_injective ⟨6⟩ ⟨6⟩ "Minor" (by decide) (by decide)

/-- No constructor of stages produces a zero stage: `new` panics, `try_from` reports an error. -/
theorem C03_stage_nonzero (n : Nat) (st : Stage) :
    (Stage.tryFrom n = some st ↔ 0 < n ∧ st.numBells = n) ∧
    (Stage.new n = .ok st ↔ 0 < n ∧ st.numBells = n) ∧
    (Stage.new 0 = .error .unwrap) ∧
    (∀ s, Stage.fromLowerCaseName s = some st → st.Valid) := by
  refine ⟨?_, ?_, rfl, ?_⟩
  · unfold Stage.tryFrom
    obtain ⟨k⟩ := st
    split
    · simp; omega
    · simp; omega
  · unfold Stage.new Stage.tryFrom
    obtain ⟨k⟩ := st
    split
    · simp; omega
    · simp; omega
  · intro s h
    obtain ⟨nm, hnm, -⟩ := (C03_names_agree s st).1 h
    have := (C03_named_stages st).1 ⟨nm, hnm⟩
    unfold Stage.Valid; omega

/-- `bells()` lists the bells below the stage in order; `tenor()` is the last of them. -/
theorem C03_stage_bells (st : Stage) (h : st.Valid) :
    st.bells.length = st.numBells ∧ (∀ i < st.numBells, st.bells[i]? = some ⟨i⟩) ∧
    st.tenor = .ok ⟨st.numBells - 1⟩ ∧ st.bells.getLast? = some ⟨st.numBells - 1⟩ ∧
    (st.isEven = true ↔ Even st.numBells) := by
  obtain ⟨k⟩ := st
  unfold Stage.Valid at h
  dsimp only at h ⊢
  refine ⟨by simp [Stage.bells], ?_, ?_, ?_, ?_⟩
  · intro i hi
    simp [Stage.bells, hi, Bell.fromIndex]
  · cases k with
    | zero => omega
    | succ k => simp [Stage.tenor, Bell.fromNumber, Bell.fromIndex]
  · cases k with
    | zero => omega
    | succ k => simp [Stage.bells, List.range_succ, Bell.fromIndex]
  · simp [Stage.isEven, Nat.even_iff]

example : (Stage.mk 12).Valid ∧ Stage.fromLowerCaseName "maximus" = some ⟨12⟩ := by decide

/-! ## C04: serialising stages -/

/-- Reading a stage back gives the same stage. -/
theorem C04_stage_round_trip (toLower : String → String) (st : Stage) (h : st.Valid) :
    Stage.visit toLower st.serialize = .ok (some st) := by
  obtain ⟨k⟩ := st
  unfold Stage.Valid at h
  dsimp only at h
  have : k ≠ 0 := by omega
  simp [Stage.visit, Stage.serialize, Stage.new, Stage.tryFrom, this]

example : (Stage.mk 8).Valid := by decide

/-- What a user relies on: reading returns a stage or an error. -/
def C04_never_panics_statement : Prop :=
  ∀ toLower v, ∃ r, Stage.visit toLower v = .ok r

/-- The code panics when it reads the number zero, in any integer type. -/
theorem C04_zero_panics (toLower : String → String) :
    Stage.visit toLower (.u64 0) = .error .unwrap ∧
    Stage.visit toLower (.uSmall 0) = .error .unwrap ∧
    Stage.visit toLower (.int 0) = .error .unwrap := ⟨rfl, rfl, rfl⟩

theorem C04_never_panics_false : ¬ C04_never_panics_statement := by
  intro h
  obtain ⟨r, hr⟩ := h id (.u64 0)
  rw [(C04_zero_panics id).1] at hr
  simp at hr

/-- Every input except the number zero is read without a panic, and what is read is the right
stage: numbers are themselves, negative numbers are errors, strings are looked up in lower case. -/
theorem C04_never_panics_partial (toLower : String → String) :
    (∀ n, 0 < n → Stage.visit toLower (.u64 n) = .ok (some ⟨n⟩) ∧
      Stage.visit toLower (.uSmall n) = .ok (some ⟨n⟩)) ∧
    (∀ v : Int, 0 < v → Stage.visit toLower (.int v) = .ok (some ⟨v.toNat⟩)) ∧
    (∀ v : Int, v < 0 → Stage.visit toLower (.int v) = .ok none) ∧
    (∀ s, Stage.visit toLower (.str s) =
      .ok (Stage.fromLowerCaseName (toLower (String.ofList s)))) ∧
    (∀ c, ∃ r, Stage.visit toLower (.char c) = .ok r) := by
  refine ⟨?_, ?_, ?_, fun _ => rfl, fun c => ⟨_, rfl⟩⟩
  · intro n hn
    have : n ≠ 0 := by omega
    simp [Stage.visit, Stage.new, Stage.tryFrom, this]
  · intro v hv
    have h1 : 0 ≤ v := by omega
    have h2 : ¬ v ≤ 0 := by omega
    simp [Stage.visit, Stage.tryParseStage, Stage.new, Stage.tryFrom, h1, h2]
  · intro v hv
    have h1 : ¬ 0 ≤ v := by omega
    simp [Stage.visit, Stage.tryParseStage, h1]

/-- For ASCII lower-casing, every stage can be read from its display name. -/
theorem C04_reads_display_name (st : Stage) (nm : String) (h : st.name = some nm) :
    Stage.visit lowerAscii (.str nm.toList) = .ok (some st) := by
  have := (C03_names_agree (lowerAscii nm) st).2 ⟨nm, h, rfl⟩
  simp [Stage.visit, this]

example : Stage.visit lowerAscii (.str "Triples".toList) = .ok (some ⟨7⟩) :=
  C04_reads_display_name ⟨7⟩ "Triples" (by decide)

/-! ## C05: parity -/

/-- The two-element group. -/
theorem C05_parity_group (a b c : Parity) :
    (a.mul b).mul c = a.mul (b.mul c) ∧ a.mul b = b.mul a ∧ a.mul .even = a ∧ a.mul a = .even := by
  revert a b c; intro a b c
  cases a <;> cases b <;> cases c <;> decide

/-- `from_number` is odd exactly on odd numbers and turns addition into multiplication. -/
theorem C05_from_number (m n : Nat) :
    (Parity.fromNumber n = .odd ↔ Odd n) ∧ (Parity.fromNumber n = .even ↔ Even n) ∧
    Parity.fromNumber (m + n) = (Parity.fromNumber m).mul (Parity.fromNumber n) := by
  unfold Parity.fromNumber Parity.mul
  rcases Nat.mod_two_eq_zero_or_one m with hm | hm <;>
  rcases Nat.mod_two_eq_zero_or_one n with hn | hn <;>
  simp [Nat.add_mod, hm, hn, Parity.fromIsOdd, Nat.odd_iff, Nat.even_iff]

/-- The two encodings are faithful. -/
theorem C05_encodings (a b : Parity) :
    (a.zeroOrOne = b.zeroOrOne ↔ a = b) ∧ (a.plusOrMinus = b.plusOrMinus ↔ a = b) ∧
    a.zeroOrOne < 2 ∧ (a.mul b).zeroOrOne = (a.zeroOrOne + b.zeroOrOne) % 2 := by
  cases a <;> cases b <;> decide

/-- What the encodings of the parity of a number are: the remainder by two, and `+` exactly for even numbers. -/
theorem C05_signs (n : Nat) :
    (Parity.fromNumber n).zeroOrOne = n % 2 ∧
    ((Parity.fromNumber n).plusOrMinus = '+' ↔ Even n) ∧
    ((Parity.fromNumber n).plusOrMinus = '-' ↔ Odd n) := by
  unfold Parity.fromNumber
  rcases Nat.mod_two_eq_zero_or_one n with hn | hn <;>
  simp [hn, Parity.fromIsOdd, Parity.zeroOrOne, Parity.plusOrMinus, Nat.odd_iff, Nat.even_iff]

example : (Parity.fromNumber 1000).plusOrMinus = '+' ∧ (Parity.fromNumber 47).plusOrMinus = '-' := by decide

end Bellframe.Props
