import Verif.Spec.PnBlock
import Verif.Proofs.PlaceNotParse

/-! # Lemmas about blocks of place notation -/

namespace Bellframe

open PnBlock

/-! ## Characters -/

theorem utf8Len_append (a b : List Char) : Bell.utf8Len (a ++ b) = Bell.utf8Len a + Bell.utf8Len b := by
  simp [Bell.utf8Len]

theorem utf8Len_cons (c : Char) (b : List Char) :
    Bell.utf8Len (c :: b) = c.utf8Size + Bell.utf8Len b := by
  simp [Bell.utf8Len]

theorem utf8Len_nil : Bell.utf8Len [] = 0 := rfl

theorem char_cases (c : Char) :
    (∃ b, Bell.fromName c = some b ∧ CharMeaning.ofChar c = .bell b) ∨
    (IsDelimChar c ∧ CharMeaning.ofChar c = .delimiter) ∨
    (IsCrossChar c ∧ CharMeaning.ofChar c = .cross) ∨
    (c = '+' ∧ CharMeaning.ofChar c = .asym) ∨
    (IsOtherChar c ∧ CharMeaning.ofChar c = .unknown) := by
  cases hb : Bell.fromName c with
  | some b =>
    left
    refine ⟨b, rfl, ?_⟩
    unfold CharMeaning.ofChar
    rw [hb]
  | none =>
    right
    unfold CharMeaning.ofChar
    rw [hb]
    by_cases h1 : c = '+'
    · exact .inr (.inr (.inl ⟨h1, by simp [h1]⟩))
    · by_cases h2 : c = ' ' ∨ c = '.'
      · exact .inl ⟨h2, by simp [h1, h2]⟩
      · by_cases h3 : c = 'x' ∨ c = 'X' ∨ c = '-'
        · exact .inr (.inl ⟨h3, by simp [h1, h2, h3]⟩)
        · refine .inr (.inr (.inr ⟨⟨?_, h2, h3, h1⟩, by simp [h1, h2, h3]⟩))
          rintro ⟨b, hb'⟩
          rw [hb] at hb'
          cases hb'

theorem place_not_delim {c : Char} (h : IsPlaceChar c) : ¬ IsDelimChar c ∧ ¬ IsCrossChar c ∧ c ≠ '+' := by
  obtain ⟨b, hb⟩ := h
  refine ⟨?_, ?_, ?_⟩
  · rintro (rfl | rfl) <;> exact absurd hb (by
      rw [show Bell.fromName _ = none by decide]; simp)
  · rintro (rfl | rfl | rfl) <;> exact absurd hb (by
      rw [show Bell.fromName _ = none by decide]; simp)
  · rintro rfl
    exact absurd hb (by rw [show Bell.fromName '+' = none by decide]; simp)

theorem delim_not_cross {c : Char} (h : IsDelimChar c) : ¬ IsCrossChar c ∧ c ≠ '+' := by
  rcases h with rfl | rfl <;> (refine ⟨?_, by decide⟩; unfold IsCrossChar; decide)

theorem cross_not_plus {c : Char} (h : IsCrossChar c) : c ≠ '+' := by
  rcases h with rfl | rfl | rfl <;> decide

/-- A group of places is not a cross. -/
theorem group_not_cross {g : List Char} (h : ∀ c ∈ g, IsPlaceChar c ∨ IsOtherChar c) :
    ¬ IsCrossText g := by
  have : ∀ c, IsCrossChar c → g ≠ [c] := by
    rintro c hc rfl
    rcases h c (by simp) with h | h
    · exact (place_not_delim h).2.1 hc
    · exact h.2.2.1 hc
  rintro (rfl | rfl | rfl)
  · exact this 'x' (.inl rfl) rfl
  · exact this 'X' (.inr (.inl rfl)) rfl
  · exact this '-' (.inr (.inr rfl)) rfl

theorem parse_group {g : List Char} (h : ∀ c ∈ g, IsPlaceChar c ∨ IsOtherChar c) (stage : Stage) :
    PlaceNot.parse g stage =
      PlaceNot.fromSortedSlice (PlaceNot.sortPlaces (givenPlaces g)) stage := by
  unfold PlaceNot.parse
  rw [if_neg (fun hc => group_not_cross h ((isCrossText_iff g).1 hc))]
  rfl

theorem givenPlaces_append (a b : List Char) : givenPlaces (a ++ b) = givenPlaces a ++ givenPlaces b := by
  simp [givenPlaces]

theorem givenPlaces_place {c : Char} {b : Bell} (h : Bell.fromName c = some b) :
    givenPlaces [c] = [b.index] := by simp [givenPlaces, h]

theorem givenPlaces_other {c : Char} (h : IsOtherChar c) : givenPlaces [c] = [] := by
  cases hc : Bell.fromName c with
  | none => simp [givenPlaces, hc]
  | some b => exact absurd ⟨b, hc⟩ h.1

/-- `from_sorted_slice` after sorting never panics. -/
theorem fromSortedSlice_total (l : List Nat) (stage : Stage) :
    ∃ r, PlaceNot.fromSortedSlice (PlaceNot.sortPlaces l) stage = .ok r := by
  rcases fromSortedSlice_spec (n := stage.numBells) _ (sortPlaces_sorted l) with
    ⟨-, h⟩ | ⟨_, -, -, -, h⟩ | ⟨-, _, h, -⟩ | ⟨-, _, _, h, -⟩ | ⟨-, _, h, -⟩ <;> exact ⟨_, h⟩

/-! ## The token loop -/

/-- The tokens of a text that starts at byte `i`, with the final delimiter. -/
def toksFrom : Nat → List Char → List (Nat × CharMeaning)
  | i, [] => [(i, .delimiter)]
  | i, c :: cs => (i, CharMeaning.ofChar c) :: toksFrom (i + c.utf8Size) cs

theorem toksFrom_eq (off : Nat) (block : List Char) : ∀ i,
    (charIndices i block).map (fun p => (p.1 + off, CharMeaning.ofChar p.2)) ++
      [(off + (i + Bell.utf8Len block), CharMeaning.delimiter)] = toksFrom (off + i) block := by
  induction block with
  | nil => intro i; simp [charIndices, toksFrom, Bell.utf8Len]
  | cons c cs ih =>
    intro i
    simp only [charIndices, List.map_cons, List.cons_append, toksFrom, utf8Len_cons]
    rw [← Nat.add_assoc i, ih (i + c.utf8Size)]
    simp [Nat.add_comm, Nat.add_left_comm]

theorem flush_nil (stage : Stage) (start index : Nat) (buf : List PlaceNot) :
    flush stage [] start index buf = .ok (.ok buf) := rfl

theorem flush_ok {stage : Stage} {places : List Nat} {start index : Nat} {buf : List PlaceNot}
    {pn : PlaceNot} (hne : places ≠ [])
    (h : PlaceNot.fromSortedSlice (PlaceNot.sortPlaces places) stage = .ok (.ok pn)) :
    flush stage places start index buf = .ok (.ok (buf ++ [pn])) := by
  unfold flush
  rw [if_neg (by simpa using hne), h]
  rfl

theorem flush_error {stage : Stage} {places : List Nat} {start index : Nat} {buf : List PlaceNot}
    {e : PnParseError} (hne : places ≠ [])
    (h : PlaceNot.fromSortedSlice (PlaceNot.sortPlaces places) stage = .ok (.error e)) :
    flush stage places start index buf = .ok (.error (.pnError start (index + 1) e)) := by
  unfold flush
  rw [if_neg (by simpa using hne), h]
  rfl

/-- A place group read in full is flushed at a delimiter, cross or the end. -/
theorem asymLoop_break {stage : Stage} {off : Nat} {places : List Nat} {pn : PlaceNot}
    (hne : places ≠ [])
    (h : PlaceNot.fromSortedSlice (PlaceNot.sortPlaces places) stage = .ok (.ok pn))
    (i : Nat) (rest : List Char) (hr : ∀ c, rest.head? = some c → IsDelimChar c ∨ IsCrossChar c)
    (start : Nat) (buf : List PlaceNot) :
    asymLoop stage off (toksFrom i rest) places start buf =
      asymLoop stage off (toksFrom i rest) [] start (buf ++ [pn]) := by
  cases rest with
  | nil => simp only [toksFrom, asymLoop, flush_ok hne h, flush_nil, Res.ok_bind]
  | cons c cs =>
    simp only [toksFrom, asymLoop]
    rcases hr c rfl with hc | hc
    · have hm : CharMeaning.ofChar c = .delimiter := by
        rcases hc with rfl | rfl <;> decide
      simp only [hm, flush_ok hne h, flush_nil, Res.ok_bind]
    · have hm : CharMeaning.ofChar c = .cross := (ofChar_cross c).2 hc
      simp only [hm, flush_ok hne h, flush_nil, Res.ok_bind]

/-- Reading a group of places. -/
theorem asymLoop_group {stage : Stage} {off : Nat} (rest : List Char) : ∀ (g : List Char),
    (∀ c ∈ g, IsPlaceChar c ∨ IsOtherChar c) → ∀ (i : Nat) (places : List Nat) (start : Nat)
    (buf : List PlaceNot), ∃ start', asymLoop stage off (toksFrom i (g ++ rest)) places start buf =
      asymLoop stage off (toksFrom (i + Bell.utf8Len g) rest) (places ++ givenPlaces g) start' buf := by
  intro g
  induction g with
  | nil =>
    intro _ i places start buf
    exact ⟨start, by simp [givenPlaces, Bell.utf8Len]⟩
  | cons c g ih =>
    intro hg i places start buf
    have hg' : ∀ c ∈ g, IsPlaceChar c ∨ IsOtherChar c := fun d hd => hg d (by simp [hd])
    simp only [List.cons_append, toksFrom, asymLoop, utf8Len_cons]
    rcases hg c (by simp) with ⟨b, hb⟩ | hc
    · rcases char_cases c with ⟨b', hb', hm⟩ | ⟨h, hm⟩ | ⟨h, hm⟩ | ⟨h, hm⟩ | ⟨h, hm⟩
      · rw [hb] at hb'
        cases hb'
        simp only [hm]
        obtain ⟨s', hs'⟩ := ih hg' (i + c.utf8Size) (places ++ [b.index])
          (if places.isEmpty then i + off else start) buf
        refine ⟨s', ?_⟩
        rw [hs', show c :: g = [c] ++ g from rfl, givenPlaces_append, givenPlaces_place hb]
        simp [Nat.add_assoc]
      · exact absurd h (place_not_delim ⟨b, hb⟩).1
      · exact absurd h (place_not_delim ⟨b, hb⟩).2.1
      · exact absurd h (place_not_delim ⟨b, hb⟩).2.2
      · exact absurd ⟨b, hb⟩ h.1
    · rcases char_cases c with ⟨b', hb', hm⟩ | ⟨h, hm⟩ | ⟨h, hm⟩ | ⟨h, hm⟩ | ⟨h, hm⟩
      · exact absurd ⟨b', hb'⟩ hc.1
      · exact absurd h hc.2.1
      · exact absurd h hc.2.2.1
      · exact absurd h hc.2.2.2
      · simp only [hm]
        obtain ⟨s', hs'⟩ := ih hg' (i + c.utf8Size) places start buf
        refine ⟨s', ?_⟩
        rw [hs', show c :: g = [c] ++ g from rfl, givenPlaces_append, givenPlaces_other hc]
        simp [Nat.add_assoc]

theorem givenPlaces_ne_of_parse {g : List Char} (h : ∀ c ∈ g, IsPlaceChar c ∨ IsOtherChar c)
    {stage : Stage} {pn : PlaceNot} (hp : PlaceNot.parse g stage = .ok (.ok pn)) :
    givenPlaces g ≠ [] := by
  intro hn
  rw [parse_group h, hn] at hp
  cases hp

/-- Correct text is read as its changes. -/
theorem asymLoop_of_body {stage : Stage} {off : Nat} {text : List Char} {pns : List PlaceNot}
    (h : Body stage text pns) : ∀ (i start : Nat) (buf : List PlaceNot),
    asymLoop stage off (toksFrom i text) [] start buf = .ok (.ok (buf ++ pns)) := by
  induction h with
  | nil => intro i start buf; simp [toksFrom, asymLoop, flush_nil]
  | @skip c rest pns hc _ ih =>
    intro i start buf
    simp only [toksFrom, asymLoop]
    rcases char_cases c with ⟨b', hb', hm⟩ | ⟨h, hm⟩ | ⟨h, hm⟩ | ⟨h, hm⟩ | ⟨h, hm⟩
    · rcases hc with hc | hc
      · exact absurd hc (place_not_delim ⟨b', hb'⟩).1
      · exact absurd ⟨b', hb'⟩ hc.1
    · simp only [hm, flush_nil, Res.ok_bind]
      exact ih _ _ _
    · rcases hc with hc | hc
      · exact absurd h (delim_not_cross hc).1
      · exact absurd h hc.2.2.1
    · rcases hc with hc | hc
      · exact absurd h (delim_not_cross hc).2
      · exact absurd h hc.2.2.2
    · simp only [hm]
      exact ih _ _ _
  | @cross c rest pns hc he _ ih =>
    intro i start buf
    have hm : CharMeaning.ofChar c = .cross := (ofChar_cross c).2 hc
    simp only [toksFrom, asymLoop, hm, flush_nil, Res.ok_bind, PlaceNot.cross, if_pos he]
    rw [ih]
    simp
  | @places group rest pn pns hg hp hr _ ih =>
    intro i start buf
    obtain ⟨s', hs'⟩ := asymLoop_group (stage := stage) (off := off) rest group hg i [] start buf
    rw [hs', List.nil_append,
      asymLoop_break (givenPlaces_ne_of_parse hg hp) (by rw [← parse_group hg]; exact hp) _ rest hr, ih]
    simp

/-- The loop never panics. -/
theorem asymLoop_total (stage : Stage) (off : Nat) : ∀ (toks : List (Nat × CharMeaning))
    (places : List Nat) (start : Nat) (buf : List PlaceNot),
    ∃ r, asymLoop stage off toks places start buf = .ok r := by
  have hflush : ∀ places start index buf, ∃ r, flush stage places start index buf = .ok r := by
    intro places start index buf
    by_cases hne : places = []
    · subst hne; exact ⟨_, rfl⟩
    · obtain ⟨r, hr⟩ := fromSortedSlice_total places stage
      cases r with
      | error e => exact ⟨_, flush_error hne hr⟩
      | ok pn => exact ⟨_, flush_ok hne hr⟩
  intro toks
  induction toks with
  | nil => intro places start buf; exact ⟨_, rfl⟩
  | cons t toks ih =>
    obtain ⟨i, m⟩ := t
    intro places start buf
    cases m with
    | bell b => exact ih _ _ _
    | unknown => exact ih _ _ _
    | asym => exact ⟨_, rfl⟩
    | delimiter =>
      simp only [asymLoop]
      obtain ⟨r, hr⟩ := hflush places start (i + off) buf
      rw [hr]
      cases r with
      | error e => exact ⟨_, rfl⟩
      | ok b' => exact ih _ _ _
    | cross =>
      simp only [asymLoop]
      obtain ⟨r, hr⟩ := hflush places start (i + off) buf
      rw [hr]
      cases r with
      | error e => exact ⟨_, rfl⟩
      | ok b' =>
        simp only [Res.ok_bind]
        split
        · exact ⟨_, rfl⟩
        · exact ih _ _ _

/-- Chars without places are skipped. -/
theorem Body.others {stage : Stage} {g rest : List Char} {pns : List PlaceNot}
    (hg : ∀ c ∈ g, IsOtherChar c) (h : Body stage rest pns) : Body stage (g ++ rest) pns := by
  induction g with
  | nil => exact h
  | cons c g ih => exact .skip (.inr (hg c (by simp))) (ih fun d hd => hg d (by simp [hd]))

/-- The group before the current position, as part of a body. -/
theorem Body.group {stage : Stage} {g rest : List Char} {pns : List PlaceNot}
    {start index : Nat} {buf buf' : List PlaceNot}
    (hg : ∀ c ∈ g, IsPlaceChar c ∨ IsOtherChar c)
    (hr : ∀ c, rest.head? = some c → IsDelimChar c ∨ IsCrossChar c)
    (hf : flush stage (givenPlaces g) start index buf = .ok (.ok buf'))
    (h : Body stage rest pns) : ∃ l, buf' = buf ++ l ∧ Body stage (g ++ rest) (l ++ pns) := by
  by_cases hne : givenPlaces g = []
  · rw [hne, flush_nil] at hf
    cases hf
    refine ⟨[], by simp, h.others ?_⟩
    intro c hc
    rcases hg c hc with ⟨b, hb⟩ | hc'
    · exfalso
      obtain ⟨l1, l2, rfl⟩ := List.append_of_mem hc
      rw [show l1 ++ c :: l2 = l1 ++ ([c] ++ l2) from rfl, givenPlaces_append, givenPlaces_append,
        givenPlaces_place hb] at hne
      simp at hne
    · exact hc'
  · obtain ⟨r, hr'⟩ := fromSortedSlice_total (givenPlaces g) stage
    cases r with
    | error e => rw [flush_error hne hr'] at hf; cases hf
    | ok pn =>
      rw [flush_ok hne hr'] at hf
      cases hf
      exact ⟨[pn], rfl, .places hg (by rw [parse_group hg]; exact hr') hr h⟩

/-- What is read successfully is correct text. -/
theorem body_of_asymLoop {stage : Stage} {off : Nat} : ∀ (cs g : List Char),
    (∀ c ∈ g, IsPlaceChar c ∨ IsOtherChar c) → ∀ (i start : Nat) (buf buf' : List PlaceNot),
    asymLoop stage off (toksFrom i cs) (givenPlaces g) start buf = .ok (.ok buf') →
    ∃ pns, buf' = buf ++ pns ∧ Body stage (g ++ cs) pns := by
  intro cs
  induction cs with
  | nil =>
    intro g hg i start buf buf' h
    simp only [toksFrom, asymLoop] at h
    obtain ⟨r, hr⟩ : ∃ r, flush stage (givenPlaces g) start (i + off) buf = r := ⟨_, rfl⟩
    rw [hr] at h
    rcases r with e | (e | b')
    · cases h
    · cases h
    · simp only [Res.ok_bind, Except.ok.injEq] at h
      subst h
      obtain ⟨l, hl, hb⟩ := Body.group hg (rest := []) (by simp) hr .nil
      exact ⟨l ++ [], by simpa using hl, hb⟩
  | cons c cs ih =>
    intro g hg i start buf buf' h
    simp only [toksFrom, asymLoop] at h
    rcases char_cases c with ⟨b, hb, hm⟩ | ⟨hc, hm⟩ | ⟨hc, hm⟩ | ⟨hc, hm⟩ | ⟨hc, hm⟩
    · simp only [hm] at h
      rw [← givenPlaces_place hb, ← givenPlaces_append] at h
      obtain ⟨pns, h1, h2⟩ := ih (g ++ [c]) (by
        intro d hd
        rcases List.mem_append.1 hd with hd | hd
        · exact hg d hd
        · simp at hd; subst hd; exact .inl ⟨b, hb⟩) _ _ _ _ h
      exact ⟨pns, h1, by simpa using h2⟩
    · simp only [hm] at h
      obtain ⟨r, hr⟩ : ∃ r, flush stage (givenPlaces g) start (i + off) buf = r := ⟨_, rfl⟩
      rw [hr] at h
      rcases r with e | (e | b')
      · cases h
      · cases h
      · simp only [Res.ok_bind] at h
        obtain ⟨pns, h1, h2⟩ := ih [] (by simp) _ _ _ _ h
        obtain ⟨l, hl, hb⟩ := Body.group hg (rest := c :: cs) (by simp [hc]) hr
          (.skip (.inl hc) h2)
        exact ⟨l ++ pns, by rw [h1, hl, List.append_assoc], hb⟩
    · simp only [hm] at h
      obtain ⟨r, hr⟩ : ∃ r, flush stage (givenPlaces g) start (i + off) buf = r := ⟨_, rfl⟩
      rw [hr] at h
      rcases r with e | (e | b')
      · cases h
      · cases h
      · simp only [Res.ok_bind, PlaceNot.cross] at h
        by_cases he : stage.numBells % 2 = 0
        · simp only [if_pos he] at h
          obtain ⟨pns, h1, h2⟩ := ih [] (by simp) _ _ _ _ h
          obtain ⟨l, hl, hb⟩ := Body.group hg (rest := c :: cs) (by simp [hc]) hr
            (.cross hc he h2)
          exact ⟨_, by rw [h1, hl, List.append_assoc, List.append_assoc, List.singleton_append], hb⟩
        · simp only [if_neg he] at h
          cases h
    · simp only [hm] at h
      cases h
    · simp only [hm] at h
      have e := givenPlaces_append g [c]
      rw [givenPlaces_other hc, List.append_nil] at e
      rw [← e] at h
      obtain ⟨pns, h1, h2⟩ := ih (g ++ [c]) (by
        intro d hd
        rcases List.mem_append.1 hd with hd | hd
        · exact hg d hd
        · simp at hd; subst hd; exact .inr hc) _ _ _ _ h
      exact ⟨pns, h1, by simpa using h2⟩

theorem fromSortedSlice_ne_cross {l : List Nat} {stage st : Stage} :
    PlaceNot.fromSortedSlice (PlaceNot.sortPlaces l) stage ≠ .ok (.error (.oddStageCross st)) := by
  intro hc
  rcases fromSortedSlice_spec (n := stage.numBells) _ (sortPlaces_sorted l) with
    ⟨-, h⟩ | ⟨_, -, -, -, h⟩ | ⟨-, _, h, -⟩ | ⟨-, _, _, h, -⟩ | ⟨-, _, h, -⟩ <;>
  · rw [show stage = ⟨stage.numBells⟩ from rfl, h] at hc
    simp at hc

theorem shifted_places {k s e : Nat} {err : PnParseError} (h : ∀ st, err ≠ .oddStageCross st) :
    (PnBlockParseError.pnError s e err).shifted k = .pnError (k + s) (k + e + 1) err := by
  cases err <;> first | rfl | exact absurd rfl (h _)

theorem NoOpenGroup.nil : NoOpenGroup [] := by
  intro b c others h
  simp at h

theorem NoOpenGroup.snoc {pre : List Char} {c : Char} (h : ¬ IsPlaceChar c)
    (hp : IsOtherChar c → NoOpenGroup pre) : NoOpenGroup (pre ++ [c]) := by
  intro b d others he ho
  rcases List.eq_nil_or_concat others with rfl | ⟨os, x, rfl⟩
  · obtain ⟨-, h2⟩ := List.append_inj' he rfl
    simp only [List.cons.injEq, and_true] at h2
    exact h2 ▸ h
  · rw [show b ++ d :: os.concat x = (b ++ d :: os) ++ [x] by simp] at he
    obtain ⟨h1, h2⟩ := List.append_inj' he rfl
    simp only [List.cons.injEq, and_true] at h2
    subst h2
    exact hp (ho _ (by simp)) b d os h1 (fun y hy => ho y (by simp [hy]))

theorem NoOpenGroup.junk {junk : List Char} (h : ∀ d ∈ junk, IsDelimChar d ∨ IsOtherChar d) :
    NoOpenGroup junk := by
  intro b c others he _ hc
  rcases h c (by simp [he]) with hd | hd
  · exact (place_not_delim hc).1 hd
  · exact hd.1 hc

/-- What comes next can be read by itself: no group of places is unfinished. -/
def OpenFor (stage : Stage) (pre : List Char) : Prop :=
  NoOpenGroup pre ∧ ∀ q pns, Body stage q pns → IsPart stage (pre ++ q)

theorem OpenFor.isPart {stage : Stage} {pre : List Char} (h : OpenFor stage pre) : IsPart stage pre := by
  simpa using h.2 [] [] .nil

theorem OpenFor.skip {stage : Stage} {pre : List Char} (h : OpenFor stage pre) {c : Char}
    (hc : IsDelimChar c ∨ IsOtherChar c) : OpenFor stage (pre ++ [c]) := by
  refine ⟨.snoc ?_ fun _ => h.1, fun q pns hq => ?_⟩
  · intro hp
    rcases hc with hc | hc
    · exact (place_not_delim hp).1 hc
    · exact hc.1 hp
  · simpa using h.2 (c :: q) pns (.skip hc hq)

theorem OpenFor.group {stage : Stage} {pre g : List Char} {c : Char} {start index : Nat}
    {buf buf' : List PlaceNot} (h : OpenFor stage pre) (hg : ∀ c ∈ g, IsPlaceChar c ∨ IsOtherChar c)
    (hf : flush stage (givenPlaces g) start index buf = .ok (.ok buf'))
    (hc : IsDelimChar c ∨ IsCrossChar c ∧ stage.numBells % 2 = 0) : OpenFor stage (pre ++ g ++ [c]) := by
  refine ⟨.snoc ?_ fun ho => ?_, fun q pns hq => ?_⟩
  · intro hp
    rcases hc with hc | hc
    · exact (place_not_delim hp).1 hc
    · exact (place_not_delim hp).2.1 hc.1
  · rcases hc with hc | hc
    · exact absurd hc ho.2.1
    · exact absurd hc.1 ho.2.2.1
  · have hb : ∃ l, Body stage (c :: q) l := by
      rcases hc with hc | ⟨hc, he⟩
      · exact ⟨_, .skip (.inl hc) hq⟩
      · exact ⟨_, .cross hc he hq⟩
    obtain ⟨l, hl⟩ := hb
    obtain ⟨l', -, h2⟩ := Body.group hg (by
      intro d hd
      simp only [List.head?_cons, Option.some.injEq] at hd
      subst hd
      exact hc.imp id And.left) hf hl
    simpa using h.2 _ _ h2

theorem OpenFor.ends {stage : Stage} {pre g : List Char} {start index : Nat}
    {buf buf' : List PlaceNot} (h : OpenFor stage pre) (hg : ∀ c ∈ g, IsPlaceChar c ∨ IsOtherChar c)
    (hf : flush stage (givenPlaces g) start index buf = .ok (.ok buf')) : IsPart stage (pre ++ g) := by
  obtain ⟨l', -, h2⟩ := Body.group (rest := []) hg (by simp) hf .nil
  simpa using h.2 _ _ h2

/-- An error found when the group before the current position is flushed. -/
theorem flush_wrong {stage : Stage} {off i start : Nat} {pre g rest : List Char}
    {buf : List PlaceNot} {e : PnBlockParseError}
    (hg : ∀ c ∈ g, IsPlaceChar c ∨ IsOtherChar c)
    (hh : g ≠ [] → ∃ c, g.head? = some c ∧ IsPlaceChar c) (ho : OpenFor stage pre)
    (hi : i = off + Bell.utf8Len (pre ++ g)) (hs : g ≠ [] → start = 2 * off + Bell.utf8Len pre)
    (hr : ∀ c, rest.head? = some c → IsDelimChar c ∨ IsCrossChar c)
    (hf : flush stage (givenPlaces g) start (i + off) buf = .ok (.error e)) :
    ∃ before w e0, WrongPart stage (pre ++ g ++ rest) before w e0 ∧ e = e0.shifted (2 * off) := by
  by_cases hne : givenPlaces g = []
  · rw [hne, flush_nil] at hf
    cases hf
  · have hg0 : g ≠ [] := by rintro rfl; exact hne rfl
    obtain ⟨r, hr'⟩ := fromSortedSlice_total (givenPlaces g) stage
    cases r with
    | ok pn => rw [flush_ok hne hr'] at hf; cases hf
    | error err =>
      rw [flush_error hne hr'] at hf
      cases hf
      refine ⟨pre, g, _, .places rfl ho.isPart ho.1 hg (hh hg0) hr (by rw [parse_group hg]; exact hr'), ?_⟩
      rw [shifted_places, hs hg0, hi]
      · congr 1
        omega
      · rintro st rfl
        exact fromSortedSlice_ne_cross hr'

/-- Errors of the loop, with their positions. -/
theorem asymLoop_wrong {stage : Stage} {off : Nat} : ∀ (cs pre g : List Char),
    (∀ c ∈ g, IsPlaceChar c ∨ IsOtherChar c) →
    (g ≠ [] → ∃ c, g.head? = some c ∧ IsPlaceChar c) → OpenFor stage pre →
    ∀ (i start : Nat) (buf : List PlaceNot) (e : PnBlockParseError),
    i = off + Bell.utf8Len (pre ++ g) → (g ≠ [] → start = 2 * off + Bell.utf8Len pre) →
    asymLoop stage off (toksFrom i cs) (givenPlaces g) start buf = .ok (.error e) →
    (∃ q after, g ++ cs = q ++ '+' :: after ∧
      e = .plusNotAtBlockStart (2 * off + Bell.utf8Len (pre ++ q)) ∧
      ∃ right group, pre ++ q = right ++ group ∧ IsPart stage right ∧
        ∀ c ∈ group, IsPlaceChar c ∨ IsOtherChar c) ∨
    ∃ before w e0, WrongPart stage (pre ++ g ++ cs) before w e0 ∧ e = e0.shifted (2 * off) := by
  intro cs
  induction cs with
  | nil =>
    intro pre g hg hh ho i start buf e hi hs h
    simp only [toksFrom, asymLoop] at h
    obtain ⟨r, hr⟩ : ∃ r, flush stage (givenPlaces g) start (i + off) buf = r := ⟨_, rfl⟩
    rw [hr] at h
    rcases r with e' | (e' | b')
    · cases h
    · simp only [Res.ok_bind] at h
      cases h
      exact .inr (flush_wrong hg hh ho hi hs (by simp) hr)
    · cases h
  | cons c cs ih =>
    intro pre g hg hh ho i start buf e hi hs h
    simp only [toksFrom, asymLoop] at h
    have hi' : ∀ l, i + c.utf8Size = off + Bell.utf8Len (pre ++ g ++ [c] ++ l) - Bell.utf8Len l := by
      intro l
      rw [utf8Len_append _ l, utf8Len_append _ [c], hi]
      simp [Bell.utf8Len]
      omega
    rcases char_cases c with ⟨b, hb, hm⟩ | ⟨hc, hm⟩ | ⟨hc, hm⟩ | ⟨hc, hm⟩ | ⟨hc, hm⟩
    · simp only [hm] at h
      have hgc : ∀ d ∈ g ++ [c], IsPlaceChar d ∨ IsOtherChar d := by
        intro d hd
        rcases List.mem_append.1 hd with hd | hd
        · exact hg d hd
        · simp at hd; subst hd; exact .inl ⟨b, hb⟩
      have hhc : g ++ [c] ≠ [] → ∃ d, (g ++ [c]).head? = some d ∧ IsPlaceChar d := by
        intro _
        cases hgg : g with
        | nil => exact ⟨c, rfl, b, hb⟩
        | cons d g' =>
          obtain ⟨d', h1, h2⟩ := hh (by simp [hgg])
          refine ⟨d', ?_, h2⟩
          rw [hgg] at h1
          simpa using h1
      have hsc : g ++ [c] ≠ [] → (if (givenPlaces g).isEmpty then i + off else start) =
          2 * off + Bell.utf8Len pre := by
        intro _
        cases hgg : g with
        | nil =>
          rw [hgg] at hi
          simp [givenPlaces, hi]
          omega
        | cons d g' =>
          have hne : g ≠ [] := by simp [hgg]
          rw [if_neg, hs hne]
          obtain ⟨d', h1, b', hb'⟩ := hh hne
          rw [hgg] at h1
          simp only [List.head?_cons, Option.some.injEq] at h1
          subst h1
          simp [givenPlaces, hb']
      rw [← givenPlaces_place hb, ← givenPlaces_append] at h
      rcases ih pre (g ++ [c]) hgc hhc ho _ _ _ _ (by have := hi' []; simpa [Bell.utf8Len] using this)
        hsc h with ⟨q, after, h1, h2, h3⟩ | ⟨before, w, e0, h1, h2⟩
      · exact .inl ⟨q, after, by simpa using h1, h2, h3⟩
      · exact .inr ⟨before, w, e0, by simpa using h1, h2⟩
    · simp only [hm] at h
      obtain ⟨r, hr⟩ : ∃ r, flush stage (givenPlaces g) start (i + off) buf = r := ⟨_, rfl⟩
      rw [hr] at h
      rcases r with e' | (e' | b')
      · cases h
      · simp only [Res.ok_bind] at h
        cases h
        exact .inr (flush_wrong hg hh ho hi hs (by simp [hc]) hr)
      · simp only [Res.ok_bind] at h
        rcases ih (pre ++ g ++ [c]) [] (by simp) (by simp) (ho.group hg hr (.inl hc)) _ _ _ _
          (by have := hi' []; simpa [Bell.utf8Len] using this) (by simp) h with
          ⟨q, after, h1, h2, h3⟩ | ⟨before, w, e0, h1, h2⟩
        · refine .inl ⟨g ++ [c] ++ q, after, ?_, by simpa using h2, by simpa using h3⟩
          simp only [List.nil_append] at h1
          rw [h1]
          simp
        · exact .inr ⟨before, w, e0, by simpa using h1, h2⟩
    · simp only [hm] at h
      obtain ⟨r, hr⟩ : ∃ r, flush stage (givenPlaces g) start (i + off) buf = r := ⟨_, rfl⟩
      rw [hr] at h
      rcases r with e' | (e' | b')
      · cases h
      · simp only [Res.ok_bind] at h
        cases h
        exact .inr (flush_wrong hg hh ho hi hs (by simp [hc]) hr)
      · simp only [Res.ok_bind, PlaceNot.cross] at h
        by_cases he : stage.numBells % 2 = 0
        · simp only [if_pos he] at h
          rcases ih (pre ++ g ++ [c]) [] (by simp) (by simp) (ho.group hg hr (.inr ⟨hc, he⟩)) _ _ _ _
            (by have := hi' []; simpa [Bell.utf8Len] using this) (by simp) h with
            ⟨q, after, h1, h2, h3⟩ | ⟨before, w, e0, h1, h2⟩
          · refine .inl ⟨g ++ [c] ++ q, after, ?_, by simpa using h2, by simpa using h3⟩
            simp only [List.nil_append] at h1
            rw [h1]
            simp
          · exact .inr ⟨before, w, e0, by simpa using h1, h2⟩
        · simp only [if_neg he] at h
          cases h
          refine .inr ⟨pre ++ g, [c], _, .cross rfl (ho.ends hg hr) hc (by omega), ?_⟩
          simp only [PnBlockParseError.shifted, hi]
          congr 1 <;> omega
    · simp only [hm] at h
      cases h
      refine .inl ⟨g, cs, by rw [hc], ?_, pre, g, rfl, ho.isPart, hg⟩
      rw [hi]
      congr 1
      omega
    · simp only [hm] at h
      by_cases hg0 : g = []
      · subst hg0
        rcases ih (pre ++ [c]) [] (by simp) (by simp) (ho.skip (.inr hc)) _ _ _ _
          (by have := hi' []; simpa [Bell.utf8Len] using this) (by simp) h with
          ⟨q, after, h1, h2, h3⟩ | ⟨before, w, e0, h1, h2⟩
        · refine .inl ⟨[c] ++ q, after, ?_, by simpa using h2, by simpa using h3⟩
          simp only [List.nil_append] at h1 ⊢
          rw [h1]
          simp
        · exact .inr ⟨before, w, e0, by simpa using h1, h2⟩
      · have hgc : ∀ d ∈ g ++ [c], IsPlaceChar d ∨ IsOtherChar d := by
          intro d hd
          rcases List.mem_append.1 hd with hd | hd
          · exact hg d hd
          · simp at hd; subst hd; exact .inr hc
        have eg := givenPlaces_append g [c]
        rw [givenPlaces_other hc, List.append_nil] at eg
        rw [← eg] at h
        rcases ih pre (g ++ [c]) hgc (by
            intro _
            obtain ⟨d, h1, h2⟩ := hh hg0
            refine ⟨d, ?_, h2⟩
            cases hgg : g with
            | nil => exact absurd hgg hg0
            | cons d g' => rw [hgg] at h1; simpa using h1) ho _ _ _ _
          (by have := hi' []; simpa [Bell.utf8Len] using this) (fun _ => hs hg0) h with
          ⟨q, after, h1, h2, h3⟩ | ⟨before, w, e0, h1, h2⟩
        · exact .inl ⟨q, after, by simpa using h1, h2, h3⟩
        · exact .inr ⟨before, w, e0, by simpa using h1, h2⟩

/-! ## One part -/

theorem skipJunk_toks : ∀ (cs : List Char) (i : Nat),
    ((∀ c ∈ cs, IsDelimChar c ∨ IsOtherChar c) ∧ skipJunk (toksFrom i cs) = []) ∨
    ∃ junk c body, cs = junk ++ c :: body ∧ (∀ d ∈ junk, IsDelimChar d ∨ IsOtherChar d) ∧
      (IsPlaceChar c ∨ IsCrossChar c ∨ c = '+') ∧
      skipJunk (toksFrom i cs) = toksFrom (i + Bell.utf8Len junk) (c :: body) := by
  intro cs
  induction cs with
  | nil => intro i; left; simp [toksFrom, skipJunk]
  | cons c cs ih =>
    intro i
    have hcase : ((IsDelimChar c ∨ IsOtherChar c) ∧
        (CharMeaning.ofChar c = .delimiter ∨ CharMeaning.ofChar c = .unknown)) ∨
        ((IsPlaceChar c ∨ IsCrossChar c ∨ c = '+') ∧
        ¬ (CharMeaning.ofChar c = .delimiter ∨ CharMeaning.ofChar c = .unknown)) := by
      rcases char_cases c with ⟨b, hb, hm⟩ | ⟨hc, hm⟩ | ⟨hc, hm⟩ | ⟨hc, hm⟩ | ⟨hc, hm⟩
      · exact .inr ⟨.inl ⟨b, hb⟩, by simp [hm]⟩
      · exact .inl ⟨.inl hc, .inl hm⟩
      · exact .inr ⟨.inr (.inl hc), by simp [hm]⟩
      · exact .inr ⟨.inr (.inr hc), by simp [hm]⟩
      · exact .inl ⟨.inr hc, .inr hm⟩
    rcases hcase with ⟨hc, hm⟩ | ⟨hc, hm⟩
    · have e : skipJunk (toksFrom i (c :: cs)) = skipJunk (toksFrom (i + c.utf8Size) cs) := by
        simp only [toksFrom, skipJunk, if_pos hm]
      rcases ih (i + c.utf8Size) with ⟨h1, h2⟩ | ⟨junk, d, body, h1, h2, h3, h4⟩
      · refine .inl ⟨?_, by rw [e, h2]⟩
        intro d hd
        rcases List.mem_cons.1 hd with rfl | hd
        · exact hc
        · exact h1 d hd
      · refine .inr ⟨c :: junk, d, body, by simp [h1], ?_, h3, ?_⟩
        · intro d hd
          rcases List.mem_cons.1 hd with rfl | hd
          · exact hc
          · exact h2 d hd
        · rw [e, h4, utf8Len_cons, Nat.add_assoc]
    · exact .inr ⟨[], c, cs, rfl, by simp, hc,
        by simp only [toksFrom, skipJunk, if_neg hm]; simp [Bell.utf8Len]⟩

theorem Body.junk {stage : Stage} {g rest : List Char} {pns : List PlaceNot}
    (hg : ∀ c ∈ g, IsDelimChar c ∨ IsOtherChar c) (h : Body stage rest pns) :
    Body stage (g ++ rest) pns := by
  induction g with
  | nil => exact h
  | cons c g ih => exact .skip (hg c (by simp)) (ih fun d hd => hg d (by simp [hd]))

/-- `parse_asym_block` in terms of the loop. -/
theorem parseAsymBlock_cases (block : List Char) (off : Nat) (stage : Stage) :
    ((∀ c ∈ block, IsDelimChar c ∨ IsOtherChar c) ∧
      parseAsymBlock block off stage = .ok (.ok (false, []))) ∨
    (∃ junk body, block = junk ++ '+' :: body ∧ (∀ d ∈ junk, IsDelimChar d ∨ IsOtherChar d) ∧
      parseAsymBlock block off stage = (do
        match ← asymLoop stage off (toksFrom (off + Bell.utf8Len (junk ++ ['+'])) body) [] 0 [] with
        | .error e => return .error e
        | .ok buf => return .ok (true, buf))) ∨
    (∃ junk c body, block = junk ++ c :: body ∧ (∀ d ∈ junk, IsDelimChar d ∨ IsOtherChar d) ∧
      (IsPlaceChar c ∨ IsCrossChar c) ∧
      parseAsymBlock block off stage = (do
        match ← asymLoop stage off (toksFrom (off + Bell.utf8Len junk) (c :: body)) [] 0 [] with
        | .error e => return .error e
        | .ok buf => return .ok (false, buf))) := by
  have hdef : parseAsymBlock block off stage = (do
      let toks := skipJunk (toksFrom off block)
      let isAsymmetric := decide (toks.head?.map Prod.snd = some .asym)
      let toks := if isAsymmetric then toks.tail else toks
      match ← asymLoop stage off toks [] 0 [] with
      | .error e => return .error e
      | .ok buf => return .ok (isAsymmetric, buf)) := by
    have := toksFrom_eq off block 0
    rw [Nat.add_zero, Nat.zero_add] at this
    unfold parseAsymBlock
    simp only [this]
    rfl
  rcases skipJunk_toks block off with ⟨h1, h2⟩ | ⟨junk, c, body, h1, h2, h3, h4⟩
  · left
    refine ⟨h1, ?_⟩
    rw [hdef, h2]
    rfl
  · right
    by_cases hc : c = '+'
    · left
      subst hc
      refine ⟨junk, body, h1, h2, ?_⟩
      rw [hdef, h4]
      have hm : CharMeaning.ofChar '+' = .asym := by decide
      simp only [toksFrom, hm, List.head?_cons, Option.map_some, decide_true, if_true,
        List.tail_cons, utf8Len_append, ← Nat.add_assoc]
      rfl
    · right
      have h3' : IsPlaceChar c ∨ IsCrossChar c := by
        rcases h3 with h | h | h
        · exact .inl h
        · exact .inr h
        · exact absurd h hc
      refine ⟨junk, c, body, h1, h2, h3', ?_⟩
      rw [hdef, h4]
      have hm : CharMeaning.ofChar c ≠ .asym := by
        rcases char_cases c with ⟨b, hb, hm⟩ | ⟨h, hm⟩ | ⟨h, hm⟩ | ⟨h, hm⟩ | ⟨h, hm⟩ <;> simp [hm]
        exact hc h
      have hd : decide (((toksFrom (off + Bell.utf8Len junk) (c :: body)).head?.map Prod.snd) =
          some CharMeaning.asym) = false := by
        simp [toksFrom, hm]
      simp only [hd]
      rfl

theorem parseAsymBlock_total (block : List Char) (off : Nat) (stage : Stage) :
    ∃ r, parseAsymBlock block off stage = .ok r := by
  rcases parseAsymBlock_cases block off stage with ⟨-, h⟩ | ⟨_, _, -, -, h⟩ | ⟨_, _, _, -, -, -, h⟩
  · exact ⟨_, h⟩
  all_goals
    rw [h]
    obtain ⟨r, hr⟩ := asymLoop_total stage off (toksFrom _ _) [] 0 []
    rw [hr]
    cases r <;> exact ⟨_, rfl⟩

theorem Body.no_plus {stage : Stage} {text : List Char} {pns : List PlaceNot}
    (h : Body stage text pns) : '+' ∉ text := by
  induction h with
  | nil => simp
  | skip hc _ ih =>
    rintro hm
    rcases List.mem_cons.1 hm with rfl | hm
    · rcases hc with hc | hc
      · exact (delim_not_cross hc).2 rfl
      · exact hc.2.2.2 rfl
    · exact ih hm
  | cross hc _ _ ih =>
    rintro hm
    rcases List.mem_cons.1 hm with rfl | hm
    · exact cross_not_plus hc rfl
    · exact ih hm
  | places hg _ _ _ ih =>
    rintro hm
    rcases List.mem_append.1 hm with hm | hm
    · rcases hg _ hm with h | h
      · exact (place_not_delim h).2.2 rfl
      · exact h.2.2.2 rfl
    · exact ih hm

theorem junk_no_plus {junk : List Char} (h : ∀ d ∈ junk, IsDelimChar d ∨ IsOtherChar d) :
    '+' ∉ junk := by
  intro hm
  rcases h _ hm with hc | hc
  · exact (delim_not_cross hc).2 rfl
  · exact hc.2.2.2 rfl

theorem split_plus : ∀ {j1 j2 b1 b2 : List Char}, '+' ∉ j1 → '+' ∉ j2 →
    j1 ++ '+' :: b1 = j2 ++ '+' :: b2 → j1 = j2 ∧ b1 = b2 := by
  intro j1
  induction j1 with
  | nil =>
    intro j2 b1 b2 _ h2 he
    cases j2 with
    | nil => simpa using he
    | cons d j2 =>
      simp only [List.nil_append, List.cons_append, List.cons.injEq] at he
      rw [← he.1] at h2
      simp at h2
  | cons d j1 ih =>
    intro j2 b1 b2 h1 h2 he
    cases j2 with
    | nil =>
      simp only [List.nil_append, List.cons_append, List.cons.injEq] at he
      rw [he.1] at h1
      simp at h1
    | cons d2 j2 =>
      simp only [List.cons_append, List.cons.injEq] at he
      simp only [List.mem_cons, not_or] at h1 h2
      obtain ⟨h3, h4⟩ := ih h1.2 h2.2 he.2
      exact ⟨by rw [he.1, h3], h4⟩

/-- A part is read exactly as the specification says. -/
theorem parseAsymBlock_ok_iff (block : List Char) (off : Nat) (stage : Stage) (a : Bool)
    (pns : List PlaceNot) :
    parseAsymBlock block off stage = .ok (.ok (a, pns)) ↔ PartText stage block a pns := by
  have hnil : ∀ cs : List Char, (∀ c ∈ cs, IsDelimChar c ∨ IsOtherChar c) → Body stage cs [] := by
    intro cs h
    simpa using Body.junk (rest := []) h .nil
  rcases parseAsymBlock_cases block off stage with
    ⟨hj, h⟩ | ⟨junk, body, rfl, hj, h⟩ | ⟨junk, c, body, rfl, hj, hc, h⟩
  · rw [h]
    constructor
    · intro he
      cases he
      exact .sym (hnil _ hj)
    · intro hp
      cases hp with
      | sym hb =>
        have h1 := asymLoop_of_body (off := 0) hb 0 0 []
        have h2 := asymLoop_of_body (off := 0) (hnil _ hj) 0 0 []
        rw [h1] at h2
        simp at h2
        rw [h2]
      | asym hj' hb =>
        exact absurd (by simp) (junk_no_plus hj)
  · rw [h]
    constructor
    · intro he
      obtain ⟨r, hr⟩ := asymLoop_total stage off (toksFrom (off + Bell.utf8Len (junk ++ ['+'])) body)
        [] 0 []
      rw [hr] at he
      cases r with
      | error e => cases he
      | ok buf =>
        cases he
        obtain ⟨pns', h1, h2⟩ := body_of_asymLoop body [] (by simp) _ _ _ _ hr
        simp only [List.nil_append] at h1 h2
        subst h1
        exact .asym hj h2
    · intro hp
      generalize hB : junk ++ '+' :: body = B at hp
      cases hp with
      | sym hb => subst hB; exact absurd (by simp) hb.no_plus
      | asym hj' hb =>
        obtain ⟨rfl, rfl⟩ := split_plus (junk_no_plus hj) (junk_no_plus hj') hB
        rw [asymLoop_of_body hb]
        rfl
  · rw [h]
    constructor
    · intro he
      obtain ⟨r, hr⟩ := asymLoop_total stage off (toksFrom (off + Bell.utf8Len junk) (c :: body))
        [] 0 []
      rw [hr] at he
      cases r with
      | error e => cases he
      | ok buf =>
        cases he
        obtain ⟨pns', h1, h2⟩ := body_of_asymLoop (c :: body) [] (by simp) _ _ _ _ hr
        simp only [List.nil_append] at h1 h2
        subst h1
        exact .sym (Body.junk hj h2)
    · intro hp
      generalize hB : junk ++ c :: body = B at hp
      cases hp with
      | sym hb =>
        have h1 := asymLoop_of_body (off := off) hb off 0 []
        subst hB
        -- the skipped characters change nothing
        have hskip : ∀ (j : List Char), (∀ d ∈ j, IsDelimChar d ∨ IsOtherChar d) → ∀ i start,
            asymLoop stage off (toksFrom i (j ++ c :: body)) [] start [] =
              asymLoop stage off (toksFrom (i + Bell.utf8Len j) (c :: body)) [] start [] := by
          intro j
          induction j with
          | nil => intro _ i start; simp [Bell.utf8Len]
          | cons d j ihj =>
            intro hd i start
            rw [utf8Len_cons, ← Nat.add_assoc, ← ihj fun x hx => hd x (by simp [hx])]
            simp only [List.cons_append, toksFrom]
            conv_lhs => unfold asymLoop
            rcases char_cases d with ⟨b, hb, hm⟩ | ⟨h, hm⟩ | ⟨h, hm⟩ | ⟨h, hm⟩ | ⟨h, hm⟩
            · rcases hd d (by simp) with hd' | hd'
              · exact absurd hd' (place_not_delim ⟨b, hb⟩).1
              · exact absurd ⟨b, hb⟩ hd'.1
            · simp only [hm, flush_nil, Res.ok_bind]
            · rcases hd d (by simp) with hd' | hd'
              · exact absurd h (delim_not_cross hd').1
              · exact absurd h hd'.2.2.1
            · rcases hd d (by simp) with hd' | hd'
              · exact absurd h (delim_not_cross hd').2
              · exact absurd h hd'.2.2.2
            · simp only [hm]
        rw [hskip junk hj] at h1
        rw [h1]
        rfl
      | @asym junk' text' _ hj' hb =>
        exfalso
        have aux : ∀ (j j' : List Char), (∀ d ∈ j, IsDelimChar d ∨ IsOtherChar d) →
            (∀ d ∈ j', IsDelimChar d ∨ IsOtherChar d) →
            j ++ c :: body ≠ j' ++ '+' :: text' := by
          have hcn : ¬ (IsDelimChar c ∨ IsOtherChar c) := by
            rcases hc with hc | hc
            · rintro (h | h)
              · exact (place_not_delim hc).1 h
              · exact h.1 hc
            · rintro (h | h)
              · exact (delim_not_cross h).1 hc
              · exact h.2.2.1 hc
          have hcp : c ≠ '+' := by
            rcases hc with hc | hc
            · exact (place_not_delim hc).2.2
            · exact cross_not_plus hc
          intro j
          induction j with
          | nil =>
            intro j' _ h' he
            cases j' with
            | nil => simp only [List.nil_append, List.cons.injEq] at he; exact hcp he.1
            | cons d j' =>
              simp only [List.nil_append, List.cons_append, List.cons.injEq] at he
              exact hcn (he.1 ▸ h' d (by simp))
          | cons d j ihj =>
            intro j' h h' he
            cases j' with
            | nil =>
              simp only [List.nil_append, List.cons_append, List.cons.injEq] at he
              have := h d (by simp)
              rw [he.1] at this
              exact junk_no_plus (junk := ['+']) (by simpa using this) (by simp)
            | cons d' j' =>
              simp only [List.cons_append, List.cons.injEq] at he
              exact ihj j' (fun x hx => h x (by simp [hx])) (fun x hx => h' x (by simp [hx])) he.2
        exact aux _ _ hj hj' hB

/-- The errors of a part. -/
theorem parseAsymBlock_wrong (block : List Char) (off : Nat) (stage : Stage)
    (e : PnBlockParseError) (he : parseAsymBlock block off stage = .ok (.error e)) :
    ∃ before w e0, WrongPart stage block before w e0 ∧ e = e0.shifted (2 * off) := by
  rcases parseAsymBlock_cases block off stage with
    ⟨hj, h⟩ | ⟨junk, body, rfl, hj, h⟩ | ⟨junk, c, body, rfl, hj, hc, h⟩
  · rw [h] at he; cases he
  · rw [h] at he
    obtain ⟨r, hr⟩ := asymLoop_total stage off (toksFrom (off + Bell.utf8Len (junk ++ ['+'])) body)
      [] 0 []
    rw [hr] at he
    cases r with
    | ok buf => cases he
    | error e' =>
      cases he
      rcases asymLoop_wrong body (junk ++ ['+']) [] (by simp) (by simp) ⟨.snoc (by
          intro hp; exact (place_not_delim hp).2.2 rfl) (by intro ho; exact absurd rfl ho.2.2.2),
          fun q pns hq => ⟨true, pns, by simpa using PartText.asym hj hq⟩⟩ _ _ _ _ (by simp) (by simp)
        hr with ⟨q, after, h1, h2, h3⟩ | ⟨before, w, e0, h1, h2⟩
      · refine ⟨junk ++ ['+'] ++ q, ['+'], _, .plus (after := after) ?_ ⟨'+', by simp, by simp⟩ h3, ?_⟩
        · simp only [List.nil_append] at h1
          rw [h1]
          simp
        · rw [h2]; rfl
      · exact ⟨before, w, e0, by simpa using h1, h2⟩
  · rw [h] at he
    obtain ⟨r, hr⟩ := asymLoop_total stage off (toksFrom (off + Bell.utf8Len junk) (c :: body))
      [] 0 []
    rw [hr] at he
    cases r with
    | ok buf => cases he
    | error e' =>
      cases he
      rcases asymLoop_wrong (c :: body) junk [] (by simp) (by simp) ⟨.junk hj, fun q pns hq =>
          ⟨false, pns, .sym (Body.junk hj hq)⟩⟩ _ _ _ _ (by simp) (by simp)
        hr with ⟨q, after, h1, h2, h3⟩ | ⟨before, w, e0, h1, h2⟩
      · simp only [List.nil_append] at h1
        refine ⟨junk ++ q, ['+'], _, .plus (after := after) (by rw [h1]; simp) ?_ h3, ?_⟩
        · cases q with
          | nil =>
            simp only [List.nil_append, List.cons.injEq] at h1
            rcases hc with hc | hc
            · exact absurd h1.1 (place_not_delim hc).2.2
            · exact absurd h1.1 (cross_not_plus hc)
          | cons d q =>
            simp only [List.cons_append, List.cons.injEq] at h1
            refine ⟨d, by simp, ?_⟩
            rw [← h1.1]
            rcases hc with hc | hc
            · exact .inl hc
            · exact .inr (.inl hc)
        · rw [h2]; rfl
      · exact ⟨before, w, e0, by simpa using h1, h2⟩

end Bellframe
