import Verif.Proofs.PnBlockParse

/-! # Wrong texts are rejected with their errors (C35) -/

namespace Bellframe

open PnBlock

theorem asymLoop_junk {stage : Stage} {off : Nat} {rest : List Char} {buf : List PlaceNot} :
    ∀ (j : List Char), (∀ d ∈ j, IsDelimChar d ∨ IsOtherChar d) → ∀ i start,
    asymLoop stage off (toksFrom i (j ++ rest)) [] start buf =
      asymLoop stage off (toksFrom (i + Bell.utf8Len j) rest) [] start buf := by
  intro j
  induction j with
  | nil => intro _ i start; simp [Bell.utf8Len]
  | cons d j ihj =>
    intro hd i start
    rw [utf8Len_cons, ← Nat.add_assoc, ← ihj fun x hx => hd x (by simp [hx])]
    simp only [List.cons_append, toksFrom]
    conv_lhs => unfold asymLoop
    rcases char_cases d with ⟨b, hb, hm⟩ | ⟨h, hm⟩ | ⟨h, hm⟩ | ⟨h, hm⟩ | ⟨h, hm⟩
    · rcases hd d (by simp) with hd' | hd'
      · exact absurd hd' (place_not_delim ⟨b, hb⟩).1
      · exact absurd ⟨b, hb⟩ hd'.1
    · simp only [hm, flush_nil, Res.ok_bind]
    · rcases hd d (by simp) with hd' | hd'
      · exact absurd h (delim_not_cross hd').1
      · exact absurd h hd'.2.2.1
    · rcases hd d (by simp) with hd' | hd'
      · exact absurd h (delim_not_cross hd').2
      · exact absurd h hd'.2.2.2
    · simp only [hm]

/-- Reading a body that is followed by more text: the group at its end must be at an end. -/
theorem asymLoop_body_then {stage : Stage} {off : Nat} {text : List Char} {pns : List PlaceNot}
    (h : Body stage text pns) : ∀ (rest : List Char),
    (NoOpenGroup text ∨ ∀ c, rest.head? = some c → IsDelimChar c ∨ IsCrossChar c) →
    ∀ (i start : Nat) (buf : List PlaceNot),
    ∃ start', asymLoop stage off (toksFrom i (text ++ rest)) [] start buf =
      asymLoop stage off (toksFrom (i + Bell.utf8Len text) rest) [] start' (buf ++ pns) := by
  induction h with
  | nil => intro rest _ i start buf; exact ⟨start, by simp [Bell.utf8Len]⟩
  | @skip c text pns hc _ ih =>
    intro rest ho i start buf
    obtain ⟨s', hs'⟩ := ih rest (ho.imp_left fun h b d os he => h (c :: b) d os (by simp [he]))
      (i + c.utf8Size) start buf
    refine ⟨s', ?_⟩
    have := asymLoop_junk (stage := stage) (off := off) (rest := text ++ rest) (buf := buf) [c]
      (by simpa using hc) i start
    rw [utf8Len_cons, ← Nat.add_assoc, ← hs']
    simpa [Bell.utf8Len] using this
  | @cross c text pns hc he _ ih =>
    intro rest ho i start buf
    obtain ⟨s', hs'⟩ := ih rest (ho.imp_left fun h b d os he => h (c :: b) d os (by simp [he]))
      (i + c.utf8Size) start (buf ++ [⟨[], stage⟩])
    refine ⟨s', ?_⟩
    have hm : CharMeaning.ofChar c = .cross := (ofChar_cross c).2 hc
    rw [utf8Len_cons, ← Nat.add_assoc]
    simp only [List.cons_append, toksFrom]
    conv_lhs => unfold asymLoop
    simp only [hm, flush_nil, Res.ok_bind, PlaceNot.cross, if_pos he]
    rw [hs']
    simp
  | @places group text pn pns hg hp hr _ ih =>
    intro rest ho i start buf
    obtain ⟨s1, hs1⟩ := asymLoop_group (stage := stage) (off := off) (text ++ rest) group hg i [] start buf
    have hhead : ∀ c, (text ++ rest).head? = some c → IsDelimChar c ∨ IsCrossChar c := by
      cases text with
      | cons d text => intro c hc; exact hr c (by simpa using hc)
      | nil =>
        rcases ho with ho | ho
        · exfalso
          -- the last place of the group is open
          have hlast : ∀ g : List Char, (∀ c ∈ g, IsPlaceChar c ∨ IsOtherChar c) →
              givenPlaces g ≠ [] → ∃ b c os, g = b ++ c :: os ∧ (∀ d ∈ os, IsOtherChar d) ∧ IsPlaceChar c := by
            intro g
            induction g using List.reverseRecOn with
            | nil => intro _ h; exact absurd rfl h
            | append_singleton g c ihg =>
              intro hg hne
              rcases hg c (by simp) with hc | hc
              · exact ⟨g, c, [], by simp, by simp, hc⟩
              · rw [givenPlaces_append, givenPlaces_other hc, List.append_nil] at hne
                obtain ⟨b, d, os, h1, h2, h3⟩ := ihg (fun x hx => hg x (by simp [hx])) hne
                refine ⟨b, d, os ++ [c], by simp [h1], ?_, h3⟩
                intro x hx
                rcases List.mem_append.1 hx with hx | hx
                · exact h2 x hx
                · simp at hx; exact hx ▸ hc
          obtain ⟨b, c, os, h1, h2, h3⟩ := hlast group hg (givenPlaces_ne_of_parse hg hp)
          exact ho b c os (by simp [h1]) h2 h3
        · exact ho
    obtain ⟨s2, hs2⟩ := ih rest (ho.imp_left fun h b d os he => h (group ++ b) d os (by simp [he]))
      (i + Bell.utf8Len group) s1 (buf ++ [pn])
    refine ⟨s2, ?_⟩
    rw [List.append_assoc, hs1, List.nil_append, asymLoop_break (givenPlaces_ne_of_parse hg hp)
      (by rw [← parse_group hg]; exact hp) _ _ hhead, hs2, utf8Len_append]
    simp [Nat.add_assoc]

/-- The start of a group stays where it is. -/
theorem asymLoop_group_start {stage : Stage} {off : Nat} (rest : List Char) : ∀ (g : List Char),
    (∀ c ∈ g, IsPlaceChar c ∨ IsOtherChar c) → ∀ (i : Nat) (places : List Nat) (start : Nat)
    (buf : List PlaceNot), places ≠ [] → asymLoop stage off (toksFrom i (g ++ rest)) places start buf =
      asymLoop stage off (toksFrom (i + Bell.utf8Len g) rest) (places ++ givenPlaces g) start buf := by
  intro g
  induction g with
  | nil => intro _ i places start buf _; simp [givenPlaces, Bell.utf8Len]
  | cons c g ih =>
    intro hg i places start buf hne
    have hg' : ∀ c ∈ g, IsPlaceChar c ∨ IsOtherChar c := fun d hd => hg d (by simp [hd])
    simp only [List.cons_append, toksFrom, utf8Len_cons]
    conv_lhs => unfold asymLoop
    rw [show c :: g = [c] ++ g from rfl, givenPlaces_append, ← Nat.add_assoc]
    rcases hg c (by simp) with ⟨b, hb⟩ | hc
    · have hm : CharMeaning.ofChar c = .bell b := by
        rcases char_cases c with ⟨b', hb', hm⟩ | ⟨h, hm⟩ | ⟨h, hm⟩ | ⟨h, hm⟩ | ⟨h, hm⟩
        · rw [hb] at hb'; cases hb'; exact hm
        · exact absurd h (place_not_delim ⟨b, hb⟩).1
        · exact absurd h (place_not_delim ⟨b, hb⟩).2.1
        · exact absurd h (place_not_delim ⟨b, hb⟩).2.2
        · exact absurd ⟨b, hb⟩ h.1
      simp only [hm]
      rw [if_neg (by simpa using hne), ih hg' _ _ _ _ (by simp), givenPlaces_place hb]
      simp
    · have hm : CharMeaning.ofChar c = .unknown := by
        rcases char_cases c with ⟨b', hb', hm⟩ | ⟨h, hm⟩ | ⟨h, hm⟩ | ⟨h, hm⟩ | ⟨h, hm⟩
        · exact absurd ⟨b', hb'⟩ hc.1
        · exact absurd h hc.2.1
        · exact absurd h hc.2.2.1
        · exact absurd h hc.2.2.2
        · exact hm
      simp only [hm]
      rw [ih hg' _ _ _ _ hne, givenPlaces_other hc]
      simp

/-- A wrong group of places. -/
theorem asymLoop_group_error {stage : Stage} {off : Nat} {group after : List Char} {e : PnParseError}
    (hg : ∀ c ∈ group, IsPlaceChar c ∨ IsOtherChar c) (hh : ∃ c, group.head? = some c ∧ IsPlaceChar c)
    (ha : ∀ c, after.head? = some c → IsDelimChar c ∨ IsCrossChar c)
    (he : PlaceNot.parse group stage = .ok (.error e)) (i start : Nat) (buf : List PlaceNot) :
    asymLoop stage off (toksFrom i (group ++ after)) [] start buf =
      .ok (.error (.pnError (i + off) (i + Bell.utf8Len group + off + 1) e)) := by
  obtain ⟨c, hc, b, hb⟩ := hh
  cases group with
  | nil => simp at hc
  | cons d group =>
    simp only [List.head?_cons, Option.some.injEq] at hc
    subst hc
    have hm : CharMeaning.ofChar d = .bell b := by
      rcases char_cases d with ⟨b', hb', hm⟩ | ⟨h, hm⟩ | ⟨h, hm⟩ | ⟨h, hm⟩ | ⟨h, hm⟩
      · rw [hb] at hb'; cases hb'; exact hm
      · exact absurd h (place_not_delim ⟨b, hb⟩).1
      · exact absurd h (place_not_delim ⟨b, hb⟩).2.1
      · exact absurd h (place_not_delim ⟨b, hb⟩).2.2
      · exact absurd ⟨b, hb⟩ h.1
    rw [parse_group hg] at he
    have hne : givenPlaces (d :: group) ≠ [] := by
      rw [show d :: group = [d] ++ group from rfl, givenPlaces_append, givenPlaces_place hb]
      simp
    simp only [List.cons_append, toksFrom]
    unfold asymLoop
    simp only [hm, List.nil_append, List.isEmpty_nil, if_true]
    rw [asymLoop_group_start _ _ (fun c hc => hg c (by simp [hc])) _ _ _ _ (by simp),
      ← givenPlaces_place hb, ← givenPlaces_append, show [d] ++ group = d :: group from rfl,
      Nat.add_assoc i, ← utf8Len_cons]
    cases after with
    | nil => simp only [toksFrom, asymLoop, flush_error hne he, Res.ok_bind, Res.pure_eq]
    | cons c after =>
      simp only [toksFrom, asymLoop]
      rcases ha c rfl with hc | hc
      · have hm : CharMeaning.ofChar c = .delimiter := by
          rcases hc with rfl | rfl <;> decide
        simp only [hm, flush_error hne he, Res.ok_bind, Res.pure_eq]
      · have hm : CharMeaning.ofChar c = .cross := (ofChar_cross c).2 hc
        simp only [hm, flush_error hne he, Res.ok_bind, Res.pure_eq]

/-- A `+` after correct text and perhaps a group of places. -/
theorem asymLoop_plus {stage : Stage} {off : Nat} {right group after : List Char} {pns : List PlaceNot}
    (h : Body stage right pns) (hg : ∀ c ∈ group, IsPlaceChar c ∨ IsOtherChar c) :
    ∀ (i start : Nat) (buf : List PlaceNot),
    asymLoop stage off (toksFrom i (right ++ group ++ '+' :: after)) [] start buf =
      .ok (.error (.plusNotAtBlockStart (i + Bell.utf8Len (right ++ group) + off))) := by
  have hplus : ∀ (g : List Char), (∀ c ∈ g, IsPlaceChar c ∨ IsOtherChar c) → ∀ i start buf,
      asymLoop stage off (toksFrom i (g ++ '+' :: after)) [] start buf =
        .ok (.error (.plusNotAtBlockStart (i + Bell.utf8Len g + off))) := by
    intro g hg i start buf
    obtain ⟨s', hs'⟩ := asymLoop_group (stage := stage) (off := off) ('+' :: after) g hg i [] start buf
    rw [hs']
    have hm : CharMeaning.ofChar '+' = .asym := by decide
    simp only [toksFrom, asymLoop, hm, Res.pure_eq]
  induction h with
  | nil => intro i start buf; simpa using hplus group hg i start buf
  | @skip c text pns hc _ ih =>
    intro i start buf
    have := asymLoop_junk (stage := stage) (off := off) (rest := text ++ group ++ '+' :: after)
      (buf := buf) [c] (by simpa using hc) i start
    rw [ih] at this
    simpa [utf8Len_cons, utf8Len_nil, Nat.add_assoc] using this
  | @cross c text pns hc he _ ih =>
    intro i start buf
    have hm : CharMeaning.ofChar c = .cross := (ofChar_cross c).2 hc
    simp only [List.cons_append, toksFrom]
    unfold asymLoop
    simp only [hm, flush_nil, Res.ok_bind, PlaceNot.cross, if_pos he]
    rw [ih]
    simp [utf8Len_cons, Nat.add_assoc]
  | @places g text pn pns hg' hp hr _ ih =>
    intro i start buf
    cases text with
    | nil =>
      rw [List.append_nil]
      refine hplus (g ++ group) ?_ i start buf
      intro c hc
      rcases List.mem_append.1 hc with hc | hc
      · exact hg' c hc
      · exact hg c hc
    | cons d text =>
      obtain ⟨s1, hs1⟩ := asymLoop_group (stage := stage) (off := off)
        (d :: text ++ group ++ '+' :: after) g hg' i [] start buf
      rw [show g ++ d :: text ++ group ++ '+' :: after = g ++ (d :: text ++ group ++ '+' :: after) by simp,
        hs1, List.nil_append, asymLoop_break (givenPlaces_ne_of_parse hg' hp)
        (by rw [← parse_group hg']; exact hp) _ _ (by simpa using hr), ih]
      rw [List.append_assoc g, utf8Len_append g]
      simp [Nat.add_assoc]

/-- A cross on an odd stage after correct text. -/
theorem asymLoop_cross {stage : Stage} {off : Nat} {right after : List Char} {c : Char}
    {pns : List PlaceNot} (h : Body stage right pns) (hc : IsCrossChar c) (he : stage.numBells % 2 = 1)
    (i start : Nat) (buf : List PlaceNot) :
    asymLoop stage off (toksFrom i (right ++ c :: after)) [] start buf =
      .ok (.error (.pnError (i + Bell.utf8Len right + off) (i + Bell.utf8Len right + off + 1)
        (.oddStageCross stage))) := by
  obtain ⟨s', hs'⟩ := asymLoop_body_then (off := off) h (c :: after) (.inr (by simp [hc])) i start buf
  rw [hs']
  have hm : CharMeaning.ofChar c = .cross := (ofChar_cross c).2 hc
  have : ¬ stage.numBells % 2 = 0 := by omega
  simp only [toksFrom, asymLoop, hm, flush_nil, Res.ok_bind, PlaceNot.cross, if_neg this, Res.pure_eq]

/-- The loop over the rest of a part. -/
theorem parseAsymBlock_asym {junk body : List Char} (hj : ∀ d ∈ junk, IsDelimChar d ∨ IsOtherChar d)
    {off : Nat} {stage : Stage} {e : PnBlockParseError}
    (h : ∀ i, i = off + Bell.utf8Len (junk ++ ['+']) →
      asymLoop stage off (toksFrom i body) [] 0 [] = .ok (.error e)) :
    parseAsymBlock (junk ++ '+' :: body) off stage = .ok (.error e) := by
  rcases parseAsymBlock_cases (junk ++ '+' :: body) off stage with
    ⟨hj', _⟩ | ⟨junk', body', he, hj', h'⟩ | ⟨junk', c, body', he, hj', hc, _⟩
  · exact absurd (by simp) (junk_no_plus hj')
  · obtain ⟨rfl, rfl⟩ := split_plus (junk_no_plus hj) (junk_no_plus hj') he
    rw [h', h _ rfl]
    rfl
  · exfalso
    have hcn : ¬ (IsDelimChar c ∨ IsOtherChar c) ∧ c ≠ '+' := by
      rcases hc with hc | hc
      · refine ⟨?_, (place_not_delim hc).2.2⟩
        rintro (h | h)
        · exact (place_not_delim hc).1 h
        · exact h.1 hc
      · refine ⟨?_, cross_not_plus hc⟩
        rintro (h | h)
        · exact (delim_not_cross h).1 hc
        · exact h.2.2.1 hc
    rcases List.append_eq_append_iff.1 he with ⟨l, h1, h2⟩ | ⟨l, h1, h2⟩
    · cases l with
      | nil =>
        simp only [List.nil_append, List.cons.injEq] at h2
        exact hcn.2 h2.1.symm
      | cons d l =>
        simp only [List.cons_append, List.cons.injEq] at h2
        exact junk_no_plus hj' (by rw [h1, h2.1]; simp)
    · cases l with
      | nil =>
        simp only [List.nil_append, List.cons.injEq] at h2
        exact hcn.2 h2.1
      | cons d l =>
        simp only [List.cons_append, List.cons.injEq] at h2
        exact hcn.1 (hj c (by rw [h1, h2.1]; simp))

theorem parseAsymBlock_sym {block : List Char} {off : Nat} {stage : Stage} {e : PnBlockParseError}
    (hn : ∀ junk body, block = junk ++ '+' :: body → ∃ d ∈ junk, ¬ (IsDelimChar d ∨ IsOtherChar d))
    (h : asymLoop stage off (toksFrom off block) [] 0 [] = .ok (.error e)) :
    parseAsymBlock block off stage = .ok (.error e) := by
  rcases parseAsymBlock_cases block off stage with
    ⟨hj, _⟩ | ⟨junk, body, he, hj, _⟩ | ⟨junk, c, body, rfl, hj, hc, h'⟩
  · have := asymLoop_junk (stage := stage) (off := off) (rest := []) (buf := []) block hj off 0
    rw [List.append_nil, h] at this
    simp [toksFrom, asymLoop, flush_nil] at this
  · obtain ⟨d, h1, h2⟩ := hn junk body he
    exact absurd (hj d h1) h2
  · rw [asymLoop_junk junk hj] at h
    rw [h', h]
    rfl

/-- In a text that goes on with correct text without a `+`, no `+` comes before something meaningful. -/
theorem no_leading_plus {before rest : List Char} (hp : '+' ∉ before)
    (hm : (∃ d ∈ before, ¬ (IsDelimChar d ∨ IsOtherChar d)) ∨
      ∃ d, rest.head? = some d ∧ d ≠ '+' ∧ ¬ (IsDelimChar d ∨ IsOtherChar d)) (junk body : List Char)
    (he : before ++ rest = junk ++ '+' :: body) : ∃ d ∈ junk, ¬ (IsDelimChar d ∨ IsOtherChar d) := by
  rcases List.append_eq_append_iff.1 he with ⟨l, h1, h2⟩ | ⟨l, h1, h2⟩
  · rcases hm with ⟨d, h3, h4⟩ | ⟨d, h3, h4, h5⟩
    · exact ⟨d, by rw [h1]; simp [h3], h4⟩
    · cases l with
      | nil =>
        rw [h2] at h3
        simp only [List.nil_append, List.head?_cons, Option.some.injEq] at h3
        exact absurd h3.symm h4
      | cons x l =>
        rw [h2] at h3
        simp only [List.cons_append, List.head?_cons, Option.some.injEq] at h3
        exact ⟨d, by rw [h1, h3]; simp, h5⟩
  · cases l with
    | nil =>
      rw [List.append_nil] at h1
      subst h1
      rcases hm with ⟨d, h3, h4⟩ | ⟨d, h3, h4, h5⟩
      · exact ⟨d, h3, h4⟩
      · simp only [List.nil_append] at h2
        rw [← h2] at h3
        simp only [List.head?_cons, Option.some.injEq] at h3
        exact absurd h3.symm h4
    | cons x l =>
      simp only [List.cons_append, List.cons.injEq] at h2
      exact absurd (by rw [h1, ← h2.1]; simp) hp

theorem place_meaningful {c : Char} (h : IsPlaceChar c) : c ≠ '+' ∧ ¬ (IsDelimChar c ∨ IsOtherChar c) :=
  ⟨(place_not_delim h).2.2, by rintro (h' | h'); exacts [(place_not_delim h).1 h', h'.1 h]⟩

theorem cross_meaningful {c : Char} (h : IsCrossChar c) : c ≠ '+' ∧ ¬ (IsDelimChar c ∨ IsOtherChar c) :=
  ⟨cross_not_plus h, by rintro (h' | h'); exacts [(delim_not_cross h').1 h, h'.2.2.1 h]⟩

/-- A wrong part is rejected with its error. -/
theorem parseAsymBlock_of_wrong {block before w : List Char} {off : Nat} {stage : Stage}
    {e0 : PnBlockParseError} (h : WrongPart stage block before w e0) :
    parseAsymBlock block off stage = .ok (.error (e0.shifted (2 * off))) := by
  cases h with
  | @plus after he hm hr =>
    obtain ⟨right, group, rfl, ⟨a, pns, hp⟩, hg⟩ := hr
    subst he
    cases hp with
    | sym hb =>
      have hnp : '+' ∉ right ++ group := by
        intro hx
        rcases List.mem_append.1 hx with hx | hx
        · exact hb.no_plus hx
        · rcases hg _ hx with h | h
          · exact (place_not_delim h).2.2 rfl
          · exact h.2.2.2 rfl
      apply parseAsymBlock_sym
      · apply no_leading_plus hnp
        left
        obtain ⟨d, h1, h2⟩ := hm
        refine ⟨d, h1, ?_⟩
        rcases h2 with h2 | h2 | rfl
        · exact (place_meaningful h2).2
        · exact (cross_meaningful h2).2
        · exact absurd h1 hnp
      · rw [asymLoop_plus hb hg]
        simp only [PnBlockParseError.shifted]
        congr 3
        omega
    | @asym junk text _ hj hb =>
      rw [show junk ++ '+' :: text ++ group ++ '+' :: after =
        junk ++ '+' :: (text ++ group ++ '+' :: after) by simp]
      apply parseAsymBlock_asym hj
      rintro i rfl
      rw [asymLoop_plus hb hg]
      simp only [PnBlockParseError.shifted, utf8Len_append, utf8Len_cons, utf8Len_nil]
      congr 3
      omega
  | @places _ after e he hr hn hg hh ha hp =>
    obtain ⟨a, pns, hr⟩ := hr
    subst he
    have hsh : ∀ st, e ≠ .oddStageCross st := by
      rintro st rfl
      rw [parse_group hg] at hp
      exact fromSortedSlice_ne_cross hp
    rw [shifted_places hsh]
    cases hr with
    | sym hb =>
      apply parseAsymBlock_sym
      · rw [List.append_assoc]
        apply no_leading_plus hb.no_plus
        right
        obtain ⟨d, h1, h2⟩ := hh
        refine ⟨d, ?_, place_meaningful h2⟩
        cases w with
        | nil => simp at h1
        | cons x w => simpa using h1
      · obtain ⟨s', hs'⟩ := asymLoop_body_then (off := off) hb (w ++ after) (.inl hn) off 0 []
        rw [List.append_assoc, hs', asymLoop_group_error hg hh ha hp]
        simp only [utf8Len_append]
        congr 3 <;> omega
    | @asym junk text _ hj hb =>
      rw [show junk ++ '+' :: text ++ w ++ after = junk ++ '+' :: (text ++ (w ++ after)) by simp]
      apply parseAsymBlock_asym hj
      rintro i rfl
      have hn' : NoOpenGroup text := fun b d os he => hn (junk ++ '+' :: b) d os (by simp [he])
      obtain ⟨s', hs'⟩ := asymLoop_body_then (off := off) hb (w ++ after) (.inl hn')
        (off + Bell.utf8Len (junk ++ ['+'])) 0 []
      rw [hs', asymLoop_group_error hg hh ha hp]
      simp only [utf8Len_append, utf8Len_cons, utf8Len_nil]
      congr 3 <;> omega
  | @cross c after he hr hc ho =>
    obtain ⟨a, pns, hr⟩ := hr
    subst he
    cases hr with
    | sym hb =>
      apply parseAsymBlock_sym
      · apply no_leading_plus hb.no_plus
        right
        exact ⟨c, rfl, cross_meaningful hc⟩
      · rw [asymLoop_cross hb hc ho]
        simp only [PnBlockParseError.shifted]
        congr 3 <;> omega
    | @asym junk text _ hj hb =>
      rw [show junk ++ '+' :: text ++ c :: after = junk ++ '+' :: (text ++ c :: after) by simp]
      apply parseAsymBlock_asym hj
      rintro i rfl
      rw [asymLoop_cross hb hc ho]
      simp only [PnBlockParseError.shifted, utf8Len_append, utf8Len_cons, utf8Len_nil]
      congr 3 <;> omega

theorem parseLoop_of_wrong {stage : Stage} {single : Bool} {part before w : List Char}
    {todo : List (List Char)} {e0 : PnBlockParseError} (h : WrongPart stage part before w e0) :
    ∀ (done : List (List Char)), (∀ p ∈ done, IsPart stage p) → ∀ (off : Nat) (pns : List PlaceNot),
    parseLoop stage single (done ++ part :: todo) off pns =
      .ok (.error (e0.shifted (2 * (off + Bell.utf8Len (textBefore done))))) := by
  intro done
  induction done with
  | nil =>
    intro _ off pns
    rw [List.nil_append, parseLoop, parseAsymBlock_of_wrong h]
    simp [textBefore, Bell.utf8Len]
  | cons p done ih =>
    intro hd off pns
    obtain ⟨a, l, hp⟩ := hd p (by simp)
    rw [List.cons_append, parseLoop, (parseAsymBlock_ok_iff p off stage a l).2 hp, Res.ok_bind]
    simp only
    rw [ih fun q hq => hd q (by simp [hq])]
    congr 3
    simp only [textBefore, List.flatMap_cons, utf8Len_append]
    simp only [Bell.utf8Len, List.map_cons, List.map_nil, List.sum_cons, List.sum_nil]
    have : Char.utf8Size ',' = 1 := by decide
    omega

end Bellframe
