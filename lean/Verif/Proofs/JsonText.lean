import Verif.Model.JsonText
import Verif.Spec.JsonText
import Mathlib.Tactic.IntervalCases

/-! # The reader and the writer of JSON, and its grammar -/

namespace Bellframe

namespace Json

open JsonGrammar

/-! ## Blanks -/

theorem isBlank_iff {c : Char} : isBlank c = true ↔ c = ' ' ∨ c = '\t' ∨ c = '\n' ∨ c = '\r' := by
  simp [isBlank, or_assoc]

theorem skipBlanks_append {w : List Char} (hw : Blanks w) (cs : List Char) :
    skipBlanks (w ++ cs) = skipBlanks cs := by
  induction w with
  | nil => rfl
  | cons c w ih =>
    have hc : isBlank c = true := isBlank_iff.2 (hw c (by simp))
    rw [List.cons_append, skipBlanks, List.dropWhile_cons_of_pos hc]
    exact ih fun c hc => hw c (by simp [hc])

theorem skipBlanks_cons {c : Char} (hc : isBlank c = false) (cs : List Char) : skipBlanks (c :: cs) = c :: cs := by
  rw [skipBlanks, List.dropWhile_cons_of_neg (by simp [hc])]

theorem skipBlanks_split (cs : List Char) : ∃ w, Blanks w ∧ cs = w ++ skipBlanks cs := by
  refine ⟨cs.takeWhile isBlank, ?_, (List.takeWhile_append_dropWhile ..).symm⟩
  intro c hc
  exact isBlank_iff.1 (List.all_eq_true.1 (List.all_takeWhile (p := isBlank)) c hc)

theorem skipBlanks_blanks {w : List Char} (hw : Blanks w) : skipBlanks w = [] := by
  have := skipBlanks_append hw []
  simpa [skipBlanks] using this

theorem blanks_nil : Blanks [] := by intro c hc; simp at hc

/-! ## Strings -/

theorem expect_iff {word cs rest : List Char} : expect word cs = some rest ↔ cs = word ++ rest := by
  rw [expect]
  constructor
  · split
    · rename_i h
      intro he
      obtain ⟨t, rfl⟩ := List.isPrefixOf_iff_prefix.1 h
      simp at he
      rw [he]
    · simp
  · rintro rfl
    simp

theorem hexValue_iff {c : Char} {v : Nat} : hexValue c = some v ↔ HexDigit v c := by
  constructor
  · intro h
    have hc : c = Char.ofNat c.toNat := (Char.ofNat_toNat c).symm
    have hn : (48 ≤ c.toNat ∧ c.toNat ≤ 57) ∨ (97 ≤ c.toNat ∧ c.toNat ≤ 102) ∨
        (65 ≤ c.toNat ∧ c.toNat ≤ 70) := by
      simp only [hexValue, Char.le_def, UInt32.le_iff_toNat_le] at h
      change (if 48 ≤ c.toNat ∧ c.toNat ≤ 57 then _ else if 97 ≤ c.toNat ∧ c.toNat ≤ 102 then _
        else if 65 ≤ c.toNat ∧ c.toNat ≤ 70 then _ else _) = _ at h
      split at h
      · left; assumption
      split at h
      · right; left; assumption
      split at h
      · right; right; assumption
      · cases h
    generalize c.toNat = n at hc hn
    subst hc
    rcases hn with ⟨h1, h2⟩ | ⟨h1, h2⟩ | ⟨h1, h2⟩ <;> interval_cases n <;>
      (first
        | (obtain rfl := Option.some.inj (show some _ = some v from h); left; decide)
        | (obtain rfl := Option.some.inj (show some _ = some v from h); right; decide))
  · intro h
    have hv : v < 16 := by
      rcases h with h | h <;> exact (List.getElem?_eq_some_iff.1 h).1
    rcases h with h | h <;> interval_cases v <;>
      (obtain rfl := Option.some.inj (show some _ = some c from h); decide)

theorem readHex4_iff {cs rest : List Char} {v : Nat} :
    readHex4 cs = some (v, rest) ↔ ∃ h, Hex4 v h ∧ cs = h ++ rest := by
  constructor
  · intro h
    match cs, h with
    | a :: b :: c :: d :: r, h =>
      simp only [readHex4, Option.bind_eq_bind, Option.bind_eq_some_iff, Option.pure_def, Option.some.injEq,
        Prod.mk.injEq] at h
      obtain ⟨a', ha, b', hb, c', hc, d', hd, rfl, rfl⟩ := h
      exact ⟨[a, b, c, d], ⟨a', b', c', d', a, b, c, d, hexValue_iff.1 ha, hexValue_iff.1 hb, hexValue_iff.1 hc,
        hexValue_iff.1 hd, rfl, by omega⟩, rfl⟩
  · rintro ⟨_, ⟨a, b, c, d, a', b', c', d', ha, hb, hc, hd, rfl, rfl⟩, rfl⟩
    simp only [List.cons_append, List.nil_append, readHex4, hexValue_iff.2 ha, hexValue_iff.2 hb,
      hexValue_iff.2 hc, hexValue_iff.2 hd]
    simp
    omega

theorem hex4_lt {v : Nat} {h : List Char} (hh : Hex4 v h) : v < 0x10000 := by
  obtain ⟨a, b, c, d, a', b', c', d', ha, hb, hc, hd, rfl, rfl⟩ := hh
  have key : ∀ {x : Nat} {y : Char}, HexDigit x y → x < 16 := by
    intro x y h
    rcases h with h | h <;> exact (List.getElem?_eq_some_iff.1 h).1
  have := key ha; have := key hb; have := key hc; have := key hd
  omega

theorem hex4_length {v : Nat} {h : List Char} (hh : Hex4 v h) : h.length = 4 := by
  obtain ⟨a, b, c, d, a', b', c', d', ha, hb, hc, hd, rfl, rfl⟩ := hh
  rfl

theorem toNat_ofNat {n : Nat} (h : n.isValidChar) : (Char.ofNat n).toNat = n := by
  rw [Char.ofNat, dif_pos h]
  rfl

theorem char_valid (c : Char) : c.toNat < 0xD800 ∨ 0xDFFF < c.toNat ∧ c.toNat < 0x110000 := c.valid

theorem pair_value {u v : Nat} (hu : 0xD800 ≤ u ∧ u < 0xDC00) (hv : 0xDC00 ≤ v ∧ v < 0xE000) :
    (0x10000 + (u - 0xD800) * 0x400 + (v - 0xDC00)).isValidChar ∧
    0x10000 ≤ 0x10000 + (u - 0xD800) * 0x400 + (v - 0xDC00) ∧
    0xD800 + (0x10000 + (u - 0xD800) * 0x400 + (v - 0xDC00) - 0x10000) / 0x400 = u ∧
    0xDC00 + (0x10000 + (u - 0xD800) * 0x400 + (v - 0xDC00) - 0x10000) % 0x400 = v := by
  unfold Nat.isValidChar
  omega

theorem value_pair {n : Nat} (h : 0x10000 ≤ n) (h' : n < 0x110000) :
    0x10000 + (0xD800 + (n - 0x10000) / 0x400 - 0xD800) * 0x400 +
      (0xDC00 + (n - 0x10000) % 0x400 - 0xDC00) = n ∧
    ¬ (0xDC00 ≤ 0xD800 + (n - 0x10000) / 0x400 ∧ 0xD800 + (n - 0x10000) / 0x400 < 0xE000) ∧
    (0xD800 ≤ 0xD800 + (n - 0x10000) / 0x400 ∧ 0xD800 + (n - 0x10000) / 0x400 < 0xDC00) ∧
    (0xDC00 ≤ 0xDC00 + (n - 0x10000) % 0x400 ∧ 0xDC00 + (n - 0x10000) % 0x400 < 0xE000) := by
  omega

theorem readUnicode_bmp {cs rest : List Char} {u : Nat} (h : readHex4 cs = some (u, rest))
    (h1 : ¬ (0xDC00 ≤ u ∧ u < 0xE000)) (h2 : ¬ (0xD800 ≤ u ∧ u < 0xDC00)) :
    readUnicode cs = some (Char.ofNat u, rest) := by
  simp only [readUnicode, h, Option.bind_eq_bind, Option.bind_some]
  rw [if_neg h1, if_neg h2, Option.pure_def]

theorem readUnicode_pair {cs cs' rest : List Char} {u v : Nat} (h : readHex4 cs = some (u, '\\' :: 'u' :: cs'))
    (h' : readHex4 cs' = some (v, rest))
    (h1 : ¬ (0xDC00 ≤ u ∧ u < 0xE000)) (h2 : 0xD800 ≤ u ∧ u < 0xDC00) (h3 : 0xDC00 ≤ v ∧ v < 0xE000) :
    readUnicode cs = some (Char.ofNat (0x10000 + (u - 0xD800) * 0x400 + (v - 0xDC00)), rest) := by
  have h4 : expect ['\\', 'u'] ('\\' :: 'u' :: cs') = some cs' := expect_iff.2 rfl
  simp only [readUnicode, h, h', h4, Option.bind_eq_bind, Option.bind_some]
  rw [if_neg h1, if_pos h2, if_pos h3, Option.pure_def]

theorem readUnicode_cases {cs rest : List Char} {c : Char} (h : readUnicode cs = some (c, rest)) :
    (∃ u, readHex4 cs = some (u, rest) ∧ ¬ (0xDC00 ≤ u ∧ u < 0xE000) ∧ ¬ (0xD800 ≤ u ∧ u < 0xDC00) ∧
      c = Char.ofNat u) ∨
    ∃ u v cs', readHex4 cs = some (u, '\\' :: 'u' :: cs') ∧ readHex4 cs' = some (v, rest) ∧
      (0xD800 ≤ u ∧ u < 0xDC00) ∧ (0xDC00 ≤ v ∧ v < 0xE000) ∧
      c = Char.ofNat (0x10000 + (u - 0xD800) * 0x400 + (v - 0xDC00)) := by
  simp only [readUnicode, Option.bind_eq_bind, Option.bind_eq_some_iff] at h
  obtain ⟨⟨u, cs'⟩, h1, h2⟩ := h
  simp only at h2
  split at h2
  · cases h2
  rename_i a1
  split at h2
  · rename_i a2
    simp only [Option.bind_eq_some_iff] at h2
    obtain ⟨cs'', h3, ⟨v, r⟩, h4, h5⟩ := h2
    rw [expect_iff] at h3
    simp only at h5
    split at h5
    · rename_i hv2
      rw [Option.pure_def] at h5
      obtain ⟨rfl, rfl⟩ := Prod.mk.inj (Option.some.inj h5)
      exact .inr ⟨u, v, cs'', by rw [h1, h3]; rfl, h4, a2, hv2, rfl⟩
    · cases h5
  · rename_i a2
    rw [Option.pure_def] at h2
    obtain ⟨rfl, rfl⟩ := Prod.mk.inj (Option.some.inj h2)
    exact .inl ⟨u, h1, a1, a2, rfl⟩

theorem unit_valid {u : Nat} (h : u < 0x10000) (h1 : ¬ (0xDC00 ≤ u ∧ u < 0xE000))
    (h2 : ¬ (0xD800 ≤ u ∧ u < 0xDC00)) : u.isValidChar := by
  unfold Nat.isValidChar
  omega

theorem surrogates_sound {u v n : Nat} {h l : List Char} (hh : Hex4 u h) (hl : Hex4 v l) (hn : n.isValidChar)
    (h1 : 0x10000 ≤ n) (h2 : 0xD800 + (n - 0x10000) / 0x400 = u) (h3 : 0xDC00 + (n - 0x10000) % 0x400 = v)
    (rest : List Char) :
    ∃ h' l', 0x10000 ≤ (Char.ofNat n).toNat ∧ Hex4 (0xD800 + ((Char.ofNat n).toNat - 0x10000) / 0x400) h' ∧
      Hex4 (0xDC00 + ((Char.ofNat n).toNat - 0x10000) % 0x400) l' ∧
      h ++ '\\' :: 'u' :: (l ++ rest) = h' ++ '\\' :: 'u' :: (l' ++ rest) := by
  rw [toNat_ofNat hn]
  exact ⟨h, l, h1, h2 ▸ hh, h3 ▸ hl, rfl⟩

theorem readUnicode_sound {cs rest : List Char} {c : Char} (h : readUnicode cs = some (c, rest)) :
    (∃ h, Hex4 c.toNat h ∧ cs = h ++ rest) ∨
      ∃ h l, 0x10000 ≤ c.toNat ∧ Hex4 (0xD800 + (c.toNat - 0x10000) / 0x400) h ∧
        Hex4 (0xDC00 + (c.toNat - 0x10000) % 0x400) l ∧ cs = h ++ '\\' :: 'u' :: (l ++ rest) := by
  rcases readUnicode_cases h with ⟨u, h1, a1, a2, hc⟩ | ⟨u, v, cs', h1, h2, a1, a2, hc⟩
  · obtain ⟨hu, hh, rfl⟩ := readHex4_iff.1 h1
    left
    rw [hc, toNat_ofNat (unit_valid (hex4_lt hh) a1 a2)]
    exact ⟨hu, hh, rfl⟩
  · obtain ⟨hu, hh, rfl⟩ := readHex4_iff.1 h1
    obtain ⟨hv, hh', rfl⟩ := readHex4_iff.1 h2
    obtain ⟨p1, p2, p3, p4⟩ := pair_value a1 a2
    rw [hc]
    exact .inr (surrogates_sound hh hh' p1 p2 p3 p4 rest)

theorem readUnicode_unit {c : Char} {h : List Char} (hh : Hex4 c.toNat h) (rest : List Char) :
    readUnicode (h ++ rest) = some (c, rest) := by
  have h2 := char_valid c
  rw [readUnicode_bmp (readHex4_iff.2 ⟨h, hh, rfl⟩) (by omega) (by omega), Char.ofNat_toNat]

theorem readUnicode_surrogates {c : Char} {h l : List Char} (hc : 0x10000 ≤ c.toNat)
    (hh : Hex4 (0xD800 + (c.toNat - 0x10000) / 0x400) h)
    (hl : Hex4 (0xDC00 + (c.toNat - 0x10000) % 0x400) l) (rest : List Char) :
    readUnicode (h ++ '\\' :: 'u' :: (l ++ rest)) = some (c, rest) := by
  have h2 := char_valid c
  obtain ⟨p1, p2, p3, p4⟩ := value_pair hc (by omega)
  rw [readUnicode_pair (readHex4_iff.2 ⟨h, hh, rfl⟩) (readHex4_iff.2 ⟨l, hl, rfl⟩) p2 p3 p4, p1,
    Char.ofNat_toNat]

theorem simpleEscape_iff {e c : Char} : simpleEscape e = some c ↔ (e, c) ∈ escapes := by
  simp only [escapes, List.mem_cons, Prod.mk.injEq, List.not_mem_nil, or_false, simpleEscape]
  constructor
  · intro h
    split at h
    · rename_i h'
      rcases h' with rfl | rfl | rfl <;> (obtain rfl := Option.some.inj h; simp)
    repeat' split at h
    all_goals first
      | cases h; done
      | (subst_vars; obtain rfl := Option.some.inj h; simp)
  · rintro (⟨rfl, rfl⟩ | ⟨rfl, rfl⟩ | ⟨rfl, rfl⟩ | ⟨rfl, rfl⟩ | ⟨rfl, rfl⟩ | ⟨rfl, rfl⟩ | ⟨rfl, rfl⟩ | ⟨rfl, rfl⟩) <;>
      decide

theorem readStrChar_none {cs rest : List Char} (h : readStrChar cs = some (none, rest)) : cs = '"' :: rest := by
  match cs, h with
  | c :: cs, h =>
    rw [readStrChar] at h
    split at h
    · rename_i hc
      simp only [Option.some.injEq, Prod.mk.injEq, true_and] at h
      rw [hc, h]
    split at h
    · simp at h
    · split at h <;> simp at h

theorem readStrChar_some {cs rest : List Char} {c : Char} (h : readStrChar cs = some (some c, rest)) :
    ∃ t, cs = t ++ rest ∧ ∀ s t', Chars s t' → Chars (c :: s) (t ++ t') := by
  match cs, h with
  | d :: cs, h =>
    rw [readStrChar] at h
    split at h
    · simp at h
    rename_i hq
    split at h
    · rename_i hb
      subst hb
      simp only [Option.map_eq_some_iff, Prod.mk.injEq, Option.some.injEq] at h
      obtain ⟨⟨c', r⟩, h0, rfl, rfl⟩ := h
      match cs, h0 with
      | e :: cs, h0 =>
        simp only [readEscape] at h0
        split at h0
        · rename_i he
          subst he
          have h1 := h0
          rcases readUnicode_sound h1 with ⟨h, hh, rfl⟩ | ⟨h, l, hc, hh, hl, rfl⟩
          · refine ⟨'\\' :: 'u' :: h, by simp, fun s t' ht => ?_⟩
            exact Chars.unicode hh ht
          · refine ⟨'\\' :: 'u' :: (h ++ '\\' :: 'u' :: l), by simp, fun s t' ht => ?_⟩
            have := Chars.pair hc hh hl ht
            simpa using this
        · simp only [Option.map_eq_some_iff, Prod.mk.injEq] at h0
          obtain ⟨c', h1, rfl, rfl⟩ := h0
          exact ⟨['\\', e], rfl, fun s t' ht => Chars.escape (simpleEscape_iff.1 h1) ht⟩
    · rename_i hb
      split at h
      · cases h
      · rename_i h20
        simp only [Option.some.injEq, Prod.mk.injEq] at h
        obtain ⟨rfl, rfl⟩ := h
        exact ⟨[d], rfl, fun s t' ht => Chars.plain (by omega) hq hb ht⟩

theorem readString_sound : ∀ (fuel : Nat) (cs rest s : List Char), readString fuel cs = some (s, rest) →
    ∃ t, Chars s t ∧ cs = t ++ '"' :: rest
  | 0, _, _, _, h => by cases h
  | fuel + 1, cs, rest, s, h => by
    rw [readString] at h
    split at h
    · cases h
    · rename_i cs' hc
      simp only [Option.some.injEq, Prod.mk.injEq] at h
      obtain ⟨rfl, rfl⟩ := h
      exact ⟨[], Chars.nil, readStrChar_none hc⟩
    · rename_i c cs' hc
      simp only [Option.map_eq_some_iff, Prod.mk.injEq] at h
      obtain ⟨⟨s', r⟩, h1, rfl, rfl⟩ := h
      obtain ⟨t', ht', rfl⟩ := readString_sound fuel cs' r s' h1
      obtain ⟨t, rfl, ht⟩ := readStrChar_some hc
      exact ⟨t ++ t', ht _ _ ht', by simp⟩

theorem readString_complete {s t : List Char} (h : Chars s t) : ∀ (rest : List Char) (fuel : Nat),
    t.length + 1 ≤ fuel → readString fuel (t ++ '"' :: rest) = some (s, rest) := by
  induction h with
  | nil =>
    intro rest fuel hf
    obtain ⟨f, rfl⟩ := Nat.exists_eq_add_of_le hf
    rw [Nat.add_comm]
    rfl
  | @plain c s t h20 hq hb ht ih =>
    intro rest fuel hf
    cases fuel with
    | zero => simp at hf
    | succ f =>
      have : readStrChar (c :: (t ++ '"' :: rest)) = some (some c, t ++ '"' :: rest) := by
        rw [readStrChar, if_neg hq, if_neg hb, if_neg (by omega)]
      simp only [List.cons_append, readString, this]
      rw [ih rest f (by simp at hf; omega)]
      rfl
  | @escape e c s t he ht ih =>
    intro rest fuel hf
    cases fuel with
    | zero => simp at hf
    | succ f =>
      have hu : e ≠ 'u' := by
        rintro rfl
        simp [escapes] at he
      have : readStrChar ('\\' :: e :: (t ++ '"' :: rest)) = some (some c, t ++ '"' :: rest) := by
        rw [readStrChar, if_neg (by decide), if_pos rfl]
        simp only [readEscape, if_neg hu, simpleEscape_iff.2 he, Option.map_some]
      simp only [List.cons_append, readString, this]
      rw [ih rest f (by simp at hf; omega)]
      rfl
  | @unicode c h s t hh ht ih =>
    intro rest fuel hf
    cases fuel with
    | zero => simp at hf
    | succ f =>
      have : readStrChar ('\\' :: 'u' :: (h ++ (t ++ '"' :: rest))) = some (some c, t ++ '"' :: rest) := by
        rw [readStrChar, if_neg (by decide), if_pos rfl]
        simp only [readEscape, if_true, readUnicode_unit hh, Option.map_some]
      simp only [List.cons_append, List.append_assoc, readString, this]
      rw [ih rest f (by simp at hf; omega)]
      rfl
  | @pair c h l s t hc hh hl ht ih =>
    intro rest fuel hf
    cases fuel with
    | zero => simp at hf
    | succ f =>
      have : readStrChar ('\\' :: 'u' :: (h ++ '\\' :: 'u' :: (l ++ (t ++ '"' :: rest)))) =
          some (some c, t ++ '"' :: rest) := by
        rw [readStrChar, if_neg (by decide), if_pos rfl]
        simp only [readEscape, if_true, readUnicode_surrogates hc hh hl, Option.map_some]
      simp only [List.cons_append, List.append_assoc, readString, this]
      rw [ih rest f (by simp at hf; omega)]
      rfl

/-! ## Numbers -/

theorem isDigit_iff {c : Char} : c.isDigit = true ↔ c ∈ "0123456789".toList := by
  constructor
  · intro h
    have h1 : 48 ≤ c.toNat ∧ c.toNat ≤ 57 := by
      simpa [Char.isDigit, UInt32.le_iff_toNat_le] using h
    have hc : c = Char.ofNat c.toNat := (Char.ofNat_toNat c).symm
    obtain ⟨ha, hb⟩ := h1
    generalize c.toNat = n at *
    subst hc
    interval_cases n <;> decide
  · intro h
    have h : c ∈ ['0', '1', '2', '3', '4', '5', '6', '7', '8', '9'] := h
    simp only [List.mem_cons, List.not_mem_nil, or_false] at h
    rcases h with rfl | rfl | rfl | rfl | rfl | rfl | rfl | rfl | rfl | rfl <;> decide

/-- What follows a number is no part of it. -/
def NoNum (rest : List Char) : Prop := ∀ c, rest.head? = some c → ¬ (c.isDigit = true ∨ c = '.' ∨ c = 'e' ∨ c = 'E')

theorem readDigits_sound {cs ds rest : List Char} (h : readDigits cs = some (ds, rest)) :
    Digits ds ∧ cs = ds ++ rest := by
  rw [readDigits] at h
  split at h
  · cases h
  · rename_i hne
    obtain ⟨rfl, rfl⟩ := Prod.mk.inj (Option.some.inj h)
    refine ⟨⟨hne, ?_⟩, (List.takeWhile_append_dropWhile ..).symm⟩
    intro c hc
    exact isDigit_iff.1 (List.all_eq_true.1 (List.all_takeWhile (p := Char.isDigit)) c hc)

theorem takeWhile_digits {ds rest : List Char} (hd : ∀ c ∈ ds, c ∈ "0123456789".toList)
    (hr : ∀ c, rest.head? = some c → ¬ c.isDigit = true) :
    (ds ++ rest).takeWhile Char.isDigit = ds ∧ (ds ++ rest).dropWhile Char.isDigit = rest := by
  induction ds with
  | nil =>
    match rest, hr with
    | [], _ => simp
    | c :: rest, hr =>
      have := hr c rfl
      simp [this]
  | cons c ds ih =>
    have hc : c.isDigit = true := isDigit_iff.2 (hd c (by simp))
    obtain ⟨h1, h2⟩ := ih fun c hc => hd c (by simp [hc])
    simp [hc, h1, h2]

theorem readDigits_complete {ds rest : List Char} (hd : Digits ds)
    (hr : ∀ c, rest.head? = some c → ¬ c.isDigit = true) : readDigits (ds ++ rest) = some (ds, rest) := by
  obtain ⟨h1, h2⟩ := takeWhile_digits hd.2 hr
  rw [readDigits, h1, h2, if_neg hd.1]

theorem readInt_sound {cs ds rest : List Char} (h : readInt cs = some (ds, rest)) :
    IntPart ds ∧ cs = ds ++ rest := by
  match cs, h with
  | c :: cs, h =>
    rw [readInt] at h
    split at h
    · rename_i hc
      obtain ⟨rfl, rfl⟩ := Prod.mk.inj (Option.some.inj h)
      exact ⟨Or.inl rfl, by rw [hc]; rfl⟩
    · rename_i hc
      obtain ⟨h1, h2⟩ := readDigits_sound h
      refine ⟨Or.inr ⟨h1, ?_⟩, h2⟩
      match ds, h1, h2 with
      | d :: ds, _, h2 =>
        intro h'
        simp at h2 h'
        exact hc (h2.1.trans h')
      | [], h1, _ => exact absurd rfl h1.1

theorem readInt_complete {ds rest : List Char} (hd : IntPart ds)
    (hr : ∀ c, rest.head? = some c → ¬ c.isDigit = true) : readInt (ds ++ rest) = some (ds, rest) := by
  rcases hd with rfl | ⟨hd, h0⟩
  · rfl
  · match ds, hd, h0 with
    | [], hd, _ => exact absurd rfl hd.1
    | d :: ds, hd, h0 =>
      rw [List.cons_append, readInt, if_neg (fun h => h0 (by rw [h]; rfl)), ← List.cons_append]
      exact readDigits_complete hd hr

theorem readFrac_sound {cs rest : List Char} {b : Bool} (h : readFrac cs = some (b, rest)) :
    ∃ t, FracPart t ∧ cs = t ++ rest ∧ (b = false ↔ t = []) := by
  match cs, h with
  | [], h =>
    obtain ⟨rfl, rfl⟩ := Prod.mk.inj (Option.some.inj h)
    exact ⟨[], Or.inl rfl, rfl, by simp⟩
  | c :: cs, h =>
    rw [readFrac] at h
    split at h
    · rename_i hc
      obtain ⟨⟨ds, r⟩, h1, h2⟩ := Option.map_eq_some_iff.1 h
      obtain ⟨rfl, rfl⟩ := Prod.mk.inj h2
      obtain ⟨h3, h4⟩ := readDigits_sound h1
      exact ⟨'.' :: ds, Or.inr ⟨ds, h3, rfl⟩, by rw [hc, h4]; rfl, by simp⟩
    · obtain ⟨rfl, rfl⟩ := Prod.mk.inj (Option.some.inj h)
      exact ⟨[], Or.inl rfl, rfl, by simp⟩

theorem readFrac_complete {t rest : List Char} (ht : FracPart t)
    (hr : ∀ c, rest.head? = some c → ¬ (c.isDigit = true ∨ c = '.')) :
    readFrac (t ++ rest) = some (!t.isEmpty, rest) := by
  rcases ht with rfl | ⟨ds, hd, rfl⟩
  · match rest, hr with
    | [], _ => rfl
    | c :: rest, hr => rw [List.nil_append, readFrac, if_neg fun h => hr c rfl (Or.inr h)]; rfl
  · rw [List.cons_append, readFrac, if_pos rfl, readDigits_complete hd fun c hc h => hr c hc (Or.inl h)]
    rfl

theorem readExp_sound {cs rest : List Char} {b : Bool} (h : readExp cs = some (b, rest)) :
    ∃ t, ExpPart t ∧ cs = t ++ rest ∧ (b = false ↔ t = []) := by
  match cs, h with
  | [], h =>
    obtain ⟨rfl, rfl⟩ := Prod.mk.inj (Option.some.inj h)
    exact ⟨[], Or.inl rfl, rfl, by simp⟩
  | c :: cs, h =>
    rw [readExp] at h
    split at h
    · rename_i hc
      obtain ⟨⟨ds, r⟩, h1, h2⟩ := Option.map_eq_some_iff.1 h
      obtain ⟨rfl, rfl⟩ := Prod.mk.inj h2
      obtain ⟨h3, h4⟩ := readDigits_sound h1
      have hs : ∃ sign, (sign = [] ∨ sign = ['+'] ∨ sign = ['-']) ∧ cs = sign ++ skipSign cs := by
        match cs with
        | [] => exact ⟨[], Or.inl rfl, rfl⟩
        | d :: cs =>
          rw [skipSign]
          split
          · rename_i hd
            exact ⟨[d], Or.inr (by simpa using hd), rfl⟩
          · exact ⟨[], Or.inl rfl, rfl⟩
      obtain ⟨sign, hs, hcs⟩ := hs
      refine ⟨c :: (sign ++ ds), Or.inr ⟨c, sign, ds, hc, hs, h3, rfl⟩, ?_, by simp⟩
      rw [hcs, h4]
      simp
    · obtain ⟨rfl, rfl⟩ := Prod.mk.inj (Option.some.inj h)
      exact ⟨[], Or.inl rfl, rfl, by simp⟩

theorem readExp_complete {t rest : List Char} (ht : ExpPart t)
    (hr : ∀ c, rest.head? = some c → ¬ (c.isDigit = true ∨ c = 'e' ∨ c = 'E')) :
    readExp (t ++ rest) = some (!t.isEmpty, rest) := by
  rcases ht with rfl | ⟨e, sign, ds, he, hs, hd, rfl⟩
  · match rest, hr with
    | [], _ => rfl
    | c :: rest, hr => rw [List.nil_append, readExp, if_neg fun h => hr c rfl (Or.inr h)]; rfl
  · have h1 : skipSign (sign ++ ds ++ rest) = ds ++ rest := by
      rcases hs with rfl | rfl | rfl
      · match ds, hd with
        | [], hd => exact absurd rfl hd.1
        | d :: ds, hd =>
          have h2 := hd.2 d (by simp)
          rw [List.nil_append, List.cons_append, skipSign, if_neg]
          rintro (rfl | rfl)
          · exact absurd h2 (by decide)
          · exact absurd h2 (by decide)
      · simp [skipSign]
      · simp [skipSign]
    rw [List.cons_append, readExp, if_pos he, h1, readDigits_complete hd fun c hc h => hr c hc (Or.inl h)]
    rfl

theorem readUnsigned_iff {neg : Bool} {cs rest : List Char} {j : Json} :
    readUnsigned neg cs = some (j, rest) ↔ ∃ ds c1 f c2 e, readInt cs = some (ds, c1) ∧
      readFrac c1 = some (f, c2) ∧ readExp c2 = some (e, rest) ∧ j = numValue neg ds (f || e) := by
  constructor
  · intro h
    rw [readUnsigned] at h
    cases h1 : readInt cs with
    | none => rw [h1] at h; cases h
    | some p1 =>
      obtain ⟨ds, c1⟩ := p1
      rw [h1] at h
      simp only [Option.bind_eq_bind, Option.bind_some] at h
      cases h2 : readFrac c1 with
      | none => rw [h2] at h; cases h
      | some p2 =>
        obtain ⟨f, c2⟩ := p2
        rw [h2] at h
        simp only [Option.bind_some] at h
        cases h3 : readExp c2 with
        | none => rw [h3] at h; cases h
        | some p3 =>
          obtain ⟨e, c3⟩ := p3
          rw [h3] at h
          obtain ⟨rfl, rfl⟩ := Prod.mk.inj (Option.some.inj h)
          exact ⟨ds, c1, f, c2, e, rfl, h2, h3, rfl⟩
  · rintro ⟨ds, c1, f, c2, e, h1, h2, h3, rfl⟩
    rw [readUnsigned, h1]
    simp only [Option.bind_eq_bind, Option.bind_some]
    rw [h2]
    simp only [Option.bind_some]
    rw [h3]
    rfl

theorem numValue_eq {neg f e : Bool} {ds sign frac exp : List Char} (hs : sign = if neg then ['-'] else [])
    (hf : f = false ↔ frac = []) (he : e = false ↔ exp = []) :
    numValue neg ds (f || e) = (let n : Nat := Nat.ofDigitChars 10 ds 0
      if frac ++ exp = [] ∧ sign = [] ∧ n < 2 ^ 64 then Json.num n
      else if frac ++ exp = [] ∧ sign = ['-'] ∧ 0 < n ∧ n ≤ 2 ^ 63 then .num (-n)
      else .float) := by
  rw [numValue]
  have h1 : (f || e) = true ↔ ¬ (frac ++ exp = []) := by
    rw [List.append_eq_nil_iff, ← hf, ← he]
    cases f <;> cases e <;> simp
  generalize Nat.ofDigitChars 10 ds 0 = n
  by_cases hfl : frac ++ exp = []
  · have : ¬ ((f || e) = true) := fun h => h1.1 h hfl
    cases neg <;> simp [this, hfl, hs]
  · have : (f || e) = true := h1.2 hfl
    simp [this, hfl]

theorem readNumber_sound {cs rest : List Char} {j : Json} (h : readNumber cs = some (j, rest)) :
    ∃ t, Num j t ∧ cs = t ++ rest := by
  have key : ∀ (neg : Bool) (cs : List Char), readUnsigned neg cs = some (j, rest) →
      ∃ t, Num j ((if neg then ['-'] else []) ++ t) ∧ cs = t ++ rest := by
    intro neg cs h
    obtain ⟨ds, c1, f, c2, e, h1, h2, h3, hj⟩ := readUnsigned_iff.1 h
    obtain ⟨a1, b1⟩ := readInt_sound h1
    obtain ⟨frac, a2, b2, d2⟩ := readFrac_sound h2
    obtain ⟨exp, a3, b3, d3⟩ := readExp_sound h3
    refine ⟨ds ++ frac ++ exp, ⟨if neg then ['-'] else [], ds, frac, exp, ?_, a1, a2, a3, ?_, ?_⟩, ?_⟩
    · cases neg <;> simp
    · simp
    · rw [hj]; exact numValue_eq rfl d2 d3
    · rw [b1, b2, b3]; simp
  match cs, h with
  | c :: cs, h =>
    rw [readNumber] at h
    split at h
    · rename_i hc
      obtain ⟨t, h1, h2⟩ := key true cs h
      exact ⟨'-' :: t, h1, by rw [hc, h2]; rfl⟩
    · obtain ⟨t, h1, h2⟩ := key false _ h
      exact ⟨t, h1, h2⟩

theorem head_of_frac {t rest : List Char} (ht : FracPart t) {c : Char} (h : (t ++ rest).head? = some c) :
    c = '.' ∨ rest.head? = some c := by
  rcases ht with rfl | ⟨ds, -, rfl⟩
  · exact Or.inr h
  · simp at h; exact Or.inl h.symm

theorem head_of_exp {t rest : List Char} (ht : ExpPart t) {c : Char} (h : (t ++ rest).head? = some c) :
    (c = 'e' ∨ c = 'E') ∨ rest.head? = some c := by
  rcases ht with rfl | ⟨e, sign, ds, he, -, -, rfl⟩
  · exact Or.inr h
  · simp at h; exact Or.inl (h ▸ he)

theorem head_of_int {t rest : List Char} (ht : IntPart t) : ∃ c, (t ++ rest).head? = some c ∧ c.isDigit = true := by
  rcases ht with rfl | ⟨⟨hd, ha⟩, -⟩
  · exact ⟨'0', rfl, by decide⟩
  · match t, hd, ha with
    | [], hd, _ => exact absurd rfl hd
    | c :: t, _, ha => exact ⟨c, rfl, isDigit_iff.2 (ha c (by simp))⟩

theorem readNumber_complete {j : Json} {t rest : List Char} (h : Num j t) (hr : NoNum rest) :
    readNumber (t ++ rest) = some (j, rest) := by
  obtain ⟨sign, int, frac, exp, hs, hi, hf, he, rfl, hj⟩ := h
  have hsign : ∃ neg : Bool, sign = if neg then ['-'] else [] := by
    rcases hs with rfl | rfl
    · exact ⟨false, rfl⟩
    · exact ⟨true, rfl⟩
  obtain ⟨neg, hneg⟩ := hsign
  have h3 : readExp (exp ++ rest) = some (!exp.isEmpty, rest) :=
    readExp_complete he fun c hc h => hr c hc (by tauto)
  have h2 : readFrac (frac ++ (exp ++ rest)) = some (!frac.isEmpty, exp ++ rest) := by
    refine readFrac_complete hf fun c hc h => ?_
    rcases head_of_exp he hc with (rfl | rfl) | h'
    · revert h; decide
    · revert h; decide
    · exact hr c h' (by tauto)
  have h1 : readInt (int ++ (frac ++ (exp ++ rest))) = some (int, frac ++ (exp ++ rest)) := by
    refine readInt_complete hi fun c hc h => ?_
    rcases head_of_frac hf hc with rfl | h'
    · revert h; decide
    · rcases head_of_exp he h' with (rfl | rfl) | h'
      · revert h; decide
      · revert h; decide
      · exact hr c h' (by tauto)
  have hu : readUnsigned neg (int ++ (frac ++ (exp ++ rest))) = some (j, rest) := by
    refine readUnsigned_iff.2 ⟨int, _, _, _, _, h1, h2, h3, ?_⟩
    rw [hj]
    exact (numValue_eq hneg (by simp) (by simp)).symm
  have hassoc : sign ++ int ++ frac ++ exp ++ rest = sign ++ (int ++ (frac ++ (exp ++ rest))) := by simp
  rw [hassoc]
  cases neg with
  | true =>
    simp only [if_true] at hneg
    rw [hneg, List.cons_append, readNumber, if_pos rfl]
    exact hu
  | false =>
    simp only [Bool.false_eq_true, if_false] at hneg
    rw [hneg, List.nil_append]
    obtain ⟨c, hc, hd⟩ := head_of_int (rest := frac ++ (exp ++ rest)) hi
    generalize int ++ (frac ++ (exp ++ rest)) = cs at *
    match cs, hc with
    | d :: cs, hc =>
      simp only [List.head?_cons, Option.some.injEq] at hc
      rw [readNumber, if_neg]
      · exact hu
      · rintro rfl
        subst hc
        revert hd
        decide

/-! ## Values -/

theorem append3 {w t u : List Char} : w ++ t ++ u = w ++ (t ++ u) := List.append_assoc ..

theorem str_of_chars {s t : List Char} (h : Chars s t) : Str (String.ofList s) ('"' :: (t ++ ['"'])) :=
  ⟨t, by simpa using h, rfl⟩

theorem readValue_sound : ∀ fuel : Nat,
    (∀ cs j rest, readValue fuel cs = some (j, rest) →
      ∃ w t, Blanks w ∧ Text (.value j) t ∧ cs = w ++ (t ++ rest)) ∧
    (∀ cs xs rest, readElems fuel cs = some (xs, rest) → ∃ t, Text (.elems xs) t ∧ cs = t ++ ']' :: rest) ∧
    (∀ cs fs rest, readMembers fuel cs = some (fs, rest) → ∃ t, Text (.fields fs) t ∧ cs = t ++ '}' :: rest)
  | 0 => by
    refine ⟨?_, ?_, ?_⟩
    · intro cs j rest h; rw [readValue] at h; cases h
    · intro cs j rest h; rw [readElems] at h; cases h
    · intro cs j rest h; rw [readMembers] at h; cases h
  | fuel + 1 => by
    obtain ⟨ihv, ihe, ihm⟩ := readValue_sound fuel
    refine ⟨?_, ?_, ?_⟩
    · intro cs j rest h
      rw [readValue] at h
      obtain ⟨w, hw, hcs⟩ := skipBlanks_split cs
      generalize skipBlanks cs = cs' at *
      subst hcs
      suffices hs : ∃ t, Text (.value j) t ∧ cs' = t ++ rest by
        obtain ⟨t, h1, h2⟩ := hs
        exact ⟨w, t, hw, h1, by rw [h2]⟩
      match cs', h with
      | c :: cs, h =>
        dsimp only at h
        split at h
        · rename_i hc
          obtain ⟨⟨s, r⟩, h1, h2⟩ := Option.map_eq_some_iff.1 h
          obtain ⟨rfl, rfl⟩ := Prod.mk.inj h2
          obtain ⟨t, h3, h4⟩ := readString_sound _ _ _ _ h1
          exact ⟨_, Text.str (str_of_chars h3), by rw [hc, h4]; simp⟩
        split at h
        · rename_i _ hc
          split at h
          · rename_i h0
            obtain ⟨w', hw', hcs⟩ := skipBlanks_split cs
            generalize skipBlanks cs = cs' at *
            subst hcs
            obtain ⟨rfl, rfl⟩ := Prod.mk.inj (Option.some.inj h)
            match cs', h0 with
            | d :: cs', h0 =>
              simp only [List.head?_cons, Option.some.injEq] at h0
              exact ⟨_, Text.arrEmpty hw', by rw [hc, h0]; simp⟩
          · obtain ⟨⟨xs, r⟩, h1, h2⟩ := Option.map_eq_some_iff.1 h
            obtain ⟨rfl, rfl⟩ := Prod.mk.inj h2
            obtain ⟨t, h3, h4⟩ := ihe _ _ _ h1
            exact ⟨_, Text.arr h3, by rw [hc, h4]; simp⟩
        split at h
        · rename_i _ _ hc
          split at h
          · rename_i h0
            obtain ⟨w', hw', hcs⟩ := skipBlanks_split cs
            generalize skipBlanks cs = cs' at *
            subst hcs
            obtain ⟨rfl, rfl⟩ := Prod.mk.inj (Option.some.inj h)
            match cs', h0 with
            | d :: cs', h0 =>
              simp only [List.head?_cons, Option.some.injEq] at h0
              exact ⟨_, Text.objEmpty hw', by rw [hc, h0]; simp⟩
          · obtain ⟨⟨xs, r⟩, h1, h2⟩ := Option.map_eq_some_iff.1 h
            obtain ⟨rfl, rfl⟩ := Prod.mk.inj h2
            obtain ⟨t, h3, h4⟩ := ihm _ _ _ h1
            exact ⟨_, Text.obj h3, by rw [hc, h4]; simp⟩
        split at h
        · rename_i _ _ _ hc
          obtain ⟨r, h1, h2⟩ := Option.map_eq_some_iff.1 h
          obtain ⟨rfl, rfl⟩ := Prod.mk.inj h2
          exact ⟨_, Text.null, by rw [hc, expect_iff.1 h1]; rfl⟩
        split at h
        · rename_i _ _ _ _ hc
          obtain ⟨r, h1, h2⟩ := Option.map_eq_some_iff.1 h
          obtain ⟨rfl, rfl⟩ := Prod.mk.inj h2
          exact ⟨_, Text.true, by rw [hc, expect_iff.1 h1]; rfl⟩
        split at h
        · rename_i _ _ _ _ _ hc
          obtain ⟨r, h1, h2⟩ := Option.map_eq_some_iff.1 h
          obtain ⟨rfl, rfl⟩ := Prod.mk.inj h2
          exact ⟨_, Text.false, by rw [hc, expect_iff.1 h1]; rfl⟩
        · obtain ⟨t, h1, h2⟩ := readNumber_sound h
          exact ⟨t, Text.num h1, h2⟩
    · intro cs xs rest h
      rw [readElems] at h
      cases h1 : readValue fuel cs with
      | none => rw [h1] at h; cases h
      | some p =>
        obtain ⟨x, cs1⟩ := p
        rw [h1] at h
        dsimp only at h
        obtain ⟨w, t, hw, ht, rfl⟩ := ihv _ _ _ h1
        obtain ⟨w', hw', hcs⟩ := skipBlanks_split cs1
        generalize skipBlanks cs1 = cs' at *
        subst hcs
        match cs', h with
        | c :: cs, h =>
          dsimp only at h
          split at h
          · rename_i hc
            obtain ⟨rfl, rfl⟩ := Prod.mk.inj (Option.some.inj h)
            exact ⟨_, Text.elem hw ht hw', by rw [hc]; simp⟩
          split at h
          · rename_i _ hc
            obtain ⟨⟨ys, r⟩, h2, h3⟩ := Option.map_eq_some_iff.1 h
            obtain ⟨rfl, rfl⟩ := Prod.mk.inj h3
            obtain ⟨ts, h4, h5⟩ := ihe _ _ _ h2
            exact ⟨_, Text.elems hw ht hw' h4, by rw [hc, h5]; simp⟩
          · cases h
    · intro cs fs rest h
      rw [readMembers] at h
      obtain ⟨w, hw, hcs⟩ := skipBlanks_split cs
      generalize skipBlanks cs = cs' at *
      subst hcs
      match cs', h with
      | c :: cs, h =>
        dsimp only at h
        split at h
        · rename_i hc
          cases h1 : readString (cs.length + 1) cs with
          | none => rw [h1] at h; cases h
          | some p =>
            obtain ⟨key, cs1⟩ := p
            rw [h1] at h
            dsimp only at h
            obtain ⟨tk, hk, rfl⟩ := readString_sound _ _ _ _ h1
            obtain ⟨w1, hw1, hcs⟩ := skipBlanks_split cs1
            generalize skipBlanks cs1 = cs' at *
            subst hcs
            match cs', h with
            | c1 :: cs2, h =>
              dsimp only at h
              split at h
              · rename_i hc1
                cases h2 : readValue fuel cs2 with
                | none => rw [h2] at h; cases h
                | some p =>
                  obtain ⟨x, cs3⟩ := p
                  rw [h2] at h
                  dsimp only at h
                  obtain ⟨w2, t, hw2, ht, rfl⟩ := ihv _ _ _ h2
                  obtain ⟨w3, hw3, hcs⟩ := skipBlanks_split cs3
                  generalize skipBlanks cs3 = cs' at *
                  subst hcs
                  match cs', h with
                  | c3 :: cs4, h =>
                    dsimp only at h
                    split at h
                    · rename_i hc3
                      obtain ⟨rfl, rfl⟩ := Prod.mk.inj (Option.some.inj h)
                      exact ⟨_, Text.field hw (str_of_chars hk) hw1 hw2 ht hw3, by rw [hc, hc1, hc3]; simp⟩
                    split at h
                    · rename_i _ hc3
                      obtain ⟨⟨ys, r⟩, h3, h4⟩ := Option.map_eq_some_iff.1 h
                      obtain ⟨rfl, rfl⟩ := Prod.mk.inj h4
                      obtain ⟨ts, h5, h6⟩ := ihm _ _ _ h3
                      exact ⟨_, Text.fields hw (str_of_chars hk) hw1 hw2 ht hw3 h5,
                        by rw [hc, hc1, hc3, h6]; simp⟩
                    · cases h
              · cases h
        · cases h

/-- What a text of a value begins with. -/
theorem text_head : ∀ {i : Item} {t : List Char}, Text i t →
    match i with
    | .value _ => ∃ c t', t = c :: t' ∧ isBlank c = false ∧ c ≠ ']' ∧ c ≠ '}'
    | .elems _ => ∀ rest, (skipBlanks (t ++ rest)).head? ≠ some ']'
    | .fields _ => ∀ rest, (skipBlanks (t ++ rest)).head? ≠ some '}' := by
  intro i t h
  induction h with
  | null => exact ⟨_, _, rfl, by decide, by decide, by decide⟩
  | true => exact ⟨_, _, rfl, by decide, by decide, by decide⟩
  | false => exact ⟨_, _, rfl, by decide, by decide, by decide⟩
  | num h =>
    obtain ⟨sign, int, frac, exp, hs, hi, -, -, rfl, -⟩ := h
    rcases hs with rfl | rfl
    · obtain ⟨c, hc, hd⟩ := head_of_int (rest := frac ++ exp) hi
      have he : [] ++ int ++ frac ++ exp = int ++ (frac ++ exp) := by simp
      rw [he]
      generalize int ++ (frac ++ exp) = cs at *
      match cs, hc with
      | d :: cs, hc =>
        simp only [List.head?_cons, Option.some.injEq] at hc
        subst hc
        refine ⟨d, cs, rfl, ?_, ?_, ?_⟩
        · by_contra hb
          rw [Bool.not_eq_false] at hb
          rcases isBlank_iff.1 hb with rfl | rfl | rfl | rfl <;> revert hd <;> decide
        · rintro rfl; revert hd; decide
        · rintro rfl; revert hd; decide
    · exact ⟨'-', _, rfl, by decide, by decide, by decide⟩
  | str h =>
    obtain ⟨t, -, rfl⟩ := h
    exact ⟨_, _, rfl, by decide, by decide, by decide⟩
  | arrEmpty _ => exact ⟨_, _, rfl, by decide, by decide, by decide⟩
  | arr _ _ => exact ⟨_, _, rfl, by decide, by decide, by decide⟩
  | objEmpty _ => exact ⟨_, _, rfl, by decide, by decide, by decide⟩
  | obj _ _ => exact ⟨_, _, rfl, by decide, by decide, by decide⟩
  | elem hw ht hw' ih =>
    obtain ⟨c, t', rfl, hb, h1, h2⟩ := ih
    intro rest
    rw [append3, append3, skipBlanks_append hw, List.cons_append, skipBlanks_cons hb]
    simpa using h1
  | elems hw ht hw' hts ih _ =>
    obtain ⟨c, t', rfl, hb, h1, h2⟩ := ih
    intro rest
    rw [append3, append3, append3, skipBlanks_append hw, List.cons_append, List.cons_append, skipBlanks_cons hb]
    simpa using h1
  | field hw hk hw' hw'' ht hw''' ih =>
    obtain ⟨t', -, rfl⟩ := hk
    intro rest
    rw [append3, append3, append3, skipBlanks_append hw, List.cons_append, List.cons_append,
      skipBlanks_cons (by decide)]
    simp
  | fields hw hk hw' hw'' ht hw''' hts ih _ =>
    obtain ⟨t', -, rfl⟩ := hk
    intro rest
    rw [append3, append3, append3, skipBlanks_append hw, List.cons_append, List.cons_append,
      skipBlanks_cons (by decide)]
    simp

theorem noNum_blanks {w rest : List Char} (hw : Blanks w) (hr : NoNum rest) : NoNum (w ++ rest) := by
  match w, hw with
  | [], _ => exact hr
  | c :: w, hw =>
    intro d hd
    simp only [List.cons_append, List.head?_cons, Option.some.injEq] at hd
    subst hd
    rcases hw c (by simp) with rfl | rfl | rfl | rfl <;> decide

theorem noNum_cons {c : Char} (hc : c = ',' ∨ c = ']' ∨ c = '}') (rest : List Char) : NoNum (c :: rest) := by
  intro d hd
  simp only [List.head?_cons, Option.some.injEq] at hd
  subst hd
  rcases hc with rfl | rfl | rfl <;> decide

theorem noNum_nil : NoNum [] := by intro c hc; cases hc

/-- Numbers begin with a sign or a digit. -/
theorem num_head {j : Json} {t : List Char} (h : Num j t) :
    ∃ c t', t = c :: t' ∧ (c = '-' ∨ c.isDigit = true) := by
  obtain ⟨sign, int, frac, exp, hs, hi, -, -, rfl, -⟩ := h
  rcases hs with rfl | rfl
  · obtain ⟨c, hc, hd⟩ := head_of_int (rest := frac ++ exp) hi
    have he : [] ++ int ++ frac ++ exp = int ++ (frac ++ exp) := by simp
    rw [he]
    generalize int ++ (frac ++ exp) = cs at *
    match cs, hc with
    | d :: cs, hc =>
      simp only [List.head?_cons, Option.some.injEq] at hc
      exact ⟨d, cs, rfl, Or.inr (hc ▸ hd)⟩
  · exact ⟨'-', _, rfl, Or.inl rfl⟩

theorem readValue_step {w cs : List Char} {c : Char} (hw : Blanks w) (hc : isBlank c = false) (fuel : Nat) :
    readValue (fuel + 1) (w ++ c :: cs) =
      if c = '"' then (readString (cs.length + 1) cs).map fun r => (.str (String.ofList r.1), r.2)
      else if c = '[' then
        if (skipBlanks cs).head? = some ']' then some (.arr [], (skipBlanks cs).tail)
        else (readElems fuel cs).map fun r => (.arr r.1, r.2)
      else if c = '{' then
        if (skipBlanks cs).head? = some '}' then some (.obj [], (skipBlanks cs).tail)
        else (readMembers fuel cs).map fun r => (.obj r.1, r.2)
      else if c = 'n' then (expect ['u', 'l', 'l'] cs).map fun r => (.null, r)
      else if c = 't' then (expect ['r', 'u', 'e'] cs).map fun r => (.bool true, r)
      else if c = 'f' then (expect ['a', 'l', 's', 'e'] cs).map fun r => (.bool false, r)
      else readNumber (c :: cs) := by
  rw [readValue, skipBlanks_append hw, skipBlanks_cons hc]

theorem readElems_step {fuel : Nat} {cs w rest : List Char} {x : Json} {c : Char}
    (h : readValue fuel cs = some (x, w ++ c :: rest)) (hw : Blanks w) (hc : isBlank c = false) :
    readElems (fuel + 1) cs = if c = ']' then some ([x], rest)
      else if c = ',' then (readElems fuel rest).map fun r => (x :: r.1, r.2) else none := by
  rw [readElems, h]
  dsimp only
  rw [skipBlanks_append hw, skipBlanks_cons hc]

theorem readMembers_step {fuel : Nat} {w tk w' cs w''' rest : List Char} {k : String} {x : Json} {c : Char}
    (hw : Blanks w) (hk : Str k tk) (hw' : Blanks w') (h : readValue fuel cs = some (x, w''' ++ c :: rest))
    (hw''' : Blanks w''') (hc : isBlank c = false) :
    readMembers (fuel + 1) (w ++ tk ++ w' ++ ':' :: cs) = if c = '}' then some ([(k, x)], rest)
      else if c = ',' then (readMembers fuel rest).map fun r => ((k, x) :: r.1, r.2) else none := by
  obtain ⟨t, hk, rfl⟩ := hk
  have he : w ++ '"' :: (t ++ ['"']) ++ w' ++ ':' :: cs = w ++ '"' :: (t ++ '"' :: (w' ++ ':' :: cs)) := by simp
  rw [he, readMembers, skipBlanks_append hw, skipBlanks_cons (by decide)]
  dsimp only
  rw [if_pos rfl, readString_complete hk _ _ (by simp)]
  dsimp only
  rw [skipBlanks_append hw', skipBlanks_cons (by decide)]
  dsimp only
  rw [if_pos rfl, h]
  dsimp only
  rw [skipBlanks_append hw''', skipBlanks_cons hc, String.ofList_toList]

theorem readValue_complete : ∀ {i : Item} {t : List Char}, Text i t →
    match i with
    | .value j => ∀ w rest fuel, Blanks w → (NoNum rest ∨ t.head? = some '[' ∨ t.head? = some '{') → t.length ≤ fuel →
        readValue fuel (w ++ (t ++ rest)) = some (j, rest)
    | .elems xs => ∀ rest fuel, t.length + 1 ≤ fuel → readElems fuel (t ++ ']' :: rest) = some (xs, rest)
    | .fields fs => ∀ rest fuel, t.length + 1 ≤ fuel → readMembers fuel (t ++ '}' :: rest) = some (fs, rest) := by
  intro i t h
  induction h with
  | null =>
    intro w rest fuel hw hr hf
    obtain ⟨f, rfl⟩ : ∃ f, fuel = f + 1 := ⟨fuel - 1, by simp at hf; omega⟩
    exact readValue_step hw (by decide) f
  | true =>
    intro w rest fuel hw hr hf
    obtain ⟨f, rfl⟩ : ∃ f, fuel = f + 1 := ⟨fuel - 1, by simp at hf; omega⟩
    exact readValue_step hw (by decide) f
  | false =>
    intro w rest fuel hw hr hf
    obtain ⟨f, rfl⟩ : ∃ f, fuel = f + 1 := ⟨fuel - 1, by simp at hf; omega⟩
    exact readValue_step hw (by decide) f
  | num h =>
    intro w rest fuel hw hr hf
    obtain ⟨c, t', rfl, hc⟩ := num_head h
    obtain ⟨f, rfl⟩ : ∃ f, fuel = f + 1 := ⟨fuel - 1, by simp at hf; omega⟩
    have hb : isBlank c = false := by
      by_contra hb
      rw [Bool.not_eq_false] at hb
      rcases isBlank_iff.1 hb with rfl | rfl | rfl | rfl <;> revert hc <;> decide
    have hne : ∀ d : Char, ¬ (d = '-' ∨ d.isDigit = true) → c ≠ d := fun d hd h => hd (h ▸ hc)
    rw [List.cons_append, readValue_step hw hb, if_neg (hne _ (by decide)), if_neg (hne _ (by decide)),
      if_neg (hne _ (by decide)), if_neg (hne _ (by decide)), if_neg (hne _ (by decide)),
      if_neg (hne _ (by decide))]
    refine readNumber_complete h ?_
    rcases hr with hr | hr | hr
    · exact hr
    · exact absurd (Option.some.inj hr) (hne _ (by decide))
    · exact absurd (Option.some.inj hr) (hne _ (by decide))
  | str h =>
    intro w rest fuel hw hr hf
    obtain ⟨t', h, rfl⟩ := h
    obtain ⟨f, rfl⟩ : ∃ f, fuel = f + 1 := ⟨fuel - 1, by simp at hf; omega⟩
    have he : '"' :: (t' ++ ['"']) ++ rest = '"' :: (t' ++ '"' :: rest) := by simp
    rw [he, readValue_step hw (by decide), if_pos rfl, readString_complete h _ _ (by simp), Option.map_some,
      String.ofList_toList]
  | @arrEmpty w' hw' =>
    intro w rest fuel hw hr hf
    obtain ⟨f, rfl⟩ : ∃ f, fuel = f + 1 := ⟨fuel - 1, by simp at hf; omega⟩
    have he : '[' :: (w' ++ [']']) ++ rest = '[' :: (w' ++ ']' :: rest) := by simp
    rw [he, readValue_step hw (by decide), if_neg (by decide), if_pos rfl, skipBlanks_append hw',
      skipBlanks_cons (by decide)]
    exact if_pos rfl
  | @arr xs t ht ih =>
    intro w rest fuel hw hr hf
    obtain ⟨f, rfl⟩ : ∃ f, fuel = f + 1 := ⟨fuel - 1, by simp at hf; omega⟩
    have he : '[' :: (t ++ [']']) ++ rest = '[' :: (t ++ ']' :: rest) := by simp
    rw [he, readValue_step hw (by decide), if_neg (by decide), if_pos rfl, if_neg (text_head ht _),
      ih rest f (by simp at hf; omega)]
    rfl
  | @objEmpty w' hw' =>
    intro w rest fuel hw hr hf
    obtain ⟨f, rfl⟩ : ∃ f, fuel = f + 1 := ⟨fuel - 1, by simp at hf; omega⟩
    have he : '{' :: (w' ++ ['}']) ++ rest = '{' :: (w' ++ '}' :: rest) := by simp
    rw [he, readValue_step hw (by decide), if_neg (by decide), if_neg (by decide), if_pos rfl,
      skipBlanks_append hw', skipBlanks_cons (by decide)]
    exact if_pos rfl
  | @obj xs t ht ih =>
    intro w rest fuel hw hr hf
    obtain ⟨f, rfl⟩ : ∃ f, fuel = f + 1 := ⟨fuel - 1, by simp at hf; omega⟩
    have he : '{' :: (t ++ ['}']) ++ rest = '{' :: (t ++ '}' :: rest) := by simp
    rw [he, readValue_step hw (by decide), if_neg (by decide), if_neg (by decide), if_pos rfl,
      if_neg (text_head ht _), ih rest f (by simp at hf; omega)]
    rfl
  | @elem x w t w' hw ht hw' ih =>
    intro rest fuel hf
    obtain ⟨f, rfl⟩ : ∃ f, fuel = f + 1 := ⟨fuel - 1, by simp at hf; omega⟩
    have he : w ++ t ++ w' ++ ']' :: rest = w ++ (t ++ (w' ++ ']' :: rest)) := by simp
    have h1 := ih w (w' ++ ']' :: rest) f hw (.inl (noNum_blanks hw' (noNum_cons (by simp) _))) (by simp at hf; omega)
    rw [he, readElems_step h1 hw' (by decide), if_pos rfl]
  | @elems x w t w' xs ts hw ht hw' hts ih ihs =>
    intro rest fuel hf
    obtain ⟨f, rfl⟩ : ∃ f, fuel = f + 1 := ⟨fuel - 1, by simp at hf; omega⟩
    have he : w ++ t ++ w' ++ ',' :: ts ++ ']' :: rest = w ++ (t ++ (w' ++ ',' :: (ts ++ ']' :: rest))) := by simp
    have h1 := ih w (w' ++ ',' :: (ts ++ ']' :: rest)) f hw (.inl (noNum_blanks hw' (noNum_cons (by simp) _)))
      (by simp at hf; omega)
    rw [he, readElems_step h1 hw' (by decide), if_neg (by decide), if_pos rfl,
      ihs rest f (by simp at hf; omega)]
    rfl
  | @field k x w tk w' w'' t w''' hw hk hw' hw'' ht hw''' ih =>
    intro rest fuel hf
    obtain ⟨f, rfl⟩ : ∃ f, fuel = f + 1 := ⟨fuel - 1, by simp at hf; omega⟩
    have he : w ++ tk ++ w' ++ ':' :: (w'' ++ t ++ w''') ++ '}' :: rest =
      w ++ tk ++ w' ++ ':' :: (w'' ++ (t ++ (w''' ++ '}' :: rest))) := by simp
    have h1 := ih w'' (w''' ++ '}' :: rest) f hw'' (.inl (noNum_blanks hw''' (noNum_cons (by simp) _)))
      (by simp at hf; omega)
    rw [he, readMembers_step hw hk hw' h1 hw''' (by decide), if_pos rfl]
  | @fields k x w tk w' w'' t w''' fs ts hw hk hw' hw'' ht hw''' hts ih ihs =>
    intro rest fuel hf
    obtain ⟨f, rfl⟩ : ∃ f, fuel = f + 1 := ⟨fuel - 1, by simp at hf; omega⟩
    have he : w ++ tk ++ w' ++ ':' :: (w'' ++ t ++ w''' ++ ',' :: ts) ++ '}' :: rest =
      w ++ tk ++ w' ++ ':' :: (w'' ++ (t ++ (w''' ++ ',' :: (ts ++ '}' :: rest)))) := by simp
    have h1 := ih w'' (w''' ++ ',' :: (ts ++ '}' :: rest)) f hw'' (.inl (noNum_blanks hw''' (noNum_cons (by simp) _)))
      (by simp at hf; omega)
    rw [he, readMembers_step hw hk hw' h1 hw''' (by decide), if_neg (by decide), if_pos rfl,
      ihs rest f (by simp at hf; omega)]
    rfl

/-- The reader is exactly the grammar. -/
theorem read_iff {text : List Char} {j : Json} : read text = some j ↔ Document j text := by
  constructor
  · intro h
    rw [read] at h
    cases h1 : readValue (text.length + 1) text with
    | none => rw [h1] at h; cases h
    | some p =>
      obtain ⟨j', rest⟩ := p
      rw [h1] at h
      dsimp only at h
      split at h
      · rename_i hr
        obtain rfl := Option.some.inj h
        obtain ⟨w, t, hw, ht, hcs⟩ := (readValue_sound _).1 _ _ _ h1
        obtain ⟨w', hw', hrest⟩ := skipBlanks_split rest
        rw [hr, List.append_nil] at hrest
        exact ⟨w, t, w', hw, ht, hw', by rw [hcs, hrest, append3]⟩
      · cases h
  · rintro ⟨w, t, w', hw, ht, hw', rfl⟩
    have hr : NoNum w' := by
      have := noNum_blanks hw' noNum_nil
      simpa using this
    rw [read, append3, readValue_complete ht w w' _ hw (.inl hr) (by simp; omega)]
    dsimp only
    rw [if_pos (skipBlanks_blanks hw')]

end Json

end Bellframe
