import Verif.Proofs.JsonText
import Verif.Proofs.MethodLib
import Verif.Spec.CcLib

/-! # Written JSON, JSON cut short, JSON as bytes -/

namespace Bellframe

namespace Json

open JsonGrammar

/-! ## The writer -/

theorem hex_small (n : Nat) (h : n < 32) (hn : n < 16) : HexDigit n (hexDigit n) := by
  left
  interval_cases n <;> rfl

theorem hex4_control (n : Nat) (h : n < 32) : Hex4 n ['0', '0', hexDigit (n / 16), hexDigit (n % 16)] := by
  refine ⟨0, 0, n / 16, n % 16, '0', '0', _, _, Or.inl rfl, Or.inl rfl, hex_small _ (by omega) (by omega),
    hex_small _ (by omega) (by omega), rfl, by omega⟩

theorem chars_writeChar {c : Char} {s t : List Char} (h : Chars s t) : Chars (c :: s) (writeChar c ++ t) := by
  rw [writeChar]
  split
  · rename_i hc; subst hc; exact .escape (by decide) h
  split
  · rename_i hc; subst hc; exact .escape (by decide) h
  split
  · rename_i hc; subst hc; exact .escape (by decide) h
  split
  · rename_i hc; subst hc; exact .escape (by decide) h
  split
  · rename_i hc; subst hc; exact .escape (by decide) h
  split
  · rename_i hc; subst hc; exact .escape (by decide) h
  split
  · rename_i hc; subst hc; exact .escape (by decide) h
  split
  · rename_i hc
    exact Chars.unicode (hex4_control _ hc) h
  · rename_i h1 h2 _ _ _ _ _ h3
    exact .plain (by omega) h1 h2 h

theorem chars_write : ∀ s : List Char, Chars s (s.flatMap writeChar)
  | [] => .nil
  | c :: s => by
    rw [List.flatMap_cons]
    exact chars_writeChar (chars_write s)

theorem str_writeString (s : String) : Str s (writeString s) := ⟨_, chars_write s.toList, rfl⟩

theorem digits_toDigits (n : Nat) : Digits (Nat.toDigits 10 n) := by
  refine ⟨Nat.toDigits_ne_nil, fun c hc => isDigit_iff.1 ?_⟩
  exact Nat.isDigit_of_mem_toDigits (b := 10) (by decide) (by decide) hc

theorem head_toDigits : ∀ n : Nat, 0 < n → (Nat.toDigits 10 n).head? ≠ some '0' := by
  intro n
  induction n using Nat.strong_induction_on with
  | _ n ih =>
    intro hn
    by_cases h : n < 10
    · interval_cases n <;> decide
    · have h1 : Nat.toDigits 10 n = Nat.toDigits 10 (n / 10) ++ [Nat.digitChar (n % 10)] := by
        exact Nat.toDigits_of_base_le (by decide) (by omega)
      rw [h1, List.head?_append_of_ne_nil _ Nat.toDigits_ne_nil]
      exact ih (n / 10) (by omega) (by omega)

theorem intPart_toDigits (n : Nat) : IntPart (Nat.toDigits 10 n) := by
  by_cases h : n = 0
  · left; subst h; decide
  · exact Or.inr ⟨digits_toDigits n, head_toDigits n (by omega)⟩

theorem num_writeNat {n : Nat} (h : n < 2 ^ 64) : Num (.num n) (Nat.toDigits 10 n) := by
  refine ⟨[], Nat.toDigits 10 n, [], [], Or.inl rfl, intPart_toDigits n, Or.inl rfl, Or.inl rfl, by simp, ?_⟩
  dsimp only
  rw [Nat.ofDigitChars_toDigits (by decide) (by decide), if_pos ⟨rfl, rfl, h⟩]

theorem num_writeNeg {n : Nat} (h0 : 0 < n) (h : n ≤ 2 ^ 63) : Num (.num (-n)) ('-' :: Nat.toDigits 10 n) := by
  refine ⟨['-'], Nat.toDigits 10 n, [], [], Or.inr rfl, intPart_toDigits n, Or.inl rfl, Or.inl rfl, by simp, ?_⟩
  dsimp only
  rw [Nat.ofDigitChars_toDigits (by decide) (by decide), if_neg (by simp), if_pos ⟨rfl, rfl, h0, h⟩]

theorem num_writeInt {n : Int} (h1 : -2 ^ 63 ≤ n) (h2 : n < 2 ^ 64) : Num (.num n) (writeInt n) := by
  cases n with
  | ofNat n =>
    have h3 : ((n : Nat) : Int) < 2 ^ 64 := h2
    exact num_writeNat (by omega)
  | negSucc n =>
    have h3 := Int.negSucc_eq n
    exact num_writeNeg (n := n + 1) (by omega) (by omega)

theorem text_writeElems : ∀ (xs : List Json) (x : Json), Text (.value x) (write x) →
    (∀ y ∈ xs, Text (.value y) (write y)) →
    ∃ t, Text (.elems (x :: xs)) t ∧ write x ++ writeElems xs = t ++ [']']
  | [], x, hx, _ => by
    refine ⟨_, Text.elem blanks_nil hx blanks_nil, ?_⟩
    rw [writeElems]
    simp
  | y :: ys, x, hx, hs => by
    obtain ⟨t, h1, h2⟩ := text_writeElems ys y (hs y (by simp)) fun z hz => hs z (by simp [hz])
    refine ⟨_, Text.elems blanks_nil hx blanks_nil h1, ?_⟩
    rw [writeElems, h2]
    simp

theorem text_writeMembers : ∀ (fs : List (String × Json)) (k : String) (x : Json), Text (.value x) (write x) →
    (∀ f ∈ fs, Text (.value f.2) (write f.2)) →
    ∃ t, Text (.fields ((k, x) :: fs)) t ∧ writeString k ++ ':' :: (write x ++ writeMembers fs) = t ++ ['}']
  | [], k, x, hx, _ => by
    refine ⟨_, Text.field blanks_nil (str_writeString k) blanks_nil blanks_nil hx blanks_nil, ?_⟩
    rw [writeMembers]
    simp
  | (k', y) :: fs, k, x, hx, hs => by
    obtain ⟨t, h1, h2⟩ := text_writeMembers fs k' y (hs (k', y) (by simp)) fun z hz => hs z (by simp [hz])
    refine ⟨_, Text.fields blanks_nil (str_writeString k) blanks_nil blanks_nil hx blanks_nil h1, ?_⟩
    rw [writeMembers, h2]
    simp

theorem text_write {j : Json} (h : Plain j) : Text (.value j) (write j) := by
  induction h with
  | null => rw [write]; exact .null
  | bool b =>
    rw [write]
    cases b
    · exact .false
    · exact .true
  | num h1 h2 => rw [write]; exact .num (num_writeInt h1 h2)
  | str s => rw [write]; exact .str (str_writeString s)
  | @arr xs _ ih =>
    match xs, ih with
    | [], _ => rw [write]; exact .arrEmpty blanks_nil
    | x :: xs, ih =>
      rw [write]
      obtain ⟨t, h1, h2⟩ := text_writeElems xs x (ih x (by simp)) fun y hy => ih y (by simp [hy])
      rw [h2]
      exact .arr h1
  | @obj fs _ ih =>
    match fs, ih with
    | [], _ => rw [write]; exact .objEmpty blanks_nil
    | (k, x) :: fs, ih =>
      rw [write]
      obtain ⟨t, h1, h2⟩ := text_writeMembers fs k x (ih (k, x) (by simp)) fun y hy => ih y (by simp [hy])
      rw [h2]
      exact .obj h1

theorem read_write {j : Json} (h : Plain j) : read (write j) = some j :=
  read_iff.2 ⟨[], write j, [], blanks_nil, text_write h, blanks_nil, by simp⟩

/-! ## Texts cut short -/

theorem doc_head {j : Json} {text : List Char} (hj : (∃ fields, j = .obj fields) ∨ ∃ items, j = .arr items)
    (h : Document j text) : (skipBlanks text).head? = some '[' ∨ (skipBlanks text).head? = some '{' := by
  obtain ⟨w, t, w', hw, ht, -, rfl⟩ := h
  rw [append3, skipBlanks_append hw]
  have hn : ¬ Num j t := by
    rintro ⟨sign, int, frac, exp, -, -, -, -, -, hj'⟩
    dsimp only at hj'
    split at hj'
    · rcases hj with ⟨f, rfl⟩ | ⟨f, rfl⟩ <;> cases hj'
    · split at hj' <;> rcases hj with ⟨f, rfl⟩ | ⟨f, rfl⟩ <;> cases hj'
  cases ht with
  | null => rcases hj with ⟨f, hf⟩ | ⟨f, hf⟩ <;> cases hf
  | true => rcases hj with ⟨f, hf⟩ | ⟨f, hf⟩ <;> cases hf
  | false => rcases hj with ⟨f, hf⟩ | ⟨f, hf⟩ <;> cases hf
  | num h => exact absurd h hn
  | str h => rcases hj with ⟨f, hf⟩ | ⟨f, hf⟩ <;> cases hf
  | arrEmpty _ => left; rw [List.cons_append, skipBlanks_cons (by decide)]; rfl
  | arr _ => left; rw [List.cons_append, skipBlanks_cons (by decide)]; rfl
  | objEmpty _ => right; rw [List.cons_append, skipBlanks_cons (by decide)]; rfl
  | obj _ => right; rw [List.cons_append, skipBlanks_cons (by decide)]; rfl

theorem read_cut {text front : List Char} {j j' : Json} (h : read text = some j)
    (hj : (∃ fields, j = .obj fields) ∨ ∃ items, j = .arr items) (hf : front <+: text)
    (h' : read front = some j') : j' = j := by
  obtain ⟨more, rfl⟩ := hf
  have hhead := doc_head hj (read_iff.1 h)
  obtain ⟨w, t, w', hw, ht, hw', rfl⟩ := read_iff.1 h'
  obtain ⟨c, t', hc, hb, -, -⟩ := text_head ht
  have he : w ++ t ++ w' ++ more = w ++ (t ++ (w' ++ more)) := by simp
  rw [he] at hhead h
  rw [skipBlanks_append hw, hc, List.cons_append, skipBlanks_cons hb] at hhead
  have hv := readValue_complete ht w (w' ++ more) ((w ++ (t ++ (w' ++ more))).length + 1) hw
    (Or.inr (by rw [hc]; exact hhead)) (by simp; omega)
  rw [read, hv] at h
  dsimp only at h
  split at h
  · exact Option.some.inj h
  · cases h

/-! ## No NUL characters -/

theorem blanks_noNul {w : List Char} (h : Blanks w) : '\x00' ∉ w := by
  intro h0
  have := h _ h0
  revert this
  decide

theorem hex4_noNul {v : Nat} {h : List Char} (hh : Hex4 v h) : '\x00' ∉ h := by
  obtain ⟨a, b, c, d, a', b', c', d', ha, hb, hc, hd, rfl, -⟩ := hh
  have key : ∀ v, ¬ HexDigit v '\x00' := by
    rintro v (h | h) <;> exact absurd (List.mem_of_getElem? h) (by decide)
  intro h0
  simp only [List.mem_cons, List.not_mem_nil, or_false] at h0
  rcases h0 with rfl | rfl | rfl | rfl
  · exact key _ ha
  · exact key _ hb
  · exact key _ hc
  · exact key _ hd

theorem chars_noNul {s t : List Char} (h : Chars s t) : '\x00' ∉ t := by
  induction h with
  | nil => simp
  | plain hc _ _ _ ih =>
    intro h0
    rcases List.mem_cons.1 h0 with rfl | h0
    · revert hc; decide
    · exact ih h0
  | @escape e c _ _ he _ ih =>
    have h1 : '\x00' ≠ e := by
      rintro rfl
      simp [escapes] at he
    intro h0
    rcases List.mem_cons.1 h0 with h0 | h0
    · revert h0; decide
    · rcases List.mem_cons.1 h0 with h0 | h0
      · exact h1 h0
      · exact ih h0
  | unicode hh _ ih =>
    have := hex4_noNul hh
    simp only [List.mem_cons, List.mem_append, not_or]
    exact ⟨by decide, by decide, this, ih⟩
  | pair _ hh hl _ ih =>
    have h1 := hex4_noNul hh
    have h2 := hex4_noNul hl
    simp only [List.mem_cons, List.mem_append, not_or]
    exact ⟨by decide, by decide, h1, by decide, by decide, h2, ih⟩

theorem str_noNul {s : String} {t : List Char} (h : Str s t) : '\x00' ∉ t := by
  obtain ⟨t', h, rfl⟩ := h
  have := chars_noNul h
  simp only [List.mem_cons, List.mem_append, List.not_mem_nil, or_false, not_or]
  exact ⟨by decide, this, by decide⟩

theorem digits_noNul {t : List Char} (h : Digits t) : '\x00' ∉ t := by
  intro h0
  exact absurd (h.2 _ h0) (by decide)

theorem num_noNul {j : Json} {t : List Char} (h : Num j t) : '\x00' ∉ t := by
  obtain ⟨sign, int, frac, exp, hs, hi, hf, he, rfl, -⟩ := h
  simp only [List.mem_append, not_or]
  refine ⟨⟨⟨?_, ?_⟩, ?_⟩, ?_⟩
  · rcases hs with rfl | rfl <;> decide
  · rcases hi with rfl | ⟨h, -⟩
    · decide
    · exact digits_noNul h
  · rcases hf with rfl | ⟨ds, h, rfl⟩
    · decide
    · have := digits_noNul h
      simp only [List.mem_cons, not_or]
      exact ⟨by decide, this⟩
  · rcases he with rfl | ⟨e, sg, ds, h1, h2, h3, rfl⟩
    · decide
    · have := digits_noNul h3
      simp only [List.mem_cons, List.mem_append, not_or]
      refine ⟨?_, ?_, this⟩
      · rcases h1 with rfl | rfl <;> decide
      · rcases h2 with rfl | rfl | rfl <;> decide

theorem text_noNul {i : Item} {t : List Char} (h : Text i t) : '\x00' ∉ t := by
  induction h with
  | null => decide
  | true => decide
  | false => decide
  | num h => exact num_noNul h
  | str h => exact str_noNul h
  | arrEmpty hw =>
    have := blanks_noNul hw
    simp [this]
  | arr _ ih => simp [ih]
  | objEmpty hw =>
    have := blanks_noNul hw
    simp [this]
  | obj _ ih => simp [ih]
  | elem hw _ hw' ih => simp [ih, blanks_noNul hw, blanks_noNul hw']
  | elems hw _ hw' _ ih ih' => simp [ih, ih', blanks_noNul hw, blanks_noNul hw']
  | field hw hk hw' hw'' _ hw''' ih =>
    simp [ih, blanks_noNul hw, blanks_noNul hw', blanks_noNul hw'', blanks_noNul hw''', str_noNul hk]
  | fields hw hk hw' hw'' _ hw''' _ ih ih' =>
    simp [ih, ih', blanks_noNul hw, blanks_noNul hw', blanks_noNul hw'', blanks_noNul hw''', str_noNul hk]

theorem doc_noNul {j : Json} {text : List Char} (h : Document j text) : '\x00' ∉ text := by
  obtain ⟨w, t, w', hw, ht, hw', rfl⟩ := h
  simp [text_noNul ht, blanks_noNul hw, blanks_noNul hw']

/-! ## Bytes -/

theorem utf8Decode_iff {b : ByteArray} {cs : Array Char} : b.utf8Decode? = some cs ↔ b = cs.toList.utf8Encode := by
  constructor
  · intro h
    have := ByteArray.utf8Encode_get_utf8Decode? (b := b) (h := by rw [h]; rfl)
    rw [← this]
    simp [h]
  · rintro rfl
    simp

theorem readBytes_iff {bytes : CcLib.Bytes} {j : Json} :
    readBytes bytes = some j ↔ ∃ text, bytes = text.flatMap String.utf8EncodeChar ∧ read text = some j := by
  rw [readBytes]
  constructor
  · intro h
    cases hd : bytes.toByteArray.utf8Decode? with
    | none => rw [hd] at h; cases h
    | some cs =>
      rw [hd] at h
      refine ⟨cs.toList, ?_, h⟩
      have := utf8Decode_iff.1 hd
      have h2 := congrArg (fun b => b.data.toList) this
      simpa [List.utf8Encode] using h2
  · rintro ⟨text, rfl, h⟩
    have : (text.flatMap String.utf8EncodeChar).toByteArray.utf8Decode? = some text.toArray := by
      rw [utf8Decode_iff]
      simp [List.utf8Encode]
    rw [this]
    exact h

theorem zero_utf8EncodeChar {c : Char} (h : (0 : UInt8) ∈ String.utf8EncodeChar c) : c = '\x00' := by
  have key : ∀ m, (0 : UInt8) = UInt8.ofNat m → m % 256 = 0 := by
    intro m hm
    have := congrArg UInt8.toNat hm
    simpa using this.symm
  rw [String.utf8EncodeChar] at h
  split at h
  · have := key _ (List.mem_singleton.1 h)
    rw [← Char.ofNat_toNat c]
    have h0 : c.toNat = 0 := by
      change c.val.toNat = 0
      omega
    rw [h0]
  · split at h
    · simp only [List.mem_cons, List.not_mem_nil, or_false] at h
      rcases h with h | h <;> · have := key _ h; omega
    · split at h
      · simp only [List.mem_cons, List.not_mem_nil, or_false] at h
        rcases h with h | h | h <;> · have := key _ h; omega
      · simp only [List.mem_cons, List.not_mem_nil, or_false] at h
        rcases h with h | h | h | h <;> · have := key _ h; omega

theorem encode_prefix : ∀ (t t' : List Char), t.flatMap String.utf8EncodeChar <+: t'.flatMap String.utf8EncodeChar →
    t <+: t'
  | [], _, _ => List.nil_prefix
  | c :: t, [], h => by
    simp at h
  | c :: t, d :: t', h => by
    rw [List.flatMap_cons, List.flatMap_cons] at h
    obtain ⟨more, hm⟩ := h
    have h1 : (String.utf8EncodeChar c ++
        (t.flatMap String.utf8EncodeChar ++ more)).toByteArray.utf8DecodeChar? 0 = some c := by
      rw [List.toByteArray_append]
      exact ByteArray.utf8DecodeChar?_utf8EncodeChar_append
    rw [← List.append_assoc, hm, List.toByteArray_append, ByteArray.utf8DecodeChar?_utf8EncodeChar_append] at h1
    obtain rfl := Option.some.inj h1
    rw [List.append_assoc] at hm
    obtain ⟨r, hr⟩ := encode_prefix t t' ⟨more, List.append_cancel_left hm⟩
    exact ⟨r, by rw [List.cons_append, hr]⟩

theorem readBytes_syntax : CcLib.JsonSyntax readBytes where
  noNul := by
    intro bytes j h1 h0
    obtain ⟨text, rfl, h⟩ := readBytes_iff.1 h1
    obtain ⟨c, hc, h0⟩ := List.mem_flatMap.1 h0
    rw [zero_utf8EncodeChar h0] at hc
    exact doc_noNul (read_iff.1 h) hc
  cut := by
    intro bytes j h1 hj front hf
    cases hr : readBytes front with
    | none => exact Or.inl rfl
    | some j' =>
      obtain ⟨text, rfl, h⟩ := readBytes_iff.1 h1
      obtain ⟨text', rfl, h'⟩ := readBytes_iff.1 hr
      rw [read_cut h hj (encode_prefix _ _ hf) h']
      exact Or.inr rfl

end Json

namespace MethodLib

open JsonGrammar

theorem plain_compact (m : CompactMethodSerde) : Plain m.toJson := by
  rw [CompactMethodSerde.toJson]
  refine .obj fun f hf => ?_
  split at hf
  all_goals
    simp only [List.cons_append, List.nil_append, List.mem_cons, List.not_mem_nil, or_false] at hf
    rcases hf with rfl | rfl | rfl <;> exact .str _

theorem plain_group (g : MethodGroup) (h1 : g.stage < 2 ^ 64) (h2 : g.classId < 2 ^ 64) : Plain g.toJson := by
  rw [MethodGroup.toJson]
  refine .obj fun f hf => ?_
  simp only [List.mem_append, List.mem_cons, List.not_mem_nil, or_false] at hf
  have hb : ∀ (n : String) (b : Bool), f ∈ MethodGroup.boolField n b → Plain f.2 := by
    intro n b h
    rw [MethodGroup.boolField] at h
    split at h
    · rw [List.mem_singleton.1 h]; exact .bool _
    · cases h
  rcases hf with (((rfl | h) | h) | h) | rfl | rfl
  · exact .num (by omega) (by omega)
  · exact hb _ _ h
  · exact hb _ _ h
  · exact hb _ _ h
  · exact .num (by omega) (by omega)
  · refine .arr fun x hx => ?_
    obtain ⟨m, -, rfl⟩ := List.mem_map.1 hx
    exact plain_compact m

theorem toJson_plain {order : List ((Stage × FullClass) × List CompactMethod) →
      List ((Stage × FullClass) × List CompactMethod)} (ho : ∀ l, (order l).Perm l) {lib : MethodLib}
    (hs : ∀ stage key c, lib.Holds stage key c → stage.numBells < 2 ^ 64) {json : Json}
    (h : lib.toJson order = .ok json) : Plain json := by
  rw [toJson] at h
  obtain ⟨gs, h1, h2⟩ : ∃ gs, lib.toSerde order = .ok gs ∧
      json = .obj [("groups", .arr (gs.map MethodGroup.toJson))] := by
    cases h1 : lib.toSerde order with
    | error e => rw [h1] at h; cases h
    | ok gs => rw [h1] at h; exact ⟨gs, rfl, (Except.ok.inj h).symm⟩
  rw [h2]
  refine .obj fun f hf => ?_
  rw [List.mem_singleton.1 hf]
  refine .arr fun x hx => ?_
  obtain ⟨g, hg, rfl⟩ := List.mem_map.1 hx
  have key : ∀ (L : List ((Stage × FullClass) × List CompactMethod)) (gs : List MethodGroup),
      L.mapM toGroup = .ok gs → (∀ e ∈ L, e.1.1.numBells < 2 ^ 64) →
      ∀ g ∈ gs, g.stage < 2 ^ 64 ∧ g.classId < 2 ^ 64 := by
    intro L
    induction L with
    | nil =>
      intro gs h _ g hg
      rw [← Except.ok.inj h] at hg
      cases hg
    | cons e L ih =>
      intro gs h hL g hg
      rw [List.mapM_cons] at h
      cases he : toGroup e with
      | error _ => rw [he] at h; cases h
      | ok g' =>
        rw [he] at h
        cases hl : L.mapM toGroup with
        | error _ => rw [hl] at h; cases h
        | ok gs' =>
          rw [hl] at h
          rw [← Except.ok.inj h] at hg
          rcases List.mem_cons.1 hg with rfl | hg
          · rw [toGroup] at he
            cases hm : e.2.mapM (toCompactSerde e.1.1 e.1.2) with
            | error _ => rw [hm] at he; cases he
            | ok ms =>
              rw [hm] at he
              rw [← Except.ok.inj he]
              refine ⟨hL e (by simp), ?_⟩
              change toClassId _ < _
              cases e.1.2.cls <;> decide
          · exact ih gs' hl (fun e he => hL e (by simp [he])) g hg
  obtain ⟨h3, h4⟩ := key _ _ h1 (by
    intro e he
    have he' := (ho _).mem_iff.1 he
    obtain ⟨c, hc⟩ := List.exists_mem_of_ne_nil _ (grouped_ne_nil lib e he')
    obtain ⟨-, key, hk⟩ := (mem_grouped lib e.1.1 e.1.2 c).1 ⟨e.2, he', hc⟩
    exact hs _ _ _ hk) g hg
  exact plain_group g h3 h4

end MethodLib

end Bellframe
