import Verif.Model.MethodLib

/-! # The grammar of JSON (RFC 8259)

Only the syntax of values is taken from the model (`Json`). Escaped halves of surrogate pairs that stand alone
are left out: they are no characters. -/

namespace Bellframe

namespace JsonGrammar

/-- `ws`: spaces, tabs and ends of lines. -/
def Blanks (w : List Char) : Prop := ∀ c ∈ w, c = ' ' ∨ c = '\t' ∨ c = '\n' ∨ c = '\r'

/-- A hexadecimal digit and its value. -/
def HexDigit (v : Nat) (c : Char) : Prop :=
  "0123456789abcdef".toList[v]? = some c ∨ "0123456789ABCDEF".toList[v]? = some c

/-- Four hexadecimal digits and their value. -/
def Hex4 (v : Nat) (h : List Char) : Prop :=
  ∃ a b c d a' b' c' d', HexDigit a a' ∧ HexDigit b b' ∧ HexDigit c c' ∧ HexDigit d d' ∧
    h = [a', b', c', d'] ∧ v = a * 16 ^ 3 + b * 16 ^ 2 + c * 16 + d

/-- The escapes of one letter. -/
def escapes : List (Char × Char) :=
  [('"', '"'), ('\\', '\\'), ('/', '/'), ('b', '\x08'), ('f', '\x0c'), ('n', '\n'), ('r', '\r'), ('t', '\t')]

/-- Characters, and how they can be written between quotation marks. -/
inductive Chars : List Char → List Char → Prop where
  | nil : Chars [] []
  | plain {c s t} : 0x20 ≤ c.toNat → c ≠ '"' → c ≠ '\\' → Chars s t → Chars (c :: s) (c :: t)
  | escape {e c s t} : (e, c) ∈ escapes → Chars s t → Chars (c :: s) ('\\' :: e :: t)
  | unicode {c h s t} : Hex4 c.toNat h → Chars s t → Chars (c :: s) ('\\' :: 'u' :: (h ++ t))
  | pair {c h l s t} : 0x10000 ≤ c.toNat → Hex4 (0xD800 + (c.toNat - 0x10000) / 0x400) h →
      Hex4 (0xDC00 + (c.toNat - 0x10000) % 0x400) l → Chars s t →
      Chars (c :: s) ('\\' :: 'u' :: (h ++ '\\' :: 'u' :: (l ++ t)))

/-- A string. -/
def Str (s : String) (t : List Char) : Prop := ∃ t', Chars s.toList t' ∧ t = '"' :: (t' ++ ['"'])

/-- One or more decimal digits. -/
def Digits (ds : List Char) : Prop := ds ≠ [] ∧ ∀ c ∈ ds, c ∈ "0123456789".toList

/-- `int` -/
def IntPart (t : List Char) : Prop := t = ['0'] ∨ Digits t ∧ t.head? ≠ some '0'

/-- `[ frac ]` -/
def FracPart (t : List Char) : Prop := t = [] ∨ ∃ ds, Digits ds ∧ t = '.' :: ds

/-- `[ exp ]` -/
def ExpPart (t : List Char) : Prop :=
  t = [] ∨ ∃ e sign ds, (e = 'e' ∨ e = 'E') ∧ (sign = [] ∨ sign = ['+'] ∨ sign = ['-']) ∧ Digits ds ∧
    t = e :: (sign ++ ds)

/-- A number: an integer if it is written without point and exponent and fits into 64 bits. -/
def Num (j : Json) (t : List Char) : Prop :=
  ∃ sign int frac exp, (sign = [] ∨ sign = ['-']) ∧ IntPart int ∧ FracPart frac ∧ ExpPart exp ∧
    t = sign ++ int ++ frac ++ exp ∧
    let n : Nat := Nat.ofDigitChars 10 int 0
    j = if frac ++ exp = [] ∧ sign = [] ∧ n < 2 ^ 64 then .num n
      else if frac ++ exp = [] ∧ sign = ['-'] ∧ 0 < n ∧ n ≤ 2 ^ 63 then .num (-n)
      else .float

/-- What a piece of text can stand for: a value, the elements of an array or the fields of an object. -/
inductive Item where
  | value (j : Json)
  | elems (xs : List Json)
  | fields (fs : List (String × Json))

/-- The grammar. -/
inductive Text : Item → List Char → Prop where
  | null : Text (.value .null) "null".toList
  | true : Text (.value (.bool true)) "true".toList
  | false : Text (.value (.bool false)) "false".toList
  | num {j t} : Num j t → Text (.value j) t
  | str {s t} : Str s t → Text (.value (.str s)) t
  | arrEmpty {w} : Blanks w → Text (.value (.arr [])) ('[' :: (w ++ [']']))
  | arr {xs t} : Text (.elems xs) t → Text (.value (.arr xs)) ('[' :: (t ++ [']']))
  | objEmpty {w} : Blanks w → Text (.value (.obj [])) ('{' :: (w ++ ['}']))
  | obj {fs t} : Text (.fields fs) t → Text (.value (.obj fs)) ('{' :: (t ++ ['}']))
  | elem {x w t w'} : Blanks w → Text (.value x) t → Blanks w' → Text (.elems [x]) (w ++ t ++ w')
  | elems {x w t w' xs ts} : Blanks w → Text (.value x) t → Blanks w' → Text (.elems xs) ts →
      Text (.elems (x :: xs)) (w ++ t ++ w' ++ ',' :: ts)
  | field {k x w tk w' w'' t w'''} : Blanks w → Str k tk → Blanks w' → Blanks w'' → Text (.value x) t →
      Blanks w''' → Text (.fields [(k, x)]) (w ++ tk ++ w' ++ ':' :: (w'' ++ t ++ w'''))
  | fields {k x w tk w' w'' t w''' fs ts} : Blanks w → Str k tk → Blanks w' → Blanks w'' →
      Text (.value x) t → Blanks w''' → Text (.fields fs) ts →
      Text (.fields ((k, x) :: fs)) (w ++ tk ++ w' ++ ':' :: (w'' ++ t ++ w''' ++ ',' :: ts))

/-- A JSON text and its value. -/
def Document (j : Json) (text : List Char) : Prop :=
  ∃ w t w', Blanks w ∧ Text (.value j) t ∧ Blanks w' ∧ text = w ++ t ++ w'

/-- Values without floating-point numbers, whose integers fit into 64 bits. -/
inductive Plain : Json → Prop where
  | null : Plain .null
  | bool (b) : Plain (.bool b)
  | num {n : Int} : -2 ^ 63 ≤ n → n < 2 ^ 64 → Plain (.num n)
  | str (s) : Plain (.str s)
  | arr {xs} : (∀ x ∈ xs, Plain x) → Plain (.arr xs)
  | obj {fs} : (∀ f ∈ fs, Plain f.2) → Plain (.obj fs)

end JsonGrammar

end Bellframe
