import Verif.Model.CcLib

/-! # Model of the text of JSON

`MethodLib::to_json` and `MethodLib::from_json` (src/method_lib/mod.rs:162-170) write and read texts with
`serde_json::to_string` and `serde_json::from_str`. Neither is in /repo; they are modelled here as the writer
of the compact format and as a reader of RFC 8259.

Simplifications: `serde_json` fills the structs while it reads; here the text is first read into a tree, which
`Json.asLibSerde` then turns into the structs. `serde_json` limits the nesting only of values that it does not
ignore; their nesting is limited by the types of the structs anyway, so there is no limit here. It does not
check pairs of surrogates in strings that it ignores; here they are always checked. -/

namespace Bellframe

namespace Json

/-! ## Reading -/

/-- Blanks between tokens. -/
def isBlank (c : Char) : Bool := c = ' ' || c = '\t' || c = '\n' || c = '\r'

/-- `parse_whitespace`. -/
def skipBlanks (cs : List Char) : List Char := cs.dropWhile isBlank

/-- `parse_ident`: the rest of a word. -/
def expect (word cs : List Char) : Option (List Char) :=
  if word.isPrefixOf cs then some (cs.drop word.length) else none

/-- The value of a hexadecimal digit. -/
def hexValue (c : Char) : Option Nat :=
  if '0' ≤ c ∧ c ≤ '9' then some (c.toNat - '0'.toNat)
  else if 'a' ≤ c ∧ c ≤ 'f' then some (c.toNat - 'a'.toNat + 10)
  else if 'A' ≤ c ∧ c ≤ 'F' then some (c.toNat - 'A'.toNat + 10)
  else none

/-- `decode_hex_escape`: four digits. -/
def readHex4 : List Char → Option (Nat × List Char)
  | a :: b :: c :: d :: rest => do
    let a ← hexValue a
    let b ← hexValue b
    let c ← hexValue c
    let d ← hexValue d
    return (((a * 16 + b) * 16 + c) * 16 + d, rest)
  | _ => none

/-- The escapes of one letter in `parse_escape`. -/
def simpleEscape (c : Char) : Option Char :=
  if c = '"' ∨ c = '\\' ∨ c = '/' then some c
  else if c = 'b' then some '\x08'
  else if c = 'f' then some '\x0c'
  else if c = 'n' then some '\n'
  else if c = 'r' then some '\r'
  else if c = 't' then some '\t'
  else none

/-- `parse_unicode_escape`: `\u` has been read. -/
def readUnicode (cs : List Char) : Option (Char × List Char) := do
  let (u, cs) ← readHex4 cs
  if 0xDC00 ≤ u ∧ u < 0xE000 then none
  else if 0xD800 ≤ u ∧ u < 0xDC00 then do
    let cs ← expect ['\\', 'u'] cs
    let (v, cs) ← readHex4 cs
    if 0xDC00 ≤ v ∧ v < 0xE000 then
      return (Char.ofNat (0x10000 + (u - 0xD800) * 0x400 + (v - 0xDC00)), cs)
    else none
  else return (Char.ofNat u, cs)

/-- `parse_escape`: `\` has been read. -/
def readEscape : List Char → Option (Char × List Char)
  | [] => none
  | e :: cs => if e = 'u' then readUnicode cs else (simpleEscape e).map fun c => (c, cs)

/-- The next character of a string; `none` is the closing quotation mark. -/
def readStrChar : List Char → Option (Option Char × List Char)
  | [] => none
  | c :: cs =>
    if c = '"' then some (none, cs)
    else if c = '\\' then (readEscape cs).map fun r => (some r.1, r.2)
    else if c.toNat < 0x20 then none
    else some (some c, cs)

/-- `parse_str`: the opening quotation mark has been read. -/
def readString : (fuel : Nat) → List Char → Option (List Char × List Char)
  | 0, _ => none
  | fuel + 1, cs =>
    match readStrChar cs with
    | none => none
    | some (none, cs) => some ([], cs)
    | some (some c, cs) => (readString fuel cs).map fun r => (c :: r.1, r.2)

/-- One or more digits. -/
def readDigits (cs : List Char) : Option (List Char × List Char) :=
  if cs.takeWhile Char.isDigit = [] then none
  else some (cs.takeWhile Char.isDigit, cs.dropWhile Char.isDigit)

/-- The digits before the point: no digit may follow a zero in front. -/
def readInt : List Char → Option (List Char × List Char)
  | [] => none
  | c :: cs => if c = '0' then some (['0'], cs) else readDigits (c :: cs)

/-- The point and the digits after it, if any; also returns whether there are any. -/
def readFrac : List Char → Option (Bool × List Char)
  | [] => some (false, [])
  | c :: cs => if c = '.' then (readDigits cs).map fun r => (true, r.2) else some (false, c :: cs)

/-- The sign of an exponent, if any. -/
def skipSign : List Char → List Char
  | [] => []
  | c :: cs => if c = '+' ∨ c = '-' then cs else c :: cs

/-- The exponent, if any; also returns whether there is one. -/
def readExp : List Char → Option (Bool × List Char)
  | [] => some (false, [])
  | c :: cs =>
    if c = 'e' ∨ c = 'E' then (readDigits (skipSign cs)).map fun r => (true, r.2)
    else some (false, c :: cs)

/-- What a number is read as: integers in the range of `u64` or `i64` are integers, all other numbers (also `-0`)
are floating-point numbers. -/
def numValue (neg : Bool) (digits : List Char) (isFloat : Bool) : Json :=
  let n := Nat.ofDigitChars 10 digits 0
  if isFloat then .float
  else if neg then (if 0 < n ∧ n ≤ 2 ^ 63 then .num (-n) else .float)
  else if n < 2 ^ 64 then .num n
  else .float

/-- `parse_integer`, `parse_decimal` and `parse_exponent`, after the sign. -/
def readUnsigned (neg : Bool) (cs : List Char) : Option (Json × List Char) := do
  let (digits, cs) ← readInt cs
  let (frac, cs) ← readFrac cs
  let (exp, cs) ← readExp cs
  return (numValue neg digits (frac || exp), cs)

/-- A number. -/
def readNumber : List Char → Option (Json × List Char)
  | [] => none
  | c :: cs => if c = '-' then readUnsigned true cs else readUnsigned false (c :: cs)

mutual

/-- A value, after blanks; also returns what follows it. `fuel` bounds the nesting. -/
def readValue : (fuel : Nat) → List Char → Option (Json × List Char)
  | 0, _ => none
  | fuel + 1, cs =>
    match skipBlanks cs with
    | [] => none
    | c :: cs =>
      if c = '"' then (readString (cs.length + 1) cs).map fun r => (.str (String.ofList r.1), r.2)
      else if c = '[' then
        if (skipBlanks cs).head? = some ']' then some (.arr [], (skipBlanks cs).tail)
        else (readElems fuel cs).map fun r => (.arr r.1, r.2)
      else if c = '{' then
        if (skipBlanks cs).head? = some '}' then some (.obj [], (skipBlanks cs).tail)
        else (readMembers fuel cs).map fun r => (.obj r.1, r.2)
      else if c = 'n' then (expect ['u', 'l', 'l'] cs).map fun r => (.null, r)
      else if c = 't' then (expect ['r', 'u', 'e'] cs).map fun r => (.bool true, r)
      else if c = 'f' then (expect ['a', 'l', 's', 'e'] cs).map fun r => (.bool false, r)
      else readNumber (c :: cs)

/-- The rest of an array, from an element on. -/
def readElems : (fuel : Nat) → List Char → Option (List Json × List Char)
  | 0, _ => none
  | fuel + 1, cs =>
    match readValue fuel cs with
    | none => none
    | some (x, cs) =>
      match skipBlanks cs with
      | [] => none
      | c :: cs =>
        if c = ']' then some ([x], cs)
        else if c = ',' then (readElems fuel cs).map fun r => (x :: r.1, r.2)
        else none

/-- The rest of an object, from a field on. -/
def readMembers : (fuel : Nat) → List Char → Option (List (String × Json) × List Char)
  | 0, _ => none
  | fuel + 1, cs =>
    match skipBlanks cs with
    | [] => none
    | c :: cs =>
      if c = '"' then
        match readString (cs.length + 1) cs with
        | none => none
        | some (key, cs) =>
          match skipBlanks cs with
          | [] => none
          | c :: cs =>
            if c = ':' then
              match readValue fuel cs with
              | none => none
              | some (x, cs) =>
                match skipBlanks cs with
                | [] => none
                | c :: cs =>
                  if c = '}' then some ([(String.ofList key, x)], cs)
                  else if c = ',' then
                    (readMembers fuel cs).map fun r => ((String.ofList key, x) :: r.1, r.2)
                  else none
            else none
      else none

end

/-- `serde_json::from_str`: one value, and nothing but blanks after it. -/
def read (cs : List Char) : Option Json :=
  match readValue (cs.length + 1) cs with
  | none => none
  | some (j, rest) => if skipBlanks rest = [] then some j else none

/-- The same for bytes, which must be UTF-8 (`std::fs::read_to_string`). -/
def readBytes (bytes : CcLib.Bytes) : Option Json :=
  match bytes.toByteArray.utf8Decode? with
  | none => none
  | some cs => read cs.toList

/-! ## Writing -/

/-- The hexadecimal digits written by `serde_json`. -/
def hexDigit (n : Nat) : Char := "0123456789abcdef".toList.getD n '0'

/-- `format_escaped_str_contents`, for one character. -/
def writeChar (c : Char) : List Char :=
  if c = '"' then ['\\', '"']
  else if c = '\\' then ['\\', '\\']
  else if c = '\x08' then ['\\', 'b']
  else if c = '\x0c' then ['\\', 'f']
  else if c = '\n' then ['\\', 'n']
  else if c = '\r' then ['\\', 'r']
  else if c = '\t' then ['\\', 't']
  else if c.toNat < 0x20 then ['\\', 'u', '0', '0', hexDigit (c.toNat / 16), hexDigit (c.toNat % 16)]
  else [c]

/-- `format_escaped_str`. -/
def writeString (s : String) : List Char := '"' :: (s.toList.flatMap writeChar ++ ['"'])

/-- An integer in decimal. -/
def writeInt : Int → List Char
  | .ofNat n => Nat.toDigits 10 n
  | .negSucc n => '-' :: Nat.toDigits 10 (n + 1)

mutual

/-- The compact text of a value (`serde_json::to_string`). Floating-point numbers do not occur in the texts of
libraries; `0.0` stands for them. -/
def write : Json → List Char
  | .null => "null".toList
  | .bool b => if b then "true".toList else "false".toList
  | .num n => writeInt n
  | .float => "0.0".toList
  | .str s => writeString s
  | .arr [] => ['[', ']']
  | .arr (x :: xs) => '[' :: (write x ++ writeElems xs)
  | .obj [] => ['{', '}']
  | .obj ((k, x) :: fs) => '{' :: (writeString k ++ ':' :: (write x ++ writeMembers fs))

/-- The rest of an array, after an element. -/
def writeElems : List Json → List Char
  | [] => [']']
  | x :: xs => ',' :: (write x ++ writeElems xs)

/-- The rest of an object, after a field. -/
def writeMembers : List (String × Json) → List Char
  | [] => ['}']
  | (k, x) :: fs => ',' :: (writeString k ++ ':' :: (write x ++ writeMembers fs))

end

end Json

namespace MethodLib

/-- `MethodLib::to_json` — src/method_lib/mod.rs:162-164, with the text it returns. -/
def toText (order : List ((Stage × FullClass) × List CompactMethod) →
    List ((Stage × FullClass) × List CompactMethod)) (lib : MethodLib) : Res (List Char) := do
  let json ← lib.toJson order
  return json.write

/-- `MethodLib::from_json` — src/method_lib/mod.rs:168-170, of a text; `none` is an error of `serde_json`. -/
def ofText (lower : String → String) (text : List Char) : Res (Option MethodLib) :=
  match Json.read text with
  | none => .ok none
  | some json => fromJson lower json

end MethodLib

end Bellframe
