import Verif.Model.Basic

/-! # Model of `src/bell.rs` -/

namespace Bellframe

/-- `struct Bell { index: usize }` — src/bell.rs:23-29. -/
structure Bell where
  index : Nat
deriving DecidableEq, Repr

namespace Bell

/-- `BELL_NAMES` — src/bell.rs:19. All of its characters are ASCII, so its bytes are its chars. -/
def bellNames : List Char := "1234567890ETABCDFGHJKLMNPQRSUVWYZ".toList

/-- `Bell::from_index` — src/bell.rs:76-78. -/
def fromIndex (index : Nat) : Bell := ⟨index⟩

/-- `Bell::from_name` — src/bell.rs:57-62. -/
def fromName (c : Char) : Option Bell := (bellNames.findIdx? (fun x => x == c)).map fromIndex

/-- `Bell::from_number` — src/bell.rs:96-98 (`checked_sub(1)`). -/
def fromNumber (number : Nat) : Option Bell :=
  match number with
  | 0 => none
  | n + 1 => some (fromIndex n)

/-- `Bell::TREBLE` — src/bell.rs:136. -/
def treble : Bell := ⟨0⟩

/-- `Bell::to_char` — src/bell.rs:157-159. -/
def toChar (b : Bell) : Option Char := bellNames[b.index]?

/-- `Bell::number` — src/bell.rs:201-203. -/
def number (b : Bell) : Nat := b.index + 1

/-- `Bell::name` (also `Display for Bell`, 243-247) — src/bell.rs:229-234. -/
def name (b : Bell) : List Char :=
  match b.toChar with
  | none => '<' :: (Nat.toDigits 10 b.number ++ ['>'])
  | some c => [c]

/-- `impl Add<usize> for Bell` (and `AddAssign`) — src/bell.rs:249-263. Unbounded `usize`. -/
def add (b : Bell) (rhs : Nat) : Bell := ⟨b.index + rhs⟩

/-- `impl Sub<usize> for Bell` (and `SubAssign`) — src/bell.rs:265-279. Underflow panics. -/
def sub (b : Bell) (rhs : Nat) : Res Bell := do
  let i ← checkedSub b.index rhs
  return ⟨i⟩

/-! ## Serde -/

/-- The self-describing values a deserializer can hand to the visitors. -/
inductive SerdeValue where
  /-- `visit_u8/u16/u32` -/
  | uSmall (v : Nat)
  /-- `visit_u64` -/
  | u64 (v : Nat)
  /-- `visit_i8/i16/i32/i64` -/
  | int (v : Int)
  /-- `visit_char` -/
  | char (c : Char)
  /-- `visit_str` -/
  | str (s : List Char)
deriving DecidableEq, Repr

/-- `try_parse_bell` — src/bell.rs:374-384 (the `unwrap` is a possible panic). -/
def tryParseBell (val : Int) : Res (Option Bell) := do
  if val > 0 then
    let b ← unwrap (fromNumber val.toNat)
    return some b
  else
    return none

/-- Number of bytes of the UTF-8 encoding of a string (`str::len`). -/
def utf8Len (s : List Char) : Nat := (s.map Char.utf8Size).sum

/-- `impl Visitor for BellVisitor` — src/bell.rs:289-372. `none` is a deserialisation error.
`visit_char` errors on non-names, `visit_str` requires one byte. -/
def visit (v : SerdeValue) : Res (Option Bell) :=
  match v with
  | .uSmall v => tryParseBell (Int.ofNat v)
  | .u64 v => .ok (fromNumber v)
  | .int v => tryParseBell v
  | .char c => .ok (fromName c)
  | .str s =>
    if utf8Len s ≠ 1 then .ok none
    else .ok (s.head?.bind fromName)

/-- `impl Serialize for Bell` — src/bell.rs:398-405: writes the **index** as a `u64`. -/
def serialize (b : Bell) : SerdeValue := .u64 b.index

/-- `impl Deserialize for Bell` — src/bell.rs:387-394. -/
def deserialize (v : SerdeValue) : Res (Option Bell) := visit v

end Bell

end Bellframe
