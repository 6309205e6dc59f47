/-!
# Shared vocabulary of the model

Rust panics are explicit error values (`Res`), and loops whose termination is not syntactically
evident run in `Run`, where `none` means that the loop never finishes.
-/

namespace Bellframe

/-- The ways in which the modelled Rust code can panic, or worse. -/
inductive Panic where
  /-- slice or `Vec` index out of bounds -/
  | index
  /-- `Option::unwrap`/`Result::unwrap`/`expect` on the failure case -/
  | unwrap
  /-- `assert!`/`assert_eq!`/`debug_assert!` failed -/
  | assert
  /-- `unreachable!()` reached -/
  | unreachable
  /-- arithmetic overflow or underflow in a build with overflow checks -/
  | overflow
  /-- division by zero -/
  | divByZero
  /-- `itertools::zip_eq` on iterators of different lengths -/
  | zipEq
  /-- not a panic: an unchecked access out of bounds, which is undefined behaviour -/
  | undefined
  /-- an explicit `panic!()` -/
  | explicit
deriving DecidableEq, Repr

/-- A computation that either returns or panics. -/
abbrev Res (α : Type) := Except Panic α

/-- A computation that returns, panics, or (`none`) runs forever. -/
abbrev Run (α : Type) := ExceptT Panic Option α

namespace Run

/-- The computation finishes, without a panic, with the given value. -/
def Returns {α : Type} (x : Run α) (a : α) : Prop := x = (some (Except.ok a) : Option (Except Panic α))

/-- The computation finishes by panicking. -/
def Panics {α : Type} (x : Run α) (p : Panic) : Prop :=
  x = (some (Except.error p) : Option (Except Panic α))

/-- The computation never finishes. -/
def Diverges {α : Type} (x : Run α) : Prop := x = (none : Option (Except Panic α))

end Run

/-- `slice[i]`: panics when out of bounds. -/
def getIdx {α : Type} (l : List α) (i : Nat) : Res α :=
  match l[i]? with
  | some a => .ok a
  | none => .error .index

/-- `slice.get_unchecked(i)`: undefined behaviour when out of bounds. -/
def getUnchecked {α : Type} (l : List α) (i : Nat) : Res α :=
  match l[i]? with
  | some a => .ok a
  | none => .error .undefined

/-- `slice[i] = a`: panics when out of bounds. -/
def setIdx {α : Type} (l : List α) (i : Nat) (a : α) : Res (List α) :=
  if i < l.length then .ok (l.set i a) else .error .index

/-- `opt.unwrap()` -/
def unwrap {α : Type} (o : Option α) : Res α :=
  match o with
  | some a => .ok a
  | none => .error .unwrap

/-- `res.unwrap()` for a Rust `Result` -/
def unwrapResult {ε α : Type} (r : Except ε α) : Res α :=
  match r with
  | .ok a => .ok a
  | .error _ => .error .unwrap

/-- `assert!(c)` -/
def assertThat (c : Bool) : Res Unit := if c then .ok () else .error .assert

/-- Subtraction of unsigned integers in a build with overflow checks. -/
def checkedSub (a b : Nat) : Res Nat := if b ≤ a then .ok (a - b) else .error .overflow

/-- Machine arithmetic on `usize`: how `+` and `*` behave. -/
structure Arith where
  add : Nat → Nat → Res Nat
  mul : Nat → Nat → Res Nat

/-- Arithmetic modulo `2^w` that panics on overflow (Rust debug builds). -/
def Arith.checked (w : Nat) : Arith where
  add a b := if a + b < 2 ^ w then .ok (a + b) else .error .overflow
  mul a b := if a * b < 2 ^ w then .ok (a * b) else .error .overflow

/-- Arithmetic that wraps around at `2^w` (Rust release builds). -/
def Arith.wrapping (w : Nat) : Arith where
  add a b := .ok ((a + b) % 2 ^ w)
  mul a b := .ok ((a * b) % 2 ^ w)

/-- Arithmetic on unbounded naturals. -/
def Arith.unbounded : Arith where
  add a b := .ok (a + b)
  mul a b := .ok (a * b)

end Bellframe
