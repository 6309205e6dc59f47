import Verif.Model.Basic

/-! # Model of `src/parity.rs` -/

namespace Bellframe

/-- `enum Parity` — src/parity.rs:18-27. -/
inductive Parity where
  | even
  | odd
deriving DecidableEq, Repr

namespace Parity

/-- `Parity::from_is_odd` — src/parity.rs:32-37. -/
def fromIsOdd (v : Bool) : Parity :=
  match v with
  | false => .even
  | true => .odd

/-- `Parity::from_number` — src/parity.rs:41-43. -/
def fromNumber (v : Nat) : Parity := fromIsOdd (v % 2 != 0)

/-- `Parity::zero_or_one` — src/parity.rs:47-52. -/
def zeroOrOne (p : Parity) : Nat :=
  match p with
  | .even => 0
  | .odd => 1

/-- `Parity::plus_or_minus` — src/parity.rs:56-61. -/
def plusOrMinus (p : Parity) : Char :=
  match p with
  | .even => '+'
  | .odd => '-'

/-- `impl Mul for Parity` — src/parity.rs:64-76. -/
def mul (a b : Parity) : Parity := fromIsOdd (decide (a ≠ b))

end Parity

end Bellframe
