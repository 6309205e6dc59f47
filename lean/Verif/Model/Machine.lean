import Verif.Model.Row
import Verif.Model.Utils
import Verif.Model.Stage

/-!
# Model of the functions that calculate with numbers given by the caller, in machine words

The rest of the model has unbounded numbers; here `usize` and `isize` have a width.
-/

namespace Bellframe

/-- A build of the crate: the width of `usize`, and whether overflow panics. -/
structure Build where
  bits : Nat
  overflowChecks : Bool
deriving DecidableEq, Repr

namespace Build

/-- `+` of `usize`. -/
def add (m : Build) (a b : Nat) : Res Nat :=
  if a + b < 2 ^ m.bits then .ok (a + b)
  else if m.overflowChecks then .error .overflow else .ok ((a + b) % 2 ^ m.bits)

/-- `-` of `usize`. -/
def sub (m : Build) (a b : Nat) : Res Nat :=
  if b ≤ a then .ok (a - b)
  else if m.overflowChecks then .error .overflow else .ok ((a + 2 ^ m.bits - b) % 2 ^ m.bits)

/-- `v as usize` of an unsigned number. -/
def castUnsigned (m : Build) (v : Nat) : Nat := v % 2 ^ m.bits

/-- `v as usize` of a signed number. -/
def castInt (m : Build) (v : Int) : Nat := (v % 2 ^ m.bits).toNat

/-- The `isize` congruent to a number. -/
def wrapSigned (m : Build) (v : Int) : Int := (v + 2 ^ (m.bits - 1)) % 2 ^ m.bits - 2 ^ (m.bits - 1)

/-- The number is an `isize`. -/
def FitsSigned (m : Build) (v : Int) : Prop := -2 ^ (m.bits - 1) ≤ v ∧ v < 2 ^ (m.bits - 1)

instance (m : Build) (v : Int) : Decidable (m.FitsSigned v) := by unfold FitsSigned; infer_instance

/-- The result of an operation on `isize`. -/
def signedResult (m : Build) (v : Int) : Res Int :=
  if m.FitsSigned v then .ok v
  else if m.overflowChecks then .error .overflow else .ok (m.wrapSigned v)

end Build

namespace Bell

/-- `Bell::number` — src/bell.rs:201-203. -/
def numberOn (m : Build) (b : Bell) : Res Nat := m.add b.index 1

/-- `Bell::name` — src/bell.rs:229-234. -/
def nameOn (m : Build) (b : Bell) : Res (List Char) := do
  match b.toChar with
  | none =>
    let number ← b.numberOn m
    return '<' :: (Nat.toDigits 10 number ++ ['>'])
  | some c => return [c]

/-- `impl Add<usize> for Bell` — src/bell.rs:249-257. -/
def addOn (m : Build) (b : Bell) (rhs : Nat) : Res Bell := do
  let index ← m.add b.index rhs
  return ⟨index⟩

/-- `impl Sub<usize> for Bell` — src/bell.rs:265-273. -/
def subOn (m : Build) (b : Bell) (rhs : Nat) : Res Bell := do
  let index ← m.sub b.index rhs
  return ⟨index⟩

/-- `try_parse_bell` — src/bell.rs:374-384. -/
def tryParseBellOn (m : Build) (val : Int) : Res (Option Bell) := do
  if val > 0 then
    let b ← unwrap (fromNumber (m.castInt val))
    return some b
  else
    return none

/-- `impl Visitor for BellVisitor` — src/bell.rs:289-372. -/
def visitOn (m : Build) (v : SerdeValue) : Res (Option Bell) :=
  match v with
  | .uSmall v => tryParseBellOn m (Int.ofNat v)
  | .u64 v => .ok (fromNumber (m.castUnsigned v))
  | .int v => tryParseBellOn m v
  | .char c => .ok (fromName c)
  | .str s =>
    if utf8Len s ≠ 1 then .ok none
    else .ok (s.head?.bind fromName)

end Bell

namespace Stage

/-- `try_parse_stage` — src/stage.rs:446-452. -/
def tryParseStageOn (m : Build) (val : Int) : Res (Option Stage) := do
  if val ≥ 0 then
    let s ← new (m.castInt val)
    return some s
  else
    return none

/-- `impl Visitor for StageVisitor` — src/stage.rs:368-441. -/
def visitOn (m : Build) (toLower : String → String) (v : Bell.SerdeValue) : Res (Option Stage) :=
  match v with
  | .uSmall v => do
    let s ← new (m.castUnsigned v)
    return some s
  | .u64 v => do
    let s ← new (m.castUnsigned v)
    return some s
  | .int v => tryParseStageOn m v
  | .char c => .ok (fromLowerCaseName (toLower (String.ofList [c])))
  | .str s => .ok (fromLowerCaseName (toLower (String.ofList s)))

end Stage

namespace Utils

/-- The test of `run_len` — src/utils.rs:15: `(i1 as isize - i2 as isize).abs() == 1`. -/
def differByOneOn (m : Build) (i1 i2 : Nat) : Res Bool := do
  let diff ← m.signedResult (m.wrapSigned i1 - m.wrapSigned i2)
  let abs ← m.signedResult diff.natAbs
  return abs == 1

/-- The loop of `run_len` — src/utils.rs:12-16. -/
def runLoopOn (m : Build) : List Bell → Res Nat
  | a :: b :: rest => do
    if ← differByOneOn m a.index b.index then
      let n ← runLoopOn m (b :: rest)
      return n + 1
    else return 0
  | _ => return 0

/-- `run_len` — src/utils.rs:11-18. -/
def runLenOn (m : Build) (bells : List Bell) : Res Nat := do
  let count ← runLoopOn m bells
  m.add count 1

/-- `clamp_range` — src/utils.rs:22-35. -/
def clampRangeOn (m : Build) (start stop : Bound) (length : Nat) : Res (Nat × Nat) := do
  let lo ← match start with
    | .included v => pure v
    | .excluded v => m.add v 1
    | .unbounded => pure 0
  let hi ← match stop with
    | .included v => m.add v 1
    | .excluded v => pure v
    | .unbounded => pure length
  return (lo, hi)

end Utils

/-- `Row::pow_i` — src/row/borrowed.rs:477-483; the exponent is an `isize`. -/
def Row.powIOn (m : Build) (r : Row) (exponent : Int) : Res Row := do
  if exponent < 0 then
    let ri ← r.inv
    let negated ← m.signedResult (-exponent)
    ri.powU (m.castInt negated)
  else
    r.powU (m.castInt exponent)

end Bellframe
