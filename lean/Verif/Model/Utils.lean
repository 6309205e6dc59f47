import Verif.Model.Bell

/-! # Model of `src/utils.rs` -/

namespace Bellframe

namespace Utils

/-- `run_len` — src/utils.rs:11-18: `tuple_windows` pairs each item with its successor, `take_while`
keeps the leading pairs that differ by one. -/
def runLen (bells : List Bell) : Nat :=
  let idxs := bells.map Bell.index
  ((idxs.zip idxs.tail).takeWhile
    (fun p => ((p.1 : Int) - (p.2 : Int)).natAbs == 1)).length + 1

/-- One end of a `RangeBounds<usize>`. -/
inductive Bound where
  | included (v : Nat)
  | excluded (v : Nat)
  | unbounded
deriving DecidableEq, Repr

/-- `clamp_range` — src/utils.rs:22-35: returns `(start, end)` of the resulting `Range`.
(Overflow of `v + 1` at `usize::MAX` is not modelled.) -/
def clampRange (start stop : Bound) (length : Nat) : Nat × Nat :=
  let lo := match start with
    | .included v => v
    | .excluded v => v + 1
    | .unbounded => 0
  let hi := match stop with
    | .included v => v + 1
    | .excluded v => v
    | .unbounded => length
  (lo, hi)

/-- `split_vec` — src/utils.rs:38-47. -/
def splitVec {α : Type} (v : List α) (index : Nat) : Option (List α × List α) :=
  if index > v.length then none
  else some (v.take index, v.drop index)

/-- The loop of `choice` — src/utils.rs:71-77: iterations `i, i+1, .., k`, `fuel` of them left.
`max` is `usize::MAX`; `numerator.checked_mul` fails above it; `denominator *= i` would panic on
overflow. -/
def choiceLoop (max n k : Nat) : (fuel i numerator denominator : Nat) → Res (Option Nat)
  | 0, _, numerator, denominator =>
    if denominator = 0 then .error .divByZero else .ok (some (numerator / denominator))
  | fuel + 1, i, numerator, denominator =>
    if numerator * (n - k + i) > max then .ok none
    else if denominator * i > max then .error .overflow
    else choiceLoop max n k fuel (i + 1) (numerator * (n - k + i)) (denominator * i)

/-- `choice` — src/utils.rs:50-79. `n - k` underflows (a panic) when `k > n`. -/
def choice (max n k : Nat) : Res (Option Nat) := do
  let nMinusK ← checkedSub n k
  let k := min k nMinusK
  choiceLoop max n k k 1 1 1

end Utils

end Bellframe
