import Verif.Model.MachineVec
import Verif.Model.Music

/-! # Model of counting matching rows in machine words -/

namespace Bellframe

/-- The loop of `choice` — src/utils.rs:71-77: iterations `i, i+1, .., k`, `fuel` of them left. -/
def Utils.choiceLoopOn (m : Build) (n k : Nat) :
    (fuel i numerator denominator : Nat) → Res (Option Nat)
  | 0, _, numerator, denominator =>
    if denominator = 0 then .error .divByZero else .ok (some (numerator / denominator))
  | fuel + 1, i, numerator, denominator => do
    let diff ← m.sub n k
    let factor ← m.add diff i
    if numerator * factor < 2 ^ m.bits then
      let denominator' ← m.arith.mul denominator i
      choiceLoopOn m n k fuel (i + 1) (numerator * factor) denominator'
    else return none

/-- `choice` — src/utils.rs:50-79. -/
def Utils.choiceOn (m : Build) (n k : Nat) : Res (Option Nat) := do
  let diff ← m.sub n k
  let k := min k diff
  choiceLoopOn m n k k 1 1 1

namespace Regex

/-- The counting loop of `num_matching_rows` — src/music.rs:318-324: `(num_unfixed, num_wildcards,
num_globs)`. -/
def countElemsOn (m : Build) :
    List RegexElem → (unfixed wildcards globs : Nat) → Res (Nat × Nat × Nat)
  | [], u, w, g => .ok (u, w, g)
  | .bell _ :: es, u, w, g => do
    let u' ← m.sub u 1
    countElemsOn m es u' w g
  | .any :: es, u, w, g => do
    let w' ← m.add w 1
    countElemsOn m es u w' g
  | .glob :: es, u, w, g => do
    let g' ← m.add g 1
    countElemsOn m es u w g'

/-- `Regex::num_matching_rows` — src/music.rs:281-336. -/
def numMatchingRowsOn (m : Build) (r : Regex) (stage : Stage) : Res (Option Nat) := do
  let (numUnfixed, numWildcards, numGlobs) ← countElemsOn m r.elems stage.numBells 0 0
  match ← Utils.choiceOn m numUnfixed numWildcards with
  | none => return none
  | some waysToFillWildcards =>
    let numBellsInGlobs ← m.sub numUnfixed numWildcards
    let sum ← m.add numBellsInGlobs (numWildcards - 1)
    match checkedFactorial (2 ^ m.bits - 1) sum with
    | none => return none
    | some numerator =>
      match checkedFactorial (2 ^ m.bits - 1) (numGlobs - 1) with
      | none => return none
      | some denominator =>
        let result ← m.arith.mul waysToFillWildcards (numerator / denominator)
        return some result

end Regex

end Bellframe
