import Verif.Model.Row
import Verif.Model.Utils
import Verif.Model.Mask

/-!
# Model of `src/music.rs`

(and of `From<Mask> for Regex`, src/mask.rs:333-341).  `with_capacity` is not modelled.
-/

namespace Bellframe

/-- `enum RegexElem` — src/music.rs:13-20. -/
inductive RegexElem where
  | bell (b : Bell)
  | any
  | glob
deriving DecidableEq, Repr

/-- `struct Regex` — src/music.rs:50-62. -/
structure Regex where
  elems : List RegexElem
deriving DecidableEq, Repr

namespace Regex

/-- `matches!(e, RegexElem::Bell(_))` — src/music.rs:123. -/
def isBell : RegexElem → Bool
  | .bell _ => true
  | _ => false

/-- `matches!(e, RegexElem::Any)` — src/music.rs:134. -/
def isAny : RegexElem → Bool
  | .any => true
  | _ => false

/-- `RegexElem::bell` — src/music.rs:25-30. -/
def elemBell : RegexElem → Option Bell
  | .bell b => some b
  | _ => none

/-- `slice::split_inclusive` of the standard library. -/
def splitInclusive {α : Type} (p : α → Bool) : List α → List (List α)
  | [] => []
  | x :: xs =>
    if p x then [x] :: splitInclusive p xs
    else
      match splitInclusive p xs with
      | [] => [[x]]
      | c :: cs => (x :: c) :: cs

/-- One iteration of the loop of `normalise`: what is pushed for a slice — src/music.rs:125-141. -/
def normaliseSlice (slice : List RegexElem) : Res (List RegexElem) := do
  assertThat (!slice.isEmpty)
  let wildcardsPattern := slice.take (slice.length - 1)
  let bellElem ← getIdx slice (slice.length - 1)
  let numWildcards := (wildcardsPattern.filter isAny).length
  return List.replicate numWildcards .any ++
    (if wildcardsPattern.contains .glob then [.glob] else []) ++ [bellElem]

/-- The loop of `normalise` — src/music.rs:121-142. -/
def normaliseLoop : List (List RegexElem) → (out : List RegexElem) → Res (List RegexElem)
  | [], out => .ok out
  | slice :: slices, out => do
    let pushed ← normaliseSlice slice
    normaliseLoop slices (out ++ pushed)

/-- `Regex::normalise` — src/music.rs:113-149. -/
def normalise (r : Regex) : Res Regex := do
  let elems := r.elems ++ [.bell .treble]
  let normalised ← normaliseLoop (splitInclusive isBell elems) []
  assertThat (normalised.getLast? == some (.bell .treble))
  return ⟨normalised.dropLast⟩

/-- `Regex::from_vec` (and `from_elems`) — src/music.rs:77-79, 92-98. -/
def fromVec (elems : List RegexElem) : Res Regex := normalise ⟨elems⟩

/-- The closure of `Regex::parse` — src/music.rs:69-73. -/
def parseChar (c : Char) : Option RegexElem :=
  if c = 'x' ∨ c = '.' then some .any
  else if c = '*' then some .glob
  else (Bell.fromName c).map .bell

/-- `Regex::parse` — src/music.rs:68-74. -/
def parse (s : List Char) : Res Regex := fromVec (s.filterMap parseChar)

/-- `run_iterator`: the bells of the run starting at `i` — src/music.rs:163, 195, 227. -/
def runElems (i len : Nat) : List RegexElem :=
  ((List.range' i len).map Bell.fromIndex).map RegexElem.bell

/-- `Regex::runs_front` — src/music.rs:153-181. -/
def runsFront (stage : Stage) (len : Nat) : List Regex :=
  if stage.numBells < len then []
  else (List.range (stage.numBells - len + 1)).flatMap fun i =>
    [⟨runElems i len ++ [.glob]⟩, ⟨(runElems i len).reverse ++ [.glob]⟩]

/-- `Regex::runs_back` — src/music.rs:185-213. -/
def runsBack (stage : Stage) (len : Nat) : List Regex :=
  if stage.numBells < len then []
  else (List.range (stage.numBells - len + 1)).flatMap fun i =>
    [⟨[.glob] ++ runElems i len⟩, ⟨[.glob] ++ (runElems i len).reverse⟩]

/-- `Regex::all_runs` — src/music.rs:217-252. -/
def allRuns (stage : Stage) (len : Nat) : List Regex :=
  if stage.numBells < len then []
  else (List.range (stage.numBells - len + 1)).flatMap fun i =>
    [⟨[.glob] ++ runElems i len ++ [.glob]⟩, ⟨[.glob] ++ (runElems i len).reverse ++ [.glob]⟩]

/-- `Regex::runs_front_or_back` — src/music.rs:256-261. -/
def runsFrontOrBack (stage : Stage) (len : Nat) : List Regex :=
  runsFront stage len ++ runsBack stage len

/-- `Regex::runs` — src/music.rs:265-271. -/
def runs (stage : Stage) (len : Nat) (internal : Bool) : List Regex :=
  if internal then allRuns stage len else runsFrontOrBack stage len

/-- `checked_factorial` of the crate `factorial`: the factorial, or `None` if it exceeds `max`
(`usize::MAX`). -/
def checkedFactorial (max : Nat) (n : Nat) : Option Nat :=
  let f := (List.range' 1 n).foldl (· * ·) 1
  if f ≤ max then some f else none

/-- The counting loop of `num_matching_rows` — src/music.rs:318-324: `(num_unfixed, num_wildcards,
num_globs)`.  `num_unfixed -= 1` panics on underflow (in a build with overflow checks). -/
def countElems : List RegexElem → (unfixed wildcards globs : Nat) → Res (Nat × Nat × Nat)
  | [], u, w, g => .ok (u, w, g)
  | .bell _ :: es, u, w, g => do
    let u' ← checkedSub u 1
    countElems es u' w g
  | .any :: es, u, w, g => countElems es u (w + 1) g
  | .glob :: es, u, w, g => countElems es u w (g + 1)

/-- `Regex::num_matching_rows` — src/music.rs:281-336, in a build with overflow checks; `max` is
`usize::MAX`. -/
def numMatchingRows (max : Nat) (r : Regex) (stage : Stage) : Res (Option Nat) := do
  let (numUnfixed, numWildcards, numGlobs) ← countElems r.elems stage.numBells 0 0
  match ← Utils.choice max numUnfixed numWildcards with
  | none => return none
  | some waysToFillWildcards =>
    let numBellsInGlobs ← checkedSub numUnfixed numWildcards
    match checkedFactorial max (numBellsInGlobs + (numWildcards - 1)) with
    | none => return none
    | some numerator =>
      match checkedFactorial max (numGlobs - 1) with
      | none => return none
      | some denominator =>
        if waysToFillWildcards * (numerator / denominator) ≤ max then
          return some (waysToFillWildcards * (numerator / denominator))
        else .error .overflow

/-- The inner loop of `run_match` after a glob: skip bells up to and including the wanted one —
src/music.rs:413-427. -/
def seekBell (b : Bell) : List (Bell × Nat) → Option (Nat × List (Bell × Nat))
  | [] => none
  | (x, i) :: rest => if x = b then some (i, rest) else seekBell b rest

/-- The loop of `run_match` — src/music.rs:377-440.  `acc` holds the places reported so far. -/
def runMatchLoop : List RegexElem → List (Bell × Nat) → (acc : List Nat) → Res (Bool × List Nat)
  | [], bells, acc => .ok (bells.isEmpty, acc)
  | .bell _ :: _, [], acc => .ok (false, acc)
  | .bell b :: es, (x, i) :: bells, acc =>
    if x = b then runMatchLoop es bells (acc ++ [i]) else .ok (false, acc)
  | .any :: _, [], acc => .ok (false, acc)
  | .any :: es, _ :: bells, acc => runMatchLoop es bells acc
  | .glob :: [], _, acc => .ok (true, acc)
  | .glob :: .bell b :: es, bells, acc =>
    match seekBell b bells with
    | some (i, rest) => runMatchLoop es rest (acc ++ [i])
    | none => .ok (false, acc)
  | .glob :: .any :: _, _, _ => .error .unreachable
  | .glob :: .glob :: _, _, _ => .error .unreachable

/-- `Regex::run_match` — src/music.rs:369-441. -/
def runMatch (re : Regex) (r : Row) : Res (Bool × List Nat) := runMatchLoop re.elems r.bells.zipIdx []

/-- `Regex::matches` — src/music.rs:341-344. -/
def matches_ (re : Regex) (r : Row) : Res Bool := do
  let (isMatch, _) ← re.runMatch r
  return isMatch

/-- `Regex::match_pattern` — src/music.rs:349-361. -/
def matchPattern (re : Regex) (r : Row) : Res (Option (List Nat)) := do
  let (isMatch, places) ← re.runMatch r
  if isMatch then
    return some places
  else
    return none

/-- `Display for RegexElem` — src/music.rs:33-41. -/
def displayElem : RegexElem → List Char
  | .bell b => b.name
  | .any => ['x']
  | .glob => ['*']

/-- `Display for Regex` — src/music.rs:444-451. -/
def display (re : Regex) : List Char := re.elems.flatMap displayElem

/-- The closure of `From<Mask> for Regex` — src/mask.rs:337-338. -/
def elemOfMask : Option Bell → RegexElem
  | none => .any
  | some b => .bell b

/-- `From<Mask> for Regex` — src/mask.rs:333-341. -/
def ofMask (m : Mask) : Res Regex := fromVec (m.bells.map elemOfMask)

end Regex

end Bellframe
