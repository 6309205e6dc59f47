import Verif.Model.Row
import Verif.Model.Block

/-!
# Model of `src/mask.rs`

`zip_eq` is modelled by pairing the whole lists first; in Rust a difference of length would only be
noticed when the shorter list ends.  All uses come after a comparison of the stages.
`From<Mask> for Regex` is in `Verif.Model.Music`.
-/

namespace Bellframe

/-- `struct Mask` — src/mask.rs:18-21. -/
structure Mask where
  bells : List (Option Bell)
deriving DecidableEq, Repr

/-- `struct BellAlreadySet` — src/mask.rs:265-267. -/
inductive BellAlreadySet where
  | mk
deriving DecidableEq, Repr

namespace Mask

/-- The closure of `Mask::parse`: what a character means — src/mask.rs:28-33. -/
def parseChar (c : Char) : Option (Option Bell) :=
  if c = 'x' ∨ c = 'X' ∨ c = '.' then some none else (Bell.fromName c).map some

/-- `Mask::parse` — src/mask.rs:24-38. -/
def parse (s : List Char) : Mask := ⟨s.filterMap parseChar⟩

/-- `Mask::full_row` — src/mask.rs:41-45. -/
def fullRow (row : Row) : Mask := ⟨row.bells.map some⟩

/-- `Mask::empty` — src/mask.rs:49-55. -/
def empty (stage : Stage) : Mask := ⟨List.replicate stage.numBells none⟩

/-- `Mask::set_bell_unchecked` — src/mask.rs:155-157. -/
def setBellUnchecked (m : Mask) (b : Bell) (place : Nat) : Res Mask := do
  let bells ← setIdx m.bells place (some b)
  return ⟨bells⟩

/-- `Mask::fix_unchecked` — src/mask.rs:82-84. -/
def fixUnchecked (m : Mask) (b : Bell) : Res Mask := m.setBellUnchecked b b.index

/-- The loop of `Mask::fix_bells` — src/mask.rs:60-63. -/
def fixAll : List Bell → Mask → Res Mask
  | [], m => .ok m
  | b :: bs, m => do
    let m' ← m.fixUnchecked b
    fixAll bs m'

/-- `Mask::fix_bells` — src/mask.rs:58-65. -/
def fixBells (stage : Stage) (fixedBells : List Bell) : Res Mask := fixAll fixedBells (empty stage)

/-- `Mask::place_of` — src/mask.rs:123-130. -/
def placeOf (m : Mask) (bell : Bell) : Option Nat := m.bells.findIdx? (fun b => b == some bell)

/-- `Mask::set_bell` — src/mask.rs:133-148. -/
def setBell (m : Mask) (bell : Bell) (place : Nat) : Res (Mask × Except BellAlreadySet Unit) :=
  match m.bells.findIdx? (fun b => b == some bell) with
  | some p => if p = place then .ok (m, .ok ()) else .ok (m, .error .mk)
  | none => do
    let m' ← m.setBellUnchecked bell place
    return (m', .ok ())

/-- `Mask::fix` — src/mask.rs:70-72. -/
def fix (m : Mask) (b : Bell) : Res (Mask × Except BellAlreadySet Unit) := m.setBell b b.index

/-- `Mask::unspecified_places` — src/mask.rs:87-93. -/
def unspecifiedPlaces (m : Mask) : List Nat :=
  (m.bells.zipIdx.filter (fun p => p.1.isNone)).map (fun p => p.2)

/-- `Mask::stage` — src/mask.rs:97-99. -/
def stage (m : Mask) : Res Stage := Stage.new m.bells.length

/-- The loop of `Mask::matches` — src/mask.rs:108-116. -/
def matchesLoop : List (Option Bell × Bell) → Bool
  | [] => true
  | (some b, realBell) :: rest => if b ≠ realBell then false else matchesLoop rest
  | (none, _) :: rest => matchesLoop rest

/-- `Mask::matches` — src/mask.rs:102-118. -/
def matches_ (m : Mask) (row : Row) : Res Bool := do
  let s ← m.stage
  let t ← row.stage
  if s ≠ t then
    return false
  let pairs ← zipEq m.bells row.bells
  return matchesLoop pairs

/-- `Mask::is_empty` — src/mask.rs:160-162. -/
def isEmpty (m : Mask) : Bool := m.bells.all Option.isNone

/-- `Mask::as_row` — src/mask.rs:165-173.  The `unwrap`s cannot fail after the test, so they are
modelled by collecting the bells present. -/
def asRow (m : Mask) : Option Row :=
  if m.bells.all Option.isSome then some ⟨m.bells.filterMap id⟩ else none

/-- The loop of `Mask::is_subset_of` — src/mask.rs:184-196. -/
def subsetLoop : List (Option Bell × Option Bell) → Bool
  | [] => true
  | (none, some _) :: _ => false
  | (some b1, some b2) :: rest => if b1 ≠ b2 then false else subsetLoop rest
  | (_, none) :: rest => subsetLoop rest

/-- `Mask::is_subset_of` — src/mask.rs:177-200. -/
def isSubsetOf (m other : Mask) : Res Bool := do
  let s ← m.stage
  let t ← other.stage
  if s ≠ t then
    return false
  let pairs ← zipEq m.bells other.bells
  return subsetLoop pairs

/-- The loop of `Mask::is_compatible_with` — src/mask.rs:215-233; the pairs are
`(maybe_bell_other, maybe_bell_self)`, starting from place `i`. -/
def compatibleLoop (self : Mask) : List (Option Bell × Option Bell) → (i : Nat) → Bool
  | [], _ => true
  | (some bOther, maybeBellSelf) :: rest, i =>
    if !(maybeBellSelf.elim true (fun bSelf => bSelf == bOther)) then false
    else if !((self.bells.findIdx? (fun b => b == some bOther)).elim true (fun j => i == j)) then false
    else compatibleLoop self rest (i + 1)
  | (none, _) :: rest, i => compatibleLoop self rest (i + 1)

/-- `Mask::is_compatible_with` — src/mask.rs:206-237. -/
def isCompatibleWith (m other : Mask) : Res Bool := do
  let s ← m.stage
  let t ← other.stage
  if s ≠ t then
    return false
  let pairs ← zipEq other.bells m.bells
  return compatibleLoop m pairs 0

/-- The closure of `Mask::combine` — src/mask.rs:252-259. -/
def combinePlace : Option Bell × Option Bell → Res (Option Bell)
  | (some b1, some b2) => do
    assertThat (b1 == b2)
    return some b1
  | (some b1, none) => .ok (some b1)
  | (none, maybeBell) => .ok maybeBell

/-- `Mask::combine` — src/mask.rs:242-262. -/
def combine (m other : Mask) : Res (Option Mask) := do
  let ok ← m.isCompatibleWith other
  if !ok then
    return none
  let pairs ← zipEq m.bells other.bells
  let bells ← pairs.mapM combinePlace
  return some ⟨bells⟩

/-- `Display for Mask` — src/mask.rs:277-287. -/
def display (m : Mask) : List Char :=
  m.bells.flatMap fun maybeBell =>
    match maybeBell with
    | some b => b.name
    | none => ['x']

/-- `Mul<&Row> for &Mask` — src/mask.rs:291-307. -/
def mulRow (m : Mask) (rhs : Row) : Res Mask := do
  let s ← m.stage
  let t ← rhs.stage
  assertThat (s == t)
  let bells ← rhs.bells.mapM (fun b => getIdx m.bells b.index)
  return ⟨bells⟩

/-- The closure of `Mul<&Mask> for &Row` — src/mask.rs:325. -/
def transfigureBell (r : Row) : Option Bell → Res (Option Bell)
  | some b => do
    let b' ← getIdx r.bells b.index
    return some b'
  | none => .ok none

/-- `Mul<&Mask> for &Row` — src/mask.rs:309-329. -/
def rowMul (r : Row) (rhs : Mask) : Res Mask := do
  let s ← r.stage
  let t ← rhs.stage
  assertThat (s == t)
  let bells ← rhs.bells.mapM (transfigureBell r)
  return ⟨bells⟩

end Mask

end Bellframe
