import Verif.Model.Row
import Verif.Model.Utils

/-!
# Model of `src/row/same_stage_vec.rs`

Operations through `&mut self` return the new value of the vector.  Where a Rust function returns a
`Result` after mutating `self`, the pair (new vector, result) is returned.
-/

namespace Bellframe

/-- `slice.get(start..stop)` of the Rust standard library. -/
def sliceGet {α : Type} (l : List α) (start stop : Nat) : Option (List α) :=
  if start ≤ stop ∧ stop ≤ l.length then some ((l.take stop).drop start) else none

/-- `&slice[start..stop]` of the Rust standard library: panics where `get` gives `None`. -/
def sliceIdx {α : Type} (l : List α) (start stop : Nat) : Res (List α) :=
  match sliceGet l start stop with
  | some x => .ok x
  | none => .error .index

/-- `str::lines` of the Rust standard library, with the current (possibly empty) line in `cur`.
A `\n` ends a line, and a `\r` just before it is dropped; the text after the last `\n` is a line
unless it is empty. -/
def strLines : (cur : List Char) → (s : List Char) → List (List Char)
  | cur, [] => if cur.isEmpty then [] else [cur]
  | cur, c :: cs =>
    if c = '\n' then
      (if cur.getLast? = some '\r' then cur.dropLast else cur) :: strLines [] cs
    else strLines (cur ++ [c]) cs

/-- `struct SameStageVec` — src/row/same_stage_vec.rs:43-58. -/
structure SameStageVec where
  bells : List Bell
  stage : Stage
deriving DecidableEq, Repr

/-- `enum ParseError` — src/row/same_stage_vec.rs:485-496. -/
inductive SsvParseError where
  | zeroStage
  | invalidRow (lineNum : Nat) (err : InvalidRowError)
  | incompatibleStages (lineNum : Nat) (firstStage differentStage : Stage)
deriving DecidableEq, Repr

namespace SameStageVec

/-- `SameStageVec::new` — src/row/same_stage_vec.rs:68-73 (`with_capacity`, 82-87, is the same apart
from the allocation). -/
def new (stage : Stage) : SameStageVec := ⟨[], stage⟩

/-- `SameStageVec::from_row_buf` — src/row/same_stage_vec.rs:92-97. -/
def fromRowBuf (row : Row) : Res SameStageVec := do
  let s ← row.stage
  return ⟨row.bells, s⟩

/-- `SameStageVec::len` — src/row/same_stage_vec.rs:156-161, with the `debug_assert!`. -/
def len (v : SameStageVec) : Res Nat := do
  if v.stage.numBells = 0 then throw .divByZero
  assertThat (v.bells.length % v.stage.numBells = 0)
  return v.bells.length / v.stage.numBells

/-- `SameStageVec::is_empty` — src/row/same_stage_vec.rs:165-167. -/
def isEmpty (v : SameStageVec) : Bool := v.bells.isEmpty

/-- `SameStageVec::get_range_of_row` — src/row/same_stage_vec.rs:390-393, for given machine
arithmetic. -/
def getRangeOfRow (ar : Arith) (v : SameStageVec) (index : Nat) : Res (Nat × Nat) := do
  let s := v.stage.numBells
  let start ← ar.mul index s
  let next ← ar.add index 1
  let stop ← ar.mul next s
  return (start, stop)

/-- `SameStageVec::get` — src/row/same_stage_vec.rs:174-179, for given machine arithmetic. -/
def getWith (ar : Arith) (v : SameStageVec) (index : Nat) : Res (Option Row) := do
  let (start, stop) ← v.getRangeOfRow ar index
  match sliceGet v.bells start stop with
  | none => return none
  | some bells => return some ⟨bells⟩

/-- `SameStageVec::get` — src/row/same_stage_vec.rs:174-179, when the index computation does not
overflow (see `getWith` for the other case). -/
def get (v : SameStageVec) (index : Nat) : Option Row :=
  let s := v.stage.numBells
  match sliceGet v.bells (index * s) ((index + 1) * s) with
  | none => none
  | some bells => some ⟨bells⟩

/-- `SameStageVec::get_mut` — src/row/same_stage_vec.rs:183-189, used to overwrite the row at
`index` through the `&mut Row` by a (necessarily equally long) slice of bells. `none` when `get_mut`
returns `None`. -/
def setRow (v : SameStageVec) (index : Nat) (f : Row → Res Row) : Res (Option SameStageVec) :=
  let s := v.stage.numBells
  match sliceGet v.bells (index * s) ((index + 1) * s) with
  | none => .ok none
  | some bells => do
    let r ← f ⟨bells⟩
    return some ⟨v.bells.take (index * s) ++ r.bells ++ v.bells.drop ((index + 1) * s), v.stage⟩

/-- `SameStageVec::first` — src/row/same_stage_vec.rs:192-194. -/
def first (v : SameStageVec) : Option Row := v.get 0

/-- `SameStageVec::last` — src/row/same_stage_vec.rs:202-204. -/
def last (v : SameStageVec) : Res (Option Row) := do
  let n ← v.len
  if n < 1 then return none
  else return v.get (n - 1)

/-- `SameStageVec::first_mut` — src/row/same_stage_vec.rs:197-199, used like `setRow`. -/
def setFirst (v : SameStageVec) (f : Row → Res Row) : Res (Option SameStageVec) := v.setRow 0 f

/-- `SameStageVec::last_mut` — src/row/same_stage_vec.rs:207-209, used like `setRow`. -/
def setLast (v : SameStageVec) (f : Row → Res Row) : Res (Option SameStageVec) := do
  let n ← v.len
  if n < 1 then return none
  else v.setRow (n - 1) f

/-- `struct Iter` — src/row/same_stage_vec.rs:428-433. -/
structure Iter where
  bellsLeft : List Bell
  stage : Stage
deriving DecidableEq, Repr

/-- `SameStageVec::iter` — src/row/same_stage_vec.rs:213-220 (and `IntoIterator`, 416-424). -/
def iter (v : SameStageVec) : Iter := ⟨v.bells, v.stage⟩

/-- `Iterator::next` — src/row/same_stage_vec.rs:438-451; `split_at` panics when there are fewer
bells than the stage. -/
def Iter.next (it : Iter) : Res (Option Row × Iter) :=
  if it.bellsLeft.isEmpty then .ok (none, it)
  else if it.bellsLeft.length < it.stage.numBells then .error .index
  else .ok (some ⟨it.bellsLeft.take it.stage.numBells⟩,
    ⟨it.bellsLeft.drop it.stage.numBells, it.stage⟩)

/-- `DoubleEndedIterator::next_back` — src/row/same_stage_vec.rs:458-473. -/
def Iter.nextBack (it : Iter) : Res (Option Row × Iter) :=
  if it.bellsLeft.isEmpty then .ok (none, it)
  else do
    let k ← checkedSub it.bellsLeft.length it.stage.numBells
    return (some ⟨it.bellsLeft.drop k⟩, ⟨it.bellsLeft.take k, it.stage⟩)

/-- `ExactSizeIterator::len` — src/row/same_stage_vec.rs:478-480. -/
def Iter.len (it : Iter) : Res Nat :=
  if it.stage.numBells = 0 then .error .divByZero
  else .ok (it.bellsLeft.length / it.stage.numBells)

/-- Calling `next` until it returns `None` (`for`, `collect`, `map`…).  A zero stage, which cannot be
constructed, would make this loop forever; it is a panic here. -/
def Iter.collect (it : Iter) : Res (List Row) :=
  if hs : it.stage.numBells = 0 then
    if it.bellsLeft.isEmpty then .ok [] else .error .explicit
  else
    if hb : it.bellsLeft.isEmpty then .ok []
    else if it.bellsLeft.length < it.stage.numBells then .error .index
    else do
      let rest ← Iter.collect ⟨it.bellsLeft.drop it.stage.numBells, it.stage⟩
      return ⟨it.bellsLeft.take it.stage.numBells⟩ :: rest
termination_by it.bellsLeft.length
decreasing_by
  have : 0 < it.bellsLeft.length := by
    cases h : it.bellsLeft with
    | nil => simp [h] at hb
    | cons => simp
  simp
  omega

/-- `SameStageVec::path_of` — src/row/same_stage_vec.rs:224-229. -/
def pathOf (v : SameStageVec) (bell : Bell) : Res (Option (List Nat)) := do
  if bell.index < v.stage.numBells then
    let rows ← v.iter.collect
    let path ← rows.mapM (fun r => unwrap (r.placeOf bell))
    return some path
  else
    return none

/-- `SameStageVec::push` — src/row/same_stage_vec.rs:237-241. -/
def push (v : SameStageVec) (row : Row) : Res (SameStageVec × Except IncompatibleStages Unit) := do
  let s ← row.stage
  match IncompatibleStages.testErr v.stage s with
  | .error e => return (v, .error e)
  | .ok () => return (⟨v.bells ++ row.bells, v.stage⟩, .ok ())

/-- `SameStageVec::pop` — src/row/same_stage_vec.rs:246-254, with the `debug_assert_eq!`. -/
def pop (v : SameStageVec) : Res (SameStageVec × Option Row) := do
  if v.bells.length < v.stage.numBells then return (v, none)
  else
    let startIndex := v.bells.length - v.stage.numBells
    if v.stage.numBells = 0 then throw .divByZero
    assertThat (startIndex % v.stage.numBells = 0)
    return (⟨v.bells.take startIndex, v.stage⟩, some ⟨v.bells.drop startIndex⟩)

/-- The loop of `extend` — src/row/same_stage_vec.rs:263-270; `before` is
`num_bells_before_extend`. -/
def extendLoop (before : Nat) : (v : SameStageVec) → (rows : List Row) →
    Res (SameStageVec × Except IncompatibleStages Unit)
  | v, [] => .ok (v, .ok ())
  | v, row :: rows => do
    let s ← row.stage
    match IncompatibleStages.testErr v.stage s with
    | .error e => return (⟨v.bells.take before, v.stage⟩, .error e)
    | .ok () => extendLoop before ⟨v.bells ++ row.bells, v.stage⟩ rows

/-- `SameStageVec::extend` — src/row/same_stage_vec.rs:258-272. -/
def extend (v : SameStageVec) (rows : List Row) :
    Res (SameStageVec × Except IncompatibleStages Unit) :=
  extendLoop v.bells.length v rows

/-- `SameStageVec::extend_from_buf` — src/row/same_stage_vec.rs:279-283. -/
def extendFromBuf (v other : SameStageVec) : SameStageVec × Except IncompatibleStages Unit :=
  match IncompatibleStages.testErr v.stage other.stage with
  | .error e => (v, .error e)
  | .ok () => (⟨v.bells ++ other.bells, v.stage⟩, .ok ())

/-- `SameStageVec::to_bell_range` — src/row/same_stage_vec.rs:382-387 (overflow is not modelled). -/
def toBellRange (v : SameStageVec) (start stop : Utils.Bound) : Res (Nat × Nat) := do
  let n ← v.len
  let (lo, hi) := Utils.clampRange start stop n
  return (lo * v.stage.numBells, hi * v.stage.numBells)

/-- `SameStageVec::extend_range_transposed` — src/row/same_stage_vec.rs:299-313.  (A panic while
mapping leaves a partially extended vector; after a panic no vector is returned here.) -/
def extendRangeTransposed (v : SameStageVec) (transposition : Row) (other : SameStageVec)
    (start stop : Utils.Bound) : Res (SameStageVec × Except IncompatibleStages Unit) := do
  let s ← transposition.stage
  match IncompatibleStages.testErr v.stage s with
  | .error e => return (v, .error e)
  | .ok () =>
    let (lo, hi) ← other.toBellRange start stop
    let slice ← sliceIdx other.bells lo hi
    let bells ← slice.mapM (fun b => getIdx transposition.bells b.index)
    return (⟨v.bells ++ bells, v.stage⟩, .ok ())

/-- `SameStageVec::extend_transposed` — src/row/same_stage_vec.rs:288-294. -/
def extendTransposed (v : SameStageVec) (transposition : Row) (other : SameStageVec) :
    Res (SameStageVec × Except IncompatibleStages Unit) :=
  v.extendRangeTransposed transposition other .unbounded .unbounded

/-- The loop of `extend_transposed_from_within` — src/row/same_stage_vec.rs:325-328, over the bell
indices still to be copied. -/
def fromWithinLoop (transposition : Row) : (bells : List Bell) → (idxs : List Nat) →
    Res (List Bell)
  | bells, [] => .ok bells
  | bells, i :: idxs => do
    let b ← getIdx bells i
    let t ← getIdx transposition.bells b.index
    fromWithinLoop transposition (bells ++ [t]) idxs

/-- `SameStageVec::extend_transposed_from_within` — src/row/same_stage_vec.rs:317-330. -/
def extendTransposedFromWithin (v : SameStageVec) (start stop : Utils.Bound)
    (transposition : Row) : Res (SameStageVec × Except IncompatibleStages Unit) := do
  let s ← transposition.stage
  match IncompatibleStages.testErr v.stage s with
  | .error e => return (v, .error e)
  | .ok () =>
    let (lo, hi) ← v.toBellRange start stop
    let bells ← fromWithinLoop transposition v.bells (List.range' lo (hi - lo))
    return (⟨bells, v.stage⟩, .ok ())

/-- `SameStageVec::pre_multiply` — src/row/same_stage_vec.rs:339-352 (also the deprecated `permute`,
334-336), with `Row::get_bell_unchecked` — src/row/borrowed.rs:137-139. -/
def preMultiply (v : SameStageVec) (lhsRow : Row) :
    Res (SameStageVec × Except IncompatibleStages Unit) := do
  let s ← lhsRow.stage
  match IncompatibleStages.testErr s v.stage with
  | .error e => return (v, .error e)
  | .ok () =>
    let bells ← v.bells.mapM (fun b => getUnchecked lhsRow.bells b.index)
    return (⟨bells, v.stage⟩, .ok ())

/-- `SameStageVec::pre_multiplied` — src/row/same_stage_vec.rs:355-359. -/
def preMultiplied (v : SameStageVec) (lhsRow : Row) :
    Res (Except IncompatibleStages SameStageVec) := do
  let (newVec, res) ← (new v.stage).extendTransposed lhsRow v
  match res with
  | .error e => return .error e
  | .ok () => return .ok newVec

/-- `SameStageVec::split` — src/row/same_stage_vec.rs:364-373 (overflow is not modelled). -/
def split (v : SameStageVec) (index : Nat) : Option (SameStageVec × SameStageVec) :=
  match Utils.splitVec v.bells (index * v.stage.numBells) with
  | none => none
  | some (l, r) => some (⟨l, v.stage⟩, ⟨r, v.stage⟩)

/-- `Index<usize>` — src/row/same_stage_vec.rs:399-403 (overflow is not modelled). -/
def index (v : SameStageVec) (i : Nat) : Res Row := do
  let bs ← sliceIdx v.bells (i * v.stage.numBells) ((i + 1) * v.stage.numBells)
  return ⟨bs⟩

/-- The loop of `parse` over the later lines — src/row/same_stage_vec.rs:113-127. -/
def parseLoop : (v : SameStageVec) → (lineNum : Nat) → (lines : List (List Char)) →
    Res (Except SsvParseError SameStageVec)
  | v, _, [] => .ok (.ok v)
  | v, lineNum, line :: lines =>
    match Row.parse line with
    | .error err => .ok (.error (.invalidRow lineNum err))
    | .ok row => do
      let (v', res) ← v.push row
      match res with
      | .error e => return .error (.incompatibleStages lineNum e.lhsStage e.rhsStage)
      | .ok () => parseLoop v' (lineNum + 1) lines

/-- `SameStageVec::parse` — src/row/same_stage_vec.rs:100-130. -/
def parse (s : List Char) : Res (Except SsvParseError SameStageVec) :=
  match strLines [] s with
  | [] => .error .unwrap
  | line :: lines =>
    match Row.parse line with
    | .error err => .ok (.error (.invalidRow 1 err))
    | .ok row => do
      let v ← fromRowBuf row
      parseLoop v 2 lines

end SameStageVec

end Bellframe
