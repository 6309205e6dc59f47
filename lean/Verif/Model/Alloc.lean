import Verif.Model.Block
import Verif.Model.MachineVec

/-!
# Model of the buffers that rows are stored in, and of where the crate allocates memory

The rest of the model forgets where bells are stored. Here a vector of bells also has a capacity and
the number of the allocation that holds it, and every function is given the number of allocations
made so far and returns it together with its result. Nothing is said about freeing memory.

`std` promises that a vector never allocates while its capacity suffices and that its capacity
suffices afterwards; by how much a capacity exceeds what is needed is up to `std`, and is an arbitrary
function `spare` here. Simplified: a vector that has to grow while it is being extended grows once,
as `std` does for iterators whose length is known, which is the case for all iterators over rows; and
allocations do not fail.
-/

namespace Bellframe

/-- How many elements more than needed a vector of a given capacity allocates when it needs a given
length. -/
abbrev Spare := Nat → Nat → Nat

/-- A `Vec<Bell>`; also a `RowBuf` (src/row/owned.rs:21-27), which is nothing else. A vector of
capacity zero has no allocation, and its `addr` means nothing. -/
structure BellVec where
  bells : List Bell
  capacity : Nat
  addr : Nat
deriving DecidableEq, Repr

namespace BellVec

/-- `Vec::clear`, which keeps the allocation. -/
def clear (v : BellVec) : BellVec := { v with bells := [] }

/-- `vec.drain(len..)`, which keeps the allocation. -/
def truncate (v : BellVec) (len : Nat) : BellVec := { v with bells := v.bells.take len }

/-- `Vec::extend` and `Vec::extend_from_slice`; `h` is the number of allocations so far. -/
def extend (spare : Spare) (v : BellVec) (bs : List Bell) (h : Nat) : BellVec × Nat :=
  if v.bells.length + bs.length ≤ v.capacity then ({ v with bells := v.bells ++ bs }, h)
  else
    let need := v.bells.length + bs.length
    (⟨v.bells ++ bs, need + spare v.capacity need, h⟩, h + 1)

/-- `Iterator::collect` into a vector. -/
def collect (spare : Spare) (bs : List Bell) (h : Nat) : BellVec × Nat :=
  extend spare ⟨[], 0, h⟩ bs h

/-- A `RowBuf` as a row (`RowBuf::as_row`, src/row/owned.rs:370-374). -/
def row (v : BellVec) : Row := ⟨v.bells⟩

/-- `RowBuf::overwrite_from` — src/row/owned.rs:395-398, and `Row::copy_into` —
src/row/borrowed.rs:548-551. -/
def overwriteFrom (spare : Spare) (self : BellVec) (row : Row) (h : Nat) : BellVec × Nat :=
  self.clear.extend spare row.bells h

/-- `Row::mul_into` — src/row/borrowed.rs:321-340. Returns the `Result`, the new value of `out`, and
the number of allocations. -/
def mulInto (spare : Spare) (self rhs : Row) (out : BellVec) (h : Nat) :
    Res (Except IncompatibleStages Unit × BellVec × Nat) := do
  let s1 ← self.stage
  let s2 ← rhs.stage
  match IncompatibleStages.testErr s1 s2 with
  | .error e => return (.error e, out, h)
  | .ok () =>
    let bs ← Row.mulBells self.bells rhs.bells
    return (.ok (), out.clear.extend spare bs h)

/-- `Row::mul_result` and `*` — src/row/borrowed.rs:296-317, 903-1024: the product is a new row. -/
def mul (spare : Spare) (self rhs : Row) (h : Nat) : Res (BellVec × Nat) := do
  let r ← self.mul rhs
  return collect spare r.bells h

/-- `Row::inv_into_buf` — src/row/borrowed.rs:455-474. -/
def invIntoBuf (spare : Spare) (self : Row) (out : BellVec) (h : Nat) : Res (BellVec × Nat) := do
  let so ← out.row.stage
  let ss ← self.stage
  let (buf, h) :=
    if so.numBells < ss.numBells then
      out.extend spare (List.replicate (self.bells.length - out.bells.length) Bell.treble) h
    else if ss.numBells < so.numBells then
      (out.truncate self.bells.length, h)
    else
      (out, h)
  let sb ← buf.row.stage
  assertThat (sb = ss)
  let bs ← Row.invLoop self.bells 0 buf.bells
  return ({ buf with bells := bs }, h)

end BellVec

/-- `struct RowAccumulator` — src/row/accumulator.rs:7-11, with the buffers of its rows. -/
structure AccBufs where
  total : BellVec
  temp : BellVec
deriving DecidableEq, Repr

namespace AccBufs

/-- `RowAccumulator::new` — src/row/accumulator.rs:22-27: `total` is moved, `temp_row` is new. -/
def new (spare : Spare) (total : BellVec) (h : Nat) : Res (AccBufs × Nat) := do
  let s ← total.row.stage
  let (temp, h) := BellVec.collect spare (Row.rounds s).bells h
  return (⟨total, temp⟩, h)

/-- `RowAccumulator::rounds` — src/row/accumulator.rs:16-18. -/
def rounds (spare : Spare) (stage : Stage) (h : Nat) : Res (AccBufs × Nat) :=
  let (total, h) := BellVec.collect spare (Row.rounds stage).bells h
  new spare total h

/-- `RowAccumulator::accumulate` — src/row/accumulator.rs:31-35: `mem::swap` exchanges the
buffers. -/
def accumulate (spare : Spare) (a : AccBufs) (row : Row) (h : Nat) :
    Res (Except IncompatibleStages Unit × AccBufs × Nat) := do
  match ← BellVec.mulInto spare a.total.row row a.temp h with
  | (.error e, temp, h) => return (.error e, { a with temp := temp }, h)
  | (.ok (), temp, h) => return (.ok (), ⟨temp, a.total⟩, h)

/-- `RowAccumulator::pre_accumulate` — src/row/accumulator.rs:39-43. -/
def preAccumulate (spare : Spare) (a : AccBufs) (row : Row) (h : Nat) :
    Res (Except IncompatibleStages Unit × AccBufs × Nat) := do
  match ← BellVec.mulInto spare row a.total.row a.temp h with
  | (.error e, temp, h) => return (.error e, { a with temp := temp }, h)
  | (.ok (), temp, h) => return (.ok (), ⟨temp, a.total⟩, h)

/-- `RowAccumulator::set` — src/row/accumulator.rs:47-49. -/
def set (spare : Spare) (a : AccBufs) (row : Row) (h : Nat) : AccBufs × Nat :=
  let (total, h) := a.total.overwriteFrom spare row h
  ({ a with total := total }, h)

/-- The loop of `pow_u` — src/row/borrowed.rs:489-492. -/
def powLoop (spare : Spare) (r : Row) : Nat → AccBufs → (h : Nat) → Res (AccBufs × Nat)
  | 0, acc, h => .ok (acc, h)
  | n + 1, acc, h => do
    let (res, acc, h) ← acc.accumulate spare r h
    unwrapResult res
    powLoop spare r n acc h

end AccBufs

/-- `Row::pow_u` — src/row/borrowed.rs:486-494. -/
def BellVec.powU (spare : Spare) (r : Row) (exponent : Nat) (h : Nat) : Res (BellVec × Nat) := do
  let s ← r.stage
  let (acc, h) ← AccBufs.rounds spare s h
  let (acc, h) ← acc.powLoop spare r exponent h
  return (acc.total, h)

/-- `struct RepeatIter` — src/block.rs:491-496, with the buffer of the block head. -/
structure RepeatBuf (A : Type) where
  head : BellVec
  iter : InnerIter A
  block : AnnotBlock A

namespace RepeatBuf

variable {A : Type}

/-- `RepeatIter::new` — src/block.rs:499-506: `start_row` is moved. -/
def new (startRow : BellVec) (block : AnnotBlock A) :
    Res (Except IncompatibleStages (RepeatBuf A)) := do
  match ← RepeatIter.new startRow.row block with
  | .error e => return .error e
  | .ok it => return .ok ⟨startRow, it.iter, block⟩

/-- `RepeatIter::next_untransposed_row` — src/block.rs:522-532. -/
def nextUntransposedRow (spare : Spare) (it : RepeatBuf A) (h : Nat) :
    Res (Option (Nat × Row × A) × RepeatBuf A × Nat) := do
  let (item, inner) ← it.iter.next
  match item with
  | some x => return (some x, { it with iter := inner }, h)
  | none =>
    let leftover ← it.block.leftoverRow
    let (head, h) ← BellVec.mul spare it.head.row leftover h
    let inner' ← RepeatIter.getIter it.block
    let (item', inner'') ← inner'.next
    return (item', ⟨head, inner'', it.block⟩, h)

/-- `RepeatIter::next_into` — src/block.rs:510-516. -/
def nextInto (spare : Spare) (it : RepeatBuf A) (out : BellVec) (h : Nat) :
    Res (Option (Nat × A) × BellVec × RepeatBuf A × Nat) := do
  let (item, it, h) ← it.nextUntransposedRow spare h
  match item with
  | none => return (none, out, it, h)
  | some (idx, row, annot) =>
    let (res, out, h) ← BellVec.mulInto spare it.head.row row out h
    unwrapResult res
    return (some (idx, annot), out, it, h)

/-- `Iterator::next` — src/block.rs:538-542. -/
def next (spare : Spare) (it : RepeatBuf A) (h : Nat) :
    Res (Option (BellVec × Nat × A) × RepeatBuf A × Nat) := do
  let (item, it, h) ← it.nextUntransposedRow spare h
  match item with
  | none => return (none, it, h)
  | some (idx, row, annot) =>
    let (r, h) ← BellVec.mul spare it.head.row row h
    return (some (r, idx, annot), it, h)

end RepeatBuf

/-- `struct SameStageVec` — src/row/same_stage_vec.rs:43-58, with its buffer. -/
structure VecBuf where
  bells : BellVec
  stage : Stage
deriving DecidableEq, Repr

/-- `Vec::<Bell>::with_capacity` of `std`: it panics ("capacity overflow") if more than `isize::MAX`
bytes are needed; a bell (src/bell.rs:24-29) is one `usize`. -/
def BellVec.withCapacityOn (m : Build) (spare : Spare) (n : Nat) (h : Nat) : Res (BellVec × Nat) :=
  if n * (m.bits / 8) < 2 ^ (m.bits - 1) then
    .ok (⟨[], n + spare 0 n, h⟩, if n = 0 then h else h + 1)
  else .error .explicit

namespace VecBuf

/-- The vector of rows without its buffer. -/
def vec (v : VecBuf) : SameStageVec := ⟨v.bells.bells, v.stage⟩

/-- `SameStageVec::with_capacity` — src/row/same_stage_vec.rs:82-87. -/
def withCapacityOn (m : Build) (spare : Spare) (stage : Stage) (capacity : Nat) (h : Nat) :
    Res (VecBuf × Nat) := do
  let n ← m.arith.mul capacity stage.numBells
  let (bells, h) ← BellVec.withCapacityOn m spare n h
  return (⟨bells, stage⟩, h)

/-- `SameStageVec::from_row_buf` — src/row/same_stage_vec.rs:92-97. -/
def fromRowBuf (row : BellVec) : Res VecBuf := do
  let s ← row.row.stage
  return ⟨row, s⟩

/-- `SameStageVec::push` — src/row/same_stage_vec.rs:237-241. -/
def push (spare : Spare) (v : VecBuf) (row : Row) (h : Nat) :
    Res (Except IncompatibleStages Unit × VecBuf × Nat) := do
  let s ← row.stage
  match IncompatibleStages.testErr v.stage s with
  | .error e => return (.error e, v, h)
  | .ok () =>
    let (bells, h) := v.bells.extend spare row.bells h
    return (.ok (), ⟨bells, v.stage⟩, h)

/-- `SameStageVec::pop` — src/row/same_stage_vec.rs:246-254: the row returned is a new `RowBuf`. -/
def pop (spare : Spare) (v : VecBuf) (h : Nat) : Res (Option BellVec × VecBuf × Nat) := do
  if v.bells.bells.length < v.stage.numBells then return (none, v, h)
  else
    let startIndex := v.bells.bells.length - v.stage.numBells
    if v.stage.numBells = 0 then throw .divByZero
    assertThat (startIndex % v.stage.numBells = 0)
    let (row, h) := BellVec.collect spare (v.bells.bells.drop startIndex) h
    return (some row, ⟨v.bells.truncate startIndex, v.stage⟩, h)

/-- The loop of `extend` — src/row/same_stage_vec.rs:263-270. -/
def extendLoop (spare : Spare) (before : Nat) : (v : VecBuf) → (rows : List Row) → (h : Nat) →
    Res (Except IncompatibleStages Unit × VecBuf × Nat)
  | v, [], h => .ok (.ok (), v, h)
  | v, row :: rows, h => do
    let s ← row.stage
    match IncompatibleStages.testErr v.stage s with
    | .error e => return (.error e, ⟨v.bells.truncate before, v.stage⟩, h)
    | .ok () =>
      let (bells, h) := v.bells.extend spare row.bells h
      extendLoop spare before ⟨bells, v.stage⟩ rows h

/-- `SameStageVec::extend` — src/row/same_stage_vec.rs:258-272. -/
def extend (spare : Spare) (v : VecBuf) (rows : List Row) (h : Nat) :
    Res (Except IncompatibleStages Unit × VecBuf × Nat) :=
  extendLoop spare v.bells.bells.length v rows h

/-- `SameStageVec::extend_from_buf` — src/row/same_stage_vec.rs:279-283. -/
def extendFromBuf (spare : Spare) (v : VecBuf) (other : SameStageVec) (h : Nat) :
    Except IncompatibleStages Unit × VecBuf × Nat :=
  match IncompatibleStages.testErr v.stage other.stage with
  | .error e => (.error e, v, h)
  | .ok () =>
    let (bells, h) := v.bells.extend spare other.bells h
    (.ok (), ⟨bells, v.stage⟩, h)

end VecBuf

end Bellframe
