import Verif.Model.SameStageVec

/-!
# Model of `src/block.rs`

Annotations are values of an arbitrary type `A`.  As in the model of `SameStageVec`, operations
through `&mut self` return the new value.
-/

namespace Bellframe

/-- `itertools::zip_eq` collected into a list: panics if the lengths differ. -/
def zipEq {α β : Type} : List α → List β → Res (List (α × β))
  | [], [] => .ok []
  | a :: as, b :: bs => do
    let rest ← zipEq as bs
    return (a, b) :: rest
  | [], _ :: _ => .error .zipEq
  | _ :: _, [] => .error .zipEq

/-- `struct AnnotBlock` — src/block.rs:62-71. -/
structure AnnotBlock (A : Type) where
  rows : SameStageVec
  annots : List A
deriving DecidableEq, Repr

/-- `enum ParseError` — src/block.rs:549-552. -/
inductive BlockParseError where
  | zeroLengthBlock
  | other (e : SsvParseError)
deriving DecidableEq, Repr

namespace AnnotBlock

variable {A B : Type}

/-- `AnnotBlock::with_default_annots` — src/block.rs:102-111; `dflt` is `A::default()`. -/
def withDefaultAnnots (dflt : A) (rows : SameStageVec) : Res (AnnotBlock A) := do
  assertThat (!rows.isEmpty)
  let n ← rows.len
  let k ← checkedSub n 1
  return ⟨rows, List.replicate k dflt⟩

/-- `AnnotBlock::parse` — src/block.rs:81-94. -/
def parse (dflt : A) (s : List Char) : Res (Except BlockParseError (AnnotBlock A)) := do
  match ← SameStageVec.parse s with
  | .error e => return .error (.other e)
  | .ok rows =>
    if rows.isEmpty then return .error .zeroLengthBlock
    else
      let b ← withDefaultAnnots dflt rows
      return .ok b

/-- `AnnotBlock::empty` — src/block.rs:115-120. -/
def empty (stage : Stage) : Res (AnnotBlock A) := do
  let rows ← SameStageVec.fromRowBuf (Row.rounds stage)
  return ⟨rows, []⟩

/-- `AnnotBlock::with_annots_from_indices` — src/block.rs:125-131 (`f` is a pure function here, an
`FnMut` in Rust). -/
def withAnnotsFromIndices (rows : SameStageVec) (f : Nat → A) : Res (Option (AnnotBlock A)) := do
  let n ← rows.len
  if n < 1 then return none
  else return some ⟨rows, (List.range (n - 1)).map f⟩

/-- `AnnotBlock::stage` — src/block.rs:139-141. -/
def stage (b : AnnotBlock A) : Stage := b.rows.stage

/-- `AnnotBlock::all_rows` — src/block.rs:236-238. -/
def allRows (b : AnnotBlock A) : SameStageVec.Iter := b.rows.iter

/-- `AnnotBlock::rows` — src/block.rs:228-232. -/
def rowsIter (b : AnnotBlock A) : Res SameStageVec.Iter := do
  let (_, it) ← b.allRows.nextBack
  return it

/-- `Iterator::max` over stages. -/
def maxStage : List Stage → Option Stage
  | [] => none
  | s :: ss =>
    match maxStage ss with
    | none => some s
    | some t => some (if s.numBells ≤ t.numBells then t else s)

/-- `AnnotBlock::effective_stage` — src/block.rs:146-152. -/
def effectiveStage (b : AnnotBlock A) : Res Stage := do
  let rows ← b.allRows.collect
  let stages ← rows.mapM Row.effectiveStage
  unwrap (maxStage stages)

/-- `AnnotBlock::is_empty` — src/block.rs:156-158. -/
def isEmpty (b : AnnotBlock A) : Bool := b.annots.isEmpty

/-- `AnnotBlock::len` — src/block.rs:162-164. -/
def len (b : AnnotBlock A) : Nat := b.annots.length

/-- `AnnotBlock::get_row` — src/block.rs:172-174. -/
def getRow (b : AnnotBlock A) (index : Nat) : Option Row := b.rows.get index

/-- `AnnotBlock::get_annot` — src/block.rs:179-181. -/
def getAnnot (b : AnnotBlock A) (index : Nat) : Option A := b.annots[index]?

/-- `AnnotBlock::get_annot_mut` — src/block.rs:186-188, used to store `a`; `none` when it returns
`None`. -/
def setAnnot (b : AnnotBlock A) (index : Nat) (a : A) : Option (AnnotBlock A) :=
  if index < b.annots.length then some { b with annots := b.annots.set index a } else none

/-- `AnnotBlock::get_annot_row` — src/block.rs:192-196. -/
def getAnnotRow (b : AnnotBlock A) (index : Nat) : Option (Row × A) :=
  match b.getRow index with
  | none => none
  | some r =>
    match b.getAnnot index with
    | none => none
    | some a => some (r, a)

/-- `AnnotBlock::first_row` — src/block.rs:200-204. -/
def firstRow (b : AnnotBlock A) : Res Row := unwrap b.rows.first

/-- `AnnotBlock::first_annot_row` — src/block.rs:208-210. -/
def firstAnnotRow (b : AnnotBlock A) : Option (Row × A) := b.getAnnotRow 0

/-- `AnnotBlock::leftover_row` — src/block.rs:216-218. -/
def leftoverRow (b : AnnotBlock A) : Res Row := do
  let l ← b.rows.last
  unwrap l

/-- `AnnotBlock::annot_rows` — src/block.rs:251-255, collected. -/
def annotRows (b : AnnotBlock A) : Res (List (Row × A)) := do
  let it ← b.rowsIter
  let rows ← it.collect
  zipEq rows b.annots

/-- `AnnotBlock::full_path_of` — src/block.rs:267-269. -/
def fullPathOf (b : AnnotBlock A) (bell : Bell) : Res (Option (List Nat)) := b.rows.pathOf bell

/-- `AnnotBlock::path_of` — src/block.rs:259-263. -/
def pathOf (b : AnnotBlock A) (bell : Bell) : Res (Option (List Nat × Nat)) := do
  match ← b.fullPathOf bell with
  | none => return none
  | some fullPath =>
    let p ← unwrap fullPath.getLast?
    return some (fullPath.dropLast, p)

/-- `AnnotBlock::pre_multiply` — src/block.rs:294-296 (and the deprecated `permute`, 288-290). -/
def preMultiply (b : AnnotBlock A) (lhsRow : Row) :
    Res (AnnotBlock A × Except IncompatibleStages Unit) := do
  let (rows, res) ← b.rows.preMultiply lhsRow
  return ({ b with rows := rows }, res)

/-- `AnnotBlock::extend_range` — src/block.rs:313-338. -/
def extendRange (b other : AnnotBlock A) (start stop : Utils.Bound) :
    Res (AnnotBlock A × Except IncompatibleStages Unit) := do
  let (lo, hi) := Utils.clampRange start stop other.len
  let first ← unwrap (other.getRow lo)
  let leftover ← b.leftoverRow
  match ← Row.solveXaEqualsB first leftover with
  | .error e => return (b, .error e)
  | .ok transposition =>
    let (popped, _) ← b.rows.pop
    let (rows, res) ← popped.extendRangeTransposed transposition other.rows
      (.included lo) (.excluded (hi + 1))
    unwrapResult res
    return (⟨rows, b.annots ++ other.annots⟩, .ok ())

/-- `AnnotBlock::extend` — src/block.rs:300-305. -/
def extend (b other : AnnotBlock A) : Res (AnnotBlock A × Except IncompatibleStages Unit) :=
  b.extendRange other .unbounded .unbounded

/-- `AnnotBlock::extend_from_within` — src/block.rs:341-363; `Vec::extend_from_within` panics unless
`lo ≤ hi ≤ len`. -/
def extendFromWithin (b : AnnotBlock A) (start stop : Utils.Bound) : Res (AnnotBlock A) := do
  let (lo, hi) := Utils.clampRange start stop b.len
  let first ← unwrap (b.getRow lo)
  let leftover ← b.leftoverRow
  let sol ← Row.solveXaEqualsB first leftover
  let transposition ← unwrapResult sol
  let (rows, res) ← b.rows.extendTransposedFromWithin (.included (lo + 1)) (.excluded (hi + 1))
    transposition
  unwrapResult res
  let copied ← sliceIdx b.annots lo hi
  return ⟨rows, b.annots ++ copied⟩

/-- `AnnotBlock::into_row_vec`/`row_vec` — src/block.rs:371-378. -/
def rowVec (b : AnnotBlock A) : SameStageVec := b.rows

/-- `AnnotBlock::map_annots` — src/block.rs:382-387. -/
def mapAnnots (b : AnnotBlock A) (f : A → B) : AnnotBlock B := ⟨b.rows, b.annots.map f⟩

/-- `AnnotBlock::map_annots_with_index` and `clone_map_annots_with_index` — src/block.rs:392-420. -/
def mapAnnotsWithIndex (b : AnnotBlock A) (f : Nat → A → B) : AnnotBlock B :=
  ⟨b.rows, b.annots.zipIdx.map (fun p => f p.2 p.1)⟩

/-- `AnnotBlock::split` — src/block.rs:425-445. -/
def split (b : AnnotBlock A) (index : Nat) : Res (Option (AnnotBlock A × AnnotBlock A)) := do
  match Utils.splitVec b.annots index with
  | none => return none
  | some (firstAnnots, secondAnnots) =>
    match b.rows.split index with
    | none => return none
    | some (firstRows, secondRows) =>
      let firstRowOfSecond ← unwrap secondRows.first
      let (firstRows', res) ← firstRows.push firstRowOfSecond
      unwrapResult res
      return some (⟨firstRows', firstAnnots⟩, ⟨secondRows, secondAnnots⟩)

end AnnotBlock

/-- `type InnerIter` — src/block.rs:485-486: the rows and annotations still to come and the number of
items already yielded. -/
structure InnerIter (A : Type) where
  rowsLeft : SameStageVec.Iter
  annotsLeft : List A
  count : Nat

namespace InnerIter

variable {A : Type}

/-- `Enumerate<ZipEq<..>>::next`: `zip_eq` panics when exactly one side is exhausted. -/
def next (it : InnerIter A) : Res (Option (Nat × Row × A) × InnerIter A) := do
  let (r, rowsLeft) ← it.rowsLeft.next
  match r, it.annotsLeft with
  | none, [] => return (none, { it with rowsLeft := rowsLeft })
  | some r, a :: annotsLeft =>
    return (some (it.count, r, a), ⟨rowsLeft, annotsLeft, it.count + 1⟩)
  | none, _ :: _ => throw .zipEq
  | some _, [] => throw .zipEq

end InnerIter

/-- `struct RepeatIter` — src/block.rs:491-496. -/
structure RepeatIter (A : Type) where
  currentBlockHead : Row
  iter : InnerIter A
  block : AnnotBlock A

namespace RepeatIter

variable {A : Type}

/-- `RepeatIter::get_iter` — src/block.rs:518-520. -/
def getIter (block : AnnotBlock A) : Res (InnerIter A) := do
  let it ← block.rowsIter
  return ⟨it, block.annots, 0⟩

/-- `RepeatIter::new` — src/block.rs:499-506 / `AnnotBlock::repeat_iter` — src/block.rs:277-279. -/
def new (startRow : Row) (block : AnnotBlock A) :
    Res (Except IncompatibleStages (RepeatIter A)) := do
  let s ← startRow.stage
  match IncompatibleStages.testErr s block.stage with
  | .error e => return .error e
  | .ok () =>
    let it ← getIter block
    return .ok ⟨startRow, it, block⟩

/-- `RepeatIter::next_untransposed_row` — src/block.rs:522-532. -/
def nextUntransposedRow (it : RepeatIter A) : Res (Option (Nat × Row × A) × RepeatIter A) := do
  let (item, inner) ← it.iter.next
  match item with
  | some x => return (some x, { it with iter := inner })
  | none =>
    let leftover ← it.block.leftoverRow
    let head ← it.currentBlockHead.mul leftover
    let inner' ← getIter it.block
    let (item', inner'') ← inner'.next
    return (item', ⟨head, inner'', it.block⟩)

/-- `RepeatIter::next_into` — src/block.rs:510-516; also returns the new value of `out`. -/
def nextInto (it : RepeatIter A) (out : Row) : Res (Option (Nat × A) × Row × RepeatIter A) := do
  let (item, it') ← it.nextUntransposedRow
  match item with
  | none => return (none, out, it')
  | some (idx, row, annot) =>
    let res ← it'.currentBlockHead.mulInto row out
    let out' ← unwrapResult res
    return (some (idx, annot), out', it')

/-- `Iterator::next` — src/block.rs:538-542. -/
def next (it : RepeatIter A) : Res (Option (Row × Nat × A) × RepeatIter A) := do
  let (item, it') ← it.nextUntransposedRow
  match item with
  | none => return (none, it')
  | some (idx, row, annot) =>
    let r ← it'.currentBlockHead.mul row
    return (some (r, idx, annot), it')

end RepeatIter

end Bellframe
