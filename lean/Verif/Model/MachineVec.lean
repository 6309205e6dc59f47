import Verif.Model.Machine
import Verif.Model.Block

/-! # Model of indices and ranges of rows in machine words -/

namespace Bellframe

/-- The arithmetic of `usize`. -/
def Build.arith (m : Build) : Arith := if m.overflowChecks then .checked m.bits else .wrapping m.bits

namespace SameStageVec

/-- `Index<usize>` — src/row/same_stage_vec.rs:399-403. -/
def indexOn (m : Build) (v : SameStageVec) (index : Nat) : Res Row := do
  let (start, stop) ← v.getRangeOfRow m.arith index
  let bells ← sliceIdx v.bells start stop
  return ⟨bells⟩

/-- `SameStageVec::split` — src/row/same_stage_vec.rs:364-373. -/
def splitOn (m : Build) (v : SameStageVec) (index : Nat) : Res (Option (SameStageVec × SameStageVec)) := do
  let at_ ← m.arith.mul index v.stage.numBells
  match Utils.splitVec v.bells at_ with
  | none => return none
  | some (l, r) => return some (⟨l, v.stage⟩, ⟨r, v.stage⟩)

/-- `SameStageVec::to_bell_range` — src/row/same_stage_vec.rs:382-387. -/
def toBellRangeOn (m : Build) (v : SameStageVec) (start stop : Utils.Bound) : Res (Nat × Nat) := do
  let n ← v.len
  let (lo, hi) ← Utils.clampRangeOn m start stop n
  let lo' ← m.arith.mul lo v.stage.numBells
  let hi' ← m.arith.mul hi v.stage.numBells
  return (lo', hi')

/-- `SameStageVec::extend_range_transposed` — src/row/same_stage_vec.rs:299-313. -/
def extendRangeTransposedOn (m : Build) (v : SameStageVec) (transposition : Row) (other : SameStageVec)
    (start stop : Utils.Bound) : Res (SameStageVec × Except IncompatibleStages Unit) := do
  let s ← transposition.stage
  match IncompatibleStages.testErr v.stage s with
  | .error e => return (v, .error e)
  | .ok () =>
    let (lo, hi) ← other.toBellRangeOn m start stop
    let slice ← sliceIdx other.bells lo hi
    let bells ← slice.mapM (fun b => getIdx transposition.bells b.index)
    return (⟨v.bells ++ bells, v.stage⟩, .ok ())

/-- `SameStageVec::extend_transposed_from_within` — src/row/same_stage_vec.rs:317-330. -/
def extendTransposedFromWithinOn (m : Build) (v : SameStageVec) (start stop : Utils.Bound)
    (transposition : Row) : Res (SameStageVec × Except IncompatibleStages Unit) := do
  let s ← transposition.stage
  match IncompatibleStages.testErr v.stage s with
  | .error e => return (v, .error e)
  | .ok () =>
    let (lo, hi) ← v.toBellRangeOn m start stop
    let bells ← fromWithinLoop transposition v.bells (List.range' lo (hi - lo))
    return (⟨bells, v.stage⟩, .ok ())

end SameStageVec

namespace AnnotBlock

variable {A : Type}

/-- `AnnotBlock::get_annot_row` — src/block.rs:192-196, with `get_row`, 172-174. -/
def getAnnotRowOn (m : Build) (b : AnnotBlock A) (index : Nat) : Res (Option (Row × A)) := do
  match ← b.rows.getWith m.arith index with
  | none => return none
  | some r =>
    match b.getAnnot index with
    | none => return none
    | some a => return some (r, a)

/-- `AnnotBlock::split` — src/block.rs:425-445. -/
def splitOn (m : Build) (b : AnnotBlock A) (index : Nat) :
    Res (Option (AnnotBlock A × AnnotBlock A)) := do
  match Utils.splitVec b.annots index with
  | none => return none
  | some (firstAnnots, secondAnnots) =>
    match ← b.rows.splitOn m index with
    | none => return none
    | some (firstRows, secondRows) =>
      let firstRowOfSecond ← unwrap (← secondRows.getWith m.arith 0)
      let (firstRows', res) ← firstRows.push firstRowOfSecond
      unwrapResult res
      return some (⟨firstRows', firstAnnots⟩, ⟨secondRows, secondAnnots⟩)

end AnnotBlock

end Bellframe
