import Verif.Model.Block
import Verif.Model.PlaceNot
import Verif.Model.Music
import Verif.Model.Errors

/-! # Model of the debugging texts (`impl Debug`) and of the derived orders -/

namespace Bellframe

/-- `Debug for Stage` — src/stage.rs:242-266. -/
def Stage.debug (s : Stage) : Res (List Char) :=
  match s.numBells with
  | 0 => .error .unreachable
  | 1 => .ok "Stage::ONE".toList
  | 2 => .ok "Stage::TWO".toList
  | 3 => .ok "Stage::SINGLES".toList
  | 4 => .ok "Stage::MINIMUS".toList
  | 5 => .ok "Stage::DOUBLES".toList
  | 6 => .ok "Stage::MINOR".toList
  | 7 => .ok "Stage::TRIPLES".toList
  | 8 => .ok "Stage::MAJOR".toList
  | 9 => .ok "Stage::CATERS".toList
  | 10 => .ok "Stage::ROYAL".toList
  | 11 => .ok "Stage::CINQUES".toList
  | 12 => .ok "Stage::MAXIMUS".toList
  | 13 => .ok "Stage::SEXTUPLES".toList
  | 14 => .ok "Stage::FOURTEEN".toList
  | 15 => .ok "Stage::SEPTUPLES".toList
  | 16 => .ok "Stage::SIXTEEN".toList
  | numBells => .ok ("Stage(".toList ++ decimal numBells ++ ")".toList)

/-- The fields of `std::fmt::DebugTuple` (without `#`), separated by commas. -/
def joinFields : List (List Char) → List Char
  | [] => []
  | [f] => f
  | f :: fs => f ++ ", ".toList ++ joinFields fs

/-- `std::fmt::DebugTuple`: without fields there are no brackets. -/
def debugTuple (name : List Char) (fields : List (List Char)) : List Char :=
  if fields.isEmpty then name else name ++ "(".toList ++ joinFields fields ++ ")".toList

/-- `Debug for SameStageVec` — src/row/same_stage_vec.rs:406-414. -/
def SameStageVec.debug (v : SameStageVec) : Res (List Char) := do
  let rows ← v.iter.collect
  return debugTuple "SameStageVec".toList (rows.map Row.display)

/-- `Debug for AnnotBlock<T>` — src/block.rs:452-480; `fmt` is `Debug for T`. -/
def AnnotBlock.debug {A : Type} (fmt : A → List Char) (b : AnnotBlock A) : Res (List Char) := do
  let annotRows ← b.annotRows
  let leftover ← b.leftoverRow
  return debugTuple "AnnotBlock".toList
    (annotRows.map (fun p => p.1.display ++ ": ".toList ++ fmt p.2) ++ [leftover.display])

/-- `#[derive(Ord)]` of `Bell` — src/bell.rs:23. -/
def Bell.cmp (a b : Bell) : Ordering := compare a.index b.index

/-- The `Ord` of slices in the Rust standard library: the first difference decides; otherwise the shorter
slice comes first. -/
def cmpSlices : List Bell → List Bell → Ordering
  | [], [] => .eq
  | [], _ :: _ => .lt
  | _ :: _, [] => .gt
  | a :: as, b :: bs =>
    match a.cmp b with
    | .eq => cmpSlices as bs
    | o => o

/-- `#[derive(Ord)]` of `Row` and `RowBuf` — src/row/borrowed.rs:58 and src/row/owned.rs:20. -/
def Row.cmp (a b : Row) : Ordering := cmpSlices a.bells b.bells

end Bellframe
