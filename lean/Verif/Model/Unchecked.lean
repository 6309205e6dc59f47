import Verif.Model.SameStageVec
import Verif.Model.PlaceNot
import Verif.Model.Music
import Verif.Model.Row

/-! # The `unsafe` functions that have no model elsewhere

The other `unsafe` functions are modelled beside their checked versions: `Row.mulUnchecked`,
`Row.mulIntoUnchecked`, `Row.mulIntoRowUnchecked`, `PlaceNot.fromSortedSlice`,
`PlaceNot.permuteUnchecked`, `Mask.setBellUnchecked` and `Mask.fixUnchecked`. -/

namespace Bellframe

namespace Row

/-- `RowBuf::from_vec_unchecked` — src/row/owned.rs:246-248; also `from_bell_iter_unchecked`
(src/row/owned.rs:300-302), `Row::from_slice_unchecked` and `Row::from_mut_slice_unchecked`
(src/row/borrowed.rs:822-827, 837-842), whose iterator or slice is the list of bells. -/
def fromVecUnchecked (bells : List Bell) : Row := ⟨bells⟩

/-- `Row::get_bell_unchecked` — src/row/borrowed.rs:137-139. -/
def getBellUnchecked (r : Row) (place : Nat) : Res Bell := getUnchecked r.bells place

/-- `Row::tranposition_to_unchecked` — src/row/borrowed.rs:530-532. -/
def transpositionToUnchecked (self other : Row) : Res Row := do
  let i ← self.inv
  other.mulUnchecked i

end Row

/-- `SameStageVec::from_bell_vec_unchecked` — src/row/same_stage_vec.rs:140-142. -/
def SameStageVec.fromBellVecUnchecked (bells : List Bell) (stage : Stage) : SameStageVec :=
  ⟨bells, stage⟩

/-- `PlaceNot::permute_new_unchecked` — src/place_not.rs:340-344. -/
def PlaceNot.permuteNewUnchecked (pn : PlaceNot) (row : Row) : Res Row :=
  let newRow := row
  pn.permuteUnchecked newRow

/-- `PnBlock::from_vec_unchecked` — src/place_not.rs:602-604. -/
def PnBlock.fromVecUnchecked (pns : List PlaceNot) : PnBlock := ⟨pns⟩

/-- `Regex::from_vec_unchecked` (and `from_elems_unchecked`) — src/music.rs:86-88, 106-108. -/
def Regex.fromVecUnchecked (elems : List RegexElem) : Regex := ⟨elems⟩

end Bellframe
