import Verif.Model.PlaceNot

/-! # Model of the messages of errors (`impl Display` of the error types) -/

namespace Bellframe

/-- A `usize` in decimal digits. -/
def decimal (n : Nat) : List Char := Nat.toDigits 10 n

/-- `Display for InvalidRowError` — src/row/errors.rs:34-49. -/
def InvalidRowError.message : InvalidRowError → List Char
  | .duplicateBell b => "Bell '".toList ++ b.name ++ "' appears twice.".toList
  | .bellOutOfStage b s =>
    "Bell '".toList ++ b.name ++ "' is not within stage ".toList ++ s.display.toList
  | .missingBell b => "Bell '".toList ++ b.name ++ "' is missing".toList
  | .noBells => "Row would have no bells".toList

/-- `Display for IncompatibleStages` — src/stage.rs:336-344. -/
def IncompatibleStages.message (e : IncompatibleStages) : List Char :=
  "Incompatible stages: ".toList ++ e.lhsStage.display.toList ++ " (lhs), ".toList ++
    e.rhsStage.display.toList ++ " (rhs)".toList

/-- `Display for MulIntoError` — src/row/errors.rs:60-73. -/
def MulIntoError.message : MulIntoError → List Char
  | .rhsStage e =>
    "Can't multiply stage ".toList ++ e.lhsStage.display.toList ++ " with ".toList ++
      e.rhsStage.display.toList
  | .intoStage e =>
    "Can't write stage ".toList ++ e.lhsStage.display.toList ++ " into ".toList ++
      e.rhsStage.display.toList

/-- `Display for same_stage_vec::ParseError` — src/row/same_stage_vec.rs:498-521. -/
def SsvParseError.message : SsvParseError → List Char
  | .zeroStage => "Can't make a `SameStageVec` with stage 0".toList
  | .invalidRow line err => "Error parsing row on line ".toList ++ decimal line ++ ": ".toList ++ err.message
  | .incompatibleStages line firstStage differentStage =>
    "Row on line ".toList ++ decimal line ++ " has different stage (".toList ++
      differentStage.display.toList ++ ") to the first stage (".toList ++ firstStage.display.toList ++
      ")".toList

/-- `Display for block::ParseError` — src/block.rs:554-561. -/
def BlockParseError.message : BlockParseError → List Char
  | .zeroLengthBlock => "Blocks must contain at least one row".toList
  | .other e => e.message

/-- `Display for place_not::ParseError` — src/place_not.rs:23-53. -/
def PnParseError.message : PnParseError → Res (List Char)
  | .oddStageCross stage => .ok ("Cross notation for odd stage ".toList ++ stage.display.toList)
  | .placeOutOfStage place stage =>
    .ok ("Place '".toList ++ (Bell.fromIndex place).name ++ "' is out stage ".toList ++
      stage.display.toList)
  | .ambiguousPlacesBetween p q => do
    let d ← checkedSub q p
    let between ← checkedSub d 1
    return "Ambiguous gap of ".toList ++ decimal between ++ " bells between places '".toList ++
      (Bell.fromIndex p).name ++ "' and '".toList ++ (Bell.fromIndex q).name ++ "'.".toList
  | .noPlacesGiven => .ok "No places given.  Use 'x' or '-' for a cross.".toList
  | .duplicatePlace p => .ok ("Place '".toList ++ (Bell.fromIndex p).name ++ "' is duplicated".toList)

/-- `Display for PnBlockParseError` — src/place_not.rs:383-395. -/
def PnBlockParseError.message : PnBlockParseError → Res (List Char)
  | .emptyBlock => .ok "`PnBlock`s can't be empty.".toList
  | .pnError start _ err => do
    let m ← err.message
    return "Error parsing PN at index ".toList ++ decimal start ++ ": ".toList ++ m
  | .plusNotAtBlockStart index =>
    .ok ("'+' at index ".toList ++ decimal index ++ " is not at the start of a block.".toList)

/-- `Display for InvalidPnBlockError` — src/place_not.rs:406-417. -/
def InvalidPnBlockError.message : InvalidPnBlockError → List Char
  | .incompatibleStages ind e =>
    "Incompatible stages: First PN has stage ".toList ++ e.lhsStage.display.toList ++
      ", whereas the ".toList ++ decimal ind ++ "th has ".toList ++ e.rhsStage.display.toList
  | .emptyBlock => "`PnBlock`s can't be empty.".toList

end Bellframe
