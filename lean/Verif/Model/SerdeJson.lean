import Verif.Model.JsonText

/-! # Model of bells and stages in JSON

`serde_json::to_string` and `serde_json::from_str` of a `Bell` or a `Stage` (with the feature `serde`). Both types
are read with `deserialize_u64` (src/bell.rs:387-394, src/stage.rs:455-462): a format is free to take this as a hint
only, but `serde_json` accepts nothing else than a number then, and it calls the visitor before it looks at what
follows the number. `serde_json` is not in /repo. -/

namespace Bellframe

namespace Json

/-- `deserialize_number` of `serde_json`: blanks, then a number; no digit may follow a zero in front. -/
def readForU64 (cs : List Char) : Option (Json × List Char) :=
  match readNumber (skipBlanks cs) with
  | none => none
  | some (j, rest) => if rest.head?.any Char.isDigit then none else some (j, rest)

/-- Which method of the visitor is called: `visit_u64` or `visit_i64`. The visitors have no `visit_f64`, so
floating-point numbers are errors. -/
def visitNumber {α : Type} (visit : Bell.SerdeValue → Res (Option α)) : Json → Res (Option α)
  | .num n => if n < 0 then visit (.int n) else visit (.u64 n.toNat)
  | _ => .ok none

/-- `serde_json::from_str`; `none` is an error of `serde_json`. -/
def fromStr {α : Type} (visit : Bell.SerdeValue → Res (Option α)) (cs : List Char) : Res (Option α) :=
  match readForU64 cs with
  | none => .ok none
  | some (j, rest) =>
    match visitNumber visit j with
    | .error e => .error e
    | .ok none => .ok none
    | .ok (some a) => if skipBlanks rest = [] then .ok (some a) else .ok none

/-- `serialize_u64` of `serde_json`; bells and stages call nothing else. -/
def ofSerde : Bell.SerdeValue → List Char
  | .u64 n => write (.num n)
  | _ => []

end Json

/-- `serde_json::to_string` of a bell — src/bell.rs:398-405. -/
def Bell.toJsonText (b : Bell) : List Char := Json.ofSerde b.serialize

/-- `serde_json::from_str::<Bell>` — src/bell.rs:387-394. -/
def Bell.ofJsonText (text : List Char) : Res (Option Bell) := Json.fromStr Bell.visit text

/-- `serde_json::to_string` of a stage — src/stage.rs:352-359. -/
def Stage.toJsonText (s : Stage) : List Char := Json.ofSerde s.serialize

/-- `serde_json::from_str::<Stage>` — src/stage.rs:455-462. -/
def Stage.ofJsonText (toLower : String → String) (text : List Char) : Res (Option Stage) :=
  Json.fromStr (Stage.visit toLower) text

end Bellframe
