import Verif.Model.Bell

/-! # Model of `src/stage.rs` -/

namespace Bellframe

/-- `struct Stage(usize)` — src/stage.rs:47-49. -/
structure Stage where
  numBells : Nat
deriving DecidableEq, Repr

namespace Stage

/-- `TryFrom<usize> for Stage` — src/stage.rs:277-286 (`none` is `ZeroStageError`). -/
def tryFrom (n : Nat) : Option Stage := if n = 0 then none else some ⟨n⟩

/-- `Stage::new` — src/stage.rs:58-60: panics on zero. -/
def new (n : Nat) : Res Stage := unwrap (tryFrom n)

/-- `Stage::ONE` — src/stage.rs:194. -/
def one : Stage := ⟨1⟩

/-- `Stage::TWO` — src/stage.rs:197. -/
def two : Stage := ⟨2⟩

/-- `Stage::SINGLES` — src/stage.rs:200. -/
def singles : Stage := ⟨3⟩

/-- `Stage::MINIMUS` — src/stage.rs:203. -/
def minimus : Stage := ⟨4⟩

/-- `Stage::DOUBLES` — src/stage.rs:206. -/
def doubles : Stage := ⟨5⟩

/-- `Stage::MINOR` — src/stage.rs:209. -/
def minor : Stage := ⟨6⟩

/-- `Stage::TRIPLES` — src/stage.rs:212. -/
def triples : Stage := ⟨7⟩

/-- `Stage::MAJOR` — src/stage.rs:215. -/
def major : Stage := ⟨8⟩

/-- `Stage::CATERS` — src/stage.rs:218. -/
def caters : Stage := ⟨9⟩

/-- `Stage::ROYAL` — src/stage.rs:221. -/
def royal : Stage := ⟨10⟩

/-- `Stage::CINQUES` — src/stage.rs:224. -/
def cinques : Stage := ⟨11⟩

/-- `Stage::MAXIMUS` — src/stage.rs:227. -/
def maximus : Stage := ⟨12⟩

/-- `Stage::SEXTUPLES` — src/stage.rs:230. -/
def sextuples : Stage := ⟨13⟩

/-- `Stage::FOURTEEN` — src/stage.rs:233. -/
def fourteen : Stage := ⟨14⟩

/-- `Stage::SEPTUPLES` — src/stage.rs:236. -/
def septuples : Stage := ⟨15⟩

/-- `Stage::SIXTEEN` — src/stage.rs:239. -/
def sixteen : Stage := ⟨16⟩

/-- `Bell::tenor` — src/bell.rs:116-119 / `Stage::tenor` — src/stage.rs:92-94. -/
def tenor (s : Stage) : Res Bell := unwrap (Bell.fromNumber s.numBells)

/-- `Stage::bells` — src/stage.rs:97-99. -/
def bells (s : Stage) : List Bell := (List.range s.numBells).map Bell.fromIndex

/-- `Stage::is_even` — src/stage.rs:103-105. -/
def isEven (s : Stage) : Bool := s.numBells % 2 == 0

/-- `Stage::from_lower_case_name` — src/stage.rs:109-141. -/
def fromLowerCaseName (name : String) : Option Stage :=
  match name with
  | "one" => some ⟨1⟩
  | "two" => some ⟨2⟩
  | "singles" => some ⟨3⟩
  | "minimus" => some ⟨4⟩
  | "doubles" => some ⟨5⟩
  | "minor" => some ⟨6⟩
  | "triples" => some ⟨7⟩
  | "major" => some ⟨8⟩
  | "caters" => some ⟨9⟩
  | "royal" => some ⟨10⟩
  | "cinques" => some ⟨11⟩
  | "maximus" => some ⟨12⟩
  | "sextuples" => some ⟨13⟩
  | "fourteen" => some ⟨14⟩
  | "septuples" => some ⟨15⟩
  | "sixteen" => some ⟨16⟩
  | "octuples" => some ⟨17⟩
  | "eighteen" => some ⟨18⟩
  | "nonuples" => some ⟨19⟩
  | "twenty" => some ⟨20⟩
  | "decuples" => some ⟨21⟩
  | "twenty-two" => some ⟨22⟩
  | _ => none

/-- `Stage::name` — src/stage.rs:145-177. -/
def name (s : Stage) : Option String :=
  match s.numBells with
  | 1 => some "One"
  | 2 => some "Two"
  | 3 => some "Singles"
  | 4 => some "Minimus"
  | 5 => some "Doubles"
  | 6 => some "Minor"
  | 7 => some "Triples"
  | 8 => some "Major"
  | 9 => some "Caters"
  | 10 => some "Royal"
  | 11 => some "Cinques"
  | 12 => some "Maximus"
  | 13 => some "Sextuples"
  | 14 => some "Fourteen"
  | 15 => some "Septuples"
  | 16 => some "Sixteen"
  | 17 => some "Octuples"
  | 18 => some "Eighteen"
  | 19 => some "Nonuples"
  | 20 => some "Twenty"
  | 21 => some "Decuples"
  | 22 => some "Twenty-two"
  | _ => none

/-- `Display for Stage` — src/stage.rs:268-275. -/
def display (s : Stage) : String :=
  match s.name with
  | some n => n
  | none => toString s.numBells ++ " bells"

/-- `impl Serialize for Stage` — src/stage.rs:352-359. -/
def serialize (s : Stage) : Bell.SerdeValue := .u64 s.numBells

/-- `try_parse_stage` — src/stage.rs:446-452. -/
def tryParseStage (val : Int) : Res (Option Stage) := do
  if val ≥ 0 then
    let s ← new val.toNat
    return some s
  else
    return none

/-- `impl Visitor for StageVisitor` — src/stage.rs:368-441. `none` is a deserialisation error.
`toLower` is `str::to_lowercase`. `visit_char` is not overridden by the Rust code: serde's default
forwards a char to `visit_str`. -/
def visit (toLower : String → String) (v : Bell.SerdeValue) : Res (Option Stage) :=
  match v with
  | .uSmall v => do
    let s ← new v
    return some s
  | .u64 v => do
    let s ← new v
    return some s
  | .int v => tryParseStage v
  | .char c => .ok (fromLowerCaseName (toLower (String.ofList [c])))
  | .str s => .ok (fromLowerCaseName (toLower (String.ofList s)))

end Stage

/-- `struct IncompatibleStages` — src/stage.rs:299-305. -/
structure IncompatibleStages where
  lhsStage : Stage
  rhsStage : Stage
deriving DecidableEq, Repr

namespace IncompatibleStages

/-- `IncompatibleStages::test_err` — src/stage.rs:310-319. -/
def testErr (lhs rhs : Stage) : Except IncompatibleStages Unit :=
  if lhs = rhs then .ok () else .error ⟨lhs, rhs⟩

/-- `IncompatibleStages::test_err_opt` — src/stage.rs:325-333; returns the updated `opt`. -/
def testErrOpt (opt : Option Stage) (stage : Stage) : Except IncompatibleStages (Option Stage) :=
  match opt with
  | none => .ok (some stage)
  | some s =>
    match testErr s stage with
    | .ok () => .ok (some s)
    | .error e => .error e

end IncompatibleStages

end Bellframe
