import Verif.Model.Errors
import Verif.Model.Music
import Verif.Model.Mask
import Verif.Model.Utils
import Verif.Model.Class

/-!
# The crate's own tests, run on the model

Every assertion of the unit tests and of the documentation examples of the crate that can be stated
about the model is repeated here and evaluated on the model: by the kernel (`decide +kernel`) for
total functions, by `#guard` for the loops which may run forever.  These are tests of the *model*:
they say that the hand-written definitions give the results that the authors of the crate wrote down.
No property of the manifest rests on this file.

Left out: `row_ref_size` (memory layout of `&Row`), the two quickcheck tests (proved in general by
C01 and C02: parsing never panics …), and `classification` of `src/method/class.rs` (needs the
downloaded method library).
-/

namespace Bellframe.Replay

/-- `RowBuf::parse(s).unwrap()`. -/
def row (s : String) : Res Row :=
  match Row.parse s.toList with
  | .ok r => .ok r
  | .error _ => .error .unwrap

/-- `assert_eq!` of two computations which must both return. -/
abbrev Agree {α : Type} [DecidableEq α] (x y : Res α) : Bool :=
  match x, y with
  | .ok a, .ok b => decide (a = b)
  | _, _ => false

/-- The same for possibly diverging computations. -/
def runAgree {α : Type} [DecidableEq α] (x : Run α) (y : Res α) : Bool :=
  match x.run, y with
  | some (.ok a), .ok b => decide (a = b)
  | _, _ => false

abbrev name (b : Option Bell) : Option String := b.map (fun b => String.ofList b.name)
abbrev text (r : Res Row) : Res String := r.map (fun r => String.ofList r.display)

/-! ## src/bell.rs -/

-- 42-52
example : name (Bell.fromName '1') = some "1" := by decide +kernel
example : name (Bell.fromName '5') = some "5" := by decide +kernel
example : name (Bell.fromName '0') = some "0" := by decide +kernel
example : name (Bell.fromName 'T') = some "T" := by decide +kernel
example : Bell.fromName 'e' = none := by decide +kernel
example : Bell.fromName 't' = none := by decide +kernel
example : Bell.fromName '\r' = none := by decide +kernel
example : Bell.fromName '🦀' = none := by decide +kernel
-- 71-73
example : (Bell.fromIndex 0).name = "1".toList := by decide +kernel
example : (Bell.fromIndex 11).name = "T".toList := by decide +kernel
-- 89-91
example : name (Bell.fromNumber 12) = some "T" := by decide +kernel
example : Bell.fromNumber 0 = none := by decide +kernel
-- 109-111
example : Agree (Stage.tenor ⟨5⟩) (unwrap (Bell.fromNumber 5)) := by decide +kernel
example : Agree (Stage.tenor ⟨12⟩) (unwrap (Bell.fromNumber 12)) := by decide +kernel
-- 129-134
example : Bell.fromName '1' = some Bell.treble := by decide +kernel
example : Bell.treble.index = 0 := by decide +kernel
example : Bell.treble.number = 1 := by decide +kernel
example : Bell.treble.name = "1".toList := by decide +kernel
-- 147-152
example : (Bell.fromIndex 0).toChar = some '1' := by decide +kernel
example : (Bell.fromNumber 11).map Bell.toChar = some (some 'E') := by decide +kernel
example : (Bell.fromNumber 100).map Bell.toChar = some none := by decide +kernel
-- 169-174
example : (Bell.fromIndex 0).index = 0 := by decide +kernel
example : (Bell.fromIndex 12).index = 12 := by decide +kernel
example : (Bell.fromName '8').map Bell.index = some 7 := by decide +kernel
example : (Bell.fromName '0').map Bell.index = some 9 := by decide +kernel
example : (Bell.fromName 'T').map Bell.index = some 11 := by decide +kernel
-- 191-195
example : (Bell.fromIndex 0).number = 1 := by decide +kernel
example : (Bell.fromName '0').map Bell.number = some 10 := by decide +kernel
example : (Bell.fromNumber 4).map Bell.number = some 4 := by decide +kernel
example : (Bell.fromNumber 10).map Bell.number = some 10 := by decide +kernel
-- 215-224
example : name (Bell.fromNumber 1) = some "1" := by decide +kernel
example : name (Bell.fromNumber 5) = some "5" := by decide +kernel
example : name (Bell.fromNumber 9) = some "9" := by decide +kernel
example : name (Bell.fromNumber 10) = some "0" := by decide +kernel
example : name (Bell.fromNumber 12) = some "T" := by decide +kernel
example : name (Bell.fromNumber 16) = some "D" := by decide +kernel
example : name (Bell.fromNumber 100) = some "<100>" := by decide +kernel

/-! ## src/stage.rs -/

/-- `Stage::new(n)` is the stage that is displayed as `s`. -/
abbrev Named (n : Nat) (s : String) : Prop := ∃ st, Stage.new n = .ok st ∧ st.display = s

-- 30-36: the constants are the stages of these numbers of bells
example : Named 3 "Singles" := ⟨_, rfl, by decide +kernel⟩
example : Named 8 "Major" := ⟨_, rfl, by decide +kernel⟩
example : Named 11 "Cinques" := ⟨_, rfl, by decide +kernel⟩
example : Named 16 "Sixteen" := ⟨_, rfl, by decide +kernel⟩
example : (Stage.new 100).map Stage.numBells = .ok 100 := rfl
example : (Stage.new 254).map Stage.numBells = .ok 254 := rfl
-- 43-45
example : Named 12 "Maximus" := ⟨_, rfl, by decide +kernel⟩
example : Named 9 "Caters" := ⟨_, rfl, by decide +kernel⟩
example : Named 50 "50 bells" := ⟨_, rfl, by decide +kernel⟩
-- 186-190
example : Named 4 "Minimus" := ⟨_, rfl, by decide +kernel⟩
example : Named 6 "Minor" := ⟨_, rfl, by decide +kernel⟩
example : Named 7 "Triples" := ⟨_, rfl, by decide +kernel⟩
example : Named 14 "Fourteen" := ⟨_, rfl, by decide +kernel⟩
example : Named 15 "Septuples" := ⟨_, rfl, by decide +kernel⟩

/-! ## src/row/borrowed.rs -/

abbrev invText (s : String) : Res String := do return String.ofList (← (← row s).inv).display

-- the documentation of `Row`
example : (Row.rounds ⟨8⟩).stage = .ok ⟨8⟩ := rfl
example : (Row.rounds ⟨8⟩).display = "12345678".toList := by decide +kernel
example : Agree (do (← row "13579 | 24680").stage) (.ok ⟨10⟩) := by decide +kernel
example : Agree (text (row "13579 | 24680")) (.ok "1357924680") := by decide +kernel
example : Row.parse "112345".toList = .error (.duplicateBell ⟨0⟩) := by decide +kernel
-- `stage`
example : (Row.rounds ⟨4⟩).stage = .ok ⟨4⟩ := rfl
example : (Row.rounds ⟨15⟩).stage = .ok ⟨15⟩ := rfl
example : Agree (do (← row "41325").stage) (.ok ⟨5⟩) := by decide +kernel
example : Agree (do (← row "321 654 987 0").stage) (.ok ⟨10⟩) := by decide +kernel
-- `slice`, `place_of`
example : Agree (do (← row "15263748").get 3) (unwrap (Bell.fromName '6')) := by decide +kernel
example : Agree (do return (← row "15263748").placeOf (← unwrap (Bell.fromName '1'))) (.ok (some 0)) := by
  decide +kernel
example : Agree (do return (← row "15263748").placeOf (← unwrap (Bell.fromName '5'))) (.ok (some 1)) := by
  decide +kernel
-- `is_rounds`, `is_backrounds`
example : (Row.rounds ⟨12⟩).isRounds = true := by decide +kernel
example : Agree ((row "18423756").map Row.isRounds) (.ok false) := by decide +kernel
example : (Row.backrounds ⟨12⟩).isBackrounds = true := by decide +kernel
example : Agree ((row "18423756").map Row.isBackrounds) (.ok false) := by decide +kernel
-- `effective_stage`
example : Agree (do (← row "14237568").effectiveStage) (.ok ⟨7⟩) := by decide +kernel
example : Agree (do (← row "18423756").effectiveStage) (.ok ⟨8⟩) := by decide +kernel
example : Agree ((Row.rounds ⟨12⟩).effectiveStage) (.ok ⟨1⟩) := by decide +kernel
-- `swap`
example : Agree (text ((Row.rounds ⟨8⟩).swap 0 1)) (.ok "21345678") := by decide +kernel
example : Agree (text (do (← (Row.rounds ⟨8⟩).swap 0 1).swap 2 5)) (.ok "21645378") := by decide +kernel
-- `mul_result`
example : Agree (do (← row "13425678").mulResult (← row "43217568"))
    ((row "24317568").map .ok) := by decide +kernel
example : Agree (do
    match ← (← row "13425678").mulResult (← row "4321") with
    | .ok _ => .error .unwrap
    | .error e => .ok e.message)
    (.ok "Incompatible stages: Major (lhs), Minimus (rhs)".toList) := by decide +kernel
-- `mul_unchecked`
example : Agree (do (← row "13425678").mulUnchecked (← row "43217568")) (row "24317568") := by
  decide +kernel
example : Agree (do (← row "13475628").mulUnchecked (← row "4321")) (.ok ⟨[7, 4, 3, 1].map (⟨· - 1⟩)⟩) := by
  decide +kernel
-- `!`, `inv_into`, `inv_into_buf`
example : Agree (invText "135246") (.ok "142536") := by decide +kernel
example : Agree (Row.backrounds ⟨8⟩).inv (.ok (Row.backrounds ⟨8⟩)) := by decide +kernel
example : Agree (invText "1342") (.ok "1423") := by decide +kernel
example : Agree (do (← row "135246").invInto (Row.rounds ⟨6⟩)) ((row "142536").map .ok) := by decide +kernel
example : Agree ((Row.backrounds ⟨8⟩).invInto (Row.rounds ⟨8⟩)) (.ok (.ok (Row.backrounds ⟨8⟩))) := by
  decide +kernel
example : Agree (do (← row "1342").invInto (Row.rounds ⟨4⟩)) ((row "1423").map .ok) := by decide +kernel
example : Agree (do (← row "135246").invIntoBuf (Row.rounds ⟨1⟩)) (row "142536") := by decide +kernel
example : Agree (do (Row.backrounds ⟨8⟩).invIntoBuf (← row "142536")) (.ok (Row.backrounds ⟨8⟩)) := by
  decide +kernel
example : Agree (do (← row "1342").invIntoBuf (Row.backrounds ⟨8⟩)) (row "1423") := by decide +kernel
-- `closure`, `closure_from_rounds`
#guard runAgree (do (← liftM (row "18234567")).closure)
  (["18234567", "17823456", "16782345", "15678234", "14567823", "13456782", "12345678"].mapM row)
#guard runAgree (do (← liftM (row "18234567")).closureFromRounds)
  (["12345678", "18234567", "17823456", "16782345", "15678234", "14567823", "13456782"].mapM row)
-- `Mul`
example : Agree (do (← row "13425678").mul (← row "43217568")) (row "24317568") := by decide +kernel
-- `should_panic`
example : (do (← row "13425678").mul (← row "4321")).isOk = false := by decide +kernel

/-! ## src/row/owned.rs -/

abbrev withStage (s : String) (n : Nat) : Res (Except InvalidRowError Row) := Row.parseWithStage s.toList ⟨n⟩

-- `parse_with_stage_ok`
example : ([("321", 3, "321"), ("321", 6, "321456"), ("1342", 8, "13425678"), ("123564", 10, "1235647890"),
      ("21", 5, "21345"), ("", 4, "1234")] : List (String × Nat × String)).all
    (fun t => Agree (withStage t.1 t.2.1) ((row t.2.2).map .ok)) := by decide +kernel
-- `parse_with_stage_err_dup_bell`
example : ([("322", 3, '2'), ("11", 12, '1'), ("512435", 6, '5'), ("331212", 6, '3')] :
      List (String × Nat × Char)).all
    (fun t => Agree (withStage t.1 t.2.1)
      ((unwrap (Bell.fromName t.2.2)).map fun b => .error (.duplicateBell b))) := by decide +kernel
-- `parse_with_stage_out_of_stage`
example : ([("0", 3, '0'), ("3218", 6, '8'), ("12345678", 3, '4')] : List (String × Nat × Char)).all
    (fun t => Agree (withStage t.1 t.2.1)
      ((unwrap (Bell.fromName t.2.2)).map fun b => .error (.bellOutOfStage b ⟨t.2.1⟩))) := by decide +kernel
-- `parse_with_stage_err`
example : ([("13", 3, '2'), ("14", 6, '2'), ("14567892", 9, '3')] : List (String × Nat × Char)).all
    (fun t => Agree (withStage t.1 t.2.1)
      ((unwrap (Bell.fromName t.2.2)).map fun b => .error (.missingBell b))) := by decide +kernel

abbrev isGroup (rows : List String) : Res (Except IncompatibleStages Bool) := do
  Row.isGroup (← rows.mapM row)

-- `is_group`
example : ([["1234", "1342", "1423"], ["1"], ["1234", "1324"], ["1234", "1234", "1234", "1324"],
      ["1234", "4123", "3412", "2341"],
      ["123456", "134256", "142356", "132456", "124356", "143256"],
      ["123456", "134562", "145623", "156234", "162345",
        "165432", "126543", "132654", "143265", "154326"],
      ["123456", "234561", "345612", "456123", "561234", "612345"],
      ["123456", "234561", "345612", "456123", "561234", "612345",
        "654321", "165432", "216543", "321654", "432165", "543216"]]).all
    (fun g => Agree (isGroup g) (.ok (.ok true))) := by decide +kernel
-- `is_non_group`
example : ([["21"], ["123456", "134256", "142356", "132456", "124356"], [],
      ["123456", "134256", "142356", "132456", "124356", "143256", "213456"]]).all
    (fun g => Agree (isGroup g) (.ok (.ok false))) := by decide +kernel

/-! ## src/row/same_stage_vec.rs -/

abbrev threeRows : Res SameStageVec := do
  let (v, _) ← (SameStageVec.new ⟨6⟩).push (Row.rounds ⟨6⟩)
  let (v, _) ← v.push (Row.queens ⟨6⟩)
  let (v, _) ← v.push (Row.backrounds ⟨6⟩)
  return v

example : Agree (do (← threeRows).len) (.ok 3) := by decide +kernel
example : Agree (do return (← (← threeRows).index 2).isBackrounds) (.ok true) := by decide +kernel

/-! ## src/parity.rs -/

example : Parity.mul .even .even = .even := rfl
example : Parity.mul .even .odd = .odd := rfl
example : Parity.mul .odd .even = .odd := rfl
example : Parity.mul .odd .odd = .even := rfl
example : Parity.fromNumber 0 = .even := rfl
example : Parity.fromNumber 1000 = .even := rfl
example : Parity.fromNumber 1 = .odd := rfl
example : Parity.fromNumber 47 = .odd := rfl
#guard runAgree (do return (← (Row.rounds ⟨2⟩).parity).2) (.ok .even)
#guard runAgree (do return (← (Row.rounds ⟨8⟩).parity).2) (.ok .even)
#guard runAgree (do return (← (← liftM (row "13245")).parity).2) (.ok .odd)
#guard runAgree (do return (← (← liftM (row "231546")).parity).2) (.ok .odd)
#guard runAgree (do return (← (← liftM (row "231564")).parity).2) (.ok .even)

/-! ## src/utils.rs -/

example : ([("123456", 6), ("456231", 3), ("612345", 1)] : List (String × Nat)).all
    (fun t => Agree ((row t.1).map fun r => Utils.runLen r.bells) (.ok t.2)) := by decide +kernel

/-! ## src/mask.rs -/

abbrev mask (s : String) : Mask := Mask.parse s.toList

-- `matches`
example : ([("1xx45", "12345", true), ("x", "1", true), ("1", "1", true), ("123456", "123456", true),
      ("123456", "123465", false), ("123456", "1234567", false), ("x1xx56", "123456", false),
      ("x1xx56", "214356", true), ("x1xx56", "241356", false)] : List (String × String × Bool)).all
    (fun t => Agree (do (mask t.1).matches_ (← row t.2.1)) (.ok t.2.2)) := by decide +kernel
-- `row_mul_mask`
example : ([("12345", "1xx45", "1xx45"), ("32154", "1xx45", "3xx54"), ("67812345", "xxxx6578", "xxxx3245")] :
      List (String × String × String)).all
    (fun t => Agree (do Mask.rowMul (← row t.1) (mask t.2.1)) (.ok (mask t.2.2))) := by decide +kernel
-- `mask_mul_row`
example : ([("1xx45", "12345", "1xx45"), ("1xx45", "32154", "xx154"), ("xxxx6578", "67812345", "578xxxx6")] :
      List (String × String × String)).all
    (fun t => Agree (do (mask t.1).mulRow (← row t.2.1)) (.ok (mask t.2.2))) := by decide +kernel

/-! ## src/music.rs -/

abbrev regex (s : String) : Res Regex := Regex.parse s.toList

-- `regex_normalise`
example : ([("", ""), ("*", "*"), ("**", "*"), ("***", "*"), ("****", "*"), ("x", "x"), ("**5678", "*5678"),
      ("*1**", "*1*"), ("*1", "*1"), ("xxxx5678", "xxxx5678"), ("x*", "x*"), ("1*x*3", "1x*3"),
      ("1*x**x**", "1xx*"), ("1*x*2*x**", "1x*2x*")] : List (String × String)).all
    (fun t => Agree ((regex t.1).map Regex.display) (.ok t.2.toList)) := by decide +kernel
-- `regex_is_match`
example : ([("xxxx", "3412", true), ("xxxx", "4321", true), ("xxxx", "54321", false),
      ("x1xx", "2134", true), ("x1xx", "2134", true), ("x1xx", "4321", false), ("x1", "21345", false),
      ("*1234", "1234", true), ("*1234", "51234", true), ("*1234", "123", false),
      ("*6578", "12346578", true), ("*65*78", "12346578", true), ("*65*78", "12653478", true),
      ("*65*78", "12657834", false),
      ("x*12*34", "61257834", true), ("x*12*34", "12657834", false), ("x*12*34", "51234", true),
      ("x*12*34", "1234", false), ("x*12*34", "12534", false)] : List (String × String × Bool)).all
    (fun t => Agree (do (← regex t.1).matches_ (← row t.2.1)) (.ok t.2.2)) := by decide +kernel
-- `regex_match_pattern`
example : ([("xxxx", "3412", some []), ("xxxx", "4321", some []), ("xxxx", "54321", none),
      ("x1xx", "2134", some [1]), ("x1xx", "2134", some [1]), ("x1xx", "4321", none), ("x1", "21345", none),
      ("*1234", "1234", some [0, 1, 2, 3]), ("*1234", "51234", some [1, 2, 3, 4]), ("*1234", "123", none),
      ("*6578", "12346578", some [4, 5, 6, 7]), ("*65*78", "12346578", some [4, 5, 6, 7]),
      ("*65*78", "12653478", some [2, 3, 6, 7]), ("*65*78", "12657834", none),
      ("x*12*34", "61257834", some [1, 2, 6, 7]), ("x*12*34", "12657834", none),
      ("x*12*34", "51234", some [1, 2, 3, 4]), ("x*12*34", "1234", none), ("x*12*34", "12534", none),
      ("*1x2x3x4*", "18273645", some [0, 2, 4, 6]), ("*1x2x3x4*", "091E273645T8", some [2, 4, 6, 8])] :
      List (String × String × Option (List Nat))).all
    (fun t => Agree (do (← regex t.1).matchPattern (← row t.2.1)) (.ok t.2.2)) := by decide +kernel

/-! ## src/place_not.rs -/

abbrev pn (s : String) (n : Nat) : Res (Except PnParseError PlaceNot) := PlaceNot.parse s.toList ⟨n⟩

/-- `PlaceNot::parse(s, stage)?`. -/
abbrev pnOk (s : String) (n : Nat) : Res PlaceNot := do
  match ← pn s n with
  | .ok p => .ok p
  | .error _ => .error .unwrap

abbrev pnErr (s : String) (n : Nat) : Res (List Char) := do
  match ← pn s n with
  | .ok _ => .error .unwrap
  | .error e => e.message

-- the documentation of `PlaceNot::parse`
example : Agree ((pnOk "14" 8).map PlaceNot.display) (.ok "14".toList) := by decide +kernel
example : Agree ((pnOk "  4|7~18" 10).map PlaceNot.display) (.ok "1478".toList) := by decide +kernel
example : Agree ((pnOk "467" 12).map PlaceNot.display) (.ok "14567T".toList) := by decide +kernel
example : Agree (pnErr "14T" 8) (.ok "Place 'T' is out stage Major".toList) := by decide +kernel
example : Agree (pnErr "15" 8) (.ok "Ambiguous gap of 3 bells between places '1' and '5'.".toList) := by
  decide +kernel
-- `cross`, `is_cross`
example : Agree (unwrap (PlaceNot.cross ⟨8⟩)) (pnOk "x" 8) := by decide +kernel
example : (PlaceNot.cross ⟨8⟩).map PlaceNot.isCross = some true := by decide +kernel
example : Agree ((pnOk "x" 8).map PlaceNot.isCross) (.ok true) := by decide +kernel
example : Agree ((pnOk "14" 8).map PlaceNot.isCross) (.ok false) := by decide +kernel
example : Agree ((pnOk "3" 7).map PlaceNot.isCross) (.ok false) := by decide +kernel
-- `parse_ok`
example : ([("14", 8, [0, 3]), ("1256", 6, [0, 1, 4, 5]), ("16", 12, [0, 5]), ("127", 7, [0, 1, 6]),
      ("3", 9, [2]), ("4", 4, [0, 3]), ("234", 6, [0, 1, 2, 3]), ("478", 8, [0, 3, 6, 7]),
      ("470", 10, [0, 3, 6, 9]), ("2", 2, [0, 1]), ("3", 8, [2, 7]), ("12", 5, [0, 1, 4]), ("1", 2, [0, 1]),
      ("14", 11, [0, 3, 10]), ("146", 8, [0, 3, 4, 5]), ("13", 3, [0, 1, 2]), ("13", 7, [0, 1, 2]),
      ("135", 7, [0, 1, 2, 3, 4]), ("23", 8, [0, 1, 2, 7]), ("4", 7, [0, 3, 6]), ("45", 6, [0, 3, 4, 5]),
      ("46", 9, [0, 3, 4, 5, 8]), ("6152", 6, [0, 1, 4, 5]), ("342", 6, [0, 1, 2, 3]),
      ("32", 8, [0, 1, 2, 7]), ("21", 5, [0, 1, 4]), ("2\t  1 |", 5, [0, 1, 4]),
      ("   6\n?15&2!", 6, [0, 1, 4, 5])] : List (String × Nat × List Nat)).all
    (fun t => Agree (pnOk t.1 t.2.1) (.ok ⟨t.2.2, ⟨t.2.1⟩⟩)) := by decide +kernel
-- `parse_err_odd_bell_cross`
example : ([3, 5, 7, 9, 11, 15, 13].all fun n => ["x", "X", "-"].all fun s =>
    Agree (pn s n) (.ok (.error (.oddStageCross ⟨n⟩)))) := by decide +kernel
-- `parse_err_place_out_of_stage`
example : ([("148", 4, 7), ("91562", 6, 8), ("  3", 2, 2)] : List (String × Nat × Nat)).all
    (fun t => Agree (pn t.1 t.2.1) (.ok (.error (.placeOutOfStage t.2.2 ⟨t.2.1⟩)))) := by decide +kernel
-- `parse_err_no_places_given`
example : ((List.range' 1 11).all fun n => Agree (pn "" n) (.ok (.error .noPlacesGiven))) := by decide +kernel
-- `parse_err_ambiguous_gap`
example : ([("15", 8, 0, 4), ("39", 10, 2, 8), ("1925", 12, 4, 8), ("1026", 10, 1, 5)] :
      List (String × Nat × Nat × Nat)).all
    (fun t => Agree (pn t.1 t.2.1) (.ok (.error (.ambiguousPlacesBetween t.2.2.1 t.2.2.2)))) := by
  decide +kernel

/-- `PnBlock::parse(s, stage).unwrap()`. -/
abbrev pnBlock (s : String) (n : Nat) : Res PnBlock := do
  match ← PnBlock.parse s.toList ⟨n⟩ with
  | .ok p => .ok p
  | .error _ => .error .unwrap

-- `parse_block_ok`
example : ([(3, "1.3", "1   .  3", 2), (4, "-4-3-1-..2", "x14x34x14x12", 8),
      (4, "-4-3-1-..2", "-14x34-14x12", 8), (4, "x14x14,12", "-14-14-14-12", 8), (7, "2.3", "2,3", 2),
      (8, "x1,1x,x1,1x,x1,2", "-18-18-18-18,12", 16), (8, "+x4x1,", "x14x18", 4),
      (12, "x4x1,", "x14x1Tx14x", 7), (12, "xxx1", "---1T", 4), (12, "x   -\tx1", "---1T", 4)] :
      List (Nat × String × String × Nat)).all
    (fun t => Agree (pnBlock t.2.1 t.1) (pnBlock t.2.2.1 t.1) &&
      Agree ((pnBlock t.2.1 t.1).map PnBlock.len) (.ok t.2.2.2)) := by decide +kernel

/-- `Block::parse(s).unwrap()`. -/
abbrev block (s : String) : Res (AnnotBlock Unit) := do
  match ← AnnotBlock.parse () s.toList with
  | .ok p => .ok p
  | .error _ => .error .unwrap

def alnwickLead : String := "156342
516324
153642
513462
531426
354162
351426
534162
354612
345621
436512
463521
643251
634215
362451
326415
236145
321654
326145
231654
213645
123465
214356
124365
123456"

def plainBobMajorLead : String := "12345678
21436587
24163857
42618375
46281735
64827153
68472513
86745231
87654321
78563412
75836142
57381624
53718264
35172846
31527486
13254768
13527486"

-- `pn_to_block`
example : ([(6, "34-36.14-12-36.14-14.36,12", alnwickLead), (6, "34-3.4-2-3.4-4.3,+2", alnwickLead),
      (8, "x18x18x18x18,12", plainBobMajorLead)] : List (Nat × String × String)).all
    (fun t => Agree (do
        let expected ← block t.2.2
        let first ← unwrap expected.firstAnnotRow
        (← pnBlock t.2.1 t.1).toBlock () first.1)
      ((block t.2.2).map .ok)) := by decide +kernel
-- `pn_between_rows`
example : ([("12345678", "13245678", "145678"), ("12345678", "13246587", "14"),
      ("18247653", "81246753", "3478")] : List (String × String × String)).all
    (fun t => Agree (do PlaceNot.pnBetween (← row t.1) (← row t.2.1)) ((pnOk t.2.2 8).map some)) := by
  decide +kernel

end Bellframe.Replay
