import Verif.Model.Block
import Mathlib.Data.List.Sort

/-!
# Model of `src/place_not.rs`

Strings are lists of characters; byte positions are computed from the UTF-8 lengths of the
characters.
-/

namespace Bellframe

/-- `enum ParseError` — src/place_not.rs:14-21. -/
inductive PnParseError where
  | placeOutOfStage (place : Nat) (stage : Stage)
  | ambiguousPlacesBetween (p q : Nat)
  | duplicatePlace (p : Nat)
  | oddStageCross (stage : Stage)
  | noPlacesGiven
deriving DecidableEq, Repr

/-- `struct PlaceNot` — src/place_not.rs:56-75. -/
structure PlaceNot where
  places : List Nat
  stage : Stage
deriving DecidableEq, Repr

/-- `enum CharMeaning` — src/place_not.rs:670-676. -/
inductive CharMeaning where
  | bell (b : Bell)
  | delimiter
  | cross
  | asym
  | unknown
deriving DecidableEq, Repr

/-- `impl From<char> for CharMeaning` — src/place_not.rs:678-691. -/
def CharMeaning.ofChar (c : Char) : CharMeaning :=
  match Bell.fromName c with
  | some b => .bell b
  | none =>
    if c = '+' then .asym
    else if c = ' ' ∨ c = '.' then .delimiter
    else if c = 'x' ∨ c = 'X' ∨ c = '-' then .cross
    else .unknown

namespace PlaceNot

/-- `PlaceNot::cross` — src/place_not.rs:203-212. -/
def cross (stage : Stage) : Option PlaceNot :=
  if stage.numBells % 2 = 0 then some ⟨[], stage⟩ else none

/-- The loop over `tuple_windows` in `PlaceNot::from_sorted_slice` (src/place_not.rs:154-169): the
places pushed by the loop.  `q - p` panics for unsorted slices in builds with overflow checks. -/
def windowsLoop : List Nat → Res (Except PnParseError (List Nat))
  | p :: q :: rest => do
    let d ← checkedSub q p
    if d = 0 then return .error (.duplicatePlace p)
    else
      let between := d - 1
      if between ≠ 1 ∧ between % 2 = 1 then return .error (.ambiguousPlacesBetween p q)
      else
        match ← windowsLoop (q :: rest) with
        | .error e => return .error e
        | .ok places =>
          return .ok (p :: ((if between = 1 then [p + 1] else []) ++ places))
  | _ => .ok (.ok [])

/-- `PlaceNot::from_sorted_slice` — src/place_not.rs:131-187. -/
def fromSortedSlice (parsed : List Nat) (stage : Stage) : Res (Except PnParseError PlaceNot) := do
  match parsed.head?, parsed.getLast? with
  | some first, some last =>
    if last ≥ stage.numBells then return .error (.placeOutOfStage last stage)
    else
      let lead := if first % 2 = 1 then [0] else []
      match ← windowsLoop parsed with
      | .error e => return .error e
      | .ok ps =>
        let lie := if (stage.numBells - last) % 2 = 0 then [stage.numBells - 1] else []
        return .ok ⟨lead ++ ps ++ [last] ++ lie, stage⟩
  | _, _ => return .error .noPlacesGiven

/-- `slice::sort_unstable` on `usize`s (any sorting algorithm gives the same list). -/
def sortPlaces (l : List Nat) : List Nat := l.insertionSort (· ≤ ·)

/-- `PlaceNot::parse` — src/place_not.rs:107-123 (`s.len()` is the length in bytes). -/
def parse (s : List Char) (stage : Stage) : Res (Except PnParseError PlaceNot) :=
  if Bell.utf8Len s = 1 ∧ s.head?.map CharMeaning.ofChar = some .cross then
    match cross stage with
    | some pn => .ok (.ok pn)
    | none => .ok (.error (.oddStageCross stage))
  else fromSortedSlice (sortPlaces ((s.filterMap Bell.fromName).map Bell.index)) stage

/-- `PlaceNot::is_cross` — src/place_not.rs:229-231. -/
def isCross (pn : PlaceNot) : Bool := pn.places.isEmpty

/-- `PlaceNot::contains` — src/place_not.rs:235-237. -/
def contains (pn : PlaceNot) (place : Nat) : Bool := pn.places.contains place

/-- `PlaceNot::has_internal_places` — src/place_not.rs:241-246 (`num_bells() - 1` cannot underflow,
because stages are not zero). -/
def hasInternalPlaces (pn : PlaceNot) : Bool :=
  let hasLead := pn.places.head? == some 0
  let hasLie := pn.places.getLast? == some (pn.stage.numBells - 1)
  let numExternalPlaces := (if hasLead then 1 else 0) + (if hasLie then 1 else 0)
  decide (pn.places.length > numExternalPlaces)

/-- The `while let` loop of `PlaceNot::pn_between` (src/place_not.rs:263-276) over the remaining
pairs of bells; `none` is the early `return None`. -/
def pnBetweenLoop : List (Bell × Bell) → (place : Nat) → Option (List Nat)
  | [], _ => some []
  | (b1, b2) :: rest, place =>
    if b1 = b2 then (pnBetweenLoop rest (place + 1)).map (place :: ·)
    else
      match rest with
      | (c1, c2) :: rest' => if c1 = b2 ∧ c2 = b1 then pnBetweenLoop rest' (place + 2) else none
      | [] => none

/-- `PlaceNot::pn_between` — src/place_not.rs:256-282. -/
def pnBetween (r1 r2 : Row) : Res (Option PlaceNot) := do
  let s1 ← r1.stage
  let s2 ← r2.stage
  if s1 ≠ s2 then return none
  else
    let pairs ← zipEq r1.bells r2.bells
    return (pnBetweenLoop pairs 0).map fun places => ⟨places, s1⟩

/-- The `while` loop of `PlaceNot::permute_unchecked` — src/place_not.rs:312-324. -/
def permuteLoop (n : Nat) (places : List Nat) (i : Nat) (row : Row) : Res Row :=
  if i < n then
    if places.head? = some i then permuteLoop n places.tail (i + 1) row
    else do
      let row' ← row.swap i (i + 1)
      permuteLoop n places (i + 2) row'
  else .ok row
termination_by n - i

/-- `PlaceNot::permute_unchecked` — src/place_not.rs:309-325. -/
def permuteUnchecked (pn : PlaceNot) (row : Row) : Res Row :=
  permuteLoop pn.stage.numBells pn.places 0 row

/-- `PlaceNot::transposition` — src/place_not.rs:285-292. -/
def transposition (pn : PlaceNot) : Res Row := pn.permuteUnchecked (Row.rounds pn.stage)

/-- `PlaceNot::permute` — src/place_not.rs:296-300. -/
def permute (pn : PlaceNot) (row : Row) : Res (Row × Except IncompatibleStages Unit) := do
  let s ← row.stage
  match IncompatibleStages.testErr s pn.stage with
  | .error e => return (row, .error e)
  | .ok () =>
    let row' ← pn.permuteUnchecked row
    return (row', .ok ())

/-- `PlaceNot::permute_new` (and `permute_new_unchecked`) — src/place_not.rs:329-344. -/
def permuteNew (pn : PlaceNot) (row : Row) : Res (Except IncompatibleStages Row) := do
  let s ← row.stage
  match IncompatibleStages.testErr s pn.stage with
  | .error e => return .error e
  | .ok () =>
    let row' ← pn.permuteUnchecked row
    return .ok row'

/-- `impl Display for PlaceNot` — src/place_not.rs:353-366. -/
def display (pn : PlaceNot) : List Char :=
  if pn.isCross then ['-'] else pn.places.flatMap fun p => (Bell.fromIndex p).name

end PlaceNot

/-- `enum PnBlockParseError` — src/place_not.rs:370-381; a `Range` is its start and end. -/
inductive PnBlockParseError where
  | plusNotAtBlockStart (index : Nat)
  | pnError (start stop : Nat) (e : PnParseError)
  | emptyBlock
deriving DecidableEq, Repr

/-- `enum InvalidPnBlockError` — src/place_not.rs:401-404. -/
inductive InvalidPnBlockError where
  | incompatibleStages (index : Nat) (e : IncompatibleStages)
  | emptyBlock
deriving DecidableEq, Repr

/-- `struct PnBlock` — src/place_not.rs:423-430. -/
structure PnBlock where
  pns : List PlaceNot
deriving DecidableEq, Repr

namespace PnBlock

/-- `str::char_indices`, starting to count at byte `i`. -/
def charIndices : (i : Nat) → List Char → List (Nat × Char)
  | _, [] => []
  | i, c :: cs => (i, c) :: charIndices (i + c.utf8Size) cs

/-- Turning the collected places into a `PlaceNot` at a cross or delimiter —
src/place_not.rs:533-546. -/
def flush (stage : Stage) (places : List Nat) (start index : Nat) (buf : List PlaceNot) :
    Res (Except PnBlockParseError (List PlaceNot)) :=
  if places.isEmpty then .ok (.ok buf)
  else do
    match ← PlaceNot.fromSortedSlice (PlaceNot.sortPlaces places) stage with
    | .error e => return .error (.pnError start (index + 1) e)
    | .ok pn => return .ok (buf ++ [pn])

/-- The `for` loop over the tokens in `PnBlock::parse_asym_block` — src/place_not.rs:518-561.
`places`, `start` and `buf` are the loop's mutable variables. -/
def asymLoop (stage : Stage) (byteOffset : Nat) : (toks : List (Nat × CharMeaning)) →
    (places : List Nat) → (start : Nat) → (buf : List PlaceNot) →
    Res (Except PnBlockParseError (List PlaceNot))
  | [], _, _, buf => .ok (.ok buf)
  | (i, m) :: toks, places, start, buf => do
    let index := i + byteOffset
    match m with
    | .bell b =>
      asymLoop stage byteOffset toks (places ++ [b.index])
        (if places.isEmpty then index else start) buf
    | .asym => return .error (.plusNotAtBlockStart index)
    | .unknown => asymLoop stage byteOffset toks places start buf
    | .delimiter =>
      match ← flush stage places start index buf with
      | .error e => return .error e
      | .ok buf' => asymLoop stage byteOffset toks [] start buf'
    | .cross =>
      match ← flush stage places start index buf with
      | .error e => return .error e
      | .ok buf' =>
        match PlaceNot.cross stage with
        | none => return .error (.pnError index (index + 1) (.oddStageCross stage))
        | some pn => asymLoop stage byteOffset toks [] start (buf' ++ [pn])

/-- Step 1 of `PnBlock::parse_asym_block` (src/place_not.rs:494-503): skip meaningless tokens. -/
def skipJunk : List (Nat × CharMeaning) → List (Nat × CharMeaning)
  | [] => []
  | (i, m) :: toks => if m = .delimiter ∨ m = .unknown then skipJunk toks else (i, m) :: toks

/-- `PnBlock::parse_asym_block` — src/place_not.rs:471-564.  Returns the flag and the contents of
`buf`, which is empty when the function is called (src/place_not.rs:479: the caller always empties
it). -/
def parseAsymBlock (block : List Char) (byteOffset : Nat) (stage : Stage) :
    Res (Except PnBlockParseError (Bool × List PlaceNot)) := do
  let toks := (charIndices 0 block).map (fun p => (p.1 + byteOffset, CharMeaning.ofChar p.2)) ++
    [(byteOffset + Bell.utf8Len block, CharMeaning.delimiter)]
  let toks := skipJunk toks
  let isAsymmetric := decide (toks.head?.map Prod.snd = some .asym)
  let toks := if isAsymmetric then toks.tail else toks
  match ← asymLoop stage byteOffset toks [] 0 [] with
  | .error e => return .error e
  | .ok buf => return .ok (isAsymmetric, buf)

/-- `s.split(',')`. -/
def splitComma : List Char → List (List Char)
  | [] => [[]]
  | c :: cs =>
    if c = ',' then [] :: splitComma cs
    else
      match splitComma cs with
      | [] => [[c]]
      | p :: ps => (c :: p) :: ps

/-- The `for` loop of `PnBlock::parse` (src/place_not.rs:445-462) over the parts; the difference of
the addresses of `sym_block` and `s` is the number of bytes before the part. -/
def parseLoop (stage : Stage) (isSingleBlock : Bool) : (parts : List (List Char)) →
    (byteOffset : Nat) → (pns : List PlaceNot) → Res (Except PnBlockParseError (List PlaceNot))
  | [], _, pns => .ok (.ok pns)
  | part :: parts, byteOffset, pns => do
    match ← parseAsymBlock part byteOffset stage with
    | .error e => return .error e
    | .ok (isAsymmetric, buf) =>
      let pns' :=
        if isSingleBlock || isAsymmetric then pns ++ buf
        else pns ++ buf ++ buf.reverse.drop 1
      parseLoop stage isSingleBlock parts (byteOffset + Bell.utf8Len part + 1) pns'

/-- `PnBlock::parse` — src/place_not.rs:437-469. -/
def parse (s : List Char) (stage : Stage) : Res (Except PnBlockParseError PnBlock) := do
  let isSingleBlock := !s.contains ','
  match ← parseLoop stage isSingleBlock (splitComma s) 0 [] with
  | .error e => return .error e
  | .ok pns => if pns.isEmpty then return .error .emptyBlock else return .ok ⟨pns⟩

/-- The stage check of `PnBlock::from_vec` — src/place_not.rs:586-589. -/
def checkStages (first : Stage) : (pns : List PlaceNot) → (i : Nat) → Except InvalidPnBlockError Unit
  | [], _ => .ok ()
  | pn :: pns, i =>
    match IncompatibleStages.testErr first pn.stage with
    | .error e => .error (.incompatibleStages i e)
    | .ok () => checkStages first pns (i + 1)

/-- `PnBlock::from_vec` (and `from_iter`) — src/place_not.rs:572-592. -/
def fromVec (pns : List PlaceNot) : Except InvalidPnBlockError PnBlock :=
  match pns with
  | [] => .error .emptyBlock
  | pn :: rest =>
    match checkStages pn.stage rest 1 with
    | .error e => .error e
    | .ok () => .ok ⟨pns⟩

/-- `PnBlock::stage` — src/place_not.rs:614-618. -/
def stage (b : PnBlock) : Res Stage := do
  let pn ← getIdx b.pns 0
  return pn.stage

/-- `PnBlock::len` — src/place_not.rs:623-625. -/
def len (b : PnBlock) : Nat := b.pns.length

/-- The `for` loop of `PnBlock::to_rows` — src/place_not.rs:635-643. -/
def toRowsLoop : (pns : List PlaceNot) → (current : Row) → (rows : SameStageVec) → Res SameStageVec
  | [], _, rows => .ok rows
  | pn :: pns, current, rows => do
    let current' ← pn.permuteUnchecked current
    let (rows', res) ← rows.push current'
    unwrapResult res
    toRowsLoop pns current' rows'

/-- `PnBlock::to_rows` — src/place_not.rs:630-645. -/
def toRows (b : PnBlock) (startRow : Row) : Res (Except IncompatibleStages SameStageVec) := do
  let s1 ← startRow.stage
  let s2 ← b.stage
  match IncompatibleStages.testErr s1 s2 with
  | .error e => return .error e
  | .ok () =>
    let rows ← SameStageVec.fromRowBuf startRow
    let rows' ← toRowsLoop b.pns startRow rows
    return .ok rows'

/-- `PnBlock::to_block` — src/place_not.rs:649-655. -/
def toBlock {A : Type} (dflt : A) (b : PnBlock) (startRow : Row) :
    Res (Except IncompatibleStages (AnnotBlock A)) := do
  match ← b.toRows startRow with
  | .error e => return .error e
  | .ok rows =>
    let blk ← AnnotBlock.withDefaultAnnots dflt rows
    return .ok blk

/-- `PnBlock::to_block_from_rounds` — src/place_not.rs:659-666. -/
def toBlockFromRounds {A : Type} (dflt : A) (b : PnBlock) : Res (AnnotBlock A) := do
  let s ← b.stage
  let res ← b.toBlock dflt (Row.rounds s)
  unwrapResult res

end PnBlock

end Bellframe
