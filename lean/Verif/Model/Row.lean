import Verif.Model.Stage
import Verif.Model.Parity

/-!
# Model of `src/row/{borrowed,owned,errors}.rs`

`Row`, `RowBuf` and `&mut Row` are all modelled by `Row`.  Nothing in the type says that a `Row` is
a permutation: as in Rust, the constructors are responsible for that.
-/

namespace Bellframe

/-- `struct Row { bell_slice: [Bell] }` / `struct RowBuf { bell_vec: Vec<Bell> }`
— src/row/borrowed.rs:58-65, src/row/owned.rs:20-27. -/
structure Row where
  bells : List Bell
deriving DecidableEq, Repr

/-- `enum InvalidRowError` — src/row/errors.rs:13-26. -/
inductive InvalidRowError where
  | noBells
  | duplicateBell (b : Bell)
  | bellOutOfStage (b : Bell) (s : Stage)
  | missingBell (b : Bell)
deriving DecidableEq, Repr

/-- `enum MulIntoError` — src/row/errors.rs:53-57. -/
inductive MulIntoError where
  | rhsStage (e : IncompatibleStages)
  | intoStage (e : IncompatibleStages)
deriving DecidableEq, Repr

namespace Row

/-! ## Constructors (owned.rs) -/

/-- The checklist loop shared by `from_vec` (src/row/owned.rs:185-196) and `from_vec_with_stage`
(src/row/owned.rs:319-330).  Returns the final checklist and the biggest bell found (starting from
`biggest`; `from_vec` ignores it). -/
def checkOff (stage : Stage) : (bells : List Bell) → (checklist : List Bool) → (biggest : Bell) →
    Except InvalidRowError (List Bool × Bell)
  | [], checklist, biggest => .ok (checklist, biggest)
  | b :: bs, checklist, biggest =>
    match checklist[b.index]? with
    | none => .error (.bellOutOfStage b stage)
    | some true => .error (.duplicateBell b)
    | some false =>
      checkOff stage bs (checklist.set b.index true)
        (if biggest.index ≤ b.index then b else biggest)

/-- `RowBuf::from_vec` — src/row/owned.rs:176-199. -/
def fromVec (bells : List Bell) : Except InvalidRowError Row :=
  match Stage.tryFrom bells.length with
  | none => .error .noBells
  | some stage =>
    match checkOff stage bells (List.replicate bells.length false) Bell.treble with
    | .error e => .error e
    | .ok _ => .ok ⟨bells⟩

/-- `RowBuf::parse` — src/row/owned.rs:58-60, via `from_bell_iter` (274-276). -/
def parse (s : List Char) : Except InvalidRowError Row := fromVec (s.filterMap Bell.fromName)

/-- `RowBuf::from_vec_with_stage` — src/row/owned.rs:308-359. Slicing `checklist[..biggest]` and
the `assert!` are possible panics. -/
def fromVecWithStage (bells : List Bell) (stage : Stage) : Res (Except InvalidRowError Row) := do
  match checkOff stage bells (List.replicate stage.numBells false) Bell.treble with
  | .error e => return .error e
  | .ok (checklist, biggest) =>
    if checklist.length < biggest.index then throw .index
    match (checklist.take biggest.index).findIdx? (fun x => !x) with
    | some index => return .error (.missingBell (Bell.fromIndex index))
    | none =>
      assertThat (bells.length ≤ stage.numBells)
      return .ok ⟨bells ++
        (List.range' bells.length (stage.numBells - bells.length)).map Bell.fromIndex⟩

/-- `RowBuf::parse_with_stage` — src/row/owned.rs:90-92. -/
def parseWithStage (s : List Char) (stage : Stage) : Res (Except InvalidRowError Row) :=
  fromVecWithStage (s.filterMap Bell.fromName) stage

/-- `RowBuf::rounds` — src/row/owned.rs:103-106. -/
def rounds (stage : Stage) : Row := ⟨(List.range stage.numBells).map Bell.fromIndex⟩

/-- `RowBuf::backrounds` — src/row/owned.rs:117-122. -/
def backrounds (stage : Stage) : Row := ⟨(List.range stage.numBells).reverse.map Bell.fromIndex⟩

/-- `(start..stop).step_by(2)` of Rust. -/
def stepByTwo (start stop : Nat) : List Nat :=
  List.range' start ((stop - start + 1) / 2) 2

/-- `RowBuf::queens` — src/row/owned.rs:133-143. -/
def queens (stage : Stage) : Row :=
  ⟨(stepByTwo 0 stage.numBells ++ stepByTwo 1 stage.numBells).map Bell.fromIndex⟩

/-- `Row::stage` — src/row/borrowed.rs:83-85: panics on an empty row. -/
def stage (r : Row) : Res Stage := Stage.new r.bells.length

/-- `RowBuf::extend_to_stage` — src/row/owned.rs:388-392. -/
def extendToStage (r : Row) (stage : Stage) : Res Row := do
  let s ← r.stage
  assertThat (s.numBells ≤ stage.numBells)
  return ⟨r.bells ++
    (List.range' r.bells.length (stage.numBells - r.bells.length)).map Bell.fromIndex⟩

/-- `RowBuf::overwrite_from` — src/row/owned.rs:395-398 (`self` is cleared first), and
`Row::copy_into` — src/row/borrowed.rs:548-551. -/
def overwriteFrom (_self row : Row) : Row := ⟨[] ++ row.bells⟩

/-! ## Queries (borrowed.rs) -/

/-- `Row::place_of` — src/row/borrowed.rs:127-129. -/
def placeOf (r : Row) (bell : Bell) : Option Nat := r.bells.findIdx? (fun b => b == bell)

/-- `Index<usize> for Row` — src/row/borrowed.rs:845-851. -/
def get (r : Row) (i : Nat) : Res Bell := getIdx r.bells i

/-- `Row::swap` — src/row/borrowed.rs:245-247 (`slice::swap`). -/
def swap (r : Row) (a b : Nat) : Res Row := do
  let x ← getIdx r.bells a
  let y ← getIdx r.bells b
  return ⟨(r.bells.set a y).set b x⟩

/-- The loop of `Row::parity` — src/row/borrowed.rs:146-158. -/
def parityLoop (r : Row) (numSwaps first : Nat) : Run (Row × Nat) := do
  let st ← (r.stage : Res Stage)
  if first < st.numBells then
    let cur ← r.get first
    if cur = Bell.fromIndex first then
      parityLoop r numSwaps (first + 1)
    else
      let r' ← r.swap first cur.index
      parityLoop r' (numSwaps + 1) first
  else
    return (r, numSwaps)
partial_fixpoint

/-- `Row::parity` — src/row/borrowed.rs:144-160; also returns the row it leaves in `self`. -/
def parity (r : Row) : Run (Row × Parity) := do
  let (r', numSwaps) ← parityLoop r 0 0
  return (r', Parity.fromNumber numSwaps)

/-- `Row::is_rounds` — src/row/borrowed.rs:175-177. -/
def isRounds (r : Row) : Bool := r.bells.zipIdx.all (fun p => p.1.index == p.2)

/-- `Row::is_backrounds` — src/row/borrowed.rs:192-197. -/
def isBackrounds (r : Row) : Bool := r.bells.reverse.zipIdx.all (fun p => p.1.index == p.2)

/-- `Row::effective_stage` — src/row/borrowed.rs:217-228: the loop runs over `(i, b)` backwards. -/
def effectiveStage (r : Row) : Res Stage :=
  match r.bells.zipIdx.reverse.find? (fun p => p.1.index != p.2) with
  | some p => Stage.new (p.2 + 1)
  | none => .ok Stage.one

/-- `Row::fixed_bells` — src/row/borrowed.rs:538-544. -/
def fixedBells (r : Row) : List Bell :=
  (r.bells.zipIdx.filter (fun p => p.2 == p.1.index)).map Prod.fst

/-! ## Permutation arithmetic -/

/-- The map `|b| self.bell_slice[b.index()]` over the bells of `rhs`. -/
def mulBells (self : List Bell) (rhs : List Bell) : Res (List Bell) :=
  rhs.mapM (fun b => getIdx self b.index)

/-- `Row::mul_unchecked` — src/row/borrowed.rs:312-317. -/
def mulUnchecked (self rhs : Row) : Res Row := do
  let bs ← mulBells self.bells rhs.bells
  return ⟨bs⟩

/-- `Row::mul_result` — src/row/borrowed.rs:275-280. -/
def mulResult (self rhs : Row) : Res (Except IncompatibleStages Row) := do
  let s1 ← self.stage
  let s2 ← rhs.stage
  match IncompatibleStages.testErr s1 s2 with
  | .error e => return .error e
  | .ok () =>
    let r ← self.mulUnchecked rhs
    return .ok r

/-- `impl Mul for &Row` and the three other `Mul` impls — src/row/borrowed.rs:903-1024. -/
def mul (self rhs : Row) : Res Row := do
  let r ← self.mulResult rhs
  unwrapResult r

/-- `Row::mul_into_unchecked` — src/row/borrowed.rs:335-340; returns the new value of `out`. -/
def mulIntoUnchecked (self rhs : Row) (_out : Row) : Res Row := do
  let bs ← mulBells self.bells rhs.bells
  return ⟨[] ++ bs⟩

/-- `Row::mul_into` — src/row/borrowed.rs:321-327; returns the new value of `out`. -/
def mulInto (self rhs out : Row) : Res (Except IncompatibleStages Row) := do
  let s1 ← self.stage
  let s2 ← rhs.stage
  match IncompatibleStages.testErr s1 s2 with
  | .error e => return .error e
  | .ok () =>
    let r ← self.mulIntoUnchecked rhs out
    return .ok r

/-- `Row::mul_into_row_unchecked` — src/row/borrowed.rs:360-367: overwrites the bells of `out` one
by one; `zip_eq` panics if the lengths differ. Returns the new value of `out`. -/
def mulIntoRowUnchecked (self : Row) : (rhs out : List Bell) → Res (List Bell)
  | [], [] => .ok []
  | b :: rhs, _ :: out => do
    let x ← getIdx self.bells b.index
    let rest ← mulIntoRowUnchecked self rhs out
    return x :: rest
  | [], _ :: _ => .error .zipEq
  | _ :: _, [] => .error .zipEq

/-- `Row::mul_into_row` — src/row/borrowed.rs:345-352. -/
def mulIntoRow (self rhs out : Row) : Res (Except MulIntoError Row) := do
  let s1 ← self.stage
  let s2 ← rhs.stage
  match IncompatibleStages.testErr s1 s2 with
  | .error e => return .error (.rhsStage e)
  | .ok () =>
    let s3 ← out.stage
    match IncompatibleStages.testErr s1 s3 with
    | .error e => return .error (.intoStage e)
    | .ok () =>
      let bs ← mulIntoRowUnchecked self rhs.bells out.bells
      return .ok ⟨bs⟩

/-- The inversion loop `out[b.index()] = Bell::from_index(i)` starting at place `i`
— src/row/borrowed.rs:389-391, 425-429, 471-473. -/
def invLoop : (bells : List Bell) → (i : Nat) → (out : List Bell) → Res (List Bell)
  | [], _, out => .ok out
  | b :: bs, i, out => do
    let out' ← setIdx out b.index (Bell.fromIndex i)
    invLoop bs (i + 1) out'

/-- `Row::inv` — src/row/borrowed.rs:387-395 (also `impl Not`, 853-901). -/
def inv (r : Row) : Res Row := do
  let s ← r.stage
  let bs ← invLoop r.bells 0 (List.replicate s.numBells Bell.treble)
  return ⟨bs⟩

/-- `Row::inv_into` — src/row/borrowed.rs:422-431. -/
def invInto (self out : Row) : Res (Except IncompatibleStages Row) := do
  let s1 ← self.stage
  let s2 ← out.stage
  match IncompatibleStages.testErr s1 s2 with
  | .error e => return .error e
  | .ok () =>
    let bs ← invLoop self.bells 0 out.bells
    return .ok ⟨bs⟩

/-- `Row::inv_into_buf` — src/row/borrowed.rs:455-474. -/
def invIntoBuf (self out : Row) : Res Row := do
  let so ← out.stage
  let ss ← self.stage
  let buf :=
    if so.numBells < ss.numBells then
      out.bells ++ List.replicate (self.bells.length - out.bells.length) Bell.treble
    else if ss.numBells < so.numBells then
      out.bells.take self.bells.length
    else
      out.bells
  let sb ← (Row.mk buf).stage
  assertThat (sb = ss)
  let bs ← invLoop self.bells 0 buf
  return ⟨bs⟩

/-- `Row::solve_ax_equals_b` — src/row/borrowed.rs:499-501. -/
def solveAxEqualsB (a b : Row) : Res (Except IncompatibleStages Row) := do
  let ai ← a.inv
  ai.mulResult b

/-- `Row::solve_xa_equals_b` — src/row/borrowed.rs:506-508 (also the deprecated
`tranposition_to`, 516-518). -/
def solveXaEqualsB (a b : Row) : Res (Except IncompatibleStages Row) := do
  let ai ← a.inv
  b.mulResult ai

end Row

/-! ## `src/row/accumulator.rs` -/

/-- `struct RowAccumulator` — src/row/accumulator.rs:7-11. -/
structure RowAccumulator where
  total : Row
  tempRow : Row
deriving DecidableEq, Repr

namespace RowAccumulator

/-- `RowAccumulator::new` — src/row/accumulator.rs:22-27. -/
def new (total : Row) : Res RowAccumulator := do
  let s ← total.stage
  return { total := total, tempRow := Row.rounds s }

/-- `RowAccumulator::rounds` — src/row/accumulator.rs:16-18. -/
def rounds (stage : Stage) : Res RowAccumulator := new (Row.rounds stage)

/-- `RowAccumulator::accumulate` — src/row/accumulator.rs:31-35 (`mem::swap` of the two rows). The
first component is the new state, the second the Rust `Result`. -/
def accumulate (a : RowAccumulator) (row : Row) :
    Res (RowAccumulator × Except IncompatibleStages Unit) := do
  match ← a.total.mulInto row a.tempRow with
  | .error e => return (a, .error e)
  | .ok temp => return ({ total := temp, tempRow := a.total }, .ok ())

/-- `RowAccumulator::pre_accumulate` — src/row/accumulator.rs:39-43. -/
def preAccumulate (a : RowAccumulator) (row : Row) :
    Res (RowAccumulator × Except IncompatibleStages Unit) := do
  match ← row.mulInto a.total a.tempRow with
  | .error e => return (a, .error e)
  | .ok temp => return ({ total := temp, tempRow := a.total }, .ok ())

/-- `RowAccumulator::set` — src/row/accumulator.rs:47-49. -/
def set (a : RowAccumulator) (row : Row) : RowAccumulator :=
  { a with total := a.total.overwriteFrom row }

/-- `MulAssign for RowAccumulator` — src/row/accumulator.rs:64-76. -/
def mulAssign (a : RowAccumulator) (row : Row) : Res RowAccumulator := do
  let (a', r) ← a.accumulate row
  unwrapResult r
  return a'

end RowAccumulator

namespace Row

/-- The loop of `pow_u` — src/row/borrowed.rs:489-492. -/
def powLoop (r : Row) : Nat → RowAccumulator → Res RowAccumulator
  | 0, acc => .ok acc
  | n + 1, acc => do
    let (acc', res) ← acc.accumulate r
    unwrapResult res
    powLoop r n acc'

/-- `Row::pow_u` — src/row/borrowed.rs:486-494. -/
def powU (r : Row) (exponent : Nat) : Res Row := do
  let s ← r.stage
  let acc ← RowAccumulator.rounds s
  let acc' ← powLoop r exponent acc
  return acc'.total

/-- `Row::pow_i` — src/row/borrowed.rs:477-483. (`-exponent` overflows for `isize::MIN`; `Int` is
unbounded here.) -/
def powI (r : Row) (exponent : Int) : Res Row := do
  if exponent < 0 then
    let ri ← r.inv
    ri.powU (-exponent).toNat
  else
    r.powU exponent.toNat

/-! ## Sets of rows -/

/-- The loop of `Row::closure` — src/row/borrowed.rs:599-608. -/
def closureLoop (self : Row) (closure : List Row) : Run (List Row) := do
  let last ← (unwrap closure.getLast? : Res Row)
  if last.isRounds then
    return closure
  else
    let next ← (last.mulUnchecked self : Res Row)
    closureLoop self (closure ++ [next])
partial_fixpoint

/-- `Row::closure` — src/row/borrowed.rs:597-609. -/
def closure (r : Row) : Run (List Row) := closureLoop r [r]

/-- The loop of `Row::closure_from_rounds` — src/row/borrowed.rs:638-646. -/
def closureFromRoundsLoop (self : Row) (closure : List Row) : Run (List Row) := do
  let last ← (unwrap closure.getLast? : Res Row)
  let next ← (last.mulUnchecked self : Res Row)
  if next.isRounds then
    return closure
  else
    closureFromRoundsLoop self (closure ++ [next])
partial_fixpoint

/-- `Row::closure_from_rounds` — src/row/borrowed.rs:636-647. -/
def closureFromRounds (r : Row) : Run (List Row) := do
  let s ← (r.stage : Res Stage)
  closureFromRoundsLoop r [rounds s]

/-- The first-set loop of `multi_cartesian_product` — src/row/borrowed.rs:669-673. -/
def mcpFirst : (set : List Row) → (stage : Option Stage) → (out : List Row) →
    Res (Except IncompatibleStages (Option Stage × List Row))
  | [], stage, out => .ok (.ok (stage, out))
  | r :: rs, stage, out => do
    let s ← r.stage
    match IncompatibleStages.testErrOpt stage s with
    | .error e => return .error e
    | .ok stage' => mcpFirst rs stage' (out ++ [r])

/-- The inner loops over one later set — src/row/borrowed.rs:688-694. -/
def mcpSet (s : Stage) (from_ : List Row) : (set : List Row) → (dst : List Row) →
    Res (Except IncompatibleStages (List Row))
  | [], dst => .ok (.ok dst)
  | r2 :: rs, dst => do
    let s2 ← r2.stage
    match IncompatibleStages.testErr s s2 with
    | .error e => return .error e
    | .ok () =>
      let prods ← from_.mapM (fun r1 => r1.mulUnchecked r2)
      mcpSet s from_ rs (dst ++ prods)

/-- The loop over the later sets — src/row/borrowed.rs:677-697. -/
def mcpRest (stage : Option Stage) : (sets : List (List Row)) → (from_ : List Row) →
    Res (Except IncompatibleStages (List Row))
  | [], from_ => .ok (.ok from_)
  | set :: sets, from_ => do
    if from_.isEmpty then return .ok []
    else
      let s ← unwrap stage
      match ← mcpSet s from_ set [] with
      | .error e => return .error e
      | .ok dst => mcpRest stage sets dst

/-- `Row::multi_cartesian_product` — src/row/borrowed.rs:651-701. -/
def multiCartesianProduct (rowSets : List (List Row)) :
    Res (Except IncompatibleStages (List Row)) := do
  match rowSets with
  | [] => return .ok []
  | set :: sets =>
    match ← mcpFirst set none [] with
    | .error e => return .error e
    | .ok (stage, from_) => mcpRest stage sets from_

/-- The seeding loop of `least_group_containing` — src/row/borrowed.rs:720-725.  The `HashSet` is a
list without duplicates. -/
def lgcSeed : (rows : List Row) → (stage : Option Stage) → (set frontier : List Row) →
    Res (Except IncompatibleStages (List Row × List Row))
  | [], _, set, frontier => .ok (.ok (set, frontier))
  | r :: rs, stage, set, frontier => do
    let s ← r.stage
    match IncompatibleStages.testErrOpt stage s with
    | .error e => return .error e
    | .ok stage' =>
      if r ∈ set then lgcSeed rs stage' set frontier
      else lgcSeed rs stage' (set ++ [r]) (frontier ++ [r])

/-- The inner loop of `least_group_containing` — src/row/borrowed.rs:732-739. -/
def lgcExpand (r : Row) : (rows : List Row) → (set frontier : List Row) →
    Res (List Row × List Row)
  | [], set, frontier => .ok (set, frontier)
  | r2 :: rs, set, frontier => do
    let new ← r.mulUnchecked r2
    if new ∈ set then lgcExpand r rs set frontier
    else lgcExpand r rs (set ++ [new]) (frontier ++ [new])

/-- The `while let Some(r) = frontier.pop_front()` loop — src/row/borrowed.rs:731-740. -/
def lgcLoop (rows : List Row) (set frontier : List Row) : Run (List Row) := do
  match frontier with
  | [] => return set
  | r :: frontier' =>
    let p ← (lgcExpand r rows set frontier' : Res (List Row × List Row))
    lgcLoop rows p.1 p.2
partial_fixpoint

/-- `Row::least_group_containing` — src/row/borrowed.rs:706-742. -/
def leastGroupContaining (rows : List Row) : Run (Except IncompatibleStages (List Row)) := do
  let seed ← (lgcSeed rows none [] [] : Res _)
  match seed with
  | .error e => return .error e
  | .ok (set, frontier) =>
    let out ← lgcLoop rows set frontier
    return .ok out

/-- The stage check of `is_group` — src/row/borrowed.rs:761-768. -/
def isGroupStages : (rows : List Row) → (first : Option Stage) →
    Res (Except IncompatibleStages Unit)
  | [], _ => .ok (.ok ())
  | r :: rs, first => do
    let s ← r.stage
    match first with
    | some fs =>
      match IncompatibleStages.testErr fs s with
      | .error e => return .error e
      | .ok () => isGroupStages rs first
    | none => isGroupStages rs (some s)

/-- The loop over `a` — src/row/borrowed.rs:780-788; also returns the reused buffer. -/
def isGroupInner (rowSet : List Row) (bInv : Row) : (as : List Row) → (buf : Row) →
    Res (Bool × Row)
  | [], buf => .ok (true, buf)
  | a :: as, buf => do
    let buf' ← a.mulIntoUnchecked bInv buf
    if buf' ∈ rowSet then isGroupInner rowSet bInv as buf'
    else return (false, buf')

/-- The loop over `b` — src/row/borrowed.rs:778-789. -/
def isGroupOuter (rowSet : List Row) : (bs : List Row) → (bInv buf : Row) → Res Bool
  | [], _, _ => .ok true
  | b :: bs, bInv, buf => do
    let bInv' ← b.invIntoBuf bInv
    let (ok, buf') ← isGroupInner rowSet bInv' rowSet buf
    if ok then isGroupOuter rowSet bs bInv' buf'
    else return false

/-- `Row::is_group` — src/row/borrowed.rs:747-792.  The argument is the list of the distinct rows in
the (unspecified) iteration order of the `HashSet` built on line 754. -/
def isGroup (rowSet : List Row) : Res (Except IncompatibleStages Bool) := do
  if rowSet.isEmpty then return .ok false
  else
    match ← isGroupStages rowSet none with
    | .error e => return .error e
    | .ok () =>
      let b ← isGroupOuter rowSet rowSet (rounds Stage.one) (rounds Stage.one)
      return .ok b

/-- The loop of `fast_hash` — src/row/borrowed.rs:807-810. -/
def fastHashLoop (ar : Arith) (n : Nat) : (bells : List Bell) → (accum multiplier : Nat) → Res Nat
  | [], accum, _ => .ok accum
  | b :: bs, accum, multiplier => do
    let p ← ar.mul b.index multiplier
    let accum' ← ar.add accum p
    let multiplier' ← ar.mul multiplier n
    fastHashLoop ar n bs accum' multiplier'

/-- `Row::fast_hash` — src/row/borrowed.rs:804-812, parameterised by the machine arithmetic. -/
def fastHash (ar : Arith) (r : Row) : Res Nat := do
  if r.bells.isEmpty then return 0
  else
    let s ← r.stage
    fastHashLoop ar s.numBells r.bells 0 1

/-- `Display for Row` — src/row/borrowed.rs:1045-1052. -/
def display (r : Row) : List Char := r.bells.flatMap Bell.name

end Row

end Bellframe
