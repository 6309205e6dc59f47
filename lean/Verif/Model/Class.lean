import Verif.Model.Block
import Verif.Model.PlaceNot

/-! # Model of `src/method/class.rs` -/

namespace Bellframe

/-- `enum HuntBellClass` — src/method/class.rs:128-136. -/
inductive HuntBellClass where
  | plain
  | trebleDodging
  | treblePlace
  | alliance
  | hybrid
deriving DecidableEq, Repr

/-- The derived order of `HuntBellClass`: the order of the declaration. -/
def HuntBellClass.rank : HuntBellClass → Nat
  | .plain => 0
  | .trebleDodging => 1
  | .treblePlace => 2
  | .alliance => 3
  | .hybrid => 4

/-- `enum Class` — src/method/class.rs:139-168. -/
inductive MethodClass where
  | principle
  | place
  | bob
  | trebleBob
  | delight
  | surprise
  | treblePlace
  | alliance
  | hybrid
deriving DecidableEq, Repr

namespace MethodClass

/-- `Class::is_plain` — src/method/class.rs:173-175. -/
def isPlain : MethodClass → Bool
  | .place | .bob => true
  | _ => false

/-- `Class::is_treble_dodging` — src/method/class.rs:180-182. -/
def isTrebleDodging : MethodClass → Bool
  | .trebleBob | .delight | .surprise => true
  | _ => false

/-- `Class::is_symmetric_hunter` — src/method/class.rs:187-191. -/
def isSymmetricHunter (c : MethodClass) : Bool :=
  c.isPlain || c.isTrebleDodging ||
    (match c with
      | .treblePlace | .alliance => true
      | _ => false)

/-- `Class::hunt_bell_class` — src/method/class.rs:194-204. -/
def huntBellClass : MethodClass → Option HuntBellClass
  | .bob | .place => some .plain
  | .trebleBob | .delight | .surprise => some .trebleDodging
  | .treblePlace => some .treblePlace
  | .alliance => some .alliance
  | .hybrid => some .hybrid
  | .principle => none

/-- `Class::name_in_title` — src/method/class.rs:208-223. -/
def nameInTitle : MethodClass → Option String
  | .principle => none
  | .place => some "Place"
  | .bob => some "Bob"
  | .trebleBob => some "Treble Bob"
  | .delight => some "Delight"
  | .surprise => some "Surprise"
  | .treblePlace => some "Treble Place"
  | .alliance => some "Alliance"
  | .hybrid => none

/-- `Class::name` and `Display` — src/method/class.rs:227-250. -/
def name : MethodClass → String
  | .principle => "Principle"
  | .place => "Place"
  | .bob => "Bob"
  | .trebleBob => "Treble Bob"
  | .delight => "Delight"
  | .surprise => "Surprise"
  | .treblePlace => "Treble Place"
  | .alliance => "Alliance"
  | .hybrid => "Hybrid"

end MethodClass

/-- `struct FullClass` — src/method/class.rs:17-22. -/
structure FullClass where
  isJump : Bool
  isLittle : Bool
  isDifferential : Bool
  cls : MethodClass
deriving DecidableEq, Repr

namespace FullClass

/-- The state of `fmt_name`: the text written so far by it and `is_first_segment`. -/
structure Writer where
  text : String
  isFirst : Bool

/-- The macro `add_space!` followed by `write!(f, s)` — src/method/class.rs:76-83. -/
def Writer.segment (w : Writer) (s : String) : Writer :=
  ⟨(if w.isFirst then w.text else w.text ++ " ") ++ s, false⟩

/-- `FullClass::fmt_name` — src/method/class.rs:65-116: the text written (writing to a `String` does
not fail). -/
def fmtName (c : FullClass) (isForTitle : Bool) : String :=
  let w : Writer := ⟨"", true⟩
  let w := if c.isJump then w.segment "Jump" else w
  let w := if c.isDifferential then w.segment "Differential" else w
  let w :=
    if isForTitle then
      match c.cls.nameInTitle with
      | some name =>
        let w := if c.isLittle then w.segment "Little" else w
        w.segment name
      | none => w
    else
      let w := if c.isLittle then w.segment "Little" else w
      w.segment c.cls.name
  w.text

/-- `impl Display for FullClass` — src/method/class.rs:119-123. -/
def display (c : FullClass) : String := c.fmtName false

end FullClass

/-- `struct Cycle` — src/method/class.rs:499-502. -/
structure Cycle where
  placeBells : List Bell
  fullPath : List Nat
deriving DecidableEq, Repr

namespace Cycle

variable {A : Type}

/-- The inner `loop` of `cycles_from_lead` — src/method/class.rs:521-534. -/
def followLoop (lead : AnnotBlock A) (start : Bell) (placeBell : Bell) (left : List Bool)
    (bells : List Bell) (path : List Nat) : Run (List Bool × Cycle) := do
  let left' ← (setIdx left placeBell.index false : Res (List Bool))
  let found ← (lead.pathOf placeBell : Res (Option (List Nat × Nat)))
  let p ← (unwrap found : Res (List Nat × Nat))
  if Bell.fromIndex p.2 = start then
    return (left', ⟨bells ++ [placeBell], path ++ p.1⟩)
  else
    followLoop lead start (Bell.fromIndex p.2) left' (bells ++ [placeBell]) (path ++ p.1)
partial_fixpoint

/-- The `while let` loop of `cycles_from_lead` — src/method/class.rs:514-539. -/
def cyclesLoop (lead : AnnotBlock A) (left : List Bool) (cycles : List Cycle) :
    Run (List Cycle) := do
  match left.findIdx? (fun v => v) with
  | none => return cycles
  | some i =>
    let r ← followLoop lead (Bell.fromIndex i) (Bell.fromIndex i) left [] []
    cyclesLoop lead r.1 (cycles ++ [r.2])
partial_fixpoint

/-- `Cycle::cycles_from_lead` — src/method/class.rs:506-542. -/
def cyclesFromLead (lead : AnnotBlock A) : Run (List Cycle) := do
  let first ← (unwrap lead.firstAnnotRow : Res (Row × A))
  (assertThat first.1.isRounds : Res Unit)
  cyclesLoop lead (List.replicate lead.stage.numBells true) []

/-- `Cycle::is_hunt` — src/method/class.rs:544-546. -/
def isHunt (c : Cycle) : Bool := c.placeBells.length == 1

/-- `Cycle::as_hunt_bell` — src/method/class.rs:549-554. -/
def asHuntBell (c : Cycle) : Option Bell :=
  match c.placeBells with
  | [b] => some b
  | _ => none

/-- `Cycle::num_leads` — src/method/class.rs:556-558. -/
def numLeads (c : Cycle) : Nat := c.placeBells.length

/-- `Cycle::partition_cycles` — src/method/class.rs:561-574: (hunt, working). -/
def partitionCycles (cycles : List Cycle) : List Cycle × List Cycle :=
  (cycles.filter isHunt, cycles.filter (fun c => !c.isHunt))

end Cycle

namespace Classify

variable {A : Type}

/-- `itertools::tuple_windows` for pairs. -/
def windows {α : Type} (l : List α) : List (α × α) := l.zip l.tail

/-- `itertools::circular_tuple_windows` for pairs: as many as there are elements. -/
def circularPairs {α : Type} (l : List α) : List (α × α) := l.zip (l.rotate 1)

/-- `itertools::circular_tuple_windows` for triples. -/
def circularTriples {α : Type} (l : List α) : List (α × α × α) :=
  l.zip ((l.rotate 1).zip (l.rotate 2))

/-- `is_palindromic` — src/method/class.rs:481-495; the first `path.len()` items of
`path.iter().rev().cycle().skip(i)` are the reversed path rotated by `i`. -/
def isPalindromic (path : List Nat) : Bool :=
  (List.range path.length).any fun i =>
    ((path.reverse.rotate i).zip path).all fun p => p.1 == p.2

/-- The counting loop of `classify_hunt_cycle` — src/method/class.rs:349-351. -/
def countPlaces : (path : List Nat) → (counts : List Nat) → Res (List Nat)
  | [], counts => .ok counts
  | p :: path, counts => do
    let c ← getIdx counts p
    let counts' ← setIdx counts p (c + 1)
    countPlaces path counts'

/-- `classify_hunt_cycle` — src/method/class.rs:345-416. -/
def classifyHuntCycle (cycle : Cycle) (stage : Stage) : Res (Bool × HuntBellClass) := do
  let counts ← countPlaces cycle.fullPath (List.replicate stage.numBells 0)
  let isLittle := counts.contains 0
  let isStationary := (counts.filter (fun v => decide (v > 0))).length == 1
  let visitedTwice := counts.all fun v => v == 0 || v == 2
  if isStationary then return (isLittle, .treblePlace)
  else if visitedTwice then return (isLittle, .plain)
  else
    let palindromic := isPalindromic cycle.fullPath
    let numPlacesMade := ((circularPairs cycle.fullPath).filter (fun p => p.1 == p.2)).length
    let equallyCovered := (windows (counts.filter (fun v => v != 0))).all fun p => p.1 == p.2
    let cls : HuntBellClass :=
      match palindromic, equallyCovered, compare numPlacesMade 2 with
      | true, true, .gt => .treblePlace
      | true, true, .eq => .trebleDodging
      | true, true, .lt => .hybrid
      | true, false, _ => .alliance
      | false, _, _ => .hybrid
    return (isLittle, cls)

/-- The indices found for one cycle in `sub_classify_treble_dodging` — src/method/class.rs:423-432.
(`a - min_place` cannot underflow.) -/
def crossIndices (cycle : Cycle) : Res (List Nat) := do
  let minPlace ← unwrap cycle.fullPath.min?
  return ((circularPairs cycle.fullPath).zipIdx.filter (fun p =>
    (p.1.1 - minPlace) / 2 != (p.1.2 - minPlace) / 2)).map (·.2)

/-- The loop over the cross sections — src/method/class.rs:438-447: the two flags.  The indices come
from a `HashSet` in the code; their order and repetitions make no difference to the flags. -/
def crossLoop (lead : AnnotBlock A) : (idxs : List Nat) → (allInternal allNone : Bool) →
    Res (Bool × Bool)
  | [], a, b => .ok (a, b)
  | i :: idxs, a, b => do
    let r1 ← unwrap (lead.getRow i)
    let r2 ← unwrap (lead.getRow (i + 1))
    let found ← PlaceNot.pnBetween r1 r2
    let pn ← unwrap found
    if pn.hasInternalPlaces then crossLoop lead idxs a false
    else crossLoop lead idxs false b

/-- `sub_classify_treble_dodging` — src/method/class.rs:419-456. -/
def subClassifyTrebleDodging (lead : AnnotBlock A) (huntCycles : List Cycle) : Res MethodClass := do
  let idxs ← huntCycles.mapM crossIndices
  let flags ← crossLoop lead idxs.flatten true true
  return match flags with
    | (false, true) => .trebleBob
    | (false, false) => .delight
    | (true, false) => .surprise
    | (true, true) => .trebleBob

/-- `sub_classify_plain` — src/method/class.rs:459-474. -/
def subClassifyPlain (cycles : List Cycle) : MethodClass :=
  if cycles.any (fun cycle => (circularTriples cycle.fullPath).any fun t =>
    t.1 == t.2.2 && (t.2.1 + 1 == t.1 || t.2.1 == t.1 + 1)) then .bob else .place

/-- The loop over `hunt_cycles[1..]` — src/method/class.rs:284-305. -/
def bestLoop (stage : Stage) : (cycles : List Cycle) → (bestLittle : Bool) →
    (bestClass : HuntBellClass) → (best : List Cycle) → Res (Bool × HuntBellClass × List Cycle)
  | [], little, cls, best => .ok (little, cls, best)
  | c :: cs, little, cls, best => do
    let (isLittle, k) ← classifyHuntCycle c stage
    match compare k.rank cls.rank with
    | .lt => bestLoop stage cs isLittle k [c]
    | .eq => bestLoop stage cs (little && isLittle) cls (best ++ [c])
    | .gt => bestLoop stage cs little cls best

/-- The `filter` of src/method/class.rs:320-322. -/
def otherHunts (bestBells : List Bell) : (hunts : List Cycle) → Res (List Cycle)
  | [] => .ok []
  | c :: cs => do
    let b ← unwrap c.asHuntBell
    let rest ← otherHunts bestBells cs
    return if bestBells.contains b then rest else c :: rest

/-- The rest of `classify`, after finding the cycles — src/method/class.rs:262-342. -/
def classifyCycles (lead : AnnotBlock A) (cycles : List Cycle) : Res FullClass := do
  let stage := lead.stage
  let (hunts, workings) := Cycle.partitionCycles cycles
  let isDifferential := !((windows workings).all fun p => p.1.numLeads == p.2.numLeads)
  match hunts with
  | [] => return ⟨false, false, isDifferential, .principle⟩
  | first :: rest =>
    let (little, cls) ← classifyHuntCycle first stage
    let (bestLittle, bestClass, best) ← bestLoop stage rest little cls [first]
    let bestBells ← best.mapM (fun c => unwrap c.asHuntBell)
    match bestClass with
    | .plain =>
      let others ← otherHunts bestBells hunts
      return ⟨false, bestLittle, isDifferential, subClassifyPlain (workings ++ others)⟩
    | .trebleDodging =>
      let c ← subClassifyTrebleDodging lead best
      return ⟨false, bestLittle, isDifferential, c⟩
    | .treblePlace => return ⟨false, bestLittle, isDifferential, .treblePlace⟩
    | .alliance => return ⟨false, bestLittle, isDifferential, .alliance⟩
    | .hybrid => return ⟨false, bestLittle, isDifferential, .hybrid⟩

end Classify

/-- `FullClass::classify` and `classify` — src/method/class.rs:35-37, 257-342. -/
def FullClass.classify {A : Type} (lead : AnnotBlock A) : Run FullClass := do
  let cycles ← Cycle.cyclesFromLead lead
  (Classify.classifyCycles lead cycles : Res FullClass)

end Bellframe
