import Verif.Model.Call
import Verif.Model.Errors
import Verif.Model.Text
import Verif.Model.Iterators
import Verif.Model.MethodLib
import Verif.Spec.Vec
import Verif.Spec.Block
import Verif.Spec.PnBlock
import Verif.Spec.Mask
import Verif.Spec.Music
import Verif.Spec.Class
import Verif.Spec.MethodLib

/-!
# Calls of the library, and when they panic

Every type below lists calls of safe public functions with their arguments.  For each type,
* `outcome` says how the model of the call ends,
* `ArgsOk` says that the arguments are values that safe code can hold (rows are permutations, stages are
  not zero, blocks have one annotation for each of their rows, ...),
* `PanicsWhen` says, in terms of the arguments only, when the call should panic.  Calls that are not
  mentioned there should never panic.

Only functions that could panic or loop are listed: those that the model has as plain functions have
neither indexing, unwrapping, assertions nor unbounded loops.
-/

namespace Bellframe

open Equiv

/-- How a call ends. -/
inductive Outcome where
  | returns
  | panics
  | runsForever
deriving DecidableEq, Repr

/-- How a call ends that surely ends. -/
def Res.outcome {α : Type} : Res α → Outcome
  | .ok _ => .returns
  | .error _ => .panics

/-- How a call with an unbounded loop ends. -/
def Run.outcome {α : Type} (x : Run α) : Outcome :=
  match x.run with
  | none => .runsForever
  | some r => Res.outcome r

/-- The first index of a range of indices. -/
def Utils.Bound.first : Utils.Bound → Nat
  | .included v => v
  | .excluded v => v + 1
  | .unbounded => 0

/-- The end of a range of indices of something of the given length: the index after the last. -/
def Utils.Bound.stop (length : Nat) : Utils.Bound → Nat
  | .included v => v + 1
  | .excluded v => v
  | .unbounded => length

/-! ## Bells, stages and rows -/

/-- Calls about bells, stages and rows. -/
inductive RowCall where
  | bellSub (b : Bell) (n : Nat)
  | bellDeserialize (v : Bell.SerdeValue)
  | stageNew (n : Nat)
  | stageTenor (s : Stage)
  | stageDeserialize (toLower : String → String) (v : Bell.SerdeValue)
  | stageDebug (s : Stage)
  | fromVecWithStage (bells : List Bell) (s : Stage)
  | parseWithStage (text : List Char) (s : Stage)
  | stage (r : Row)
  | extendToStage (r : Row) (s : Stage)
  | index (r : Row) (i : Nat)
  | swap (r : Row) (i j : Nat)
  | parity (r : Row)
  | effectiveStage (r : Row)
  | mul (a b : Row)
  | mulResult (a b : Row)
  | mulInto (a b out : Row)
  | mulIntoRow (a b out : Row)
  | inv (r : Row)
  | invInto (r out : Row)
  | invIntoBuf (r out : Row)
  | solveAxEqualsB (a b : Row)
  | solveXaEqualsB (a b : Row)
  | powU (r : Row) (k : Nat)
  | powI (r : Row) (k : Int)
  | closure (r : Row)
  | closureFromRounds (r : Row)
  | multiCartesianProduct (sets : List (List Row))
  | leastGroupContaining (rows : List Row)
  | isGroup (rows : List Row)
  /-- with overflow checks, on machine words of `w` bits -/
  | fastHash (w : Nat) (r : Row)
  | accNew (r : Row)
  | accRounds (s : Stage)
  | accAccumulate (a : RowAccumulator) (r : Row)
  | accPreAccumulate (a : RowAccumulator) (r : Row)
  | accMulAssign (a : RowAccumulator) (r : Row)

namespace RowCall

def outcome : RowCall → Outcome
  | bellSub b n => (b.sub n).outcome
  | bellDeserialize v => (Bell.deserialize v).outcome
  | stageNew n => (Stage.new n).outcome
  | stageTenor s => s.tenor.outcome
  | stageDeserialize toLower v => (Stage.visit toLower v).outcome
  | stageDebug s => s.debug.outcome
  | fromVecWithStage bells s => (Row.fromVecWithStage bells s).outcome
  | parseWithStage text s => (Row.parseWithStage text s).outcome
  | stage r => r.stage.outcome
  | extendToStage r s => (r.extendToStage s).outcome
  | index r i => (r.get i).outcome
  | swap r i j => (r.swap i j).outcome
  | parity r => r.parity.outcome
  | effectiveStage r => r.effectiveStage.outcome
  | mul a b => (a.mul b).outcome
  | mulResult a b => (a.mulResult b).outcome
  | mulInto a b out => (a.mulInto b out).outcome
  | mulIntoRow a b out => (a.mulIntoRow b out).outcome
  | inv r => r.inv.outcome
  | invInto r out => (r.invInto out).outcome
  | invIntoBuf r out => (r.invIntoBuf out).outcome
  | solveAxEqualsB a b => (a.solveAxEqualsB b).outcome
  | solveXaEqualsB a b => (a.solveXaEqualsB b).outcome
  | powU r k => (r.powU k).outcome
  | powI r k => (r.powI k).outcome
  | closure r => r.closure.outcome
  | closureFromRounds r => r.closureFromRounds.outcome
  | multiCartesianProduct sets => (Row.multiCartesianProduct sets).outcome
  | leastGroupContaining rows => (Row.leastGroupContaining rows).outcome
  | isGroup rows => (Row.isGroup rows).outcome
  | fastHash w r => (Row.fastHash (.checked w) r).outcome
  | accNew r => (RowAccumulator.new r).outcome
  | accRounds s => (RowAccumulator.rounds s).outcome
  | accAccumulate a r => (a.accumulate r).outcome
  | accPreAccumulate a r => (a.preAccumulate r).outcome
  | accMulAssign a r => (a.mulAssign r).outcome

def ArgsOk : RowCall → Prop
  | bellSub _ _ | bellDeserialize _ | stageNew _ | stageDeserialize _ _ => True
  | stageTenor s | stageDebug s | fromVecWithStage _ s | parseWithStage _ s | accRounds s => s.Valid
  | stage r | index r _ | swap r _ _ | parity r | effectiveStage r | inv r | powU r _ | powI r _
  | closure r | closureFromRounds r | fastHash _ r | accNew r => r.Valid
  | extendToStage r s => r.Valid ∧ s.Valid
  | mul a b | mulResult a b | solveAxEqualsB a b | solveXaEqualsB a b | invInto a b
  | invIntoBuf a b => a.Valid ∧ b.Valid
  | mulInto a b out | mulIntoRow a b out => a.Valid ∧ b.Valid ∧ out.Valid
  | multiCartesianProduct sets => ∀ set ∈ sets, ∀ r ∈ set, r.Valid
  | leastGroupContaining rows | isGroup rows => ∀ r ∈ rows, r.Valid
  | accAccumulate a r | accPreAccumulate a r | accMulAssign a r => a.total.Valid ∧ r.Valid

def PanicsWhen : RowCall → Prop
  -- `Bell - n` below the treble
  | bellSub b n => b.index < n
  -- `Stage::new(0)`, and reading a stage from the number zero
  | stageNew n => n = 0
  | stageDeserialize _ v => v = .u64 0 ∨ v = .uSmall 0 ∨ v = .int 0
  -- extending a row to fewer bells
  | extendToStage r s => s.numBells < r.bells.length
  -- places outside the row
  | index r i => r.bells.length ≤ i
  | swap r i j => r.bells.length ≤ i ∨ r.bells.length ≤ j
  -- the operators `*` and `*=` on different stages
  | mul a b => a.bells.length ≠ b.bells.length
  | accMulAssign a r => a.total.bells.length ≠ r.bells.length
  -- hashes that do not fit the machine word
  | fastHash w r => 2 ^ w ≤ r.bells.length ^ r.bells.length
  | _ => False

end RowCall

/-! ## Vectors of rows -/

/-- Calls about the vector of the given rows of the stage `s`. -/
inductive VecCall where
  | fromRowBuf (r : Row)
  | parse (text : List Char)
  | len (s : Stage) (rows : List Row)
  | last (s : Stage) (rows : List Row)
  | collect (s : Stage) (rows : List Row)
  | debug (s : Stage) (rows : List Row)
  | index (s : Stage) (rows : List Row) (i : Nat)
  /-- `get_mut(i)`, and if there is such a row, swapping two of its places -/
  | swapInRow (s : Stage) (rows : List Row) (i j k : Nat)
  | push (s : Stage) (rows : List Row) (r : Row)
  | pop (s : Stage) (rows : List Row)
  | extend (s : Stage) (rows more : List Row)
  | pathOf (s : Stage) (rows : List Row) (b : Bell)
  | preMultiply (s : Stage) (rows : List Row) (r : Row)
  | preMultiplied (s : Stage) (rows : List Row) (r : Row)
  /-- the other vector has its own stage -/
  | extendRangeTransposed (s : Stage) (rows : List Row) (t : Row) (s2 : Stage) (other : List Row)
      (start stop : Utils.Bound)
  | extendTransposedFromWithin (s : Stage) (rows : List Row) (start stop : Utils.Bound) (t : Row)

namespace VecCall

open SameStageVec (ofRows)

def outcome : VecCall → Outcome
  | fromRowBuf r => (SameStageVec.fromRowBuf r).outcome
  | parse text => (SameStageVec.parse text).outcome
  | len s rows => (ofRows s rows).len.outcome
  | last s rows => (ofRows s rows).last.outcome
  | collect s rows => (ofRows s rows).iter.collect.outcome
  | debug s rows => (ofRows s rows).debug.outcome
  | index s rows i => ((ofRows s rows).index i).outcome
  | swapInRow s rows i j k => ((ofRows s rows).setRow i (fun r => r.swap j k)).outcome
  | push s rows r => ((ofRows s rows).push r).outcome
  | pop s rows => (ofRows s rows).pop.outcome
  | extend s rows more => ((ofRows s rows).extend more).outcome
  | pathOf s rows b => ((ofRows s rows).pathOf b).outcome
  | preMultiply s rows r => ((ofRows s rows).preMultiply r).outcome
  | preMultiplied s rows r => ((ofRows s rows).preMultiplied r).outcome
  | extendRangeTransposed s rows t s2 other a b =>
    ((ofRows s rows).extendRangeTransposed t (ofRows s2 other) a b).outcome
  | extendTransposedFromWithin s rows a b t =>
    ((ofRows s rows).extendTransposedFromWithin a b t).outcome

def ArgsOk : VecCall → Prop
  | fromRowBuf r => r.Valid
  | parse _ => True
  | len s rows | last s rows | collect s rows | debug s rows | index s rows _ | swapInRow s rows _ _ _
  | pop s rows | pathOf s rows _ => RowsOf s rows
  | push s rows r | preMultiply s rows r | preMultiplied s rows r
  | extendTransposedFromWithin s rows _ _ r => RowsOf s rows ∧ r.Valid
  | extend s rows more => RowsOf s rows ∧ ∀ r ∈ more, r.Valid
  | extendRangeTransposed s rows t s2 other _ _ => RowsOf s rows ∧ t.Valid ∧ RowsOf s2 other

def PanicsWhen : VecCall → Prop
  -- the empty text
  | parse text => text = []
  -- rows and places that do not exist
  | index _ rows i => rows.length ≤ i
  | swapInRow s rows i j k => i < rows.length ∧ (s.numBells ≤ j ∨ s.numBells ≤ k)
  -- ranges outside the other vector, or rows there of too large a stage
  | extendRangeTransposed s _ t s2 other a b => t.bells.length = s.numBells ∧
    (b.stop other.length < a.first ∨ other.length < b.stop other.length ∨
      (a.first < b.stop other.length ∧ s.numBells < s2.numBells))
  -- ranges that start outside the vector
  | extendTransposedFromWithin s rows a b t => t.bells.length = s.numBells ∧
    a.first < b.stop rows.length ∧ rows.length ≤ a.first
  | _ => False

end VecCall

/-! ## Blocks -/

/-- Calls about blocks. -/
inductive BlockCall (A : Type) where
  | empty (s : Stage)
  | withDefaultAnnots (dflt : A) (s : Stage) (rows : List Row)
  | withAnnotsFromIndices (s : Stage) (rows : List Row) (f : Nat → A)
  | parse (dflt : A) (text : List Char)
  | rowsIter (b : AnnotBlock A)
  | effectiveStage (b : AnnotBlock A)
  | firstRow (b : AnnotBlock A)
  | leftoverRow (b : AnnotBlock A)
  | annotRows (b : AnnotBlock A)
  | fullPathOf (b : AnnotBlock A) (bell : Bell)
  | pathOf (b : AnnotBlock A) (bell : Bell)
  | preMultiply (b : AnnotBlock A) (r : Row)
  | extend (b other : AnnotBlock A)
  | extendRange (b other : AnnotBlock A) (start stop : Utils.Bound)
  | extendFromWithin (b : AnnotBlock A) (start stop : Utils.Bound)
  | split (b : AnnotBlock A) (i : Nat)
  /-- `repeat_iter(r)`, and if the stages agree the item `k` of the iterator -/
  | repeatIter (b : AnnotBlock A) (r : Row) (k : Nat)

namespace BlockCall

variable {A : Type}

def outcome : BlockCall A → Outcome
  | empty s => (AnnotBlock.empty s : Res (AnnotBlock A)).outcome
  | withDefaultAnnots dflt s rows => (AnnotBlock.withDefaultAnnots dflt (.ofRows s rows)).outcome
  | withAnnotsFromIndices s rows f => (AnnotBlock.withAnnotsFromIndices (.ofRows s rows) f).outcome
  | parse dflt text => (AnnotBlock.parse dflt text).outcome
  | rowsIter b => b.rowsIter.outcome
  | effectiveStage b => b.effectiveStage.outcome
  | firstRow b => b.firstRow.outcome
  | leftoverRow b => b.leftoverRow.outcome
  | annotRows b => b.annotRows.outcome
  | fullPathOf b bell => (b.fullPathOf bell).outcome
  | pathOf b bell => (b.pathOf bell).outcome
  | preMultiply b r => (b.preMultiply r).outcome
  | extend b other => (b.extend other).outcome
  | extendRange b other x y => (b.extendRange other x y).outcome
  | extendFromWithin b x y => (b.extendFromWithin x y).outcome
  | split b i => (b.split i).outcome
  | repeatIter b r k => Res.outcome (α := Option (Row × Nat × A)) <| do
    match ← RepeatIter.new r b with
    | .error _ => return none
    | .ok it =>
      let (item, _) ← ExactIter.nth RepeatIter.next k it
      return item

def ArgsOk : BlockCall A → Prop
  | empty s => s.Valid
  | withDefaultAnnots _ s rows | withAnnotsFromIndices s rows _ => RowsOf s rows
  | parse _ _ => True
  | rowsIter b | effectiveStage b | firstRow b | leftoverRow b | annotRows b | fullPathOf b _
  | pathOf b _ | extendFromWithin b _ _ | split b _ => b.WellFormed
  | preMultiply b r | repeatIter b r _ => b.WellFormed ∧ r.Valid
  | extend b other | extendRange b other _ _ => b.WellFormed ∧ other.WellFormed

def PanicsWhen : BlockCall A → Prop
  -- no rows at all
  | withDefaultAnnots _ _ rows => rows = []
  | parse _ text => text = []
  -- ranges outside the block copied from
  | extendRange b other x y => other.annots.length < x.first ∨
    (b.rows.stage = other.rows.stage ∧ (y.stop other.annots.length + 1 < x.first ∨
      other.annots.length < y.stop other.annots.length))
  | extendFromWithin b x y =>
    y.stop b.annots.length < x.first ∨ b.annots.length < y.stop b.annots.length
  | _ => False

end BlockCall

/-! ## Place notation and calls -/

/-- Calls about place notation, and about calls (bobs and singles). -/
inductive PnCall where
  | parse (text : List Char) (s : Stage)
  | pnBetween (a b : Row)
  | transposition (pn : PlaceNot)
  | permute (pn : PlaceNot) (r : Row)
  | permuteNew (pn : PlaceNot) (r : Row)
  | parseBlock (text : List Char) (s : Stage)
  | blockStage (b : PnBlock)
  | toRows (b : PnBlock) (r : Row)
  | toBlock (b : PnBlock) (r : Row)
  | toBlockFromRounds (b : PnBlock)
  | errorMessage (e : PnParseError)
  | blockErrorMessage (e : PnBlockParseError)
  | leBob (b : PnBlock)
  | leSingle (b : PnBlock)
  | callEffectiveStage (c : Call)
  | callTransposition (c : Call)

namespace PnCall

def outcome : PnCall → Outcome
  | parse text s => (PlaceNot.parse text s).outcome
  | pnBetween a b => (PlaceNot.pnBetween a b).outcome
  | transposition pn => pn.transposition.outcome
  | permute pn r => (pn.permute r).outcome
  | permuteNew pn r => (pn.permuteNew r).outcome
  | parseBlock text s => (PnBlock.parse text s).outcome
  | blockStage b => b.stage.outcome
  | toRows b r => (b.toRows r).outcome
  | toBlock b r => (b.toBlock () r).outcome
  | toBlockFromRounds b => (b.toBlockFromRounds ()).outcome
  | errorMessage e => e.message.outcome
  | blockErrorMessage e => e.message.outcome
  | leBob b => (Call.leBob b).outcome
  | leSingle b => (Call.leSingle b).outcome
  | callEffectiveStage c => c.effectiveStage.outcome
  | callTransposition c => c.transposition.outcome

def ArgsOk : PnCall → Prop
  | parse _ s | parseBlock _ s => s.Valid
  | pnBetween a b => a.Valid ∧ b.Valid
  | transposition pn => pn.WellFormed
  | permute pn r | permuteNew pn r => pn.WellFormed ∧ r.Valid
  | blockStage b | toBlockFromRounds b | leBob b | leSingle b => b.WellFormed
  | toRows b r | toBlock b r => b.WellFormed ∧ r.Valid
  | errorMessage _ | blockErrorMessage _ => True
  | callEffectiveStage c | callTransposition c => c.block.WellFormed

def PanicsWhen : PnCall → Prop
  -- errors that no parser reports: the places of the gap are in the wrong order
  | errorMessage (.ambiguousPlacesBetween p q) => q ≤ p
  | blockErrorMessage (.pnError _ _ (.ambiguousPlacesBetween p q)) => q ≤ p
  | _ => False

end PnCall

/-! ## Masks and music -/

/-- Calls about masks and regexes. -/
inductive MusicCall where
  | maskStage (m : Mask)
  | maskFixBells (s : Stage) (bells : List Bell)
  | maskMatches (m : Mask) (r : Row)
  | maskSetBell (m : Mask) (b : Bell) (place : Nat)
  | maskFix (m : Mask) (b : Bell)
  | maskIsSubsetOf (m other : Mask)
  | maskIsCompatibleWith (m other : Mask)
  | maskCombine (m other : Mask)
  | maskMulRow (m : Mask) (r : Row)
  | rowMulMask (r : Row) (m : Mask)
  | regexFromVec (elems : List RegexElem)
  | regexParse (text : List Char)
  | regexOfMask (m : Mask)
  | regexMatches (re : Regex) (r : Row)
  | regexMatchPattern (re : Regex) (r : Row)
  /-- `max` is the largest number that fits a machine word, and overflows are checked -/
  | numMatchingRows (max : Nat) (re : Regex) (s : Stage)

namespace MusicCall

def outcome : MusicCall → Outcome
  | maskStage m => m.stage.outcome
  | maskFixBells s bells => (Mask.fixBells s bells).outcome
  | maskMatches m r => (m.matches_ r).outcome
  | maskSetBell m b place => (m.setBell b place).outcome
  | maskFix m b => (m.fix b).outcome
  | maskIsSubsetOf m other => (m.isSubsetOf other).outcome
  | maskIsCompatibleWith m other => (m.isCompatibleWith other).outcome
  | maskCombine m other => (m.combine other).outcome
  | maskMulRow m r => (m.mulRow r).outcome
  | rowMulMask r m => (Mask.rowMul r m).outcome
  | regexFromVec elems => (Regex.fromVec elems).outcome
  | regexParse text => (Regex.parse text).outcome
  | regexOfMask m => (Regex.ofMask m).outcome
  | regexMatches re r => (re.matches_ r).outcome
  | regexMatchPattern re r => (re.matchPattern r).outcome
  | numMatchingRows max re s => (re.numMatchingRows max s).outcome

/-- Masks are arbitrary: safe code can make empty ones and ones with bells that are repeated or out of
stage.  Regexes are normalised, unless they come from `all_runs` with length zero. -/
def ArgsOk : MusicCall → Prop
  | maskFixBells s _ => s.Valid
  | maskMatches _ r | maskMulRow _ r | rowMulMask r _ => r.Valid
  | regexMatches re r | regexMatchPattern re r =>
    (re.Normal ∨ ∃ s, re ∈ Regex.allRuns s 0) ∧ r.Valid
  | numMatchingRows max _ s => 0 < max ∧ s.Valid
  | _ => True

def PanicsWhen : MusicCall → Prop
  -- masks without places
  | maskStage m | maskMatches m _ => m.bells = []
  | maskIsSubsetOf m other | maskIsCompatibleWith m other | maskCombine m other =>
    m.bells = [] ∨ other.bells = []
  -- places outside the mask
  | maskFixBells s bells => ∃ b ∈ bells, s.numBells ≤ b.index
  | maskSetBell m b place => (∀ p, ¬ m.Gives p b) ∧ m.bells.length ≤ place
  | maskFix m b => (∀ p, ¬ m.Gives p b) ∧ m.bells.length ≤ b.index
  -- the operator `*` on different stages, or with a bell outside the stage
  | maskMulRow m r => m.bells.length ≠ r.bells.length
  | rowMulMask r m => m.bells.length ≠ r.bells.length ∨ ∃ p b, m.Gives p b ∧ r.bells.length ≤ b.index
  -- regexes with adjacent `*`s
  | regexMatches re _ | regexMatchPattern re _ => ¬ re.Normal
  -- too few places for the elements, or a count that does not fit
  | numMatchingRows max re s =>
    let named := (bellsNamed re.elems).length
    let w := re.elems.count .any
    let g := re.elems.count .glob
    let u := s.numBells - named
    s.numBells < named + w ∨
      (u.descFactorial (min w (u - w)) ≤ max ∧ (u - w + (w - 1)).factorial ≤ max ∧
        (g - 1).factorial ≤ max ∧
        max < u.choose w * ((u - w + (w - 1)).factorial / (g - 1).factorial))
  | _ => False

end MusicCall

/-! ## Methods and libraries -/

/-- Calls about methods and libraries.  Leads are given by their rows, the lead head `τ` and the
annotations. -/
inductive MethodCall where
  | classify {n : Nat} (lead : List (Perm (Fin n))) (τ : Perm (Fin n)) (annots : List (Option String))
  | withName (name : String) {n : Nat} (lead : List (Perm (Fin n))) (τ : Perm (Fin n))
      (annots : List (Option String))
  | fromPlaceNotString (name : String) (s : Stage) (text : List Char)
  | withLeadEnd (name : String) (b : PnBlock)
  | leadHead (m : Method)
  | rowInPlainLead (m : Method) (i : Nat)
  | rowInPlainCourse (m : Method) (i : Nat)
  /-- the method has the given first lead -/
  | plainCourse (m : Method) {n : Nat} (lead : List (Perm (Fin n))) (τ : Perm (Fin n))
      (annots : List (Option String))
  | setLabel (m : Method) (i : Nat) (label : Option String)
  | setLeadEndLabel (m : Method)
  | getLabel (m : Method) (i : Nat)
  | getByTitle (lower : String → String) (lib : MethodLib) (title : String)
  | getByTitleWithSuggestions (lower : String → String) (dist : String → String → Nat)
      (shortlist : ShortlistFn) (lib : MethodLib) (title : String) (num : Nat)
  | unwrapParseErr (e : QueryError Unit)
  | toJson (order : List ((Stage × FullClass) × List CompactMethod) →
      List ((Stage × FullClass) × List CompactMethod)) (lib : MethodLib)
  | fromJson (lower : String → String) (json : Json)

namespace MethodCall

def outcome : MethodCall → Outcome
  | classify lead τ annots => (FullClass.classify (.ofPerms lead τ annots)).outcome
  | withName name lead τ annots => (Method.withName name (.ofPerms lead τ annots)).outcome
  | fromPlaceNotString name s text => (Method.fromPlaceNotString name s text).outcome
  | withLeadEnd name b => (Method.withLeadEnd name b).outcome
  | leadHead m => m.leadHead.outcome
  | rowInPlainLead m i => (m.rowInPlainLead i).outcome
  | rowInPlainCourse m i => (m.rowInPlainCourse i).outcome
  | plainCourse m _ _ _ => m.plainCourse.outcome
  | setLabel m i label => (m.setLabel i label).outcome
  | setLeadEndLabel m => m.setLeadEndLabel.outcome
  | getLabel m i => (m.getLabel i).outcome
  | getByTitle lower lib title => (lib.getByTitle lower title).outcome
  | getByTitleWithSuggestions lower dist shortlist lib title num =>
    (lib.getByTitleWithSuggestions lower dist shortlist title num).outcome
  | unwrapParseErr e => e.unwrapParseErr.outcome
  | toJson order lib => (lib.toJson order).outcome
  | fromJson lower json => (MethodLib.fromJson lower json).outcome

def ArgsOk : MethodCall → Prop
  | @classify n lead _ annots | @withName _ n lead _ annots => 0 < n ∧ lead.length = annots.length
  | @plainCourse m n lead τ annots =>
    0 < n ∧ lead.length = annots.length ∧ m.firstLead = .ofPerms lead τ annots
  | fromPlaceNotString _ s _ => s.Valid
  | withLeadEnd _ b => b.WellFormed
  | leadHead m | rowInPlainLead m _ | rowInPlainCourse m _ => m.firstLead.WellFormed
  | setLabel _ _ _ | setLeadEndLabel _ | getLabel _ _ | getByTitle _ _ _
  | getByTitleWithSuggestions _ _ _ _ _ _ | unwrapParseErr _ | fromJson _ _ => True
  | toJson order lib => (∀ l, (order l).Perm l) ∧
    (∃ lower, lib.Keyed lower) ∧ ∀ stage key c, lib.Holds stage key c → stage.Valid

def PanicsWhen : MethodCall → Prop
  -- leads that do not start from rounds, and leads whose principal hunt bells cross jumps
  | classify lead τ _ => lead.head? ≠ some 1 ∨ ¬ CrossesClear lead τ
  -- likewise, and stages without a name
  | @withName _ n lead τ _ => lead.head? ≠ some 1 ∨ ¬ CrossesClear lead τ ∨ 22 < n
  | fromPlaceNotString _ s text => 22 < s.numBells ∧ ∃ pns, BlockText s text pns
  | withLeadEnd _ b => ∃ pn ∈ b.pns, 22 < pn.stage.numBells
  | toJson _ lib => ∃ stage key c, lib.Holds stage key c ∧ 22 < stage.numBells
  -- rows and labels that do not exist
  | rowInPlainLead m i => m.firstLead.annots.length < i
  | rowInPlainCourse m _ => m.firstLead.annots.length = 0
  | setLabel m i _ | getLabel m i => m.firstLead.annots.length ≤ i
  | setLeadEndLabel m => m.firstLead.annots.length = 0
  -- unwrapping an error of another kind
  | unwrapParseErr e => ∃ pn err, e = .pnParseErr pn err
  -- JSON of the right structure with numbers that mean nothing
  | fromJson _ json => ∃ groups, LibJson groups json ∧ ∃ g ∈ groups, BadGroup g
  | _ => False

/-- The plain course of a lead that does not start from rounds need not come round. -/
def RunsForeverWhen : MethodCall → Prop
  | plainCourse _ lead τ _ => ∀ j, τ * ((lead.head?.getD τ)⁻¹ * τ) ^ j ≠ 1
  | _ => False

end MethodCall

end Bellframe
