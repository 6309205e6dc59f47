import Verif.Model.Class

/-! # Model of `src/method/mod.rs` -/

namespace Bellframe

/-- `struct Method` — src/method/mod.rs:22-27. -/
structure Method where
  title : String
  name : String
  cls : FullClass
  firstLead : AnnotBlock (Option String)
deriving DecidableEq, Repr

/-- `struct RowAnnot` — src/method/mod.rs:226-229. -/
structure RowAnnot where
  subLeadIdx : Nat
  label : Option String
deriving DecidableEq, Repr

/-- `LABEL_LEAD_END` — src/method/mod.rs:14. -/
def labelLeadEnd : String := "LE"

/-- `generate_title` — src/method/mod.rs:201-222. -/
def generateTitle (name : String) (cls : FullClass) (stage : Stage) : Res String := do
  let s := "" ++ name
  let s := if !name.isEmpty then s ++ " " else s
  let lenBeforeClass := s.utf8ByteSize
  let s := s ++ cls.fmtName true
  let s := if s.utf8ByteSize > lenBeforeClass then s ++ " " else s
  let stageName ← unwrap stage.name
  return s ++ stageName

namespace Method

/-- `Method::with_name` — src/method/mod.rs:50-58. -/
def withName (name : String) (firstLead : AnnotBlock (Option String)) : Run Method := do
  let cls ← FullClass.classify firstLead
  let title ← (generateTitle name cls firstLead.stage : Res String)
  return ⟨title, name, cls, firstLead⟩

/-- `Method::from_place_not_string` — src/method/mod.rs:62-71. -/
def fromPlaceNotString (name : String) (stage : Stage) (placeNotation : List Char) :
    Run (Except PnBlockParseError Method) := do
  let parsed ← (PnBlock.parse placeNotation stage : Res (Except PnBlockParseError PnBlock))
  match parsed with
  | .error e => return .error e
  | .ok pn =>
    let lead ← (pn.toBlockFromRounds none : Res (AnnotBlock (Option String)))
    let m ← withName name lead
    return .ok m

/-- `Method::with_lead_end` — src/method/mod.rs:74-78. -/
def withLeadEnd (name : String) (block : PnBlock) : Run Method := do
  let lead ← (block.toBlockFromRounds none : Res (AnnotBlock (Option String)))
  let i ← (checkedSub lead.len 1 : Res Nat)
  let lead' ← (unwrap (lead.setAnnot i (some labelLeadEnd)) : Res (AnnotBlock (Option String)))
  withName name lead'

/-- `Method::lead_head` — src/method/mod.rs:100-102. -/
def leadHead (m : Method) : Res Row := m.firstLead.leftoverRow

/-- `Method::lead_len` — src/method/mod.rs:106-108. -/
def leadLen (m : Method) : Nat := m.firstLead.len

/-- `Method::stage` — src/method/mod.rs:112-114. -/
def stage (m : Method) : Stage := m.firstLead.stage

/-- `Method::row_in_plain_lead` — src/method/mod.rs:135-137. -/
def rowInPlainLead (m : Method) (idx : Nat) : Res Row := m.firstLead.rowVec.index idx

/-- `Method::row_in_plain_course` — src/method/mod.rs:140-147. -/
def rowInPlainCourse (m : Method) (idx : Nat) : Res Row := do
  if m.leadLen = 0 then throw .divByZero
  let numLeads := idx / m.leadLen
  let subLeadIdx := idx % m.leadLen
  let head ← m.leadHead
  let leadHead ← head.powU numLeads
  let rowWithinLead ← m.rowInPlainLead subLeadIdx
  leadHead.mul rowWithinLead

/-- The `while` loop of `Method::plain_course` — src/method/mod.rs:160-162. -/
def plainCourseLoop {A : Type} (leadLen : Nat) (course : AnnotBlock A) : Run (AnnotBlock A) := do
  let l ← (course.leftoverRow : Res Row)
  if l.isRounds then return course
  else
    let course' ← (course.extendFromWithin (.included 0) (.excluded leadLen) : Res (AnnotBlock A))
    plainCourseLoop leadLen course'
partial_fixpoint

/-- `Method::plain_course` — src/method/mod.rs:150-164. -/
def plainCourse (m : Method) : Run (AnnotBlock RowAnnot) :=
  plainCourseLoop m.leadLen (m.firstLead.mapAnnotsWithIndex fun i label => ⟨i, label⟩)

/-- `Method::set_label` — src/method/mod.rs:171-173. -/
def setLabel (m : Method) (index : Nat) (label : Option String) : Res Method := do
  let lead ← unwrap (m.firstLead.setAnnot index label)
  return { m with firstLead := lead }

/-- `Method::set_lead_end_label` — src/method/mod.rs:176-178. -/
def setLeadEndLabel (m : Method) : Res Method := m.setLabel 0 (some labelLeadEnd)

/-- `Method::get_label` — src/method/mod.rs:182-188. -/
def getLabel (m : Method) (index : Nat) : Res (Option String) := unwrap (m.firstLead.getAnnot index)

/-- `Method::label_indices` — src/method/mod.rs:191-195, collected. -/
def labelIndices (m : Method) (label : String) : List Nat :=
  (m.firstLead.annots.zipIdx.filter (fun p => p.1 == some label)).map (·.2)

end Method

end Bellframe
