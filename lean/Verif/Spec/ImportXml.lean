import Verif.Model.ImportXml

/-! # Vocabulary for statements about the Central Council's XML file

From the description of the file in the comment at src/method_lib/parse_cc_lib.rs:27-49. -/

namespace Bellframe

/-- A method in the file. -/
structure CcMethod where
  title : String
  name : String
  notation_ : String

/-- A set of methods in the file, of one stage and class. -/
structure CcSet where
  stage : Nat
  little : Bool
  differential : Bool
  cls : MethodClass
  methods : List CcMethod

/-- The first child with this name, in the namespace of the file. -/
def Element.FirstChild (e : Element) (name : String) (c : Element) : Prop :=
  ∃ before after, e.children = before ++ c :: after ∧
    (c.name = name ∧ c.ns = "http://www.cccbr.org.uk/methods/schemas/2007/05/methods") ∧
    ∀ x ∈ before, ¬ (x.name = name ∧ x.ns = "http://www.cccbr.org.uk/methods/schemas/2007/05/methods")

/-- The text of the first child with this name. -/
def Element.ChildText (e : Element) (name text : String) : Prop := ∃ c, e.FirstChild name c ∧ c.text = text

/-- The attribute has this value. -/
def Element.HasAttr (e : Element) (name value : String) : Prop :=
  ∃ before after, e.attrs = before ++ (name, value) :: after ∧ ∀ a ∈ before, a.1 ≠ name

/-- The text is the number in decimal digits (perhaps with zeros in front). -/
inductive Decimal : List Char → Nat → Prop
  | one (d : Nat) (h : d < 10) : Decimal [Char.ofNat ('0'.toNat + d)] d
  | more (s : List Char) (n d : Nat) (hs : Decimal s n) (h : d < 10) :
      Decimal (s ++ [Char.ofNat ('0'.toNat + d)]) (10 * n + d)

/-- How the class is written. -/
def classText : MethodClass → String
  | .principle => ""
  | .place => "Place"
  | .bob => "Bob"
  | .trebleBob => "Treble Bob"
  | .delight => "Delight"
  | .surprise => "Surprise"
  | .treblePlace => "Treble Place"
  | .alliance => "Alliance"
  | .hybrid => "Hybrid"

/-- `<method>` with `<title>`, `<name>` and `<notation>`. -/
def MethodXml (m : CcMethod) (e : Element) : Prop :=
  e.ChildText "title" m.title ∧ e.ChildText "name" m.name ∧ e.ChildText "notation" m.notation_

/-- `<methodSet>` with `<properties>`, which has `<stage>` and `<classification>`, and any number of
`<method>`s. The stage is at least one and fits in a machine word of `bits` bits. -/
def SetXml (bits : Nat) (s : CcSet) (e : Element) : Prop :=
  ∃ p, e.FirstChild "properties" p ∧
    (∃ t, p.ChildText "stage" t ∧ (Decimal t.toList s.stage ∨ ∃ t', t.toList = '+' :: t' ∧ Decimal t' s.stage)) ∧
    0 < s.stage ∧ s.stage < 2 ^ bits ∧
    (∃ c, p.FirstChild "classification" c ∧ c.text = classText s.cls ∧
      (s.little = true ↔ c.HasAttr "little" "true") ∧
      (s.differential = true ↔ c.HasAttr "differential" "true")) ∧
    List.Forall₂ MethodXml s.methods (e.children.filter fun x => x.name = "method")

/-- `<collection>` with a date and any number of `<methodSet>`s. -/
def FileXml (bits : Nat) (sets : List CcSet) (root : Element) : Prop :=
  (∃ date, root.HasAttr "date" date) ∧
    List.Forall₂ (SetXml bits) sets (root.children.filter fun x => x.name = "methodSet")

/-- What the library should hold for a method of a set. -/
def CcSet.entry (s : CcSet) (m : CcMethod) : CompactMethod :=
  ⟨m.name, m.title, ⟨false, s.little, s.differential, s.cls⟩, m.notation_⟩

/-- The methods of the file with their stages, in order. -/
def fileEntries (sets : List CcSet) : List (Stage × CompactMethod) :=
  sets.flatMap fun s => s.methods.map fun m => (⟨s.stage⟩, s.entry m)

/-- The method is in the file, and no later one has the same stage and title. -/
def LastOfTitle (sets : List CcSet) (stage : Stage) (c : CompactMethod) : Prop :=
  ∃ before after, fileEntries sets = before ++ (stage, c) :: after ∧
    ∀ x ∈ after, ¬ (x.1 = stage ∧ x.2.title = c.title)

end Bellframe
