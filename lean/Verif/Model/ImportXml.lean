import Verif.Model.MethodLib

/-! # Model of `src/method_lib/parse_cc_lib.rs`

The importer is behind the feature `cc_lib_gen`, with which the crate does not compile at this commit.
It is modelled with the three repairs which make it compile: `Class` is taken from
`crate::method::class`, the number of bells becomes a stage by `Stage::new` (there is no
`From<usize> for Stage`), and the field `title` of `CompactMethod` is the title read. The key under which
a method is stored is the title, as written in the code.

Parsing the text of the file is the `minidom` crate's: the model starts from the tree of elements (or
`none`, if the text is not XML). The `println!` of the date is not modelled. -/

namespace Bellframe

/-- `minidom::Element`, as far as its functions `name`, `ns`, `attr`, `children`, `get_child` and `text`
show it: where the text is among the children does not matter to them. -/
inductive Element where
  | mk (name ns : String) (attrs : List (String × String)) (children : List Element) (text : String)

namespace Element

/-- `Element::name` -/
def name : Element → String
  | mk n _ _ _ _ => n

/-- `Element::ns` -/
def ns : Element → String
  | mk _ n _ _ _ => n

/-- The attributes (in minidom a `BTreeMap`; if a name comes twice here the first one counts). -/
def attrs : Element → List (String × String)
  | mk _ _ a _ _ => a

/-- `Element::children`: the child elements. -/
def children : Element → List Element
  | mk _ _ _ c _ => c

/-- `Element::text`: the text in the element itself. -/
def text : Element → String
  | mk _ _ _ _ t => t

/-- `Element::attr` -/
def attr (e : Element) (name : String) : Option String :=
  (e.attrs.find? fun a => a.1 = name).map Prod.snd

/-- `Element::get_child` -/
def getChild (e : Element) (name ns : String) : Option Element :=
  e.children.find? fun c => c.name = name && c.ns = ns

end Element

namespace ImportXml

/-- `NAMESPACE` — src/method_lib/parse_cc_lib.rs:11. -/
def ccNamespace : String := "http://www.cccbr.org.uk/methods/schemas/2007/05/methods"

/-- The value of a decimal digit: `char::to_digit(10)`. -/
def digitValue (c : Char) : Option Nat :=
  if '0'.toNat ≤ c.toNat ∧ c.toNat ≤ '9'.toNat then some (c.toNat - '0'.toNat) else none

/-- The loop of `usize::from_str`, with checks for overflow. -/
def parseDigits (bits : Nat) : List Char → (acc : Nat) → Option Nat
  | [], acc => some acc
  | c :: cs, acc =>
    match digitValue c with
    | none => none
    | some d => if acc * 10 + d < 2 ^ bits then parseDigits bits cs (acc * 10 + d) else none

/-- `usize::from_str` of the standard library: digits, perhaps after a plus sign. -/
def parseUsize (bits : Nat) : List Char → Option Nat
  | [] => none
  | c :: cs => if c = '+' then (if cs.isEmpty then none else parseDigits bits cs 0) else parseDigits bits (c :: cs) 0

/-- The `match` on the text of `<classification>` — src/method_lib/parse_cc_lib.rs:109-125. -/
def parseClass (text : String) : Res MethodClass :=
  if text = "" then .ok .principle
  else if text = "Place" then .ok .place
  else if text = "Bob" then .ok .bob
  else if text = "Treble Bob" then .ok .trebleBob
  else if text = "Delight" then .ok .delight
  else if text = "Surprise" then .ok .surprise
  else if text = "Treble Place" then .ok .treblePlace
  else if text = "Alliance" then .ok .alliance
  else if text = "Hybrid" then .ok .hybrid
  else .error .explicit

/-- `read_properties` — src/method_lib/parse_cc_lib.rs:94-131; `bits` is the width of `usize`. -/
def readProperties (bits : Nat) (properties : Element) : Res (Stage × FullClass) := do
  let stageElem ← unwrap (properties.getChild "stage" ccNamespace)
  let numBells ← unwrap (parseUsize bits stageElem.text.toList)
  let stage ← Stage.new numBells
  let classElem ← unwrap (properties.getChild "classification" ccNamespace)
  let isLittle := classElem.attr "little" == some "true"
  let isDifferential := classElem.attr "differential" == some "true"
  let cls ← parseClass classElem.text
  return (stage, ⟨false, isLittle, isDifferential, cls⟩)

/-- The method read from a `<method>` — src/method_lib/parse_cc_lib.rs:68-87. -/
def readMethod (fullClass : FullClass) (method : Element) : Res CompactMethod := do
  let title ← unwrap (method.getChild "title" ccNamespace)
  let name ← unwrap (method.getChild "name" ccNamespace)
  let placeNotation ← unwrap (method.getChild "notation" ccNamespace)
  return ⟨name.text, title.text, fullClass, placeNotation.text⟩

/-- The loop over the methods of a set — src/method_lib/parse_cc_lib.rs:66-88. -/
def readSetMethods (fullClass : FullClass) : List Element → HashMap String CompactMethod →
    Res (HashMap String CompactMethod)
  | [], methodMap => .ok methodMap
  | m :: ms, methodMap => do
    let c ← readMethod fullClass m
    readSetMethods fullClass ms (methodMap.insert c.title c)

/-- The body of the loop over the sets of methods — src/method_lib/parse_cc_lib.rs:55-89. -/
def readSet (bits : Nat) (methods : HashMap Stage (HashMap String CompactMethod)) (methodSet : Element) :
    Res (HashMap Stage (HashMap String CompactMethod)) := do
  let properties ← unwrap (methodSet.getChild "properties" ccNamespace)
  let (stage, fullClass) ← readProperties bits properties
  let methodMap ← readSetMethods fullClass (methodSet.children.filter fun e => e.name == "method")
    ((methods.get stage).getD HashMap.empty)
  return methods.insert stage methodMap

/-- `read_methods` — src/method_lib/parse_cc_lib.rs:50-92. -/
def readMethods (bits : Nat) (root : Element) : Res (HashMap Stage (HashMap String CompactMethod)) :=
  (root.children.filter fun e => e.name == "methodSet").foldlM (readSet bits) HashMap.empty

/-- `parse_cc_lib` — src/method_lib/parse_cc_lib.rs:15-25; the argument is the tree parsed from the text. -/
def parseCcLib (bits : Nat) (xml : Option Element) : Res MethodLib := do
  let root ← unwrap xml
  let _ ← unwrap (root.attr "date")
  let methods ← readMethods bits root
  return ⟨methods⟩

end ImportXml

end Bellframe
