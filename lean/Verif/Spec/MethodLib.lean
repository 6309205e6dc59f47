import Verif.Model.MethodLib
import Mathlib.Data.List.Sort

/-! # Vocabulary for statements about method libraries -/

namespace Bellframe

/-- What is assumed of `str::to_lowercase`: lower case text stays as it is, words are changed one by
one, and ASCII text is changed letter by letter. -/
structure LowerCase (lower : String → String) : Prop where
  idem : ∀ s, lower (lower s) = lower s
  words : ∀ a b, lower (a ++ " " ++ b) = lower a ++ " " ++ lower b
  ascii : ∀ s : String, (∀ c ∈ s.toList, c.toNat < 128) → lower s = String.ofList (s.toList.map Char.toLower)

/-- The library has this method, under this key, at this stage. -/
def MethodLib.Holds (lib : MethodLib) (stage : Stage) (key : String) (c : CompactMethod) : Prop :=
  ∃ methods, (stage, methods) ∈ lib.methodMap.entries ∧ (key, c) ∈ methods.entries

/-- All methods of the library, with their stages and keys. -/
def MethodLib.all (lib : MethodLib) : List (Stage × String × CompactMethod) :=
  lib.methodMap.entries.flatMap fun methods => methods.2.entries.map fun e => (methods.1, e.1, e.2)

/-- All keys are the lower case titles of their methods. -/
def MethodLib.Keyed (lower : String → String) (lib : MethodLib) : Prop :=
  ∀ stage key c, lib.Holds stage key c → key = lower c.title

/-- The title ends in the name of the stage, up to case. -/
def TitledFor (lower : String → String) (stage : Stage) (title : String) : Prop :=
  ∃ w, stage.name = some w ∧ (lower title = lower w ∨ ∃ a, lower title = a ++ " " ++ lower w)

/-- The method that a lookup should give for an entry of the library. -/
def IsEntry (stage : Stage) (c : CompactMethod) (m : Method) : Prop :=
  m.title = c.title ∧ m.name = c.name ∧ m.cls = c.fullClass ∧
    ∃ pn, PnBlock.parse c.placeNotation.toList stage = .ok (.ok pn) ∧
      pn.toBlockFromRounds none = .ok m.firstLead

/-- When a group read from JSON cannot be a group of methods. -/
def BadGroup (g : MethodGroup) : Prop :=
  g.stage = 0 ∨ 8 < g.classId ∨ (22 < g.stage ∧ ∃ m ∈ g.methods, m.title = none)

/-! ## The JSON format of libraries -/

/-- An object has the field, once, with this value. -/
def HasField (fields : List (String × Json)) (name : String) (v : Json) : Prop :=
  ∃ before after, fields = before ++ (name, v) :: after ∧ ∀ f ∈ before ++ after, f.1 ≠ name

/-- An object does not have the field. -/
def LacksField (fields : List (String × Json)) (name : String) : Prop := ∀ f ∈ fields, f.1 ≠ name

/-- A flag of an object, which may be left out if it is not set. -/
def FlagIs (fields : List (String × Json)) (name : String) (b : Bool) : Prop :=
  HasField fields name (.bool b) ∨ (LacksField fields name ∧ b = false)

/-- A title that may be `null`. -/
def TitleIs (json : Json) (title : Option String) : Prop :=
  (json = .null ∧ title = none) ∨ ∃ s, json = .str s ∧ title = some s

/-- JSON for a method: an object with fields `t` (which may be left out), `n` and `p`, or an array. -/
def MethodJson (m : CompactMethodSerde) (json : Json) : Prop :=
  (∃ fields, json = .obj fields ∧
    ((∃ t, HasField fields "t" t ∧ TitleIs t m.title) ∨ (LacksField fields "t" ∧ m.title = none)) ∧
    HasField fields "n" (.str m.name) ∧ HasField fields "p" (.str m.placeNotation)) ∨
  (∃ t, json = .arr [t, .str m.name, .str m.placeNotation] ∧ TitleIs t m.title)

/-- JSON for a group of methods: an object with fields `s`, `j`, `l`, `d`, `c`, `m`, or an array. -/
def GroupJson (g : MethodGroup) (json : Json) : Prop :=
  g.stage < 2 ^ 64 ∧ g.classId < 256 ∧ ∃ methods, List.Forall₂ MethodJson g.methods methods ∧
  ((∃ fields, json = .obj fields ∧ HasField fields "s" (.num g.stage) ∧ FlagIs fields "j" g.isJump ∧
    FlagIs fields "l" g.isLittle ∧ FlagIs fields "d" g.isDifferential ∧
    HasField fields "c" (.num g.classId) ∧ HasField fields "m" (.arr methods)) ∨
  json = .arr [.num g.stage, .bool g.isJump, .bool g.isLittle, .bool g.isDifferential, .num g.classId,
    .arr methods])

/-- JSON for a library: an object with the field `groups`, or an array. -/
def LibJson (groups : List MethodGroup) (json : Json) : Prop :=
  ∃ items, List.Forall₂ GroupJson groups items ∧
    ((∃ fields, json = .obj fields ∧ HasField fields "groups" (.arr items)) ∨ json = .arr [.arr items])

/-- What is assumed of the `shortlist` crate, for a capacity: it keeps as many items as fit, in ascending order,
and none that is dropped is greater than one that is kept. -/
def IsShortlist (cap : Nat) (shortlist : ShortlistFn) : Prop :=
  ∀ (cmp : String × Nat → String × Nat → Ordering) (f : String × Nat → Int),
    (∀ a b, cmp a b = compare (f a) (f b)) → ∀ items : List (String × Nat),
      (shortlist cmp cap items).length = min cap items.length ∧
      (shortlist cmp cap items).Pairwise (fun a b => f a ≤ f b) ∧
      ∃ dropped, (shortlist cmp cap items ++ dropped).Perm items ∧
        ∀ x ∈ dropped, ∀ y ∈ shortlist cmp cap items, f x ≤ f y

end Bellframe
