import Verif.Model.Method

/-! # Model of `src/method_lib/mod.rs` and `src/method_lib/lib_serde.rs`

Three functions from outside the crate are parameters of the model: `str::to_lowercase` (`lower`),
`edit_distance::edit_distance` (`dist`) and the `shortlist` crate (`shortlist`). JSON is modelled by its
tree of values: writing it as text and reading it back is `serde_json`'s. The order in which a
`HashMap` is iterated is arbitrary: the entries of maps are in any order, and the order of the groups
written to JSON is a parameter (`order`). -/

namespace Bellframe

/-- `std::collections::HashMap`: entries with distinct keys, in the order of iteration. -/
structure HashMap (K V : Type) where
  entries : List (K × V)
  nodup : (entries.map Prod.fst).Nodup

namespace HashMap

variable {K V : Type} [DecidableEq K]

/-- `HashMap::new` -/
def empty : HashMap K V := ⟨[], List.Pairwise.nil⟩

/-- `HashMap::get` -/
def get (m : HashMap K V) (k : K) : Option V := (m.entries.find? (fun e => e.1 = k)).map Prod.snd

/-- The entries after changing the value of a key, `d` being the old value of a new key. -/
def updateEntries (k : K) (d : V) (f : V → V) : List (K × V) → List (K × V)
  | [] => [(k, f d)]
  | e :: es => if e.1 = k then (e.1, f e.2) :: es else e :: updateEntries k d f es

theorem mem_keys_updateEntries (k : K) (d : V) (f : V → V) (x : K) (es : List (K × V))
    (h : x ∈ (updateEntries k d f es).map Prod.fst) : x = k ∨ x ∈ es.map Prod.fst := by
  induction es with
  | nil => exact .inl (by simpa [updateEntries] using h)
  | cons e es ih =>
    rw [updateEntries] at h
    split at h
    · exact .inr h
    · rcases List.mem_cons.1 h with rfl | h
      · exact .inr (List.mem_cons.2 (.inl rfl))
      · rcases ih h with h | h
        · exact .inl h
        · exact .inr (List.mem_cons.2 (.inr h))

theorem nodup_updateEntries (k : K) (d : V) (f : V → V) (es : List (K × V))
    (h : (es.map Prod.fst).Nodup) : ((updateEntries k d f es).map Prod.fst).Nodup := by
  induction es with
  | nil => exact List.Pairwise.cons (by simp) List.Pairwise.nil
  | cons e es ih =>
    rw [updateEntries]
    rw [List.map_cons, List.nodup_cons] at h
    split
    · rw [List.map_cons, List.nodup_cons]
      exact h
    · rename_i hne
      rw [List.map_cons, List.nodup_cons]
      refine ⟨fun hm => ?_, ih h.2⟩
      rcases mem_keys_updateEntries _ _ _ _ _ hm with h' | h'
      · exact hne h'
      · exact h.1 h'

/-- `f(map.entry(k).or_insert_with(|| d))`: changes the value of a key in place. -/
def update (m : HashMap K V) (k : K) (d : V) (f : V → V) : HashMap K V :=
  ⟨updateEntries k d f m.entries, nodup_updateEntries k d f m.entries m.nodup⟩

/-- `HashMap::insert` -/
def insert (m : HashMap K V) (k : K) (v : V) : HashMap K V := m.update k v fun _ => v

end HashMap

/-- `struct CompactMethod` — src/method_lib/mod.rs:225-231. -/
structure CompactMethod where
  name : String
  title : String
  fullClass : FullClass
  placeNotation : String
deriving DecidableEq, Repr

/-- `struct MethodLib` — src/method_lib/mod.rs:12-19. -/
structure MethodLib where
  methodMap : HashMap Stage (HashMap String CompactMethod)

/-- `enum QueryError` — src/method_lib/mod.rs:246-253. -/
inductive QueryError (T : Type) where
  | pnParseErr (pn : String) (error : PnBlockParseError)
  | notFound (v : T)
deriving DecidableEq

/-- `QueryError::unwrap_parse_err` — src/method_lib/mod.rs:258-263; the `Err` of the Rust `Result` is
the value (the method is never returned). -/
def QueryError.unwrapParseErr {T : Type} : QueryError T → Res T
  | .pnParseErr _ _ => .error .explicit
  | .notFound v => .ok v

/-- `QueryError::map_not_found` — src/method_lib/mod.rs:266-271. -/
def QueryError.mapNotFound {T U : Type} (f : T → U) : QueryError T → QueryError U
  | .pnParseErr pn e => .pnParseErr pn e
  | .notFound v => .notFound (f v)

/-- `CompactMethod::to_method` — src/method_lib/mod.rs:234-243. -/
def CompactMethod.toMethod (c : CompactMethod) (stage : Stage) :
    Res (Except (String × PnBlockParseError) Method) := do
  let parsed ← PnBlock.parse c.placeNotation.toList stage
  match parsed with
  | .error e => return .error (c.placeNotation, e)
  | .ok pn =>
    let lead ← pn.toBlockFromRounds none
    return .ok ⟨c.title, c.name, c.fullClass, lead⟩

/-- `title.rsplit(' ').next()`: what follows the last space. -/
def lastWord (s : String) : String :=
  String.ofList ((s.toList.reverse.takeWhile (fun c => c != ' ')).reverse)

/-- `struct Suggestion` and its order — src/method_lib/mod.rs:87-122: by the distance, reversed. -/
def compareSuggestions (a b : String × Nat) : Ordering := (compare a.2 b.2).swap

/-- What `Shortlist` does in `generate_suggestions`: given an order, a capacity and the items pushed, the
items kept, in ascending order. -/
abbrev ShortlistFn := (String × Nat → String × Nat → Ordering) → Nat → List (String × Nat) →
  List (String × Nat)

namespace MethodLib

/-- `MethodLib::get_by_title_option` — src/method_lib/mod.rs:38-57. -/
def getByTitleOption (lib : MethodLib) (lowerCaseTitle : String) :
    Res (Option (Except (String × PnBlockParseError) Method)) :=
  match Stage.fromLowerCaseName (lastWord lowerCaseTitle) with
  | none => .ok none
  | some stage =>
    match lib.methodMap.get stage with
    | none => .ok none
    | some methods =>
      match methods.get lowerCaseTitle with
      | none => .ok none
      | some c => do
        let m ← c.toMethod stage
        return some m

/-- `MethodLib::get_by_title` — src/method_lib/mod.rs:26-32. -/
def getByTitle (lower : String → String) (lib : MethodLib) (title : String) :
    Res (Except (QueryError Unit) Method) := do
  let r ← lib.getByTitleOption (lower title)
  match r with
  | some (.ok m) => return .ok m
  | some (.error (pn, e)) => return .error (.pnParseErr pn e)
  | none => return .error (.notFound ())

/-- `MethodLib::generate_suggestions` — src/method_lib/mod.rs:76-139. -/
def generateSuggestions (dist : String → String → Nat) (shortlist : ShortlistFn) (lib : MethodLib)
    (lowerCaseTitle : String) (numSuggestions : Nat) : List (String × Nat) :=
  let pushed := lib.methodMap.entries.flatMap fun methods =>
    methods.2.entries.map fun e => (e.2.title, dist lowerCaseTitle e.1)
  (shortlist compareSuggestions numSuggestions pushed).reverse

/-- `MethodLib::get_by_title_with_suggestions` — src/method_lib/mod.rs:64-73. -/
def getByTitleWithSuggestions (lower : String → String) (dist : String → String → Nat)
    (shortlist : ShortlistFn) (lib : MethodLib) (title : String) (numSuggestions : Nat) :
    Res (Except (QueryError (List (String × Nat))) Method) := do
  let lowerCaseTitle := lower title
  let r ← lib.getByTitle lower lowerCaseTitle
  match r with
  | .ok m => return .ok m
  | .error e =>
    return .error (e.mapNotFound fun () =>
      lib.generateSuggestions dist shortlist lowerCaseTitle numSuggestions)

end MethodLib

/-! ## JSON -/

/-- JSON values, as `serde_json` sees them. Integers are `num`; all other numbers are `float`. -/
inductive Json where
  | null
  | bool (b : Bool)
  | num (n : Int)
  | float
  | str (s : String)
  | arr (xs : List Json)
  | obj (fields : List (String × Json))

/-- `struct CompactMethodSerde` — src/method_lib/lib_serde.rs:151-161. -/
structure CompactMethodSerde where
  title : Option String
  name : String
  placeNotation : String
deriving DecidableEq, Repr

/-- `struct MethodGroup` — src/method_lib/lib_serde.rs:129-149. -/
structure MethodGroup where
  stage : Nat
  isJump : Bool
  isLittle : Bool
  isDifferential : Bool
  classId : Nat
  methods : List CompactMethodSerde
deriving DecidableEq, Repr

/-- `to_class_id` — src/method_lib/lib_serde.rs:170-185. -/
def toClassId : MethodClass → Nat
  | .principle => 0
  | .place => 1
  | .bob => 2
  | .trebleBob => 3
  | .delight => 4
  | .surprise => 5
  | .treblePlace => 6
  | .alliance => 7
  | .hybrid => 8

/-- `from_class_id` — src/method_lib/lib_serde.rs:187-205: panics (instead of returning `None`) on an
unknown number. -/
def fromClassId (v : Nat) : Res (Option MethodClass) :=
  match v with
  | 0 => .ok (some .principle)
  | 1 => .ok (some .place)
  | 2 => .ok (some .bob)
  | 3 => .ok (some .trebleBob)
  | 4 => .ok (some .delight)
  | 5 => .ok (some .surprise)
  | 6 => .ok (some .treblePlace)
  | 7 => .ok (some .alliance)
  | 8 => .ok (some .hybrid)
  | _ => .error .explicit

namespace CompactMethodSerde

/-- The derived `Serialize` — src/method_lib/lib_serde.rs:152-160: the title is left out if absent. -/
def toJson (m : CompactMethodSerde) : Json :=
  .obj ((match m.title with
    | some t => [("t", .str t)]
    | none => []) ++ [("n", .str m.name), ("p", .str m.placeNotation)])

end CompactMethodSerde

namespace MethodGroup

/-- A field that is left out when false: `skip_serializing_if = "is_false"`. -/
def boolField (name : String) (b : Bool) : List (String × Json) := if b then [(name, .bool b)] else []

/-- The derived `Serialize` — src/method_lib/lib_serde.rs:130-148. -/
def toJson (g : MethodGroup) : Json :=
  .obj ([("s", .num g.stage)] ++ boolField "j" g.isJump ++ boolField "l" g.isLittle ++
    boolField "d" g.isDifferential ++ [("c", .num g.classId),
      ("m", .arr (g.methods.map CompactMethodSerde.toJson))])

end MethodGroup

namespace Json

/-- The value of a field of an object: `none` is the error for a repeated field, `some none` a missing
field. Fields with other names are ignored. -/
def field (fields : List (String × Json)) (name : String) : Option (Option Json) :=
  match fields.filter (fun f => f.1 = name) with
  | [] => some none
  | [f] => some (some f.2)
  | _ => none

/-- A field without a default. -/
def requiredField (fields : List (String × Json)) (name : String) : Option Json :=
  match field fields name with
  | some (some v) => some v
  | _ => none

/-- `Deserialize` for `usize` (64 bits) and `u8`, given the number of bits. -/
def asUnsigned (bits : Nat) : Json → Option Nat
  | .num n => if 0 ≤ n ∧ n < 2 ^ bits then some n.toNat else none
  | _ => none

/-- `Deserialize` for `bool`. -/
def asBool : Json → Option Bool
  | .bool b => some b
  | _ => none

/-- `Deserialize` for `String`. -/
def asString : Json → Option String
  | .str s => some s
  | _ => none

/-- `Deserialize` for `Option<String>`. -/
def asOptString : Json → Option (Option String)
  | .null => some none
  | .str s => some (some s)
  | _ => none

/-- A `bool` field with `#[serde(default)]`. -/
def boolFieldOrFalse (fields : List (String × Json)) (name : String) : Option Bool :=
  match field fields name with
  | some (some v) => v.asBool
  | some none => some false
  | none => none

/-- The derived `Deserialize` of `CompactMethodSerde` — src/method_lib/lib_serde.rs:152-160. Objects may
lack the title; structs may also be written as arrays of all their fields. -/
def asCompactMethod : Json → Option CompactMethodSerde
  | .obj fields => do
    let title ← match field fields "t" with
      | some (some v) => v.asOptString
      | some none => some none
      | none => none
    let name ← (← requiredField fields "n").asString
    let pn ← (← requiredField fields "p").asString
    return ⟨title, name, pn⟩
  | .arr [t, n, p] => do
    return ⟨← t.asOptString, ← n.asString, ← p.asString⟩
  | _ => none

/-- `Deserialize` for `Vec<CompactMethodSerde>`. -/
def asMethods : Json → Option (List CompactMethodSerde)
  | .arr xs => xs.mapM asCompactMethod
  | _ => none

/-- The derived `Deserialize` of `MethodGroup` — src/method_lib/lib_serde.rs:130-148. -/
def asGroup : Json → Option MethodGroup
  | .obj fields => do
    let stage ← (← requiredField fields "s").asUnsigned 64
    let isJump ← boolFieldOrFalse fields "j"
    let isLittle ← boolFieldOrFalse fields "l"
    let isDifferential ← boolFieldOrFalse fields "d"
    let classId ← (← requiredField fields "c").asUnsigned 8
    let methods ← (← requiredField fields "m").asMethods
    return ⟨stage, isJump, isLittle, isDifferential, classId, methods⟩
  | .arr [s, j, l, d, c, m] => do
    return ⟨← s.asUnsigned 64, ← j.asBool, ← l.asBool, ← d.asBool, ← c.asUnsigned 8, ← m.asMethods⟩
  | _ => none

/-- `Deserialize` for `Vec<MethodGroup>`. -/
def asGroups : Json → Option (List MethodGroup)
  | .arr xs => xs.mapM asGroup
  | _ => none

/-- The derived `Deserialize` of `MethodLibSerde` — src/method_lib/lib_serde.rs:18-23. -/
def asLibSerde : Json → Option (List MethodGroup)
  | .obj fields => do (← requiredField fields "groups").asGroups
  | .arr [g] => g.asGroups
  | _ => none

end Json

namespace MethodLib

/-- The methods of a library, by their stages and classes — src/method_lib/lib_serde.rs:28-38. -/
def grouped (lib : MethodLib) : HashMap (Stage × FullClass) (List CompactMethod) :=
  lib.methodMap.entries.foldl (fun groups methods =>
    methods.2.entries.foldl (fun groups e =>
      groups.update (methods.1, e.2.fullClass) [] (fun l => l ++ [e.2])) groups) HashMap.empty

/-- How one method is written — src/method_lib/lib_serde.rs:46-66. -/
def toCompactSerde (stage : Stage) (fullClass : FullClass) (c : CompactMethod) :
    Res CompactMethodSerde := do
  let generated ← generateTitle c.name fullClass stage
  let overrideTitle := if generated = c.title then none else some c.title
  return ⟨overrideTitle, c.name, c.placeNotation⟩

/-- How one group is written — src/method_lib/lib_serde.rs:42-76. -/
def toGroup (g : (Stage × FullClass) × List CompactMethod) : Res MethodGroup := do
  let methods ← g.2.mapM (toCompactSerde g.1.1 g.1.2)
  return ⟨g.1.1.numBells, g.1.2.isJump, g.1.2.isLittle, g.1.2.isDifferential, toClassId g.1.2.cls, methods⟩

/-- `From<&MethodLib> for MethodLibSerde` — src/method_lib/lib_serde.rs:25-79; `order` puts the groups in
the order in which the map of groups is iterated. -/
def toSerde (order : List ((Stage × FullClass) × List CompactMethod) →
    List ((Stage × FullClass) × List CompactMethod)) (lib : MethodLib) : Res (List MethodGroup) :=
  (order lib.grouped.entries).mapM toGroup

/-- `MethodLib::to_json` — src/method_lib/mod.rs:162-164. -/
def toJson (order : List ((Stage × FullClass) × List CompactMethod) →
    List ((Stage × FullClass) × List CompactMethod)) (lib : MethodLib) : Res Json := do
  let groups ← lib.toSerde order
  return .obj [("groups", .arr (groups.map MethodGroup.toJson))]

/-- How one method is read: its title and itself — src/method_lib/lib_serde.rs:101-109. -/
def fromCompactSerde (stage : Stage) (fullClass : FullClass) (m : CompactMethodSerde) :
    Res CompactMethod := do
  let title ← match m.title with
    | some t => .ok t
    | none => generateTitle m.name fullClass stage
  return ⟨m.name, title, fullClass, m.placeNotation⟩

/-- Reading one group into the library — src/method_lib/lib_serde.rs:85-121. -/
def addGroup (lower : String → String) (lib : MethodLib) (g : MethodGroup) : Res MethodLib := do
  let stage ← Stage.new g.stage
  let cls ← unwrap (← fromClassId g.classId)
  let fullClass : FullClass := ⟨g.isJump, g.isLittle, g.isDifferential, cls⟩
  let methods ← g.methods.mapM (fromCompactSerde stage fullClass)
  return ⟨lib.methodMap.update stage HashMap.empty fun old =>
    methods.foldl (fun m c => m.insert (lower c.title) c) old⟩

/-- `From<MethodLibSerde> for MethodLib` — src/method_lib/lib_serde.rs:81-127. -/
def fromSerde (lower : String → String) (groups : List MethodGroup) : Res MethodLib :=
  groups.foldlM (addGroup lower) ⟨HashMap.empty⟩

/-- `MethodLib::from_json` — src/method_lib/mod.rs:168-170; `none` is an error of `serde_json`. -/
def fromJson (lower : String → String) (json : Json) : Res (Option MethodLib) :=
  match json.asLibSerde with
  | none => .ok none
  | some groups => do
    let lib ← fromSerde lower groups
    return some lib

end MethodLib

end Bellframe
