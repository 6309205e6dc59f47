import Verif.Proofs.JsonWrite
import Verif.Props.CcLib
import Verif.Props.MethodLib

/-! # The text of libraries (C90) -/

namespace Bellframe.Props

open CcLib JsonGrammar

/-! ## C90: the text of a library -/

/-- The texts that can be read are those of the grammar of JSON, and they are read as what they stand for. -/
theorem C90_reader (text : List Char) (j : Json) : Json.read text = some j ↔ Document j text := Json.read_iff

/-- The same for bytes: they must be UTF-8. -/
theorem C90_bytes (bytes : Bytes) (j : Json) :
    Json.readBytes bytes = some j ↔ ∃ text, bytes = text.flatMap String.utf8EncodeChar ∧ Document j text := by
  rw [Json.readBytes_iff]
  simp only [Json.read_iff]

/-- No text stands for two values. -/
theorem C90_unambiguous (text : List Char) (j j' : Json) (h : Document j text) (h' : Document j' text) : j = j' :=
  Option.some.inj ((Json.read_iff.2 h).symm.trans (Json.read_iff.2 h'))

/-- What is written is read back as it was, whatever characters its strings contain. -/
theorem C90_round_trip (j : Json) (h : Plain j) :
    Document j j.write ∧ Json.read j.write = some j ∧
      Json.readBytes (j.write.flatMap String.utf8EncodeChar) = some j :=
  ⟨Json.read_iff.1 (Json.read_write h), Json.read_write h, Json.readBytes_iff.2 ⟨_, rfl, Json.read_write h⟩⟩

/-- Different values are written differently. -/
theorem C90_injective (j j' : Json) (h : Plain j) (h' : Plain j') (e : j.write = j'.write) : j = j' := by
  have h1 := Json.read_write h
  rw [e, Json.read_write h'] at h1
  exact (Option.some.inj h1).symm

/-- `to_json` and `from_json`: the text read back gives a library with the same methods. -/
theorem C90_library (lower : String → String)
    (order : List ((Stage × FullClass) × List CompactMethod) → List ((Stage × FullClass) × List CompactMethod))
    (ho : ∀ l, (order l).Perm l) (lib : MethodLib) (hk : lib.Keyed lower)
    (hs : ∀ stage key c, lib.Holds stage key c → 1 ≤ stage.numBells ∧ stage.numBells ≤ 22) :
    ∃ text lib', lib.toText order = .ok text ∧ MethodLib.ofText lower text = .ok (some lib') ∧
      (∀ stage key c, lib'.Holds stage key c ↔ lib.Holds stage key c) ∧ lib'.all.Perm lib.all := by
  obtain ⟨json, lib', h1, h2, h3, h4⟩ := C55_round_trip lower order ho lib hk hs
  refine ⟨json.write, lib', ?_, ?_, h3, h4⟩
  · rw [MethodLib.toText, h1]
    rfl
  · have hp := MethodLib.toJson_plain ho (fun s k c h => Nat.lt_of_le_of_lt (hs s k c h).2 (by decide)) h1
    rw [MethodLib.ofText, Json.read_write hp]
    exact h2

/-- What `to_json` returns is always JSON. -/
theorem C90_valid
    (order : List ((Stage × FullClass) × List CompactMethod) → List ((Stage × FullClass) × List CompactMethod))
    (ho : ∀ l, (order l).Perm l) (lib : MethodLib)
    (hs : ∀ stage key c, lib.Holds stage key c → stage.numBells < 2 ^ 64) (text : List Char)
    (h : lib.toText order = .ok text) : ∃ json, lib.toJson order = .ok json ∧ Document json text := by
  rw [MethodLib.toText] at h
  cases h1 : lib.toJson order with
  | error e => rw [h1] at h; cases h
  | ok json =>
    rw [h1] at h
    refine ⟨json, rfl, ?_⟩
    rw [← Except.ok.inj h]
    exact Json.read_iff.1 (Json.read_write (MethodLib.toJson_plain ho hs h1))

/-- `from_json` on any text: a library if the text stands for one, an error of `serde_json` otherwise. -/
theorem C90_from_text (lower : String → String) (text : List Char) :
    (∀ json groups, Document json text → LibJson groups json →
      MethodLib.ofText lower text = (MethodLib.fromSerde lower groups).map some) ∧
    ((¬ ∃ json groups, Document json text ∧ LibJson groups json) → MethodLib.ofText lower text = .ok none) := by
  constructor
  · intro json groups hd hl
    rw [MethodLib.ofText, Json.read_iff.2 hd]
    exact ((C67_format lower json).1 groups hl).2
  · intro h
    rw [MethodLib.ofText]
    cases hr : Json.read text with
    | none => rfl
    | some json =>
      refine (C67_format lower json).2 ?_
      rintro ⟨groups, hl⟩
      exact h ⟨json, groups, Json.read_iff.1 hr, hl⟩

/-- Texts of JSON have no NUL characters; an object or array cut short is no JSON, unless only blanks are cut
off. This is what C65 and C66 assume. -/
theorem C90_syntax : JsonSyntax Json.readBytes := Json.readBytes_syntax

/-- So C65 holds for JSON: after any history of calls of `cc_lib`, some of which crash, a library that is returned
is one that the server sent. -/
theorem C90_cache (lower : String → String) (history : List (Option Bytes × List Choice)) (reply : Option Bytes)
    (steps : List Choice) (result : Res (Option MethodLib))
    (h : (run lower Json.readBytes reply steps (runs lower Json.readBytes history none, .start)).2 = .done result) :
    (∀ lib, result = .ok (some lib) → ∃ text, fromText lower Json.readBytes text = .ok (some lib) ∧
      (reply = some text ∨ ∃ r ∈ history, r.1 = some text)) ∧
    (∀ e, result = .error e → ∃ text, reply = some text ∧ fromText lower Json.readBytes text = .error e) ∧
    (result = .ok none → reply = none ∨ ∃ text, reply = some text ∧
      fromText lower Json.readBytes text = .ok none) :=
  C65_history C90_syntax history reply steps result h

/-- The texts in the proof of C66 are those of libraries. -/
theorem oneMethod_text : ∀ title ∈ ["A", "B"], ∀ pn ∈ ["x14", "x12"],
    Json.readBytes (frontOf title ++ backOf pn) = some (oneMethod title pn) := by
  intro title ht pn hp
  have hplain : Plain (oneMethod title pn) := by
    refine .obj fun f hf => ?_
    rw [List.mem_singleton.1 hf]
    refine .arr fun x hx => ?_
    rw [List.mem_singleton.1 hx]
    refine .obj fun f hf => ?_
    simp only [List.mem_cons, List.not_mem_nil, or_false] at hf
    rcases hf with rfl | rfl | rfl
    · exact .num (by decide) (by decide)
    · exact .num (by decide) (by decide)
    · refine .arr fun x hx => ?_
      rw [List.mem_singleton.1 hx]
      refine .obj fun f hf => ?_
      simp only [List.mem_cons, List.not_mem_nil, or_false] at hf
      rcases hf with rfl | rfl | rfl <;> exact .str _
  have hbytes : frontOf title ++ backOf pn = (oneMethod title pn).write.flatMap String.utf8EncodeChar := by
    simp only [List.mem_cons, List.not_mem_nil, or_false] at ht hp
    rcases ht with rfl | rfl <;> rcases hp with rfl | rfl <;> decide +kernel
  rw [hbytes]
  exact (C90_round_trip _ hplain).2.2

/-- And C66 fails for JSON: calls that run at the same time can leave a library in the cache that the server never
sent. -/
theorem C90_mixture (lower : String → String) :
    ∃ (reply : Nat → Option Bytes) (schedule : List (Nat × Choice)) (lib : MethodLib),
      (System.exec lower Json.readBytes reply schedule ⟨none, fun _ => .start⟩).procs 2 = .done (.ok (some lib)) ∧
      ∀ i text, reply i = some text → fromText lower Json.readBytes text ≠ .ok (some lib) :=
  C66_false Json.readBytes oneMethod_text

/-! ## Examples -/

/-- A value with an escape, a surrogate pair, blanks and a negative number. -/
example : (Json.read " { \"\\u00e9\\n\" : [ -12 , true , \"\\uD83D\\uDD14\" , 1.5e3 ] } ".toList).map Json.write =
    some "{\"é\\n\":[-12,true,\"🔔\",0.0]}".toList := by decide +kernel

example : (Json.read "[1,]".toList).isNone ∧ (Json.read "[01]".toList).isNone ∧
    (Json.read "\"\\uD83D\"".toList).isNone := by decide +kernel

example : Plain (.obj [("a\"b", .arr [.num (-12), .str "🔔\n"])]) := by
  refine .obj fun f hf => ?_
  rw [List.mem_singleton.1 hf]
  refine .arr fun x hx => ?_
  simp only [List.mem_cons, List.not_mem_nil, or_false] at hx
  rcases hx with rfl | rfl
  · exact .num (by decide) (by decide)
  · exact .str _

example : (Json.obj [("a\"b", .arr [.num (-12), .str "🔔\n"])]).write = "{\"a\\\"b\":[-12,\"🔔\\n\"]}".toList := by
  decide +kernel

/-- The texts of `cc_lib` that lead to a library. -/
example (lower : String → String) : ∃ lib, fromText lower Json.readBytes (frontOf "A" ++ backOf "x14") = .ok (some lib) := by
  rw [fromText, oneMethod_text "A" (by simp) "x14" (by simp)]
  exact ⟨_, rfl⟩

end Bellframe.Props
