import Verif.Model.CcLib

/-! # Specification of the cache of `cc_lib` -/

namespace Bellframe

namespace CcLib

/-- What is used of JSON's grammar. -/
structure JsonSyntax (parse : Bytes → Option Json) : Prop where
  /-- JSON has no NUL characters. -/
  noNul : ∀ text json, parse text = some json → (0 : UInt8) ∉ text
  /-- An object or an array cut short is not JSON, unless only blanks are cut off its end. -/
  cut : ∀ text json, parse text = some json →
    ((∃ fields, json = .obj fields) ∨ ∃ items, json = .arr items) →
    ∀ front, front <+: text → parse front = none ∨ parse front = some json

/-- What a call of `cc_lib` that finds `content` in the cache must return if the server replies `reply`. -/
def expected (lower : String → String) (parse : Bytes → Option Json) (content : Disk)
    (reply : Option Bytes) : Res (Option MethodLib) :=
  match content.elim (.ok none) (fromText lower parse) with
  | .error e => .error e
  | .ok (some lib) => .ok (some lib)
  | .ok none => reply.elim (.ok none) (fromText lower parse)

/-- Each byte of a file is the byte in the same place of one of the texts that calls were sent and
accepted. -/
def Mixture (lower : String → String) (parse : Bytes → Option Json) (reply : Nat → Option Bytes)
    (file : Bytes) : Prop :=
  ∀ (j : Nat) (b : UInt8), file[j]? = some b → ∃ k text lib,
    reply k = some text ∧ fromText lower parse text = .ok (some lib) ∧ text[j]? = some b

end CcLib

end Bellframe
