import Verif.Spec.PlaceNot

/-!
# Specification of the syntax of blocks of place notation

In terms of characters, of bell names (`Bell.fromName`, C01) and of the meaning of a single piece of
place notation (`PlaceNot.parse`, C30).
-/

namespace Bellframe

def IsPlaceChar (c : Char) : Prop := ∃ b, Bell.fromName c = some b
def IsDelimChar (c : Char) : Prop := c = ' ' ∨ c = '.'
def IsCrossChar (c : Char) : Prop := c = 'x' ∨ c = 'X' ∨ c = '-'
/-- Characters without a meaning. -/
def IsOtherChar (c : Char) : Prop :=
  ¬ IsPlaceChar c ∧ ¬ IsDelimChar c ∧ ¬ IsCrossChar c ∧ c ≠ '+'

/-- The text of a sequence of changes: crosses and groups of places, which end at a delimiter, a
cross or the end of the text. -/
inductive Body (stage : Stage) : List Char → List PlaceNot → Prop
  | nil : Body stage [] []
  | skip {c rest pns} : IsDelimChar c ∨ IsOtherChar c → Body stage rest pns →
      Body stage (c :: rest) pns
  | cross {c rest pns} : IsCrossChar c → stage.numBells % 2 = 0 → Body stage rest pns →
      Body stage (c :: rest) (⟨[], stage⟩ :: pns)
  | places {group rest pn pns} : (∀ c ∈ group, IsPlaceChar c ∨ IsOtherChar c) →
      PlaceNot.parse group stage = .ok (.ok pn) →
      (∀ c, rest.head? = some c → IsDelimChar c ∨ IsCrossChar c) → Body stage rest pns →
      Body stage (group ++ rest) (pn :: pns)

/-- One comma-separated part: a sequence of changes, marked as asymmetric by a leading `+`. -/
inductive PartText (stage : Stage) : List Char → (asymmetric : Bool) → List PlaceNot → Prop
  | sym {text pns} : Body stage text pns → PartText stage text false pns
  | asym {junk text pns} : (∀ c ∈ junk, IsDelimChar c ∨ IsOtherChar c) → Body stage text pns →
      PartText stage (junk ++ '+' :: text) true pns

/-- The parts of a text, separated by commas. -/
def joinComma : List (List Char) → List Char
  | [] => []
  | [p] => p
  | p :: ps => p ++ ',' :: joinComma ps

/-- A symmetric part stands for its changes followed by all but the last of them in reverse. -/
def unfoldPart (asymmetric : Bool) (pns : List PlaceNot) : List PlaceNot :=
  if asymmetric then pns else pns ++ pns.dropLast.reverse

/-- What the parts of a block stand for together. -/
def assembleParts : List (Bool × List PlaceNot) → List PlaceNot
  | [p] => p.2
  | ps => ps.flatMap fun p => unfoldPart p.1 p.2

/-- The text of a block: a single part stands for its changes as they are; several parts are unfolded
and put together; there must be at least one change. -/
def BlockText (stage : Stage) (text : List Char) (pns : List PlaceNot) : Prop :=
  pns ≠ [] ∧ ∃ parts : List (List Char × Bool × List PlaceNot),
    text = joinComma (parts.map (·.1)) ∧ parts ≠ [] ∧
    (∀ p ∈ parts, ',' ∉ p.1 ∧ PartText stage p.1 p.2.1 p.2.2) ∧
    pns = assembleParts (parts.map (·.2))

/-- A text that is a part by itself. -/
def IsPart (stage : Stage) (text : List Char) : Prop := ∃ a pns, PartText stage text a pns

/-- No group of places reaches to the end of the text. -/
def NoOpenGroup (text : List Char) : Prop :=
  ∀ start c others, text = start ++ c :: others → (∀ d ∈ others, IsOtherChar d) → ¬ IsPlaceChar c

/-- Where and why a part is wrong: a `+` after something meaningful; a group of places that is not
place notation; a cross on an odd stage.  `before` is the part up to the offending text; nothing is wrong
there, but that of a group of places interrupted by a `+` nothing is known. -/
inductive WrongPart (stage : Stage) (part : List Char) : (before offending : List Char) →
    PnBlockParseError → Prop
  | plus {before after} : part = before ++ '+' :: after →
      (∃ c ∈ before, IsPlaceChar c ∨ IsCrossChar c ∨ c = '+') →
      (∃ right group, before = right ++ group ∧ IsPart stage right ∧
        ∀ c ∈ group, IsPlaceChar c ∨ IsOtherChar c) →
      WrongPart stage part before ['+'] (.plusNotAtBlockStart (Bell.utf8Len before))
  | places {before group after e} : part = before ++ group ++ after → IsPart stage before →
      NoOpenGroup before →
      (∀ c ∈ group, IsPlaceChar c ∨ IsOtherChar c) →
      (∃ c, group.head? = some c ∧ IsPlaceChar c) →
      (∀ c, after.head? = some c → IsDelimChar c ∨ IsCrossChar c) →
      PlaceNot.parse group stage = .ok (.error e) →
      WrongPart stage part before group
        (.pnError (Bell.utf8Len before) (Bell.utf8Len (before ++ group)) e)
  | cross {before c after} : part = before ++ c :: after → IsPart stage before → IsCrossChar c →
      stage.numBells % 2 = 1 →
      WrongPart stage part before [c]
        (.pnError (Bell.utf8Len before) (Bell.utf8Len before + 1) (.oddStageCross stage))

/-- The errors whose positions are moved by `k` bytes; the end of the range of a wrong group of places
is moved one byte more. -/
def PnBlockParseError.shifted (k : Nat) : PnBlockParseError → PnBlockParseError
  | .plusNotAtBlockStart i => .plusNotAtBlockStart (k + i)
  | .pnError s e (.oddStageCross st) => .pnError (k + s) (k + e) (.oddStageCross st)
  | .pnError s e err => .pnError (k + s) (k + e + 1) err
  | .emptyBlock => .emptyBlock

/-- The text before a part: all earlier parts, each with its comma. -/
def textBefore (done : List (List Char)) : List Char := done.flatMap (· ++ [','])

/-- A block of place notation that can exist: one or more changes, all of the same stage. -/
def PnBlock.WellFormed (b : PnBlock) : Prop :=
  b.pns ≠ [] ∧ ∃ n, 0 < n ∧ ∃ τs : List (Equiv.Perm (Fin n)), (∀ τ ∈ τs, IsChange τ) ∧
    b.pns = τs.map PlaceNot.ofChange

/-- `ρs` starts at `σ` and every next element is the one before it, changed by the next change. -/
def Follows {n : Nat} (σ : Equiv.Perm (Fin n)) (τs ρs : List (Equiv.Perm (Fin n))) : Prop :=
  ρs.length = τs.length + 1 ∧ ρs[0]? = some σ ∧
  ∀ k τ, τs[k]? = some τ → ∃ ρ, ρs[k]? = some ρ ∧ ρs[k + 1]? = some (ρ * τ)

end Bellframe
