import Verif.Spec.Block
import Verif.Model.Class
import Mathlib.Dynamics.PeriodicPts.Defs
import Mathlib.Data.Nat.ModEq

/-!
# Specification vocabulary for methods

A method is given by the rows of its first lead (`lead`, not empty) and its lead head `τ`: every lead
of the plain course is the one before it with the bells renamed so that it starts from the lead head.
-/

namespace Bellframe

open Equiv

variable {n : Nat}

/-- Row `t` of the (endless) plain course. -/
def courseRow (lead : List (Perm (Fin n))) (τ : Perm (Fin n)) (t : Nat) : Perm (Fin n) :=
  τ ^ (t / lead.length) * lead[t % lead.length]?.getD 1

/-- The place of a bell in row `t` of the plain course. -/
def placeOfBell (lead : List (Perm (Fin n))) (τ : Perm (Fin n)) (b : Fin n) (t : Nat) : Fin n :=
  (courseRow lead τ t)⁻¹ b

/-! ## Labels -/

/-- The label at `i` after a sequence of label changes: that of the last change there, or else what it
was at first. -/
def labelAfter (before : Option String) (changes : List (Nat × Option String)) (i : Nat) :
    Option String :=
  ((changes.filter fun c => c.1 == i).getLast?.map (·.2)).getD before

/-! ## Names -/

/-- The words with single spaces between them. -/
def joinSpaces : List String → String
  | [] => ""
  | [w] => w
  | w :: ws => w ++ (" " ++ joinSpaces ws)

/-- The names of the classes. -/
def className : MethodClass → String
  | .principle => "Principle"
  | .place => "Place"
  | .bob => "Bob"
  | .trebleBob => "Treble Bob"
  | .delight => "Delight"
  | .surprise => "Surprise"
  | .treblePlace => "Treble Place"
  | .alliance => "Alliance"
  | .hybrid => "Hybrid"

/-- The words of the full name of a class. -/
def classWords (c : FullClass) : List String :=
  (if c.isJump then ["Jump"] else []) ++ (if c.isDifferential then ["Differential"] else []) ++
    (if c.isLittle then ["Little"] else []) ++ [className c.cls]

/-- The words for a class in a title: those of its full name, but for principles and hybrids, whose
titles have neither `Little` nor a word for the class. -/
def titleWords (c : FullClass) : List String :=
  (if c.isJump then ["Jump"] else []) ++ (if c.isDifferential then ["Differential"] else []) ++
    (if c.cls = .principle ∨ c.cls = .hybrid then []
      else (if c.isLittle then ["Little"] else []) ++ [className c.cls])

/-- No space at the start or the end, and no two spaces after each other. -/
def WellSpaced (s : String) : Prop :=
  s.toList.head? ≠ some ' ' ∧ s.toList.getLast? ≠ some ' ' ∧ ¬ [' ', ' '] <:+: s.toList

end Bellframe
