import Verif.Spec.Touch
import Verif.Spec.PlainHunt

/-!
# Specification of touches with the same call in every course
-/

namespace Bellframe

variable {A : Type}

/-- The leads of a course of `k` leads, of which lead `j` (counted from 0) is called. -/
def oneCallCourse (plain called : AnnotBlock A) (k j : Nat) : List (AnnotBlock A) :=
  List.replicate j plain ++ called :: List.replicate (k - 1 - j) plain

/-- The leads of `times` such courses. -/
def oneCallTouch (plain called : AnnotBlock A) (k j times : Nat) : List (AnnotBlock A) :=
  (List.replicate times (oneCallCourse plain called k j)).flatten

/-- The usual bob of Plain Bob: fourths place made at the lead end. -/
def bobText (n : Nat) : List Char := if n % 2 = 0 then ['1', '4'] else ['1', '4', lastBellChar n]

/-- The usual single of Plain Bob: the first four places made at the lead end. -/
def singleText (n : Nat) : List Char :=
  if n % 2 = 0 then ['1', '2', '3', '4'] else ['1', '2', '3', '4', lastBellChar n]

end Bellframe
