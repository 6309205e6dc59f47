import Mathlib.Algebra.Group.Nat.Even

/-!
# Specification of plain hunting and of Plain Bob

Plain hunting: every bell moves one place in every change, out to the back and in to the lead, and
stays for two blows at the back and at the lead.  In the first row the bells in odd-numbered places are
on their way out, those in even-numbered places on their way in.
-/

namespace Bellframe

/-- The way of a bell that goes from the lead to the back and back again takes `2 * n` rows: the place
at step `x < 2 * n` of it. -/
def wayPlace (n x : Nat) : Nat := if x < n then x else 2 * n - 1 - x

/-- The step of the way at which the bell is that starts in place `b` (counted from 0). -/
def wayStart (n b : Nat) : Nat := if b % 2 = 0 then b else 2 * n - 1 - b

/-- The place of bell `b` after `t` changes of plain hunting on `n` bells. -/
def huntPlace (n b t : Nat) : Nat := wayPlace n ((wayStart n b + t) % (2 * n))

/-- The place of bell `b` at the start of lead `i` of Plain Bob: the treble is always at the lead, and
the others move from lead head to lead head like bells hunting among themselves, two steps at a time. -/
def bobLeadHeadPlace (n b i : Nat) : Nat :=
  if b = 0 then 0 else huntPlace (n - 1) (b - 1) (2 * i) + 1

/-- The place of bell `b` in row `t` of Plain Bob: in each lead the bells hunt from their places in the
lead head. -/
def bobPlace (n b t : Nat) : Nat :=
  huntPlace n (bobLeadHeadPlace n b (t / (2 * n))) (t % (2 * n))

/-- The names of the bells that can be written. -/
def bellChars : List Char := "1234567890ETABCDFGHJKLMNPQRSUVWYZ".toList

/-- The name of the last bell of a stage. -/
def lastBellChar (n : Nat) : Char := bellChars[n - 1]?.getD '?'

/-- The two changes of plain hunting: a cross and one with the first and the last place made, or one
with the last place made and one with the first place made. -/
def huntTexts (n : Nat) : List Char × List Char :=
  if n % 2 = 0 then (['-'], ['1', lastBellChar n]) else ([lastBellChar n], ['1'])

/-- `k` changes of plain hunting, starting with the one in which the treble leaves the lead. -/
def huntChangesText (n : Nat) : Nat → List (List Char)
  | 0 => []
  | k + 1 => huntChangesText n k ++ [if k % 2 = 0 then (huntTexts n).1 else (huntTexts n).2]

/-- The place notation of plain hunting: its two changes. -/
def plainHuntText (n : Nat) : List Char := (huntTexts n).1 ++ '.' :: (huntTexts n).2

/-- The place notation of Plain Bob: plain hunting up to the half lead, symmetric, and a change at the
lead end with seconds place made. -/
def plainBobText (n : Nat) : List Char :=
  ((huntChangesText n n).intersperse ['.']).flatten ++
    ',' :: (if n % 2 = 0 then ['1', '2'] else ['1', '2', lastBellChar n])

end Bellframe
