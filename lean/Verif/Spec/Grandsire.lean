import Verif.Spec.PlainHunt

/-!
# Specification of Grandsire

Grandsire is plain hunting, except that thirds place is made in the first change of every lead: the first
two bells cross as usual and so hunt on, all other bells are thrown two steps back on their way.
-/

namespace Bellframe

/-- The place of bell `b` at the head of lead `i` of Grandsire.  The first two bells are at home; the others
move like bells hunting among themselves, two steps back for every lead.  (Their whole way takes
`2 * (n - 2)` steps, so these are `2 * (n - 3)` steps ahead.) -/
def grandsireHeadPlace (n b i : Nat) : Nat :=
  if b < 2 then b else huntPlace (n - 2) (b - 2) (2 * ((n - 3) * i)) + 2

/-- The place of bell `b` in row `t` of Grandsire: from the first change of a lead on the bells hunt as if
they had started from their places in the next lead head. -/
def grandsirePlace (n b t : Nat) : Nat :=
  huntPlace n (grandsireHeadPlace n b ((t + (2 * n - 1)) / (2 * n))) (t % (2 * n))

/-- The place notation of Grandsire: thirds place; then the changes of plain hunting from the second on, up
to the half lead, symmetric. -/
def grandsireText (n : Nat) : List Char :=
  (if n % 2 = 0 then ['3', lastBellChar n] else ['3']) ++
    ',' :: ((huntChangesText n (n + 1)).tail.intersperse ['.']).flatten

/-- The place notation of the bob of Grandsire: the last two changes of the lead. -/
def grandsireBobText (n : Nat) : List Char :=
  if n % 2 = 0 then ['3', lastBellChar n, '.', '1', lastBellChar n] else ['3', '.', '1']

/-- The place notation of the single of Grandsire. -/
def grandsireSingleText (n : Nat) : List Char :=
  if n % 2 = 0 then ['3', lastBellChar n, '.', '1', '2', '3', lastBellChar n] else ['3', '.', '1', '2', '3']

end Bellframe
