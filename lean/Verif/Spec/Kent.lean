import Verif.Spec.PlainHunt

/-!
# Specification of Kent Treble Bob

In Treble Bob methods the treble dodges once in every pair of places on its way to the back and on its way
to the lead.
-/

namespace Bellframe

/-- The place of the treble in row `t` of a lead of `4 * n` rows: four rows in each pair of places, with a dodge,
out and in again the same way. -/
def trebleBobPlace (n t : Nat) : Nat :=
  let u := if t < 2 * n then t else 4 * n - 1 - t
  2 * (u / 4) + u % 2

/-- The place notation of Kent Treble Bob on an even number of bells: the Kent places while the treble is in 1-2,
then dodging behind the treble while it goes to the back, with 2nds place made in each dodge; symmetric; no place but
those of the first and last bell made at the lead end. -/
def kentText (n : Nat) : List Char :=
  (([['3', '4'], ['-'], ['3', '4'], ['1', lastBellChar n]] ++
    (List.replicate (n / 2 - 1) [['-'], ['1', '2'], ['-'], ['1', lastBellChar n]]).flatten).intersperse
      ['.']).flatten ++ ',' :: ['1', lastBellChar n]

end Bellframe
