import Verif.Spec.PlainHunt

/-!
# Specification of Stedman

Stedman is rung on odd stages.  For six changes at a time the three bells in front hunt among themselves and
the others dodge in pairs, 4-5, 6-7 and so on up to the back.  Between two sixes all bells move on: one comes
into the front work, one goes out of it, and the one at the back stays there.  The front three hunt in one
direction in one six and in the other direction in the next.  A lead starts in the middle of a six.
-/

namespace Bellframe

/-- Where a bell in place `x` (counted from 0) goes in change `k` of a lead of Stedman on `n` bells. -/
def stedmanStep (n k x : Nat) : Nat :=
  if k = 2 ∨ k = 8 then
    -- between the sixes
    if x = n - 1 then x else if x % 2 = 0 then x + 1 else x - 1
  else if x < 3 then
    -- thirds place is made, or the bell at the lead leads again
    if k = 0 ∨ k = 3 ∨ k = 5 ∨ k = 7 ∨ k = 10 then (if x = 2 then 2 else 1 - x)
    else (if x = 0 then 0 else 3 - x)
  else if x % 2 = 1 then x + 1 else x - 1

/-- The place of bell `b` in row `t` of Stedman: leads have twelve changes. -/
def stedmanPlace (n b : Nat) : Nat → Nat
  | 0 => b
  | t + 1 => stedmanStep n (t % 12) (stedmanPlace n b t)

/-- The place notation of Stedman. -/
def stedmanText (n : Nat) : List Char :=
  (["3", "1", String.ofList [lastBellChar n], "3", "1", "3", "1", "3", String.ofList [lastBellChar n], "1", "3",
    "1"].map String.toList |>.intersperse ['.']).flatten

end Bellframe
