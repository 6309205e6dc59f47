import Verif.Spec
import Verif.Model.Music
import Mathlib.Data.Nat.Factorial.Basic
import Mathlib.SetTheory.Cardinal.Finite

/-!
# Specification vocabulary for music regexes

Only the data types are taken from the model.
-/

namespace Bellframe

/-- The sequence of bells can be cut into pieces matching the elements in turn: a bell matches itself,
`x` any one bell and `*` any sequence of bells. -/
def Lang : List RegexElem → List Bell → Prop
  | [], bs => bs = []
  | .bell b :: es, bs => ∃ rest, bs = b :: rest ∧ Lang es rest
  | .any :: es, bs => ∃ x rest, bs = x :: rest ∧ Lang es rest
  | .glob :: es, bs => ∃ skipped rest, bs = skipped ++ rest ∧ Lang es rest

/-- Only a bell, or the end, comes after a glob: no adjacent globs, no wildcard after a glob. -/
def Regex.Normal (re : Regex) : Prop :=
  ∀ i, re.elems[i]? = some .glob → re.elems[i + 1]? = none ∨ ∃ b, re.elems[i + 1]? = some (.bell b)

/-- The row has, from place `p` on, `len` bells ascending by one, or descending by one, at each
place. -/
def RunAt (r : Row) (p len : Nat) : Prop :=
  p + len ≤ r.bells.length ∧ ∃ b,
    (∀ k < len, r.bells[p + k]? = some ⟨b + k⟩) ∨ ∀ k < len, r.bells[p + k]? = some ⟨b + (len - 1 - k)⟩

/-- The rows of a stage that match a regex, as permutations. -/
noncomputable def numRowsMatching (re : Regex) (n : Nat) : Nat :=
  Nat.card {σ : Equiv.Perm (Fin n) // Lang re.elems (Row.ofPerm σ).bells}

/-- The bells named by the elements, in order. -/
def bellsNamed : List RegexElem → List Bell
  | [] => []
  | .bell b :: es => b :: bellsNamed es
  | _ :: es => bellsNamed es

/-- What a character of a regex stands for; other characters are ignored. -/
inductive RegexChar : Char → RegexElem → Prop
  | wildX : RegexChar 'x' .any
  | wildDot : RegexChar '.' .any
  | glob : RegexChar '*' .glob
  | bell {c : Char} {b : Bell} (h : Bell.fromName c = some b) : RegexChar c (.bell b)

/-- The elements which a text stands for. -/
inductive RegexText : List Char → List RegexElem → Prop
  | nil : RegexText [] []
  | char {c : Char} {e : RegexElem} {s : List Char} {es : List RegexElem} (hc : RegexChar c e)
      (h : RegexText s es) : RegexText (c :: s) (e :: es)
  | skip {c : Char} {s : List Char} {es : List RegexElem} (hc : ∀ e, ¬ RegexChar c e)
      (h : RegexText s es) : RegexText (c :: s) es

/-- The number of rows matched by a regex with `u` bells of the stage not named, `w` wildcards and `g`
globs: cutting the `u - w` bells that are not on wildcards into `g` pieces, in any order of the `u`
bells. -/
def expectedCount (u w : Nat) : (g : Nat) → Nat
  | 0 => if w = u then Nat.factorial u else 0
  | g + 1 => if w ≤ u then Nat.factorial u * (u - w + g).choose g else 0

end Bellframe
