import Verif.Spec.Music
import Verif.Spec.Truth

/-! # Specification of the music of blocks -/

namespace Bellframe

variable {A : Type}

/-- The second element is the first one, with the bell `b` replaced by the bell which the row `s` has in the place
of `b`. -/
inductive Relabelled (s : Row) : RegexElem → RegexElem → Prop
  | bell {b c : Bell} (h : s.bells[b.index]? = some c) : Relabelled s (.bell b) (.bell c)
  | any : Relabelled s .any .any
  | glob : Relabelled s .glob .glob

/-- The indices of the rows rung in the block that match the regex. -/
def AnnotBlock.musicalRows (b : AnnotBlock A) (re : Regex) : Set Nat :=
  {i | ∃ r, b.Rings i r ∧ re.matches_ r = .ok true}

/-- How many rows rung in the block match the regex. -/
noncomputable def AnnotBlock.music (b : AnnotBlock A) (re : Regex) : Nat := Nat.card (b.musicalRows re)

end Bellframe
