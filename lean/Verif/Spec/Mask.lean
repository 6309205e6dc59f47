import Verif.Spec
import Verif.Model.Mask

/-!
# Specification vocabulary for masks

Only the data types and the meaning of characters are taken from the model.
-/

namespace Bellframe

/-- The mask specifies bell `b` at place `i` (from 0). -/
def Mask.Gives (m : Mask) (i : Nat) (b : Bell) : Prop := m.bells[i]? = some (some b)

/-- The mask leaves place `i` open. -/
def Mask.Open (m : Mask) (i : Nat) : Prop := m.bells[i]? = some none

/-- What it means that a row satisfies a mask: they have the same stage and every specified place
holds the specified bell. -/
def Mask.Matches (m : Mask) (r : Row) : Prop :=
  m.bells.length = r.bells.length ∧ ∀ i b, m.Gives i b → r.bells[i]? = some b

/-- A mask that "is a subset of rows": some place exists, every bell is specified at most once, and
only bells of the stage are specified. -/
def Mask.WellFormed (m : Mask) : Prop :=
  m.bells ≠ [] ∧ (∀ i j b, m.Gives i b → m.Gives j b → i = j) ∧
  ∀ i b, m.Gives i b → b.index < m.bells.length

end Bellframe
