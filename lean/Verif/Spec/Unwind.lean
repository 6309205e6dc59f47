import Verif.Model.Basic
import Mathlib.GroupTheory.Perm.Basic

/-! # Specification vocabulary for the state after a panic -/

namespace Bellframe

/-- What a caller who does not catch panics sees of a call that ends with the given object and
result: both if the call returns, and only the panic otherwise. -/
def onReturn {σ α : Type} (x : σ × Res α) : Res (σ × α) :=
  match x.2 with
  | .ok a => .ok (x.1, a)
  | .error p => .error p

/-- `more` are the next `count` rows when the rows `σs`, followed by `l`, go on after `l` as they do after the
`lo`-th one: what comes after `l` relates to `l` as what comes after the `lo`-th row relates to that row. -/
def GoesOnLike {n : Nat} (σs : List (Equiv.Perm (Fin n))) (l : Equiv.Perm (Fin n)) (lo count : Nat)
    (more : List (Equiv.Perm (Fin n))) : Prop :=
  more.length = count ∧ ∀ j < count, ∃ first row, (σs ++ [l])[lo]? = some first ∧
    (σs ++ [l] ++ more)[lo + (j + 1)]? = some row ∧ more[j]? = some (l * first⁻¹ * row)

end Bellframe
