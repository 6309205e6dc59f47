import Verif.Spec.PlaceNot

/-! # Specification of changes with covering bells -/

namespace Bellframe

/-- The change `τ'` is the change `τ` with covering bells: the first `n` bells do what they do in `τ`, and all others
stay in their places. -/
def Covered {n m : Nat} (τ : Equiv.Perm (Fin n)) (τ' : Equiv.Perm (Fin m)) : Prop :=
  (∀ (x : Fin n) (x' : Fin m), x'.val = x.val → (τ' x').val = (τ x).val) ∧
    ∀ x' : Fin m, n ≤ x'.val → τ' x' = x'

end Bellframe
