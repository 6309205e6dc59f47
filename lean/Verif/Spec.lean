import Verif.Model.Row
import Mathlib.Logic.Equiv.Defs
import Mathlib.Algebra.Group.End

/-!
# Specification vocabulary

Independent of the functions of the model (only the data types `Bell`, `Stage`, `Row` are used).
-/

namespace Bellframe

/-- A `Row` "must contain every Bell up to its Stage once and precisely once"
(src/row/borrowed.rs:26-30), and stages are never zero. -/
def Row.Valid (r : Row) : Prop :=
  r.bells ≠ [] ∧ ∀ i < r.bells.length, r.bells.count ⟨i⟩ = 1

instance (r : Row) : Decidable r.Valid := by unfold Row.Valid; infer_instance

/-- The row whose place `i` holds bell `σ i`. -/
def Row.ofPerm {n : Nat} (σ : Equiv.Perm (Fin n)) : Row := ⟨List.ofFn fun i => ⟨(σ i).val⟩⟩

/-- Composition of rows: place `i` of `comp a b` holds the bell at place `b[i]` of `a`.  (The
default value is irrelevant for valid rows of the same length.) -/
def Row.comp (a b : Row) : Row := ⟨b.bells.map fun x => a.bells[x.index]?.getD x⟩

/-- A stage that can exist: `Stage`s are never zero. -/
def Stage.Valid (s : Stage) : Prop := 0 < s.numBells

instance (s : Stage) : Decidable s.Valid := by unfold Stage.Valid; infer_instance

end Bellframe
