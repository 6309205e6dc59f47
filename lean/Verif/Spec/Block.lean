import Verif.Spec.Vec
import Verif.Model.Block

/-! # Specification vocabulary for blocks -/

namespace Bellframe

variable {A : Type}

/-- The invariant of blocks (src/block.rs:62-71): at least one row, one annotation for each row but
the last, and all rows are valid and of the block's stage. -/
def AnnotBlock.WellFormed (b : AnnotBlock A) : Prop :=
  ∃ rows, RowsOf b.rows.stage rows ∧ b.rows = .ofRows b.rows.stage rows ∧
    rows.length = b.annots.length + 1

/-- The block with rows `σs`, left-over row `l` and the given annotations. -/
def AnnotBlock.ofPerms {n : Nat} (σs : List (Equiv.Perm (Fin n))) (l : Equiv.Perm (Fin n))
    (annots : List A) : AnnotBlock A :=
  ⟨.ofRows ⟨n⟩ ((σs ++ [l]).map Row.ofPerm), annots⟩

end Bellframe
