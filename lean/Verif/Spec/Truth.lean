import Verif.Model.Block

/-!
# Specification of truth

In change ringing a block is true if no row is rung twice in it, and false otherwise.  The left-over row is
not rung as part of the block.
-/

namespace Bellframe

variable {A B : Type}

/-- Row `i` of the block, not counting the left-over row, is `r`. -/
def AnnotBlock.Rings (b : AnnotBlock A) (i : Nat) (r : Row) : Prop := i < b.len ∧ b.getRow i = some r

/-- No row is rung twice. -/
def AnnotBlock.IsTrue (b : AnnotBlock A) : Prop := ∀ i j r, b.Rings i r → b.Rings j r → i = j

/-- No row is rung in both blocks. -/
def AnnotBlock.TrueAgainst (b : AnnotBlock A) (c : AnnotBlock B) : Prop :=
  ∀ i j r, b.Rings i r → ¬ c.Rings j r

/-- `x` is a false lead head of `b` against `c`: it turns some row of `c` into some row of `b`. -/
def FalseLeadHead (b : AnnotBlock A) (c : AnnotBlock B) (x : Row) : Prop :=
  ∃ i j r s, b.Rings i r ∧ c.Rings j s ∧ Row.solveXaEqualsB s r = .ok (.ok x)

end Bellframe
