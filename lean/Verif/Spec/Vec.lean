import Verif.Spec
import Verif.Model.SameStageVec

/-!
# Specification vocabulary for vectors of rows

A `SameStageVec` is meant to be a stage together with a list of valid rows of that stage.
-/

namespace Bellframe

/-- `rows` are valid rows of the (non-zero) stage `s`. -/
def RowsOf (s : Stage) (rows : List Row) : Prop :=
  s.Valid ∧ ∀ r ∈ rows, r.Valid ∧ r.bells.length = s.numBells

instance (s : Stage) (rows : List Row) : Decidable (RowsOf s rows) := by
  unfold RowsOf; infer_instance

/-- The vector that stores the given rows: their bells one after the other. -/
def SameStageVec.ofRows (s : Stage) (rows : List Row) : SameStageVec :=
  ⟨rows.flatMap Row.bells, s⟩

/-- Row-level description of `extend_transposed_from_within`: the rows with the given indices are
copied in turn, and an index may refer to a row that was copied earlier. -/
def SameStageVec.copyRows (t : Row) : (rows : List Row) → (idxs : List Nat) → Res (List Row)
  | rows, [] => .ok rows
  | rows, i :: idxs =>
    match rows[i]? with
    | none => .error .index
    | some r => copyRows t (rows ++ [Row.comp t r]) idxs

/-- `ls` are the lines of the text `s`: every line ends in `\n` or `\r\n`, except that the last line
may end with the text (it is then not empty). -/
inductive LinesOf : (s : List Char) → (ls : List (List Char)) → Prop
  | nil : LinesOf [] []
  | last (l : List Char) : l ≠ [] → '\n' ∉ l → LinesOf l [l]
  | lf (l t : List Char) (ls : List (List Char)) : '\n' ∉ l → l.getLast? ≠ some '\r' →
      LinesOf t ls → LinesOf (l ++ '\n' :: t) (l :: ls)
  | crlf (l t : List Char) (ls : List (List Char)) : '\n' ∉ l →
      LinesOf t ls → LinesOf (l ++ '\r' :: '\n' :: t) (l :: ls)

end Bellframe
