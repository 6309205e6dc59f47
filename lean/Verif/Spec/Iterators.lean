import Verif.Model.Iterators
import Verif.Spec.Vec

/-! # Vocabulary for iterators: what they are iterators over -/

namespace Bellframe

variable {S α : Type}

/-- Calling the function until it returns `None` gives these items, in this order, without a panic. -/
inductive Yields (next : S → Res (Option α × S)) : S → List α → Prop where
  | done {s s' : S} : next s = .ok (none, s') → Yields next s []
  | item {s s' : S} {a : α} {l : List α} :
    next s = .ok (some a, s') → Yields next s' l → Yields next s (a :: l)

/-- `represents` relates the states of an iterator to the items left, and the iterator takes them away
from both ends. -/
structure IsDeque (it : ExactIter S α) (represents : S → List α → Prop) : Prop where
  next : ∀ s l, represents s l → ∃ s', it.next s = .ok (l.head?, s') ∧ represents s' l.tail
  nextBack : ∀ s l, represents s l → ∃ s', it.nextBack s = .ok (l.getLast?, s') ∧ represents s' l.dropLast

/-- `len` is the number of items left. -/
def KnowsLength (it : ExactIter S α) (represents : S → List α → Prop) : Prop :=
  ∀ s l, represents s l → it.len s = .ok l.length

/-- The contract of `ExactSizeIterator`: "the implementation of `Iterator::size_hint` must return the
exact size of the iterator". -/
def HintsLength (it : ExactIter S α) (represents : S → List α → Prop) : Prop :=
  ∀ s l, represents s l → it.sizeHint s = (l.length, some l.length)

/-- The states of the iterator over a vector of rows that have these rows left. -/
def HasRows (stage : Stage) (it : SameStageVec.Iter) (rows : List Row) : Prop :=
  RowsOf stage rows ∧ it = (SameStageVec.ofRows stage rows).iter

end Bellframe
