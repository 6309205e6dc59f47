import Verif.Model.Suggestions
import Mathlib.Order.Bounds.Defs

/-! # Edits of texts; what heaps do -/

namespace Bellframe

/-- One edit: a character is inserted, removed or replaced. -/
inductive Edit : List Char → List Char → Prop where
  | insert (s t : List Char) (c : Char) : Edit (s ++ t) (s ++ c :: t)
  | remove (s t : List Char) (c : Char) : Edit (s ++ c :: t) (s ++ t)
  | replace (s t : List Char) (c d : Char) : Edit (s ++ c :: t) (s ++ d :: t)

/-- `k` edits, one after the other. -/
inductive Edits : Nat → List Char → List Char → Prop where
  | none (s : List Char) : Edits 0 s s
  | step {k : Nat} {s t u : List Char} : Edit s t → Edits k t u → Edits (k + 1) s u

/-- The Levenshtein distance: the least number of edits that lead from one text to the other. -/
def IsLevenshtein (a b : String) (k : Nat) : Prop := IsLeast {k | Edits k a.toList b.toList} k

/-- What is assumed of `BinaryHeap`, for orders given by a number: `peek` is at a least item, `intoSorted` returns
the items in ascending order. -/
structure Heap.Lawful (heap : Heap) : Prop where
  peek : ∀ (cmp : String × Nat → String × Nat → Ordering) (f : String × Nat → Int),
    (∀ a b, cmp a b = compare (f a) (f b)) → ∀ items : List (String × Nat), items ≠ [] →
      ∃ least, items[heap.peek cmp items]? = some least ∧ ∀ x ∈ items, f least ≤ f x
  intoSorted : ∀ (cmp : String × Nat → String × Nat → Ordering) (f : String × Nat → Int),
    (∀ a b, cmp a b = compare (f a) (f b)) → ∀ items : List (String × Nat),
      (heap.intoSorted cmp items).Perm items ∧ (heap.intoSorted cmp items).Pairwise (fun a b => f a ≤ f b)

end Bellframe
