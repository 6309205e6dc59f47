import Verif.Model.MethodLib

/-! # Model of the crates behind the suggestions of a library

`generate_suggestions` (src/method_lib/mod.rs:76-139) uses the crates `edit-distance` 2.1 and `shortlist` 0.2.
Neither is in /repo; the first is modelled by the algorithm it uses, the second by its documented way of
working: a `BinaryHeap` of the items kept, whose smallest item is replaced when a greater one comes. -/

namespace Bellframe

namespace EditDistance

/-- One pass of the inner loop of `edit_distance`: the new values of `cur[1..]`. `pre` is the old value left of
`old`, `left` the new one. -/
def innerLoop (ca : Char) : (pre left : Nat) → (old : List Nat) → (b : List Char) → List Nat
  | pre, left, tmp :: old, cb :: b =>
    let new := min (tmp + 1) (min (left + 1) (pre + if ca = cb then 0 else 1))
    new :: innerLoop ca tmp new old b
  | _, _, _, _ => []

/-- One pass of the outer loop: the row for one more character of `a`. -/
def outerStep (b : List Char) (cur : List Nat) (i : Nat) (ca : Char) : List Nat :=
  (i + 1) :: innerLoop ca (cur.headD 0) (i + 1) cur.tail b

/-- The outer loop, from the character with index `i` on. -/
def outerLoop (b : List Char) : (cur : List Nat) → (i : Nat) → (a : List Char) → List Nat
  | cur, _, [] => cur
  | cur, i, ca :: a => outerLoop b (outerStep b cur i ca) (i + 1) a

/-- `edit_distance`, once the longer text is in front. -/
def ordered (a b : List Char) : Nat :=
  if a.length = 0 then b.length
  else if b.length = 0 then a.length
  else (outerLoop b (List.range (b.length + 1)) 0 a).getLastD 0

end EditDistance

/-- `edit_distance::edit_distance`, used in src/method_lib/mod.rs:97. -/
def editDistance (a b : String) : Nat :=
  if a.toList.length < b.toList.length then EditDistance.ordered b.toList a.toList
  else EditDistance.ordered a.toList b.toList

/-- What is used of `BinaryHeap<Reverse<T>>`: where the least item is, and the items in ascending order. Which of
several least items it is, and the order of equal items, depend on the heap. -/
structure Heap where
  peek : (String × Nat → String × Nat → Ordering) → List (String × Nat) → Nat
  intoSorted : (String × Nat → String × Nat → Ordering) → List (String × Nat) → List (String × Nat)

namespace Heap

/-- `Shortlist::push`. -/
def push (heap : Heap) (cmp : String × Nat → String × Nat → Ordering) (cap : Nat) (items : List (String × Nat))
    (x : String × Nat) : List (String × Nat) :=
  if items.length < cap then items ++ [x]
  else
    match items[heap.peek cmp items]? with
    | none => items
    | some least => if cmp x least = .gt then items.set (heap.peek cmp items) x else items

/-- `Shortlist::new`, `Shortlist::append` and `Shortlist::into_sorted_vec`, as used in
src/method_lib/mod.rs:125-132. -/
def shortlist (heap : Heap) : ShortlistFn := fun cmp cap items =>
  heap.intoSorted cmp (items.foldl (heap.push cmp cap) [])

end Heap

end Bellframe
