import Verif.Proofs.Iterators

/-!
# C75: iterators over rows know their length

`same_stage_vec::Iter` (which `AnnotBlock::rows` and `all_rows` also return) combined with the adapters of
the standard library.
-/

namespace Bellframe.Props

open Bellframe

/-- The iterator over the rows of a vector. -/
abbrev rowsIter : ExactIter SameStageVec.Iter Row := SameStageVec.Iter.traits

/-- Going through the rows of a vector forwards and backwards, also through `rev`, `enumerate`, `take` and
`zip` and, forwards only, `skip`; and the lengths of the iterator, `rev` and `enumerate`.  (Missing: `skip`
backwards and the lengths of `skip`, `take` and `zip`, which panic.) -/
theorem C75_rows_partial (s : Stage) (rows : List Row) (h : RowsOf s rows) (s' : Stage) (rows' : List Row)
    (h' : RowsOf s' rows') (n : Nat) :
    let it := (SameStageVec.ofRows s rows).iter
    let it' := (SameStageVec.ofRows s' rows').iter
    (Yields rowsIter.next it rows ∧ Yields rowsIter.nextBack it rows.reverse) ∧
    (Yields rowsIter.rev.next it rows.reverse ∧ Yields rowsIter.rev.nextBack it rows) ∧
    (Yields rowsIter.enumerate.next (it, 0) (rows.zipIdx.map Prod.swap) ∧
      Yields rowsIter.enumerate.nextBack (it, 0) (rows.zipIdx.map Prod.swap).reverse) ∧
    (Yields rowsIter.take.next (it, n) (rows.take n) ∧
      Yields rowsIter.take.nextBack (it, n) (rows.take n).reverse) ∧
    (Yields (rowsIter.zip rowsIter).next (it, it') (rows.zip rows') ∧
      Yields (rowsIter.zip rowsIter).nextBack (it, it') (rows.zip rows').reverse) ∧
    Yields rowsIter.skip.next (it, n) (rows.drop n) ∧
    rowsIter.len it = .ok rows.length ∧ rowsIter.rev.len it = .ok rows.length ∧
    rowsIter.enumerate.len (it, 0) = .ok rows.length := by
  have hd := rows_isDeque s
  have hl := rows_knowsLength s
  have hd' := rows_isDeque s'
  have hl' := rows_knowsLength s'
  have hs : HasRows s (SameStageVec.ofRows s rows).iter rows := ⟨h, rfl⟩
  have hs' : HasRows s' (SameStageVec.ofRows s' rows').iter rows' := ⟨h', rfl⟩
  have hr := hd.rev.yields (s := (SameStageVec.ofRows s rows).iter) (l := rows.reverse) (by simpa using hs)
  rw [List.reverse_reverse] at hr
  exact ⟨hd.yields hs, hr, (hd.enumerate hl).yields ⟨rows, hs, rfl⟩, (hd.take hl).yields ⟨rows, hs, rfl⟩,
    (hd.zip hl hd' hl').yields ⟨rows, rows', hs, hs', rfl⟩, hd.skip_front.yields ⟨rows, hs, rfl⟩,
    hl _ _ hs, hl _ _ hs, hl _ _ hs⟩

/-- Two rows and three rows. -/
example : let a : Row := ⟨[⟨1⟩, ⟨0⟩, ⟨2⟩]⟩; let b : Row := ⟨[⟨0⟩, ⟨2⟩, ⟨1⟩]⟩
    RowsOf ⟨3⟩ [a, b] ∧ RowsOf ⟨3⟩ [b, b, a] := by
  decide

/-- An iterator that keeps the contract of `ExactSizeIterator` works with all these adapters. -/
theorem C75_contract {S α : Type} (it : ExactIter S α) (represents : S → List α → Prop)
    (hd : IsDeque it represents) (hl : KnowsLength it represents) (hh : HintsLength it represents)
    (s t : S) (l k : List α) (hs : represents s l) (ht : represents t k) (n : Nat) :
    (Yields it.skip.next (s, n) (l.drop n) ∧ Yields it.skip.nextBack (s, n) (l.drop n).reverse) ∧
    it.skip.len (s, n) = .ok (l.length - n) ∧ it.take.len (s, n) = .ok (min n l.length) ∧
    (it.zip it).len (s, t) = .ok (min l.length k.length) := by
  refine ⟨(hd.skip hh).yields ⟨l, hs, rfl⟩, ?_, ?_, ?_⟩
  · rw [← List.length_drop]
    exact (IsDeque.skip_hints hh).defaultLen (s := (s, n)) ⟨l, hs, rfl⟩
  · rw [← List.length_take]
    exact (IsDeque.take_hints hh).defaultLen (s := (s, n)) ⟨l, hs, rfl⟩
  · rw [← List.length_zip]
    exact (IsDeque.zip_hints hh hh).defaultLen (s := (s, t)) ⟨l, k, hs, ht, rfl⟩

/-- Iterators over slices, such as `Row::bell_iter` and `AnnotBlock::annots`, keep the contract. -/
example : let it : ExactIter (List Bell) Bell := ⟨fun l => .ok (l.head?, l.tail),
      fun l => .ok (l.getLast?, l.dropLast), fun l => (l.length, some l.length), fun l => .ok l.length⟩
    IsDeque it Eq ∧ KnowsLength it Eq ∧ HintsLength it Eq := by
  refine ⟨⟨?_, ?_⟩, ?_, ?_⟩
  · rintro s _ rfl; exact ⟨_, rfl, rfl⟩
  · rintro s _ rfl; exact ⟨_, rfl, rfl⟩
  · rintro s _ rfl; rfl
  · rintro s _ rfl; rfl

/-- The iterator over rows does not keep it: whatever rows are left, the hint is "any number". So going
backwards through all rows but the first `n` panics for every vector, and so do the lengths of `skip`,
`take` and `zip`. -/
theorem C75_false (it it' : SameStageVec.Iter) (n : Nat) :
    rowsIter.sizeHint it = (0, none) ∧
    rowsIter.skip.nextBack (it, n) = .error .assert ∧ rowsIter.skip.len (it, n) = .error .assert ∧
    rowsIter.take.len (it, n + 1) = .error .assert ∧ (rowsIter.zip rowsIter).len (it, it') = .error .assert :=
  ⟨rfl, rfl, rfl, rfl, rfl⟩

/-- So the contract is broken. -/
theorem C75_not_contract (s : Stage) (hs : s.Valid) : ¬ HintsLength rowsIter (HasRows s) := by
  intro h
  have := h (SameStageVec.ofRows s []).iter [] ⟨⟨hs, by simp⟩, rfl⟩
  simp [SameStageVec.Iter.traits] at this

/-- Going backwards through a vector of one row and none skipped. -/
example : rowsIter.skip.nextBack ((SameStageVec.ofRows ⟨2⟩ [⟨[⟨0⟩, ⟨1⟩]⟩]).iter, 0) = .error .assert :=
  (C75_false _ (SameStageVec.ofRows ⟨2⟩ []).iter 0).2.1

end Bellframe.Props
