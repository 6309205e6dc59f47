import Verif.Model.Block

/-!
# What a panic leaves behind

The other models return nothing after a panic.  Here the operations that change an object through
`&mut self` return the object as it is when the call ends, whether it ends by returning or by
unwinding: a caller who catches the panic (`std::panic::catch_unwind`, a joined thread, or a `Drop`
that runs during the unwinding) sees that object.

Each function is the one of `Model/SameStageVec.lean` or `Model/Block.lean` with its steps in the same
order.  Code supplied by the caller may panic too: iterators and `Clone` of annotations are given as
values of `Res`.  When the code that fills a `Vec` (`Vec::extend`, `Vec::extend_from_within`) is
interrupted by a panic, the `Vec` keeps the elements stored so far (that is how the standard library
behaves: `SetLenOnDrop`).
-/

namespace Bellframe

/-- The elements that `f` gives for the elements of a list one after the other, up to the first panic,
and that panic. -/
def mapUntilPanic {α β : Type} (f : α → Res β) : List α → List β × Res Unit
  | [] => ([], .ok ())
  | a :: as =>
    match f a with
    | .error p => ([], .error p)
    | .ok b => (b :: (mapUntilPanic f as).1, (mapUntilPanic f as).2)

namespace SameStageVec

/-- The loop of `extend` — src/row/same_stage_vec.rs:263-270.  The elements of the list are what
successive calls of the iterator's `next` (and `as_ref`) do; `before` is
`num_bells_before_extend`. -/
def extendUnwindLoop (before : Nat) : (v : SameStageVec) → (rows : List (Res Row)) →
    SameStageVec × Res (Except IncompatibleStages Unit)
  | v, [] => (v, .ok (.ok ()))
  | v, .error p :: _ => (v, .error p)
  | v, .ok row :: rows =>
    match row.stage with
    | .error p => (v, .error p)
    | .ok s =>
      match IncompatibleStages.testErr v.stage s with
      | .error e => (⟨v.bells.take before, v.stage⟩, .ok (.error e))
      | .ok () => extendUnwindLoop before ⟨v.bells ++ row.bells, v.stage⟩ rows

/-- `SameStageVec::extend` — src/row/same_stage_vec.rs:258-272. -/
def extendUnwind (v : SameStageVec) (rows : List (Res Row)) :
    SameStageVec × Res (Except IncompatibleStages Unit) :=
  extendUnwindLoop v.bells.length v rows

/-- `SameStageVec::extend_range_transposed` — src/row/same_stage_vec.rs:299-313. -/
def extendRangeTransposedUnwind (v : SameStageVec) (transposition : Row) (other : SameStageVec)
    (start stop : Utils.Bound) : SameStageVec × Res (Except IncompatibleStages Unit) :=
  match transposition.stage with
  | .error p => (v, .error p)
  | .ok s =>
    match IncompatibleStages.testErr v.stage s with
    | .error e => (v, .ok (.error e))
    | .ok () =>
      match other.toBellRange start stop with
      | .error p => (v, .error p)
      | .ok range =>
        match sliceIdx other.bells range.1 range.2 with
        | .error p => (v, .error p)
        | .ok slice =>
          let new := mapUntilPanic (fun b => getIdx transposition.bells b.index) slice
          (⟨v.bells ++ new.1, v.stage⟩, new.2.map Except.ok)

/-- The loop of `extend_transposed_from_within` — src/row/same_stage_vec.rs:325-328. -/
def fromWithinUnwindLoop (transposition : Row) : (bells : List Bell) → (idxs : List Nat) →
    List Bell × Res Unit
  | bells, [] => (bells, .ok ())
  | bells, i :: idxs =>
    match getIdx bells i with
    | .error p => (bells, .error p)
    | .ok b =>
      match getIdx transposition.bells b.index with
      | .error p => (bells, .error p)
      | .ok t => fromWithinUnwindLoop transposition (bells ++ [t]) idxs

/-- `SameStageVec::extend_transposed_from_within` — src/row/same_stage_vec.rs:317-330. -/
def extendTransposedFromWithinUnwind (v : SameStageVec) (start stop : Utils.Bound)
    (transposition : Row) : SameStageVec × Res (Except IncompatibleStages Unit) :=
  match transposition.stage with
  | .error p => (v, .error p)
  | .ok s =>
    match IncompatibleStages.testErr v.stage s with
    | .error e => (v, .ok (.error e))
    | .ok () =>
      match v.toBellRange start stop with
      | .error p => (v, .error p)
      | .ok range =>
        let new := fromWithinUnwindLoop transposition v.bells
          (List.range' range.1 (range.2 - range.1))
        (⟨new.1, v.stage⟩, new.2.map Except.ok)

end SameStageVec

namespace AnnotBlock

variable {A : Type}

/-- `AnnotBlock::extend_range` — src/block.rs:313-338; `clone` is `A::clone`. -/
def extendRangeUnwind (clone : A → Res A) (b other : AnnotBlock A) (start stop : Utils.Bound) :
    AnnotBlock A × Res (Except IncompatibleStages Unit) :=
  let range := Utils.clampRange start stop other.len
  match other.getRow range.1 with
  | none => (b, .error .unwrap)
  | some first =>
    match b.leftoverRow with
    | .error p => (b, .error p)
    | .ok leftover =>
      match Row.solveXaEqualsB first leftover with
      | .error p => (b, .error p)
      | .ok (.error e) => (b, .ok (.error e))
      | .ok (.ok transposition) =>
        match b.rows.pop with
        | .error p => (b, .error p)
        | .ok (popped, _) =>
          let ext := popped.extendRangeTransposedUnwind transposition other.rows
            (.included range.1) (.excluded (range.2 + 1))
          match ext.2 with
          | .error p => (⟨ext.1, b.annots⟩, .error p)
          | .ok (.error _) => (⟨ext.1, b.annots⟩, .error .unwrap)
          | .ok (.ok ()) =>
            let cloned := mapUntilPanic clone other.annots
            (⟨ext.1, b.annots ++ cloned.1⟩, cloned.2.map Except.ok)

/-- `AnnotBlock::extend` — src/block.rs:300-305. -/
def extendUnwind (clone : A → Res A) (b other : AnnotBlock A) :
    AnnotBlock A × Res (Except IncompatibleStages Unit) :=
  b.extendRangeUnwind clone other .unbounded .unbounded

/-- `AnnotBlock::extend_from_within` — src/block.rs:341-363; `clone` is `A::clone`. -/
def extendFromWithinUnwind (clone : A → Res A) (b : AnnotBlock A) (start stop : Utils.Bound) :
    AnnotBlock A × Res Unit :=
  let range := Utils.clampRange start stop b.len
  match b.getRow range.1 with
  | none => (b, .error .unwrap)
  | some first =>
    match b.leftoverRow with
    | .error p => (b, .error p)
    | .ok leftover =>
      match Row.solveXaEqualsB first leftover with
      | .error p => (b, .error p)
      | .ok (.error _) => (b, .error .unwrap)
      | .ok (.ok transposition) =>
        let ext := b.rows.extendTransposedFromWithinUnwind (.included (range.1 + 1))
          (.excluded (range.2 + 1)) transposition
        match ext.2 with
        | .error p => (⟨ext.1, b.annots⟩, .error p)
        | .ok (.error _) => (⟨ext.1, b.annots⟩, .error .unwrap)
        | .ok (.ok ()) =>
          match sliceIdx b.annots range.1 range.2 with
          | .error p => (⟨ext.1, b.annots⟩, .error p)
          | .ok slice =>
            let cloned := mapUntilPanic clone slice
            (⟨ext.1, b.annots ++ cloned.1⟩, cloned.2)

end AnnotBlock

end Bellframe
