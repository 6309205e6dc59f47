import Verif.Model.Block

/-!
# Model of the row iterator as a Rust iterator of known length

`same_stage_vec::Iter` is `Iterator + DoubleEndedIterator + ExactSizeIterator`, so callers combine it with
the adapters of the standard library.  The adapters here are those of `core::iter` (the methods that are
not overridden in `src` have their default from the standard library).
-/

namespace Bellframe

/-- An implementation of `Iterator + DoubleEndedIterator + ExactSizeIterator` with states `S`. -/
structure ExactIter (S α : Type) where
  next : S → Res (Option α × S)
  nextBack : S → Res (Option α × S)
  sizeHint : S → Nat × Option Nat
  len : S → Res Nat

namespace ExactIter

variable {S T α β : Type}

/-- `ExactSizeIterator::len` where it is not overridden: `assert_eq!(upper, Some(lower))`. -/
def defaultLen (sizeHint : S → Nat × Option Nat) (s : S) : Res Nat := do
  let (lower, upper) := sizeHint s
  assertThat (upper == some lower)
  return lower

/-- `Iterator::advance_by` with its default: whether all `n` items were there. -/
def advance (next : S → Res (Option α × S)) : (n : Nat) → S → Res (Bool × S)
  | 0, s => .ok (true, s)
  | n + 1, s => do
    let (a, s') ← next s
    match a with
    | none => return (false, s')
    | some _ => advance next n s'

/-- `Iterator::nth` with its default. -/
def nth (next : S → Res (Option α × S)) (n : Nat) (s : S) : Res (Option α × S) := do
  let (ok, s') ← advance next n s
  if ok then next s' else return (none, s')

/-- `core::iter::Rev`. -/
def rev (it : ExactIter S α) : ExactIter S α := ⟨it.nextBack, it.next, it.sizeHint, it.len⟩

/-- `core::iter::Enumerate`. -/
def enumerate (it : ExactIter S α) : ExactIter (S × Nat) (Nat × α) where
  next := fun (s, count) => do
    let (a, s') ← it.next s
    match a with
    | none => return (none, s', count)
    | some a => return (some (count, a), s', count + 1)
  nextBack := fun (s, count) => do
    let (a, s') ← it.nextBack s
    match a with
    | none => return (none, s', count)
    | some a =>
      let len ← it.len s'
      return (some (count + len, a), s', count)
  sizeHint := fun (s, _) => it.sizeHint s
  len := fun (s, _) => it.len s

/-- `core::iter::Take`. -/
def take (it : ExactIter S α) : ExactIter (S × Nat) α :=
  let sizeHint : S × Nat → Nat × Option Nat := fun (s, n) =>
    if n = 0 then (0, some 0)
    else
      let (lower, upper) := it.sizeHint s
      (min lower n, match upper with
        | some x => if x < n then some x else some n
        | none => some n)
  { next := fun (s, n) => do
      if n ≠ 0 then
        let (a, s') ← it.next s
        return (a, s', n - 1)
      else return (none, s, n)
    nextBack := fun (s, n) => do
      if n = 0 then return (none, s, n)
      else
        let len ← it.len s
        let (a, s') ← nth it.nextBack (len - n) s
        return (a, s', n - 1)
    sizeHint := sizeHint
    len := defaultLen sizeHint }

/-- `core::iter::Skip`. -/
def skip (it : ExactIter S α) : ExactIter (S × Nat) α :=
  let sizeHint : S × Nat → Nat × Option Nat := fun (s, n) =>
    let (lower, upper) := it.sizeHint s
    (lower - n, upper.map (· - n))
  { next := fun (s, n) => do
      if n > 0 then
        let (a, s') ← nth it.next n s
        return (a, s', 0)
      else
        let (a, s') ← it.next s
        return (a, s', n)
    nextBack := fun (s, n) => do
      let len ← defaultLen sizeHint (s, n)
      if len > 0 then
        let (a, s') ← it.nextBack s
        return (a, s', n)
      else return (none, s, n)
    sizeHint := sizeHint
    len := defaultLen sizeHint }

/-- `core::iter::Zip`. -/
def zip (it : ExactIter S α) (jt : ExactIter T β) : ExactIter (S × T) (α × β) :=
  let sizeHint : S × T → Nat × Option Nat := fun (s, t) =>
    let (lower₁, upper₁) := it.sizeHint s
    let (lower₂, upper₂) := jt.sizeHint t
    (min lower₁ lower₂, match upper₁, upper₂ with
      | some x, some y => some (min x y)
      | some x, none => some x
      | none, some y => some y
      | none, none => none)
  { next := fun (s, t) => do
      let (a, s') ← it.next s
      match a with
      | none => return (none, s', t)
      | some a =>
        let (b, t') ← jt.next t
        match b with
        | none => return (none, s', t')
        | some b => return (some (a, b), s', t')
    nextBack := fun (s, t) => do
      let m ← it.len s
      let n ← jt.len t
      let (_, s') ← advance it.nextBack (m - n) s
      let (_, t') ← advance jt.nextBack (n - m) t
      let (a, s'') ← it.nextBack s'
      let (b, t'') ← jt.nextBack t'
      match a, b with
      | some a, some b => return (some (a, b), s'', t'')
      | none, none => return (none, s'', t'')
      | _, _ => .error .unreachable
    sizeHint := sizeHint
    len := defaultLen sizeHint }

end ExactIter

/-- The traits of `same_stage_vec::Iter` — src/row/same_stage_vec.rs:435-481; `size_hint` is not
overridden, and its default is `(0, None)`. -/
def SameStageVec.Iter.traits : ExactIter SameStageVec.Iter Row where
  next := SameStageVec.Iter.next
  nextBack := SameStageVec.Iter.nextBack
  sizeHint := fun _ => (0, none)
  len := SameStageVec.Iter.len

end Bellframe
