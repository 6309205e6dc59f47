import Verif.Model.Block
import Verif.Spec.Block
import Mathlib.Algebra.BigOperators.Group.List.Basic

/-!
# Specification of leads with calls, and of touches made of leads

The block rung by a list of changes, and two programs that a user of blocks writes: putting a call into a
lead, and joining leads to a touch.
-/

namespace Bellframe

variable {A : Type} {n : Nat}

/-- The block rung by the changes `τs` from rounds: row `t` is the product of the first `t` changes, and
the product of all changes is left over. -/
def AnnotBlock.rung (τs : List (Equiv.Perm (Fin n))) (annots : List A) : AnnotBlock A :=
  .ofPerms ((List.range τs.length).map fun t => (τs.take t).prod) τs.prod annots

/-- A user's program: ring `lead` up to row `start`, then all of `call`, then `lead` again from `covers` rows
further on.  It uses `split` (for both ends) and `extend` only; `none` if an index is out of range. -/
def spliceCall (lead call : AnnotBlock A) (start covers : Nat) :
    Res (Option (AnnotBlock A × Except IncompatibleStages Unit)) := do
  match ← lead.split start, ← lead.split (start + covers) with
  | some (before, _), some (_, after) =>
    match ← before.extend call with
    | (b, .error e) => return some (b, .error e)
    | (b, .ok ()) => return some (← b.extend after)
  | _, _ => return none

/-- One step of `ringTouch`: `extend` by a lead, unless there was an error before. -/
def touchStep (acc : AnnotBlock A × Except IncompatibleStages Unit) (lead : AnnotBlock A) :
    Res (AnnotBlock A × Except IncompatibleStages Unit) :=
  match acc with
  | (b, .error e) => return (b, .error e)
  | (b, .ok ()) => b.extend lead

/-- A user's program: start with the empty block of the stage and `extend` it by each lead in turn, stopping
at the first error. -/
def ringTouch (stage : Stage) (leads : List (AnnotBlock A)) :
    Res (AnnotBlock A × Except IncompatibleStages Unit) := do
  let start ← AnnotBlock.empty stage
  leads.foldlM touchStep (start, .ok ())

end Bellframe
