import Verif.Proofs.Basic
import Verif.Model.Method

/-!
# Running the classification

The loops of the classification with a bound on the number of rounds, which can be evaluated; used
only for concrete cases.
-/

namespace Bellframe

variable {A : Type}

def Cycle.followFuel (lead : AnnotBlock A) (start : Bell) :
    Nat → Bell → List Bool → List Bell → List Nat → Option (List Bool × Cycle)
  | 0, _, _, _, _ => none
  | k + 1, placeBell, left, bells, path =>
    match setIdx left placeBell.index false, lead.pathOf placeBell with
    | .ok left', .ok (some p) =>
      if Bell.fromIndex p.2 = start then some (left', ⟨bells ++ [placeBell], path ++ p.1⟩)
      else followFuel lead start k (Bell.fromIndex p.2) left' (bells ++ [placeBell]) (path ++ p.1)
    | _, _ => none

theorem Cycle.followFuel_sound (lead : AnnotBlock A) (start : Bell) (k : Nat) :
    ∀ placeBell left bells path r, followFuel lead start k placeBell left bells path = some r →
      (Cycle.followLoop lead start placeBell left bells path).Returns r := by
  induction k with
  | zero => intro _ _ _ _ _ h; cases h
  | succ k ih =>
    intro placeBell left bells path r h
    rw [followFuel] at h
    split at h
    · next left' p h1 h2 =>
      rw [Cycle.followLoop]
      simp only [h1, h2, Run.lift_eq, Run.ofRes_ok_bind, unwrap_some]
      split at h
      · next hc =>
        rw [if_pos hc]
        cases h
        rfl
      · next hc =>
        rw [if_neg hc]
        exact ih _ _ _ _ _ h
    · cases h

def Cycle.cyclesFuel (lead : AnnotBlock A) : Nat → List Bool → List Cycle → Option (List Cycle)
  | 0, _, _ => none
  | k + 1, left, cycles =>
    match left.findIdx? (fun v => v) with
    | none => some cycles
    | some i =>
      match followFuel lead (Bell.fromIndex i) left.length (Bell.fromIndex i) left [] [] with
      | none => none
      | some r => cyclesFuel lead k r.1 (cycles ++ [r.2])

theorem Cycle.cyclesFuel_sound (lead : AnnotBlock A) (k : Nat) :
    ∀ left cycles r, cyclesFuel lead k left cycles = some r →
      (Cycle.cyclesLoop lead left cycles).Returns r := by
  induction k with
  | zero => intro _ _ _ h; cases h
  | succ k ih =>
    intro left cycles r h
    rw [cyclesFuel] at h
    rw [Cycle.cyclesLoop]
    split at h
    · next h1 =>
      simp only [h1]
      cases h
      rfl
    · next i h1 =>
      simp only [h1]
      split at h
      · cases h
      · next r' h2 =>
        rw [Run.returns_bind (followFuel_sound _ _ _ _ _ _ _ _ h2)]
        exact ih _ _ _ h

/-- The classification of a lead, if it can be computed. -/
def classifyFuel (lead : AnnotBlock A) : Option (Res FullClass) :=
  match lead.firstAnnotRow with
  | none => none
  | some r =>
    if r.1.isRounds then
      match Cycle.cyclesFuel lead (lead.stage.numBells + 1) (List.replicate lead.stage.numBells true) [] with
      | none => none
      | some cycles => some (Classify.classifyCycles lead cycles)
    else none

theorem classifyFuel_sound {lead : AnnotBlock A} {r : Res FullClass} (h : classifyFuel lead = some r) :
    FullClass.classify lead = Run.ofRes r := by
  unfold classifyFuel at h
  split at h
  · cases h
  · next r' h4 =>
    split at h
    · next h5 =>
      split at h
      · cases h
      · next cycles h3 =>
        unfold FullClass.classify Cycle.cyclesFromLead
        have h6 := Cycle.cyclesFuel_sound _ _ _ _ _ h3
        simp only [h4, unwrap_some, Run.lift_eq, Run.ofRes_ok_bind, h5, assertThat, if_true,
          Run.returns_bind h6]
        rw [Option.some.inj h]
    · cases h

/-- The classification of the lead of a place notation, if it can be computed. -/
def classifyText (text : List Char) (stage : Stage) : Option (Res FullClass) :=
  match PnBlock.parse text stage with
  | .ok (.ok pn) =>
    match pn.toBlockFromRounds () with
    | .ok lead => classifyFuel lead
    | .error _ => none
  | _ => none

theorem classifyText_sound {text : List Char} {stage : Stage} {c : FullClass}
    (h : classifyText text stage = some (.ok c)) :
    ∃ pn lead, PnBlock.parse text stage = .ok (.ok pn) ∧ pn.toBlockFromRounds () = .ok lead ∧
      (FullClass.classify lead).Returns c := by
  unfold classifyText at h
  split at h
  · next pn h1 =>
    split at h
    · next lead h2 =>
      refine ⟨pn, lead, h1, h2, ?_⟩
      rw [classifyFuel_sound h, Run.returns_ofRes]
    · cases h
  · cases h

end Bellframe
