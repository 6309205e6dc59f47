import Verif.Spec.Method
import Verif.Spec.PlaceNot

/-!
# Specification of the classification of methods

In terms of the places of the bells in the plain course (`placeOfBell`); only the names of the classes
are taken from the model.
-/

namespace Bellframe

open Equiv

variable {n : Nat} (lead : List (Perm (Fin n))) (τ : Perm (Fin n))

/-- A hunt bell is in the same place at every lead head. -/
def IsHuntBell (b : Fin n) : Prop := τ b = b

/-- The bell is at some time in the place. -/
def Visits (b p : Fin n) : Prop := ∃ t, placeOfBell lead τ b t = p

/-- The number of rows of the first lead in which the bell is in the place. -/
def rowsInPlace (b p : Fin n) : Nat :=
  ((List.range lead.length).filter fun t => placeOfBell lead τ b t = p).length

/-- The bell never moves. -/
def Stationary (b : Fin n) : Prop := ∃ p, ∀ t, placeOfBell lead τ b t = p

/-- The bell is twice a lead in every place it visits, and does not stand still. -/
def PlainHunt (b : Fin n) : Prop :=
  ¬ Stationary lead τ b ∧ ∀ p, Visits lead τ b p → rowsInPlace lead τ b p = 2

/-- The path is the same forwards and backwards around some point of the lead. -/
def Symmetric (b : Fin n) : Prop :=
  ∃ c, ∀ s t, s + t ≡ c [MOD lead.length] → placeOfBell lead τ b s = placeOfBell lead τ b t

/-- The bell is equally often in all places it visits. -/
def EvenlySpread (b : Fin n) : Prop :=
  ∀ p q, Visits lead τ b p → Visits lead τ b q → rowsInPlace lead τ b p = rowsInPlace lead τ b q

/-- How often the bell stays in its place, in one lead and into the next. -/
def placesMade (b : Fin n) : Nat :=
  ((List.range lead.length).filter fun t =>
    placeOfBell lead τ b t = placeOfBell lead τ b (t + 1)).length

/-- The class of the path of a hunt bell. -/
def HuntPathIs (b : Fin n) : HuntBellClass → Prop
  | .plain => PlainHunt lead τ b
  | .trebleDodging => ¬ Stationary lead τ b ∧ ¬ PlainHunt lead τ b ∧ Symmetric lead τ b ∧
      EvenlySpread lead τ b ∧ placesMade lead τ b = 2
  | .treblePlace => Stationary lead τ b ∨ (¬ PlainHunt lead τ b ∧ Symmetric lead τ b ∧
      EvenlySpread lead τ b ∧ 2 < placesMade lead τ b)
  | .alliance => ¬ Stationary lead τ b ∧ ¬ PlainHunt lead τ b ∧ Symmetric lead τ b ∧
      ¬ EvenlySpread lead τ b
  | .hybrid => ¬ Stationary lead τ b ∧ ¬ PlainHunt lead τ b ∧ (¬ Symmetric lead τ b ∨
      (EvenlySpread lead τ b ∧ placesMade lead τ b < 2))

/-- The classes of paths, from the most to the least dominant one. -/
def dominance : List HuntBellClass := [.plain, .trebleDodging, .treblePlace, .alliance, .hybrid]

/-- A hunt bell whose path has class `k`, where no hunt bell has a path of a more dominant class. -/
def Principal (k : HuntBellClass) (b : Fin n) : Prop :=
  IsHuntBell τ b ∧ HuntPathIs lead τ b k ∧
    ∀ c, IsHuntBell τ c → ∀ k', HuntPathIs lead τ c k' → dominance.idxOf k ≤ dominance.idxOf k'

/-- The bell goes one place up or down and directly back. -/
def SharpTurn (b : Fin n) : Prop :=
  ∃ t, placeOfBell lead τ b t = placeOfBell lead τ b (t + 2) ∧
    ((placeOfBell lead τ b (t + 1)).val + 1 = (placeOfBell lead τ b t).val ∨
      (placeOfBell lead τ b (t + 1)).val = (placeOfBell lead τ b t).val + 1)

/-- The places visited by the bell form pairs, from the lowest up; between rows `t` and `t + 1` the
bell goes from one pair to another. -/
def CrossesAt (b : Fin n) (t : Nat) : Prop :=
  ∃ lo, Visits lead τ b lo ∧ (∀ p, Visits lead τ b p → lo ≤ p) ∧
    ((placeOfBell lead τ b t).val - lo.val) / 2 ≠ ((placeOfBell lead τ b (t + 1)).val - lo.val) / 2

/-- Between rows `t` and `t + 1` a bell stays in a place other than the first and the last. -/
def InternalPlaceAt (t : Nat) : Prop :=
  ∃ p : Fin n, p.val ≠ 0 ∧ p.val + 1 ≠ n ∧ courseRow lead τ t p = courseRow lead τ (t + 1) p

/-- Between rows `t` and `t + 1` a principal hunt bell goes from one pair of places to another. -/
def CrossSection (t : Nat) : Prop :=
  ∃ b, Principal lead τ .trebleDodging b ∧ CrossesAt lead τ b t

/-- The class of a method. -/
def ClassIs : MethodClass → Prop
  | .principle => ∀ b, ¬ IsHuntBell τ b
  | .place => (∃ b, Principal lead τ .plain b) ∧
      ∀ b, ¬ Principal lead τ .plain b → ¬ SharpTurn lead τ b
  | .bob => (∃ b, Principal lead τ .plain b) ∧
      ∃ b, ¬ Principal lead τ .plain b ∧ SharpTurn lead τ b
  | .trebleBob => (∃ b, Principal lead τ .trebleDodging b) ∧
      ∀ t, CrossSection lead τ t → ¬ InternalPlaceAt lead τ t
  | .delight => (∃ b, Principal lead τ .trebleDodging b) ∧
      (∃ t, CrossSection lead τ t ∧ InternalPlaceAt lead τ t) ∧
      (∃ t, CrossSection lead τ t ∧ ¬ InternalPlaceAt lead τ t)
  | .surprise => (∃ b, Principal lead τ .trebleDodging b) ∧
      (∃ t, CrossSection lead τ t) ∧ ∀ t, CrossSection lead τ t → InternalPlaceAt lead τ t
  | .treblePlace => ∃ b, Principal lead τ .treblePlace b
  | .alliance => ∃ b, Principal lead τ .alliance b
  | .hybrid => ∃ b, Principal lead τ .hybrid b

/-- There are hunt bells, and none of the principal ones visits all places. -/
def IsLittle : Prop :=
  (∃ b, IsHuntBell τ b) ∧ ∀ k b, Principal lead τ k b → ∃ p, ¬ Visits lead τ b p

/-- Two working bells return to their places after different numbers of leads. -/
def IsDifferential : Prop :=
  ∃ a b, ¬ IsHuntBell τ a ∧ ¬ IsHuntBell τ b ∧
    Function.minimalPeriod τ a ≠ Function.minimalPeriod τ b

/-- Every row of the lead is followed by a row in which no bell has moved more than one place. -/
def NoJumps : Prop :=
  ∀ t < lead.length, IsChange ((courseRow lead τ t)⁻¹ * courseRow lead τ (t + 1))

/-- No bell jumps where a principal hunt bell goes from one pair of places to another. -/
def CrossesClear : Prop :=
  ∀ t < lead.length, CrossSection lead τ t →
    IsChange ((courseRow lead τ t)⁻¹ * courseRow lead τ (t + 1))

/-- The changes `τs'` are those of `τs`, rung forwards or backwards and begun at any of them. -/
def SameRound (τs τs' : List (Perm (Fin n))) : Prop :=
  ∃ k, τs' = τs.rotate k ∨ τs' = τs.reverse.rotate k

/-- A change with its places counted from the back. -/
def upsideDown (τ : Perm (Fin n)) : Perm (Fin n) := Fin.revPerm * τ * Fin.revPerm

end Bellframe
