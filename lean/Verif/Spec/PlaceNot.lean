import Verif.Spec
import Verif.Model.PlaceNot

/-!
# Specification vocabulary for place notation

Only the data types and the naming of bells (`Bell.fromName`, C01) are taken from the model.
-/

namespace Bellframe

/-- A change: every bell moves by at most one place. -/
def IsChange {n : Nat} (τ : Equiv.Perm (Fin n)) : Prop :=
  ∀ x, (τ x).val ≤ x.val + 1 ∧ x.val ≤ (τ x).val + 1

instance {n : Nat} (τ : Equiv.Perm (Fin n)) : Decidable (IsChange τ) := by
  unfold IsChange; infer_instance

/-- The place notation of a change: its places are the places whose bell does not move. -/
def PlaceNot.ofChange {n : Nat} (τ : Equiv.Perm (Fin n)) : PlaceNot :=
  ⟨((List.finRange n).filter (fun x => decide (τ x = x))).map Fin.val, ⟨n⟩⟩

/-- A place notation that can exist: one that stands for a change. -/
def PlaceNot.WellFormed (pn : PlaceNot) : Prop :=
  ∃ n, 0 < n ∧ ∃ τ : Equiv.Perm (Fin n), IsChange τ ∧ pn = .ofChange τ

/-- The places written in a piece of text (other characters are ignored), from 0. -/
def givenPlaces (s : List Char) : List Nat := (s.filterMap Bell.fromName).map Bell.index

/-- The texts that mean a cross. -/
def IsCrossText (s : List Char) : Prop := s = ['x'] ∨ s = ['X'] ∨ s = ['-']

/-- Two given places with no given place strictly between them. -/
def Neighbours (G : List Nat) (p q : Nat) : Prop :=
  p ∈ G ∧ q ∈ G ∧ p < q ∧ ∀ z ∈ G, ¬ (p < z ∧ z < q)

/-- The given places determine a change on `n` bells: some place is given, all are in the stage, none
is given twice, and between two neighbouring places there is one bell or an even number of bells. -/
def Completable (n : Nat) (G : List Nat) : Prop :=
  G ≠ [] ∧ (∀ p ∈ G, p < n) ∧ G.Nodup ∧ ∀ p q, Neighbours G p q → q = p + 2 ∨ (q - p) % 2 = 1

/-- The places of the change determined by the given places: those given, the place between two given
places that are two apart, lead if an odd number of bells is below the lowest given place, and lie if
an odd number of bells is above the highest given place. -/
def Completed (n : Nat) (G : List Nat) (x : Nat) : Prop :=
  x ∈ G ∨ (∃ p ∈ G, x = p + 1 ∧ p + 2 ∈ G) ∨
  (x = 0 ∧ ∃ p ∈ G, (∀ q ∈ G, p ≤ q) ∧ p % 2 = 1) ∨
  (x + 1 = n ∧ ∃ p ∈ G, (∀ q ∈ G, q ≤ p) ∧ (n - (p + 1)) % 2 = 1)

/-- What each error says about the text. -/
def PnParseError.TrueOf (s : List Char) (stage : Stage) : PnParseError → Prop
  | .oddStageCross st => IsCrossText s ∧ st = stage ∧ stage.numBells % 2 = 1
  | .noPlacesGiven => ¬ IsCrossText s ∧ givenPlaces s = []
  | .placeOutOfStage place st => st = stage ∧ place ∈ givenPlaces s ∧ stage.numBells ≤ place ∧
      ∀ q ∈ givenPlaces s, q ≤ place
  | .duplicatePlace p => 2 ≤ (givenPlaces s).count p ∧ ∀ q ∈ givenPlaces s, q < stage.numBells
  | .ambiguousPlacesBetween p q => Neighbours (givenPlaces s) p q ∧ (q - p) % 2 = 0 ∧ q - p > 2 ∧
      ∀ q ∈ givenPlaces s, q < stage.numBells

end Bellframe
