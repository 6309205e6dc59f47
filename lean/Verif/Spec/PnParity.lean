import Verif.Model.Row
import Verif.Model.PlaceNot

/-! # Specification for C88: how many pairs of bells a place notation swaps -/

namespace Bellframe

/-- `Row::parity` returns `p` on the row. -/
def Row.HasParity (r : Row) (p : Parity) : Prop := ∃ r', r.parity.Returns (r', p)

/-- `k` pairs of bells are swapped when the other bells make the given places. -/
def PlaceNot.SwapsPairs (pn : PlaceNot) (k : Nat) : Prop :=
  2 * k + pn.places.length = pn.stage.numBells

/-- `ks` are the numbers of pairs swapped by the changes, in order. -/
def PnBlock.SwapsPairs (pns : List PlaceNot) (ks : List Nat) : Prop :=
  List.Forall₂ PlaceNot.SwapsPairs pns ks

end Bellframe
