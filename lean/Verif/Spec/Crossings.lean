import Verif.Model.Row

/-! # C109: pairs of bells which two rows ring in a different order -/

namespace Bellframe

/-- The pairs of bells of which `a` has the first before the second and `b` the second before the first. -/
def Row.crossed (a b : Row) : List (Bell × Bell) :=
  (a.bells.flatMap fun x => a.bells.map fun y => (x, y)).filter fun (x, y) =>
    match a.placeOf x, a.placeOf y, b.placeOf x, b.placeOf y with
    | some p, some q, some p', some q' => p < q && q' < p'
    | _, _, _, _ => false

end Bellframe
