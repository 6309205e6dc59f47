import Verif.Model.Block

/-! # Specification of touches rung in parts -/

namespace Bellframe

variable {A : Type}

/-- A user's program: keep a block, and add its first `part.len` rows to its end again and again with
`extend_from_within(0..part.len())`. -/
def ringWithin (part : AnnotBlock A) : (again : Nat) → Res (AnnotBlock A)
  | 0 => .ok part
  | again + 1 => do
    let b ← ringWithin part again
    b.extendFromWithin (.included 0) (.excluded part.len)

end Bellframe
