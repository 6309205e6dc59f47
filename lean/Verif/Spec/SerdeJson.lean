import Verif.Spec.JsonText

/-! # Texts in which a stage of no bells is met -/

namespace Bellframe

namespace JsonGrammar

/-- After blanks, the text begins with the number zero, whatever follows it. -/
def BeginsWithZero (text : List Char) : Prop :=
  ∃ w rest, Blanks w ∧ text = w ++ '0' :: rest ∧ ∀ c, rest.head? = some c → c ∉ "0123456789.eE".toList

end JsonGrammar

end Bellframe
