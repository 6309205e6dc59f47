import Verif.Model.HashSet

/-!
# Specification: hash codes and hash tables
-/

namespace Bellframe

/-- What a value writes to a hasher tells which value it is, whatever is written afterwards. -/
def HashIdentifies {α : Type} (f : α → List HashWrite) : Prop :=
  ∀ a b s t, f a ++ s = f b ++ t → a = b ∧ s = t

/-- A table as a user sees it: no element is there twice, and every element is in the bucket where it is looked
for. -/
def HashTable.WellFormed {K : Type} (H : Hasher) (hash : K → List HashWrite) (t : HashTable K) : Prop :=
  t.elems.Nodup ∧ ∀ i bucket, t.buckets[i]? = some bucket → ∀ k ∈ bucket, H (hash k) % t.buckets.length = i

end Bellframe
