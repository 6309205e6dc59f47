import Verif.Model.Music
import Verif.Model.Class

/-!
# `derive(Hash)`, `Borrow` and hash sets of rows

The rest of the model takes a `HashSet` to be the list of its elements.  Here the two functions that use hash
sets of rows are modelled again on hash tables: an element is looked for only in the bucket given by its hash
code, and the order of iteration is the order of the buckets.

A value hands itself to the hasher by calls of the methods of `std::hash::Hasher` (`HashWrite`).  The hash code
is any function of the list of these calls, so everything proved holds for every hasher, with any keys.
-/

namespace Bellframe

/-- One call of a method of `std::hash::Hasher`; `words` is `write` with the bytes of an array of `usize`s, the
way in which slices of integers are hashed. -/
inductive HashWrite where
  | usize (v : Nat)
  | isize (v : Nat)
  | u8 (v : Nat)
  | words (vs : List Nat)
deriving DecidableEq, Repr

/-- `Hash for [T]` and so `Hash for Vec<T>` (standard library), for elements that are not integers: the number of
elements, then the elements. -/
def hashSlice {α : Type} (f : α → List HashWrite) (l : List α) : List HashWrite :=
  .usize l.length :: l.flatMap f

/-- `Hash for [usize]` (standard library). -/
def hashWords (l : List Nat) : List HashWrite := [.usize l.length, .words l]

/-- `Hash for bool` (standard library). -/
def hashBool (b : Bool) : List HashWrite := [.u8 (if b then 1 else 0)]

/-- `Hash for Option<T>` (standard library): the discriminant, then the value. -/
def hashOption {α : Type} (f : α → List HashWrite) : Option α → List HashWrite
  | none => [.isize 0]
  | some a => .isize 1 :: f a

/-- `derive(Hash)` — src/bell.rs:23-29. -/
def Bell.hashWrites (b : Bell) : List HashWrite := [.usize b.index]

/-- `derive(Hash)` — src/stage.rs:47-49. -/
def Stage.hashWrites (s : Stage) : List HashWrite := [.usize s.numBells]

/-- `derive(Hash)` — src/parity.rs:16-17 (`repr(u8)`). -/
def Parity.hashWrites (p : Parity) : List HashWrite :=
  match p with
  | .even => [.u8 0]
  | .odd => [.u8 1]

/-- `derive(Hash)` of the borrowed row — src/row/borrowed.rs:58-65, a slice. -/
def Row.hashWrites (r : Row) : List HashWrite := hashSlice Bell.hashWrites r.bells

/-- `RowBuf`, a row that owns its bells — src/row/owned.rs:20-27.  (Elsewhere in the model both are `Row`.) -/
structure RowBuf where
  bellVec : List Bell
deriving DecidableEq, Repr

/-- `derive(Hash)` of the owned row — src/row/owned.rs:20, a `Vec`. -/
def RowBuf.hashWrites (r : RowBuf) : List HashWrite := hashSlice Bell.hashWrites r.bellVec

/-- `Deref`, `Borrow<Row>` and `AsRef<Row>` for `RowBuf` — src/row/owned.rs:403-440. -/
def RowBuf.borrow (r : RowBuf) : Row := ⟨r.bellVec⟩

/-- `ToOwned for Row` — src/row/owned.rs:449-457. -/
def Row.toOwned (r : Row) : RowBuf := ⟨r.bells⟩

/-- `derive(PartialEq)` of the owned row — src/row/owned.rs:20: the bells are compared one by one. -/
def RowBuf.beq (a b : RowBuf) : Bool := a.bellVec == b.bellVec

/-- `derive(PartialEq)` of the borrowed row — src/row/borrowed.rs:58. -/
def Row.beq (a b : Row) : Bool := a.bells == b.bells

/-- `derive(Hash)` — src/row/same_stage_vec.rs:42-57. -/
def SameStageVec.hashWrites (v : SameStageVec) : List HashWrite :=
  hashSlice Bell.hashWrites v.bells ++ v.stage.hashWrites

/-- `derive(Hash)` — src/block.rs:61-75, given how annotations are hashed. -/
def AnnotBlock.hashWrites {A : Type} (f : A → List HashWrite) (b : AnnotBlock A) : List HashWrite :=
  b.rows.hashWrites ++ hashSlice f b.annots

/-- `derive(Hash)` — src/place_not.rs:55-77. -/
def PlaceNot.hashWrites (pn : PlaceNot) : List HashWrite := hashWords pn.places ++ pn.stage.hashWrites

/-- `derive(Hash)` — src/place_not.rs:422-430. -/
def PnBlock.hashWrites (b : PnBlock) : List HashWrite := hashSlice PlaceNot.hashWrites b.pns

/-- `derive(Hash)` — src/mask.rs:18-21. -/
def Mask.hashWrites (m : Mask) : List HashWrite := hashSlice (hashOption Bell.hashWrites) m.bells

/-- `derive(Hash)` — src/music.rs:12-20. -/
def RegexElem.hashWrites (e : RegexElem) : List HashWrite :=
  match e with
  | .bell b => .isize 0 :: b.hashWrites
  | .any => [.isize 1]
  | .glob => [.isize 2]

/-- `derive(Hash)` — src/music.rs:49-57. -/
def Regex.hashWrites (re : Regex) : List HashWrite := hashSlice RegexElem.hashWrites re.elems

/-- `derive(Hash)` — src/method/class.rs:139-141 (`repr(u8)`): the position in the declaration. -/
def MethodClass.hashWrites (c : MethodClass) : List HashWrite :=
  match c with
  | .principle => [.u8 0]
  | .place => [.u8 1]
  | .bob => [.u8 2]
  | .trebleBob => [.u8 3]
  | .delight => [.u8 4]
  | .surprise => [.u8 5]
  | .treblePlace => [.u8 6]
  | .alliance => [.u8 7]
  | .hybrid => [.u8 8]

/-- `derive(Hash)` — src/method/class.rs:16-22. -/
def FullClass.hashWrites (c : FullClass) : List HashWrite :=
  hashBool c.isJump ++ hashBool c.isLittle ++ hashBool c.isDifferential ++ c.cls.hashWrites

/-- A hasher: the hash code as a function of what was written. -/
abbrev Hasher : Type := List HashWrite → Nat

/-- The table of a `std::collections::HashSet<K>`.  Simplified: buckets are lists, where the standard library
probes one array, beginning at a place given by the hash code. -/
structure HashTable (K : Type) where
  buckets : List (List K)
deriving DecidableEq, Repr

namespace HashTable

variable {K Q : Type}

/-- `HashSet::new()`: nothing allocated. -/
def empty : HashTable K := ⟨[]⟩

/-- The elements, in the order of `HashSet::iter`. -/
def elems (t : HashTable K) : List K := t.buckets.flatten

/-- `HashSet::contains(&q)` with `K: Borrow<Q>`: only the bucket for the hash code of `q` is searched, with
the equality of `Q`. -/
def contains (H : Hasher) (borrow : K → Q) (hash : Q → List HashWrite) (eq : Q → Q → Bool) (t : HashTable K)
    (q : Q) : Bool :=
  match t.buckets[H (hash q) % t.buckets.length]? with
  | none => false
  | some bucket => bucket.any fun k => eq (borrow k) q

/-- The table with its elements distributed over `n` buckets. -/
def rehash (H : Hasher) (hash : K → List HashWrite) (n : Nat) (t : HashTable K) : HashTable K :=
  ⟨(List.range n).map fun i => t.elems.filter fun k => H (hash k) % n == i⟩

/-- `HashSet::insert(k)`: the new table, and whether `k` was not there before.  `size` is the policy for the
number of buckets, of which there must be one at least. -/
def insert (H : Hasher) (size : HashTable K → Nat) (hash : K → List HashWrite) (eq : K → K → Bool)
    (t : HashTable K) (k : K) : HashTable K × Bool :=
  if t.contains H id hash eq k then (t, false)
  else
    let n := max 1 (size t)
    let t' := t.rehash H hash n
    (⟨t'.buckets.modify (H (hash k) % n) fun bucket => bucket ++ [k]⟩, true)

/-- `FromIterator for HashSet`. -/
def collect (H : Hasher) (size : HashTable K → Nat) (hash : K → List HashWrite) (eq : K → K → Bool)
    (ks : List K) : HashTable K :=
  ks.foldl (fun t k => (t.insert H size hash eq k).1) empty

end HashTable

namespace Row

/-- The first loop of `least_group_containing` — src/row/borrowed.rs:720-725. -/
def lgcSeedOn (H : Hasher) (size : HashTable RowBuf → Nat) : (rows : List Row) → (stage : Option Stage) →
    (set : HashTable RowBuf) → (frontier : List RowBuf) →
    Res (Except IncompatibleStages (HashTable RowBuf × List RowBuf))
  | [], _, set, frontier => .ok (.ok (set, frontier))
  | r :: rs, stage, set, frontier => do
    let s ← r.stage
    match IncompatibleStages.testErrOpt stage s with
    | .error e => return .error e
    | .ok stage' =>
      let (set', new) := set.insert H size RowBuf.hashWrites RowBuf.beq r.toOwned
      lgcSeedOn H size rs stage' set' (if new then frontier ++ [r.toOwned] else frontier)

/-- The inner loop of `least_group_containing` — src/row/borrowed.rs:732-739. -/
def lgcExpandOn (H : Hasher) (size : HashTable RowBuf → Nat) (r : RowBuf) : (rows : List Row) →
    (set : HashTable RowBuf) → (frontier : List RowBuf) → Res (HashTable RowBuf × List RowBuf)
  | [], set, frontier => .ok (set, frontier)
  | r2 :: rs, set, frontier => do
    let product ← r.borrow.mulUnchecked r2
    let newRow := product.toOwned
    if !set.contains H id RowBuf.hashWrites RowBuf.beq newRow then
      lgcExpandOn H size r rs (set.insert H size RowBuf.hashWrites RowBuf.beq newRow).1 (frontier ++ [newRow])
    else lgcExpandOn H size r rs set frontier

/-- The outer loop of `least_group_containing` — src/row/borrowed.rs:731-740. -/
def lgcLoopOn (H : Hasher) (size : HashTable RowBuf → Nat) (rows : List Row) (set : HashTable RowBuf)
    (frontier : List RowBuf) : Run (HashTable RowBuf) := do
  match frontier with
  | [] => return set
  | r :: frontier' =>
    let p ← (lgcExpandOn H size r rows set frontier' : Res (HashTable RowBuf × List RowBuf))
    lgcLoopOn H size rows p.1 p.2
partial_fixpoint

/-- `Row::least_group_containing` — src/row/borrowed.rs:706-742. -/
def leastGroupContainingOn (H : Hasher) (size : HashTable RowBuf → Nat) (rows : List Row) :
    Run (Except IncompatibleStages (HashTable RowBuf)) := do
  let seed ← (lgcSeedOn H size rows none .empty [] : Res _)
  match seed with
  | .error e => return .error e
  | .ok (set, frontier) =>
    let out ← lgcLoopOn H size rows set frontier
    return .ok out

/-- The loop over `a` in `is_group` — src/row/borrowed.rs:780-788. -/
def isGroupInnerOn (H : Hasher) (rowSet : HashTable Row) (bInv : Row) : (as : List Row) → (buf : Row) →
    Res (Bool × Row)
  | [], buf => .ok (true, buf)
  | a :: as, buf => do
    let buf' ← a.mulIntoUnchecked bInv buf
    if !rowSet.contains H id Row.hashWrites Row.beq buf' then return (false, buf')
    else isGroupInnerOn H rowSet bInv as buf'

/-- The loop over `b` in `is_group` — src/row/borrowed.rs:778-789. -/
def isGroupOuterOn (H : Hasher) (rowSet : HashTable Row) : (bs : List Row) → (bInv buf : Row) → Res Bool
  | [], _, _ => .ok true
  | b :: bs, bInv, buf => do
    let bInv' ← b.invIntoBuf bInv
    let (ok, buf') ← isGroupInnerOn H rowSet bInv' rowSet.elems buf
    if ok then isGroupOuterOn H rowSet bs bInv' buf'
    else return false

/-- `Row::is_group` — src/row/borrowed.rs:747-792; the argument is what the caller's iterator yields. -/
def isGroupOn (H : Hasher) (size : HashTable Row → Nat) (rows : List Row) :
    Res (Except IncompatibleStages Bool) := do
  let rowSet := HashTable.collect H size Row.hashWrites Row.beq rows
  if rowSet.elems.isEmpty then return .ok false
  else
    match ← isGroupStages rowSet.elems none with
    | .error e => return .error e
    | .ok () =>
      let b ← isGroupOuterOn H rowSet rowSet.elems (rounds Stage.one) (rounds Stage.one)
      return .ok b

end Row

end Bellframe
