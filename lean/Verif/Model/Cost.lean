import Verif.Model.Class
import Verif.Model.Music

/-!
# The documented running times

The functions whose documentation says how much work they do, with the counters of that work added
to their loops: what they read (`Regex::run_match`), how often they go round their loop
(`Row::parity`), how many rows they invert and multiply (`Row::is_group`), and how many places they
compare (`is_palindromic`).  Nothing else is changed: `Props/Cost.lean` shows that the results are
those of the functions without counters.
-/

namespace Bellframe

namespace Regex

/-- The inner loop of `run_match` after a glob — src/music.rs:413-427; `m` counts the calls of
`bells.next()`. -/
def seekBellCounted (b : Bell) : List (Bell × Nat) → (m : Nat) → Option (Nat × List (Bell × Nat)) × Nat
  | [], m => (none, m + 1)
  | (x, i) :: rest, m => if x = b then (some (i, rest), m + 1) else seekBellCounted b rest (m + 1)

/-- The loop of `run_match` — src/music.rs:377-440; `n` counts the calls of `regex_elems.next()`, `m`
those of `bells.next()`. -/
def runMatchLoopCounted : List RegexElem → List (Bell × Nat) → (acc : List Nat) → (n m : Nat) →
    Res (Bool × List Nat) × Nat × Nat
  | [], bells, acc, n, m => (.ok (bells.isEmpty, acc), n + 1, m + 1)
  | .bell _ :: _, [], acc, n, m => (.ok (false, acc), n + 1, m + 1)
  | .bell b :: es, (x, i) :: bells, acc, n, m =>
    if x = b then runMatchLoopCounted es bells (acc ++ [i]) (n + 1) (m + 1)
    else (.ok (false, acc), n + 1, m + 1)
  | .any :: _, [], acc, n, m => (.ok (false, acc), n + 1, m + 1)
  | .any :: es, _ :: bells, acc, n, m => runMatchLoopCounted es bells acc (n + 1) (m + 1)
  | .glob :: [], _, acc, n, m => (.ok (true, acc), n + 2, m)
  | .glob :: .bell b :: es, bells, acc, n, m =>
    match seekBellCounted b bells m with
    | (some (i, rest), m') => runMatchLoopCounted es rest (acc ++ [i]) (n + 2) m'
    | (none, m') => (.ok (false, acc), n + 2, m')
  | .glob :: .any :: _, _, _, n, m => (.error .unreachable, n + 2, m)
  | .glob :: .glob :: _, _, _, n, m => (.error .unreachable, n + 2, m)

/-- `Regex::run_match` — src/music.rs:369-441; also returns how many elements were read from the regex
and how many bells from the row (the attempts that found nothing left are counted, too). -/
def runMatchCounted (re : Regex) (r : Row) : Res (Bool × List Nat) × Nat × Nat :=
  runMatchLoopCounted re.elems r.bells.zipIdx [] 0 0

end Regex

namespace Row

/-- The loop of `Row::parity` — src/row/borrowed.rs:146-158; `k` counts the iterations. -/
def parityLoopCounted (r : Row) (numSwaps first k : Nat) : Run (Row × Nat × Nat) := do
  let st ← (r.stage : Res Stage)
  if first < st.numBells then
    let cur ← r.get first
    if cur = Bell.fromIndex first then
      parityLoopCounted r numSwaps (first + 1) (k + 1)
    else
      let r' ← r.swap first cur.index
      parityLoopCounted r' (numSwaps + 1) first (k + 1)
  else
    return (r, numSwaps, k)
partial_fixpoint

/-- `Row::parity` — src/row/borrowed.rs:144-160; also returns how many iterations the loop made. -/
def parityCounted (r : Row) : Run (Row × Parity × Nat) := do
  let (r', numSwaps, k) ← parityLoopCounted r 0 0 0
  return (r', Parity.fromNumber numSwaps, k)

/-- The loop over `a` in `is_group` — src/row/borrowed.rs:780-788; `muls` counts the transpositions. -/
def isGroupInnerCounted (rowSet : List Row) (bInv : Row) : (as : List Row) → (buf : Row) → (muls : Nat) →
    Res (Bool × Row × Nat)
  | [], buf, muls => .ok (true, buf, muls)
  | a :: as, buf, muls => do
    let buf' ← a.mulIntoUnchecked bInv buf
    if buf' ∈ rowSet then isGroupInnerCounted rowSet bInv as buf' (muls + 1)
    else return (false, buf', muls + 1)

/-- The loop over `b` in `is_group` — src/row/borrowed.rs:778-789; `invs` counts the inversions. -/
def isGroupOuterCounted (rowSet : List Row) : (bs : List Row) → (bInv buf : Row) → (invs muls : Nat) →
    Res (Bool × Nat × Nat)
  | [], _, _, invs, muls => .ok (true, invs, muls)
  | b :: bs, bInv, buf, invs, muls => do
    let bInv' ← b.invIntoBuf bInv
    let (ok, buf', muls') ← isGroupInnerCounted rowSet bInv' rowSet buf muls
    if ok then isGroupOuterCounted rowSet bs bInv' buf' (invs + 1) muls'
    else return (false, invs + 1, muls')

/-- `Row::is_group` — src/row/borrowed.rs:747-792; also returns the number of inversions and of
transpositions. -/
def isGroupCounted (rowSet : List Row) : Res (Except IncompatibleStages (Bool × Nat × Nat)) := do
  if rowSet.isEmpty then return .ok (false, 0, 0)
  else
    match ← isGroupStages rowSet none with
    | .error e => return .error e
    | .ok () =>
      let b ← isGroupOuterCounted rowSet rowSet (rounds Stage.one) (rounds Stage.one) 0 0
      return .ok b

/-- The inner loop of `least_group_containing` — src/row/borrowed.rs:732-739; `k` counts the products. -/
def lgcExpandCounted (r : Row) : (rows : List Row) → (set frontier : List Row) → (k : Nat) →
    Res (List Row × List Row × Nat)
  | [], set, frontier, k => .ok (set, frontier, k)
  | r2 :: rs, set, frontier, k => do
    let new ← r.mulUnchecked r2
    if new ∈ set then lgcExpandCounted r rs set frontier (k + 1)
    else lgcExpandCounted r rs (set ++ [new]) (frontier ++ [new]) (k + 1)

/-- The `while let Some(r) = frontier.pop_front()` loop — src/row/borrowed.rs:731-740. -/
def lgcLoopCounted (rows : List Row) (set frontier : List Row) (k : Nat) : Run (List Row × Nat) := do
  match frontier with
  | [] => return (set, k)
  | r :: frontier' =>
    let p ← (lgcExpandCounted r rows set frontier' k : Res (List Row × List Row × Nat))
    lgcLoopCounted rows p.1 p.2.1 p.2.2
partial_fixpoint

/-- `Row::least_group_containing` — src/row/borrowed.rs:706-742; also returns the number of products. -/
def leastGroupContainingCounted (rows : List Row) :
    Run (Except IncompatibleStages (List Row × Nat)) := do
  let seed ← (lgcSeed rows none [] [] : Res _)
  match seed with
  | .error e => return .error e
  | .ok (set, frontier) =>
    let out ← lgcLoopCounted rows set frontier 0
    return .ok out

end Row

namespace Classify

/-- `Iterator::all` with the closure of src/method/class.rs:486, which compares two places. -/
def allEqualCounted : List (Nat × Nat) → (k : Nat) → Bool × Nat
  | [], k => (true, k)
  | p :: l, k => if p.1 == p.2 then allEqualCounted l (k + 1) else (false, k + 1)

/-- The loop of `is_palindromic` — src/method/class.rs:484-491; `k` counts the comparisons. -/
def isPalindromicLoop (path : List Nat) : (is : List Nat) → (k : Nat) → Bool × Nat
  | [], k => (false, k)
  | i :: is, k =>
    match allEqualCounted ((path.reverse.rotate i).zip path) k with
    | (true, k') => (true, k')
    | (false, k') => isPalindromicLoop path is k'

/-- `is_palindromic` — src/method/class.rs:481-495; also returns the number of comparisons. -/
def isPalindromicCounted (path : List Nat) : Bool × Nat :=
  isPalindromicLoop path (List.range path.length) 0

end Classify

end Bellframe
