import Verif.Proofs.SameStageVec

/-! # C23–C25, C57: vectors of rows of one stage

The specification side is a plain `List Row`; `SameStageVec.ofRows s rows` is the vector whose
memory holds the bells of `rows` one after the other. -/

namespace Bellframe.Props

open Utils (Bound)

/-! ## C23: a `SameStageVec` is a list of rows -/

/-- One call on a `SameStageVec`.  `other` vectors are given by their stage and rows. -/
inductive VecOp where
  | push (r : Row)
  | pop
  | extend (rs : List Row)
  | extendFromBuf (s : Stage) (rs : List Row)
  | keepLeft (i : Nat)
  | keepRight (i : Nat)
  | swapIn (i a b : Nat)
  | swapInFirst (a b : Nat)
  | swapInLast (a b : Nat)
  | preMultiply (t : Row)
  | extendRangeTransposed (t : Row) (s : Stage) (rs : List Row) (lo hi : Bound)
  | extendTransposedFromWithin (lo hi : Bound) (t : Row)
  | get (i : Nat)
  | index (i : Nat)
  | first
  | last
  | len
  | isEmpty
  | collect
  | nextThenCollect
  | nextBackThenCollect

/-- What a call returned. -/
inductive VecOut where
  | result (r : Except IncompatibleStages Unit)
  | row (r : Option Row)
  | done (b : Bool)
  | nat (n : Nat)
  | rows (rs : List Row)
  | rowAndRows (r : Option Row) (rs : List Row)

/-- Running one call of the code. -/
def VecOp.run (v : SameStageVec) : VecOp → Res (SameStageVec × VecOut)
  | .push r => do let (v', o) ← v.push r; return (v', .result o)
  | .pop => do let (v', o) ← v.pop; return (v', .row o)
  | .extend rs => do let (v', o) ← v.extend rs; return (v', .result o)
  | .extendFromBuf s rs =>
    let (v', o) := v.extendFromBuf (.ofRows s rs)
    .ok (v', .result o)
  | .keepLeft i =>
    match v.split i with
    | some (a, _) => .ok (a, .done true)
    | none => .ok (v, .done false)
  | .keepRight i =>
    match v.split i with
    | some (_, b) => .ok (b, .done true)
    | none => .ok (v, .done false)
  | .swapIn i a b => do
    match ← v.setRow i (fun r => r.swap a b) with
    | some v' => return (v', .done true)
    | none => return (v, .done false)
  | .swapInFirst a b => do
    match ← v.setFirst (fun r => r.swap a b) with
    | some v' => return (v', .done true)
    | none => return (v, .done false)
  | .swapInLast a b => do
    match ← v.setLast (fun r => r.swap a b) with
    | some v' => return (v', .done true)
    | none => return (v, .done false)
  | .preMultiply t => do let (v', o) ← v.preMultiply t; return (v', .result o)
  | .extendRangeTransposed t s rs lo hi => do
    let (v', o) ← v.extendRangeTransposed t (.ofRows s rs) lo hi
    return (v', .result o)
  | .extendTransposedFromWithin lo hi t => do
    let (v', o) ← v.extendTransposedFromWithin lo hi t
    return (v', .result o)
  | .get i => .ok (v, .row (v.get i))
  | .index i => do let r ← v.index i; return (v, .row (some r))
  | .first => .ok (v, .row v.first)
  | .last => do let r ← v.last; return (v, .row r)
  | .len => do let n ← v.len; return (v, .nat n)
  | .isEmpty => .ok (v, .done v.isEmpty)
  | .collect => do let rs ← v.iter.collect; return (v, .rows rs)
  | .nextThenCollect => do
    let (r, it) ← v.iter.next
    let rs ← it.collect
    return (v, .rowAndRows r rs)
  | .nextBackThenCollect => do
    let (r, it) ← v.iter.nextBack
    let rs ← it.collect
    return (v, .rowAndRows r rs)

/-- Swapping the bells at places `a` and `b` of the row at position `i`, if there is such a row. -/
def VecOp.swapSpec (rows : List Row) (i a b : Nat) : Res (List Row × VecOut) :=
  match rows[i]? with
  | none => .ok (rows, .done false)
  | some r =>
    match r.bells[a]?, r.bells[b]? with
    | some x, some y => .ok (rows.set i ⟨(r.bells.set a y).set b x⟩, .done true)
    | _, _ => .error .index

/-- The specification of one call on a list of rows of stage `s`; panics are explicit. -/
def VecOp.spec (s : Stage) (rows : List Row) : VecOp → Res (List Row × VecOut)
  | .push r =>
    if r.bells.length = s.numBells then .ok (rows ++ [r], .result (.ok ()))
    else .ok (rows, .result (.error ⟨s, ⟨r.bells.length⟩⟩))
  | .pop => .ok (rows.dropLast, .row rows.getLast?)
  | .extend rs =>
    match rs.find? (fun r => r.bells.length != s.numBells) with
    | none => .ok (rows ++ rs, .result (.ok ()))
    | some r => .ok (rows, .result (.error ⟨s, ⟨r.bells.length⟩⟩))
  | .extendFromBuf s2 rs =>
    if s = s2 then .ok (rows ++ rs, .result (.ok ()))
    else .ok (rows, .result (.error ⟨s, s2⟩))
  | .keepLeft i =>
    if i ≤ rows.length then .ok (rows.take i, .done true) else .ok (rows, .done false)
  | .keepRight i =>
    if i ≤ rows.length then .ok (rows.drop i, .done true) else .ok (rows, .done false)
  | .swapIn i a b => VecOp.swapSpec rows i a b
  | .swapInFirst a b => VecOp.swapSpec rows 0 a b
  | .swapInLast a b =>
    if rows = [] then .ok (rows, .done false) else VecOp.swapSpec rows (rows.length - 1) a b
  | .preMultiply t =>
    if t.bells.length = s.numBells then .ok (rows.map (Row.comp t), .result (.ok ()))
    else .ok (rows, .result (.error ⟨⟨t.bells.length⟩, s⟩))
  | .extendRangeTransposed t _ rs lo hi =>
    if t.bells.length = s.numBells then
      let (lo, hi) := Utils.clampRange lo hi rs.length
      if lo ≤ hi ∧ hi ≤ rs.length then
        .ok (rows ++ ((rs.take hi).drop lo).map (Row.comp t), .result (.ok ()))
      else .error .index
    else .ok (rows, .result (.error ⟨s, ⟨t.bells.length⟩⟩))
  | .extendTransposedFromWithin lo hi t =>
    if t.bells.length = s.numBells then
      let (lo, hi) := Utils.clampRange lo hi rows.length
      match SameStageVec.copyRows t rows (List.range' lo (hi - lo)) with
      | .ok rows' => .ok (rows', .result (.ok ()))
      | .error e => .error e
    else .ok (rows, .result (.error ⟨s, ⟨t.bells.length⟩⟩))
  | .get i => .ok (rows, .row rows[i]?)
  | .index i =>
    match rows[i]? with
    | some r => .ok (rows, .row (some r))
    | none => .error .index
  | .first => .ok (rows, .row rows.head?)
  | .last => .ok (rows, .row rows.getLast?)
  | .len => .ok (rows, .nat rows.length)
  | .isEmpty => .ok (rows, .done rows.isEmpty)
  | .collect => .ok (rows, .rows rows)
  | .nextThenCollect => .ok (rows, .rowAndRows rows.head? rows.tail)
  | .nextBackThenCollect => .ok (rows, .rowAndRows rows.getLast? rows.dropLast)

/-- The arguments of a call are things a caller can have: valid rows and vectors of valid rows.
The one restriction beyond that is on `extend_range_transposed`, which does not check the stage of
the other vector (see `C24_other_stage_unchecked`). -/
def VecOp.Ok (s : Stage) : VecOp → Prop
  | .push r => r.Valid
  | .extend rs => ∀ r ∈ rs, r.Valid
  | .extendFromBuf s2 rs => RowsOf s2 rs
  | .preMultiply t => t.Valid
  | .extendRangeTransposed t s2 rs _ _ =>
    t.Valid ∧ RowsOf s2 rs ∧ (t.bells.length = s.numBells → s2 = s)
  | .extendTransposedFromWithin _ _ t => t.Valid
  | _ => True

/-- A history of calls; stops at the first panic. -/
def VecOp.runs (v : SameStageVec) : List VecOp → Res (SameStageVec × List VecOut)
  | [] => .ok (v, [])
  | op :: ops => do
    let (v', o) ← op.run v
    let (v'', os) ← VecOp.runs v' ops
    return (v'', o :: os)

/-- The specification of a history of calls. -/
def VecOp.specs (s : Stage) (rows : List Row) : List VecOp → Res (List Row × List VecOut)
  | [] => .ok (rows, [])
  | op :: ops => do
    let (rows', o) ← op.spec s rows
    let (rows'', os) ← VecOp.specs s rows' ops
    return (rows'', o :: os)

/-- The step of `C23_step` for `swapIn`. -/
theorem swapIn_step (s : Stage) (rows : List Row) (h : RowsOf s rows) (i a b : Nat) :
    ((VecOp.swapIn i a b).run (.ofRows s rows) =
      ((VecOp.swapIn i a b).spec s rows).map (fun p => (SameStageVec.ofRows s p.1, p.2))) ∧
    ∀ p, (VecOp.swapIn i a b).spec s rows = .ok p → RowsOf s p.1 := by
  simp only [VecOp.run, VecOp.spec, VecOp.swapSpec, SameStageVec.ofRows_setRow h]
  cases hr : rows[i]? with
  | none => exact ⟨rfl, by rintro p ⟨⟩; exact h⟩
  | some r =>
    simp only [Row.swap, getIdx]
    cases ha : r.bells[a]? with
    | none => exact ⟨rfl, by simp⟩
    | some x =>
      cases hb : r.bells[b]? with
      | none => exact ⟨rfl, by simp⟩
      | some y =>
        refine ⟨rfl, ?_⟩
        rintro p ⟨⟩
        refine ⟨h.1, fun r' hr' => ?_⟩
        rcases List.mem_or_eq_of_mem_set hr' with hr' | rfl
        · exact h.2 r' hr'
        · have hrv := h.2 r (List.mem_of_getElem? hr)
          refine ⟨?_, by simp [hrv.2]⟩
          obtain ⟨n, hn, σ, rfl⟩ := Row.valid_iff_exists_perm.1 hrv.1
          obtain ⟨ha', hx⟩ := List.getElem?_eq_some_iff.1 ha
          obtain ⟨hb', hy⟩ := List.getElem?_eq_some_iff.1 hb
          rw [Row.ofPerm_length] at ha' hb'
          have hs := Row.swap_ofPerm σ ⟨a, ha'⟩ ⟨b, hb'⟩
          simp only [Row.swap, getIdx, ha, hb, Res.ok_bind, Res.pure_eq, Except.ok.injEq] at hs
          rw [hs]
          exact Row.ofPerm_valid hn _

/-- One call on the vector that stores `rows` does exactly what the specification says: same panics,
same output, and the vector afterwards stores the specified rows — which are valid rows of the same
stage. -/
theorem C23_step (s : Stage) (rows : List Row) (h : RowsOf s rows) (op : VecOp) (hop : op.Ok s) :
    (op.run (.ofRows s rows) =
      (op.spec s rows).map (fun p => (SameStageVec.ofRows s p.1, p.2))) ∧
    ∀ p, op.spec s rows = .ok p → RowsOf s p.1 := by
  cases op with
  | push r =>
    simp only [VecOp.Ok] at hop
    simp only [VecOp.run, VecOp.spec, SameStageVec.ofRows_push r hop]
    by_cases hl : r.bells.length = s.numBells
    · rw [if_pos hl.symm, if_pos hl]
      refine ⟨rfl, ?_⟩
      rintro p ⟨⟩
      exact h.append (RowsOf.single hop hl)
    · rw [if_neg (Ne.symm hl), if_neg hl]
      exact ⟨rfl, by rintro p ⟨⟩; exact h⟩
  | pop =>
    simp only [VecOp.run, VecOp.spec, SameStageVec.ofRows_pop h]
    exact ⟨rfl, by rintro p ⟨⟩; exact h.of_subset fun r hr => List.mem_of_mem_dropLast hr⟩
  | extend rs =>
    simp only [VecOp.Ok] at hop
    simp only [VecOp.run, VecOp.spec, SameStageVec.ofRows_extend rs hop]
    cases hf : rs.find? (fun r => r.bells.length != s.numBells) with
    | none =>
      refine ⟨rfl, ?_⟩
      rintro p ⟨⟩
      refine h.append ⟨h.1, fun r hr => ⟨hop r hr, ?_⟩⟩
      rw [List.find?_eq_none] at hf
      simpa using hf r hr
    | some r => exact ⟨rfl, by rintro p ⟨⟩; exact h⟩
  | extendFromBuf s2 rs =>
    simp only [VecOp.Ok] at hop
    simp only [VecOp.run, VecOp.spec, SameStageVec.ofRows_extendFromBuf]
    by_cases hs : s = s2
    · subst hs
      simp only [if_pos]
      exact ⟨rfl, by rintro p ⟨⟩; exact h.append hop⟩
    · simp only [if_neg hs]
      exact ⟨rfl, by rintro p ⟨⟩; exact h⟩
  | keepLeft i =>
    simp only [VecOp.run, VecOp.spec, SameStageVec.ofRows_split h]
    by_cases hi : i ≤ rows.length
    · simp only [if_pos hi]
      exact ⟨rfl, by rintro p ⟨⟩; exact h.take i⟩
    · simp only [if_neg hi]
      exact ⟨rfl, by rintro p ⟨⟩; exact h⟩
  | keepRight i =>
    simp only [VecOp.run, VecOp.spec, SameStageVec.ofRows_split h]
    by_cases hi : i ≤ rows.length
    · simp only [if_pos hi]
      exact ⟨rfl, by rintro p ⟨⟩; exact h.drop i⟩
    · simp only [if_neg hi]
      exact ⟨rfl, by rintro p ⟨⟩; exact h⟩
  | swapIn i a b => exact swapIn_step s rows h i a b
  | swapInFirst a b => exact swapIn_step s rows h 0 a b
  | swapInLast a b =>
    by_cases hr : rows = []
    · subst hr
      simp only [VecOp.run, VecOp.spec, SameStageVec.setLast, SameStageVec.ofRows_len h]
      exact ⟨rfl, by rintro p ⟨⟩; exact h⟩
    · have hlen : ¬ rows.length < 1 := by
        have := List.length_pos_iff.2 hr
        omega
      have := swapIn_step s rows h (rows.length - 1) a b
      simp only [VecOp.run, VecOp.spec, SameStageVec.setLast, SameStageVec.ofRows_len h,
        Res.ok_bind, if_neg hlen, if_neg hr] at this ⊢
      exact this
  | preMultiply t =>
    simp only [VecOp.Ok] at hop
    simp only [VecOp.run, VecOp.spec, SameStageVec.ofRows_preMultiply h t hop]
    by_cases hl : t.bells.length = s.numBells
    · simp only [if_pos hl]
      exact ⟨rfl, by rintro p ⟨⟩; exact h.map_comp hop hl⟩
    · simp only [if_neg hl]
      exact ⟨rfl, by rintro p ⟨⟩; exact h⟩
  | extendRangeTransposed t s2 rs lo hi =>
    obtain ⟨ht, h2, hs⟩ := hop
    simp only [VecOp.run, VecOp.spec,
      SameStageVec.ofRows_extendRangeTransposed t ht s2 rs h2 hs]
    by_cases hl : t.bells.length = s.numBells
    · simp only [if_pos hl]
      have hs := hs hl
      subst hs
      split
      · refine ⟨rfl, ?_⟩
        rintro p ⟨⟩
        exact h.append (((h2.take _).drop _).map_comp ht hl)
      · exact ⟨rfl, by simp⟩
    · simp only [if_neg hl]
      exact ⟨rfl, by rintro p ⟨⟩; exact h⟩
  | extendTransposedFromWithin lo hi t =>
    simp only [VecOp.Ok] at hop
    simp only [VecOp.run, VecOp.spec, SameStageVec.ofRows_extendTransposedFromWithin h t hop]
    by_cases hl : t.bells.length = s.numBells
    · simp only [if_pos hl]
      have hk := (SameStageVec.fromWithinLoop_ofRows t hop hl
        ((Utils.clampRange lo hi rows.length).2 - (Utils.clampRange lo hi rows.length).1)
        (Utils.clampRange lo hi rows.length).1 rows h).2
      split
      · rename_i rows' heq
        rw [heq] at hk ⊢
        exact ⟨rfl, by rintro p ⟨⟩; exact hk rows' rfl⟩
      · rename_i e heq
        rw [heq]
        exact ⟨rfl, by simp⟩
    · simp only [if_neg hl]
      exact ⟨rfl, by rintro p ⟨⟩; exact h⟩
  | get i =>
    simp only [VecOp.run, VecOp.spec, SameStageVec.ofRows_get h]
    exact ⟨rfl, by rintro p ⟨⟩; exact h⟩
  | index i =>
    simp only [VecOp.run, VecOp.spec, SameStageVec.ofRows_index h, getIdx]
    cases rows[i]? with
    | none => exact ⟨rfl, by simp⟩
    | some r => exact ⟨rfl, by rintro p ⟨⟩; exact h⟩
  | first =>
    simp only [VecOp.run, VecOp.spec, SameStageVec.ofRows_first h]
    exact ⟨rfl, by rintro p ⟨⟩; exact h⟩
  | last =>
    simp only [VecOp.run, VecOp.spec, SameStageVec.ofRows_last h]
    exact ⟨rfl, by rintro p ⟨⟩; exact h⟩
  | len =>
    simp only [VecOp.run, VecOp.spec, SameStageVec.ofRows_len h]
    exact ⟨rfl, by rintro p ⟨⟩; exact h⟩
  | isEmpty =>
    simp only [VecOp.run, VecOp.spec, SameStageVec.ofRows_isEmpty h]
    exact ⟨rfl, by rintro p ⟨⟩; exact h⟩
  | collect =>
    simp only [VecOp.run, VecOp.spec, SameStageVec.collect_ofRows _ h]
    exact ⟨rfl, by rintro p ⟨⟩; exact h⟩
  | nextThenCollect =>
    have h' : RowsOf s rows.tail := h.of_subset fun r hr => List.mem_of_mem_tail hr
    simp only [VecOp.run, VecOp.spec, SameStageVec.next_ofRows h, Res.ok_bind,
      SameStageVec.collect_ofRows _ h']
    exact ⟨rfl, by rintro p ⟨⟩; exact h⟩
  | nextBackThenCollect =>
    have h' : RowsOf s rows.dropLast := h.of_subset fun r hr => List.mem_of_mem_dropLast hr
    simp only [VecOp.run, VecOp.spec, SameStageVec.nextBack_ofRows h, Res.ok_bind,
      SameStageVec.collect_ofRows _ h']
    exact ⟨rfl, by rintro p ⟨⟩; exact h⟩

example := C23_step ⟨3⟩ [⟨[⟨0⟩, ⟨1⟩, ⟨2⟩]⟩, ⟨[⟨1⟩, ⟨0⟩, ⟨2⟩]⟩] (by decide) (.push ⟨[⟨0⟩, ⟨2⟩, ⟨1⟩]⟩)
  (by simp only [VecOp.Ok]; decide)

/-- Every finite history of calls on a vector behaves exactly like the same history on a list of
rows. -/
theorem C23_history (s : Stage) (rows : List Row) (h : RowsOf s rows) (ops : List VecOp)
    (hops : ∀ op ∈ ops, op.Ok s) :
    (VecOp.runs (.ofRows s rows) ops =
      (VecOp.specs s rows ops).map (fun p => (SameStageVec.ofRows s p.1, p.2))) ∧
    ∀ p, VecOp.specs s rows ops = .ok p → RowsOf s p.1 := by
  induction ops generalizing rows with
  | nil => exact ⟨rfl, by rintro p ⟨⟩; exact h⟩
  | cons op ops ih =>
    obtain ⟨h1, h2⟩ := C23_step s rows h op (hops op (by simp))
    simp only [VecOp.runs, VecOp.specs, h1]
    cases hsp : op.spec s rows with
    | error e => exact ⟨rfl, by intro p hp; cases hp⟩
    | ok q =>
      obtain ⟨h3, h4⟩ := ih q.1 (h2 q hsp) (fun o ho => hops o (by simp [ho]))
      simp only [Except.map, Res.ok_bind]
      rw [h3]
      cases hss : VecOp.specs s q.1 ops with
      | error e => exact ⟨rfl, by intro p hp; cases hp⟩
      | ok q' => exact ⟨rfl, by rintro p ⟨⟩; exact h4 q' hss⟩

/-- A new vector stores no rows; a vector made from a row stores that row; the rows stored in a
vector are determined by it. -/
theorem C23_constructors (s : Stage) (r : Row) (hr : r.Valid) (rows rows' : List Row)
    (h : RowsOf s rows) (h' : RowsOf s rows') :
    SameStageVec.new s = .ofRows s [] ∧
    SameStageVec.fromRowBuf r = .ok (.ofRows ⟨r.bells.length⟩ [r]) ∧
    (SameStageVec.ofRows s rows = .ofRows s rows' → rows = rows') := by
  refine ⟨rfl, SameStageVec.ofRows_fromRowBuf hr, ?_⟩
  intro he
  have := SameStageVec.collect_ofRows _ h
  rw [he, SameStageVec.collect_ofRows _ h'] at this
  exact (Except.ok.inj this).symm

example := C23_constructors ⟨3⟩ ⟨[⟨1⟩, ⟨0⟩, ⟨2⟩]⟩ (by decide) [⟨[⟨0⟩, ⟨1⟩, ⟨2⟩]⟩, ⟨[⟨1⟩, ⟨0⟩, ⟨2⟩]⟩]
  [⟨[⟨0⟩, ⟨2⟩, ⟨1⟩]⟩] (by decide) (by decide)

/-- `split(i)` cuts the list of rows in two, and the pieces can be joined again. -/
theorem C23_split (s : Stage) (rows : List Row) (h : RowsOf s rows) (i : Nat) :
    (i ≤ rows.length → ∃ a b, (SameStageVec.ofRows s rows).split i = some (a, b) ∧
      a = .ofRows s (rows.take i) ∧ b = .ofRows s (rows.drop i) ∧ a.len = .ok i ∧
      a.extendFromBuf b = (.ofRows s rows, .ok ())) ∧
    (rows.length < i → (SameStageVec.ofRows s rows).split i = none) := by
  rw [SameStageVec.ofRows_split h]
  refine ⟨fun hi => ⟨_, _, if_pos hi, rfl, rfl, ?_, ?_⟩, fun hi => if_neg (by omega)⟩
  · rw [SameStageVec.ofRows_len (h.take i), List.length_take, Nat.min_eq_left hi]
  · rw [SameStageVec.ofRows_extendFromBuf, if_pos rfl, List.take_append_drop]

example := C23_split ⟨3⟩ [⟨[⟨0⟩, ⟨1⟩, ⟨2⟩]⟩, ⟨[⟨1⟩, ⟨0⟩, ⟨2⟩]⟩, ⟨[⟨1⟩, ⟨2⟩, ⟨0⟩]⟩] (by decide) 2

/-- One call on an iterator over a vector. -/
inductive IterOp where
  | next
  | nextBack
  | len

/-- A history of calls on one iterator; the outputs, then the iterator afterwards. -/
def IterOp.runs (it : SameStageVec.Iter) : List IterOp → Res (List VecOut × SameStageVec.Iter)
  | [] => .ok ([], it)
  | .next :: ops => do
    let (r, it') ← it.next
    let (os, it'') ← IterOp.runs it' ops
    return (.row r :: os, it'')
  | .nextBack :: ops => do
    let (r, it') ← it.nextBack
    let (os, it'') ← IterOp.runs it' ops
    return (.row r :: os, it'')
  | .len :: ops => do
    let n ← it.len
    let (os, it'') ← IterOp.runs it ops
    return (.nat n :: os, it'')

/-- The specification: a double-ended queue of rows. -/
def IterOp.specs (rows : List Row) : List IterOp → List VecOut × List Row
  | [] => ([], rows)
  | .next :: ops => let p := IterOp.specs rows.tail ops; (.row rows.head? :: p.1, p.2)
  | .nextBack :: ops => let p := IterOp.specs rows.dropLast ops; (.row rows.getLast? :: p.1, p.2)
  | .len :: ops => let p := IterOp.specs rows ops; (.nat rows.length :: p.1, p.2)

/-- An iterator over a vector is a double-ended queue of its rows: for every interleaving of `next`,
`next_back` and `len`, none panics, the outputs are those of the queue, and collecting afterwards
gives the rows that are left. -/
theorem C23_iterator_history (s : Stage) (rows : List Row) (h : RowsOf s rows) (ops : List IterOp) :
    ∃ it, IterOp.runs (SameStageVec.ofRows s rows).iter ops = .ok ((IterOp.specs rows ops).1, it) ∧
      it.collect = .ok (IterOp.specs rows ops).2 := by
  induction ops generalizing rows with
  | nil => exact ⟨_, rfl, SameStageVec.collect_ofRows _ h⟩
  | cons op ops ih =>
    cases op with
    | next =>
      obtain ⟨it, h1, h2⟩ := ih rows.tail (h.of_subset fun r hr => List.mem_of_mem_tail hr)
      refine ⟨it, ?_, h2⟩
      simp only [IterOp.runs, SameStageVec.next_ofRows h, Res.ok_bind, h1]
      rfl
    | nextBack =>
      obtain ⟨it, h1, h2⟩ := ih rows.dropLast (h.of_subset fun r hr => List.mem_of_mem_dropLast hr)
      refine ⟨it, ?_, h2⟩
      simp only [IterOp.runs, SameStageVec.nextBack_ofRows h, Res.ok_bind, h1]
      rfl
    | len =>
      obtain ⟨it, h1, h2⟩ := ih rows h
      refine ⟨it, ?_, h2⟩
      simp only [IterOp.runs, SameStageVec.iterLen_ofRows h, Res.ok_bind, h1]
      rfl

/-- Two rows taken from both ends. -/
example : let a : Row := ⟨[⟨1⟩, ⟨0⟩, ⟨2⟩]⟩; let b : Row := ⟨[⟨0⟩, ⟨2⟩, ⟨1⟩]⟩
    RowsOf ⟨3⟩ [a, b, a] ∧ (IterOp.specs [a, b, a] [.nextBack, .len, .next]).2 = [b] := by
  decide

/-- The rows 213 and 132, a rejected push, an accepted push, and a rolled-back `extend`. -/
example : let s : Stage := ⟨3⟩; let a : Row := ⟨[⟨1⟩, ⟨0⟩, ⟨2⟩]⟩; let b : Row := ⟨[⟨0⟩, ⟨2⟩, ⟨1⟩]⟩
    let c : Row := ⟨[⟨1⟩, ⟨0⟩]⟩
    RowsOf s [a, b] ∧ (∀ op ∈ [VecOp.push c, .push b, .extend [a, c]], op.Ok s) ∧
    (VecOp.runs (.ofRows s [a, b]) [.push c, .push b, .extend [a, c]]).map (fun p => p.1) =
      .ok (.ofRows s [a, b, b]) := by
  refine ⟨by decide, ?_, by decide⟩
  intro op hop
  simp only [List.mem_cons, List.not_mem_nil, or_false] at hop
  rcases hop with rfl | rfl | rfl <;> simp only [VecOp.Ok] <;> decide

/-! ## C24: bulk transposition -/

/-- `pre_multiply(t)` replaces every stored row `r` by `t * r`, `pre_multiplied` does so in a copy;
both reject a row of another stage. -/
theorem C24_pre_multiply (s : Stage) (rows : List Row) (h : RowsOf s rows) (t : Row)
    (ht : t.Valid) :
    (t.bells.length = s.numBells → ∃ rows', List.Forall₂ (fun r r' => t.mul r = .ok r') rows rows' ∧
      RowsOf s rows' ∧ (SameStageVec.ofRows s rows).preMultiply t = .ok (.ofRows s rows', .ok ()) ∧
      (SameStageVec.ofRows s rows).preMultiplied t = .ok (.ok (.ofRows s rows'))) ∧
    (t.bells.length ≠ s.numBells →
      (SameStageVec.ofRows s rows).preMultiply t =
        .ok (.ofRows s rows, .error ⟨⟨t.bells.length⟩, s⟩) ∧
      (SameStageVec.ofRows s rows).preMultiplied t = .ok (.error ⟨s, ⟨t.bells.length⟩⟩)) := by
  constructor
  · intro hl
    refine ⟨rows.map (Row.comp t), ?_, h.map_comp ht hl, ?_, ?_⟩
    · have : ∀ l : List Row, (∀ r ∈ l, r ∈ rows) →
          List.Forall₂ (fun r r' => t.mul r = .ok r') l (l.map (Row.comp t)) := by
        intro l hsub
        induction l with
        | nil => exact .nil
        | cons r l ih =>
          have hr := h.2 r (hsub r (by simp))
          exact .cons (Row.mul_eq_comp ht hr.1 (hl.trans hr.2.symm))
            (ih fun r' hr' => hsub r' (by simp [hr']))
      exact this rows (fun _ hr => hr)
    · rw [SameStageVec.ofRows_preMultiply h t ht, if_pos hl]
    · have := SameStageVec.ofRows_extendRangeTransposed (s := s) (rows := []) t ht s rows h
        (fun _ => rfl) .unbounded .unbounded
      simp only [if_pos hl, Utils.clampRange, Nat.zero_le, le_refl, and_self, if_true,
        List.take_length, List.drop_zero, List.nil_append] at this
      simp only [SameStageVec.preMultiplied, SameStageVec.extendTransposed]
      rw [show SameStageVec.new (SameStageVec.ofRows s rows).stage = .ofRows s [] from rfl, this]
      rfl
  · intro hl
    refine ⟨by rw [SameStageVec.ofRows_preMultiply h t ht, if_neg hl], ?_⟩
    have := SameStageVec.ofRows_extendRangeTransposed (s := s) (rows := []) t ht s rows h
      (fun _ => rfl) .unbounded .unbounded
    simp only [if_neg hl] at this
    simp only [SameStageVec.preMultiplied, SameStageVec.extendTransposed]
    rw [show SameStageVec.new (SameStageVec.ofRows s rows).stage = .ofRows s [] from rfl, this]
    rfl

example := C24_pre_multiply ⟨3⟩ [⟨[⟨0⟩, ⟨1⟩, ⟨2⟩]⟩, ⟨[⟨1⟩, ⟨0⟩, ⟨2⟩]⟩, ⟨[⟨1⟩, ⟨2⟩, ⟨0⟩]⟩] (by decide)
  ⟨[⟨2⟩, ⟨1⟩, ⟨0⟩]⟩ (by decide)

/-- `extend_range_transposed(t, other, lo..hi)` appends `t * r` for the rows `lo..hi` of `other`, and
`extend_transposed` those of all rows, provided that the three stages agree and the range lies within
`other`. -/
theorem C24_extend_transposed_partial (s : Stage) (rows other : List Row) (h2 : RowsOf s other)
    (t : Row) (ht : t.Valid) (hl : t.bells.length = s.numBells) (lo hi : Nat) (hlo : lo ≤ hi)
    (hhi : hi ≤ other.length) :
    (SameStageVec.ofRows s rows).extendRangeTransposed t (.ofRows s other) (.included lo)
      (.excluded hi) = .ok (.ofRows s (rows ++ ((other.take hi).drop lo).map (Row.comp t)), .ok ()) ∧
    (SameStageVec.ofRows s rows).extendTransposed t (.ofRows s other) =
      .ok (.ofRows s (rows ++ other.map (Row.comp t)), .ok ()) := by
  constructor
  · rw [SameStageVec.ofRows_extendRangeTransposed t ht s other h2 (fun _ => rfl), if_pos hl]
    simp only [Utils.clampRange, hlo, hhi, and_self, if_true]
  · rw [SameStageVec.extendTransposed,
      SameStageVec.ofRows_extendRangeTransposed t ht s other h2 (fun _ => rfl), if_pos hl]
    simp [Utils.clampRange]

example := C24_extend_transposed_partial ⟨3⟩ [⟨[⟨0⟩, ⟨1⟩, ⟨2⟩]⟩]
  [⟨[⟨0⟩, ⟨1⟩, ⟨2⟩]⟩, ⟨[⟨1⟩, ⟨0⟩, ⟨2⟩]⟩, ⟨[⟨1⟩, ⟨2⟩, ⟨0⟩]⟩] (by decide) ⟨[⟨2⟩, ⟨1⟩, ⟨0⟩]⟩ (by decide) rfl 1 3 (by decide) (by decide)

/-- The stage of the transposition is checked, and ranges outside the other vector panic. -/
theorem C24_extend_transposed_errors (s : Stage) (rows other : List Row) (h2 : RowsOf s other)
    (t : Row) (ht : t.Valid) (lo hi : Nat) :
    (t.bells.length ≠ s.numBells → (SameStageVec.ofRows s rows).extendRangeTransposed t
      (.ofRows s other) (.included lo) (.excluded hi) =
        .ok (.ofRows s rows, .error ⟨s, ⟨t.bells.length⟩⟩)) ∧
    (t.bells.length = s.numBells → (hi < lo ∨ other.length < hi) →
      (SameStageVec.ofRows s rows).extendRangeTransposed t
        (.ofRows s other) (.included lo) (.excluded hi) = .error .index) := by
  rw [SameStageVec.ofRows_extendRangeTransposed t ht s other h2 (fun _ => rfl)]
  refine ⟨fun hl => if_neg hl, fun hl hr => ?_⟩
  rw [if_pos hl]
  have hn : ¬ (lo ≤ hi ∧ hi ≤ other.length) := by omega
  exact if_neg hn

example := C24_extend_transposed_errors ⟨3⟩ [⟨[⟨0⟩, ⟨1⟩, ⟨2⟩]⟩] [⟨[⟨0⟩, ⟨1⟩, ⟨2⟩]⟩, ⟨[⟨1⟩, ⟨0⟩, ⟨2⟩]⟩] (by decide)
  ⟨[⟨2⟩, ⟨1⟩, ⟨0⟩]⟩ (by decide) 1 5

/-- The stage of the *other* vector is not checked (src/row/same_stage_vec.rs:299-313): appending
rows of a smaller stage is accepted and leaves a vector whose bells are not rows at all. -/
theorem C24_other_stage_unchecked :
    ∃ (rows other : List Row) (s s2 : Stage) (t : Row) (v : SameStageVec), RowsOf s rows ∧
      RowsOf s2 other ∧ t.Valid ∧ t.bells.length = s.numBells ∧
      (SameStageVec.ofRows s rows).extendTransposed t (.ofRows s2 other) = .ok (v, .ok ()) ∧
      (∀ rows', v ≠ .ofRows s rows' ∨ ¬ RowsOf s rows') ∧ v.len = .error .assert := by
  refine ⟨[], [⟨[⟨1⟩, ⟨0⟩]⟩], ⟨3⟩, ⟨2⟩, ⟨[⟨0⟩, ⟨1⟩, ⟨2⟩]⟩, ⟨[⟨1⟩, ⟨0⟩], ⟨3⟩⟩, by decide, by decide,
    by decide, by decide, by decide, ?_, by decide⟩
  intro rows'
  by_cases h : RowsOf ⟨3⟩ rows'
  · left
    intro he
    have := SameStageVec.ofRows_length h
    rw [← he] at this
    simp at this
    omega
  · right; exact h

/-- What happens with a vector of any stage, and any range `lo..hi`: if its rows have at most as many bells
as the transposition, all bells of the rows chosen are transposed one by one and appended, whether or not
they make up rows of the vector; if they have more, there is a panic, unless no rows are chosen. -/
theorem C24_other_stage_exact (s s2 : Stage) (rows other : List Row) (h2 : RowsOf s2 other) (t : Row)
    (ht : t.Valid) (hl : t.bells.length = s.numBells) (a b : Utils.Bound) (lo hi : Nat)
    (hr : Utils.clampRange a b other.length = (lo, hi)) :
    let result := (SameStageVec.ofRows s rows).extendRangeTransposed t (.ofRows s2 other) a b
    let chosen := ((other.take hi).drop lo).flatMap Row.bells
    (hi < lo ∨ other.length < hi → result = .error .index) ∧
    (lo ≤ hi → hi ≤ other.length → (s2.numBells ≤ s.numBells ∨ lo = hi) →
      ∃ bells, List.Forall₂ (fun x y : Bell => t.bells[x.index]? = some y) chosen bells ∧
        result = .ok (⟨(SameStageVec.ofRows s rows).bells ++ bells, s⟩, .ok ())) ∧
    (lo < hi → hi ≤ other.length → s.numBells < s2.numBells → result = .error .index) := by
  have hst : s = ⟨t.bells.length⟩ := by cases s; simp_all
  have h0 : (SameStageVec.ofRows s rows).extendRangeTransposed t (.ofRows s2 other) a b =
      (if lo ≤ hi ∧ hi ≤ other.length then
        (((other.take hi).drop lo).flatMap Row.bells).mapM (fun b => getIdx t.bells b.index) >>= fun bells =>
          (.ok (⟨(SameStageVec.ofRows s rows).bells ++ bells, s⟩, .ok ()) : Res _)
      else .error .index) := by
    simp only [SameStageVec.extendRangeTransposed, ht.stage_eq, Res.ok_bind, SameStageVec.ofRows_stage]
    rw [← hst, Row.testErr_self]
    simp only [SameStageVec.ofRows_toBellRange h2, Res.ok_bind, sliceIdx, SameStageVec.ofRows_sliceGet h2, hr]
    by_cases hc : lo ≤ hi ∧ hi ≤ other.length
    · rw [if_pos hc, if_pos hc]
      rfl
    · rw [if_neg hc, if_neg hc]
      rfl
  intro result chosen
  have hres : result = _ := h0
  have hchosen : ∀ x ∈ chosen, x.index < s2.numBells := by
    intro x hx
    obtain ⟨r, hr1, hx⟩ := List.mem_flatMap.1 hx
    obtain ⟨h3, h4⟩ := h2.2 r (List.mem_of_mem_take (List.mem_of_mem_drop hr1))
    have := (h3.mem_iff x).1 hx
    omega
  refine ⟨fun h => ?_, fun h3 h4 h5 => ?_, fun h3 h4 h5 => ?_⟩
  · rw [hres, if_neg (by omega)]
  · have hlt : ∀ x ∈ chosen, x.index < t.bells.length := by
      intro x hx
      rcases h5 with h5 | rfl
      · have := hchosen x hx
        omega
      · exfalso
        have : chosen = [] := by
          show ((other.take lo).drop lo).flatMap Row.bells = []
          rw [List.drop_eq_nil_of_le (by simp)]
          rfl
        rw [this] at hx
        simp at hx
    refine ⟨chosen.map fun x => t.bells[x.index]?.getD x, ?_, ?_⟩
    · rw [List.forall₂_map_right_iff, List.forall₂_same]
      intro x hx
      rw [List.getElem?_eq_getElem (hlt x hx)]
      rfl
    · rw [hres, if_pos ⟨h3, h4⟩, mapM_res_eq_ok (g := fun x => t.bells[x.index]?.getD x)]
      · rfl
      · intro x hx
        rw [getIdx_of_lt _ _ (hlt x hx), List.getElem?_eq_getElem (hlt x hx)]
        rfl
  · rw [hres, if_pos ⟨h3.le, h4⟩, mapM_error_only (e := .index)]
    · rfl
    · intro x _
      by_cases hx : x.index < t.bells.length
      · exact .inr ⟨_, getIdx_of_lt _ _ hx⟩
      · exact .inl (getIdx_of_le (by omega))
    · have hlo : lo < other.length := by omega
      obtain ⟨hv, hlen⟩ := h2.2 _ (List.getElem_mem hlo)
      refine ⟨⟨s.numBells⟩, List.mem_flatMap.2 ⟨other[lo], ?_, (hv.mem_iff _).2 (by show s.numBells < _; omega)⟩,
        getIdx_of_le (by show _ ≤ s.numBells; omega)⟩
      rw [List.mem_iff_getElem?]
      refine ⟨0, ?_⟩
      rw [List.getElem?_drop, Nat.add_zero, List.getElem?_take_of_lt h3, List.getElem?_eq_getElem hlo]

/-- The rows `12`, `21` of another stage transposed by `321`: the bells `3`, `2`, `2`, `3` are appended. -/
example : let other : List Row := [⟨[⟨0⟩, ⟨1⟩]⟩, ⟨[⟨1⟩, ⟨0⟩]⟩]; let t : Row := ⟨[⟨2⟩, ⟨1⟩, ⟨0⟩]⟩
    RowsOf ⟨2⟩ other ∧ t.Valid ∧ Utils.clampRange .unbounded .unbounded other.length = (0, 2) ∧
    (SameStageVec.ofRows ⟨3⟩ []).extendRangeTransposed t (.ofRows ⟨2⟩ other) .unbounded .unbounded =
      .ok (⟨[⟨2⟩, ⟨1⟩, ⟨1⟩, ⟨2⟩], ⟨3⟩⟩, .ok ()) := by decide

/-- `extend_transposed_from_within(lo..hi, t)` appends `t * r` for the vector's own rows `lo..hi`,
provided that the range lies within the vector. -/
theorem C24_from_within_partial (s : Stage) (rows : List Row) (h : RowsOf s rows) (t : Row)
    (ht : t.Valid) (lo hi : Nat) (hlo : lo ≤ hi) (hhi : hi ≤ rows.length) :
    (SameStageVec.ofRows s rows).extendTransposedFromWithin (.included lo) (.excluded hi) t =
      if t.bells.length = s.numBells then
        .ok (.ofRows s (rows ++ ((rows.take hi).drop lo).map (Row.comp t)), .ok ())
      else .ok (.ofRows s rows, .error ⟨s, ⟨t.bells.length⟩⟩) := by
  rw [SameStageVec.ofRows_extendTransposedFromWithin h t ht]
  simp only [Utils.clampRange]
  rw [SameStageVec.copyRows_in_range t (hi - lo) lo rows (by omega), List.drop_take]
  rfl

example := C24_from_within_partial ⟨3⟩ [⟨[⟨0⟩, ⟨1⟩, ⟨2⟩]⟩, ⟨[⟨1⟩, ⟨0⟩, ⟨2⟩]⟩, ⟨[⟨1⟩, ⟨2⟩, ⟨0⟩]⟩] (by decide)
  ⟨[⟨2⟩, ⟨1⟩, ⟨0⟩]⟩ (by decide) 1 3 (by decide) (by decide)

/-- A range reaching past the end does not panic (as indexing would) but copies rows that the same
call has just appended (src/row/same_stage_vec.rs:325-328). -/
theorem C24_from_within_past_end :
    ∃ (s : Stage) (rows rows' : List Row) (t : Row) (hi : Nat), RowsOf s rows ∧ t.Valid ∧
      rows.length < hi ∧
      (SameStageVec.ofRows s rows).extendTransposedFromWithin (.included 0) (.excluded hi) t =
        .ok (.ofRows s rows', .ok ()) ∧ rows'.length = rows.length + hi :=
  ⟨⟨3⟩, [⟨[⟨0⟩, ⟨1⟩, ⟨2⟩]⟩], [⟨[⟨0⟩, ⟨1⟩, ⟨2⟩]⟩, ⟨[⟨1⟩, ⟨2⟩, ⟨0⟩]⟩, ⟨[⟨2⟩, ⟨0⟩, ⟨1⟩]⟩],
    ⟨[⟨1⟩, ⟨2⟩, ⟨0⟩]⟩, 2, by decide, by decide, by decide, by decide, by decide⟩

/-- `extend_transposed_from_within` for any range `lo..hi`: nothing happens if it is empty; a range that starts
past the end panics; every other one makes as many new rows, each of them the transposed row as far behind
`lo` in the vector, which may be a new one. -/
theorem C24_from_within_exact (s : Stage) (rows : List Row) (h : RowsOf s rows) (t : Row) (ht : t.Valid)
    (hl : t.bells.length = s.numBells) (a b : Utils.Bound) (lo hi : Nat)
    (hr : Utils.clampRange a b rows.length = (lo, hi)) :
    let result := (SameStageVec.ofRows s rows).extendTransposedFromWithin a b t
    (hi ≤ lo → result = .ok (.ofRows s rows, .ok ())) ∧
    (lo < hi → rows.length ≤ lo → result = .error .index) ∧
    (lo < hi → lo < rows.length → ∃ new, result = .ok (.ofRows s (rows ++ new), .ok ()) ∧
      RowsOf s (rows ++ new) ∧ new.length = hi - lo ∧
      ∀ j < hi - lo, ∃ r, (rows ++ new)[lo + j]? = some r ∧ new[j]? = some (Row.comp t r)) := by
  intro result
  have hres : result = _ := SameStageVec.ofRows_extendTransposedFromWithin h t ht a b
  simp only [if_pos hl, hr] at hres
  refine ⟨fun h1 => ?_, fun h1 h2 => ?_, fun h1 h2 => ?_⟩
  · rw [hres, Nat.sub_eq_zero_of_le h1]
    rfl
  · obtain ⟨m, hm⟩ : ∃ m, hi - lo = m + 1 := ⟨hi - lo - 1, by omega⟩
    rw [hres, hm, List.range'_succ, SameStageVec.copyRows, List.getElem?_eq_none h2]
    rfl
  · have key : ∀ (m lo : Nat) (rows : List Row), lo < rows.length →
        ∃ new, SameStageVec.copyRows t rows (List.range' lo m) = .ok (rows ++ new) ∧ new.length = m ∧
          ∀ j < m, ∃ r, (rows ++ new)[lo + j]? = some r ∧ new[j]? = some (Row.comp t r) := by
      intro m
      induction m with
      | zero => intro lo rows _; exact ⟨[], by simp [SameStageVec.copyRows], rfl, by simp⟩
      | succ m ih =>
        intro lo rows hlo
        obtain ⟨new, h3, h4, h5⟩ := ih (lo + 1) (rows ++ [Row.comp t rows[lo]]) (by simp; omega)
        refine ⟨Row.comp t rows[lo] :: new, ?_, by simp [h4], ?_⟩
        · rw [List.range'_succ, SameStageVec.copyRows, List.getElem?_eq_getElem hlo]
          simp only
          rw [h3, List.append_assoc, List.singleton_append]
        · intro j hj
          cases j with
          | zero => exact ⟨rows[lo], by rw [Nat.add_zero, List.getElem?_append_left hlo,
              List.getElem?_eq_getElem hlo], rfl⟩
          | succ j =>
            obtain ⟨r, h6, h7⟩ := h5 j (by omega)
            refine ⟨r, ?_, h7⟩
            rw [List.append_assoc, List.singleton_append] at h6
            rw [← h6]
            congr 1
            omega
    obtain ⟨new, h3, h4, h5⟩ := key (hi - lo) lo rows h2
    refine ⟨new, ?_, (SameStageVec.fromWithinLoop_ofRows t ht hl (hi - lo) lo rows h).2 _ h3, h4, h5⟩
    rw [hres, h3]
    rfl

example : let rows : List Row := [⟨[⟨0⟩, ⟨1⟩]⟩]; let t : Row := ⟨[⟨1⟩, ⟨0⟩]⟩
    RowsOf ⟨2⟩ rows ∧ t.Valid ∧ Utils.clampRange (.included 0) (.excluded 3) rows.length = (0, 3) ∧
    (SameStageVec.ofRows ⟨2⟩ rows).extendTransposedFromWithin (.included 0) (.excluded 3) t =
      .ok (.ofRows ⟨2⟩ [⟨[⟨0⟩, ⟨1⟩]⟩, ⟨[⟨1⟩, ⟨0⟩]⟩, ⟨[⟨0⟩, ⟨1⟩]⟩, ⟨[⟨1⟩, ⟨0⟩]⟩], .ok ()) := by decide

/-- `path_of(b)` lists the place of `b` in each row, in order; it is `None` exactly for bells outside
the stage. -/
theorem C24_path_of (s : Stage) (rows : List Row) (h : RowsOf s rows) (b : Bell) :
    (b.index < s.numBells → ∃ path, (SameStageVec.ofRows s rows).pathOf b = .ok (some path) ∧
      path.length = rows.length ∧
      ∀ (i p : Nat) (r : Row), rows[i]? = some r → (path[i]? = some p ↔ r.bells[p]? = some b)) ∧
    (s.numBells ≤ b.index → (SameStageVec.ofRows s rows).pathOf b = .ok none) := by
  rcases SameStageVec.ofRows_pathOf h b with ⟨path, h1, h2, h3, h4⟩ | ⟨h1, h2⟩
  · refine ⟨fun _ => ⟨path, h1, h3, ?_⟩, fun h' => by omega⟩
    intro i p r hr
    rw [h4]
    have hv := (h.2 r (List.mem_of_getElem? hr)).1
    have : r.placeOf b = some p ↔ r.bells[p]? = some b := by
      unfold Row.placeOf
      constructor
      · intro hp
        rw [List.findIdx?_eq_some_iff_getElem] at hp
        obtain ⟨hlt, hp, -⟩ := hp
        rw [List.getElem?_eq_getElem hlt]
        simpa using hp
      · intro hp
        obtain ⟨hlt, hp⟩ := List.getElem?_eq_some_iff.1 hp
        rw [List.findIdx?_eq_some_iff_getElem]
        refine ⟨hlt, by simp [hp], ?_⟩
        intro j hj
        have := hv.nodup.getElem_inj_iff (hi := by omega) (hj := hlt) (i := j) (j := p)
        rw [hp] at this
        simp only [beq_iff_eq]
        intro hh
        have := this.1 hh
        omega
    rw [← this]
    constructor
    · rintro ⟨r', hr', hp⟩
      rw [hr] at hr'
      cases hr'
      exact hp
    · intro hp
      exact ⟨r, hr, hp⟩
  · exact ⟨fun h' => by omega, fun _ => h2⟩

example : let s : Stage := ⟨3⟩
    let rows : List Row := [⟨[⟨0⟩, ⟨1⟩, ⟨2⟩]⟩, ⟨[⟨1⟩, ⟨0⟩, ⟨2⟩]⟩, ⟨[⟨1⟩, ⟨2⟩, ⟨0⟩]⟩]
    RowsOf s rows ∧ (Row.mk [⟨2⟩, ⟨1⟩, ⟨0⟩]).Valid ∧
    (SameStageVec.ofRows s rows).pathOf ⟨0⟩ = .ok (some [0, 1, 2]) := by
  refine ⟨by decide, by decide, ?_⟩
  have h : RowsOf ⟨3⟩ [⟨[⟨0⟩, ⟨1⟩, ⟨2⟩]⟩, ⟨[⟨1⟩, ⟨0⟩, ⟨2⟩]⟩, ⟨[⟨1⟩, ⟨2⟩, ⟨0⟩]⟩] := by decide
  simp only [SameStageVec.pathOf, SameStageVec.collect_ofRows _ h]
  decide

/-! ## C25: parsing tables of rows -/

/-- Every text has exactly one list of lines. -/
theorem C25_lines_unique (s : List Char) : ∃! ls, LinesOf s ls :=
  ⟨_, linesOf_strLines s.length s (le_refl _), fun ls h => (strLines_of_linesOf h).symm⟩

/-- For a non-empty text with lines `ls`, `parse` either returns the rows of all lines, which then
all have the same stage, or an error that names the first line which is not a row or whose stage
differs from that of the first line. It does not panic.
Missing: the empty text, see `C25_empty_panics`. -/
theorem C25_parse_partial (s : List Char) (ls : List (List Char)) (hls : LinesOf s ls)
    (hne : s ≠ []) :
    (∃ st rows, rows ≠ [] ∧ RowsOf st rows ∧
      List.Forall₂ (fun l r => Row.parse l = .ok r) ls rows ∧
      SameStageVec.parse s = .ok (.ok (.ofRows st rows))) ∨
    (∃ good l rest rows e, ls = good ++ l :: rest ∧
      List.Forall₂ (fun l r => Row.parse l = .ok r) good rows ∧
      (∀ r ∈ rows, ∀ r' ∈ rows, r.bells.length = r'.bells.length) ∧
      SameStageVec.parse s = .ok (.error e) ∧
      ((∃ err, Row.parse l = .error err ∧ e = .invalidRow (good.length + 1) err) ∨
       (∃ r first, Row.parse l = .ok r ∧ rows.head? = some first ∧
          r.bells.length ≠ first.bells.length ∧
          e = .incompatibleStages (good.length + 1) ⟨first.bells.length⟩ ⟨r.bells.length⟩))) := by
  unfold SameStageVec.parse
  rw [strLines_of_linesOf hls]
  cases ls with
  | nil => cases hls; exact absurd rfl hne
  | cons l ls =>
    simp only
    cases hp : Row.parse l with
    | error err =>
      exact Or.inr ⟨[], l, ls, [], _, rfl, .nil, by simp, rfl, Or.inl ⟨err, hp, rfl⟩⟩
    | ok r =>
      have hv := SameStageVec.parse_valid hp
      have hr : RowsOf ⟨r.bells.length⟩ [r] := RowsOf.single hv rfl
      simp only [SameStageVec.ofRows_fromRowBuf hv, Res.ok_bind]
      rcases SameStageVec.parseLoop_ofRows ls 2 [r] hr with
        ⟨rows', h1, h2, h3⟩ | ⟨good, l', rest, rows', e, h1, h2, h3, h4, h5⟩
      · exact Or.inl ⟨_, r :: rows', by simp, hr.append h2, .cons hp h1, by simpa using h3⟩
      · refine Or.inr ⟨l :: good, l', rest, r :: rows', e, by simp [h1], .cons hp h2, ?_, h4, ?_⟩
        · intro a ha b hb
          have := hr.append h3
          rw [(this.2 a (by simpa using ha)).2, (this.2 b (by simpa using hb)).2]
        · have hn : (l :: good).length + 1 = 2 + good.length := by simp; omega
          rw [hn]
          rcases h5 with ⟨err, h6, h7⟩ | ⟨r', h6, h7, h8⟩
          · exact Or.inl ⟨err, h6, h7⟩
          · exact Or.inr ⟨r', r, h6, rfl, h7, h8⟩

example := C25_parse_partial "123\n213".toList ["123".toList, "213".toList]
  (.lf "123".toList _ _ (by decide) (by decide) (.last "213".toList (by decide) (by decide))) (by decide)

/-- The claim that parsing never panics is false: the empty text has no first line
(src/row/same_stage_vec.rs:106). -/
theorem C25_empty_panics : SameStageVec.parse [] = .error .unwrap := rfl

/-- A table of three lines with both kinds of line ends. -/
example : LinesOf "123\n213\r\n231".toList ["123".toList, "213".toList, "231".toList] ∧
    SameStageVec.parse "123\n213\r\n231".toList =
      .ok (.ok (.ofRows ⟨3⟩ [⟨[⟨0⟩, ⟨1⟩, ⟨2⟩]⟩, ⟨[⟨1⟩, ⟨0⟩, ⟨2⟩]⟩, ⟨[⟨1⟩, ⟨2⟩, ⟨0⟩]⟩])) := by
  refine ⟨?_, by decide⟩
  exact .lf "123".toList _ _ (by decide) (by decide)
    (.crlf "213".toList _ _ (by decide) (.last "231".toList (by decide) (by decide)))

/-! ## C57: indices past the end -/

/-- As long as the position of the row can be computed without overflow, `get(i)` is the `i`-th row,
and hence `None` exactly for `i ≥ len` — in debug and in release builds, for every word size.
Missing: indices for which `(i + 1) * stage` overflows, see `C57_wraps`. -/
theorem C57_get_partial (s : Stage) (rows : List Row) (h : RowsOf s rows) (w i : Nat)
    (hi : (i + 1) * s.numBells < 2 ^ w) :
    (SameStageVec.ofRows s rows).getWith (.wrapping w) i = .ok rows[i]? ∧
    (SameStageVec.ofRows s rows).getWith (.checked w) i = .ok rows[i]? ∧
    (rows[i]? = none ↔ rows.length ≤ i) := by
  have h1 : i * s.numBells < 2 ^ w := by
    rw [Nat.add_mul] at hi; omega
  have h2 : i + 1 < 2 ^ w := lt_of_le_of_lt (Nat.le_mul_of_pos_right _ h.pos) hi
  have hget := SameStageVec.ofRows_get h i
  have key : ∀ (o : Option Row), (SameStageVec.ofRows s rows).get i = o →
      (match sliceGet (SameStageVec.ofRows s rows).bells (i * s.numBells) ((i + 1) * s.numBells) with
        | none => (pure none : Res (Option Row))
        | some bells => pure (some ⟨bells⟩)) = .ok o := by
    intro o ho
    unfold SameStageVec.get at ho
    simp only [SameStageVec.ofRows_stage] at ho
    rw [← ho]
    cases sliceGet (SameStageVec.ofRows s rows).bells (i * s.numBells) ((i + 1) * s.numBells) <;> rfl
  refine ⟨?_, ?_, List.getElem?_eq_none_iff⟩
  · simp only [SameStageVec.getWith, SameStageVec.getRangeOfRow, Arith.wrapping,
      SameStageVec.ofRows_stage, Res.ok_bind, Nat.mod_eq_of_lt h1, Nat.mod_eq_of_lt h2,
      Nat.mod_eq_of_lt hi, Res.pure_eq]
    exact key _ hget
  · simp only [SameStageVec.getWith, SameStageVec.getRangeOfRow, Arith.checked,
      SameStageVec.ofRows_stage, Res.ok_bind, if_pos h1, if_pos h2, if_pos hi, Res.pure_eq]
    exact key _ hget

example := C57_get_partial ⟨3⟩ [⟨[⟨0⟩, ⟨1⟩, ⟨2⟩]⟩, ⟨[⟨1⟩, ⟨0⟩, ⟨2⟩]⟩] (by decide) 64 1 (by decide)

/-- In builds with overflow checks every index past the end gives `None` or an overflow panic. -/
theorem C57_get_debug (s : Stage) (rows : List Row) (h : RowsOf s rows) (w i : Nat)
    (hi : rows.length ≤ i) :
    (SameStageVec.ofRows s rows).getWith (.checked w) i = .ok none ∨
    (SameStageVec.ofRows s rows).getWith (.checked w) i = .error .overflow := by
  by_cases hlt : (i + 1) * s.numBells < 2 ^ w
  · left
    rw [(C57_get_partial s rows h w i hlt).2.1, List.getElem?_eq_none hi]
  · right
    simp only [SameStageVec.getWith, SameStageVec.getRangeOfRow, Arith.checked,
      SameStageVec.ofRows_stage]
    split
    · simp only [Res.ok_bind]
      split
      · simp only [Res.ok_bind, if_neg hlt]; rfl
      · rfl
    · rfl

example := C57_get_debug ⟨3⟩ [⟨[⟨0⟩, ⟨1⟩, ⟨2⟩]⟩, ⟨[⟨1⟩, ⟨0⟩, ⟨2⟩]⟩] (by decide) 64 7 (by decide)

/-- With overflow checks: the row, or `None`, if the end of the row can be computed, and a panic otherwise. -/
theorem C57_get_debug_exact (s : Stage) (rows : List Row) (h : RowsOf s rows) (w i : Nat) :
    (SameStageVec.ofRows s rows).getWith (.checked w) i =
      if (i + 1) * s.numBells < 2 ^ w then .ok rows[i]? else .error .overflow := by
  by_cases hlt : (i + 1) * s.numBells < 2 ^ w
  · rw [if_pos hlt, (C57_get_partial s rows h w i hlt).2.1]
  · rw [if_neg hlt]
    simp only [SameStageVec.getWith, SameStageVec.getRangeOfRow, Arith.checked,
      SameStageVec.ofRows_stage]
    split
    · simp only [Res.ok_bind]
      split
      · simp only [Res.ok_bind, if_neg hlt]; rfl
      · rfl
    · rfl

example := C57_get_debug_exact ⟨3⟩ [⟨[⟨0⟩, ⟨1⟩, ⟨2⟩]⟩, ⟨[⟨1⟩, ⟨0⟩, ⟨2⟩]⟩] (by decide) 64 (2 ^ 63)

/-- Without overflow checks, for every index `i` and every vector that fits into memory: with `k` the product
`i * stage` reduced to a machine word, the answer is the `stage` bells from the `k`-th bell of the vector on
(the rows written one behind the other), or `None` if there are fewer. -/
theorem C57_get_release_exact (s : Stage) (rows : List Row) (h : RowsOf s rows) (w i : Nat)
    (hfit : rows.length * s.numBells < 2 ^ w) (hs : s.numBells < 2 ^ w) :
    let k := i * s.numBells % 2 ^ w
    (SameStageVec.ofRows s rows).getWith (.wrapping w) i =
      .ok (if k + s.numBells ≤ rows.length * s.numBells then
        some ⟨((rows.flatMap Row.bells).drop k).take s.numBells⟩ else none) := by
  intro k
  have hk : k < 2 ^ w := Nat.mod_lt _ (Nat.two_pow_pos w)
  have hlen : (rows.flatMap Row.bells).length = rows.length * s.numBells := SameStageVec.ofRows_length h
  have hstop : (i + 1) % 2 ^ w * s.numBells % 2 ^ w = (k + s.numBells) % 2 ^ w := by
    show _ = (i * s.numBells % 2 ^ w + s.numBells) % 2 ^ w
    rw [Nat.mod_add_mod, Nat.mod_mul_mod, Nat.add_mul, Nat.one_mul]
  simp only [SameStageVec.getWith, SameStageVec.getRangeOfRow, Arith.wrapping, SameStageVec.ofRows_stage,
    Res.ok_bind, Res.pure_eq, hstop]
  show (match sliceGet (rows.flatMap Row.bells) k ((k + s.numBells) % 2 ^ w) with
    | none => (.ok none : Res (Option Row))
    | some bells => .ok (some ⟨bells⟩)) = _
  by_cases hc : k + s.numBells ≤ rows.length * s.numBells
  · rw [if_pos hc, Nat.mod_eq_of_lt (by omega), sliceGet, if_pos ⟨by omega, by omega⟩, List.drop_take, Nat.add_sub_cancel_left]
  · rw [if_neg hc, sliceGet, if_neg]
    rintro ⟨h1, h2⟩
    rcases Nat.lt_or_ge (k + s.numBells) (2 ^ w) with h3 | h3
    · rw [Nat.mod_eq_of_lt h3] at h2
      omega
    · rw [Nat.mod_eq_sub_mod h3, Nat.mod_eq_of_lt (by omega)] at h1
      omega

example : let rows : List Row := [⟨[⟨0⟩, ⟨1⟩]⟩, ⟨[⟨1⟩, ⟨0⟩]⟩]
    RowsOf ⟨2⟩ rows ∧ rows.length * 2 < 2 ^ 64 ∧ 2 < 2 ^ 64 ∧ (2 ^ 63 + 1) * 2 % 2 ^ 64 = 2 := by decide +kernel

/-- Worse, what is returned need not be a row at all: `get` gives the bells `2`, `3`, `2`. -/
theorem C57_not_a_row : ∃ (s : Stage) (rows : List Row) (i : Nat) (r : Row), RowsOf s rows ∧
    i < 2 ^ 64 ∧ (SameStageVec.ofRows s rows).getWith (.wrapping 64) i = .ok (some r) ∧ ¬ r.Valid :=
  ⟨⟨3⟩, [⟨[⟨0⟩, ⟨1⟩, ⟨2⟩]⟩, ⟨[⟨1⟩, ⟨0⟩, ⟨2⟩]⟩], 12297829382473034411, ⟨[⟨1⟩, ⟨2⟩, ⟨1⟩]⟩, by decide, by decide,
    by decide +kernel, by decide⟩

/-- The full claim is false: in release builds the computation wraps around, and an index far past
the end returns a row. -/
theorem C57_wraps : ∃ (s : Stage) (rows : List Row) (i : Nat) (r : Row), RowsOf s rows ∧
    i < 2 ^ 64 ∧ rows.length ≤ i ∧
    (SameStageVec.ofRows s rows).getWith (.wrapping 64) i = .ok (some r) :=
  ⟨⟨2⟩, [⟨[⟨0⟩, ⟨1⟩]⟩, ⟨[⟨1⟩, ⟨0⟩]⟩], 2 ^ 63, ⟨[⟨0⟩, ⟨1⟩]⟩, by decide, by decide, by decide,
    by decide +kernel⟩

example : RowsOf ⟨2⟩ [⟨[⟨0⟩, ⟨1⟩]⟩, ⟨[⟨1⟩, ⟨0⟩]⟩] ∧ (5 + 1) * (2 : Nat) < 2 ^ 64 := by decide

end Bellframe.Props
