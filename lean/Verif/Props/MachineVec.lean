import Verif.Proofs.MachineVec
import Verif.Props.Machine
import Verif.Props.SameStageVec
import Verif.Props.Block

/-! # C79: indices and ranges of rows at the limits of machine words -/

namespace Bellframe.Props

open Bellframe

variable {A : Type}

/-- `split(i)` cuts at the `i`-th row if the place of that row in memory can be computed; otherwise there is a
panic with overflow checks; without them the product is reduced to a machine word, and the cut is there. -/
theorem C79_split (m : Build) (s : Stage) (rows : List Row) (h : RowsOf s rows) (i : Nat) :
    let v := SameStageVec.ofRows s rows
    let k := i * s.numBells % 2 ^ m.bits
    let bells := rows.flatMap Row.bells
    (i * s.numBells < 2 ^ m.bits →
      v.splitOn m i = .ok (if i ≤ rows.length then some (.ofRows s (rows.take i), .ofRows s (rows.drop i))
        else none)) ∧
    (2 ^ m.bits ≤ i * s.numBells → m.overflowChecks = true → v.splitOn m i = .error .overflow) ∧
    (2 ^ m.bits ≤ i * s.numBells → m.overflowChecks = false →
      v.splitOn m i = .ok (if k ≤ rows.length * s.numBells then
        some (⟨bells.take k, s⟩, ⟨bells.drop k, s⟩) else none)) := by
  intro v k bells
  have hlen : v.bells.length = rows.length * s.numBells := SameStageVec.ofRows_length h
  refine ⟨fun h1 => ?_, fun h1 hc => ?_, fun h1 hc => ?_⟩
  · have h2 : v.splitOn m i = .ok (v.split i) := by
      simp only [SameStageVec.splitOn, SameStageVec.split, v, SameStageVec.ofRows_stage, m.mul_of_lt h1, Res.ok_bind]
      cases Utils.splitVec (SameStageVec.ofRows s rows).bells (i * s.numBells) <;> rfl
    rw [h2, SameStageVec.ofRows_split h]
  · simp only [SameStageVec.splitOn, v, SameStageVec.ofRows_stage, m.mul_of_checks hc h1]
    rfl
  · simp only [SameStageVec.splitOn, v, SameStageVec.ofRows_stage, m.mul_of_release hc, Res.ok_bind]
    show (match Utils.splitVec bells k with
      | none => (pure none : Res (Option (SameStageVec × SameStageVec)))
      | some (l, r) => pure (some (⟨l, s⟩, ⟨r, s⟩))) = _
    by_cases hk : k ≤ rows.length * s.numBells
    · rw [if_pos hk, Utils.splitVec, if_neg (by
        show ¬ k > v.bells.length
        omega)]
      rfl
    · rw [if_neg hk, Utils.splitVec, if_pos (by
        show k > v.bells.length
        omega)]
      rfl

/-- Indices that fit, that do not, and the build that panics. -/
example : RowsOf ⟨3⟩ [⟨[⟨0⟩, ⟨1⟩, ⟨2⟩]⟩, ⟨[⟨1⟩, ⟨0⟩, ⟨2⟩]⟩] ∧ 1 * 3 < 2 ^ 64 ∧ 2 ^ 64 ≤ 12297829382473034411 * 3 ∧
    (SameStageVec.ofRows ⟨3⟩ [⟨[⟨0⟩, ⟨1⟩, ⟨2⟩]⟩, ⟨[⟨1⟩, ⟨0⟩, ⟨2⟩]⟩]).splitOn debug64 12297829382473034411 =
      .error .overflow := by
  refine ⟨by decide, by decide, by decide, by decide +kernel⟩

/-- So in release builds a vector can be cut in the middle of a row: a part is then no list of rows. -/
theorem C79_split_false : ∃ (s : Stage) (rows : List Row) (i : Nat) (a b : SameStageVec), RowsOf s rows ∧
    rows.length < i ∧ i < 2 ^ 64 ∧ (SameStageVec.ofRows s rows).splitOn release64 i = .ok (some (a, b)) ∧
    ∀ rows', RowsOf s rows' → a ≠ .ofRows s rows' := by
  refine ⟨⟨3⟩, [⟨[⟨0⟩, ⟨1⟩, ⟨2⟩]⟩], 12297829382473034411, ⟨[⟨0⟩], ⟨3⟩⟩, ⟨[⟨1⟩, ⟨2⟩], ⟨3⟩⟩, by decide, by decide,
    by decide, by decide +kernel, ?_⟩
  intro rows' h' he
  have h1 := SameStageVec.ofRows_length h'
  rw [← he] at h1
  have h2 : 1 = rows'.length * 3 := h1
  omega

/-- `v[i]` is the `i`-th row or a panic, if the place of the row in memory can be computed, and a panic with
overflow checks if it cannot. Without them it is `stage` bells from anywhere in the vector, or a panic. -/
theorem C79_index (m : Build) (s : Stage) (rows : List Row) (h : RowsOf s rows) (i : Nat)
    (hfit : rows.length * s.numBells < 2 ^ m.bits) (hs : s.numBells < 2 ^ m.bits) :
    let v := SameStageVec.ofRows s rows
    let k := i * s.numBells % 2 ^ m.bits
    ((i + 1) * s.numBells < 2 ^ m.bits → v.indexOn m i = rows[i]?.elim (.error .index) .ok) ∧
    (2 ^ m.bits ≤ (i + 1) * s.numBells → m.overflowChecks = true → v.indexOn m i = .error .overflow) ∧
    (2 ^ m.bits ≤ (i + 1) * s.numBells → m.overflowChecks = false → v.indexOn m i =
      if k + s.numBells ≤ rows.length * s.numBells then
        .ok ⟨((rows.flatMap Row.bells).drop k).take s.numBells⟩ else .error .index) := by
  intro v k
  have hget : v.indexOn m i = (v.getWith m.arith i).bind (fun o => o.elim (.error .index) .ok) := by
    simp only [SameStageVec.indexOn, SameStageVec.getWith]
    cases v.getRangeOfRow m.arith i with
    | error e => rfl
    | ok p =>
      simp only [Res.ok_bind, sliceIdx]
      cases sliceGet v.bells p.1 p.2 <;> rfl
  rw [hget]
  refine ⟨fun h1 => ?_, fun h1 hc => ?_, fun h1 hc => ?_⟩
  · have h2 : v.getWith m.arith i = .ok rows[i]? := by
      unfold Build.arith
      split
      · exact (C57_get_partial s rows h m.bits i h1).2.1
      · exact (C57_get_partial s rows h m.bits i h1).1
    rw [h2]
    rfl
  · rw [Build.arith, hc, if_pos rfl, C57_get_debug_exact s rows h, if_neg (Nat.not_lt.2 h1)]
    rfl
  · rw [Build.arith, hc, if_neg (by simp), C57_get_release_exact s rows h m.bits i hfit hs]
    show Option.elim _ _ _ = _
    split <;> rfl

example := C79_index ⟨64, false⟩ ⟨3⟩ [⟨[⟨0⟩, ⟨1⟩, ⟨2⟩]⟩, ⟨[⟨1⟩, ⟨0⟩, ⟨2⟩]⟩] (by decide) 12297829382473034411 (by decide) (by decide)

/-- Ranges whose ends have places in memory are copied as they should be. With overflow checks there is a panic
for all others. -/
theorem C79_ranges_partial (m : Build) (s s2 : Stage) (rows other : List Row) (h : RowsOf s rows)
    (h2 : RowsOf s2 other) (t : Row) (ht : t.Valid) (hl : t.bells.length = s.numBells) (a b : Utils.Bound)
    (ha : BoundFits m a) (hb : BoundFits m b) (lo hi : Nat)
    (hfit : rows.length * s.numBells < 2 ^ m.bits) (hfit2 : other.length * s2.numBells < 2 ^ m.bits) :
    let v := SameStageVec.ofRows s rows
    let w := SameStageVec.ofRows s2 other
    (Utils.clampRange a b other.length = (lo, hi) →
      (lo * s2.numBells < 2 ^ m.bits ∧ hi * s2.numBells < 2 ^ m.bits →
        v.extendRangeTransposedOn m t w a b = v.extendRangeTransposed t w a b) ∧
      (¬ (lo * s2.numBells < 2 ^ m.bits ∧ hi * s2.numBells < 2 ^ m.bits) → m.overflowChecks = true →
        v.extendRangeTransposedOn m t w a b = .error .overflow)) ∧
    (Utils.clampRange a b rows.length = (lo, hi) →
      (lo * s.numBells < 2 ^ m.bits ∧ hi * s.numBells < 2 ^ m.bits →
        v.extendTransposedFromWithinOn m a b t = v.extendTransposedFromWithin a b t) ∧
      (¬ (lo * s.numBells < 2 ^ m.bits ∧ hi * s.numBells < 2 ^ m.bits) → m.overflowChecks = true →
        v.extendTransposedFromWithinOn m a b t = .error .overflow)) := by
  have key : ∀ (s : Stage) (rows : List Row), RowsOf s rows → rows.length * s.numBells < 2 ^ m.bits →
      Utils.clampRange a b rows.length = (lo, hi) →
      (lo * s.numBells < 2 ^ m.bits ∧ hi * s.numBells < 2 ^ m.bits →
        (SameStageVec.ofRows s rows).toBellRangeOn m a b = (SameStageVec.ofRows s rows).toBellRange a b) ∧
      (¬ (lo * s.numBells < 2 ^ m.bits ∧ hi * s.numBells < 2 ^ m.bits) → m.overflowChecks = true →
        (SameStageVec.ofRows s rows).toBellRangeOn m a b = .error .overflow) := by
    intro s rows h hfit hr
    have hlen : rows.length < 2 ^ m.bits := lt_of_le_of_lt (Nat.le_mul_of_pos_right _ h.pos) hfit
    have hclamp := C73_ranges m a b rows.length ha hb hlen
    simp only [hr] at hclamp
    constructor
    · rintro ⟨h1, h2⟩
      have h3 : lo < 2 ^ m.bits := lt_of_le_of_lt (Nat.le_mul_of_pos_right _ h.pos) h1
      have h4 : hi < 2 ^ m.bits := lt_of_le_of_lt (Nat.le_mul_of_pos_right _ h.pos) h2
      simp only [SameStageVec.toBellRangeOn, SameStageVec.toBellRange, SameStageVec.ofRows_len h, Res.ok_bind,
        hclamp.1 h3 h4, hr, SameStageVec.ofRows_stage, m.mul_of_lt h1, m.mul_of_lt h2]
    · intro h1 hc
      by_cases h2 : lo < 2 ^ m.bits ∧ hi < 2 ^ m.bits
      · simp only [SameStageVec.toBellRangeOn, SameStageVec.ofRows_len h, Res.ok_bind,
          hclamp.1 h2.1 h2.2, SameStageVec.ofRows_stage]
        by_cases h3 : lo * s.numBells < 2 ^ m.bits
        · simp only [m.mul_of_lt h3, Res.ok_bind, m.mul_of_checks hc (Nat.not_lt.1 fun h4 => h1 ⟨h3, h4⟩)]
          rfl
        · rw [m.mul_of_checks hc (Nat.not_lt.1 h3)]
          rfl
      · simp only [SameStageVec.toBellRangeOn, SameStageVec.ofRows_len h, Res.ok_bind,
          hclamp.2 h2, hc, if_true]
        rfl
  have hst : s = ⟨t.bells.length⟩ := by cases s; simp_all
  intro v w
  constructor
  · intro hr
    obtain ⟨k1, k2⟩ := key s2 other h2 hfit2 hr
    constructor
    · intro h1
      simp only [SameStageVec.extendRangeTransposedOn, SameStageVec.extendRangeTransposed, w, k1 h1]
      rfl
    · intro h1 hc
      simp only [SameStageVec.extendRangeTransposedOn, ht.stage_eq, Res.ok_bind, v, w, SameStageVec.ofRows_stage]
      rw [← hst, Row.testErr_self]
      simp only [k2 h1 hc]
      rfl
  · intro hr
    obtain ⟨k1, k2⟩ := key s rows h hfit hr
    constructor
    · intro h1
      simp only [SameStageVec.extendTransposedFromWithinOn, SameStageVec.extendTransposedFromWithin, v, k1 h1]
      rfl
    · intro h1 hc
      simp only [SameStageVec.extendTransposedFromWithinOn, ht.stage_eq, Res.ok_bind, v, SameStageVec.ofRows_stage]
      have : SameStageVec.ofRows s rows = v := rfl
      rw [← hst, Row.testErr_self]
      simp only [k2 h1 hc]
      rfl

/-- A range from the second row on, and one past the end whose end has no place in memory. -/
example : BoundFits debug64 (.included 1) ∧ BoundFits debug64 (.excluded (2 ^ 63)) ∧
    Utils.clampRange (.included 1) .unbounded 2 = (1, 2) ∧
    Utils.clampRange (.included 1) (.excluded (2 ^ 63)) 2 = (1, 2 ^ 63) ∧ 2 ^ 64 ≤ 2 ^ 63 * 3 ∧
    (SameStageVec.ofRows ⟨3⟩ [⟨[⟨0⟩, ⟨1⟩, ⟨2⟩]⟩, ⟨[⟨1⟩, ⟨0⟩, ⟨2⟩]⟩]).extendTransposedFromWithinOn debug64
      (.included 1) .unbounded ⟨[⟨0⟩, ⟨2⟩, ⟨1⟩]⟩ = .ok (.ofRows ⟨3⟩
        [⟨[⟨0⟩, ⟨1⟩, ⟨2⟩]⟩, ⟨[⟨1⟩, ⟨0⟩, ⟨2⟩]⟩, ⟨[⟨2⟩, ⟨0⟩, ⟨1⟩]⟩], .ok ()) := by
  refine ⟨show 1 < 2 ^ 64 by decide, show 2 ^ 63 < 2 ^ 64 by decide, by decide, by decide, by decide,
    by decide +kernel⟩

theorem fromWithinLoop_copies {t : Row} (ht : t.Valid) : ∀ (cnt : Nat) (bells : List Bell) (lo : Nat),
    (∀ b ∈ bells, b.index < t.bells.length) → (cnt = 0 ∨ lo < bells.length) →
    ∃ more, SameStageVec.fromWithinLoop t bells (List.range' lo cnt) = .ok (bells ++ more) ∧ more.length = cnt ∧
      ∀ j < cnt, ∃ x, (bells ++ more)[lo + j]? = some x ∧ more[j]? = t.bells[x.index]? := by
  intro cnt
  induction cnt with
  | zero => intro bells lo _ _; exact ⟨[], by simp [SameStageVec.fromWithinLoop]⟩
  | succ cnt ih =>
    intro bells lo hb h
    have hlo : lo < bells.length := by omega
    have hx := hb bells[lo] (List.getElem_mem hlo)
    obtain ⟨more, h1, h2, h3⟩ := ih (bells ++ [t.bells[bells[lo].index]]) (lo + 1) (by
      intro b hb'
      rcases List.mem_append.1 hb' with hb' | hb'
      · exact hb b hb'
      · simp only [List.mem_singleton] at hb'
        subst hb'
        exact (Row.Valid.mem_iff ht _).1 (List.getElem_mem hx)) (by right; simp; omega)
    refine ⟨t.bells[bells[lo].index] :: more, ?_, by simp [h2], ?_⟩
    · rw [List.range'_succ, SameStageVec.fromWithinLoop]
      simp only [getIdx, List.getElem?_eq_getElem hlo, List.getElem?_eq_getElem hx, Res.ok_bind]
      rw [h1]
      simp
    · intro j hj
      cases j with
      | zero => exact ⟨bells[lo], by simp [List.getElem?_append_left hlo], by simp [hx]⟩
      | succ j =>
        obtain ⟨x, h4, h5⟩ := h3 j (by omega)
        refine ⟨x, ?_, by simpa using h5⟩
        rw [← h4]
        simp [Nat.add_assoc, Nat.add_comm 1 j]

theorem fromWithinLoop_index {t : Row} {bells : List Bell} {lo cnt : Nat} (h : bells.length ≤ lo) (hc : 0 < cnt) :
    SameStageVec.fromWithinLoop t bells (List.range' lo cnt) = .error .index := by
  obtain ⟨c, rfl⟩ : ∃ c, cnt = c + 1 := ⟨cnt - 1, by omega⟩
  rw [List.range'_succ, SameStageVec.fromWithinLoop]
  simp only [getIdx, List.getElem?_eq_none h]
  rfl

theorem toBellRangeOn_release {m : Build} (hc : m.overflowChecks = false) {s : Stage} {rows : List Row}
    (h : RowsOf s rows) {a b : Utils.Bound} (ha : BoundFits m a) (hb : BoundFits m b) {lo hi : Nat}
    (hfit : rows.length * s.numBells < 2 ^ m.bits) (hr : Utils.clampRange a b rows.length = (lo, hi)) :
    (SameStageVec.ofRows s rows).toBellRangeOn m a b =
      .ok (lo * s.numBells % 2 ^ m.bits, hi * s.numBells % 2 ^ m.bits) := by
  have hlen : rows.length < 2 ^ m.bits := lt_of_le_of_lt (Nat.le_mul_of_pos_right _ h.pos) hfit
  have hclamp := C73_ranges m a b rows.length ha hb hlen
  simp only [hr] at hclamp
  have hmul : ∀ x y, m.arith.mul x y = .ok (x * y % 2 ^ m.bits) := by
    intro x y
    rw [Build.arith, hc]
    rfl
  have hb1 : lo ≤ 2 ^ m.bits ∧ hi ≤ 2 ^ m.bits := by
    cases a <;> cases b <;> simp only [Utils.clampRange, Prod.mk.injEq, BoundFits] at hr ha hb <;> omega
  by_cases h2 : lo < 2 ^ m.bits ∧ hi < 2 ^ m.bits
  · simp only [SameStageVec.toBellRangeOn, SameStageVec.ofRows_len h, Res.ok_bind,
      hclamp.1 h2.1 h2.2, SameStageVec.ofRows_stage, hmul]
    rfl
  · simp only [SameStageVec.toBellRangeOn, SameStageVec.ofRows_len h, Res.ok_bind,
      hclamp.2 h2, hc, SameStageVec.ofRows_stage, hmul, Bool.false_eq_true, if_false]
    have key : ∀ x, x ≤ 2 ^ m.bits → (if x < 2 ^ m.bits then x else 0) * s.numBells % 2 ^ m.bits =
        x * s.numBells % 2 ^ m.bits := by
      intro x hx
      split
      · rfl
      · rw [show x = 2 ^ m.bits by omega]
        simp
    simp only [key _ hb1.1, key _ hb1.2]
    rfl

/-- In release builds the places of both ends are reduced to machine words, `k` and `k'`, and the bells between
these are copied (by `extend_transposed_from_within` also those that it has just added), whether they make up
rows or not. -/
theorem C79_ranges_release (m : Build) (hc : m.overflowChecks = false) (s : Stage) (rows other : List Row)
    (h : RowsOf s rows) (h2 : RowsOf s other) (t : Row) (ht : t.Valid) (hl : t.bells.length = s.numBells)
    (a b : Utils.Bound) (ha : BoundFits m a) (hb : BoundFits m b) (lo hi : Nat)
    (hfit : rows.length * s.numBells < 2 ^ m.bits) (hfit2 : other.length * s.numBells < 2 ^ m.bits) :
    let bells := rows.flatMap Row.bells
    let k := lo * s.numBells % 2 ^ m.bits
    let k' := hi * s.numBells % 2 ^ m.bits
    (Utils.clampRange a b other.length = (lo, hi) →
      (k ≤ k' → k' ≤ other.length * s.numBells → ∃ more, more.length = k' - k ∧
        (∀ j < k' - k, ∃ x, (other.flatMap Row.bells)[k + j]? = some x ∧ more[j]? = t.bells[x.index]?) ∧
        (SameStageVec.ofRows s rows).extendRangeTransposedOn m t (.ofRows s other) a b =
          .ok (⟨bells ++ more, s⟩, .ok ())) ∧
      (¬ (k ≤ k' ∧ k' ≤ other.length * s.numBells) →
        (SameStageVec.ofRows s rows).extendRangeTransposedOn m t (.ofRows s other) a b = .error .index)) ∧
    (Utils.clampRange a b rows.length = (lo, hi) →
      (k' ≤ k ∨ k < rows.length * s.numBells → ∃ more, more.length = k' - k ∧
        (∀ j < k' - k, ∃ x, (bells ++ more)[k + j]? = some x ∧ more[j]? = t.bells[x.index]?) ∧
        (SameStageVec.ofRows s rows).extendTransposedFromWithinOn m a b t = .ok (⟨bells ++ more, s⟩, .ok ())) ∧
      (¬ (k' ≤ k ∨ k < rows.length * s.numBells) →
        (SameStageVec.ofRows s rows).extendTransposedFromWithinOn m a b t = .error .index)) := by
  intro bells k k'
  have hst : s = ⟨t.bells.length⟩ := by cases s; simp_all
  have hlen : ∀ rs, RowsOf s rs → (rs.flatMap Row.bells).length = rs.length * s.numBells := fun rs hrs =>
    SameStageVec.ofRows_length hrs
  have hbell : ∀ rs, RowsOf s rs → ∀ x ∈ rs.flatMap Row.bells, x.index < t.bells.length := by
    intro rs hrs x hx
    obtain ⟨r, hr, hx⟩ := List.mem_flatMap.1 hx
    rw [hl, ← (hrs.2 r hr).2]
    exact (Row.Valid.mem_iff (hrs.2 r hr).1 x).1 hx
  constructor
  · intro hr
    have hrange : (SameStageVec.ofRows s other).toBellRangeOn m a b = .ok (k, k') := toBellRangeOn_release hc h2 ha hb hfit2 hr
    constructor
    · intro hk hk'
      have hmap : ∀ l : List Bell, (∀ x ∈ l, x.index < t.bells.length) → ∃ more,
          l.mapM (fun b => getIdx t.bells b.index) = (.ok more : Res (List Bell)) ∧ more.length = l.length ∧
          ∀ j < l.length, ∃ x, l[j]? = some x ∧ more[j]? = t.bells[x.index]? := by
        intro l
        induction l with
        | nil => intro _; exact ⟨[], rfl, rfl, by simp⟩
        | cons x l ih =>
          intro hx
          obtain ⟨more, h1, h2, h3⟩ := ih fun y hy => hx y (by simp [hy])
          have hx' := hx x (by simp)
          refine ⟨t.bells[x.index] :: more, ?_, by simp [h2], ?_⟩
          · rw [List.mapM_cons]
            have hg : getIdx t.bells x.index = .ok t.bells[x.index] := by
              simp only [getIdx, List.getElem?_eq_getElem hx']
            rw [hg, Res.ok_bind, show (l.mapM (fun b => getIdx t.bells b.index) : Res (List Bell)) = .ok more from h1]
            rfl
          · intro j hj
            cases j with
            | zero => exact ⟨x, by simp, by simp [hx']⟩
            | succ j => simpa using h3 j (by simpa using hj)
      obtain ⟨more, h3, h4, h5⟩ := hmap (((other.flatMap Row.bells).take k').drop k) fun x hx =>
        hbell other h2 x (List.mem_of_mem_take (List.mem_of_mem_drop hx))
      have hl' : (((other.flatMap Row.bells).take k').drop k).length = k' - k := by
        rw [List.length_drop, List.length_take, hlen other h2, Nat.min_eq_left hk']
      refine ⟨more, by rw [h4, hl'], ?_, ?_⟩
      · intro j hj
        obtain ⟨x, h6, h7⟩ := h5 j (by rw [hl']; exact hj)
        refine ⟨x, ?_, h7⟩
        rw [List.getElem?_drop, List.getElem?_take_of_lt (by omega)] at h6
        exact h6
      · have hslice : sliceIdx (SameStageVec.ofRows s other).bells k k' =
            .ok (((other.flatMap Row.bells).take k').drop k) := by
          unfold sliceIdx sliceGet
          have : (SameStageVec.ofRows s other).bells = other.flatMap Row.bells := rfl
          rw [this, if_pos ⟨hk, by rw [hlen other h2]; exact hk'⟩]
        simp only [SameStageVec.extendRangeTransposedOn, ht.stage_eq, Res.ok_bind, SameStageVec.ofRows_stage]
        rw [← hst, Row.testErr_self]
        simp only [hrange, Res.ok_bind, hslice, h3]
        rfl
    · intro hk
      have hslice : sliceIdx (SameStageVec.ofRows s other).bells k k' = .error .index := by
        unfold sliceIdx sliceGet
        have : (SameStageVec.ofRows s other).bells = other.flatMap Row.bells := rfl
        rw [this, if_neg (by rw [hlen other h2]; exact hk)]
      simp only [SameStageVec.extendRangeTransposedOn, ht.stage_eq, Res.ok_bind, SameStageVec.ofRows_stage]
      rw [← hst, Row.testErr_self]
      simp only [hrange, Res.ok_bind, hslice]
      rfl
  · intro hr
    have hrange : (SameStageVec.ofRows s rows).toBellRangeOn m a b = .ok (k, k') := toBellRangeOn_release hc h ha hb hfit hr
    constructor
    · intro hk
      obtain ⟨more, h3, h4, h5⟩ := fromWithinLoop_copies ht (k' - k) bells k (hbell rows h)
        (by rw [hlen rows h]; omega)
      refine ⟨more, h4, h5, ?_⟩
      simp only [SameStageVec.extendTransposedFromWithinOn, ht.stage_eq, Res.ok_bind, SameStageVec.ofRows_stage]
      rw [← hst, Row.testErr_self]
      simp only [hrange, Res.ok_bind]
      have : SameStageVec.fromWithinLoop t (SameStageVec.ofRows s rows).bells (List.range' k (k' - k)) = .ok (bells ++ more) := h3
      rw [this]
      rfl
    · intro hk
      have h3 := fromWithinLoop_index (t := t) (bells := bells) (lo := k) (cnt := k' - k)
        (by rw [hlen rows h]; omega) (by omega)
      simp only [SameStageVec.extendTransposedFromWithinOn, ht.stage_eq, Res.ok_bind, SameStageVec.ofRows_stage]
      rw [← hst, Row.testErr_self]
      simp only [hrange, Res.ok_bind]
      have : SameStageVec.fromWithinLoop t (SameStageVec.ofRows s rows).bells (List.range' k (k' - k)) = .error .index := h3
      rw [this]
      rfl
/-- Two rows of three bells: a range far past the end is reduced to the bells 1 to 4. -/
example : release64.overflowChecks = false ∧
    RowsOf ⟨3⟩ [⟨[⟨0⟩, ⟨1⟩, ⟨2⟩]⟩, ⟨[⟨1⟩, ⟨0⟩, ⟨2⟩]⟩] ∧ BoundFits release64 (.included 12297829382473034411) ∧
    Utils.clampRange (.included 12297829382473034411) (.excluded 12297829382473034412) 2 =
      (12297829382473034411, 12297829382473034412) ∧
    12297829382473034411 * 3 % 2 ^ 64 = 1 ∧ 12297829382473034412 * 3 % 2 ^ 64 = 4 :=
  ⟨rfl, by decide, show 12297829382473034411 < 2 ^ 64 by decide, rfl, by decide, by decide⟩

/-- In release builds the other ranges wrap around: rows are copied although the range is past the end of
the vector, and in the second case what is appended is no row. -/
theorem C79_ranges_false :
    (∃ (s : Stage) (rows : List Row) (t : Row) (lo : Nat) (r : Row), RowsOf s rows ∧ t.Valid ∧
      rows.length < lo ∧ lo + 1 < 2 ^ 64 ∧
      (SameStageVec.ofRows s []).extendRangeTransposedOn release64 t (.ofRows s rows) (.included lo)
        (.excluded (lo + 1)) = .ok (.ofRows s [r], .ok ())) ∧
    (∃ (s : Stage) (rows : List Row) (t : Row) (lo : Nat) (r : Row), RowsOf s rows ∧ t.Valid ∧
      rows.length < lo ∧ lo + 1 < 2 ^ 64 ∧ ¬ r.Valid ∧
      (SameStageVec.ofRows s rows).extendTransposedFromWithinOn release64 (.included lo) (.excluded (lo + 1)) t =
        .ok (.ofRows s (rows ++ [r]), .ok ())) := by
  refine ⟨⟨⟨2⟩, [⟨[⟨1⟩, ⟨0⟩]⟩], ⟨[⟨0⟩, ⟨1⟩]⟩, 2 ^ 63, ⟨[⟨1⟩, ⟨0⟩]⟩, by decide, by decide, by decide, by decide,
    by decide +kernel⟩, ⟨⟨3⟩, [⟨[⟨0⟩, ⟨1⟩, ⟨2⟩]⟩, ⟨[⟨1⟩, ⟨0⟩, ⟨2⟩]⟩], ⟨[⟨0⟩, ⟨1⟩, ⟨2⟩]⟩, 12297829382473034411,
    ⟨[⟨1⟩, ⟨2⟩, ⟨1⟩]⟩, by decide, by decide, by decide, by decide, by decide, by decide +kernel⟩⟩

/-- Blocks are split as they should be, whatever the index and the build: the annotations are split first. -/
theorem C79_blocks (m : Build) (b : AnnotBlock A) (h : b.WellFormed) (hfit : b.rows.bells.length < 2 ^ m.bits)
    (i : Nat) :
    b.splitOn m i = b.split i ∧
    (m.overflowChecks = false → b.getAnnotRowOn m i = .ok (b.getAnnotRow i)) ∧
    (m.overflowChecks = true → b.getAnnotRowOn m i =
      if (i + 1) * b.rows.stage.numBells < 2 ^ m.bits then .ok (b.getAnnotRow i) else .error .overflow) := by
  obtain ⟨⟨bells, s⟩, annots⟩ := b
  obtain ⟨rows, hro, hb, hlen⟩ := h
  simp only at hro hb hlen hfit
  have hb' : bells = (SameStageVec.ofRows s rows).bells := congrArg SameStageVec.bells hb
  have htot : rows.length * s.numBells < 2 ^ m.bits := by
    rw [← SameStageVec.ofRows_length hro, ← hb']
    exact hfit
  have hs : s.numBells < 2 ^ m.bits := by
    refine lt_of_le_of_lt (Nat.le_mul_of_pos_left _ ?_) htot
    omega
  have small : ∀ i, i < rows.length → (i + 1) * s.numBells < 2 ^ m.bits := fun i hi =>
    lt_of_le_of_lt (Nat.mul_le_mul_right _ hi) htot
  have getChecked : ∀ (rows : List Row), RowsOf s rows → ∀ i, (i + 1) * s.numBells < 2 ^ m.bits →
      (SameStageVec.ofRows s rows).getWith m.arith i = .ok rows[i]? := by
    intro rows hro i h1
    unfold Build.arith
    split
    · exact (C57_get_partial s rows hro m.bits i h1).2.1
    · exact (C57_get_partial s rows hro m.bits i h1).1
  have hget : (⟨⟨bells, s⟩, annots⟩ : AnnotBlock A).getRow i = rows[i]? := by
    show SameStageVec.get _ i = _
    rw [hb, SameStageVec.ofRows_get hro]
  rw [hb] at *
  have fits : (i + 1) * s.numBells < 2 ^ m.bits →
      (⟨.ofRows s rows, annots⟩ : AnnotBlock A).getAnnotRowOn m i =
        .ok ((⟨.ofRows s rows, annots⟩ : AnnotBlock A).getAnnotRow i) := by
    intro h1
    simp only [AnnotBlock.getAnnotRowOn, AnnotBlock.getAnnotRow, hget, getChecked rows hro i h1, Res.ok_bind]
    cases rows[i]? with
    | none => rfl
    | some r => cases AnnotBlock.getAnnot ⟨.ofRows s rows, annots⟩ i <;> rfl
  refine ⟨?_, fun hc => ?_, fun hc => ?_⟩
  · by_cases hi : annots.length < i
    · simp only [AnnotBlock.splitOn, AnnotBlock.split, Utils.splitVec, if_pos hi]
    · have h1 : i * s.numBells < 2 ^ m.bits :=
        lt_of_le_of_lt (Nat.mul_le_mul_right _ (by omega)) htot
      have h2 := (C79_split m s rows hro i).1 h1
      have h3 : RowsOf s (rows.drop i) := hro.drop i
      simp only [AnnotBlock.splitOn, AnnotBlock.split, Utils.splitVec, if_neg hi, h2, Res.ok_bind,
        SameStageVec.ofRows_split hro]
      rw [if_pos (by omega)]
      simp only [getChecked _ h3 0 (by simpa using hs), Res.ok_bind, SameStageVec.ofRows_first h3]
      rw [List.head?_eq_getElem?]
  · by_cases hi : i < annots.length
    · rw [fits (small i (by omega))]
    · have h1 : annots[i]? = none := List.getElem?_eq_none (by omega)
      simp only [AnnotBlock.getAnnotRowOn, AnnotBlock.getAnnotRow, AnnotBlock.getAnnot, h1, Build.arith, hc,
        Bool.false_eq_true, if_false, C57_get_release_exact s rows hro m.bits i htot hs, Res.ok_bind, hget]
      split <;> split <;> rfl
  · split
    · rename_i h1
      exact fits h1
    · rename_i h1
      simp only [AnnotBlock.getAnnotRowOn, Build.arith, hc, if_true, C57_get_debug_exact s rows hro m.bits i]
      have h2 : ¬ (i + 1) * s.numBells < 2 ^ m.bits := h1
      rw [if_neg h2]
      rfl

/-- A block of two rows whose last annotation is `1`. -/
example : ∃ (b : AnnotBlock Nat), b.WellFormed ∧ b.rows.bells.length < 2 ^ 64 ∧
    b.splitOn release64 12297829382473034411 = .ok none ∧ b.getAnnotRowOn release64 1 = .ok (some (⟨[⟨1⟩, ⟨0⟩, ⟨2⟩]⟩, 1)) := by
  refine ⟨⟨.ofRows ⟨3⟩ [⟨[⟨0⟩, ⟨1⟩, ⟨2⟩]⟩, ⟨[⟨1⟩, ⟨0⟩, ⟨2⟩]⟩, ⟨[⟨1⟩, ⟨0⟩, ⟨2⟩]⟩], [0, 1]⟩,
    ⟨_, by decide, rfl, rfl⟩, by decide, by decide +kernel, by decide +kernel⟩

end Bellframe.Props
