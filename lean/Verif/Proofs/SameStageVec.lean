import Verif.Spec.Vec
import Verif.Proofs.RowAlgebra
import Verif.Proofs.RowBuild

/-! # Lemmas about `SameStageVec` -/

namespace Bellframe

theorem mapM_error_only {α β : Type} {f : α → Res β} {e : Panic} {l : List α}
    (h : ∀ a ∈ l, f a = .error e ∨ ∃ b, f a = .ok b) (h' : ∃ a ∈ l, f a = .error e) :
    l.mapM f = .error e := by
  induction l with
  | nil => simp at h'
  | cons a l ih =>
    rw [List.mapM_cons]
    rcases h a (by simp) with ha | ⟨b, ha⟩
    · rw [ha]; rfl
    · have hl : ∃ a ∈ l, f a = .error e := by
        obtain ⟨x, hx, hxe⟩ := h'
        rcases List.mem_cons.1 hx with rfl | hx
        · rw [ha] at hxe; cases hxe
        · exact ⟨x, hx, hxe⟩
      rw [ha, Res.ok_bind, ih (fun x hx => h x (List.mem_cons_of_mem _ hx)) hl]
      rfl

section uniform

variable {α : Type} {k : Nat}

theorem length_flatten_uniform : ∀ (L : List (List α)), (∀ x ∈ L, x.length = k) →
    L.flatten.length = L.length * k
  | [], _ => by simp
  | x :: L, h => by
    have := length_flatten_uniform L (fun y hy => h y (by simp [hy]))
    simp only [List.flatten_cons, List.length_append, List.length_cons, this, h x (by simp)]
    rw [Nat.add_mul]; omega

theorem take_flatten_uniform : ∀ (L : List (List α)) (i : Nat), (∀ x ∈ L, x.length = k) →
    L.flatten.take (i * k) = (L.take i).flatten
  | [], i, _ => by simp
  | x :: L, 0, h => by simp
  | x :: L, i + 1, h => by
    have hx := h x (by simp)
    have ih := take_flatten_uniform L i (fun y hy => h y (by simp [hy]))
    rw [List.flatten_cons, List.take_append, hx, List.take_of_length_le (by rw [hx, Nat.add_mul]; omega),
      show (i + 1) * k - k = i * k by rw [Nat.add_mul]; omega, ih]
    simp

theorem drop_flatten_uniform : ∀ (L : List (List α)) (i : Nat), (∀ x ∈ L, x.length = k) →
    L.flatten.drop (i * k) = (L.drop i).flatten
  | [], i, _ => by simp
  | x :: L, 0, h => by simp
  | x :: L, i + 1, h => by
    have hx := h x (by simp)
    have ih := drop_flatten_uniform L i (fun y hy => h y (by simp [hy]))
    rw [List.flatten_cons, List.drop_append, hx, List.drop_of_length_le (by rw [hx, Nat.add_mul]; omega),
      show (i + 1) * k - k = i * k by rw [Nat.add_mul]; omega, ih]
    simp

end uniform

namespace RowsOf

variable {s : Stage} {rows : List Row}

theorem pos (h : RowsOf s rows) : 0 < s.numBells := h.1

theorem len (h : RowsOf s rows) : ∀ x ∈ rows.map Row.bells, x.length = s.numBells := by
  intro x hx
  obtain ⟨r, hr, rfl⟩ := List.mem_map.1 hx
  exact (h.2 r hr).2

theorem nil (hs : s.Valid) : RowsOf s [] := ⟨hs, by simp⟩

theorem append {rows' : List Row} (h : RowsOf s rows) (h' : RowsOf s rows') :
    RowsOf s (rows ++ rows') :=
  ⟨h.1, fun r hr => (List.mem_append.1 hr).elim (h.2 r) (h'.2 r)⟩

theorem of_subset {rows' : List Row} (h : RowsOf s rows) (h' : ∀ r ∈ rows', r ∈ rows) :
    RowsOf s rows' := ⟨h.1, fun r hr => h.2 r (h' r hr)⟩

theorem take (h : RowsOf s rows) (i : Nat) : RowsOf s (rows.take i) :=
  h.of_subset fun _ hr => List.mem_of_mem_take hr

theorem drop (h : RowsOf s rows) (i : Nat) : RowsOf s (rows.drop i) :=
  h.of_subset fun _ hr => List.mem_of_mem_drop hr

theorem single {r : Row} (hr : r.Valid) (hl : r.bells.length = s.numBells) : RowsOf s [r] :=
  ⟨by unfold Stage.Valid; rw [← hl]; exact hr.length_pos, by simpa using ⟨hr, hl⟩⟩

theorem map_comp {t : Row} (h : RowsOf s rows) (ht : t.Valid) (hl : t.bells.length = s.numBells) :
    RowsOf s (rows.map (Row.comp t)) := by
  refine ⟨h.1, fun r' hr' => ?_⟩
  obtain ⟨r, hr, rfl⟩ := List.mem_map.1 hr'
  exact ⟨ht.comp (h.2 r hr).1 (hl.trans (h.2 r hr).2.symm), by simp [(h.2 r hr).2]⟩

end RowsOf

namespace SameStageVec

variable {s : Stage} {rows : List Row}

theorem ofRows_bells : (ofRows s rows).bells = (rows.map Row.bells).flatten := by
  simp [ofRows, List.flatMap]

theorem ofRows_length (h : RowsOf s rows) :
    (ofRows s rows).bells.length = rows.length * s.numBells := by
  rw [ofRows_bells, length_flatten_uniform _ h.len]; simp

@[simp] theorem ofRows_stage : (ofRows s rows).stage = s := rfl

theorem ofRows_take (h : RowsOf s rows) (i : Nat) :
    (ofRows s rows).bells.take (i * s.numBells) = (ofRows s (rows.take i)).bells := by
  rw [ofRows_bells, ofRows_bells, take_flatten_uniform _ _ h.len, List.map_take]

theorem ofRows_drop (h : RowsOf s rows) (i : Nat) :
    (ofRows s rows).bells.drop (i * s.numBells) = (ofRows s (rows.drop i)).bells := by
  rw [ofRows_bells, ofRows_bells, drop_flatten_uniform _ _ h.len, List.map_drop]

theorem ofRows_append (r1 r2 : List Row) :
    (ofRows s (r1 ++ r2)).bells = (ofRows s r1).bells ++ (ofRows s r2).bells := by
  simp [ofRows]

theorem mul_le_iff (h : RowsOf s rows) {i : Nat} : i * s.numBells ≤ rows.length * s.numBells ↔
    i ≤ rows.length := Nat.mul_le_mul_right_iff h.pos

theorem ofRows_sliceGet (h : RowsOf s rows) (i j : Nat) :
    sliceGet (ofRows s rows).bells (i * s.numBells) (j * s.numBells) =
      if i ≤ j ∧ j ≤ rows.length then some (ofRows s ((rows.take j).drop i)).bells else none := by
  unfold sliceGet
  simp only [ofRows_length h, Nat.mul_le_mul_right_iff h.pos, ofRows_take h,
    ofRows_drop (h.take j)]

theorem take_drop_succ (rows : List Row) (i : Nat) :
    ∀ r, rows[i]? = some r → (rows.take (i + 1)).drop i = [r] := by
  intro r hr
  obtain ⟨hlt, rfl⟩ := List.getElem?_eq_some_iff.1 hr
  rw [List.drop_take, List.drop_eq_getElem_cons hlt, Nat.add_sub_cancel_left]
  rfl

theorem ofRows_get (h : RowsOf s rows) (i : Nat) : (ofRows s rows).get i = rows[i]? := by
  unfold get
  simp only [ofRows_stage, ofRows_sliceGet h]
  cases hr : rows[i]? with
  | none =>
    have := List.getElem?_eq_none_iff.1 hr
    rw [if_neg (by omega)]
  | some r =>
    obtain ⟨hlt, -⟩ := List.getElem?_eq_some_iff.1 hr
    rw [if_pos (by omega), take_drop_succ rows i r hr]
    simp [ofRows]

theorem ofRows_index (h : RowsOf s rows) (i : Nat) :
    (ofRows s rows).index i = getIdx rows i := by
  unfold index sliceIdx
  simp only [ofRows_stage, ofRows_sliceGet h, getIdx]
  cases hr : rows[i]? with
  | none =>
    have := List.getElem?_eq_none_iff.1 hr
    rw [if_neg (by omega)]; rfl
  | some r =>
    obtain ⟨hlt, -⟩ := List.getElem?_eq_some_iff.1 hr
    rw [if_pos (by omega), take_drop_succ rows i r hr]
    simp [ofRows]

theorem ofRows_len (h : RowsOf s rows) : (ofRows s rows).len = .ok rows.length := by
  have := h.pos
  have h0 : s.numBells ≠ 0 := by omega
  simp [len, ofRows_length h, h0, Nat.mul_div_cancel _ h.pos]

theorem ofRows_isEmpty (h : RowsOf s rows) : (ofRows s rows).isEmpty = rows.isEmpty := by
  have := h.pos
  cases rows with
  | nil => rfl
  | cons r rows =>
    have hr := (h.2 r (by simp)).1.length_pos
    simp only [isEmpty, ofRows, List.flatMap_cons, List.isEmpty_cons]
    cases hb : r.bells with
    | nil => simp [hb] at hr
    | cons => rfl

theorem ofRows_first (h : RowsOf s rows) : (ofRows s rows).first = rows.head? := by
  rw [first, ofRows_get h, List.head?_eq_getElem?]

theorem ofRows_last (h : RowsOf s rows) : (ofRows s rows).last = .ok rows.getLast? := by
  simp only [last, ofRows_len h, Res.ok_bind]
  cases rows with
  | nil => rfl
  | cons r rows =>
    rw [if_neg (by simp), ofRows_get h, List.getLast?_eq_getElem?]
    rfl

theorem iter_eq (s : Stage) (rows : List Row) : (ofRows s rows).iter = ⟨(ofRows s rows).bells, s⟩ :=
  rfl

theorem ofRows_cons_bells (r : Row) : (ofRows s (r :: rows)).bells = r.bells ++ (ofRows s rows).bells := by
  simp [ofRows]

theorem collect_ofRows : ∀ (rows : List Row), RowsOf s rows → (ofRows s rows).iter.collect = .ok rows
  | [], h => by
    have h0 : s.numBells ≠ 0 := by have := h.pos; omega
    rw [iter_eq, Iter.collect]; simp [ofRows, h0]
  | r :: rows, h => by
    have h0 : s.numBells ≠ 0 := by have := h.pos; omega
    have hl := (h.2 r (by simp)).2
    have h' : RowsOf s rows := h.of_subset (fun _ hr => by simp [hr])
    have ih := collect_ofRows rows h'
    rw [iter_eq] at ih
    rw [iter_eq, Iter.collect, ofRows_cons_bells]
    have hne : ¬ (r.bells ++ (ofRows s rows).bells).isEmpty := by
      have := (h.2 r (by simp)).1.1
      simp [this]
    simp only [h0, hne, dif_neg, not_false_eq_true]
    rw [if_neg (by simp [hl]), List.drop_left' hl, List.take_left' hl, ih]
    rfl

theorem next_ofRows (h : RowsOf s rows) : (ofRows s rows).iter.next =
    .ok (rows.head?, (ofRows s rows.tail).iter) := by
  cases rows with
  | nil => rfl
  | cons r rows =>
    have hl := (h.2 r (by simp)).2
    have hne : ¬ (r.bells ++ (ofRows s rows).bells).isEmpty := by
      have := (h.2 r (by simp)).1.1
      simp [this]
    simp only [iter_eq, Iter.next, ofRows_cons_bells]
    rw [if_neg hne, if_neg (by simp [hl]), List.drop_left' hl, List.take_left' hl]
    rfl

theorem nextBack_ofRows (h : RowsOf s rows) : (ofRows s rows).iter.nextBack =
    .ok (rows.getLast?, (ofRows s rows.dropLast).iter) := by
  rcases List.eq_nil_or_concat rows with rfl | ⟨rows, r, rfl⟩
  · rfl
  · have hr := h.2 r (by simp)
    have hb : (ofRows s (rows ++ [r])).bells = (ofRows s rows).bells ++ r.bells := by
      simp [ofRows]
    have hne : ¬ ((ofRows s rows).bells ++ r.bells).isEmpty := by
      have := hr.1.1
      simp [this]
    simp only [iter_eq, Iter.nextBack, hb, List.concat_eq_append]
    rw [if_neg hne]
    have hk : ((ofRows s rows).bells ++ r.bells).length - s.numBells = (ofRows s rows).bells.length := by
      simp [hr.2]
    simp only [checkedSub]
    rw [if_pos (by simp [hr.2]), hk]
    simp

theorem iterLen_ofRows (h : RowsOf s rows) : (ofRows s rows).iter.len = .ok rows.length := by
  have h0 : s.numBells ≠ 0 := by have := h.pos; omega
  simp [iter_eq, Iter.len, ofRows_length h, h0, Nat.mul_div_cancel _ h.pos]

theorem ofRows_push (r : Row) (hr : r.Valid) : (ofRows s rows).push r =
    if s.numBells = r.bells.length then .ok (ofRows s (rows ++ [r]), .ok ())
    else .ok (ofRows s rows, .error ⟨s, ⟨r.bells.length⟩⟩) := by
  simp only [push, hr.stage_eq, Res.ok_bind, ofRows_stage]
  by_cases hl : s.numBells = r.bells.length
  · have : s = ⟨r.bells.length⟩ := by cases s; simp_all
    rw [if_pos hl, ← this, Row.testErr_self]
    simp [ofRows]
  · have : s ≠ ⟨r.bells.length⟩ := by intro h; apply hl; rw [h]
    rw [if_neg hl, Row.testErr_ne this]
    rfl

theorem ofRows_pop (h : RowsOf s rows) : (ofRows s rows).pop =
    .ok (ofRows s rows.dropLast, rows.getLast?) := by
  rcases List.eq_nil_or_concat rows with rfl | ⟨rows, r, rfl⟩
  · have := h.pos
    simp [pop, ofRows, this]
  · have hr := h.2 r (by simp)
    have h0 : s.numBells ≠ 0 := by have := h.pos; omega
    have hl : RowsOf s rows := h.of_subset (by simp +contextual)
    have hb : (ofRows s (rows ++ [r])).bells = (ofRows s rows).bells ++ r.bells := by
      simp [ofRows]
    simp only [List.concat_eq_append, pop, hb, ofRows_stage]
    have hk : ((ofRows s rows).bells ++ r.bells).length - s.numBells = (ofRows s rows).bells.length := by
      simp [hr.2]
    rw [if_neg (by simp [hr.2]), if_neg h0, hk]
    simp [ofRows_length hl]
    rfl

/-- The rows up to the first one of another stage. -/
theorem extendLoop_ofRows (before : Nat) : ∀ (ext rows : List Row), (∀ r ∈ ext, r.Valid) →
    extendLoop before (ofRows s rows) ext =
      match ext.find? (fun r => r.bells.length != s.numBells) with
      | none => .ok (ofRows s (rows ++ ext), .ok ())
      | some r => .ok (⟨(ofRows s (rows ++
          ext.takeWhile (fun r => r.bells.length == s.numBells))).bells.take before, s⟩,
            .error ⟨s, ⟨r.bells.length⟩⟩)
  | [], rows, _ => by simp [extendLoop]
  | e :: ext, rows, h => by
    have he := h e (by simp)
    simp only [extendLoop, he.stage_eq, Res.ok_bind, ofRows_stage]
    by_cases hl : e.bells.length = s.numBells
    · have : s = ⟨e.bells.length⟩ := by cases s; simp_all
      have ih := extendLoop_ofRows before ext (rows ++ [e]) (fun r hr => h r (by simp [hr]))
      have hv : (⟨(ofRows s rows).bells ++ e.bells, s⟩ : SameStageVec) = ofRows s (rows ++ [e]) := by
        simp [ofRows]
      rw [← this, Row.testErr_self]
      simp only [hv, ih]
      simp [hl]
    · have : s ≠ ⟨e.bells.length⟩ := by intro h; apply hl; rw [h]
      rw [Row.testErr_ne this]
      simp [hl]

theorem ofRows_extend (ext : List Row) (hext : ∀ r ∈ ext, r.Valid) :
    (ofRows s rows).extend ext =
      match ext.find? (fun r => r.bells.length != s.numBells) with
      | none => .ok (ofRows s (rows ++ ext), .ok ())
      | some r => .ok (ofRows s rows, .error ⟨s, ⟨r.bells.length⟩⟩) := by
  rw [extend, extendLoop_ofRows _ _ _ hext]
  split
  · rfl
  · congr 2
    rw [ofRows_append, List.take_left']
    · rfl
    · rfl

theorem ofRows_extendFromBuf (s2 : Stage) (rows2 : List Row) :
    (ofRows s rows).extendFromBuf (ofRows s2 rows2) =
      if s = s2 then (ofRows s (rows ++ rows2), .ok ())
      else (ofRows s rows, .error ⟨s, s2⟩) := by
  simp only [extendFromBuf, ofRows_stage]
  by_cases h : s = s2
  · subst h
    rw [Row.testErr_self, if_pos rfl]
    simp [ofRows]
  · rw [Row.testErr_ne h, if_neg h]

theorem ofRows_split (h : RowsOf s rows) (i : Nat) : (ofRows s rows).split i =
    if i ≤ rows.length then some (ofRows s (rows.take i), ofRows s (rows.drop i)) else none := by
  simp only [split, Utils.splitVec, ofRows_stage, ofRows_length h, ofRows_take h, ofRows_drop h]
  by_cases hi : i ≤ rows.length
  · have := (mul_le_iff h).2 hi
    rw [if_neg (by omega), if_pos hi]
    rfl
  · have := mt (mul_le_iff h).1 hi
    rw [if_pos (by omega), if_neg hi]

theorem mapBells_ofRows {t : Row} (ht : t.Valid) (hl : t.bells.length = s.numBells)
    (h : RowsOf s rows) : (ofRows s rows).bells.mapM (fun b => getIdx t.bells b.index) =
      .ok (ofRows s (rows.map (Row.comp t))).bells := by
  rw [mapM_res_eq_ok (g := fun x => t.bells[x.index]?.getD x)]
  · simp [ofRows, List.map_flatMap, List.flatMap_map, Row.comp]
  · intro b hb
    simp only [ofRows, List.mem_flatMap] at hb
    obtain ⟨r, hr, hb⟩ := hb
    have := ((h.2 r hr).1.mem_iff b).1 hb
    rw [(h.2 r hr).2, ← hl] at this
    rw [getIdx_of_lt _ _ this, List.getElem?_eq_getElem this]
    rfl

theorem mapUnchecked_ofRows {t : Row} (ht : t.Valid) (hl : t.bells.length = s.numBells)
    (h : RowsOf s rows) : (ofRows s rows).bells.mapM (fun b => getUnchecked t.bells b.index) =
      .ok (ofRows s (rows.map (Row.comp t))).bells := by
  rw [mapM_res_eq_ok (g := fun x => t.bells[x.index]?.getD x)]
  · simp [ofRows, List.map_flatMap, List.flatMap_map, Row.comp]
  · intro b hb
    simp only [ofRows, List.mem_flatMap] at hb
    obtain ⟨r, hr, hb⟩ := hb
    have := ((h.2 r hr).1.mem_iff b).1 hb
    rw [(h.2 r hr).2, ← hl] at this
    rw [getUnchecked, List.getElem?_eq_getElem this]
    rfl

theorem ofRows_preMultiply (h : RowsOf s rows) (t : Row) (ht : t.Valid) :
    (ofRows s rows).preMultiply t =
      if t.bells.length = s.numBells then .ok (ofRows s (rows.map (Row.comp t)), .ok ())
      else .ok (ofRows s rows, .error ⟨⟨t.bells.length⟩, s⟩) := by
  simp only [preMultiply, ht.stage_eq, Res.ok_bind, ofRows_stage]
  by_cases hl : t.bells.length = s.numBells
  · have : s = ⟨t.bells.length⟩ := by cases s; simp_all
    rw [if_pos hl, ← this, Row.testErr_self]
    simp only [mapUnchecked_ofRows ht hl h, Res.ok_bind]
    rfl
  · have : (⟨t.bells.length⟩ : Stage) ≠ s := by intro h; apply hl; rw [← h]
    rw [if_neg hl, Row.testErr_ne this]
    rfl

theorem ofRows_toBellRange (h : RowsOf s rows) (a b : Utils.Bound) :
    (ofRows s rows).toBellRange a b =
      .ok ((Utils.clampRange a b rows.length).1 * s.numBells,
        (Utils.clampRange a b rows.length).2 * s.numBells) := by
  simp [toBellRange, ofRows_len h]

theorem ofRows_extendRangeTransposed (t : Row) (ht : t.Valid) (s2 : Stage) (rows2 : List Row)
    (h2 : RowsOf s2 rows2) (hs : t.bells.length = s.numBells → s2 = s) (a b : Utils.Bound) :
    (ofRows s rows).extendRangeTransposed t (ofRows s2 rows2) a b =
      if t.bells.length = s.numBells then
        let lo := (Utils.clampRange a b rows2.length).1
        let hi := (Utils.clampRange a b rows2.length).2
        if lo ≤ hi ∧ hi ≤ rows2.length then
          .ok (ofRows s (rows ++ ((rows2.take hi).drop lo).map (Row.comp t)), .ok ())
        else .error .index
      else .ok (ofRows s rows, .error ⟨s, ⟨t.bells.length⟩⟩) := by
  simp only [extendRangeTransposed, ht.stage_eq, Res.ok_bind, ofRows_stage]
  by_cases hl : t.bells.length = s.numBells
  · have : s = ⟨t.bells.length⟩ := by cases s; simp_all
    have hs := hs hl
    subst hs
    rw [if_pos hl, ← this, Row.testErr_self]
    simp only [ofRows_toBellRange h2, Res.ok_bind, sliceIdx, ofRows_sliceGet h2]
    generalize (Utils.clampRange a b rows2.length).1 = lo
    generalize (Utils.clampRange a b rows2.length).2 = hi
    split
    · rename_i heq
      split at heq
      · rename_i hc
        cases heq
        have h2' := (h2.take hi).drop lo
        simp only [Res.ok_bind, mapBells_ofRows ht hl h2', if_pos hc]
        simp [ofRows]
      · cases heq
    · rename_i heq
      split at heq
      · cases heq
      · rename_i hc
        rw [if_neg hc]; rfl
  · have : s ≠ ⟨t.bells.length⟩ := by intro h; apply hl; rw [h]
    rw [if_neg hl, Row.testErr_ne this]
    rfl

/-- Copying the bells of one row. -/
theorem fromWithinLoop_row (t : Row) (ht : t.Valid) (r : Row) (hr : r.Valid)
    (hl : t.bells.length = r.bells.length) (pre : List Bell) (post : List Bell) (idxs : List Nat) :
    fromWithinLoop t (pre ++ r.bells ++ post)
        (List.range' pre.length r.bells.length ++ idxs) =
      fromWithinLoop t (pre ++ r.bells ++ post ++ (Row.comp t r).bells) idxs := by
  have key : ∀ (rest done : List Bell), r.bells = done ++ rest →
      fromWithinLoop t (pre ++ r.bells ++ post ++ done.map (fun x => t.bells[x.index]?.getD x))
        (List.range' (pre.length + done.length) rest.length ++ idxs) =
      fromWithinLoop t (pre ++ r.bells ++ post ++ (Row.comp t r).bells) idxs := by
    intro rest
    induction rest with
    | nil => intro done hd; simp [Row.comp, hd]
    | cons b rest ih =>
      intro done hd
      have hb : b.index < t.bells.length := by
        rw [hl]; exact (hr.mem_iff b).1 (by rw [hd]; simp)
      rw [List.length_cons, List.range'_succ, List.cons_append, fromWithinLoop]
      have hget : getIdx (pre ++ r.bells ++ post ++ done.map (fun x => t.bells[x.index]?.getD x))
          (pre.length + done.length) = .ok b := by
        apply getIdx_of_getElem?
        rw [hd]
        simp
      rw [hget]
      simp only [Res.ok_bind, getIdx_of_lt _ _ hb]
      have := ih (done ++ [b]) (by simp [hd])
      rw [← this]
      simp [hb, Nat.add_assoc]
  have := key r.bells [] rfl
  simpa using this

theorem fromWithinLoop_ofRows (t : Row) (ht : t.Valid) (hl : t.bells.length = s.numBells) :
    ∀ (m lo : Nat) (rows : List Row), RowsOf s rows →
    fromWithinLoop t (ofRows s rows).bells (List.range' (lo * s.numBells) (m * s.numBells)) =
      (copyRows t rows (List.range' lo m)).map (fun rows' => (ofRows s rows').bells) ∧
    ∀ rows', copyRows t rows (List.range' lo m) = .ok rows' → RowsOf s rows'
  | 0, lo, rows, h => by
    refine ⟨by simp [fromWithinLoop, copyRows, Except.map], ?_⟩
    intro rows' hr
    simp only [List.range'_zero, copyRows, Except.ok.injEq] at hr
    exact hr ▸ h
  | m + 1, lo, rows, h => by
    have hk := h.pos
    rw [List.range'_succ, copyRows]
    cases hr : rows[lo]? with
    | none =>
      have hlen := List.getElem?_eq_none_iff.1 hr
      refine ⟨?_, by simp⟩
      obtain ⟨k, hk'⟩ : ∃ k, (m + 1) * s.numBells = k + 1 :=
        ⟨(m + 1) * s.numBells - 1, (Nat.sub_add_cancel (Nat.mul_pos (Nat.succ_pos m) hk)).symm⟩
      rw [hk', List.range'_succ, fromWithinLoop, getIdx_of_le]
      · rfl
      · rw [ofRows_length h]; exact Nat.mul_le_mul_right _ hlen
    | some r =>
      obtain ⟨hlt, hr'⟩ := List.getElem?_eq_some_iff.1 hr
      have hrv := h.2 r (List.mem_of_getElem? hr)
      have hnew : RowsOf s (rows ++ [Row.comp t r]) :=
        h.append (RowsOf.single (ht.comp hrv.1 (hl.trans hrv.2.symm)) (by simp [hrv.2]))
      have ih := fromWithinLoop_ofRows t ht hl m (lo + 1) (rows ++ [Row.comp t r]) hnew
      have hsplit : rows = rows.take lo ++ r :: rows.drop (lo + 1) := by
        rw [← hr', ← List.drop_eq_getElem_cons hlt, List.take_append_drop]
      have hb : (ofRows s rows).bells =
          (ofRows s (rows.take lo)).bells ++ r.bells ++ (ofRows s (rows.drop (lo + 1))).bells := by
        conv_lhs => rw [hsplit]
        simp [ofRows]
      have hpl : (ofRows s (rows.take lo)).bells.length = lo * s.numBells := by
        rw [ofRows_length (h.take lo), List.length_take, Nat.min_eq_left (by omega)]
      have hrange : List.range' (lo * s.numBells) ((m + 1) * s.numBells) =
          List.range' (ofRows s (rows.take lo)).bells.length r.bells.length ++
            List.range' ((lo + 1) * s.numBells) (m * s.numBells) := by
        have := List.range'_append (s := lo * s.numBells) (m := s.numBells) (n := m * s.numBells)
          (step := 1)
        rw [hpl, hrv.2, show (lo + 1) * s.numBells = lo * s.numBells + 1 * s.numBells by
          rw [Nat.add_mul], this]
        congr 1
        rw [Nat.add_mul]; omega
      refine ⟨?_, ih.2⟩
      rw [hb, hrange, fromWithinLoop_row t ht r hrv.1 (hl.trans hrv.2.symm), ← hb]
      have : (ofRows s rows).bells ++ (Row.comp t r).bells =
          (ofRows s (rows ++ [Row.comp t r])).bells := by simp [ofRows]
      rw [this]
      exact ih.1

theorem copyRows_in_range (t : Row) : ∀ (m lo : Nat) (rows : List Row),
    lo + m ≤ rows.length →
    copyRows t rows (List.range' lo m) =
      .ok (rows ++ ((rows.drop lo).take m).map (Row.comp t))
  | 0, lo, rows, _ => by simp [copyRows]
  | m + 1, lo, rows, h => by
    have hlt : lo < rows.length := by omega
    rw [List.range'_succ, copyRows, List.getElem?_eq_getElem hlt]
    simp only
    rw [copyRows_in_range t m (lo + 1) _ (by simp; omega), List.drop_eq_getElem_cons hlt]
    rw [List.drop_append_of_le_length (by omega), List.take_append_of_le_length (by simp; omega)]
    rw [List.take_succ_cons, List.map_cons, List.append_assoc, List.singleton_append]

theorem ofRows_extendTransposedFromWithin (h : RowsOf s rows) (t : Row) (ht : t.Valid)
    (a b : Utils.Bound) :
    (ofRows s rows).extendTransposedFromWithin a b t =
      if t.bells.length = s.numBells then
        let lo := (Utils.clampRange a b rows.length).1
        let hi := (Utils.clampRange a b rows.length).2
        (copyRows t rows (List.range' lo (hi - lo))).map (fun rows' => (ofRows s rows', .ok ()))
      else .ok (ofRows s rows, .error ⟨s, ⟨t.bells.length⟩⟩) := by
  simp only [extendTransposedFromWithin, ht.stage_eq, Res.ok_bind, ofRows_stage]
  by_cases hl : t.bells.length = s.numBells
  · have : s = ⟨t.bells.length⟩ := by cases s; simp_all
    rw [if_pos hl, ← this, Row.testErr_self]
    simp only [ofRows_toBellRange h, Res.ok_bind]
    generalize (Utils.clampRange a b rows.length).1 = lo
    generalize (Utils.clampRange a b rows.length).2 = hi
    rw [← Nat.mul_sub_right_distrib, (fromWithinLoop_ofRows t ht hl (hi - lo) lo rows h).1]
    cases copyRows t rows (List.range' lo (hi - lo)) with
    | error e => rfl
    | ok rows' => rfl
  · have : s ≠ ⟨t.bells.length⟩ := by intro h; apply hl; rw [h]
    rw [if_neg hl, Row.testErr_ne this]
    rfl

theorem ofRows_pathOf (h : RowsOf s rows) (b : Bell) :
    (∃ path, (ofRows s rows).pathOf b = .ok (some path) ∧ b.index < s.numBells ∧
      path.length = rows.length ∧
      ∀ (i p : Nat), path[i]? = some p ↔ ∃ r, rows[i]? = some r ∧ r.placeOf b = some p) ∨
    (s.numBells ≤ b.index ∧ (ofRows s rows).pathOf b = .ok none) := by
  by_cases hb : b.index < s.numBells
  · left
    have hp : ∀ r ∈ rows, ∃ p, r.placeOf b = some p := by
      intro r hr
      have hm : b ∈ r.bells := ((h.2 r hr).1.mem_iff b).2 (by rw [(h.2 r hr).2]; exact hb)
      cases hf : r.placeOf b with
      | some p => exact ⟨p, rfl⟩
      | none =>
        unfold Row.placeOf at hf
        rw [List.findIdx?_eq_none_iff] at hf
        simpa using hf b hm
    have hm : rows.mapM (fun r => unwrap (r.placeOf b)) =
        .ok (rows.map fun r => (r.placeOf b).getD 0) := by
      apply mapM_res_eq_ok
      intro r hr
      obtain ⟨p, hp⟩ := hp r hr
      simp [hp]
    refine ⟨_, by simp only [pathOf, ofRows_stage, if_pos hb, collect_ofRows _ h, Res.ok_bind, hm]; rfl,
      hb, by simp, ?_⟩
    intro i p
    rw [List.getElem?_map]
    cases hr : rows[i]? with
    | none => simp
    | some r =>
      obtain ⟨q, hq⟩ := hp r (List.mem_of_getElem? hr)
      simp [hq]
  · right
    exact ⟨by omega, by simp [pathOf, hb]⟩

theorem ofRows_setRow (h : RowsOf s rows) (i : Nat) (f : Row → Res Row) :
    (ofRows s rows).setRow i f =
      match rows[i]? with
      | none => .ok none
      | some r => (f r).map (fun r' => some (ofRows s (rows.set i r'))) := by
  unfold setRow
  simp only [ofRows_stage, ofRows_sliceGet h]
  cases hr : rows[i]? with
  | none =>
    have := List.getElem?_eq_none_iff.1 hr
    rw [if_neg (by omega)]
  | some r =>
    obtain ⟨hlt, hr'⟩ := List.getElem?_eq_some_iff.1 hr
    rw [if_pos (by omega), take_drop_succ rows i r hr]
    have : (⟨(ofRows s [r]).bells⟩ : Row) = r := by simp [ofRows]
    simp only [this]
    cases f r with
    | error e => rfl
    | ok r' =>
      simp only [Res.ok_bind, Res.pure_eq, Except.map]
      rw [ofRows_take h, ofRows_drop h, List.set_eq_take_append_cons_drop, if_pos hlt]
      simp [ofRows]

theorem parse_valid {l : List Char} {r : Row} (h : Row.parse l = .ok r) : r.Valid := by
  unfold Row.parse at h
  rcases Row.fromVec_cases (l.filterMap Bell.fromName) with ⟨-, h'⟩ | ⟨hv, h'⟩ | ⟨_, _, _, -, -, -, h'⟩
  · rw [h'] at h; cases h
  · rw [h'] at h; cases h; exact hv
  · rcases h' with ⟨-, h'⟩ | ⟨-, -, h'⟩ <;> rw [h'] at h <;> cases h

theorem parseLoop_ofRows : ∀ (lines : List (List Char)) (n : Nat) (rows : List Row),
    RowsOf s rows →
    (∃ rows', List.Forall₂ (fun l r => Row.parse l = .ok r) lines rows' ∧ RowsOf s rows' ∧
      parseLoop (ofRows s rows) n lines = .ok (.ok (ofRows s (rows ++ rows')))) ∨
    (∃ good l rest rows' e, lines = good ++ l :: rest ∧
      List.Forall₂ (fun l r => Row.parse l = .ok r) good rows' ∧ RowsOf s rows' ∧
      parseLoop (ofRows s rows) n lines = .ok (.error e) ∧
      ((∃ err, Row.parse l = .error err ∧ e = .invalidRow (n + good.length) err) ∨
       (∃ r, Row.parse l = .ok r ∧ r.bells.length ≠ s.numBells ∧
          e = .incompatibleStages (n + good.length) s ⟨r.bells.length⟩)))
  | [], n, rows, h => Or.inl ⟨[], .nil, RowsOf.nil h.1, by simp [parseLoop]⟩
  | l :: lines, n, rows, h => by
    rw [parseLoop]
    cases hp : Row.parse l with
    | error err =>
      exact Or.inr ⟨[], l, lines, [], _, rfl, .nil, RowsOf.nil h.1, rfl,
        Or.inl ⟨err, hp, rfl⟩⟩
    | ok r =>
      have hv := parse_valid hp
      simp only [ofRows_push r hv]
      by_cases hl : s.numBells = r.bells.length
      · have hr := RowsOf.single hv hl.symm
        simp only [if_pos hl, Res.ok_bind]
        rcases parseLoop_ofRows lines (n + 1) (rows ++ [r]) (h.append hr) with
          ⟨rows', h1, h2, h3⟩ | ⟨good, l', rest, rows', e, h1, h2, h3, h4, h5⟩
        · exact Or.inl ⟨r :: rows', .cons hp h1, hr.append h2, by simp [h3]⟩
        · refine Or.inr ⟨l :: good, l', rest, r :: rows', e, by simp [h1], .cons hp h2,
            hr.append h3, h4, ?_⟩
          have : n + (l :: good).length = n + 1 + good.length := by simp; omega
          rw [this]
          exact h5
      · simp only [if_neg hl, Res.ok_bind]
        exact Or.inr ⟨[], l, lines, [], _, rfl, .nil, RowsOf.nil h.1, rfl,
          Or.inr ⟨r, hp, Ne.symm hl, rfl⟩⟩

theorem ofRows_fromRowBuf {r : Row} (hr : r.Valid) :
    fromRowBuf r = .ok (ofRows ⟨r.bells.length⟩ [r]) := by
  simp [fromRowBuf, hr.stage_eq, ofRows]

end SameStageVec

theorem strLines_append (l : List Char) (hl : '\n' ∉ l) (cur rest : List Char) :
    strLines cur (l ++ rest) = strLines (cur ++ l) rest := by
  induction l generalizing cur with
  | nil => simp
  | cons c l ih =>
    have hc : c ≠ '\n' := by rintro rfl; simp at hl
    rw [List.cons_append, strLines, if_neg hc, ih (by simp_all)]
    simp

theorem strLines_of_linesOf {s : List Char} {ls : List (List Char)} (h : LinesOf s ls) :
    strLines [] s = ls := by
  induction h with
  | nil => rfl
  | last l hne hl =>
    have := strLines_append l hl [] []
    simp only [List.append_nil, List.nil_append] at this
    rw [this, strLines]
    simp [hne]
  | lf l t ls hl hcr _ ih =>
    rw [strLines_append l hl, strLines]
    simp [hcr, ih]
  | crlf l t ls hl _ ih =>
    have : '\n' ∉ l ++ ['\r'] := by simp [hl]
    have h2 := strLines_append (l ++ ['\r']) this [] ('\n' :: t)
    rw [List.append_assoc] at h2
    simp only [List.singleton_append, List.nil_append] at h2
    rw [h2, strLines]
    simp [ih]

theorem linesOf_strLines (n : Nat) : ∀ (s : List Char), s.length ≤ n → LinesOf s (strLines [] s) := by
  induction n with
  | zero =>
    intro s hs
    have : s = [] := by simpa using hs
    subst this; exact .nil
  | succ n ih =>
    intro s hs
    by_cases hn : '\n' ∈ s
    · obtain ⟨l, t, rfl, hl⟩ := List.eq_append_cons_of_mem hn
      have ht : t.length ≤ n := by simp at hs; omega
      by_cases hcr : l.getLast? = some '\r'
      · obtain ⟨l', rfl⟩ : ∃ l', l = l' ++ ['\r'] := ⟨_, (List.dropLast_append_getLast? _ hcr).symm⟩
        have h1 := LinesOf.crlf l' t _ (by simp_all) (ih t ht)
        rw [List.append_assoc, List.singleton_append, strLines_of_linesOf h1]
        exact h1
      · have h1 := LinesOf.lf l t _ hl hcr (ih t ht)
        rw [strLines_of_linesOf h1]
        exact h1
    · by_cases h0 : s = []
      · subst h0; exact .nil
      · have := LinesOf.last s h0 hn
        rw [strLines_of_linesOf this]
        exact this

end Bellframe
