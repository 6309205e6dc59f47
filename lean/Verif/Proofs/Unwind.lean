import Verif.Model.Unwind
import Verif.Spec.Unwind
import Verif.Proofs.Block

/-! # Lemmas about the state after a panic -/

namespace Bellframe

section List

variable {α β : Type} {f : α → Res β}

theorem mapUntilPanic_mapM (l : List α) :
    l.mapM f = (onReturn (mapUntilPanic f l)).map Prod.fst := by
  induction l with
  | nil => rfl
  | cons a l ih =>
    rw [List.mapM_cons, mapUntilPanic]
    cases f a with
    | error p => rfl
    | ok b =>
      simp only [Res.ok_bind]
      rw [ih]
      cases mapUntilPanic f l with
      | mk bs r => cases r <;> rfl

theorem mapUntilPanic_total {g : α → β} (l : List α) (h : ∀ a ∈ l, f a = .ok (g a)) :
    mapUntilPanic f l = (l.map g, .ok ()) := by
  induction l with
  | nil => rfl
  | cons a l ih =>
    rw [mapUntilPanic, h a (by simp), ih fun x hx => h x (by simp [hx])]
    rfl

theorem mapUntilPanic_panic (done rest : List α) (bs : List β) (x : α) (p : Panic)
    (h : List.Forall₂ (fun a b => f a = .ok b) done bs) (hx : f x = .error p) :
    mapUntilPanic f (done ++ x :: rest) = (bs, .error p) := by
  induction h with
  | nil => rw [List.nil_append, mapUntilPanic, hx]
  | cons h _ ih => rw [List.cons_append, mapUntilPanic, h, ih]

theorem mapUntilPanic_length (l : List α) (p : Panic) (h : (mapUntilPanic f l).2 = .error p) :
    (mapUntilPanic f l).1.length < l.length := by
  induction l with
  | nil => cases h
  | cons a l ih =>
    rw [mapUntilPanic] at h ⊢
    cases hf : f a with
    | error p => simp
    | ok b =>
      rw [hf] at h
      simpa using ih h

end List

namespace SameStageVec

theorem extendUnwindLoop_agrees (before : Nat) (rows : List Row) : ∀ v : SameStageVec,
    onReturn (v.extendUnwindLoop before (rows.map .ok)) = v.extendLoop before rows := by
  induction rows with
  | nil => intro v; rfl
  | cons r rows ih =>
    intro v
    rw [List.map_cons, extendUnwindLoop, extendLoop]
    cases r.stage with
    | error p => rfl
    | ok s =>
      simp only [Res.ok_bind]
      cases IncompatibleStages.testErr v.stage s with
      | error e => rfl
      | ok u => exact ih _

theorem extendRangeTransposedUnwind_agrees (v : SameStageVec) (t : Row) (other : SameStageVec)
    (start stop : Utils.Bound) : onReturn (v.extendRangeTransposedUnwind t other start stop) =
      v.extendRangeTransposed t other start stop := by
  unfold extendRangeTransposedUnwind extendRangeTransposed
  cases t.stage with
  | error p => rfl
  | ok s =>
    simp only [Res.ok_bind]
    cases IncompatibleStages.testErr v.stage s with
    | error e => rfl
    | ok u =>
      simp only
      cases other.toBellRange start stop with
      | error p => rfl
      | ok range =>
        simp only [Res.ok_bind]
        cases sliceIdx other.bells range.1 range.2 with
        | error p => rfl
        | ok slice =>
          simp only [Res.ok_bind]
          rw [mapUntilPanic_mapM]
          cases mapUntilPanic (fun b : Bell => getIdx t.bells b.index) slice with
          | mk bs r => cases r <;> rfl

theorem fromWithinUnwindLoop_agrees (t : Row) (idxs : List Nat) : ∀ bells : List Bell,
    (onReturn (fromWithinUnwindLoop t bells idxs)).map Prod.fst = fromWithinLoop t bells idxs := by
  induction idxs with
  | nil => intro bells; rfl
  | cons i idxs ih =>
    intro bells
    rw [fromWithinUnwindLoop, fromWithinLoop]
    cases getIdx bells i with
    | error p => rfl
    | ok b =>
      simp only [Res.ok_bind]
      cases getIdx t.bells b.index with
      | error p => rfl
      | ok x => exact ih _

theorem extendTransposedFromWithinUnwind_agrees (v : SameStageVec) (t : Row)
    (start stop : Utils.Bound) : onReturn (v.extendTransposedFromWithinUnwind start stop t) =
      v.extendTransposedFromWithin start stop t := by
  unfold extendTransposedFromWithinUnwind extendTransposedFromWithin
  cases t.stage with
  | error p => rfl
  | ok s =>
    simp only [Res.ok_bind]
    cases IncompatibleStages.testErr v.stage s with
    | error e => rfl
    | ok u =>
      simp only
      cases v.toBellRange start stop with
      | error p => rfl
      | ok range =>
        simp only [Res.ok_bind]
        rw [← fromWithinUnwindLoop_agrees]
        cases fromWithinUnwindLoop t v.bells (List.range' range.1 (range.2 - range.1)) with
        | mk bells r => cases r <;> rfl

/-- A call that returns ends with the returned object. -/
theorem eq_of_onReturn {σ α : Type} {x : σ × Res α} {c : σ} {a : α} (h : onReturn x = .ok (c, a)) :
    x = (c, .ok a) := by
  obtain ⟨s, r⟩ := x
  cases r with
  | error p => cases h
  | ok b => cases h; rfl

theorem panic_of_onReturn {σ α : Type} {x : σ × Res α} {p : Panic} (h : onReturn x = .error p) :
    x = (x.1, .error p) := by
  obtain ⟨s, r⟩ := x
  cases r with
  | error p => cases h; rfl
  | ok b => cases h

variable {s : Stage} {rows : List Row}

theorem ofRows_extendRangeTransposedUnwind (t : Row) (ht : t.Valid) (s2 : Stage) (rows2 : List Row)
    (h2 : RowsOf s2 rows2) (hs : t.bells.length = s.numBells → s2 = s) (a b : Utils.Bound) :
    (ofRows s rows).extendRangeTransposedUnwind t (ofRows s2 rows2) a b =
      if t.bells.length = s.numBells then
        let lo := (Utils.clampRange a b rows2.length).1
        let hi := (Utils.clampRange a b rows2.length).2
        if lo ≤ hi ∧ hi ≤ rows2.length then
          (ofRows s (rows ++ ((rows2.take hi).drop lo).map (Row.comp t)), .ok (.ok ()))
        else (ofRows s rows, .error .index)
      else (ofRows s rows, .ok (.error ⟨s, ⟨t.bells.length⟩⟩)) := by
  have h := extendRangeTransposedUnwind_agrees (ofRows s rows) t (ofRows s2 rows2) a b
  rw [ofRows_extendRangeTransposed t ht s2 rows2 h2 hs] at h
  by_cases hl : t.bells.length = s.numBells
  · rw [if_pos hl] at h ⊢
    simp only at h ⊢
    split
    · rename_i hc
      rw [if_pos hc] at h
      exact eq_of_onReturn h
    · rename_i hc
      have hst : s = ⟨t.bells.length⟩ := by cases s; simp_all
      have hs := hs hl
      subst hs
      simp only [extendRangeTransposedUnwind, ht.stage_eq, ofRows_stage]
      rw [← hst, Row.testErr_self]
      simp only [ofRows_toBellRange h2, sliceIdx, ofRows_sliceGet h2, if_neg hc]
  · rw [if_neg hl] at h ⊢
    exact eq_of_onReturn h

/-- Copying rows within a vector fails only when the first row to be copied does not exist. -/
theorem copyRows_of_lt (t : Row) : ∀ (m lo : Nat) (rows : List Row), lo < rows.length →
    ∃ more, copyRows t rows (List.range' lo m) = .ok (rows ++ more) ∧ more.length = m
  | 0, lo, rows, _ => ⟨[], by simp [copyRows]⟩
  | m + 1, lo, rows, h => by
    rw [List.range'_succ, copyRows, List.getElem?_eq_getElem h]
    obtain ⟨more, h1, h2⟩ := copyRows_of_lt t m (lo + 1) (rows ++ [Row.comp t rows[lo]])
      (by simpa using h)
    exact ⟨Row.comp t rows[lo] :: more, by simpa using h1, by simp [h2]⟩

theorem ofRows_extendTransposedFromWithinUnwind (h : RowsOf s rows) (t : Row) (ht : t.Valid)
    (hl : t.bells.length = s.numBells) (a b : Utils.Bound) (lo hi : Nat)
    (hr : Utils.clampRange a b rows.length = (lo, hi)) :
    (hi ≤ lo → (ofRows s rows).extendTransposedFromWithinUnwind a b t =
      (ofRows s rows, .ok (.ok ()))) ∧
    (lo < hi → rows.length ≤ lo → (ofRows s rows).extendTransposedFromWithinUnwind a b t =
      (ofRows s rows, .error .index)) ∧
    (lo < hi → lo < rows.length → ∃ more, RowsOf s (rows ++ more) ∧ more.length = hi - lo ∧
      copyRows t rows (List.range' lo (hi - lo)) = .ok (rows ++ more) ∧
      (ofRows s rows).extendTransposedFromWithinUnwind a b t =
        (ofRows s (rows ++ more), .ok (.ok ()))) := by
  have hg := extendTransposedFromWithinUnwind_agrees (ofRows s rows) t a b
  rw [ofRows_extendTransposedFromWithin h t ht, if_pos hl, hr] at hg
  simp only at hg
  refine ⟨fun hle => ?_, fun hlt hle => ?_, fun hlt hlo => ?_⟩
  · rw [Nat.sub_eq_zero_of_le hle, List.range'_zero, copyRows] at hg
    exact eq_of_onReturn hg
  · have hst : s = ⟨t.bells.length⟩ := by cases s; simp_all
    obtain ⟨k, hk⟩ : ∃ k, (hi - lo) * s.numBells = k + 1 :=
      ⟨(hi - lo) * s.numBells - 1, (Nat.sub_add_cancel (Nat.mul_pos (by omega) h.pos)).symm⟩
    simp only [extendTransposedFromWithinUnwind, ht.stage_eq, ofRows_stage]
    rw [← hst, Row.testErr_self]
    simp only [ofRows_toBellRange h, hr]
    rw [← Nat.mul_sub_right_distrib, hk, List.range'_succ, fromWithinUnwindLoop, getIdx_of_le]
    · rfl
    · rw [ofRows_length h]; exact Nat.mul_le_mul_right _ hle
  · obtain ⟨more, h1, h2⟩ := copyRows_of_lt t (hi - lo) lo rows hlo
    refine ⟨more, (fromWithinLoop_ofRows t ht hl (hi - lo) lo rows h).2 _ h1, h2, h1, ?_⟩
    rw [h1] at hg
    exact eq_of_onReturn hg

/-- What `extend` does with valid rows, up to the first panic. -/
theorem extendUnwindLoop_good (before : Nat) (good : List Row) (rest : List (Res Row)) :
    ∀ rows, (∀ r ∈ good, r.Valid ∧ r.bells.length = s.numBells) →
    (ofRows s rows).extendUnwindLoop before (good.map .ok ++ rest) =
      (ofRows s (rows ++ good)).extendUnwindLoop before rest := by
  induction good with
  | nil => intro rows _; simp
  | cons r good ih =>
    intro rows hg
    obtain ⟨hr, hl⟩ := hg r (by simp)
    have hst : s = ⟨r.bells.length⟩ := by cases s; simp_all
    rw [List.map_cons, List.cons_append, extendUnwindLoop]
    simp only [hr.stage_eq, ofRows_stage]
    rw [← hst, Row.testErr_self]
    have hb : (⟨(ofRows s rows).bells ++ r.bells, s⟩ : SameStageVec) = ofRows s (rows ++ [r]) := by
      simp [ofRows]
    simp only [hb]
    rw [ih _ fun x hx => hg x (by simp [hx])]
    simp

end SameStageVec

namespace AnnotBlock

variable {A : Type}

theorem extendRangeUnwind_agrees (b other : AnnotBlock A) (start stop : Utils.Bound) :
    onReturn (b.extendRangeUnwind .ok other start stop) = b.extendRange other start stop := by
  unfold extendRangeUnwind extendRange
  generalize Utils.clampRange start stop other.len = range
  obtain ⟨lo, hi⟩ := range
  simp only
  cases other.getRow lo with
  | none => rfl
  | some first =>
    simp only [unwrap_some, Res.ok_bind]
    cases b.leftoverRow with
    | error p => rfl
    | ok leftover =>
      simp only [Res.ok_bind]
      cases Row.solveXaEqualsB first leftover with
      | error p => rfl
      | ok x =>
        cases x with
        | error e => rfl
        | ok t =>
          simp only [Res.ok_bind]
          cases b.rows.pop with
          | error p => rfl
          | ok q =>
            obtain ⟨popped, o⟩ := q
            simp only [Res.ok_bind]
            rw [← SameStageVec.extendRangeTransposedUnwind_agrees]
            cases popped.extendRangeTransposedUnwind t other.rows (.included lo)
              (.excluded (hi + 1)) with
            | mk v r =>
              cases r with
              | error p => rfl
              | ok r =>
                cases r with
                | error e => rfl
                | ok u =>
                  simp only [mapUntilPanic_total (f := Except.ok) (g := id) other.annots
                    (fun _ _ => rfl), List.map_id]
                  rfl

theorem extendFromWithinUnwind_agrees (b : AnnotBlock A) (start stop : Utils.Bound) :
    (onReturn (b.extendFromWithinUnwind .ok start stop)).map Prod.fst =
      b.extendFromWithin start stop := by
  unfold extendFromWithinUnwind extendFromWithin
  generalize Utils.clampRange start stop b.len = range
  obtain ⟨lo, hi⟩ := range
  simp only
  cases b.getRow lo with
  | none => rfl
  | some first =>
    simp only [unwrap_some, Res.ok_bind]
    cases b.leftoverRow with
    | error p => rfl
    | ok leftover =>
      simp only [Res.ok_bind]
      cases Row.solveXaEqualsB first leftover with
      | error p => rfl
      | ok x =>
        cases x with
        | error e => rfl
        | ok t =>
          simp only [Res.ok_bind, unwrapResult_ok]
          rw [← SameStageVec.extendTransposedFromWithinUnwind_agrees]
          cases b.rows.extendTransposedFromWithinUnwind (.included (lo + 1))
            (.excluded (hi + 1)) t with
          | mk v r =>
            cases r with
            | error p => rfl
            | ok r =>
              cases r with
              | error e => rfl
              | ok u =>
                simp only
                cases sliceIdx b.annots lo hi with
                | error p => simp [onReturn, unwrapResult, Except.map]
                | ok slice =>
                  simp only [mapUntilPanic_total (f := Except.ok) (g := id) slice
                    (fun _ _ => rfl), List.map_id]
                  simp [onReturn, unwrapResult, Except.map]

variable {n : Nat} (hn : 0 < n) (σs : List (Equiv.Perm (Fin n))) (l : Equiv.Perm (Fin n))
  (annots : List A) (clone : A → Res A)

include hn

/-- `extend_range` on blocks of the same stage, and whatever the range. -/
theorem extendRangeUnwind_ofPerms (τs : List (Equiv.Perm (Fin n))) (m : Equiv.Perm (Fin n))
    (bnnots : List A) (h2 : τs.length = bnnots.length) (a b : Utils.Bound) (lo hi : Nat)
    (hr : Utils.clampRange a b bnnots.length = (lo, hi)) :
    (bnnots.length < lo → (ofPerms σs l annots).extendRangeUnwind clone (ofPerms τs m bnnots) a b =
      (ofPerms σs l annots, .error .unwrap)) ∧
    (∀ f, (τs ++ [m])[lo]? = some f → lo ≤ hi + 1 → hi ≤ bnnots.length →
      (ofPerms σs l annots).extendRangeUnwind clone (ofPerms τs m bnnots) a b =
        (⟨.ofRows ⟨n⟩ ((σs ++ (((τs ++ [m]).take (hi + 1)).drop lo).map
            (l * f⁻¹ * ·)).map Row.ofPerm), annots ++ (mapUntilPanic clone bnnots).1⟩,
          (mapUntilPanic clone bnnots).2.map .ok)) ∧
    (lo ≤ bnnots.length → ¬ (lo ≤ hi + 1 ∧ hi ≤ bnnots.length) →
      (ofPerms σs l annots).extendRangeUnwind clone (ofPerms τs m bnnots) a b =
        (⟨.ofRows ⟨n⟩ (σs.map Row.ofPerm), annots⟩, .error .index)) := by
  have hlen : (ofPerms τs m bnnots).len = bnnots.length := rfl
  have hpop : (ofPerms σs l annots).rows.pop =
      .ok (SameStageVec.ofRows ⟨n⟩ (σs.map Row.ofPerm), some (Row.ofPerm l)) := by
    rw [ofPerms, SameStageVec.ofRows_pop (RowsOf.perms hn _)]
    simp
  have hext : ∀ f : Equiv.Perm (Fin n), _ :=
    fun f => SameStageVec.ofRows_extendRangeTransposedUnwind (s := ⟨n⟩) (rows := σs.map Row.ofPerm)
    (Row.ofPerm (l * f⁻¹)) (Row.ofPerm_valid hn _) ⟨n⟩ ((τs ++ [m]).map Row.ofPerm)
    (RowsOf.perms hn _) (fun _ => rfl) (.included lo) (.excluded (hi + 1))
  simp only [Row.ofPerm_length, if_true] at hext
  have hc : Utils.clampRange (.included lo) (.excluded (hi + 1))
    ((τs ++ [m]).map Row.ofPerm).length = (lo, hi + 1) := rfl
  rw [hc] at hext
  simp only at hext
  have hrows : (ofPerms τs m bnnots).rows = SameStageVec.ofRows ⟨n⟩ ((τs ++ [m]).map Row.ofPerm) :=
    rfl
  refine ⟨fun hlt => ?_, fun f hf h3 h4 => ?_, fun hle hbad => ?_⟩
  · have : (τs ++ [m])[lo]? = none := by simp; omega
    simp only [extendRangeUnwind, hlen, hr, getRow_ofPerms hn, this, Option.map_none]
  · have hcond : lo ≤ hi + 1 ∧ hi + 1 ≤ ((τs ++ [m]).map Row.ofPerm).length := by simp; omega
    have hext := hext f
    rw [if_pos hcond] at hext
    simp only [extendRangeUnwind, hlen, hr, getRow_ofPerms hn, hf, Option.map_some,
      leftover_ofPerms hn, Row.solveXa_ofPerm hn, hpop, hrows, hext]
    rw [← List.map_take, ← List.map_drop, map_comp_ofPerm, ← List.map_append]
    rfl
  · obtain ⟨f, hf⟩ : ∃ f, (τs ++ [m])[lo]? = some f :=
      ⟨_, List.getElem?_eq_getElem (by simp; omega)⟩
    have hcond : ¬ (lo ≤ hi + 1 ∧ hi + 1 ≤ ((τs ++ [m]).map Row.ofPerm).length) := by
      simp; omega
    have hext := hext f
    rw [if_neg hcond] at hext
    simp only [extendRangeUnwind, hlen, hr, getRow_ofPerms hn, hf, Option.map_some,
      leftover_ofPerms hn, Row.solveXa_ofPerm hn, hpop, hrows, hext]
    rfl

/-- `extend_range` on blocks of different stages. -/
theorem extendRangeUnwind_mismatch {k : Nat} (hk : 0 < k) (hnk : n ≠ k)
    (τs : List (Equiv.Perm (Fin k))) (m : Equiv.Perm (Fin k)) (bnnots : List A)
    (h2 : τs.length = bnnots.length) (a b : Utils.Bound) (lo hi : Nat)
    (hr : Utils.clampRange a b bnnots.length = (lo, hi)) :
    (ofPerms σs l annots).extendRangeUnwind clone (ofPerms τs m bnnots) a b =
      (ofPerms σs l annots,
        if bnnots.length < lo then .error .unwrap else .ok (.error ⟨⟨n⟩, ⟨k⟩⟩)) := by
  have hlen : (ofPerms τs m bnnots).len = bnnots.length := rfl
  split
  · have : (τs ++ [m])[lo]? = none := by simp; omega
    simp only [extendRangeUnwind, hlen, hr, getRow_ofPerms hk, this, Option.map_none]
  · obtain ⟨f, hf⟩ : ∃ f, (τs ++ [m])[lo]? = some f :=
      ⟨_, List.getElem?_eq_getElem (by simp; omega)⟩
    simp only [extendRangeUnwind, hlen, hr, getRow_ofPerms hk, hf, Option.map_some,
      leftover_ofPerms hn]
    rw [Row.solveXa_mismatch (Row.ofPerm_valid hk f) (Row.ofPerm_valid hn l)
      (by simpa using Ne.symm hnk)]
    simp

theorem _root_.Bellframe.SameStageVec.copyRows_perms (t : Equiv.Perm (Fin n)) : ∀ (m lo : Nat) (ρs : List (Equiv.Perm (Fin n)))
    (rows : List Row), SameStageVec.copyRows (Row.ofPerm t) (ρs.map Row.ofPerm) (List.range' lo m) = .ok rows →
    ∃ more, rows = (ρs ++ more).map Row.ofPerm ∧ more.length = m ∧
      ∀ j < m, ∃ row, (ρs ++ more)[lo + j]? = some row ∧ more[j]? = some (t * row)
  | 0, lo, ρs, rows, h => by
    simp only [List.range'_zero, SameStageVec.copyRows, Except.ok.injEq] at h
    exact ⟨[], by simp [← h], rfl, by simp⟩
  | m + 1, lo, ρs, rows, h => by
    rw [List.range'_succ, SameStageVec.copyRows, List.getElem?_map] at h
    cases hr : ρs[lo]? with
    | none => rw [hr] at h; cases h
    | some r =>
      rw [hr] at h
      simp only [Option.map_some] at h
      rw [Row.comp_ofPerm, ← List.map_singleton (f := Row.ofPerm), ← List.map_append] at h
      obtain ⟨more, h1, h2, h3⟩ := copyRows_perms t m (lo + 1) _ _ h
      refine ⟨t * r :: more, by simp [h1], by simp [h2], ?_⟩
      intro j hj
      have hlt := (List.getElem?_eq_some_iff.1 hr).1
      cases j with
      | zero => exact ⟨r, by rw [Nat.add_zero, List.getElem?_append_left hlt, hr], by simp⟩
      | succ j =>
        obtain ⟨row, h4, h5⟩ := h3 j (by omega)
        refine ⟨row, ?_, by simpa using h5⟩
        rw [← h4]
        simp [Nat.add_assoc, Nat.add_comm 1 j]

/-- `extend_from_within`, whatever the range. -/
theorem extendFromWithinUnwind_ofPerms (h : σs.length = annots.length) (a b : Utils.Bound)
    (lo hi : Nat) (hr : Utils.clampRange a b annots.length = (lo, hi)) :
    (annots.length < lo → (ofPerms σs l annots).extendFromWithinUnwind clone a b =
      (ofPerms σs l annots, .error .unwrap)) ∧
    (lo ≤ annots.length → hi < lo ∨ lo = annots.length ∧ annots.length < hi →
      (ofPerms σs l annots).extendFromWithinUnwind clone a b =
        (ofPerms σs l annots, .error .index)) ∧
    (lo ≤ hi → hi ≤ annots.length → ∃ more, GoesOnLike σs l lo (hi - lo) more ∧
      (ofPerms σs l annots).extendFromWithinUnwind clone a b =
        (⟨.ofRows ⟨n⟩ ((σs ++ [l] ++ more).map Row.ofPerm),
          annots ++ (mapUntilPanic clone ((annots.take hi).drop lo)).1⟩,
          (mapUntilPanic clone ((annots.take hi).drop lo)).2)) ∧
    (lo < annots.length → annots.length < hi → ∃ more, GoesOnLike σs l lo (hi - lo) more ∧
      (ofPerms σs l annots).extendFromWithinUnwind clone a b =
        (⟨.ofRows ⟨n⟩ ((σs ++ [l] ++ more).map Row.ofPerm), annots⟩, .error .index)) := by
  have hlen : (ofPerms σs l annots).len = annots.length := rfl
  have hrows : (ofPerms σs l annots).rows = SameStageVec.ofRows ⟨n⟩ ((σs ++ [l]).map Row.ofPerm) :=
    rfl
  have hann : (ofPerms σs l annots).annots = annots := rfl
  have hext : ∀ f : Equiv.Perm (Fin n), _ :=
    fun f => SameStageVec.ofRows_extendTransposedFromWithinUnwind
      (RowsOf.perms hn (σs ++ [l])) (Row.ofPerm (l * f⁻¹)) (Row.ofPerm_valid hn _) (by simp)
      (.included (lo + 1)) (.excluded (hi + 1)) (lo + 1) (hi + 1) rfl
  refine ⟨fun hlt => ?_, fun hle hbad => ?_, fun h3 h4 => ?_, fun h3 h4 => ?_⟩
  · have : (σs ++ [l])[lo]? = none := by simp; omega
    simp only [extendFromWithinUnwind, hlen, hr, getRow_ofPerms hn, this, Option.map_none]
  all_goals
    obtain ⟨f, hf⟩ : ∃ f, (σs ++ [l])[lo]? = some f :=
      ⟨_, List.getElem?_eq_getElem (by simp; omega)⟩
    have hext := hext f
  · by_cases hlt : hi < lo
    · have hs : sliceIdx annots lo hi = .error .index := by
        have : ¬ (lo ≤ hi ∧ hi ≤ annots.length) := by omega
        simp [sliceIdx, sliceGet, this]
      simp only [extendFromWithinUnwind, hlen, hr, getRow_ofPerms hn, hf, Option.map_some,
        leftover_ofPerms hn, Row.solveXa_ofPerm hn, hrows, hext.1 (by omega), hann, hs]
      rfl
    · simp only [extendFromWithinUnwind, hlen, hr, getRow_ofPerms hn, hf, Option.map_some,
        leftover_ofPerms hn, Row.solveXa_ofPerm hn, hrows,
        hext.2.1 (by omega) (by simp; omega)]
      rfl
  · have hs : sliceIdx annots lo hi = .ok ((annots.take hi).drop lo) := by
      simp [sliceIdx, sliceGet, h3, h4]
    by_cases heq : lo = hi
    · refine ⟨[], ⟨by simp; omega, by intro j hj; omega⟩, ?_⟩
      simp only [extendFromWithinUnwind, hlen, hr, getRow_ofPerms hn, hf, Option.map_some,
        leftover_ofPerms hn, Row.solveXa_ofPerm hn, hrows, hext.1 (by omega), hann, hs,
        List.append_nil]
    · obtain ⟨more', -, -, h7, h8⟩ := hext.2.2 (by omega) (by simp; omega)
      obtain ⟨more, h9, h10, h11⟩ := SameStageVec.copyRows_perms hn _ _ _ _ _ h7
      rw [h9] at h8
      refine ⟨more, ⟨by omega, fun j hj => ?_⟩, ?_⟩
      · obtain ⟨row, h12, h13⟩ := h11 j (by omega)
        exact ⟨f, row, hf, by rw [← h12]; congr 1; omega, h13⟩
      simp only [extendFromWithinUnwind, hlen, hr, getRow_ofPerms hn, hf, Option.map_some,
        leftover_ofPerms hn, Row.solveXa_ofPerm hn, hrows, h8, hann, hs]
  · have hs : sliceIdx annots lo hi = .error .index := by
      have : ¬ (lo ≤ hi ∧ hi ≤ annots.length) := by omega
      simp [sliceIdx, sliceGet, this]
    obtain ⟨more', -, -, h7, h8⟩ := hext.2.2 (by omega) (by simp; omega)
    obtain ⟨more, h9, h10, h11⟩ := SameStageVec.copyRows_perms hn _ _ _ _ _ h7
    rw [h9] at h8
    refine ⟨more, ⟨by omega, fun j hj => ?_⟩, ?_⟩
    · obtain ⟨row, h12, h13⟩ := h11 j (by omega)
      exact ⟨f, row, hf, by rw [← h12]; congr 1; omega, h13⟩
    simp only [extendFromWithinUnwind, hlen, hr, getRow_ofPerms hn, hf, Option.map_some,
      leftover_ofPerms hn, Row.solveXa_ofPerm hn, hrows, h8, hann, hs]

end AnnotBlock

end Bellframe
