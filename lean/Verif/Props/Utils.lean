import Verif.Proofs.Utils
import Mathlib.Order.Bounds.Basic

/-! # C47: utility functions -/

namespace Bellframe.Props

open Utils

/-! ## choice -/

/-- `choice(n, k)` with `k ≤ n` never panics.  It is `Some(n choose k)` when the product of the
`min(k, n-k)` largest factors of `n!` fits into a `usize`, and `None` otherwise. -/
theorem C47_choice (max n k : Nat) (hk : k ≤ n) (hmax : 0 < max) :
    choice max n k =
      .ok (if n.descFactorial (min k (n - k)) ≤ max then some (n.choose k) else none) := by
  have hkey : ∀ j, j ≤ n → choiceLoop max n j j 1 1 1 =
      .ok (if n.descFactorial j ≤ max then some (n.choose j) else none) := by
    intro j hj
    have h := choiceLoop_spec max (n - j) j j 0 (by omega) (Or.inr rfl)
    rw [Nat.sub_add_cancel hj] at h
    simp only [Nat.ascFactorial_zero, Nat.factorial_zero, Nat.zero_add] at h
    rw [h]
    have he : (n - j + 1).ascFactorial j = n.descFactorial j := by
      have := Nat.add_descFactorial_eq_ascFactorial (n - j) j
      rw [Nat.sub_add_cancel hj] at this
      exact this.symm
    rw [he]
    congr 1
    by_cases hj0 : j = 0
    · subst hj0; simp; omega
    · simp [hj0]
  have h1 : checkedSub n k = .ok (n - k) := by simp [checkedSub, hk]
  simp only [choice, h1, Res.ok_bind]
  rw [hkey _ (by omega)]
  congr 2
  rcases Nat.le_total k (n - k) with h | h
  · rw [Nat.min_eq_left h]
  · rw [Nat.min_eq_right h, Nat.choose_symm hk]

example := C47_choice (2 ^ 64 - 1) 12 5 (by decide) (by decide)

/-- With `k > n` the subtraction `n - k` underflows. -/
theorem C47_choice_underflow (max n k : Nat) (hk : n < k) : choice max n k = .error .overflow := by
  simp [choice, checkedSub, Nat.not_le.2 hk]

example : choice (2 ^ 64 - 1) 12 5 = .ok (some 792) ∧
    Nat.descFactorial 12 (min 5 (12 - 5)) ≤ 2 ^ 64 - 1 := by decide

/-! ## clamp_range -/

/-- Membership of an index in a `RangeBounds`. -/
def inBounds (start stop : Bound) (i : Nat) : Prop :=
  (match start with
    | .included v => v ≤ i
    | .excluded v => v < i
    | .unbounded => True) ∧
  (match stop with
    | .included v => i ≤ v
    | .excluded v => i < v
    | .unbounded => True)

/-- `clamp_range` describes the same indices as the given bounds, where a missing upper bound means
"below `length`".  (Explicit bounds beyond `length` are kept as they are.) -/
theorem C47_clamp_range (start stop : Bound) (length i : Nat) :
    (clampRange start stop length).1 ≤ i ∧ i < (clampRange start stop length).2 ↔
      inBounds start stop i ∧ (stop = .unbounded → i < length) := by
  cases start <;> cases stop <;> simp [clampRange, inBounds] <;> omega

/-! ## split_vec -/

/-- `split_vec` splits at `index`, failing exactly when `index` is beyond the end. -/
theorem C47_split_vec {α : Type} (v : List α) (index : Nat) :
    (splitVec v index = none ↔ v.length < index) ∧
    ∀ a b, splitVec v index = some (a, b) ↔ a ++ b = v ∧ a.length = index := by
  unfold splitVec
  constructor
  · split <;> simp <;> omega
  · intro a b
    split
    · rename_i h
      constructor
      · intro h'; cases h'
      · rintro ⟨rfl, rfl⟩; simp at h; omega
    · rename_i h
      constructor
      · intro h'
        cases h'
        simp
        omega
      · rintro ⟨rfl, rfl⟩
        simp

/-! ## run_len -/

/-- The first `m` bells rise by one at each step. -/
def Ascending (bells : List Bell) (m : Nat) : Prop :=
  ∀ i x y, i + 1 < m → bells[i]? = some x → bells[i + 1]? = some y → y.index = x.index + 1

/-- The first `m` bells fall by one at each step. -/
def Descending (bells : List Bell) (m : Nat) : Prop :=
  ∀ i x y, i + 1 < m → bells[i]? = some x → bells[i + 1]? = some y → x.index = y.index + 1

/-- On a (non-empty, repetition-free) list of bells, in particular on any row or reversed row,
`run_len` is the greatest `m` such that the first `m` bells form a rising or falling run. -/
theorem C47_run_len (bells : List Bell) (hne : bells ≠ []) (hnd : bells.Nodup) :
    IsGreatest {m | m ≤ bells.length ∧ (Ascending bells m ∨ Descending bells m)} (runLen bells) := by
  obtain ⟨h1, h2, h3⟩ := takeWhile_zip_tail
    (fun p => ((p.1 : Int) - (p.2 : Int)).natAbs == 1) (bells.map Bell.index)
  have hrl : runLen bells = (((bells.map Bell.index).zip (bells.map Bell.index).tail).takeWhile
    (fun p => ((p.1 : Int) - (p.2 : Int)).natAbs == 1)).length + 1 := rfl
  generalize hT : (((bells.map Bell.index).zip (bells.map Bell.index).tail).takeWhile
    (fun p => ((p.1 : Int) - (p.2 : Int)).natAbs == 1)).length = t at *
  have hidx : ∀ (i : Nat) (x : Bell), bells[i]? = some x → (bells.map Bell.index)[i]? = some x.index := by
    intro i x h; simp [h]
  -- adjacent bells within the run differ by one
  have hstep : ∀ (i : Nat) (x y : Bell), i < t → bells[i]? = some x → bells[i + 1]? = some y →
      y.index = x.index + 1 ∨ x.index = y.index + 1 := by
    intro i x y hi hx hy
    have := h1 i _ _ hi (hidx i x hx) (hidx (i + 1) y hy)
    simp at this
    omega
  have hlen : t + 1 ≤ bells.length := by simpa using h2 (by simpa using hne)
  have hinj : ∀ (i j : Nat) (x : Bell), bells[i]? = some x → bells[j]? = some x → i = j := by
    intro i j x hi hj
    obtain ⟨hi', hi⟩ := List.getElem?_eq_some_iff.1 hi
    obtain ⟨hj', hj⟩ := List.getElem?_eq_some_iff.1 hj
    exact (hnd.getElem_inj_iff (hi := hi') (hj := hj')).1 (hi.trans hj.symm)
  refine ⟨⟨by rw [hrl]; exact hlen, ?_⟩, ?_⟩
  · rw [hrl]
    by_cases ht : t = 0
    · left
      intro i x y hi; omega
    · -- direction of the first step decides
      have hex : ∀ i : Nat, i < bells.length → ∃ x, bells[i]? = some x :=
        fun i h => ⟨_, List.getElem?_eq_getElem h⟩
      obtain ⟨x0, hx0⟩ := hex 0 (by omega)
      obtain ⟨x1, hx1⟩ := hex 1 (by omega)
      rcases hstep 0 x0 x1 (by omega) hx0 hx1 with hup | hdown
      · left
        intro i
        induction i with
        | zero =>
          intro x y _ hx hy
          rw [hx0] at hx; rw [hx1] at hy; cases hx; cases hy; exact hup
        | succ i ih =>
          intro x y hi hx hy
          obtain ⟨w, hw⟩ := hex i (by omega)
          have h' := ih w x (by omega) hw hx
          rcases hstep (i + 1) x y (by omega) hx hy with h | h
          · exact h
          · exfalso
            have hwy : w = y := by
              have : w.index = y.index := by omega
              cases w; cases y; simp at this; rw [this]
            subst hwy
            have := hinj _ _ _ hw hy
            omega
      · right
        intro i
        induction i with
        | zero =>
          intro x y _ hx hy
          rw [hx0] at hx; rw [hx1] at hy; cases hx; cases hy; exact hdown
        | succ i ih =>
          intro x y hi hx hy
          obtain ⟨w, hw⟩ := hex i (by omega)
          have h' := ih w x (by omega) hw hx
          rcases hstep (i + 1) x y (by omega) hx hy with h | h
          · exfalso
            have hwy : w = y := by
              have : w.index = y.index := by omega
              cases w; cases y; simp at this; rw [this]
            subst hwy
            have := hinj _ _ _ hw hy
            omega
          · exact h
  · rintro m ⟨hm, hdir⟩
    rw [hrl]
    by_contra hlt
    have hx := List.getElem?_eq_getElem (l := bells) (i := t) (by omega)
    have hy := List.getElem?_eq_getElem (l := bells) (i := t + 1) (by omega)
    have hbad := h3 _ _ (hidx _ _ hx) (hidx _ _ hy)
    simp at hbad
    rcases hdir with h | h
    · have := h t _ _ (by omega) hx hy
      omega
    · have := h t _ _ (by omega) hx hy
      omega

example := C47_run_len [⟨3⟩, ⟨4⟩, ⟨5⟩, ⟨1⟩, ⟨2⟩, ⟨0⟩] (by decide) (by decide)

/-- On the empty iterator `run_len` is 1, not 0. -/
theorem C47_run_len_empty : runLen [] = 1 := rfl

example : runLen ((Row.mk [⟨3⟩, ⟨4⟩, ⟨5⟩, ⟨1⟩, ⟨2⟩, ⟨0⟩]).bells) = 3 ∧
    [(⟨3⟩ : Bell), ⟨4⟩, ⟨5⟩, ⟨1⟩, ⟨2⟩, ⟨0⟩].Nodup := by decide

end Bellframe.Props
