import Verif.Spec.PlaceNot
import Verif.Proofs.Block
import Mathlib.GroupTheory.Perm.Finite

/-! # Lemmas about place notation -/

namespace Bellframe

variable {n : Nat}

/-! ## Changes -/

/-- The fixed places of `τ` from `i` on. -/
def fixedFrom (τ : Equiv.Perm (Fin n)) (i : Nat) : List Nat :=
  (List.range' i (n - i)).filter fun x => decide (∃ h : x < n, τ ⟨x, h⟩ = ⟨x, h⟩)

theorem mem_fixedFrom {τ : Equiv.Perm (Fin n)} {i x : Nat} :
    x ∈ fixedFrom τ i ↔ i ≤ x ∧ ∃ h : x < n, τ ⟨x, h⟩ = ⟨x, h⟩ := by
  unfold fixedFrom
  simp only [List.mem_filter, List.mem_range'_1, decide_eq_true_eq]
  constructor
  · rintro ⟨⟨h1, _⟩, h3⟩; exact ⟨h1, h3⟩
  · rintro ⟨h1, h2, h3⟩; exact ⟨⟨h1, by omega⟩, h2, h3⟩

theorem fixedFrom_ge {τ : Equiv.Perm (Fin n)} {i : Nat} (h : n ≤ i) : fixedFrom τ i = [] := by
  simp [fixedFrom, show n - i = 0 by omega]

theorem fixedFrom_fix {τ : Equiv.Perm (Fin n)} {i : Nat} (h : i < n) (hf : τ ⟨i, h⟩ = ⟨i, h⟩) :
    fixedFrom τ i = i :: fixedFrom τ (i + 1) := by
  unfold fixedFrom
  rw [show n - i = (n - (i + 1)) + 1 by omega, List.range'_succ, List.filter_cons,
    if_pos (by simpa using ⟨h, hf⟩)]

theorem fixedFrom_move {τ : Equiv.Perm (Fin n)} {i : Nat} (h : i < n) (hf : τ ⟨i, h⟩ ≠ ⟨i, h⟩) :
    fixedFrom τ i = fixedFrom τ (i + 1) := by
  conv_lhs => unfold fixedFrom
  rw [show n - i = (n - (i + 1)) + 1 by omega, List.range'_succ, List.filter_cons,
    if_neg (by simpa using fun _ => hf)]
  rfl

theorem fixedFrom_congr {τ τ' : Equiv.Perm (Fin n)} {i : Nat}
    (h : ∀ x : Fin n, i ≤ x.val → (τ x = x ↔ τ' x = x)) : fixedFrom τ i = fixedFrom τ' i := by
  unfold fixedFrom
  apply List.filter_congr
  intro x hx
  have hx' := List.mem_range'_1.1 hx
  have hlt : x < n := by omega
  have := h ⟨x, hlt⟩ hx'.1
  simp only [decide_eq_decide]
  constructor
  · rintro ⟨h1, h2⟩; exact ⟨h1, this.1 h2⟩
  · rintro ⟨h1, h2⟩; exact ⟨h1, this.2 h2⟩

theorem fixedFrom_head {τ : Equiv.Perm (Fin n)} {i j : Nat} (h : i < j) :
    (fixedFrom τ j).head? ≠ some i := by
  intro hh
  have := List.mem_of_head? hh
  have := (mem_fixedFrom.1 this).1
  omega

theorem PlaceNot.ofChange_places (τ : Equiv.Perm (Fin n)) :
    (PlaceNot.ofChange τ).places = fixedFrom τ 0 := by
  show ((List.finRange n).filter (fun x => decide (τ x = x))).map Fin.val = _
  unfold fixedFrom
  rw [Nat.sub_zero, ← List.range_eq_range', ← List.map_coe_finRange_eq_range, List.filter_map]
  congr 1
  apply List.filter_congr
  intro x _
  simp

theorem fixedFrom_sorted (τ : Equiv.Perm (Fin n)) (i : Nat) :
    (fixedFrom τ i).Pairwise (· < ·) :=
  (List.pairwise_lt_range' (s := i) (n := n - i) (step := 1)).filter _

/-- `τ` maps the places below `i` to themselves. -/
def Below (τ : Equiv.Perm (Fin n)) (i : Nat) : Prop := ∀ x : Fin n, x.val < i → (τ x).val < i

theorem Below.ge {τ : Equiv.Perm (Fin n)} {i : Nat} (h : Below τ i) (x : Fin n)
    (hx : i ≤ x.val) : i ≤ (τ x).val := by
  by_contra hc
  have hm : Set.MapsTo τ {x : Fin n | x.val < i} {x : Fin n | x.val < i} := fun x hx => h x hx
  have := Equiv.Perm.perm_symm_mapsTo_of_mapsTo τ hm
  have := this (show (τ x) ∈ {x : Fin n | x.val < i} from by simpa using hc)
  simp at this
  omega

/-- If `τ` moves the first bell not below `i` then it swaps it with the next one. -/
theorem near_swap {τ : Equiv.Perm (Fin n)} {i : Nat} (hb : Below τ i) (hi : i < n)
    (hnear : ∀ x : Fin n, i ≤ x.val → (τ x).val ≤ x.val + 1 ∧ x.val ≤ (τ x).val + 1)
    (hne : τ ⟨i, hi⟩ ≠ ⟨i, hi⟩) :
    ∃ h : i + 1 < n, τ ⟨i, hi⟩ = ⟨i + 1, h⟩ ∧ τ ⟨i + 1, h⟩ = ⟨i, hi⟩ := by
  have h1 := hb.ge ⟨i, hi⟩ (Nat.le_refl _)
  have h2 := (hnear ⟨i, hi⟩ (Nat.le_refl _)).1
  have h3 : (τ ⟨i, hi⟩).val ≠ i := fun h => hne (Fin.ext h)
  simp only at h2
  have h4 : (τ ⟨i, hi⟩).val = i + 1 := by omega
  have hlt : i + 1 < n := by have := (τ ⟨i, hi⟩).isLt; omega
  refine ⟨hlt, Fin.ext h4, ?_⟩
  obtain ⟨y, hy⟩ := τ.surjective ⟨i, hi⟩
  have hyi : i ≤ y.val := by
    by_contra hc
    have := hb y (by omega)
    rw [hy] at this
    simp at this
  have hyne : y.val ≠ i := by
    intro h
    have : y = ⟨i, hi⟩ := Fin.ext h
    rw [this] at hy
    exact hne hy
  have h5 := (hnear y hyi).2
  rw [hy] at h5
  simp only at h5
  have : y = ⟨i + 1, hlt⟩ := Fin.ext (by simp only; omega)
  rw [← this, hy]

theorem IsChange.below {τ : Equiv.Perm (Fin n)} {i : Nat} (h : ∀ x : Fin n, x.val < i → τ x = x) :
    Below τ i := fun x hx => by rw [h x hx]; exact hx

/-- Undoing the first swap of a change. -/
theorem IsChange.peel {τ : Equiv.Perm (Fin n)} (hc : IsChange τ) {i : Nat} (hi : i < n)
    (hfix : ∀ x : Fin n, x.val < i → τ x = x) (hne : τ ⟨i, hi⟩ ≠ ⟨i, hi⟩) :
    ∃ h : i + 1 < n, IsChange (Equiv.swap (⟨i, hi⟩ : Fin n) ⟨i + 1, h⟩ * τ) ∧
      (∀ x : Fin n, x.val < i + 2 → (Equiv.swap (⟨i, hi⟩ : Fin n) ⟨i + 1, h⟩ * τ) x = x) ∧
      (∀ x : Fin n, i + 2 ≤ x.val → (Equiv.swap (⟨i, hi⟩ : Fin n) ⟨i + 1, h⟩ * τ) x = τ x) ∧
      τ ⟨i + 1, h⟩ = ⟨i, hi⟩ := by
  obtain ⟨h, h1, h2⟩ := near_swap (IsChange.below hfix) hi (fun x _ => hc x) hne
  have hlow : ∀ x : Fin n, x.val < i + 2 → (Equiv.swap (⟨i, hi⟩ : Fin n) ⟨i + 1, h⟩ * τ) x = x := by
    intro x hx
    by_cases hx1 : x.val < i
    · rw [Equiv.Perm.mul_apply, hfix x hx1]
      apply Equiv.swap_apply_of_ne_of_ne
      · intro hh; have := congrArg Fin.val hh; simp at this; omega
      · intro hh; have := congrArg Fin.val hh; simp at this; omega
    · by_cases hx2 : x.val = i
      · have : x = ⟨i, hi⟩ := Fin.ext hx2
        rw [this, Equiv.Perm.mul_apply, h1, Equiv.swap_apply_right]
      · have : x = ⟨i + 1, h⟩ := Fin.ext (by simp only; omega)
        rw [this, Equiv.Perm.mul_apply, h2, Equiv.swap_apply_left]
  have hhigh : ∀ x : Fin n, i + 2 ≤ x.val → (Equiv.swap (⟨i, hi⟩ : Fin n) ⟨i + 1, h⟩ * τ) x = τ x := by
    intro x hx
    rw [Equiv.Perm.mul_apply]
    apply Equiv.swap_apply_of_ne_of_ne
    · intro hh
      rw [← h2] at hh
      have := congrArg Fin.val (τ.injective hh); simp at this; omega
    · intro hh
      rw [← h1] at hh
      have := congrArg Fin.val (τ.injective hh); simp at this; omega
  refine ⟨h, ?_, hlow, hhigh, h2⟩
  intro x
  by_cases hx : x.val < i + 2
  · rw [hlow x hx]; omega
  · rw [hhigh x (by omega)]; exact hc x

theorem permuteLoop_change : ∀ (k i : Nat) (τ σ : Equiv.Perm (Fin n)), n - i ≤ k → IsChange τ →
    (∀ x : Fin n, x.val < i → τ x = x) →
    PlaceNot.permuteLoop n (fixedFrom τ i) i (Row.ofPerm σ) = .ok (Row.ofPerm (σ * τ)) := by
  intro k
  induction k with
  | zero =>
    intro i τ σ hk hc hfix
    have : τ = 1 := Equiv.ext fun x => by
      rw [hfix x (by have := x.isLt; omega)]; rfl
    subst this
    rw [PlaceNot.permuteLoop, if_neg (by omega), mul_one]
  | succ k ih =>
    intro i τ σ hk hc hfix
    by_cases hi : i < n
    · by_cases hf : τ ⟨i, hi⟩ = ⟨i, hi⟩
      · rw [PlaceNot.permuteLoop, if_pos hi, fixedFrom_fix hi hf, if_pos (by simp),
          List.tail_cons]
        apply ih _ _ _ (by omega) hc
        intro x hx
        by_cases hx' : x.val = i
        · have : x = ⟨i, hi⟩ := Fin.ext hx'
          rw [this, hf]
        · exact hfix x (by omega)
      · obtain ⟨h, h1, h2, h3, h4⟩ := hc.peel hi hfix hf
        have hf2 : τ ⟨i + 1, h⟩ ≠ ⟨i + 1, h⟩ := by
          rw [h4]; intro hh; have := congrArg Fin.val hh; simp at this
        rw [fixedFrom_move hi hf, fixedFrom_move h hf2, PlaceNot.permuteLoop, if_pos hi,
          if_neg (fixedFrom_head (by omega)),
          Row.swap_ofPerm σ ⟨i, hi⟩ ⟨i + 1, h⟩, Res.ok_bind,
          fixedFrom_congr (τ' := Equiv.swap ⟨i, hi⟩ ⟨i + 1, h⟩ * τ)
            (fun x hx => by rw [h3 x (by omega)]),
          ih (i + 2) _ _ (by omega) h1 h2]
        rw [mul_assoc, ← mul_assoc (Equiv.swap _ _) (Equiv.swap _ _) τ, Equiv.swap_mul_self, one_mul]
    · have : τ = 1 := Equiv.ext fun x => by
        rw [hfix x (by have := x.isLt; omega)]; rfl
      subst this
      rw [PlaceNot.permuteLoop, if_neg hi, mul_one]

theorem PlaceNot.permuteUnchecked_ofChange {τ : Equiv.Perm (Fin n)} (hc : IsChange τ)
    (σ : Equiv.Perm (Fin n)) :
    (PlaceNot.ofChange τ).permuteUnchecked (Row.ofPerm σ) = .ok (Row.ofPerm (σ * τ)) := by
  unfold PlaceNot.permuteUnchecked
  rw [PlaceNot.ofChange_places]
  exact permuteLoop_change n 0 τ σ (by simp) hc (by simp)

/-- A change is determined by its places. -/
theorem IsChange.eq_of_places {τ τ' : Equiv.Perm (Fin n)} (h : IsChange τ) (h' : IsChange τ')
    (he : PlaceNot.ofChange τ = PlaceNot.ofChange τ') : τ = τ' := by
  have h1 := PlaceNot.permuteUnchecked_ofChange h 1
  rw [he, PlaceNot.permuteUnchecked_ofChange h' 1, one_mul, one_mul] at h1
  exact (Row.ofPerm_injective (Except.ok.inj h1)).symm

theorem IsChange.involution {τ : Equiv.Perm (Fin n)} (hc : IsChange τ) : τ * τ = 1 := by
  suffices ∀ (k i : Nat) (τ : Equiv.Perm (Fin n)), n - i ≤ k → IsChange τ →
      (∀ x : Fin n, x.val < i → τ x = x) → τ * τ = 1 from this n 0 τ (by simp) hc (by simp)
  intro k
  induction k with
  | zero =>
    intro i τ hk hc hfix
    have : τ = 1 := Equiv.ext fun x => by
      rw [hfix x (by have := x.isLt; omega)]; rfl
    subst this; rfl
  | succ k ih =>
    intro i τ hk hc hfix
    by_cases hi : i < n
    · by_cases hf : τ ⟨i, hi⟩ = ⟨i, hi⟩
      · apply ih (i + 1) τ (by omega) hc
        intro x hx
        by_cases hx' : x.val = i
        · have : x = ⟨i, hi⟩ := Fin.ext hx'
          rw [this, hf]
        · exact hfix x (by omega)
      · obtain ⟨h, h1, h2, h3, h4⟩ := hc.peel hi hfix hf
        have hinv := ih (i + 2) _ (by omega) h1 h2
        have hlow : ∀ x : Fin n, i + 2 ≤ x.val → i + 2 ≤ (τ x).val := by
          intro x hx
          have := (IsChange.below h2).ge x hx
          rwa [h3 x hx] at this
        apply Equiv.ext
        intro x
        by_cases hx : i + 2 ≤ x.val
        · have e : (Equiv.swap (⟨i, hi⟩ : Fin n) ⟨i + 1, h⟩ * τ)
              ((Equiv.swap (⟨i, hi⟩ : Fin n) ⟨i + 1, h⟩ * τ) x) = x := by
            rw [← Equiv.Perm.mul_apply, hinv]; rfl
          rw [h3 x hx, h3 (τ x) (hlow x hx)] at e
          exact e
        · by_cases hx1 : x.val < i
          · rw [Equiv.Perm.mul_apply, hfix x hx1, hfix x hx1]; rfl
          · obtain ⟨_, e1, e2⟩ := near_swap (IsChange.below hfix) hi (fun x _ => hc x) hf
            by_cases hx2 : x.val = i
            · have : x = ⟨i, hi⟩ := Fin.ext hx2
              rw [this, Equiv.Perm.mul_apply, e1, e2]; rfl
            · have : x = ⟨i + 1, h⟩ := Fin.ext (by simp only; omega)
              rw [this, Equiv.Perm.mul_apply, e2, e1]; rfl
    · have : τ = 1 := Equiv.ext fun x => by
        rw [hfix x (by have := x.isLt; omega)]; rfl
      subst this; rfl

/-! ## Place lists with even gaps -/

/-- `ps` lists places from `i` to `n` with an even number of bells between them. -/
inductive Gaps (n : Nat) : Nat → List Nat → Prop
  | done : Gaps n n []
  | place {i ps} : Gaps n (i + 1) ps → Gaps n i (i :: ps)
  | swap {i ps} : Gaps n (i + 2) ps → Gaps n i ps

theorem Gaps.le {i : Nat} {ps : List Nat} (h : Gaps n i ps) : i ≤ n := by
  induction h <;> omega

theorem Gaps.swaps {i k : Nat} {ps : List Nat} (h : Gaps n (i + 2 * k) ps) : Gaps n i ps := by
  induction k generalizing i with
  | zero => exact h
  | succ k ih =>
    apply Gaps.swap
    apply ih
    rwa [show i + 2 + 2 * k = i + 2 * (k + 1) by omega]

theorem Gaps.swaps_to {i j : Nat} {ps : List Nat} (h : Gaps n j ps) (hij : i ≤ j)
    (he : (j - i) % 2 = 0) : Gaps n i ps := by
  obtain ⟨k, hk⟩ : ∃ k, j = i + 2 * k := ⟨(j - i) / 2, by omega⟩
  subst hk
  exact h.swaps

theorem Gaps.exists_change {i : Nat} {ps : List Nat} (h : Gaps n i ps) :
    ∃ τ : Equiv.Perm (Fin n), IsChange τ ∧ (∀ x : Fin n, x.val < i → τ x = x) ∧
      fixedFrom τ i = ps := by
  induction h with
  | done =>
    exact ⟨1, fun x => by simp, fun x _ => rfl, fixedFrom_ge (Nat.le_refl _)⟩
  | @place i ps h ih =>
    obtain ⟨τ, h1, h2, h3⟩ := ih
    have hi : i < n := h.le
    refine ⟨τ, h1, fun x hx => h2 x (by omega), ?_⟩
    rw [fixedFrom_fix hi (h2 ⟨i, hi⟩ (by simp)), h3]
  | @swap i ps h ih =>
    obtain ⟨τ, h1, h2, h3⟩ := ih
    have hi : i < n := by have := h.le; omega
    have hj : i + 1 < n := h.le
    have eL : (Equiv.swap (⟨i, hi⟩ : Fin n) ⟨i + 1, hj⟩ * τ) ⟨i, hi⟩ = ⟨i + 1, hj⟩ := by
      rw [Equiv.Perm.mul_apply, h2 ⟨i, hi⟩ (by simp), Equiv.swap_apply_left]
    have eR : (Equiv.swap (⟨i, hi⟩ : Fin n) ⟨i + 1, hj⟩ * τ) ⟨i + 1, hj⟩ = ⟨i, hi⟩ := by
      rw [Equiv.Perm.mul_apply, h2 ⟨i + 1, hj⟩ (by simp), Equiv.swap_apply_right]
    have eLow : ∀ x : Fin n, x.val < i → (Equiv.swap (⟨i, hi⟩ : Fin n) ⟨i + 1, hj⟩ * τ) x = x := by
      intro x hx
      rw [Equiv.Perm.mul_apply, h2 x (by omega)]
      apply Equiv.swap_apply_of_ne_of_ne
      · intro hh; have := congrArg Fin.val hh; simp at this; omega
      · intro hh; have := congrArg Fin.val hh; simp at this; omega
    have eHigh : ∀ x : Fin n, i + 2 ≤ x.val →
        (Equiv.swap (⟨i, hi⟩ : Fin n) ⟨i + 1, hj⟩ * τ) x = τ x := by
      intro x hx
      have := (IsChange.below h2).ge x hx
      rw [Equiv.Perm.mul_apply]
      apply Equiv.swap_apply_of_ne_of_ne
      · intro hh; have := congrArg Fin.val hh; simp at this; omega
      · intro hh; have := congrArg Fin.val hh; simp at this; omega
    refine ⟨Equiv.swap ⟨i, hi⟩ ⟨i + 1, hj⟩ * τ, ?_, eLow, ?_⟩
    · intro x
      by_cases hx : x.val < i
      · rw [eLow x hx]; omega
      · by_cases hx2 : i + 2 ≤ x.val
        · rw [eHigh x hx2]; exact h1 x
        · by_cases hx3 : x.val = i
          · have : x = ⟨i, hi⟩ := Fin.ext hx3
            rw [this, eL]; simp only; omega
          · have : x = ⟨i + 1, hj⟩ := Fin.ext (by simp only; omega)
            rw [this, eR]; simp only; omega
    · rw [fixedFrom_move hi (by rw [eL]; intro hh; have := congrArg Fin.val hh; simp at this),
        fixedFrom_move hj (by rw [eR]; intro hh; have := congrArg Fin.val hh; simp at this), ← h3]
      exact fixedFrom_congr fun x hx => by rw [eHigh x (by omega)]

theorem IsChange.gaps {τ : Equiv.Perm (Fin n)} (hc : IsChange τ) : Gaps n 0 (fixedFrom τ 0) := by
  suffices ∀ (k i : Nat) (τ : Equiv.Perm (Fin n)), i ≤ n → n - i ≤ k → IsChange τ →
      (∀ x : Fin n, x.val < i → τ x = x) → Gaps n i (fixedFrom τ i) from
    this n 0 τ (by simp) (by simp) hc (by simp)
  intro k
  induction k with
  | zero =>
    intro i τ hin hk hc hfix
    rw [fixedFrom_ge (by omega)]
    have : i = n := by omega
    subst this
    exact .done
  | succ k ih =>
    intro i τ hin hk hc hfix
    by_cases hi : i < n
    · by_cases hf : τ ⟨i, hi⟩ = ⟨i, hi⟩
      · rw [fixedFrom_fix hi hf]
        apply Gaps.place
        apply ih (i + 1) τ (by omega) (by omega) hc
        intro x hx
        by_cases hx' : x.val = i
        · have : x = ⟨i, hi⟩ := Fin.ext hx'
          rw [this, hf]
        · exact hfix x (by omega)
      · obtain ⟨h, h1, h2, h3, h4⟩ := hc.peel hi hfix hf
        have hf2 : τ ⟨i + 1, h⟩ ≠ ⟨i + 1, h⟩ := by
          rw [h4]; intro hh; have := congrArg Fin.val hh; simp at this
        rw [fixedFrom_move hi hf, fixedFrom_move h hf2,
          fixedFrom_congr (τ' := Equiv.swap ⟨i, hi⟩ ⟨i + 1, h⟩ * τ)
            (fun x hx => by rw [h3 x (by omega)])]
        exact .swap (ih (i + 2) _ (by omega) (by omega) h1 h2)
    · rw [fixedFrom_ge (by omega)]
      have : i = n := by omega
      subst this
      exact .done

theorem PlaceNot.ofChange_of_gaps {ps : List Nat} (h : Gaps n 0 ps) :
    ∃ τ : Equiv.Perm (Fin n), IsChange τ ∧ PlaceNot.ofChange τ = ⟨ps, ⟨n⟩⟩ := by
  obtain ⟨τ, h1, -, h3⟩ := h.exists_change
  refine ⟨τ, h1, ?_⟩
  have := PlaceNot.ofChange_places τ
  rw [h3] at this
  rw [← this]
  rfl

theorem PlaceNot.wellFormed_iff_gaps (pn : PlaceNot) :
    pn.WellFormed ↔ 0 < pn.stage.numBells ∧ Gaps pn.stage.numBells 0 pn.places := by
  constructor
  · rintro ⟨n, hn, τ, hc, rfl⟩
    rw [PlaceNot.ofChange_places]
    exact ⟨hn, hc.gaps⟩
  · rintro ⟨hn, h⟩
    obtain ⟨τ, h1, h2⟩ := PlaceNot.ofChange_of_gaps h
    exact ⟨_, hn, τ, h1, h2.symm⟩

end Bellframe
