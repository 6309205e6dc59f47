import Verif.Proofs.ClassSymmetry
import Mathlib.Algebra.BigOperators.Intervals
import Mathlib.Algebra.BigOperators.Ring.Finset
import Mathlib.Tactic.Linarith

/-!
# Courses rung upside down

With the places counted from the back, and the bells from the tenor, the class is the same.  The pairs of
places of a treble dodging hunt bell are counted from its lowest place; they are the same pairs when
counted from its highest place, as without jumps such a bell visits an even number of places.
-/

namespace Bellframe

open Equiv

variable {n : Nat}

/-! ## Treble dodging hunt bells visit an even number of places -/

/-- A path that goes at most one place up at a time takes every place on its way. -/
theorem place_between (f : ℕ → ℕ) (hf : ∀ t, f (t + 1) ≤ f t + 1) {s p : ℕ} (hs : f s ≤ p) (d : ℕ)
    (hd : p ≤ f (s + d)) : ∃ t, f t = p := by
  induction d with
  | zero => exact ⟨s, le_antisymm hs hd⟩
  | succ d ih =>
    by_cases h : p ≤ f (s + d)
    · exact ih h
    · have := hf (s + d)
      rw [Nat.add_assoc] at this
      exact ⟨s + (d + 1), by omega⟩

/-- The alternating sum over an odd number of places. -/
theorem alternating_sum (m : ℕ) : ∑ i ∈ Finset.range (2 * m + 1), (-1 : ℤ) ^ i = 1 := by
  induction m with
  | zero => simp
  | succ m ih =>
    rw [show 2 * (m + 1) + 1 = 2 * m + 1 + 1 + 1 by ring, Finset.sum_range_succ, Finset.sum_range_succ, ih]
    ring

/-- A closed path that moves one place at a time, but for staying in place twice, and is equally often in
all of an odd number of places, is twice in each. -/
theorem twice_each (f : ℕ → ℕ) (N c m : ℕ) (hper : f N = f 0)
    (hstep : ∀ t, f (t + 1) ≤ f t + 1 ∧ f t ≤ f (t + 1) + 1)
    (hrange : ∀ t, f t < 2 * m + 1)
    (hc : ∀ p < 2 * m + 1, ((Finset.range N).filter fun t => f t = p).card = c) (hpos : 0 < c)
    (hp : ((Finset.range N).filter fun t => f t = f (t + 1)).card = 2) : c = 2 := by
  have h1 : ∑ t ∈ Finset.range N, (-1 : ℤ) ^ f t = c := by
    rw [← Finset.sum_fiberwise_of_maps_to (s := Finset.range N) (t := Finset.range (2 * m + 1)) (g := f)
      (fun t _ => Finset.mem_range.2 (hrange t))]
    have : ∀ p ∈ Finset.range (2 * m + 1), ∑ t ∈ Finset.range N with f t = p, (-1 : ℤ) ^ f t =
        c * (-1) ^ p := by
      intro p hp
      rw [Finset.sum_congr rfl (g := fun _ => (-1 : ℤ) ^ p) (by
        intro t ht
        rw [(Finset.mem_filter.1 ht).2]), Finset.sum_const, hc p (Finset.mem_range.1 hp), nsmul_eq_mul]
    rw [Finset.sum_congr rfl this, ← Finset.mul_sum, alternating_sum, mul_one]
  have h2 : ∑ t ∈ Finset.range N, (-1 : ℤ) ^ f (t + 1) = c := by
    have h3 := Finset.sum_range_succ (fun t => (-1 : ℤ) ^ f t) N
    have h4 := Finset.sum_range_succ' (fun t => (-1 : ℤ) ^ f t) N
    rw [h1, hper] at h3
    rw [h3] at h4
    linarith
  have h5 : ∑ t ∈ Finset.range N, ((-1 : ℤ) ^ f t + (-1) ^ f (t + 1)) =
      ∑ t ∈ (Finset.range N).filter (fun t => f t = f (t + 1)), 2 * (-1 : ℤ) ^ f t := by
    rw [Finset.sum_filter]
    apply Finset.sum_congr rfl
    intro t _
    split
    · rename_i h
      rw [← h]
      ring
    · rename_i h
      rcases (by have := hstep t; omega : f (t + 1) = f t + 1 ∨ f t = f (t + 1) + 1) with h | h <;>
        rw [h, pow_succ] <;> ring
  rw [Finset.sum_add_distrib, h1, h2, ← Finset.mul_sum] at h5
  obtain ⟨a, b, hab, hs⟩ := Finset.card_eq_two.1 hp
  rw [hs, Finset.sum_pair hab] at h5
  rcases neg_one_pow_eq_or ℤ (f a) with ha | ha <;> rcases neg_one_pow_eq_or ℤ (f b) with hb | hb <;>
    rw [ha, hb] at h5 <;> omega

/-! ## Courses without jumps -/

section NoJumps

variable {lead : List (Perm (Fin n))} {τ : Perm (Fin n)}

theorem noJumps_step (hne : lead ≠ []) (h : NoJumps lead τ) (b : Fin n) (t : ℕ) :
    (placeOfBell lead τ b (t + 1)).val ≤ (placeOfBell lead τ b t).val + 1 ∧
    (placeOfBell lead τ b t).val ≤ (placeOfBell lead τ b (t + 1)).val + 1 := by
  have hN : 0 < lead.length := List.length_pos_of_ne_nil hne
  have key : ∀ t < lead.length, ∀ b,
      (placeOfBell lead τ b (t + 1)).val ≤ (placeOfBell lead τ b t).val + 1 ∧
      (placeOfBell lead τ b t).val ≤ (placeOfBell lead τ b (t + 1)).val + 1 := by
    intro t ht b
    have h1 := h t ht (placeOfBell lead τ b (t + 1))
    have h2 : ((courseRow lead τ t)⁻¹ * courseRow lead τ (t + 1)) (placeOfBell lead τ b (t + 1)) =
        placeOfBell lead τ b t := by
      rw [Perm.mul_apply, placeOfBell, perm_self_inv]
      rfl
    rw [h2] at h1
    omega
  have e : t = t / lead.length * lead.length + t % lead.length := (Nat.div_add_mod' t lead.length).symm
  have := key (t % lead.length) (Nat.mod_lt _ hN) ((τ⁻¹ ^ (t / lead.length)) b)
  rw [← placeOfBell_add lead τ hne, ← placeOfBell_add lead τ hne, ← Nat.add_assoc, ← e] at this
  exact this

theorem rowsInPlace_card (b p : Fin n) : rowsInPlace lead τ b p =
    ((Finset.range lead.length).filter fun t => placeOfBell lead τ b t = p).card := by
  rfl

theorem placesMade_card (b : Fin n) : placesMade lead τ b =
    ((Finset.range lead.length).filter
      fun t => placeOfBell lead τ b t = placeOfBell lead τ b (t + 1)).card := by
  rfl

/-- The number of places between the lowest and the highest of a treble dodging hunt bell is odd. -/
theorem dodging_places (hne : lead ≠ []) (h : NoJumps lead τ) {b : Fin n} (hb : IsHuntBell τ b)
    (hp : HuntPathIs lead τ b .trebleDodging) {lo hi : Fin n} (hlo : Visits lead τ b lo)
    (hlo' : ∀ p, Visits lead τ b p → lo ≤ p) (hhi : Visits lead τ b hi)
    (hhi' : ∀ p, Visits lead τ b p → p ≤ hi) : (hi.val - lo.val) % 2 = 1 := by
  obtain ⟨hs, hnp, -, heven, hmade⟩ := hp
  by_contra hcon
  have hle : lo.val ≤ hi.val := hlo' hi hhi
  obtain ⟨m, hm⟩ : ∃ m, hi.val = lo.val + 2 * m := ⟨(hi.val - lo.val) / 2, by omega⟩
  have hstep := noJumps_step hne h b
  have hbound : ∀ t, lo.val ≤ (placeOfBell lead τ b t).val ∧ (placeOfBell lead τ b t).val ≤ hi.val :=
    fun t => ⟨hlo' _ ⟨t, rfl⟩, hhi' _ ⟨t, rfl⟩⟩
  have hper := placeOfBell_hunt hne hb
  have hall : ∀ p : Fin n, lo ≤ p → p ≤ hi → Visits lead τ b p := by
    intro p h1 h2
    obtain ⟨s, hs⟩ := hlo
    obtain ⟨t, ht⟩ := hhi
    have hmul : ∀ j t, placeOfBell lead τ b (t + j * lead.length) = placeOfBell lead τ b t := by
      intro j
      induction j with
      | zero => simp
      | succ j ih =>
        intro t
        rw [Nat.succ_mul, ← Nat.add_assoc, hper, ih]
    have hN : 0 < lead.length := List.length_pos_of_ne_nil hne
    have hst : s ≤ t + s * lead.length := by
      have := Nat.le_mul_of_pos_right s hN
      omega
    obtain ⟨u, hu⟩ := place_between (fun t => (placeOfBell lead τ b t).val) (fun t => (hstep t).1)
      (s := s) (p := p.val) (by rw [hs]; exact h1) (t + s * lead.length - s) (by
        rw [Nat.add_sub_cancel' hst, hmul, ht]
        exact h2)
    exact ⟨u, Fin.ext hu⟩
  have hc := twice_each (fun t => (placeOfBell lead τ b t).val - lo.val) lead.length
    (rowsInPlace lead τ b lo) m (by
      have := hper 0
      rw [Nat.zero_add] at this
      simp only [this])
    (fun t => by
      have h1 := hstep t
      have h2 := hbound t
      have h3 := hbound (t + 1)
      constructor <;> omega)
    (fun t => by have := hbound t; omega)
    (fun p hp => by
      have hv : Visits lead τ b ⟨lo.val + p, by omega⟩ :=
        hall _ (by rw [Fin.le_def]; simp) (by rw [Fin.le_def]; simp only; omega)
      rw [heven lo _ hlo hv, rowsInPlace_card]
      congr 1
      apply Finset.filter_congr
      intro t _
      have := hbound t
      rw [Fin.ext_iff]
      simp only
      omega)
    ((visits_iff hne hb lo).1 hlo)
    (by
      rw [← hmade, placesMade_card]
      congr 1
      apply Finset.filter_congr
      intro t _
      have h2 := hbound t
      have h3 := hbound (t + 1)
      rw [Fin.ext_iff]
      omega)
  apply hnp
  exact ⟨hs, fun p hv => by rw [heven p lo hv hlo, hc]⟩

end NoJumps

/-! ## The mirrored course -/

/-- One course is the other with places and bells counted from the other end. -/
structure Mirror (lead : List (Perm (Fin n))) (τ : Perm (Fin n)) (lead' : List (Perm (Fin n)))
    (τ' : Perm (Fin n)) : Prop where
  ne : lead ≠ []
  len : lead'.length = lead.length
  head : τ' = Fin.revPerm * τ * Fin.revPerm
  place : ∀ b t, placeOfBell lead' τ' b t = (placeOfBell lead τ b.rev t).rev

namespace Mirror

variable {lead lead' : List (Perm (Fin n))} {τ τ' : Perm (Fin n)}

theorem revPerm_sq : (Fin.revPerm : Perm (Fin n)) * Fin.revPerm = 1 := by
  ext x
  simp

theorem ne' (h : Mirror lead τ lead' τ') : lead' ≠ [] := by
  have := h.len
  have := List.length_pos_of_ne_nil h.ne
  exact List.ne_nil_of_length_pos (by omega)

theorem symm (h : Mirror lead τ lead' τ') : Mirror lead' τ' lead τ where
  ne := h.ne'
  len := h.len.symm
  head := by
    rw [h.head, mul_assoc, mul_assoc, mul_assoc, revPerm_sq, mul_one, ← mul_assoc, revPerm_sq, one_mul]
  place b t := by rw [h.place, Fin.rev_rev, Fin.rev_rev]

theorem hunt (h : Mirror lead τ lead' τ') (b : Fin n) : IsHuntBell τ' b ↔ IsHuntBell τ b.rev := by
  unfold IsHuntBell
  rw [h.head, Perm.mul_apply, Perm.mul_apply, Fin.revPerm_apply, Fin.revPerm_apply, Fin.rev_eq_iff]

theorem period (h : Mirror lead τ lead' τ') (b : Fin n) :
    Function.minimalPeriod τ' b = Function.minimalPeriod τ b.rev := by
  apply minimalPeriod_congr
  intro j
  have hinv : (Fin.revPerm : Perm (Fin n))⁻¹ = Fin.revPerm := inv_eq_of_mul_eq_one_left revPerm_sq
  have : τ' ^ j = Fin.revPerm * τ ^ j * Fin.revPerm := by
    have := conj_pow (i := j) (a := (Fin.revPerm : Perm (Fin n))) (b := τ)
    rw [hinv] at this
    rw [h.head, this]
  rw [this, Perm.mul_apply, Perm.mul_apply, Fin.revPerm_apply, Fin.revPerm_apply, Fin.rev_eq_iff]

theorem visits (h : Mirror lead τ lead' τ') (b p : Fin n) :
    Visits lead' τ' b p ↔ Visits lead τ b.rev p.rev := by
  unfold Visits
  simp only [h.place, Fin.rev_eq_iff]

theorem rowsInPlace (h : Mirror lead τ lead' τ') (b p : Fin n) :
    rowsInPlace lead' τ' b p = rowsInPlace lead τ b.rev p.rev := by
  unfold Bellframe.rowsInPlace
  simp only [h.place, h.len, Fin.rev_eq_iff]

theorem placesMade (h : Mirror lead τ lead' τ') (b : Fin n) :
    placesMade lead' τ' b = placesMade lead τ b.rev := by
  unfold Bellframe.placesMade
  simp only [h.place, h.len, Fin.rev_inj]

theorem symmetric (h : Mirror lead τ lead' τ') (b : Fin n) :
    Symmetric lead' τ' b ↔ Symmetric lead τ b.rev := by
  unfold Symmetric
  simp only [h.place, h.len, Fin.rev_inj]

theorem exists_rev {F : Fin n → Prop} : (∃ b : Fin n, F b.rev) ↔ ∃ b, F b :=
  Fin.rev_surjective.exists.symm

theorem all_rev {F : Fin n → Prop} : (∀ b : Fin n, F b.rev) ↔ ∀ b, F b :=
  Fin.rev_surjective.forall.symm

theorem stationary (h : Mirror lead τ lead' τ') (b : Fin n) :
    Stationary lead' τ' b ↔ Stationary lead τ b.rev := by
  unfold Stationary
  simp only [h.place, Fin.rev_eq_iff]
  exact exists_rev (F := fun p => ∀ t, placeOfBell lead τ b.rev t = p)

theorem plainHunt (h : Mirror lead τ lead' τ') (b : Fin n) :
    PlainHunt lead' τ' b ↔ PlainHunt lead τ b.rev := by
  unfold PlainHunt
  simp only [h.stationary, h.visits, h.rowsInPlace]
  exact and_congr_right'
    (all_rev (F := fun p => Visits lead τ b.rev p → Bellframe.rowsInPlace lead τ b.rev p = 2))

theorem evenlySpread (h : Mirror lead τ lead' τ') (b : Fin n) :
    EvenlySpread lead' τ' b ↔ EvenlySpread lead τ b.rev := by
  unfold EvenlySpread
  simp only [h.visits, h.rowsInPlace]
  constructor
  · intro h1 p q
    have := h1 p.rev q.rev
    rwa [Fin.rev_rev, Fin.rev_rev] at this
  · intro h1 p q
    exact h1 _ _

theorem huntPath (h : Mirror lead τ lead' τ') (b : Fin n) (c : HuntBellClass) :
    HuntPathIs lead' τ' b c ↔ HuntPathIs lead τ b.rev c := by
  cases c <;>
    simp only [HuntPathIs, h.plainHunt, h.evenlySpread, h.stationary, h.symmetric, h.placesMade]

theorem principal (h : Mirror lead τ lead' τ') (c : HuntBellClass) (b : Fin n) :
    Principal lead' τ' c b ↔ Principal lead τ c b.rev := by
  unfold Principal
  simp only [h.hunt, h.huntPath]
  refine and_congr_right' (and_congr_right' ?_)
  exact all_rev (F := fun d => IsHuntBell τ d → ∀ k', HuntPathIs lead τ d k' → dominance.idxOf c ≤ dominance.idxOf k')

theorem exists_principal (h : Mirror lead τ lead' τ') (c : HuntBellClass) :
    (∃ b, Principal lead' τ' c b) ↔ ∃ b, Principal lead τ c b := by
  simp only [h.principal]
  exact exists_rev (F := fun b => Principal lead τ c b)

theorem sharpTurn (h : Mirror lead τ lead' τ') (b : Fin n) :
    SharpTurn lead' τ' b ↔ SharpTurn lead τ b.rev := by
  unfold SharpTurn
  simp only [h.place, Fin.rev_inj, Fin.val_rev]
  apply exists_congr
  intro t
  apply and_congr_right'
  have h1 := (placeOfBell lead τ b.rev t).isLt
  have h2 := (placeOfBell lead τ b.rev (t + 1)).isLt
  omega

theorem internal (h : Mirror lead τ lead' τ') (t : ℕ) :
    InternalPlaceAt lead' τ' t ↔ InternalPlaceAt lead τ t := by
  rw [SameCourse.internal_iff, SameCourse.internal_iff]
  simp only [h.place, Fin.rev_inj, Fin.val_rev]
  rw [← exists_rev (F := fun b => placeOfBell lead τ b t = placeOfBell lead τ b (t + 1) ∧
    (placeOfBell lead τ b t).val ≠ 0 ∧ (placeOfBell lead τ b t).val + 1 ≠ n)]
  apply exists_congr
  intro b
  apply and_congr_right'
  have h1 := (placeOfBell lead τ b.rev t).isLt
  omega

/-- A bell visits a lowest and a highest place. -/
theorem exists_extremes (lead : List (Perm (Fin n))) (τ : Perm (Fin n)) (b : Fin n) : ∃ lo hi,
    (Visits lead τ b lo ∧ ∀ p, Visits lead τ b p → lo ≤ p) ∧
    (Visits lead τ b hi ∧ ∀ p, Visits lead τ b p → p ≤ hi) := by
  classical
  have hne : ((Finset.univ : Finset (Fin n)).filter fun p => Visits lead τ b p).Nonempty :=
    ⟨placeOfBell lead τ b 0, by simpa using ⟨0, rfl⟩⟩
  refine ⟨Finset.min' _ hne, Finset.max' _ hne, ⟨?_, fun p hp => Finset.min'_le _ p (by simpa using hp)⟩,
    ⟨?_, fun p hp => Finset.le_max' _ p (by simpa using hp)⟩⟩
  · exact (Finset.mem_filter.1 (Finset.min'_mem _ hne)).2
  · exact (Finset.mem_filter.1 (Finset.max'_mem _ hne)).2

theorem crossesAt_mp (h : Mirror lead τ lead' τ') (hj : NoJumps lead τ) {b : Fin n}
    (hb : IsHuntBell τ b.rev) (hp : HuntPathIs lead τ b.rev .trebleDodging) (t : ℕ) :
    CrossesAt lead' τ' b t ↔ CrossesAt lead τ b.rev t := by
  obtain ⟨lo, hi, ⟨h1, h2⟩, ⟨h3, h4⟩⟩ := exists_extremes lead τ b.rev
  have hodd := dodging_places h.ne hj hb hp h1 h2 h3 h4
  have hle : lo.val ≤ hi.val := h2 _ h3
  have e1 : CrossesAt lead τ b.rev t ↔ ((placeOfBell lead τ b.rev t).val - lo.val) / 2 ≠
      ((placeOfBell lead τ b.rev (t + 1)).val - lo.val) / 2 := by
    constructor
    · rintro ⟨lo', h5, h6, h7⟩
      obtain rfl : lo' = lo := le_antisymm (h6 _ h1) (h2 _ h5)
      exact h7
    · exact fun h7 => ⟨lo, h1, h2, h7⟩
  have e2 : CrossesAt lead' τ' b t ↔ (hi.val - (placeOfBell lead τ b.rev t).val) / 2 ≠
      (hi.val - (placeOfBell lead τ b.rev (t + 1)).val) / 2 := by
    have b1 := h4 _ ⟨t, rfl⟩
    have b2 := h4 _ ⟨t + 1, rfl⟩
    have hin := hi.isLt
    rw [Fin.le_def] at b1 b2
    unfold CrossesAt
    simp only [h.visits, h.place, Fin.val_rev]
    constructor
    · rintro ⟨lo', h5, h6, h7⟩
      have h8 : lo'.rev = hi := by
        apply le_antisymm (h4 _ h5)
        have := h6 hi.rev (by rwa [Fin.rev_rev])
        rw [Fin.le_def, Fin.val_rev] at this
        rw [Fin.le_def, Fin.val_rev]
        omega
      have h9 : lo'.val = n - (hi.val + 1) := by
        rw [← h8, Fin.val_rev]
        have := lo'.isLt
        omega
      rw [h9] at h7
      intro h10
      apply h7
      rw [show n - ((placeOfBell lead τ b.rev t).val + 1) - (n - (hi.val + 1)) =
        hi.val - (placeOfBell lead τ b.rev t).val by omega,
        show n - ((placeOfBell lead τ b.rev (t + 1)).val + 1) - (n - (hi.val + 1)) =
        hi.val - (placeOfBell lead τ b.rev (t + 1)).val by omega, h10]
    · intro h7
      refine ⟨hi.rev, by rwa [Fin.rev_rev], fun p hp => ?_, ?_⟩
      · have := h4 _ hp
        rw [Fin.le_def, Fin.val_rev] at this ⊢
        have := p.isLt
        omega
      · rw [Fin.val_rev]
        intro h10
        apply h7
        rwa [show n - ((placeOfBell lead τ b.rev t).val + 1) - (n - (hi.val + 1)) =
          hi.val - (placeOfBell lead τ b.rev t).val by omega,
          show n - ((placeOfBell lead τ b.rev (t + 1)).val + 1) - (n - (hi.val + 1)) =
          hi.val - (placeOfBell lead τ b.rev (t + 1)).val by omega] at h10
  have b1 := h4 _ ⟨t, rfl⟩
  have b2 := h4 _ ⟨t + 1, rfl⟩
  have b3 := h2 _ ⟨t, rfl⟩
  have b4 := h2 _ ⟨t + 1, rfl⟩
  rw [Fin.le_def] at b1 b2 b3 b4
  rw [e1, e2]
  omega

theorem crossSection (h : Mirror lead τ lead' τ') (hj : NoJumps lead τ) (t : ℕ) :
    CrossSection lead' τ' t ↔ CrossSection lead τ t := by
  unfold CrossSection
  rw [← exists_rev (F := fun b => Principal lead τ .trebleDodging b ∧ CrossesAt lead τ b t)]
  apply exists_congr
  intro b
  rw [h.principal]
  apply and_congr_right
  intro hp
  exact h.crossesAt_mp hj hp.1 hp.2.1 t

/-- Both courses are in the same class. -/
theorem classIs (h : Mirror lead τ lead' τ') (hj : NoJumps lead τ) (c : MethodClass) :
    ClassIs lead' τ' c ↔ ClassIs lead τ c := by
  cases c with
  | principle =>
    simp only [ClassIs, h.hunt]
    exact all_rev (F := fun b => ¬ IsHuntBell τ b)
  | place =>
    simp only [ClassIs, h.principal, h.sharpTurn]
    exact and_congr (exists_rev (F := fun b => Principal lead τ .plain b))
      (all_rev (F := fun b => ¬ Principal lead τ .plain b → ¬ SharpTurn lead τ b))
  | bob =>
    simp only [ClassIs, h.principal, h.sharpTurn]
    exact and_congr (exists_rev (F := fun b => Principal lead τ .plain b))
      (exists_rev (F := fun b => ¬ Principal lead τ .plain b ∧ SharpTurn lead τ b))
  | trebleBob => simp only [ClassIs, h.exists_principal, h.crossSection hj, h.internal]
  | delight => simp only [ClassIs, h.exists_principal, h.crossSection hj, h.internal]
  | surprise => simp only [ClassIs, h.exists_principal, h.crossSection hj, h.internal]
  | treblePlace => exact h.exists_principal _
  | alliance => exact h.exists_principal _
  | hybrid => exact h.exists_principal _

theorem isLittle (h : Mirror lead τ lead' τ') : IsLittle lead' τ' ↔ IsLittle lead τ := by
  simp only [IsLittle, h.hunt, h.principal, h.visits]
  refine and_congr (exists_rev (F := fun b => IsHuntBell τ b)) (forall_congr' fun c => ?_)
  rw [← all_rev (F := fun b => Principal lead τ c b → ∃ p, ¬ Visits lead τ b p)]
  refine forall_congr' fun b => imp_congr_right fun _ => ?_
  exact exists_rev (F := fun p => ¬ Visits lead τ b.rev p)

theorem isDifferential (h : Mirror lead τ lead' τ') : IsDifferential τ' ↔ IsDifferential τ := by
  simp only [IsDifferential, h.hunt, h.period]
  rw [← exists_rev (F := fun a => ∃ b, ¬ IsHuntBell τ a ∧ ¬ IsHuntBell τ b ∧
    Function.minimalPeriod τ a ≠ Function.minimalPeriod τ b)]
  apply exists_congr
  intro a
  exact exists_rev (F := fun b => ¬ IsHuntBell τ a.rev ∧ ¬ IsHuntBell τ b ∧
    Function.minimalPeriod τ a.rev ≠ Function.minimalPeriod τ b)

end Mirror

end Bellframe
