import Verif.Proofs.Class
import Mathlib.Data.Int.ModEq

/-!
# Courses that run through the same rows

The plain course is continued to all integer times, before the first row as well as after it.  Two courses
of which one is the other, up to the names of the bells, begun at another time and possibly run backwards,
are in the same class.
-/

namespace Bellframe

open Equiv

variable {n : Nat}

/-- `Q` continues the plain course to all integer times. -/
structure IsCourse (lead : List (Perm (Fin n))) (τ : Perm (Fin n)) (Q : ℤ → Perm (Fin n)) : Prop where
  row : ∀ t : ℕ, Q t = courseRow lead τ t
  lead : ∀ t, Q (t + lead.length) = τ * Q t

/-! ## Counting over one period -/

section Count

variable {N : Nat} (g : ℤ → Bool)

theorem countP_shift_one (hg : ∀ t, g (t + N) = g t) :
    (List.range N).countP (fun t : ℕ => g (t + 1)) = (List.range N).countP (fun t : ℕ => g t) := by
  cases N with
  | zero => rfl
  | succ m =>
    have h1 : (List.range (m + 1)).countP (fun t : ℕ => g t) =
        (List.range m).countP (fun t : ℕ => g (t + 1)) + if g 0 then 1 else 0 := by
      rw [List.range_succ_eq_map, List.countP_cons, List.countP_map]
      congr 1
    have h2 : g ((m : ℤ) + 1) = g 0 := by
      have := hg 0
      simpa using this
    rw [h1, List.range_succ, List.countP_append, List.countP_singleton, h2]

theorem countP_shift (hg : ∀ t, g (t + N) = g t) (k : ℤ) :
    (List.range N).countP (fun t : ℕ => g (t + k)) = (List.range N).countP (fun t : ℕ => g t) := by
  induction k using Int.induction_on with
  | zero => simp
  | succ k ih =>
    rw [← ih, ← countP_shift_one (fun t => g (t + k)) (fun t => by
      rw [show t + (N : ℤ) + k = t + k + N by ring, hg])]
    simp only [add_assoc, add_comm (1 : ℤ)]
  | pred k ih =>
    rw [← ih, ← countP_shift_one (fun t => g (t + (-k - 1))) (fun t => by
      rw [show t + (N : ℤ) + (-k - 1) = t + (-k - 1) + N by ring, hg])]
    congr 1
    funext t
    rw [show (t : ℤ) + 1 + (-k - 1) = t + -k by ring]

theorem countP_reflect :
    (List.range N).countP (fun t : ℕ => g (N - 1 - t)) = (List.range N).countP (fun t : ℕ => g t) := by
  have h : (List.range N).reverse = (List.range N).map (fun t => N - 1 - t) := by
    rw [List.range_eq_range', List.reverse_range']
    simp [List.range_eq_range']
  rw [← List.countP_reverse (l := List.range N) (p := fun t : ℕ => g t), h, List.countP_map]
  apply List.countP_congr
  intro t ht
  rw [List.mem_range] at ht
  have : ((N - 1 - t : ℕ) : ℤ) = N - 1 - t := by omega
  simp [this]

theorem countP_neg (hg : ∀ t, g (t + N) = g t) (k : ℤ) :
    (List.range N).countP (fun t : ℕ => g (-t + k)) = (List.range N).countP (fun t : ℕ => g t) := by
  rw [← countP_reflect g, ← countP_shift (fun t => g (-t + k)) (fun t => by
    rw [← hg (-(t + N) + k)]
    congr 1
    ring) (k - (N - 1))]
  congr 1
  funext t
  rw [show -((t : ℤ) + (k - (N - 1))) + k = N - 1 - t by ring]

end Count

theorem perm_inv_self (β : Perm (Fin n)) (b : Fin n) : β⁻¹ (β b) = b := by simp

theorem perm_self_inv (β : Perm (Fin n)) (b : Fin n) : β (β⁻¹ b) = b := by simp

theorem minimalPeriod_congr {f g : Perm (Fin n)} {x y : Fin n}
    (h : ∀ k : ℕ, (f ^ k) x = x ↔ (g ^ k) y = y) :
    Function.minimalPeriod f x = Function.minimalPeriod g y := by
  apply Nat.dvd_antisymm
  · rw [← Function.isPeriodicPt_iff_minimalPeriod_dvd, isPeriodicPt_iff, h, ← isPeriodicPt_iff]
    exact Function.isPeriodicPt_minimalPeriod _ _
  · rw [← Function.isPeriodicPt_iff_minimalPeriod_dvd, isPeriodicPt_iff, ← h, ← isPeriodicPt_iff]
    exact Function.isPeriodicPt_minimalPeriod _ _

/-! ## One course -/

namespace IsCourse

variable {lead : List (Perm (Fin n))} {τ : Perm (Fin n)} {Q : ℤ → Perm (Fin n)}

theorem place (h : IsCourse lead τ Q) (b : Fin n) (t : ℕ) : placeOfBell lead τ b t = (Q t)⁻¹ b := by
  rw [h.row, placeOfBell]

theorem place_succ (h : IsCourse lead τ Q) (b : Fin n) (t : ℕ) :
    placeOfBell lead τ b (t + 1) = (Q (t + 1))⁻¹ b := by
  rw [h.place]
  simp

theorem place_two (h : IsCourse lead τ Q) (b : Fin n) (t : ℕ) :
    placeOfBell lead τ b (t + 2) = (Q (t + 2))⁻¹ b := by
  rw [h.place]
  simp

theorem leads (h : IsCourse lead τ Q) (t : ℤ) (j : ℕ) : Q (t + j * lead.length) = τ ^ j * Q t := by
  induction j with
  | zero => simp
  | succ j ih =>
    rw [show t + ((j + 1 : ℕ) : ℤ) * lead.length = t + j * lead.length + lead.length by push_cast; ring,
      h.lead, ih, pow_succ', mul_assoc]

/-- At a natural time the course is where it is at the given time. -/
theorem natural (h : IsCourse lead τ Q) (hne : lead ≠ []) (t : ℤ) : ∃ s : ℕ, ∀ d : ℤ, Q (t + d) = Q (s + d) := by
  have hN : 0 < lead.length := List.length_pos_of_ne_nil hne
  have ho : 0 < orderOf τ := orderOf_pos τ
  have hM : 1 ≤ ((t.natAbs * orderOf τ : ℕ) : ℤ) * lead.length ∨ t = 0 := by
    rcases Nat.eq_zero_or_pos t.natAbs with h0 | h0
    · right
      omega
    · left
      have : 0 < t.natAbs * orderOf τ * lead.length := Nat.mul_pos (Nat.mul_pos h0 ho) hN
      exact_mod_cast this
  have hle : -t ≤ ((t.natAbs * orderOf τ : ℕ) : ℤ) * lead.length := by
    have h1 : t.natAbs ≤ t.natAbs * orderOf τ * lead.length := by
      rw [mul_assoc]
      exact Nat.le_mul_of_pos_right _ (Nat.mul_pos ho hN)
    have h2 : ((t.natAbs : ℕ) : ℤ) ≤ ((t.natAbs * orderOf τ : ℕ) : ℤ) * lead.length := by exact_mod_cast h1
    omega
  refine ⟨(t + ((t.natAbs * orderOf τ : ℕ) : ℤ) * lead.length).toNat, fun d => ?_⟩
  rw [Int.toNat_of_nonneg (by omega),
    show t + ((t.natAbs * orderOf τ : ℕ) : ℤ) * lead.length + d =
      t + d + ((t.natAbs * orderOf τ : ℕ) : ℤ) * lead.length by ring, h.leads, mul_comm t.natAbs, pow_mul,
    pow_orderOf_eq_one, one_pow, one_mul]

theorem hunt (h : IsCourse lead τ Q) {b : Fin n} (hb : IsHuntBell τ b) (t : ℤ) :
    (Q (t + lead.length))⁻¹ b = (Q t)⁻¹ b := by
  rw [h.lead, mul_inv_rev, Perm.mul_apply, Perm.inv_eq_iff_eq.2 hb.symm]

theorem hunt_leads (h : IsCourse lead τ Q) {b : Fin n} (hb : IsHuntBell τ b) (t j : ℤ) :
    (Q (t + j * lead.length))⁻¹ b = (Q t)⁻¹ b := by
  induction j using Int.induction_on with
  | zero => simp
  | succ j ih =>
    rw [show t + ((j : ℤ) + 1) * lead.length = t + j * lead.length + lead.length by ring, h.hunt hb, ih]
  | pred j ih =>
    rw [← ih, ← h.hunt hb]
    congr 3
    ring

theorem visits (h : IsCourse lead τ Q) (hne : lead ≠ []) (b p : Fin n) :
    Visits lead τ b p ↔ ∃ t : ℤ, (Q t)⁻¹ b = p := by
  constructor
  · rintro ⟨t, ht⟩
    exact ⟨t, by rw [← h.place, ht]⟩
  · rintro ⟨t, ht⟩
    obtain ⟨s, hs⟩ := h.natural hne t
    refine ⟨s, ?_⟩
    have := hs 0
    rw [add_zero, add_zero] at this
    rw [h.place, ← this, ht]

theorem rowsInPlace (h : IsCourse lead τ Q) (b p : Fin n) :
    rowsInPlace lead τ b p = (List.range lead.length).countP fun t : ℕ => decide ((Q t)⁻¹ b = p) := by
  rw [Bellframe.rowsInPlace, ← List.countP_eq_length_filter]
  simp only [h.place]

theorem placesMade (h : IsCourse lead τ Q) (b : Fin n) :
    placesMade lead τ b =
      (List.range lead.length).countP fun t : ℕ => decide ((Q t)⁻¹ b = (Q (t + 1))⁻¹ b) := by
  rw [Bellframe.placesMade, ← List.countP_eq_length_filter]
  simp only [h.place_succ, h.place]

theorem symmetric (h : IsCourse lead τ Q) (hne : lead ≠ []) {b : Fin n} (hb : IsHuntBell τ b) :
    Symmetric lead τ b ↔ ∃ c : ℤ, ∀ s t : ℤ, s + t ≡ c [ZMOD lead.length] → (Q s)⁻¹ b = (Q t)⁻¹ b := by
  have hN : 0 < lead.length := List.length_pos_of_ne_nil hne
  have hN' : (0 : ℤ) < lead.length := by exact_mod_cast hN
  have hmod : ∀ t : ℤ, (Q (t % lead.length))⁻¹ b = (Q t)⁻¹ b := by
    intro t
    rw [← h.hunt_leads hb (t % lead.length) (t / lead.length)]
    congr 3
    rw [mul_comm]
    exact Int.emod_add_mul_ediv t lead.length
  constructor
  · rintro ⟨c, hc⟩
    refine ⟨c, fun s t hst => ?_⟩
    have h1 := Int.emod_nonneg s hN'.ne'
    have h2 := Int.emod_nonneg t hN'.ne'
    have h3 := hc (s % lead.length).toNat (t % lead.length).toNat ?_
    · rw [h.place, h.place, Int.toNat_of_nonneg h1, Int.toNat_of_nonneg h2, hmod, hmod] at h3
      exact h3
    · rw [← Int.natCast_modEq_iff]
      push_cast
      rw [Int.toNat_of_nonneg h1, Int.toNat_of_nonneg h2]
      exact ((Int.mod_modEq s _).add (Int.mod_modEq t _)).trans hst
  · rintro ⟨c, hc⟩
    refine ⟨(c % lead.length).toNat, fun s t hst => ?_⟩
    rw [h.place, h.place]
    apply hc
    rw [← Int.natCast_modEq_iff, Int.toNat_of_nonneg (Int.emod_nonneg c hN'.ne')] at hst
    push_cast at hst
    exact hst.trans (Int.mod_modEq c _)

end IsCourse

/-! ## Two courses -/

/-- One course is the other, up to the names of the bells, begun at another time and possibly run
backwards. -/
structure SameCourse (lead : List (Perm (Fin n))) (τ : Perm (Fin n)) (lead' : List (Perm (Fin n)))
    (τ' : Perm (Fin n)) (Q Q' : ℤ → Perm (Fin n)) (β : Perm (Fin n)) (ε k : ℤ) : Prop where
  ne : lead ≠ []
  len : lead'.length = lead.length
  course : IsCourse lead τ Q
  course' : IsCourse lead' τ' Q'
  dir : ε = 1 ∨ ε = -1
  eq : ∀ t, Q' t = β⁻¹ * Q (ε * t + k)

namespace SameCourse

variable {lead lead' : List (Perm (Fin n))} {τ τ' : Perm (Fin n)} {Q Q' : ℤ → Perm (Fin n)}
  {β : Perm (Fin n)} {ε k : ℤ}

theorem ne' (h : SameCourse lead τ lead' τ' Q Q' β ε k) : lead' ≠ [] := by
  have := h.len
  have := List.length_pos_of_ne_nil h.ne
  exact List.ne_nil_of_length_pos (by omega)

theorem symm (h : SameCourse lead τ lead' τ' Q Q' β ε k) :
    SameCourse lead' τ' lead τ Q' Q β⁻¹ ε (-(ε * k)) where
  ne := h.ne'
  len := h.len.symm
  course := h.course'
  course' := h.course
  dir := h.dir
  eq t := by
    rw [h.eq, inv_inv, mul_inv_cancel_left]
    congr 1
    rcases h.dir with rfl | rfl <;> ring

theorem place (h : SameCourse lead τ lead' τ' Q Q' β ε k) (b : Fin n) (t : ℤ) :
    (Q' t)⁻¹ b = (Q (ε * t + k))⁻¹ (β b) := by
  rw [h.eq, mul_inv_rev, inv_inv, Perm.mul_apply]

theorem leadHead (h : SameCourse lead τ lead' τ' Q Q' β ε k) : τ' = β⁻¹ * τ * β ∨ τ' = β⁻¹ * τ⁻¹ * β := by
  have h1 := h.course'.lead 0
  rw [zero_add, h.eq, h.eq, h.len, mul_zero, zero_add] at h1
  rcases h.dir with rfl | rfl
  · left
    rw [one_mul, add_comm, h.course.lead] at h1
    have h2 := mul_right_cancel (a := β⁻¹ * τ) (b := Q k) (c := τ' * β⁻¹) (by rw [mul_assoc, h1, mul_assoc])
    rw [h2, inv_mul_cancel_right]
  · right
    have h3 := h.course.lead (-1 * lead.length + k)
    rw [show (-1 : ℤ) * lead.length + k + lead.length = k by ring] at h3
    have h4 : Q (-1 * lead.length + k) = τ⁻¹ * Q k := by rw [h3, inv_mul_cancel_left]
    rw [h4] at h1
    have h2 := mul_right_cancel (a := β⁻¹ * τ⁻¹) (b := Q k) (c := τ' * β⁻¹)
      (by rw [mul_assoc, h1, mul_assoc])
    rw [h2, inv_mul_cancel_right]

theorem hunt (h : SameCourse lead τ lead' τ' Q Q' β ε k) (b : Fin n) :
    IsHuntBell τ' b ↔ IsHuntBell τ (β b) := by
  unfold IsHuntBell
  rcases h.leadHead with h1 | h1 <;> rw [h1, Perm.mul_apply, Perm.mul_apply, Perm.inv_eq_iff_eq]
  rw [Perm.inv_eq_iff_eq]
  exact eq_comm

theorem period (h : SameCourse lead τ lead' τ' Q Q' β ε k) (b : Fin n) :
    Function.minimalPeriod τ' b = Function.minimalPeriod τ (β b) := by
  have hconj : ∀ σ : Perm (Fin n), Function.minimalPeriod (β⁻¹ * σ * β) b =
      Function.minimalPeriod σ (β b) := by
    intro σ
    apply minimalPeriod_congr
    intro j
    have : (β⁻¹ * σ * β) ^ j = β⁻¹ * σ ^ j * β := by
      have := conj_pow (i := j) (a := β⁻¹) (b := σ)
      rwa [inv_inv] at this
    rw [this, Perm.mul_apply, Perm.mul_apply, Perm.inv_eq_iff_eq]
  rcases h.leadHead with h1 | h1
  · rw [h1, hconj]
  · rw [h1, hconj, minimalPeriod_inv]

theorem visits (h : SameCourse lead τ lead' τ' Q Q' β ε k) (b p : Fin n) :
    Visits lead' τ' b p ↔ Visits lead τ (β b) p := by
  rw [h.course'.visits h.ne', h.course.visits h.ne]
  constructor
  · rintro ⟨t, ht⟩
    exact ⟨ε * t + k, by rw [← h.place, ht]⟩
  · rintro ⟨t, ht⟩
    refine ⟨ε * (t - k), ?_⟩
    rw [h.place]
    have : ε * (ε * (t - k)) + k = t := by rcases h.dir with rfl | rfl <;> ring
    rw [this, ht]

theorem rowsInPlace (h : SameCourse lead τ lead' τ' Q Q' β ε k) {b : Fin n} (hb : IsHuntBell τ (β b))
    (p : Fin n) : rowsInPlace lead' τ' b p = rowsInPlace lead τ (β b) p := by
  rw [h.course'.rowsInPlace, h.course.rowsInPlace, h.len]
  simp only [h.place]
  have hg : ∀ t : ℤ, decide ((Q (t + lead.length))⁻¹ (β b) = p) = decide ((Q t)⁻¹ (β b) = p) := by
    intro t
    rw [h.course.hunt hb]
  rcases h.dir with rfl | rfl
  · simp only [one_mul]
    exact countP_shift (fun t => decide ((Q t)⁻¹ (β b) = p)) hg k
  · simp only [neg_mul, one_mul]
    exact countP_neg (fun t => decide ((Q t)⁻¹ (β b) = p)) hg k

theorem placesMade (h : SameCourse lead τ lead' τ' Q Q' β ε k) {b : Fin n} (hb : IsHuntBell τ (β b)) :
    placesMade lead' τ' b = placesMade lead τ (β b) := by
  rw [h.course'.placesMade, h.course.placesMade, h.len]
  simp only [h.place]
  have hg : ∀ t : ℤ, decide ((Q (t + lead.length))⁻¹ (β b) = (Q (t + lead.length + 1))⁻¹ (β b)) =
      decide ((Q t)⁻¹ (β b) = (Q (t + 1))⁻¹ (β b)) := by
    intro t
    rw [h.course.hunt hb, show t + (lead.length : ℤ) + 1 = t + 1 + lead.length by ring, h.course.hunt hb]
  rcases h.dir with rfl | rfl
  · simp only [one_mul]
    rw [← countP_shift (fun t => decide ((Q t)⁻¹ (β b) = (Q (t + 1))⁻¹ (β b))) hg k]
    congr 1
    funext t
    rw [add_right_comm]
  · simp only [neg_mul, one_mul]
    rw [← countP_neg (fun t => decide ((Q t)⁻¹ (β b) = (Q (t + 1))⁻¹ (β b))) hg (k - 1)]
    congr 1
    funext t
    rw [show -(t : ℤ) + (k - 1) + 1 = -t + k by ring, show -((t : ℤ) + 1) + k = -t + (k - 1) by ring]
    exact decide_eq_decide.2 eq_comm

theorem symmetric_mp (h : SameCourse lead τ lead' τ' Q Q' β ε k) {b : Fin n} (hb : IsHuntBell τ (β b))
    (hs : Symmetric lead' τ' b) : Symmetric lead τ (β b) := by
  rw [h.course'.symmetric h.ne' ((h.hunt b).2 hb)] at hs
  rw [h.course.symmetric h.ne hb]
  obtain ⟨c, hc⟩ := hs
  rw [h.len] at hc
  refine ⟨ε * c + 2 * k, fun s t hst => ?_⟩
  have := hc (ε * (s - k)) (ε * (t - k)) ?_
  · rw [h.place, h.place] at this
    have e : ∀ t : ℤ, ε * (ε * (t - k)) + k = t := by intro t; rcases h.dir with rfl | rfl <;> ring
    rwa [e, e] at this
  · have h1 := (hst.sub_right (2 * k)).mul_left ε
    have e1 : ε * (s + t - 2 * k) = ε * (s - k) + ε * (t - k) := by ring
    have e2 : ε * (ε * c + 2 * k - 2 * k) = c := by rcases h.dir with rfl | rfl <;> ring
    rwa [e1, e2] at h1

theorem symmetric (h : SameCourse lead τ lead' τ' Q Q' β ε k) {b : Fin n} (hb : IsHuntBell τ (β b)) :
    Symmetric lead' τ' b ↔ Symmetric lead τ (β b) := by
  refine ⟨h.symmetric_mp hb, fun hs => ?_⟩
  have := h.symm.symmetric_mp (b := β b) (by rw [perm_inv_self]; exact (h.hunt b).2 hb) hs
  rwa [perm_inv_self] at this

theorem stationary_iff (lead : List (Perm (Fin n))) (τ : Perm (Fin n)) (b : Fin n) :
    Stationary lead τ b ↔ ∃ p, ∀ q, Visits lead τ b q → q = p := by
  constructor
  · rintro ⟨p, hp⟩
    refine ⟨p, ?_⟩
    rintro q ⟨t, rfl⟩
    exact hp t
  · rintro ⟨p, hp⟩
    exact ⟨p, fun t => hp _ ⟨t, rfl⟩⟩

theorem stationary (h : SameCourse lead τ lead' τ' Q Q' β ε k) (b : Fin n) :
    Stationary lead' τ' b ↔ Stationary lead τ (β b) := by
  rw [stationary_iff, stationary_iff]
  simp only [h.visits]

theorem huntPath (h : SameCourse lead τ lead' τ' Q Q' β ε k) {b : Fin n} (hb : IsHuntBell τ (β b))
    (c : HuntBellClass) : HuntPathIs lead' τ' b c ↔ HuntPathIs lead τ (β b) c := by
  have h1 : PlainHunt lead' τ' b ↔ PlainHunt lead τ (β b) := by
    simp only [PlainHunt, h.stationary, h.visits, h.rowsInPlace hb]
  have h2 : EvenlySpread lead' τ' b ↔ EvenlySpread lead τ (β b) := by
    simp only [EvenlySpread, h.visits, h.rowsInPlace hb]
  cases c <;> simp only [HuntPathIs, h1, h2, h.stationary, h.symmetric hb, h.placesMade hb]

theorem principal_mp (h : SameCourse lead τ lead' τ' Q Q' β ε k) (c : HuntBellClass) (b : Fin n)
    (hp : Principal lead' τ' c b) : Principal lead τ c (β b) := by
  obtain ⟨h1, h2, h3⟩ := hp
  have hb := (h.hunt b).1 h1
  refine ⟨hb, (h.huntPath hb c).1 h2, fun d hd k' hk' => ?_⟩
  have hd' : IsHuntBell τ (β (β⁻¹ d)) := by rwa [perm_self_inv]
  refine h3 (β⁻¹ d) ((h.hunt _).2 hd') k' ((h.huntPath hd' k').2 ?_)
  rwa [perm_self_inv]

theorem principal (h : SameCourse lead τ lead' τ' Q Q' β ε k) (c : HuntBellClass) (b : Fin n) :
    Principal lead' τ' c b ↔ Principal lead τ c (β b) := by
  refine ⟨h.principal_mp c b, fun hp => ?_⟩
  have := h.symm.principal_mp c (β b) hp
  rwa [perm_inv_self] at this

theorem exists_principal (h : SameCourse lead τ lead' τ' Q Q' β ε k) (c : HuntBellClass) :
    (∃ b, Principal lead' τ' c b) ↔ ∃ b, Principal lead τ c b := by
  simp only [h.principal]
  exact β.surjective.exists.symm

theorem sharpTurn_mp (h : SameCourse lead τ lead' τ' Q Q' β ε k) (b : Fin n)
    (hs : SharpTurn lead' τ' b) : SharpTurn lead τ (β b) := by
  obtain ⟨t, h1, h2⟩ := hs
  rw [h.course'.place_two, h.course'.place, h.place, h.place] at h1
  rw [h.course'.place_succ, h.course'.place, h.place, h.place] at h2
  rcases h.dir with rfl | rfl
  · obtain ⟨s, hs⟩ := h.course.natural h.ne (1 * t + k)
    refine ⟨s, ?_⟩
    rw [h.course.place_two, h.course.place_succ, h.course.place, ← hs 1, ← hs 2,
      show Q s = Q (1 * t + k) by simpa using (hs 0).symm]
    rw [show (1 : ℤ) * (t + 2) + k = 1 * t + k + 2 by ring] at h1
    rw [show (1 : ℤ) * (t + 1) + k = 1 * t + k + 1 by ring] at h2
    exact ⟨h1, h2⟩
  · obtain ⟨s, hs⟩ := h.course.natural h.ne (-1 * (t + 2) + k)
    refine ⟨s, ?_⟩
    rw [h.course.place_two, h.course.place_succ, h.course.place, ← hs 1, ← hs 2,
      show Q s = Q (-1 * (t + 2) + k) by simpa using (hs 0).symm]
    rw [h1] at h2
    rw [show (-1 : ℤ) * (t + 2) + k + 2 = -1 * t + k by ring,
      show (-1 : ℤ) * (t + 2) + k + 1 = -1 * (t + 1) + k by ring]
    exact ⟨h1.symm, h2⟩

theorem sharpTurn (h : SameCourse lead τ lead' τ' Q Q' β ε k) (b : Fin n) :
    SharpTurn lead' τ' b ↔ SharpTurn lead τ (β b) := by
  refine ⟨h.sharpTurn_mp b, fun hs => ?_⟩
  have := h.symm.sharpTurn_mp (β b) hs
  rwa [perm_inv_self] at this

/-- Every change of one course is one of the other. -/
theorem change (h : SameCourse lead τ lead' τ' Q Q' β ε k) (t : ℕ) : ∃ s : ℕ,
    (∀ b, placeOfBell lead' τ' b t = placeOfBell lead τ (β b) s ∧
      placeOfBell lead' τ' b (t + 1) = placeOfBell lead τ (β b) (s + 1)) ∨
    (∀ b, placeOfBell lead' τ' b t = placeOfBell lead τ (β b) (s + 1) ∧
      placeOfBell lead' τ' b (t + 1) = placeOfBell lead τ (β b) s) := by
  simp only [h.course'.place_succ, h.course'.place, h.place]
  rcases h.dir with rfl | rfl
  · obtain ⟨s, hs⟩ := h.course.natural h.ne (1 * t + k)
    refine ⟨s, .inl fun b => ?_⟩
    rw [h.course.place_succ, h.course.place, ← hs 1, show Q s = Q (1 * t + k) by simpa using (hs 0).symm]
    refine ⟨rfl, ?_⟩
    congr 3
    ring
  · obtain ⟨s, hs⟩ := h.course.natural h.ne (-1 * (t + 1) + k)
    refine ⟨s, .inr fun b => ?_⟩
    rw [h.course.place_succ, h.course.place, ← hs 1,
      show Q s = Q (-1 * (t + 1) + k) by simpa using (hs 0).symm]
    refine ⟨?_, rfl⟩
    congr 3
    ring

theorem internal_iff (lead : List (Perm (Fin n))) (τ : Perm (Fin n)) (t : ℕ) :
    InternalPlaceAt lead τ t ↔ ∃ b, placeOfBell lead τ b t = placeOfBell lead τ b (t + 1) ∧
      (placeOfBell lead τ b t).val ≠ 0 ∧ (placeOfBell lead τ b t).val + 1 ≠ n := by
  constructor
  · rintro ⟨p, h1, h2, h3⟩
    have e1 : placeOfBell lead τ (courseRow lead τ t p) t = p := perm_inv_self _ _
    have e2 : placeOfBell lead τ (courseRow lead τ t p) (t + 1) = p := by
      rw [h3]
      exact perm_inv_self _ _
    exact ⟨courseRow lead τ t p, by rw [e1, e2], by rwa [e1], by rwa [e1]⟩
  · rintro ⟨b, h1, h2, h3⟩
    refine ⟨placeOfBell lead τ b t, h2, h3, ?_⟩
    rw [show courseRow lead τ (t + 1) (placeOfBell lead τ b t) = b by
      rw [h1]
      exact perm_self_inv _ _]
    exact perm_self_inv _ _

theorem exists_bell (β : Perm (Fin n)) {F : Fin n → Prop} : (∃ b, F (β b)) ↔ ∃ b, F b :=
  β.surjective.exists.symm

theorem all_bells (β : Perm (Fin n)) {F : Fin n → Prop} : (∀ b, F (β b)) ↔ ∀ b, F b :=
  β.surjective.forall.symm

/-- Every change of one course has its partner in the other. -/
theorem section_mp (h : SameCourse lead τ lead' τ' Q Q' β ε k) (t : ℕ) : ∃ s : ℕ,
    (CrossSection lead' τ' t ↔ CrossSection lead τ s) ∧
    (InternalPlaceAt lead' τ' t ↔ InternalPlaceAt lead τ s) := by
  obtain ⟨s, hs⟩ := h.change t
  refine ⟨s, ?_, ?_⟩
  · have hc : ∀ b, CrossesAt lead' τ' b t ↔ CrossesAt lead τ (β b) s := by
      intro b
      unfold CrossesAt
      simp only [h.visits]
      rcases hs with hs | hs <;> rw [(hs b).1, (hs b).2]
      simp only [ne_comm]
    unfold CrossSection
    simp only [hc, h.principal]
    exact exists_bell β (F := fun b => Principal lead τ .trebleDodging b ∧ CrossesAt lead τ b s)
  · rw [internal_iff, internal_iff]
    rw [← exists_bell β (F := fun b => placeOfBell lead τ b s = placeOfBell lead τ b (s + 1) ∧
      (placeOfBell lead τ b s).val ≠ 0 ∧ (placeOfBell lead τ b s).val + 1 ≠ n)]
    apply exists_congr
    intro b
    rcases hs with hs | hs <;> rw [(hs b).1, (hs b).2]
    constructor
    · rintro ⟨h1, h2, h3⟩
      rw [h1] at h2 h3
      exact ⟨h1.symm, h2, h3⟩
    · rintro ⟨h1, h2, h3⟩
      rw [h1] at h2 h3
      exact ⟨h1.symm, h2, h3⟩

theorem exists_section (h : SameCourse lead τ lead' τ' Q Q' β ε k) (F : Prop → Prop → Prop) :
    (∃ t, F (CrossSection lead' τ' t) (InternalPlaceAt lead' τ' t)) ↔
      ∃ t, F (CrossSection lead τ t) (InternalPlaceAt lead τ t) := by
  constructor
  · rintro ⟨t, ht⟩
    obtain ⟨s, h1, h2⟩ := h.section_mp t
    exact ⟨s, by rwa [← propext h1, ← propext h2]⟩
  · rintro ⟨t, ht⟩
    obtain ⟨s, h1, h2⟩ := h.symm.section_mp t
    exact ⟨s, by rwa [← propext h1, ← propext h2]⟩

theorem all_sections (h : SameCourse lead τ lead' τ' Q Q' β ε k) (F : Prop → Prop → Prop) :
    (∀ t, F (CrossSection lead' τ' t) (InternalPlaceAt lead' τ' t)) ↔
      ∀ t, F (CrossSection lead τ t) (InternalPlaceAt lead τ t) := by
  have := not_congr (h.exists_section fun a b => ¬ F a b)
  simpa only [not_exists, not_not] using this

/-- Both courses are in the same class. -/
theorem classIs (h : SameCourse lead τ lead' τ' Q Q' β ε k) (c : MethodClass) :
    ClassIs lead' τ' c ↔ ClassIs lead τ c := by
  cases c with
  | principle =>
    simp only [ClassIs, h.hunt]
    exact all_bells β (F := fun b => ¬ IsHuntBell τ b)
  | place =>
    simp only [ClassIs, h.principal, h.sharpTurn]
    exact and_congr (exists_bell β (F := fun b => Principal lead τ .plain b))
      (all_bells β (F := fun b => ¬ Principal lead τ .plain b → ¬ SharpTurn lead τ b))
  | bob =>
    simp only [ClassIs, h.principal, h.sharpTurn]
    exact and_congr (exists_bell β (F := fun b => Principal lead τ .plain b))
      (exists_bell β (F := fun b => ¬ Principal lead τ .plain b ∧ SharpTurn lead τ b))
  | trebleBob =>
    simp only [ClassIs, h.exists_principal]
    exact and_congr_right' (h.all_sections fun a b => a → ¬ b)
  | delight =>
    simp only [ClassIs, h.exists_principal]
    exact and_congr_right' (and_congr (h.exists_section fun a b => a ∧ b)
      (h.exists_section fun a b => a ∧ ¬ b))
  | surprise =>
    simp only [ClassIs, h.exists_principal]
    exact and_congr_right' (and_congr (h.exists_section fun a _ => a) (h.all_sections fun a b => a → b))
  | treblePlace => exact h.exists_principal _
  | alliance => exact h.exists_principal _
  | hybrid => exact h.exists_principal _

theorem isLittle (h : SameCourse lead τ lead' τ' Q Q' β ε k) : IsLittle lead' τ' ↔ IsLittle lead τ := by
  simp only [IsLittle, h.hunt, h.principal, h.visits]
  refine and_congr (exists_bell β (F := fun b => IsHuntBell τ b)) (forall_congr' fun c => ?_)
  exact all_bells β (F := fun b => Principal lead τ c b → ∃ p, ¬ Visits lead τ b p)

theorem isDifferential (h : SameCourse lead τ lead' τ' Q Q' β ε k) :
    IsDifferential τ' ↔ IsDifferential τ := by
  simp only [IsDifferential, h.hunt, h.period]
  rw [← exists_bell β (F := fun a => ∃ b, ¬ IsHuntBell τ a ∧ ¬ IsHuntBell τ b ∧
    Function.minimalPeriod τ a ≠ Function.minimalPeriod τ b)]
  apply exists_congr
  intro a
  exact exists_bell β (F := fun b => ¬ IsHuntBell τ (β a) ∧ ¬ IsHuntBell τ b ∧
    Function.minimalPeriod τ (β a) ≠ Function.minimalPeriod τ b)

end SameCourse

/-! ## Courses of changes -/

/-- The plain course at all integer times. -/
def courseZ (lead : List (Perm (Fin n))) (τ : Perm (Fin n)) (t : ℤ) : Perm (Fin n) :=
  τ ^ (t / lead.length) * lead[(t % lead.length).toNat]?.getD 1

theorem courseZ_isCourse (lead : List (Perm (Fin n))) (τ : Perm (Fin n)) (hne : lead ≠ []) :
    IsCourse lead τ (courseZ lead τ) where
  row t := by
    unfold courseZ courseRow
    norm_cast
  lead t := by
    have hN : (lead.length : ℤ) ≠ 0 := by
      have := List.length_pos_of_ne_nil hne
      omega
    unfold courseZ
    rw [Int.add_emod_right, Int.add_ediv_of_dvd_right (dvd_refl _), Int.ediv_self hN, zpow_add, zpow_one,
      mul_assoc, ← mul_assoc, (Commute.refl τ).zpow_left _ |>.eq, mul_assoc]

end Bellframe
