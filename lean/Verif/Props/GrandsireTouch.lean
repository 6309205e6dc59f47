import Mathlib.GroupTheory.Perm.Fin
import Verif.Props.BobTouch
import Verif.Props.Grandsire

/-! # C106: touches of two kinds of leads, and extents of Grandsire -/

namespace Bellframe.Props

open Equiv

variable {n : Nat} {A : Type}

/-! ## Cycles that go on in one of two ways -/

theorem sign_of_odd_pow {k m : Nat} (s : Perm (Fin k)) (hm : Odd m) (h : s ^ m = 1) : Perm.sign s = 1 := by
  have h1 := congrArg Perm.sign h
  rw [map_pow, Perm.sign_one] at h1
  rcases Int.units_eq_one_or (Perm.sign s) with h2 | h2
  · exact h2
  · rw [h2, hm.neg_one_pow] at h1
    exact absurd h1 (by decide)

/-- If the elements `h 0, …, h (k - 1)` of a group are distinct, each is the one before times `p` or `q` in a cycle, they
are closed under multiplication by `p`, and both `p` and `p⁻¹ * q` have odd order, then `k` is odd. -/
theorem odd_cycle {G : Type} [Group G] {k : Nat} [NeZero k] (h : Fin k → G) (hinj : Function.Injective h) (p q : G)
    (hp : Odd (orderOf p)) (hq : Odd (orderOf (p⁻¹ * q)))
    (hnext : ∀ a, h (finRotate k a) = h a * p ∨ h (finRotate k a) = h a * q)
    (hcl : ∀ a, ∃ b, h b = h a * p) : Odd k := by
  choose f hf using hcl
  have finj : Function.Injective f := by
    intro a b hab
    have := hf a
    rw [hab, hf b] at this
    exact (hinj (mul_right_cancel this)).symm
  let r : Perm (Fin k) := Equiv.ofBijective f (Finite.injective_iff_bijective.1 finj)
  have hr : ∀ a, h (r a) = h a * p := hf
  have hrpow : ∀ j a, h ((r ^ j) a) = h a * p ^ j := by
    intro j
    induction j with
    | zero => simp
    | succ j ih => intro a; rw [pow_succ', Perm.mul_apply, hr, ih, pow_succ, mul_assoc]
  have hr1 : Perm.sign r = 1 := by
    refine sign_of_odd_pow r hp (Equiv.ext fun a => hinj ?_)
    rw [hrpow, pow_orderOf_eq_one, mul_one, Perm.one_apply]
  let s : Perm (Fin k) := finRotate k * r⁻¹
  have hs : ∀ b, s b = b ∨ h (s b) = h b * (p⁻¹ * q) := by
    intro b
    have hb : h b = h (r⁻¹ b) * p := by rw [← hr, ← Perm.mul_apply, mul_inv_cancel, Perm.one_apply]
    rcases hnext (r⁻¹ b) with h1 | h1
    · left
      exact hinj (by rw [Perm.mul_apply, h1, hb])
    · right
      rw [Perm.mul_apply, h1, hb]
      group
  have hspow : ∀ j b, s b ≠ b → s ((s ^ j) b) ≠ (s ^ j) b ∧ h ((s ^ j) b) = h b * (p⁻¹ * q) ^ j := by
    intro j b hb
    induction j with
    | zero => simpa using hb
    | succ j ih =>
      obtain ⟨h1, h2⟩ := ih
      rw [pow_succ', show (s * s ^ j) b = s ((s ^ j) b) from rfl]
      refine ⟨fun h3 => h1 (s.injective h3), ?_⟩
      rcases hs ((s ^ j) b) with h3 | h3
      · exact absurd h3 h1
      · rw [h3, h2, pow_succ, mul_assoc]
  have hs1 : Perm.sign s = 1 := by
    refine sign_of_odd_pow s hq (Equiv.ext fun b => ?_)
    by_cases hb : s b = b
    · rw [Perm.pow_apply_eq_self_of_apply_eq_self hb, Perm.one_apply]
    · apply hinj
      rw [(hspow _ b hb).2, pow_orderOf_eq_one, mul_one, Perm.one_apply]
  have hrot : Perm.sign (finRotate k) = 1 := by
    have : finRotate k = s * r := by simp [s]
    rw [this, Perm.sign_mul, hs1, hr1, one_mul]
  rw [sign_finRotate] at hrot
  by_contra hk
  rw [Nat.not_odd_iff_even] at hk
  have hk0 : k ≠ 0 := NeZero.ne k
  have : Odd (k - 1) := Nat.Even.sub_odd (by omega) hk odd_one
  rw [this.neg_one_pow] at hrot
  exact absurd hrot (by decide)

theorem val_finRotate {k : Nat} (a : Fin k) : (finRotate k a).val = if a.val + 1 < k then a.val + 1 else 0 := by
  cases k with
  | zero => exact a.elim0
  | succ k =>
    rw [coe_finRotate]
    have := a.isLt
    by_cases h : a = Fin.last k
    · rw [if_pos h, if_neg (by rw [h]; simp)]
    · rw [if_neg h, if_pos]
      have : a.val ≠ k := fun e => h (Fin.ext e)
      omega

/-! ## Lead heads -/

/-- The head of lead `a` of a touch. -/
def headOf (leads : List (List (Perm (Fin n)) × List A)) (a : Nat) : Perm (Fin n) :=
  ((leads.take a).map (·.1.prod)).prod

theorem headOf_succ (leads : List (List (Perm (Fin n)) × List A)) (a : Nat) (x) (h : leads[a]? = some x) :
    headOf leads (a + 1) = headOf leads a * x.1.prod := by
  obtain ⟨ha, rfl⟩ := List.getElem?_eq_some_iff.1 h
  unfold headOf
  rw [List.take_succ_eq_append_getElem ha, List.map_append, List.prod_append]
  simp

theorem headOf_inj (hn : 0 < n) (leads : List (List (Perm (Fin n)) × List A))
    (h : ∀ x ∈ leads, x.1.length = x.2.length) (h0 : ∀ x ∈ leads, x.1 ≠ [])
    (ht : (AnnotBlock.rung (leads.flatMap (·.1)) (leads.flatMap (·.2))).IsTrue) (a b : Nat)
    (ha : a < leads.length) (hb : b < leads.length) (hab : headOf leads a = headOf leads b) : a = b := by
  have hlen : (leads.flatMap (·.1)).length = (leads.flatMap (·.2)).length := by
    clear ht ha hb hab h0
    induction leads with
    | nil => rfl
    | cons x ls ih =>
      rw [List.flatMap_cons, List.flatMap_cons, List.length_append, List.length_append, h x (by simp),
        ih (fun y hy => h y (by simp [hy]))]
  have e1 : (beginnings (leads.flatMap fun x => x.1)).Nodup := by
    unfold AnnotBlock.rung at ht
    rw [true_iff_nodup hn _ _ _ (by simp only [List.length_map, List.length_range]; exact hlen)] at ht
    exact ht
  rw [beginnings_flatMap, List.nodup_flatten, List.pairwise_iff_getElem] at e1
  have e2 := e1.2
  simp only [List.length_map, List.length_range, List.getElem_map, List.getElem_range] at e2
  have mem : ∀ a, a < leads.length → headOf leads a ∈
      (beginnings (leads[a]?.elim [] (·.1))).map (((leads.take a).map (·.1.prod)).prod * ·) := by
    intro a ha
    rw [List.getElem?_eq_getElem ha, List.mem_map]
    refine ⟨1, ?_, by rw [mul_one]; rfl⟩
    rw [Option.elim_some]
    unfold beginnings
    rw [List.mem_map]
    exact ⟨0, List.mem_range.2 (List.length_pos_of_ne_nil (h0 _ (List.getElem_mem ha))), by simp⟩
  by_contra hne
  rcases lt_or_gt_of_ne hne with hlt | hlt
  · exact e2 a b ha hb hlt (mem a ha) (hab ▸ mem b hb)
  · exact e2 b a hb ha hlt (mem b hb) (hab ▸ mem a ha)

/-! ## C106 -/

/-- A touch of two kinds of leads that is true and comes round.  The first kind, rung again and again, comes round after
an odd number of leads, and so does what turns the first kind's lead head into the second's.  If after any lead head of
the touch the first kind of lead would lead to a lead head of the touch, then the touch has an odd number of leads. -/
theorem C106_two_leads (hn : 0 < n) (x y : List (Perm (Fin n)) × List A) (hx : x.1.length = x.2.length)
    (hy : y.1.length = y.2.length) (hx0 : x.1 ≠ []) (hy0 : y.1 ≠ [])
    (hox : Odd (orderOf x.1.prod)) (hoy : Odd (orderOf (x.1.prod⁻¹ * y.1.prod)))
    (leads : List (List (Perm (Fin n)) × List A)) (hne : leads ≠ []) (hxy : ∀ z ∈ leads, z = x ∨ z = y)
    (touch : AnnotBlock A) (ht : ringTouch ⟨n⟩ (leads.map fun x => .rung x.1 x.2) = .ok (touch, .ok ()))
    (htrue : touch.IsTrue) (r : Row) (hr : touch.leftoverRow = .ok r) (hround : r.isRounds = true)
    (hcl : ∀ a < leads.length, ∃ b < leads.length,
      ((leads.take b).map (·.1.prod)).prod = ((leads.take a).map (·.1.prod)).prod * x.1.prod) :
    Odd leads.length := by
  have hlens : ∀ z ∈ leads, z.1.length = z.2.length := by
    intro z hz
    rcases hxy z hz with rfl | rfl
    · exact hx
    · exact hy
  have hnes : ∀ z ∈ leads, z.1 ≠ [] := by
    intro z hz
    rcases hxy z hz with rfl | rfl
    · exact hx0
    · exact hy0
  obtain ⟨r', h1, h2⟩ := C97_comes_round hn leads hlens touch ht
  obtain rfl : r' = r := Except.ok.inj (h1.symm.trans hr)
  have hone := h2.1 hround
  obtain ⟨t, g1, g2, -, -⟩ := C97_touch hn leads hlens
  rw [g1] at ht
  cases ht
  subst g2
  have hk : 0 < leads.length := List.length_pos_of_ne_nil hne
  have : NeZero leads.length := ⟨hk.ne'⟩
  refine odd_cycle (fun a : Fin leads.length => headOf leads a) ?_ x.1.prod y.1.prod hox hoy ?_ ?_
  · intro a b hab
    exact Fin.ext (headOf_inj hn leads hlens hnes htrue a b a.2 b.2 hab)
  · intro a
    have hs := headOf_succ leads a _ (List.getElem?_eq_getElem a.2)
    have hw : headOf leads (finRotate leads.length a) = headOf leads (a + 1) := by
      rw [val_finRotate]
      split
      · rfl
      · have e : a.val + 1 = leads.length := by have := a.isLt; omega
        rw [e, headOf, headOf, List.take_length, hone]
        rfl
    simp only [hw, hs]
    rcases hxy _ (List.getElem_mem a.2) with e | e
    · left; rw [e]
    · right; rw [e]
  · intro a
    obtain ⟨b, hb, e⟩ := hcl a a.2
    exact ⟨⟨b, hb⟩, e⟩

/-! ## Grandsire -/

/-- The changes of a lead of Grandsire with a bob: thirds place is made again, two changes from the end. -/
def grandsireBobChanges (n : Nat) (hn : 2 ≤ n) : List (Perm (Fin n)) :=
  (grandsireChanges n hn).take (2 * n - 2) ++ [thirdsChange n hn, huntChange n 1]

theorem length_grandsireChanges (hn : 2 ≤ n) : (grandsireChanges n hn).length = 2 * n := by
  simp [grandsireChanges]; omega

theorem length_grandsireBobChanges (hn : 2 ≤ n) : (grandsireBobChanges n hn).length = 2 * n := by
  simp [grandsireBobChanges, length_grandsireChanges]; omega

theorem drop_grandsire (hn : 2 ≤ n) : (grandsireChanges n hn).drop (2 * n - 2) = [huntChange n 0, huntChange n 1] := by
  apply List.ext_getElem
  · simp [length_grandsireChanges]; omega
  · intro i h1 h2
    simp only [List.length_cons, List.length_nil] at h2
    obtain ⟨m, rfl⟩ : ∃ m, n = m + 2 := ⟨n - 2, by omega⟩
    have e : 2 * (m + 2) - 2 + i = (2 * m + 1 + i) + 1 := by omega
    simp only [List.getElem_drop, grandsireChanges, e, List.getElem_cons_succ, List.getElem_map, List.getElem_range]
    rw [huntChange_mod]
    interval_cases i
    · rw [show (2 * m + 1 + 0 + 1) % 2 = 0 by omega]; rfl
    · rw [show (2 * m + 1 + 1 + 1) % 2 = 1 by omega]; rfl

theorem prod_grandsire (hn : 2 ≤ n) : (grandsireChanges n hn).prod = grandsireHead n hn := by
  have := take_grandsire hn (2 * n) (le_refl _)
  rwa [List.take_of_length_le (by rw [length_grandsireChanges]), grandsireRow_last] at this

theorem prod_grandsireBob (hn : 2 ≤ n) : (grandsireBobChanges n hn).prod =
    grandsireHead n hn * (huntChange n 1 * (grandsireHead n hn)⁻¹ * (huntChange n 1)⁻¹) := by
  have h0 : (grandsireChanges n hn).prod = ((grandsireChanges n hn).take (2 * n - 2)).prod * (huntChange n 0 * huntChange n 1) := by
    conv_lhs => rw [← List.take_append_drop (2 * n - 2) (grandsireChanges n hn), List.prod_append, drop_grandsire]
    simp
  rw [prod_grandsire] at h0
  rw [grandsireBobChanges, List.prod_append, eq_mul_inv_of_mul_eq h0.symm]
  have hX : (huntChange n 0)⁻¹ = huntChange n 0 := rfl
  have hY : (huntChange n 1)⁻¹ = huntChange n 1 := rfl
  have hT : (thirdsChange n hn)⁻¹ = thirdsChange n hn := rfl
  simp only [List.prod_cons, List.prod_nil, mul_one, grandsireHead, mul_inv_rev, hX, hY, hT, mul_assoc]

theorem order_grandsireBob (hn : 4 ≤ n) :
    orderOf ((grandsireChanges n (by omega)).prod⁻¹ * (grandsireBobChanges n (by omega)).prod) = n - 2 := by
  rw [prod_grandsire, prod_grandsireBob, inv_mul_cancel_left]
  rw [← orderOf_grandsireHead hn, ← orderOf_inv (grandsireHead n _)]
  exact (SemiconjBy.orderOf_eq (huntChange n 1) (by rw [SemiconjBy]; group)).symm

/-- The sign of every change of Grandsire on an odd stage. -/
theorem sign_one_place (hn : 0 < n) (τ : Perm (Fin n)) (hc : IsChange τ) (p : Nat) (hp : p < n)
    (h : ∀ x : Fin n, τ x = x ↔ x.val = p) (hodd : n % 2 = 1) : Perm.sign τ = (-1) ^ (n / 2) := by
  rw [sign_swapsPairs hn hc (k := n / 2)]
  rw [ofChange_places τ [p] (by simp) (by simpa using hp) (by simpa using h)]
  unfold PlaceNot.SwapsPairs
  simp only [List.length_singleton]
  omega

theorem sign_thirds (h5 : 5 ≤ n) (hodd : n % 2 = 1) : Perm.sign (thirdsChange n (by omega)) = (-1) ^ (n / 2) := by
  refine sign_one_place (by omega) _ (thirdsChange_isChange _) 2 (by omega) ?_ hodd
  intro x
  have := x.isLt
  rw [Fin.ext_iff, thirdsChange_val]
  unfold thirdsFn huntFn
  repeat' split
  all_goals omega

theorem sign_hunt_odd (h5 : 5 ≤ n) (hodd : n % 2 = 1) (k : Nat) : Perm.sign (huntChange n k) = (-1) ^ (n / 2) := by
  refine sign_one_place (by omega) _ (huntChange_isChange _) (if k % 2 = 0 then n - 1 else 0) (by split <;> omega) ?_ hodd
  intro x
  have := x.isLt
  rw [Fin.ext_iff, huntChange_val]
  unfold huntFn
  repeat' split
  all_goals omega

theorem sign_grandsire (h5 : 5 ≤ n) (hodd : n % 2 = 1) :
    ∀ τ ∈ grandsireChanges n (by omega) ++ grandsireBobChanges n (by omega), Perm.sign τ = (-1) ^ (n / 2) := by
  have h1 : ∀ τ ∈ grandsireChanges n (by omega), Perm.sign τ = (-1) ^ (n / 2) := by
    intro τ hτ
    rcases List.mem_cons.1 hτ with rfl | hτ
    · exact sign_thirds h5 hodd
    · obtain ⟨i, -, rfl⟩ := List.mem_map.1 hτ
      exact sign_hunt_odd h5 hodd _
  intro τ hτ
  rcases List.mem_append.1 hτ with hτ | hτ
  · exact h1 τ hτ
  · rcases List.mem_append.1 hτ with hτ | hτ
    · exact h1 τ (List.mem_of_mem_take hτ)
    · simp only [List.mem_cons, List.not_mem_nil, or_false] at hτ
      rcases hτ with rfl | rfl
      · exact sign_thirds h5 hodd
      · exact sign_hunt_odd h5 hodd _

theorem sign_prod_pow (ε : ℤˣ) : ∀ l : List (Perm (Fin n)), (∀ τ ∈ l, Perm.sign τ = ε) → Perm.sign l.prod = ε ^ l.length
  | [], _ => by simp
  | τ :: l, h => by
    rw [List.prod_cons, Perm.sign_mul, h τ (by simp), sign_prod_pow ε l (fun σ hσ => h σ (by simp [hσ])),
      List.length_cons, pow_succ']

/-- The treble in the even rows of a lead, with or without bob. -/
theorem treble_grandsire (h5 : 5 ≤ n) (hn : 0 < n) (t : Nat) (ht : t < 2 * n) (he : t % 2 = 0) (cs : List (Perm (Fin n)))
    (hcs : cs = grandsireChanges n (by omega) ∨ cs = grandsireBobChanges n (by omega))
    (h0 : (cs.take t).prod ⟨0, hn⟩ = ⟨0, hn⟩) : t = 0 := by
  have h1 : (cs.take t).prod = grandsireRow n (by omega) t := by
    rcases hcs with rfl | rfl
    · exact take_grandsire _ _ (by omega)
    · rw [grandsireBobChanges, List.take_append_of_le_length
        (by rw [List.length_take, length_grandsireChanges]; omega), List.take_take, min_eq_left (by omega)]
      exact take_grandsire _ _ (by omega)
  rw [h1, grandsireRow] at h0
  by_contra hne
  rw [if_neg hne] at h0
  have h2 : grandsireHead n (by omega) ⟨0, hn⟩ = ⟨0, hn⟩ := by
    apply Fin.ext
    rw [grandsireHead, Perm.mul_apply, thirdsChange_val, huntChange_val]
    unfold thirdsFn huntFn
    repeat' split
    all_goals simp_all
    all_goals omega
  have h3 : (huntRow n t)⁻¹ ⟨0, hn⟩ = ⟨0, hn⟩ := by
    rw [Perm.inv_eq_iff_eq]
    rw [Perm.mul_apply] at h0
    exact ((grandsireHead n _).injective (h0.trans h2.symm)).symm
  have h4 := congrArg Fin.val h3
  rw [huntRow_inv_val] at h4
  simp only [huntPlace, wayPlace, show wayStart n 0 = 0 by simp [wayStart], Nat.zero_add, Nat.mod_eq_of_lt ht] at h4
  split at h4 <;> omega

theorem fix_grandsire (h5 : 5 ≤ n) (hn : 0 < n) (cs : List (Perm (Fin n)))
    (hcs : cs = grandsireChanges n (by omega) ∨ cs = grandsireBobChanges n (by omega)) :
    cs.prod ⟨0, hn⟩ = ⟨0, hn⟩ := by
  have h2 : grandsireHead n (by omega) ⟨0, hn⟩ = ⟨0, hn⟩ := by
    apply Fin.ext
    rw [grandsireHead, Perm.mul_apply, thirdsChange_val, huntChange_val]
    unfold thirdsFn huntFn
    repeat' split
    all_goals simp_all
    all_goals omega
  have h3 : huntChange n 1 ⟨0, hn⟩ = ⟨0, hn⟩ := by
    apply Fin.ext
    rw [huntChange_val]
    simp [huntFn]
  rcases hcs with rfl | rfl
  · rw [prod_grandsire, h2]
  · rw [prod_grandsireBob]
    simp only [Perm.mul_apply]
    rw [Perm.inv_eq_iff_eq.2 h3.symm, Perm.inv_eq_iff_eq.2 h2.symm, h3, h2]

/-- Rows of a touch of leads of the same length. -/
theorem take_leads (L : Nat) : ∀ (leads : List (List (Perm (Fin n)) × List A)), (∀ x ∈ leads, x.1.length = L) →
    ∀ b t x, leads[b]? = some x → t ≤ L →
      ((leads.flatMap (·.1)).take (b * L + t)).prod = headOf leads b * (x.1.take t).prod
  | [], _, b, t, x, h, _ => by simp at h
  | y :: leads, hL, 0, t, x, h, ht => by
    rw [List.getElem?_cons_zero, Option.some.injEq] at h
    subst h
    rw [Nat.zero_mul, Nat.zero_add, List.flatMap_cons, List.take_append_of_le_length (by rw [hL y (by simp)]; exact ht)]
    simp [headOf]
  | y :: leads, hL, b + 1, t, x, h, ht => by
    have ih := take_leads L leads (fun z hz => hL z (by simp [hz])) b t x (by simpa using h) ht
    rw [List.flatMap_cons, show (b + 1) * L + t = y.1.length + (b * L + t) by rw [hL y (by simp)]; ring,
      List.take_length_add_append, List.prod_append, ih, ← mul_assoc]
    congr 1

theorem factorial_four (h5 : 5 ≤ n) (k : Nat) (h : k * (2 * n) = n.factorial) : ¬ Odd k := by
  obtain ⟨m, rfl⟩ : ∃ m, n = m + 1 := ⟨n - 1, by omega⟩
  have h4 : 4 ∣ m.factorial := (show 4 ∣ Nat.factorial 4 by decide).trans (Nat.factorial_dvd_factorial (by omega))
  rw [Nat.factorial_succ] at h
  have : m.factorial = 2 * k := by
    have : (m + 1) * m.factorial = (m + 1) * (2 * k) := by rw [← h]; ring
    exact Nat.eq_of_mul_eq_mul_left (by omega) this
  rw [Nat.not_odd_iff_even, Nat.even_iff]
  omega

theorem grandsire_no_extent (h5 : 5 ≤ n) (hodd : n % 2 = 1) (leads : List (List (Perm (Fin n)) × List A))
    (x y : List (Perm (Fin n)) × List A) (hx : x.1 = grandsireChanges n (by omega))
    (hy : y.1 = grandsireBobChanges n (by omega)) (hx2 : x.2.length = 2 * n) (hy2 : y.2.length = 2 * n)
    (hxy : ∀ z ∈ leads, z = x ∨ z = y) (touch : AnnotBlock A)
    (ht : ringTouch ⟨n⟩ (leads.map fun x => .rung x.1 x.2) = .ok (touch, .ok ())) (hlen : touch.len = leads.length * (2 * n))
    (htrue : touch.IsTrue) (r : Row) (hr : touch.leftoverRow = .ok r) (hround : r.isRounds = true) :
    touch.len < n.factorial := by
  have hn : 0 < n := by omega
  have hx1 : x.1.length = 2 * n := by rw [hx, length_grandsireChanges]
  have hy1 : y.1.length = 2 * n := by rw [hy, length_grandsireBobChanges]
  have hL : ∀ z ∈ leads, z.1.length = 2 * n := by
    intro z hz
    rcases hxy z hz with rfl | rfl
    · exact hx1
    · exact hy1
  have hlens : ∀ z ∈ leads, z.1.length = z.2.length := by
    intro z hz
    rw [hL z hz]
    rcases hxy z hz with rfl | rfl
    · exact hx2.symm
    · exact hy2.symm
  have hcase : ∀ z ∈ leads, z.1 = grandsireChanges n (by omega) ∨ z.1 = grandsireBobChanges n (by omega) := by
    intro z hz
    rcases hxy z hz with rfl | rfl
    · exact .inl hx
    · exact .inr hy
  obtain ⟨t, g1, g2, -, -⟩ := C97_touch hn leads hlens
  have ht' := ht
  rw [g1] at ht'
  obtain rfl : t = touch := by cases ht'; rfl
  have hfl : (leads.flatMap (·.1)).length = leads.length * (2 * n) := by
    clear g1 g2 ht hlen htrue hr hcase hlens hxy
    induction leads with
    | nil => simp
    | cons z leads ih =>
      rw [List.flatMap_cons, List.length_append, hL z (by simp), ih (fun w hw => hL w (by simp [hw])), List.length_cons]
      ring
  have hfl2 : (leads.flatMap (·.2)).length = leads.length * (2 * n) := by
    rw [← hlen, g2]
    rfl
  have hw : t.WellFormed := by
    rw [g2]
    exact AnnotBlock.ofPerms_wellFormed hn (by simp [hfl, hfl2])
  have hst : t.stage.numBells = n := by
    rw [g2]
    rfl
  obtain ⟨hle, hall⟩ := C99_extent t hw htrue
  rw [hst] at hle hall
  refine lt_of_le_of_ne hle fun hext => ?_
  have hall := hall.1 hext
  have hrow : ∀ σ : Perm (Fin n), ∃ i < leads.length * (2 * n), ((leads.flatMap (·.1)).take i).prod = σ := by
    intro σ
    obtain ⟨i, hi⟩ := hall (.ofPerm σ) (Row.ofPerm_valid hn σ) (by simp)
    rw [g2, AnnotBlock.rung, rings_iff hn _ _ _ (by simp [hfl, hfl2])] at hi
    obtain ⟨ρ, h1, h2⟩ := hi
    rw [Row.ofPerm_inj] at h2
    subst h2
    obtain ⟨hi, h1⟩ := List.getElem?_eq_some_iff.1 h1
    simp only [List.length_map, List.length_range, hfl] at hi
    refine ⟨i, hi, ?_⟩
    simpa using h1
  have hsign : ∀ τ ∈ leads.flatMap (·.1), Perm.sign τ = (-1) ^ (n / 2) := by
    intro τ hτ
    obtain ⟨z, hz, hτ⟩ := List.mem_flatMap.1 hτ
    refine sign_grandsire h5 hodd τ ?_
    rcases hcase z hz with e | e
    · exact List.mem_append_left _ (e ▸ hτ)
    · exact List.mem_append_right _ (e ▸ hτ)
  have hsrow : ∀ i < leads.length * (2 * n), Perm.sign ((leads.flatMap (·.1)).take i).prod = ((-1) ^ (n / 2)) ^ i := by
    intro i hi
    rw [sign_prod_pow ((-1) ^ (n / 2)) _ (fun τ hτ => hsign τ (List.mem_of_mem_take hτ)), List.length_take, hfl,
      min_eq_left hi.le]
  have hodd2 : Odd (n / 2) := by
    by_contra hev
    rw [Nat.not_odd_iff_even] at hev
    obtain ⟨i, hi, e⟩ := hrow (swap ⟨0, hn⟩ ⟨1, by omega⟩)
    have h1 := hsrow i hi
    rw [e, Perm.sign_swap (by simp), hev.neg_one_pow, one_pow] at h1
    exact absurd h1 (by decide)
  have hne : leads ≠ [] := by
    rintro rfl
    rw [List.length_nil, Nat.zero_mul] at hlen
    have := Nat.factorial_pos n
    omega
  have hk := C106_two_leads hn x y (by rw [hx1, hx2]) (by rw [hy1, hy2]) (by intro e; rw [e] at hx1; simp at hx1; omega)
    (by intro e; rw [e] at hy1; simp at hy1; omega)
    (by rw [hx, prod_grandsire, orderOf_grandsireHead (by omega), Nat.odd_iff]; omega)
    (by rw [hx, hy, order_grandsireBob (by omega), Nat.odd_iff]; omega) leads hne hxy t ht htrue r hr hround ?_
  · exact factorial_four h5 _ (by rw [← hlen]; exact hext) hk
  · intro a ha
    have hfix : ∀ a, headOf leads a ⟨0, hn⟩ = ⟨0, hn⟩ := by
      intro a
      unfold headOf
      refine Nat.rec (motive := fun a => ((leads.take a).map (·.1.prod)).prod ⟨0, hn⟩ = ⟨0, hn⟩) ?_ ?_ a
      · simp
      · intro a ih
        rcases Nat.lt_or_ge a leads.length with h | h
        · have := headOf_succ leads a _ (List.getElem?_eq_getElem h)
          unfold headOf at this
          rw [this, Perm.mul_apply, fix_grandsire h5 hn _ (hcase _ (List.getElem_mem h)), ih]
        · rwa [List.take_of_length_le (by omega), ← List.take_of_length_le h]
    have hhs : ∀ a < leads.length, Perm.sign (headOf leads a) = 1 := by
      intro a ha
      have h1 := take_leads (2 * n) leads hL a 0 _ (List.getElem?_eq_getElem ha) (by omega)
      rw [List.take_zero, List.prod_nil, mul_one, Nat.add_zero] at h1
      rw [← h1, hsrow _ (Nat.mul_lt_mul_of_pos_right ha (by omega)), show a * (2 * n) = 2 * (a * n) by ring,
        pow_mul _ 2, ← pow_mul (-1) _ 2, Nat.mul_comm (n / 2) 2, pow_mul (-1) 2]
      simp
    have hps : Perm.sign x.1.prod = 1 := by
      rw [hx, sign_prod_pow ((-1) ^ (n / 2)) _ (fun τ hτ => sign_grandsire h5 hodd τ (List.mem_append_left _ hτ)),
        length_grandsireChanges, pow_mul _ 2, ← pow_mul (-1) _ 2, Nat.mul_comm (n / 2) 2, pow_mul (-1) 2]
      simp
    obtain ⟨i, hi, e⟩ := hrow (headOf leads a * x.1.prod)
    have h1 := hsrow i hi
    rw [e, Perm.sign_mul, hhs a ha, hps, hodd2.neg_one_pow, mul_one] at h1
    have hi2 : i % 2 = 0 := by
      by_contra h2
      rw [Odd.neg_one_pow (Nat.odd_iff.2 (by omega))] at h1
      exact absurd h1 (by decide)
    have hb : i / (2 * n) < leads.length := Nat.div_lt_of_lt_mul (by rwa [Nat.mul_comm])
    have hdm : i / (2 * n) * (2 * n) + i % (2 * n) = i := by rw [Nat.mul_comm]; exact Nat.div_add_mod i (2 * n)
    have hmod := Nat.mod_lt i (show 0 < 2 * n by omega)
    have h2 := take_leads (2 * n) leads hL (i / (2 * n)) (i % (2 * n)) _ (List.getElem?_eq_getElem hb) hmod.le
    rw [hdm, e] at h2
    have h3 := treble_grandsire h5 hn (i % (2 * n)) hmod (by rw [Nat.mod_mul_right_mod]; exact hi2) _
      (hcase _ (List.getElem_mem hb)) (by
        have h4 := congrArg (· ⟨0, hn⟩) h2
        simp only [Perm.mul_apply] at h4
        rw [fix_grandsire h5 hn _ (.inl hx), hfix] at h4
        exact ((headOf leads (i / (2 * n))).injective ((hfix _).trans h4)).symm)
    refine ⟨i / (2 * n), hb, ?_⟩
    rw [h3, List.take_zero, List.prod_nil, mul_one] at h2
    exact h2.symm

/-- Extents of Grandsire.  On an odd number of bells, take the lead that the library makes from the place notation of
Grandsire and the same lead with the usual bob, and join such leads in any order.  If the touch comes round and no row
comes twice, then it is not an extent: there are rows that it does not have. -/
theorem C106_grandsire (name : String) (h5 : 5 ≤ n) (h22 : n ≤ 22) (hodd : n % 2 = 1) :
    ∃ m bobPn bob bobbed, (Method.fromPlaceNotString name ⟨n⟩ (grandsireText n)).Returns (.ok m) ∧
      PnBlock.parse "3.1".toList ⟨n⟩ = .ok (.ok bobPn) ∧ Call.leBob bobPn = .ok bob ∧
      spliceCall m.firstLead (bob.block.mapAnnots fun _ => none) (m.leadLen - bob.coverLen) bob.coverLen =
        .ok (some (bobbed, .ok ())) ∧
      ∀ leads, (∀ x ∈ leads, x ∈ [m.firstLead, bobbed]) →
        ∃ touch, ringTouch ⟨n⟩ leads = .ok (touch, .ok ()) ∧ touch.len = leads.length * (2 * n) ∧
          ∀ r, touch.IsTrue → touch.leftoverRow = .ok r → r.isRounds = true → touch.len < n.factorial := by
  have hn : 0 < n := by omega
  have hc : ∀ τ ∈ grandsireChanges n (by omega), IsChange τ := by
    intro τ hτ
    rcases List.mem_cons.1 hτ with rfl | hτ
    · exact thirdsChange_isChange _
    · obtain ⟨i, -, rfl⟩ := List.mem_map.1 hτ; exact huntChange_isChange _
  have hu : ∀ τ ∈ [thirdsChange n (by omega), huntChange n 1], IsChange τ := by
    simp only [List.mem_cons, List.not_mem_nil, or_false]
    rintro τ (rfl | rfl)
    · exact thirdsChange_isChange _
    · exact huntChange_isChange _
  obtain ⟨m, h1, h2, -⟩ := fromPlaceNotString_of_parse hn h22 name
    (grandsireText n) _ _ _ (by simp [grandsireChanges]) hc
    (parse_grandsire h5 (by omega)) (follows_grandsire (by omega))
  have hl : (grandsireLead n (by omega)).length = 2 * n := by simp [grandsireLead]
  rw [rung_of_follows (follows_grandsire (by omega)), hl] at h2
  have hp := C34_separated ⟨n⟩ (by simp only; omega)
    [PlaceNot.ofChange (thirdsChange n (by omega)), PlaceNot.ofChange (huntChange n 1)] (by simp) (by
      simp only [List.mem_cons, List.not_mem_nil, or_false]
      rintro pn (rfl | rfl)
      · exact ⟨⟨n, hn, _, thirdsChange_isChange _, rfl⟩, rfl⟩
      · exact ⟨⟨n, hn, _, huntChange_isChange _, rfl⟩, rfl⟩) '.' (.inr rfl)
  have htext : (([PlaceNot.ofChange (thirdsChange n (by omega)), PlaceNot.ofChange (huntChange n 1)].map
      PlaceNot.display).intersperse ['.']).flatten = "3.1".toList := by
    simp only [List.map_cons, List.map_nil, display_thirds h5 (show n ≤ 33 by omega),
      display_hunt (show 2 ≤ n by omega) (show n ≤ 33 by omega), huntTexts, if_neg (show ¬ n % 2 = 0 by omega)]
    rfl
  rw [htext] at hp
  have hbob : Call.leBob ⟨[thirdsChange n (by omega), huntChange n 1].map PlaceNot.ofChange⟩ =
      .ok (Call.new Call.notationBob labelLeadEnd 2 (.rung [thirdsChange n (by omega), huntChange n 1] [(), ()])) := by
    unfold Call.leBob
    rw [C97_rung () hn _ (by simp) hu]
    rfl
  have hll : m.leadLen = 2 * n := by
    unfold Method.leadLen
    rw [h2]
    simp [AnnotBlock.len, AnnotBlock.rung, AnnotBlock.ofPerms]
  have hs := (C97_splice hn (grandsireChanges n (by omega)) [thirdsChange n (by omega), huntChange n 1]
    (List.replicate (2 * n) none) [(none : Option String), none] (by rw [length_grandsireChanges]; simp) rfl
    (2 * n - 2) 2).1 (by rw [length_grandsireChanges]; omega)
  rw [List.drop_eq_nil_of_le (by rw [length_grandsireChanges]; omega), List.append_nil,
    List.drop_eq_nil_of_le (by simp; omega), List.append_nil] at hs
  refine ⟨m, _, _, .rung (grandsireBobChanges n (by omega)) (List.replicate (2 * n - 2) none ++ [none, none]), h1, hp,
    hbob, ?_, ?_⟩
  · rw [h2, hll]
    refine hs.trans ?_
    rw [List.take_replicate, min_eq_left (by omega)]
    rfl
  · intro leads hleads
    rw [h2] at hleads
    obtain ⟨xs, rfl, hxs⟩ := exists_pairs
      (fun z : List (Perm (Fin n)) × List (Option String) => AnnotBlock.rung z.1 z.2)
      (fun z => z = (grandsireChanges n (by omega), List.replicate (2 * n) none) ∨
        z = (grandsireBobChanges n (by omega), List.replicate (2 * n - 2) none ++ [none, none])) leads (by
      intro y hy
      have := hleads y hy
      simp only [List.mem_cons, List.not_mem_nil, or_false] at this
      rcases this with rfl | rfl
      · exact ⟨_, .inl rfl, rfl⟩
      · exact ⟨_, .inr rfl, rfl⟩)
    have hL : ∀ z ∈ xs, z.1.length = 2 * n ∧ z.2.length = 2 * n := by
      intro z hz
      rcases hxs z hz with rfl | rfl
      · exact ⟨length_grandsireChanges _, by simp⟩
      · exact ⟨length_grandsireBobChanges _, by simp; omega⟩
    obtain ⟨touch, g1, -, g3, -⟩ := C97_touch hn xs (fun z hz => (hL z hz).1.trans (hL z hz).2.symm)
    have g3 : touch.len = xs.length * (2 * n) := by
      rw [g3, List.map_congr_left (g := fun _ => 2 * n) (fun z hz => (hL z hz).1)]
      simp
    refine ⟨touch, g1, by rw [g3, List.length_map], fun r htrue hr hround => ?_⟩
    exact grandsire_no_extent h5 hodd xs _ _ rfl rfl (by simp) (by simp; omega) hxs touch g1 g3 htrue r hr hround

/-- The plain course of Grandsire Doubles has an odd number of leads, as `C106_two_leads` says. -/
example : Odd (orderOf (grandsireChanges 5 (by omega)).prod) ∧
    Odd (orderOf ((grandsireChanges 5 (by omega)).prod⁻¹ * (grandsireBobChanges 5 (by omega)).prod)) ∧
    (beginnings (List.replicate 3 (grandsireChanges 5 (by omega))).flatten).Nodup ∧
    (List.replicate 3 (grandsireChanges 5 (by omega))).flatten.prod = 1 ∧
    ∀ a < 3, ∃ b < 3, (grandsireChanges 5 (by omega)).prod ^ b =
      (grandsireChanges 5 (by omega)).prod ^ a * (grandsireChanges 5 (by omega)).prod := by
  refine ⟨by rw [prod_grandsire, orderOf_grandsireHead (by omega)]; decide, by rw [order_grandsireBob (by omega)]; decide,
    ?_⟩
  decide +kernel

/-- A touch of Grandsire Doubles with three bobs: it is true, comes round and has half of all rows. -/
example : let P := grandsireChanges 5 (by omega); let B := grandsireBobChanges 5 (by omega)
    (beginnings [P, B, P, B, P, B].flatten).Nodup ∧ [P, B, P, B, P, B].flatten.prod = 1 ∧
    2 * [P, B, P, B, P, B].flatten.length = Nat.factorial 5 := by
  decide +kernel

end Bellframe.Props
