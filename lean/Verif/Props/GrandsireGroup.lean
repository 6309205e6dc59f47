import Verif.Props.CallGroup
import Verif.Props.GrandsireTouch

/-! # C111: the rows that can be reached by calling Grandsire -/

namespace Bellframe.Props

open Equiv

variable {n : Nat} {A : Type}

/-- The last change of the single of Grandsire. -/
def seconds3Fn (n x : Nat) : Nat := if x < 3 then x else huntFn n 1 x

theorem seconds3Fn_lt {x : Nat} (h : x < n) : seconds3Fn n x < n := by
  have := huntFn_lt (k := 1) h
  unfold seconds3Fn; split
  all_goals omega

theorem seconds3Fn_invol {x : Nat} (h : x < n) : seconds3Fn n (seconds3Fn n x) = x := by
  unfold seconds3Fn
  by_cases h3 : x < 3
  · rw [if_pos h3, if_pos h3]
  · rw [if_neg h3, if_neg (by have := @huntFn_one_ge n x (by omega); omega), huntFn_invol h]

def threePlaces (n : Nat) : Perm (Fin n) :=
  permOfInvol (seconds3Fn n) (fun _ h => seconds3Fn_lt h) (fun _ h => seconds3Fn_invol h)

theorem threePlaces_val (x : Fin n) : (threePlaces n x).val = seconds3Fn n x := rfl

theorem threePlaces_isChange : IsChange (threePlaces n) := by
  intro x
  simp only [threePlaces_val]
  unfold seconds3Fn huntFn; repeat' split
  all_goals omega

theorem threePlaces_eq (h5 : 5 ≤ n) :
    threePlaces n = huntChange n 1 * swap ⟨1, by omega⟩ ⟨2, by omega⟩ := by
  ext x
  rw [threePlaces_val, Perm.mul_apply, huntChange_val, swap_apply_def]
  simp only [Fin.ext_iff]
  unfold seconds3Fn
  by_cases h : x.val < 3
  · rw [if_pos h]
    have : x.val = 0 ∨ x.val = 1 ∨ x.val = 2 := by omega
    rcases this with h | h | h <;> simp [h, huntFn] <;> omega
  · rw [if_neg h, if_neg (by omega), if_neg (by omega)]

theorem display_threePlaces (h5 : 5 ≤ n) (h33 : n ≤ 33) :
    (PlaceNot.ofChange (threePlaces n)).display =
      if n % 2 = 0 then ['1', '2', '3', lastBellChar n] else ['1', '2', '3'] := by
  have hx : ∀ x : Fin n, threePlaces n x = x ↔ seconds3Fn n x = x.val := fun x => Fin.ext_iff
  have hfix : ∀ x : Fin n, threePlaces n x = x ↔ x.val < 3 ∨ (x.val = n - 1 ∧ n % 2 = 0) := by
    intro x
    rw [hx]
    have := x.isLt
    unfold seconds3Fn huntFn
    repeat' split
    all_goals omega
  rcases Nat.mod_two_eq_zero_or_one n with hn | hn
  · rw [if_pos hn, ofChange_places _ [0, 1, 2, n - 1] (by simp; omega) (by simp; omega)]
    · rw [display_places _ (by simp) (by simp; omega)]
      simp only [List.map_cons, List.map_nil, show n - 1 + 1 = n by omega]
      rfl
    · intro x; rw [hfix]; simp; omega
  · rw [if_neg (by omega), ofChange_places _ [0, 1, 2] (by simp) (by simp; omega)]
    · rw [display_places _ (by simp) (by simp)]; rfl
    · intro x; rw [hfix]; simp; omega

/-- The exchange of the second and the third place. -/
def swap12Fn (x : Nat) : Nat := if x = 1 then 2 else if x = 2 then 1 else x

theorem swap12_val (h5 : 5 ≤ n) (x : Fin n) :
    (swap (⟨1, by omega⟩ : Fin n) ⟨2, by omega⟩ x).val = swap12Fn x := by
  rw [swap_apply_def]
  simp only [Fin.ext_iff, apply_ite Fin.val, swap12Fn]

theorem turned_fn (h5 : 5 ≤ n) {x : Nat} (hx : x < n) :
    huntFn n 1 (huntFn n 0 (thirdsFn n (huntFn n 1 x))) = swap12Fn (thirdsFn n (huntFn n 0 (swap12Fn x))) := by
  have ones : huntFn n 1 1 = 2 := by unfold huntFn; simp; omega
  have zero1 : huntFn n 0 1 = 0 := rfl
  have zero0 : huntFn n 0 0 = 1 := by unfold huntFn; simp; omega
  have zero2 : huntFn n 0 2 = 3 := by unfold huntFn; simp; omega
  have one3 : huntFn n 1 3 = 4 := by unfold huntFn; simp; omega
  have one2 : huntFn n 1 2 = 1 := rfl
  have one0 : huntFn n 1 0 = 0 := rfl
  have t0 : thirdsFn n 0 = 1 := rfl
  have t1 : thirdsFn n 1 = 0 := rfl
  have t2 : thirdsFn n 2 = 2 := rfl
  have t3 : thirdsFn n 3 = 4 := by rw [thirdsFn, if_neg (by omega), if_neg (by omega), one3]
  by_cases h3 : 3 ≤ x
  · have e1 := @huntFn_one_ge n x h3
    have e2 : thirdsFn n (huntFn n 1 x) = x := by
      rw [thirdsFn, if_neg (show ¬ huntFn n 1 x < 2 by omega), if_neg (show ¬ huntFn n 1 x = 2 by omega), huntFn_invol hx]
    have e0 : swap12Fn x = x := by rw [swap12Fn, if_neg (by omega), if_neg (by omega)]
    rw [e2, e0]
    by_cases h3' : x = 3
    · rw [h3', show huntFn n 0 3 = 2 from rfl, one2, t2]; rfl
    · have e3 : 3 ≤ huntFn n 0 x := by
        unfold huntFn; repeat' split
        all_goals omega
      have e4 := @huntFn_one_ge n (huntFn n 0 x) e3
      rw [thirdsFn, if_neg (show ¬ huntFn n 0 x < 2 by omega), if_neg (show ¬ huntFn n 0 x = 2 by omega), swap12Fn,
        if_neg (by omega), if_neg (by omega)]
  · have : x = 0 ∨ x = 1 ∨ x = 2 := by omega
    rcases this with h | h | h <;> rw [h]
    · rw [one0, t0, zero1, one0, show swap12Fn 0 = 0 from rfl, zero0, t1]; rfl
    · rw [ones, t2, zero2, one3, show swap12Fn 1 = 2 from rfl, zero2, t3]; rfl
    · rw [one2, t1, zero0, ones, show swap12Fn 2 = 1 from rfl, zero1, t0]; rfl

/-- The lead head of Grandsire backwards, with the places one step further, is the lead head with the second and
third place exchanged. -/
theorem grandsireHead_turned (h5 : 5 ≤ n) :
    huntChange n 1 * (grandsireHead n (by omega))⁻¹ * (huntChange n 1)⁻¹ =
      swap ⟨1, by omega⟩ ⟨2, by omega⟩ * grandsireHead n (by omega) * swap ⟨1, by omega⟩ ⟨2, by omega⟩ := by
  ext x
  rw [grandsireHead, mul_inv_rev]
  simp only [Perm.mul_apply, huntChange_val, huntChange_inv_val, thirdsChange_val, thirdsChange_inv_val, swap12_val h5]
  exact turned_fn h5 x.isLt

/-- The lead head of Grandsire takes each working bell to every place but the first two. -/
theorem grandsireHead_reach (h5 : 5 ≤ n) (a b : Fin n) (ha : 2 ≤ a.val) (hb : 2 ≤ b.val) :
    ∃ i < n - 2, (grandsireHead n (by omega) ^ i) a = b := by
  have e1 := a.isLt
  have e2 := b.isLt
  obtain ⟨j, hj⟩ := huntPlace_reach (n := n - 2) (a := b.val - 2) (b := a.val - 2) (by omega) (by omega)
  have h1 : (grandsireHead n (by omega) ^ ((n - 3) * j))⁻¹ b = a := by
    apply Fin.ext
    rw [grandsireHead_pow_inv_val (by omega)]
    unfold grandsireHeadPlace
    rw [if_neg (by omega), show n - 3 = n - 2 - 1 by omega, huntPlace_back_back (by omega), hj]
    omega
  refine ⟨(n - 3) * j % (n - 2), Nat.mod_lt _ (by omega), ?_⟩
  have := pow_mod_orderOf (grandsireHead n (by omega)) ((n - 3) * j)
  rw [orderOf_grandsireHead (by omega)] at this
  rw [this]
  exact (Perm.inv_eq_iff_eq.1 h1).symm

theorem grandsireHead_isCycle (h5 : 5 ≤ n) : (grandsireHead n (by omega)).IsCycle := by
  refine ⟨⟨2, by omega⟩, ?_, ?_⟩
  · intro h
    have := (grandsireHead_pow_fixes (n := n) (by omega) 1 ⟨2, by omega⟩ (by simp)).1 (by rwa [pow_one])
    have := Nat.le_of_dvd (by omega) this
    omega
  · intro y hy
    have hy0 : 2 ≤ y.val := by
      by_contra h
      exact hy (grandsireHead_fixes_hunts (by omega) y (by omega))
    obtain ⟨i, -, hi⟩ := grandsireHead_reach h5 ⟨2, by omega⟩ y (by simp) hy0
    exact ⟨i, by simpa using hi⟩

theorem sign_grandsireHead (h5 : 5 ≤ n) : Perm.sign (grandsireHead n (by omega)) = (-1) ^ (n - 1) := by
  have h := grandsireHead_isCycle h5
  rw [h.sign, ← h.orderOf, orderOf_grandsireHead (by omega), neg_eq_neg_one_mul, ← pow_succ',
    show n - 2 + 1 = n - 1 by omega]

/-- The changes of a lead of Grandsire with a single. -/
def grandsireSingleChanges (n : Nat) (hn : 2 ≤ n) : List (Perm (Fin n)) :=
  (grandsireChanges n hn).take (2 * n - 2) ++ [thirdsChange n hn, threePlaces n]

theorem length_grandsireSingleChanges (hn : 2 ≤ n) : (grandsireSingleChanges n hn).length = 2 * n := by
  simp [grandsireSingleChanges, length_grandsireChanges]; omega

theorem prod_bobbed (h5 : 5 ≤ n) : (grandsireBobChanges n (by omega)).prod = grandsireHead n (by omega) *
    (swap ⟨1, by omega⟩ ⟨2, by omega⟩ * grandsireHead n (by omega) * swap ⟨1, by omega⟩ ⟨2, by omega⟩) := by
  rw [prod_grandsireBob, grandsireHead_turned h5]

theorem prod_singled (h5 : 5 ≤ n) : (grandsireSingleChanges n (by omega)).prod =
    (grandsireBobChanges n (by omega)).prod * swap ⟨1, by omega⟩ ⟨2, by omega⟩ := by
  rw [grandsireSingleChanges, grandsireBobChanges, List.prod_append, List.prod_append, threePlaces_eq h5]
  simp [mul_assoc]

theorem grandsire_even_mem (h5 : 5 ≤ n) (H : Subgroup (Perm (Fin n))) (h1 : (grandsireChanges n (by omega)).prod ∈ H)
    (h2 : (grandsireBobChanges n (by omega)).prod ∈ H) (σ : Perm (Fin n)) (hσ : σ ⟨0, by omega⟩ = ⟨0, by omega⟩)
    (hs : Perm.sign σ = 1) : σ ∈ H := by
  rw [prod_grandsire] at h1
  rw [prod_bobbed h5] at h2
  have f1 : grandsireHead n (by omega) ⟨1, by omega⟩ = ⟨1, by omega⟩ := grandsireHead_fixes_hunts (by omega) _ (by simp)
  have h3 := H.mul_mem (H.inv_mem (H.mul_mem h1 h1)) h2
  have e : (grandsireHead n (by omega) * grandsireHead n (by omega))⁻¹ * (grandsireHead n (by omega) *
      (swap (⟨1, by omega⟩ : Fin n) ⟨2, by omega⟩ * grandsireHead n (by omega) * swap ⟨1, by omega⟩ ⟨2, by omega⟩)) =
      swap ⟨1, by omega⟩ ((grandsireHead n (by omega))⁻¹ ⟨2, by omega⟩) * swap ⟨1, by omega⟩ ⟨2, by omega⟩ := by
    have h := swap_apply_apply (grandsireHead n (by omega))⁻¹ ⟨1, by omega⟩ ⟨2, by omega⟩
    rw [Perm.inv_eq_iff_eq.2 f1.symm, inv_inv] at h
    rw [h]
    group
  rw [e] at h3
  have g2 : 2 ≤ ((grandsireHead n (by omega))⁻¹ ⟨2, by omega⟩ : Fin n).val := by
    rw [grandsireHead_inv_val (by omega), grandsireHeadPlace, if_neg (by simp)]
    omega
  refine even_mem_of_fixed H (grandsireHead n (by omega)) h1
    (fun i => (grandsireHead n (by omega) ^ i) ((grandsireHead n (by omega))⁻¹ ⟨2, by omega⟩))
    (fun i => by rw [pow_succ', Perm.mul_apply]) ⟨1, by omega⟩ f1 (n - 2) ⟨0, by omega⟩ ?_ ?_ σ hσ hs
  · intro x hx hx1
    refine grandsireHead_reach h5 _ x g2 ?_
    by_contra hlt
    have : x.val = 0 ∨ x.val = 1 := by omega
    rcases this with h | h
    · exact hx (Fin.ext h)
    · exact hx1 (Fin.ext h)
  · simpa using h3

theorem sign_bobbed (h5 : 5 ≤ n) : Perm.sign (grandsireBobChanges n (by omega)).prod = 1 := by
  rw [prod_bobbed h5, Perm.sign_mul, Perm.sign_mul, Perm.sign_mul, Perm.sign_swap (by simp)]
  rcases Int.units_eq_one_or (Perm.sign (grandsireHead n (by omega))) with h | h <;> rw [h] <;> rfl

theorem fix_singled (h5 : 5 ≤ n) (hn : 0 < n) : (grandsireSingleChanges n (by omega)).prod ⟨0, hn⟩ = ⟨0, hn⟩ := by
  rw [prod_singled h5, Perm.mul_apply, swap_apply_of_ne_of_ne (by simp) (by simp), fix_grandsire h5 hn _ (.inr rfl)]

/-- The group of the plain and the bobbed lead head of Grandsire. -/
theorem grandsire_bobs_group (h5 : 5 ≤ n) (σ : Perm (Fin n)) :
    σ ∈ Subgroup.closure {g | g ∈ [grandsireChanges n (by omega), grandsireBobChanges n (by omega)].map List.prod} ↔
      σ ⟨0, by omega⟩ = ⟨0, by omega⟩ ∧ (n % 2 = 1 → Perm.sign σ = 1) := by
  have hn : 0 < n := by omega
  have m1 : (grandsireChanges n (by omega)).prod ∈
      Subgroup.closure {g | g ∈ [grandsireChanges n (by omega), grandsireBobChanges n (by omega)].map List.prod} :=
    Subgroup.subset_closure (by simp)
  have m2 : (grandsireBobChanges n (by omega)).prod ∈
      Subgroup.closure {g | g ∈ [grandsireChanges n (by omega), grandsireBobChanges n (by omega)].map List.prod} :=
    Subgroup.subset_closure (by simp)
  constructor
  · intro h
    induction h using Subgroup.closure_induction with
    | mem x hx =>
      have hx : x = (grandsireChanges n (by omega)).prod ∨ x = (grandsireBobChanges n (by omega)).prod := by
        simpa using hx
      rcases hx with rfl | rfl
      · refine ⟨fix_grandsire h5 hn _ (.inl rfl), fun he => ?_⟩
        rw [prod_grandsire, sign_grandsireHead h5, (Nat.even_iff.2 (by omega)).neg_one_pow]
      · exact ⟨fix_grandsire h5 hn _ (.inr rfl), fun _ => sign_bobbed h5⟩
    | one => simp
    | mul x y _ _ hx hy =>
      exact ⟨by rw [Perm.mul_apply, hy.1, hx.1], fun he => by rw [Perm.sign_mul, hx.2 he, hy.2 he, one_mul]⟩
    | inv x _ hx =>
      exact ⟨by rw [Perm.inv_eq_iff_eq, hx.1], fun he => by rw [Perm.sign_inv, hx.2 he]⟩
  · rintro ⟨h0, hs⟩
    rcases Nat.mod_two_eq_zero_or_one n with he | ho
    · exact all_mem _ ⟨0, hn⟩ (grandsire_even_mem h5 _ m1 m2) _ m1 (fix_grandsire h5 hn _ (.inl rfl))
        (by rw [prod_grandsire, sign_grandsireHead h5, (Nat.odd_iff.2 (by omega)).neg_one_pow]) σ h0
    · exact grandsire_even_mem h5 _ m1 m2 σ h0 (hs ho)

/-- The group of the plain, the bobbed and the singled lead head of Grandsire. -/
theorem grandsire_calls_group (h5 : 5 ≤ n) (σ : Perm (Fin n)) :
    σ ∈ Subgroup.closure {g | g ∈ [grandsireChanges n (by omega), grandsireBobChanges n (by omega),
      grandsireSingleChanges n (by omega)].map List.prod} ↔ σ ⟨0, by omega⟩ = ⟨0, by omega⟩ := by
  have hn : 0 < n := by omega
  have mem : ∀ x ∈ [grandsireChanges n (by omega), grandsireBobChanges n (by omega),
      grandsireSingleChanges n (by omega)].map List.prod, x ∈
      Subgroup.closure {g | g ∈ [grandsireChanges n (by omega), grandsireBobChanges n (by omega),
      grandsireSingleChanges n (by omega)].map List.prod} :=
    fun x hx => Subgroup.subset_closure hx
  constructor
  · intro h
    induction h using Subgroup.closure_induction with
    | mem x hx =>
      have hx : x = (grandsireChanges n (by omega)).prod ∨ x = (grandsireBobChanges n (by omega)).prod ∨
        x = (grandsireSingleChanges n (by omega)).prod := by simpa using hx
      rcases hx with rfl | rfl | rfl
      · exact fix_grandsire h5 hn _ (.inl rfl)
      · exact fix_grandsire h5 hn _ (.inr rfl)
      · exact fix_singled h5 hn
    | one => simp
    | mul x y _ _ hx hy => rw [Perm.mul_apply, hy, hx]
    | inv x _ hx => rw [Perm.inv_eq_iff_eq, hx]
  · intro h0
    exact all_mem _ ⟨0, hn⟩ (grandsire_even_mem h5 _ (mem _ (by simp)) (mem _ (by simp))) _
      (mem (grandsireSingleChanges n (by omega)).prod (by simp)) (fix_singled h5 hn)
      (by rw [prod_singled h5, Perm.sign_mul, sign_bobbed h5, Perm.sign_swap (by simp), one_mul]) σ h0

/-- Parsing the notation of a call of two changes. -/
theorem parse_call_two (hn : 0 < n) (h33 : n ≤ 33) (a b : Perm (Fin n)) (ha : IsChange a) (hb : IsChange b) :
    PnBlock.parse ((PlaceNot.ofChange a).display ++ '.' :: (PlaceNot.ofChange b).display) ⟨n⟩ =
      .ok (.ok ⟨[a, b].map PlaceNot.ofChange⟩) := by
  have hp := C34_separated ⟨n⟩ h33 [PlaceNot.ofChange a, PlaceNot.ofChange b] (by simp) (by
      simp only [List.mem_cons, List.not_mem_nil, or_false]
      rintro pn (rfl | rfl)
      · exact ⟨⟨n, hn, _, ha, rfl⟩, rfl⟩
      · exact ⟨⟨n, hn, _, hb, rfl⟩, rfl⟩) '.' (.inr rfl)
  simpa using hp

theorem parse_grandsireBob (h5 : 5 ≤ n) (h33 : n ≤ 33) : PnBlock.parse (grandsireBobText n) ⟨n⟩ =
    .ok (.ok ⟨[thirdsChange n (by omega), huntChange n 1].map PlaceNot.ofChange⟩) := by
  rw [← parse_call_two (by omega) h33 _ _ (thirdsChange_isChange _) (huntChange_isChange _), display_thirds h5 h33,
    display_hunt (by omega) h33, if_neg (show ¬ 1 % 2 = 0 by omega), grandsireBobText, huntTexts]
  rcases Nat.mod_two_eq_zero_or_one n with he | ho
  · simp [he]
  · simp [ho]

theorem parse_grandsireSingle (h5 : 5 ≤ n) (h33 : n ≤ 33) : PnBlock.parse (grandsireSingleText n) ⟨n⟩ =
    .ok (.ok ⟨[thirdsChange n (by omega), threePlaces n].map PlaceNot.ofChange⟩) := by
  rw [← parse_call_two (by omega) h33 _ _ (thirdsChange_isChange _) threePlaces_isChange, display_thirds h5 h33,
    display_threePlaces h5 h33, grandsireSingleText]
  rcases Nat.mod_two_eq_zero_or_one n with he | ho
  · simp [he]
  · simp [ho]

/-- The three leads of Grandsire. -/
theorem grandsire_leads (name : String) (h5 : 5 ≤ n) (h22 : n ≤ 22) :
    ∃ m bobPn singlePn bob single bobbed singled annots annots',
      (Method.fromPlaceNotString name ⟨n⟩ (grandsireText n)).Returns (.ok m) ∧
      PnBlock.parse (grandsireBobText n) ⟨n⟩ = .ok (.ok bobPn) ∧
      PnBlock.parse (grandsireSingleText n) ⟨n⟩ = .ok (.ok singlePn) ∧
      Call.leBob bobPn = .ok bob ∧ Call.leSingle singlePn = .ok single ∧
      spliceCall m.firstLead (bob.block.mapAnnots fun _ => none) (m.leadLen - bob.coverLen) bob.coverLen =
        .ok (some (bobbed, .ok ())) ∧
      spliceCall m.firstLead (single.block.mapAnnots fun _ => none) (m.leadLen - single.coverLen) single.coverLen =
        .ok (some (singled, .ok ())) ∧
      m.firstLead = .rung (grandsireChanges n (by omega)) annots ∧ annots.length = 2 * n ∧
      bobbed = .rung (grandsireBobChanges n (by omega)) annots' ∧
      singled = .rung (grandsireSingleChanges n (by omega)) annots' ∧ annots'.length = 2 * n := by
  have hn : 0 < n := by omega
  have hc : ∀ τ ∈ grandsireChanges n (by omega), IsChange τ := by
    intro τ hτ
    rcases List.mem_cons.1 hτ with rfl | hτ
    · exact thirdsChange_isChange _
    · obtain ⟨i, -, rfl⟩ := List.mem_map.1 hτ; exact huntChange_isChange _
  have hu : ∀ a : Perm (Fin n), IsChange a → ∀ τ ∈ [thirdsChange n (by omega), a], IsChange τ := by
    simp only [List.mem_cons, List.not_mem_nil, or_false]
    rintro a ha τ (rfl | rfl)
    · exact thirdsChange_isChange _
    · exact ha
  obtain ⟨m, h1, h2, -⟩ := fromPlaceNotString_of_parse hn h22 name
    (grandsireText n) _ _ _ (by simp [grandsireChanges]) hc
    (parse_grandsire h5 (by omega)) (follows_grandsire (by omega))
  have hl : (grandsireLead n (by omega)).length = 2 * n := by simp [grandsireLead]
  rw [rung_of_follows (follows_grandsire (by omega)), hl] at h2
  have hbob : Call.leBob ⟨[thirdsChange n (by omega), huntChange n 1].map PlaceNot.ofChange⟩ =
      .ok (Call.new Call.notationBob labelLeadEnd 2 (.rung [thirdsChange n (by omega), huntChange n 1] [(), ()])) := by
    unfold Call.leBob
    rw [C97_rung () hn _ (by simp) (hu _ (huntChange_isChange _))]
    rfl
  have hsingle : Call.leSingle ⟨[thirdsChange n (by omega), threePlaces n].map PlaceNot.ofChange⟩ =
      .ok (Call.new Call.notationSingle labelLeadEnd 2 (.rung [thirdsChange n (by omega), threePlaces n] [(), ()])) := by
    unfold Call.leSingle
    rw [C97_rung () hn _ (by simp) (hu _ threePlaces_isChange)]
    rfl
  have hll : m.leadLen = 2 * n := by
    unfold Method.leadLen
    rw [h2]
    simp [AnnotBlock.len, AnnotBlock.rung, AnnotBlock.ofPerms]
  have hs : ∀ a : Perm (Fin n), _ := fun a =>
    (C97_splice hn (grandsireChanges n (by omega)) [thirdsChange n (by omega), a]
    (List.replicate (2 * n) none) [(none : Option String), none] (by rw [length_grandsireChanges]; simp) rfl
    (2 * n - 2) 2).1 (by rw [length_grandsireChanges]; omega)
  rw [List.drop_eq_nil_of_le (by rw [length_grandsireChanges]; omega), List.drop_eq_nil_of_le (by simp; omega)] at hs
  simp only [List.append_nil, List.take_replicate, min_eq_left (show 2 * n - 2 ≤ 2 * n by omega)] at hs
  refine ⟨m, _, _, _, _, _, _, _, List.replicate (2 * n - 2) none ++ [none, none], h1, parse_grandsireBob h5 (by omega),
    parse_grandsireSingle h5 (by omega), hbob, hsingle, ?_, ?_, h2, by simp, rfl, rfl, by simp; omega⟩
  · rw [h2, hll]
    exact hs (huntChange n 1)
  · rw [h2, hll]
    exact hs (threePlaces n)

/-- Touches of Grandsire on every stage from five bells.  With bobs and singles a touch can end at every row in which
the treble leads, and at no other.  With bobs alone it is the same on an even number of bells; on an odd number it can
end at the even rows among them. -/
theorem C111_reached (name : String) (h5 : 5 ≤ n) (h22 : n ≤ 22) :
    ∃ m bobPn singlePn bob single bobbed singled,
      (Method.fromPlaceNotString name ⟨n⟩ (grandsireText n)).Returns (.ok m) ∧
      PnBlock.parse (grandsireBobText n) ⟨n⟩ = .ok (.ok bobPn) ∧
      PnBlock.parse (grandsireSingleText n) ⟨n⟩ = .ok (.ok singlePn) ∧
      Call.leBob bobPn = .ok bob ∧ Call.leSingle singlePn = .ok single ∧
      spliceCall m.firstLead (bob.block.mapAnnots fun _ => none) (m.leadLen - bob.coverLen) bob.coverLen =
        .ok (some (bobbed, .ok ())) ∧
      spliceCall m.firstLead (single.block.mapAnnots fun _ => none) (m.leadLen - single.coverLen) single.coverLen =
        .ok (some (singled, .ok ())) ∧
      (∀ r, (∃ leads touch, (∀ x ∈ leads, x ∈ [m.firstLead, bobbed, singled]) ∧
          ringTouch ⟨n⟩ leads = .ok (touch, .ok ()) ∧ touch.leftoverRow = .ok r) ↔
        r.Valid ∧ r.bells.length = n ∧ r.placeOf ⟨0⟩ = some 0) ∧
      (∀ r, (∃ leads touch, (∀ x ∈ leads, x ∈ [m.firstLead, bobbed]) ∧
          ringTouch ⟨n⟩ leads = .ok (touch, .ok ()) ∧ touch.leftoverRow = .ok r) ↔
        r.Valid ∧ r.bells.length = n ∧ r.placeOf ⟨0⟩ = some 0 ∧ (n % 2 = 1 → r.HasParity .even)) := by
  have hn : 0 < n := by omega
  obtain ⟨m, bobPn, singlePn, bob, single, bobbed, singled, an, an', h1, h2, h3, h4, h6, h7, h8, hm, hm', hb, hs, hs'⟩ :=
    grandsire_leads name h5 h22
  have l1 := length_grandsireChanges (n := n) (by omega)
  have l2 := length_grandsireBobChanges (n := n) (by omega)
  have l3 := length_grandsireSingleChanges (n := n) (by omega)
  refine ⟨m, bobPn, singlePn, bob, single, bobbed, singled, h1, h2, h3, h4, h6, h7, h8, ?_, ?_⟩
  · intro r
    rw [touch_ends_of hn [m.firstLead, bobbed, singled] [grandsireChanges n (by omega), grandsireBobChanges n (by omega),
      grandsireSingleChanges n (by omega)] (by
      intro y hy
      simp only [List.mem_cons, List.not_mem_nil, or_false] at hy
      rcases hy with rfl | rfl | rfl
      · exact ⟨(grandsireChanges n (by omega), an), ⟨by simp, by rw [hm', l1]⟩, hm⟩
      · exact ⟨(grandsireBobChanges n (by omega), an'), ⟨by simp, by rw [hs', l2]⟩, hb⟩
      · exact ⟨(grandsireSingleChanges n (by omega), an'), ⟨by simp, by rw [hs', l3]⟩, hs⟩) (by
      intro c hc
      simp only [List.mem_cons, List.not_mem_nil, or_false] at hc
      rcases hc with rfl | rfl | rfl
      · exact ⟨an, by rw [hm', l1], by simp [hm]⟩
      · exact ⟨an', by rw [hs', l2], by simp [hb]⟩
      · exact ⟨an', by rw [hs', l3], by simp [hs]⟩) r]
    constructor
    · rintro ⟨σ, hσ, rfl⟩
      exact ⟨Row.ofPerm_valid hn σ, by simp, (fixes_treble_iff hn σ).1 ((grandsire_calls_group h5 σ).1 hσ)⟩
    · rintro ⟨hv, hl, hp⟩
      obtain ⟨σ, rfl⟩ := hv.exists_perm' hl
      exact ⟨σ, (grandsire_calls_group h5 σ).2 ((fixes_treble_iff hn σ).2 hp), rfl⟩
  · intro r
    rw [touch_ends_of hn [m.firstLead, bobbed] [grandsireChanges n (by omega), grandsireBobChanges n (by omega)] (by
      intro y hy
      simp only [List.mem_cons, List.not_mem_nil, or_false] at hy
      rcases hy with rfl | rfl
      · exact ⟨(grandsireChanges n (by omega), an), ⟨by simp, by rw [hm', l1]⟩, hm⟩
      · exact ⟨(grandsireBobChanges n (by omega), an'), ⟨by simp, by rw [hs', l2]⟩, hb⟩) (by
      intro c hc
      simp only [List.mem_cons, List.not_mem_nil, or_false] at hc
      rcases hc with rfl | rfl
      · exact ⟨an, by rw [hm', l1], by simp [hm]⟩
      · exact ⟨an', by rw [hs', l2], by simp [hb]⟩) r]
    have hpar : ∀ σ : Perm (Fin n), (Row.ofPerm σ).HasParity .even ↔ Perm.sign σ = 1 := fun σ => by
      rw [hasParity_ofPerm_iff hn]; simp [Parity.zeroOrOne]
    constructor
    · rintro ⟨σ, hσ, rfl⟩
      obtain ⟨g1, g2⟩ := (grandsire_bobs_group h5 σ).1 hσ
      exact ⟨Row.ofPerm_valid hn σ, by simp, (fixes_treble_iff hn σ).1 g1, fun he => (hpar σ).2 (g2 he)⟩
    · rintro ⟨hv, hl, hp, hq⟩
      obtain ⟨σ, rfl⟩ := hv.exists_perm' hl
      exact ⟨σ, (grandsire_bobs_group h5 σ).2 ⟨(fixes_treble_iff hn σ).2 hp, fun he => (hpar σ).1 (hq he)⟩, rfl⟩

example := C111_reached (n := 7) "Grandsire" (by omega) (by omega)

/-- The lead heads of Grandsire on every stage from five bells.  The rows of the group generated by the ends of the
plain, the bobbed and the singled lead are all the rows in which the treble leads, and there are as many as there are
rows of one bell fewer.  The group generated by the ends of the plain and the bobbed lead has as many rows on an even
number of bells, half as many on an odd number. -/
theorem C111_group (name : String) (h5 : 5 ≤ n) (h22 : n ≤ 22) :
    ∃ m bobPn singlePn bob single bobbed singled plainHead bobHead singleHead out out',
      (Method.fromPlaceNotString name ⟨n⟩ (grandsireText n)).Returns (.ok m) ∧
      PnBlock.parse (grandsireBobText n) ⟨n⟩ = .ok (.ok bobPn) ∧
      PnBlock.parse (grandsireSingleText n) ⟨n⟩ = .ok (.ok singlePn) ∧
      Call.leBob bobPn = .ok bob ∧ Call.leSingle singlePn = .ok single ∧
      spliceCall m.firstLead (bob.block.mapAnnots fun _ => none) (m.leadLen - bob.coverLen) bob.coverLen =
        .ok (some (bobbed, .ok ())) ∧
      spliceCall m.firstLead (single.block.mapAnnots fun _ => none) (m.leadLen - single.coverLen) single.coverLen =
        .ok (some (singled, .ok ())) ∧
      m.firstLead.leftoverRow = .ok plainHead ∧ bobbed.leftoverRow = .ok bobHead ∧
      singled.leftoverRow = .ok singleHead ∧
      (Row.leastGroupContaining [plainHead, bobHead, singleHead]).Returns (.ok out) ∧
      out.Nodup ∧ (∀ r, r ∈ out ↔ r.Valid ∧ r.bells.length = n ∧ r.placeOf ⟨0⟩ = some 0) ∧
      out.length = (n - 1).factorial ∧
      (Row.leastGroupContaining [plainHead, bobHead]).Returns (.ok out') ∧ out'.Nodup ∧
      (n % 2 = 0 → out'.length = (n - 1).factorial) ∧ (n % 2 = 1 → 2 * out'.length = (n - 1).factorial) := by
  have hn : 0 < n := by omega
  obtain ⟨m, bobPn, singlePn, bob, single, bobbed, singled, an, an', h1, h2, h3, h4, h6, h7, h8, hm, -, hb, hs, -⟩ :=
    grandsire_leads name h5 h22
  have hleft : ∀ (cs : List (Perm (Fin n))) (a : List (Option String)),
      (AnnotBlock.rung cs a).leftoverRow = .ok (.ofPerm cs.prod) := by
    intro cs a
    rw [AnnotBlock.rung, AnnotBlock.leftover_ofPerms hn]
  obtain ⟨out, g1, g2, g3⟩ := C18_least_group hn
    ([grandsireChanges n (by omega), grandsireBobChanges n (by omega), grandsireSingleChanges n (by omega)].map List.prod)
    (by simp)
  obtain ⟨out', k1, k2, k3⟩ := C18_least_group hn
    ([grandsireChanges n (by omega), grandsireBobChanges n (by omega)].map List.prod) (by simp)
  refine ⟨m, bobPn, singlePn, bob, single, bobbed, singled, _, _, _, out, out', h1, h2, h3, h4, h6, h7, h8,
    hm ▸ hleft _ _, hb ▸ hleft _ _, hs ▸ hleft _ _, g1, g2, ?_, ?_, k1, k2, ?_, ?_⟩
  · intro r
    rw [g3]
    constructor
    · rintro ⟨σ, hσ, rfl⟩
      exact ⟨Row.ofPerm_valid hn σ, by simp, (fixes_treble_iff hn σ).1 ((grandsire_calls_group h5 σ).1 hσ)⟩
    · rintro ⟨hv, hl, hp⟩
      obtain ⟨σ, rfl⟩ := hv.exists_perm' hl
      exact ⟨σ, (grandsire_calls_group h5 σ).2 ((fixes_treble_iff hn σ).2 hp), rfl⟩
  · rw [← card_fixing hn]
    apply length_of_perms out g2
    intro r
    rw [g3]
    simp only [grandsire_calls_group h5, Finset.mem_filter, Finset.mem_univ, true_and]
  · intro he
    rw [← card_fixing hn]
    apply length_of_perms out' k2
    intro r
    rw [k3]
    simp only [grandsire_bobs_group h5, Finset.mem_filter, Finset.mem_univ, true_and]
    have : ¬ n % 2 = 1 := by omega
    simp [this]
  · intro ho
    rw [← card_even_fixing (show 4 ≤ n by omega)]
    congr 1
    apply length_of_perms out' k2
    intro r
    rw [k3]
    simp only [grandsire_bobs_group h5, Finset.mem_filter, Finset.mem_univ, true_and]
    simp [ho]

example := C111_group (n := 8) "Grandsire" (by omega) (by omega)

example : grandsireBobText 7 = "3.1".toList ∧ grandsireSingleText 7 = "3.123".toList ∧
    grandsireBobText 8 = "38.18".toList ∧ grandsireSingleText 8 = "38.1238".toList := by decide +kernel

end Bellframe.Props
