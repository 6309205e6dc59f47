import Verif.Proofs.CallGroup
import Verif.Props.BobTouch
import Verif.Props.RowSets
import Mathlib.Algebra.Group.Subgroup.Finite

/-! # C110: the rows that can be reached by calling Plain Bob -/

namespace Bellframe.Props

open Equiv

variable {n : Nat} {A : Type}

theorem bobRotation_eq (h4 : 4 ≤ n) : bobChange n * bobCall h4 =
    swap ⟨3, by omega⟩ ⟨1, by omega⟩ * swap ⟨3, by omega⟩ ⟨2, by omega⟩ := by
  ext x
  have key : ((bobChange n * bobCall h4) x).val =
      if x.val = 1 then 3 else if x.val = 2 then 1 else if x.val = 3 then 2 else x.val := bobRotation_val h4 x
  rw [key, Perm.mul_apply, swap_apply_def, swap_apply_def]
  simp only [Fin.ext_iff]
  repeat' split
  all_goals simp_all

theorem singleSwap_eq (h4 : 4 ≤ n) : bobChange n * singleCall n = swap ⟨2, by omega⟩ ⟨3, by omega⟩ := by
  ext x
  rw [singleSwap_val h4, swap_apply_def]
  simp only [Fin.ext_iff]
  repeat' split
  all_goals simp_all

/-- The lead head of Plain Bob with the change `c` at the lead end. -/
def calledHead (n : Nat) (c : Perm (Fin n)) : Perm (Fin n) := huntChange n 1 * c

theorem calledHead_plain (hn : 0 < n) : calledHead n (bobChange n) = bobHead n := by
  rw [calledHead, bobHead, huntRow_last hn]

theorem bobChange_sq (n : Nat) : bobChange n * bobChange n = 1 := by
  ext x
  rw [Perm.mul_apply, bobChange_val, bobChange_val, bobFn_invol x.isLt]
  rfl

theorem calledHead_bob (hn : 0 < n) (c : Perm (Fin n)) :
    calledHead n c = bobHead n * (bobChange n * c) := by
  rw [← calledHead_plain hn, calledHead, calledHead, mul_assoc, ← mul_assoc (bobChange n), bobChange_sq, one_mul]

theorem bobHead_three (h4 : 4 ≤ n) : bobHead n ⟨3, by omega⟩ = ⟨1, by omega⟩ := by
  rw [eq_comm, ← Perm.inv_eq_iff_eq]
  apply Fin.ext
  rw [bobHead_inv_val (by omega)]
  have e : (bobLeadHeadPlace n 1 1) = huntPlace (n - 1) 0 2 + 1 := rfl
  rw [e, huntPlace_succ (by omega), huntPlace_succ (by omega), huntPlace_zero (by omega)]
  change _ = 3
  unfold huntFn
  repeat' split
  all_goals omega

theorem bobHead_one (h4 : 4 ≤ n) : bobHead n ⟨1, by omega⟩ = ⟨2, by omega⟩ := by
  rw [eq_comm, ← Perm.inv_eq_iff_eq]
  apply Fin.ext
  rw [bobHead_inv_val (by omega)]
  have e : (bobLeadHeadPlace n 2 1) = huntPlace (n - 1) 1 2 + 1 := rfl
  rw [e, huntPlace_succ (by omega), huntPlace_succ (by omega), huntPlace_zero (by omega)]
  change _ = 1
  unfold huntFn
  repeat' split
  all_goals omega

theorem bobs_even_mem (h4 : 4 ≤ n) (H : Subgroup (Perm (Fin n))) (h1 : calledHead n (bobChange n) ∈ H)
    (h2 : calledHead n (bobCall h4) ∈ H) (σ : Perm (Fin n)) (hσ : σ ⟨0, by omega⟩ = ⟨0, by omega⟩)
    (hs : Perm.sign σ = 1) : σ ∈ H := by
  rw [calledHead_plain (by omega)] at h1
  rw [calledHead_bob (by omega), bobRotation_eq] at h2
  have h3 := H.mul_mem (H.inv_mem h1) h2
  rw [inv_mul_cancel_left] at h3
  have c1 : (bobHead n ^ 1) ⟨3, by omega⟩ = (⟨1, by omega⟩ : Fin n) := by rw [pow_one, bobHead_three h4]
  have c2 : (bobHead n ^ 2) ⟨3, by omega⟩ = (⟨2, by omega⟩ : Fin n) := by
    rw [pow_two, Perm.mul_apply, bobHead_three h4, bobHead_one h4]
  refine even_mem H (bobHead n) h1 (fun i => (bobHead n ^ i) ⟨3, by omega⟩)
    (fun i => by rw [pow_succ', Perm.mul_apply]) (n - 1) ?_ ⟨0, by omega⟩ ?_ ?_ σ hσ hs
  · intro i j hij hj h
    have e : j = i + (j - i) := by omega
    rw [e, pow_add, Perm.mul_apply] at h
    have h := ((bobHead n ^ i).injective h).symm
    have h := Nat.le_of_dvd (by omega) ((bobHead_pow_fixes (by omega) _ _ (by simp)).1 h)
    omega
  · intro x hx
    exact bobHead_reach (by omega) _ x (by simp) (fun h => hx (Fin.ext h))
  · rw [c1, c2]
    exact h3

theorem sign_bobbedHead (h4 : 4 ≤ n) : Perm.sign (calledHead n (bobCall h4)) = (-1) ^ n := by
  rw [calledHead_bob (by omega), bobRotation_eq, Perm.sign_mul, Perm.sign_mul, sign_bobHead (by omega),
    Perm.sign_swap (by simp), Perm.sign_swap (by simp)]
  simp

/-- The group of the plain and the bobbed lead head. -/
theorem bobs_group (h4 : 4 ≤ n) (σ : Perm (Fin n)) :
    σ ∈ Subgroup.closure {g | g ∈ [calledHead n (bobChange n), calledHead n (bobCall h4)]} ↔
      σ ⟨0, by omega⟩ = ⟨0, by omega⟩ ∧ (n % 2 = 0 → Perm.sign σ = 1) := by
  have hn : 0 < n := by omega
  have t1 : bobChange n ⟨0, hn⟩ = ⟨0, hn⟩ := Fin.ext (by rw [bobChange_val]; simp [bobFn])
  have t2 : bobCall h4 ⟨0, hn⟩ = ⟨0, hn⟩ := Fin.ext (by rw [bobCall_val]; simp [bobCallFn])
  have m1 : calledHead n (bobChange n) ∈
      Subgroup.closure {g | g ∈ [calledHead n (bobChange n), calledHead n (bobCall h4)]} :=
    Subgroup.subset_closure (by simp)
  have m2 : calledHead n (bobCall h4) ∈
      Subgroup.closure {g | g ∈ [calledHead n (bobChange n), calledHead n (bobCall h4)]} :=
    Subgroup.subset_closure (by simp)
  constructor
  · intro h
    induction h using Subgroup.closure_induction with
    | mem x hx =>
      have hx : x = calledHead n (bobChange n) ∨ x = calledHead n (bobCall h4) := by simpa using hx
      rcases hx with rfl | rfl
      · refine ⟨by rw [calledHead, Perm.mul_apply, t1, huntChange_one_treble], fun he => ?_⟩
        rw [calledHead_plain hn, sign_bobHead (by omega), (Nat.even_iff.2 he).neg_one_pow]
      · refine ⟨by rw [calledHead, Perm.mul_apply, t2, huntChange_one_treble], fun he => ?_⟩
        rw [sign_bobbedHead, (Nat.even_iff.2 he).neg_one_pow]
    | one => simp
    | mul x y _ _ hx hy =>
      exact ⟨by rw [Perm.mul_apply, hy.1, hx.1], fun he => by rw [Perm.sign_mul, hx.2 he, hy.2 he, one_mul]⟩
    | inv x _ hx =>
      exact ⟨by rw [Perm.inv_eq_iff_eq, hx.1], fun he => by rw [Perm.sign_inv, hx.2 he]⟩
  · rintro ⟨h0, hs⟩
    rcases Nat.mod_two_eq_zero_or_one n with he | ho
    · exact bobs_even_mem h4 _ m1 m2 σ h0 (hs he)
    · exact all_mem _ ⟨0, hn⟩ (bobs_even_mem h4 _ m1 m2) (bobHead n) (by rw [← calledHead_plain hn]; exact m1)
        (bobHead_fixes_treble (by omega) _ rfl)
        (by rw [sign_bobHead (by omega), (Nat.odd_iff.2 ho).neg_one_pow]) σ h0

/-- The group of the plain, the bobbed and the singled lead head. -/
theorem calls_group (h4 : 4 ≤ n) (σ : Perm (Fin n)) :
    σ ∈ Subgroup.closure {g | g ∈ [calledHead n (bobChange n), calledHead n (bobCall h4), calledHead n (singleCall n)]} ↔
      σ ⟨0, by omega⟩ = ⟨0, by omega⟩ := by
  have hn : 0 < n := by omega
  have t1 : bobChange n ⟨0, hn⟩ = ⟨0, hn⟩ := Fin.ext (by rw [bobChange_val]; simp [bobFn])
  have t2 : bobCall h4 ⟨0, hn⟩ = ⟨0, hn⟩ := Fin.ext (by rw [bobCall_val]; simp [bobCallFn])
  have t3 : singleCall n ⟨0, hn⟩ = ⟨0, hn⟩ := Fin.ext (by rw [singleCall_val]; simp [singleCallFn])
  have mem : ∀ x ∈ [calledHead n (bobChange n), calledHead n (bobCall h4), calledHead n (singleCall n)], x ∈
      Subgroup.closure {g | g ∈ [calledHead n (bobChange n), calledHead n (bobCall h4), calledHead n (singleCall n)]} :=
    fun x hx => Subgroup.subset_closure hx
  have hz : ∀ x ∈ [calledHead n (bobChange n), calledHead n (bobCall h4), calledHead n (singleCall n)],
      x ⟨0, hn⟩ = ⟨0, hn⟩ := by
    intro x hx
    simp only [List.mem_cons, List.not_mem_nil, or_false] at hx
    rcases hx with rfl | rfl | rfl <;> rw [calledHead, Perm.mul_apply]
    · rw [t1, huntChange_one_treble]
    · rw [t2, huntChange_one_treble]
    · rw [t3, huntChange_one_treble]
  constructor
  · intro h
    induction h using Subgroup.closure_induction with
    | mem x hx => exact hz x hx
    | one => simp
    | mul x y _ _ hx hy => rw [Perm.mul_apply, hy, hx]
    | inv x _ hx => rw [Perm.inv_eq_iff_eq, hx]
  · intro h0
    have m1 := mem (calledHead n (bobChange n)) (by simp)
    have m2 := mem (calledHead n (bobCall h4)) (by simp)
    have m3 := mem (calledHead n (singleCall n)) (by simp)
    have hsw : Perm.sign (calledHead n (singleCall n)) = - Perm.sign (calledHead n (bobChange n)) := by
      rw [calledHead_bob hn, singleSwap_eq h4, calledHead_plain hn, Perm.sign_mul, Perm.sign_swap (by simp)]
      simp
    rcases Int.units_eq_one_or (Perm.sign (calledHead n (bobChange n))) with h | h
    · exact all_mem _ ⟨0, hn⟩ (bobs_even_mem h4 _ m1 m2) _ m3 (hz _ (by simp)) (by rw [hsw, h]) σ h0
    · exact all_mem _ ⟨0, hn⟩ (bobs_even_mem h4 _ m1 m2) _ m1 (hz _ (by simp)) h σ h0

/-- In a finite group every element of the generated subgroup is a product of generators. -/
theorem mem_closure_iff_prod (S : List (Perm (Fin n))) (σ : Perm (Fin n)) :
    σ ∈ Subgroup.closure {g | g ∈ S} ↔ ∃ l : List (Perm (Fin n)), (∀ x ∈ l, x ∈ S) ∧ l.prod = σ := by
  rw [← Subgroup.mem_toSubmonoid, Subgroup.closure_toSubmonoid_of_finite]
  constructor
  · intro h
    obtain ⟨l, h1, h2⟩ := Submonoid.exists_list_of_mem_closure h
    exact ⟨l, h1, h2⟩
  · rintro ⟨l, h1, rfl⟩
    exact Submonoid.list_prod_mem _ fun x hx => Submonoid.subset_closure (h1 x hx)

theorem fixes_treble_iff (hn : 0 < n) (σ : Perm (Fin n)) :
    σ ⟨0, hn⟩ = ⟨0, hn⟩ ↔ (Row.ofPerm σ).placeOf ⟨0⟩ = some 0 := by
  rw [show (⟨0⟩ : Bell) = ⟨(⟨0, hn⟩ : Fin n).val⟩ from rfl, placeOf_ofPerm, Option.some.injEq]
  constructor
  · intro h
    have : σ⁻¹ ⟨0, hn⟩ = ⟨0, hn⟩ := by rw [Perm.inv_eq_iff_eq, h]
    rw [this]
  · intro h
    have : σ⁻¹ ⟨0, hn⟩ = ⟨0, hn⟩ := Fin.ext h
    rw [Perm.inv_eq_iff_eq] at this
    exact this.symm

/-- Where touches of given leads end. -/
theorem touch_ends_of (hn : 0 < n) (types : List (AnnotBlock A)) (S : List (List (Perm (Fin n))))
    (h1 : ∀ y ∈ types, ∃ x : List (Perm (Fin n)) × List A, (x.1 ∈ S ∧ x.1.length = x.2.length) ∧ y = .rung x.1 x.2)
    (h2 : ∀ cs ∈ S, ∃ annots : List A, cs.length = annots.length ∧ .rung cs annots ∈ types) (r : Row) :
    (∃ leads touch, (∀ x ∈ leads, x ∈ types) ∧ ringTouch ⟨n⟩ leads = .ok (touch, .ok ()) ∧
      touch.leftoverRow = .ok r) ↔
    ∃ σ ∈ Subgroup.closure {g | g ∈ S.map List.prod}, r = .ofPerm σ := by
  have key : ∀ xs : List (List (Perm (Fin n)) × List A), (∀ x ∈ xs, x.1.length = x.2.length) →
      ∃ touch, ringTouch ⟨n⟩ (xs.map fun x => AnnotBlock.rung x.1 x.2) = .ok (touch, .ok ()) ∧
        touch.leftoverRow = .ok (.ofPerm (xs.map (fun x => x.1.prod)).prod) := by
    intro xs hxs
    obtain ⟨touch, k1, -, -, k4⟩ := C97_touch hn xs hxs
    exact ⟨touch, k1, k4⟩
  constructor
  · rintro ⟨leads, touch, hl, ht, hr⟩
    obtain ⟨xs, rfl, hxs⟩ := exists_pairs (fun x : List (Perm (Fin n)) × List A => AnnotBlock.rung x.1 x.2)
      (fun x => x.1 ∈ S ∧ x.1.length = x.2.length) leads (fun y hy => h1 y (hl y hy))
    obtain ⟨touch', k1, k2⟩ := key xs (fun x hx => (hxs x hx).2)
    rw [ht] at k1
    simp only [Except.ok.injEq, Prod.mk.injEq, and_true] at k1
    subst k1
    rw [hr] at k2
    refine ⟨_, ?_, Except.ok.inj k2⟩
    rw [mem_closure_iff_prod]
    refine ⟨_, ?_, rfl⟩
    intro g hg
    obtain ⟨x, hx, rfl⟩ := List.mem_map.1 hg
    exact List.mem_map_of_mem (hxs x hx).1
  · rintro ⟨σ, hσ, rfl⟩
    rw [mem_closure_iff_prod] at hσ
    obtain ⟨l, hl, rfl⟩ := hσ
    obtain ⟨xs, rfl, hxs⟩ := exists_pairs (fun x : List (Perm (Fin n)) × List A => x.1.prod)
      (fun x => x.1.length = x.2.length ∧ AnnotBlock.rung x.1 x.2 ∈ types) l (by
        intro g hg
        obtain ⟨c, hc, rfl⟩ := List.mem_map.1 (hl g hg)
        obtain ⟨annots, a1, a2⟩ := h2 c hc
        exact ⟨(c, annots), ⟨a1, a2⟩, rfl⟩)
    obtain ⟨touch, k1, k2⟩ := key xs (fun x hx => (hxs x hx).1)
    refine ⟨_, touch, ?_, k1, k2⟩
    intro y hy
    obtain ⟨x, hx, rfl⟩ := List.mem_map.1 hy
    exact (hxs x hx).2

theorem touch_ends (hn : 0 < n) (types : List (AnnotBlock A)) (cs : List (Perm (Fin n)))
    (h1 : ∀ y ∈ types, ∃ x : Perm (Fin n) × List A, (x.1 ∈ cs ∧ x.2.length = 2 * n) ∧ y = .rung (huntLeadChanges n x.1) x.2)
    (h2 : ∀ c ∈ cs, ∃ annots : List A, annots.length = 2 * n ∧ .rung (huntLeadChanges n c) annots ∈ types) (r : Row) :
    (∃ leads touch, (∀ x ∈ leads, x ∈ types) ∧ ringTouch ⟨n⟩ leads = .ok (touch, .ok ()) ∧
      touch.leftoverRow = .ok r) ↔
    ∃ σ ∈ Subgroup.closure {g | g ∈ cs.map (calledHead n)}, r = .ofPerm σ := by
  rw [touch_ends_of hn types (cs.map (huntLeadChanges n)) (by
    intro y hy
    obtain ⟨x, ⟨a1, a2⟩, a3⟩ := h1 y hy
    exact ⟨(_, x.2), ⟨List.mem_map_of_mem a1, by rw [a2]; exact length_huntLeadChanges hn x.1⟩, a3⟩) (by
    intro l hl
    obtain ⟨c, hc, rfl⟩ := List.mem_map.1 hl
    obtain ⟨annots, a1, a2⟩ := h2 c hc
    exact ⟨annots, by rw [a1]; exact length_huntLeadChanges hn c, a2⟩), List.map_map,
    show List.prod ∘ huntLeadChanges n = calledHead n from funext fun c => prod_huntLeadChanges hn c]

/-- The three leads of Plain Bob. -/
theorem bob_leads (name : String) (h4 : 4 ≤ n) (h22 : n ≤ 22) :
    ∃ pn bobPn singlePn m bob single i j bobbed singled annots annots' annots'',
      PnBlock.parse (plainBobText n) ⟨n⟩ = .ok (.ok pn) ∧ PnBlock.parse (bobText n) ⟨n⟩ = .ok (.ok bobPn) ∧
      PnBlock.parse (singleText n) ⟨n⟩ = .ok (.ok singlePn) ∧ (Method.withLeadEnd name pn).Returns m ∧
      Call.leBob bobPn = .ok bob ∧ Call.leSingle singlePn = .ok single ∧
      m.labelIndices bob.location = [i] ∧ m.labelIndices single.location = [j] ∧
      spliceCall m.firstLead (bob.block.mapAnnots fun _ => none) i bob.coverLen = .ok (some (bobbed, .ok ())) ∧
      spliceCall m.firstLead (single.block.mapAnnots fun _ => none) j single.coverLen =
        .ok (some (singled, .ok ())) ∧
      m.firstLead = .rung (huntLeadChanges n (bobChange n)) annots ∧ annots.length = 2 * n ∧
      bobbed = .rung (huntLeadChanges n (bobCall h4)) annots' ∧ annots'.length = 2 * n ∧
      singled = .rung (huntLeadChanges n (singleCall n)) annots'' ∧ annots''.length = 2 * n := by
  have hn : 0 < n := by omega
  have hc : ∀ σ ∈ (List.range (2 * n - 1)).map (huntChange n) ++ [bobChange n], IsChange σ := by
    intro σ hσ
    simp only [List.mem_append, List.mem_map, List.mem_singleton] at hσ
    rcases hσ with ⟨i, -, rfl⟩ | rfl
    · exact huntChange_isChange i
    · exact bobChange_isChange
  obtain ⟨m, bob, s0, h1, h2, -, h3⟩ := C97_called_lead name hn h22 ((List.range (2 * n - 1)).map (huntChange n))
    (bobChange n) (bobCall h4) hc (bobCall_isChange h4)
  obtain ⟨m', b0, single, h1', -, h2', h3'⟩ := C97_called_lead name hn h22
    ((List.range (2 * n - 1)).map (huntChange n)) (bobChange n) (singleCall n) hc singleCall_isChange
  obtain rfl : m = m' := run_returns_unique h1 h1'
  obtain ⟨i, bobbed, e1, e2, e3, -⟩ := h3 bob (by simp)
  obtain ⟨j, singled, f1, f2, f3, -⟩ := h3' single (by simp)
  obtain ⟨m', h1'', ⟨lead, l, g5, g6, -⟩, -⟩ := (C49_with_lead_end name hn _ (by simp) hc).1 h22
  obtain rfl : m = m' := run_returns_unique h1 h1''
  rw [rung_of_follows g5] at g6
  have hlen : ∀ c : Perm (Fin n), ((List.range (2 * n - 1)).map (huntChange n) ++ [c]).length = 2 * n :=
    length_huntLeadChanges hn
  have hrange : ((List.range (2 * n - 1)).map (huntChange n)).length + 1 = 2 * n := by simp; omega
  rw [hlen] at g6
  rw [hrange] at e3 f3
  refine ⟨_, _, _, m, bob, single, i, j, bobbed, singled, _, _, _, parse_plainBob h4 (by omega),
    parse_call hn (by omega) _ (bobCall_isChange h4) _ (display_bobCall h4 (by omega)),
    parse_call hn (by omega) _ singleCall_isChange _ (display_singleCall h4 (by omega)), h1, h2, h2', e1, f1, e2, f2,
    g6, ?_, e3, ?_, f3, ?_⟩
  · simp; omega
  · simp
  · simp

/-- Touches of Plain Bob on every stage.  With bobs and singles a touch can end at every row in which the treble leads,
and at no other.  With bobs alone it is the same on an odd number of bells; on an even number it can end at the even
rows among them. -/
theorem C110_reached (name : String) (h4 : 4 ≤ n) (h22 : n ≤ 22) :
    ∃ pn bobPn singlePn m bob single i j bobbed singled,
      PnBlock.parse (plainBobText n) ⟨n⟩ = .ok (.ok pn) ∧ PnBlock.parse (bobText n) ⟨n⟩ = .ok (.ok bobPn) ∧
      PnBlock.parse (singleText n) ⟨n⟩ = .ok (.ok singlePn) ∧ (Method.withLeadEnd name pn).Returns m ∧
      Call.leBob bobPn = .ok bob ∧ Call.leSingle singlePn = .ok single ∧
      m.labelIndices bob.location = [i] ∧ m.labelIndices single.location = [j] ∧
      spliceCall m.firstLead (bob.block.mapAnnots fun _ => none) i bob.coverLen = .ok (some (bobbed, .ok ())) ∧
      spliceCall m.firstLead (single.block.mapAnnots fun _ => none) j single.coverLen =
        .ok (some (singled, .ok ())) ∧
      (∀ r, (∃ leads touch, (∀ x ∈ leads, x ∈ [m.firstLead, bobbed, singled]) ∧
          ringTouch ⟨n⟩ leads = .ok (touch, .ok ()) ∧ touch.leftoverRow = .ok r) ↔
        r.Valid ∧ r.bells.length = n ∧ r.placeOf ⟨0⟩ = some 0) ∧
      (∀ r, (∃ leads touch, (∀ x ∈ leads, x ∈ [m.firstLead, bobbed]) ∧
          ringTouch ⟨n⟩ leads = .ok (touch, .ok ()) ∧ touch.leftoverRow = .ok r) ↔
        r.Valid ∧ r.bells.length = n ∧ r.placeOf ⟨0⟩ = some 0 ∧ (n % 2 = 0 → r.HasParity .even)) := by
  have hn : 0 < n := by omega
  obtain ⟨pn, bobPn, singlePn, m, bob, single, i, j, bobbed, singled, an, an', an'', h1, h2, h3, h5, h6, h7, h8, h9,
    h10, h11, hm, hm', hb, hb', hs, hs'⟩ := bob_leads name h4 h22
  refine ⟨pn, bobPn, singlePn, m, bob, single, i, j, bobbed, singled, h1, h2, h3, h5, h6, h7, h8, h9, h10, h11, ?_, ?_⟩
  · intro r
    rw [touch_ends hn [m.firstLead, bobbed, singled] [bobChange n, bobCall h4, singleCall n] (by
      intro y hy
      simp only [List.mem_cons, List.not_mem_nil, or_false] at hy
      rcases hy with rfl | rfl | rfl
      · exact ⟨(bobChange n, an), ⟨by simp, hm'⟩, hm⟩
      · exact ⟨(bobCall h4, an'), ⟨by simp, hb'⟩, hb⟩
      · exact ⟨(singleCall n, an''), ⟨by simp, hs'⟩, hs⟩) (by
      intro c hc
      simp only [List.mem_cons, List.not_mem_nil, or_false] at hc
      rcases hc with rfl | rfl | rfl
      · exact ⟨an, hm', by simp [hm]⟩
      · exact ⟨an', hb', by simp [hb]⟩
      · exact ⟨an'', hs', by simp [hs]⟩) r]
    constructor
    · rintro ⟨σ, hσ, rfl⟩
      exact ⟨Row.ofPerm_valid hn σ, by simp, (fixes_treble_iff hn σ).1 ((calls_group h4 σ).1 hσ)⟩
    · rintro ⟨hv, hl, hp⟩
      obtain ⟨σ, rfl⟩ := hv.exists_perm' hl
      exact ⟨σ, (calls_group h4 σ).2 ((fixes_treble_iff hn σ).2 hp), rfl⟩
  · intro r
    rw [touch_ends hn [m.firstLead, bobbed] [bobChange n, bobCall h4] (by
      intro y hy
      simp only [List.mem_cons, List.not_mem_nil, or_false] at hy
      rcases hy with rfl | rfl
      · exact ⟨(bobChange n, an), ⟨by simp, hm'⟩, hm⟩
      · exact ⟨(bobCall h4, an'), ⟨by simp, hb'⟩, hb⟩) (by
      intro c hc
      simp only [List.mem_cons, List.not_mem_nil, or_false] at hc
      rcases hc with rfl | rfl
      · exact ⟨an, hm', by simp [hm]⟩
      · exact ⟨an', hb', by simp [hb]⟩) r]
    have hpar : ∀ σ : Perm (Fin n), (Row.ofPerm σ).HasParity .even ↔ Perm.sign σ = 1 := fun σ => by
      rw [hasParity_ofPerm_iff hn]; simp [Parity.zeroOrOne]
    constructor
    · rintro ⟨σ, hσ, rfl⟩
      obtain ⟨g1, g2⟩ := (bobs_group h4 σ).1 hσ
      exact ⟨Row.ofPerm_valid hn σ, by simp, (fixes_treble_iff hn σ).1 g1, fun he => (hpar σ).2 (g2 he)⟩
    · rintro ⟨hv, hl, hp, hq⟩
      obtain ⟨σ, rfl⟩ := hv.exists_perm' hl
      exact ⟨σ, (bobs_group h4 σ).2 ⟨(fixes_treble_iff hn σ).2 hp, fun he => (hpar σ).1 (hq he)⟩, rfl⟩

example := C110_reached (n := 6) "Plain" (by omega) (by omega)

theorem card_fixing (hn : 0 < n) :
    (Finset.univ.filter fun σ : Perm (Fin n) => σ ⟨0, hn⟩ = ⟨0, hn⟩).card = (n - 1).factorial := by
  rw [← Fintype.card_subtype]
  have e := Fintype.card_congr (Perm.subtypeEquivSubtypePerm (fun x : Fin n => x ≠ ⟨0, hn⟩))
  rw [Fintype.card_perm, Fintype.card_subtype_compl, Fintype.card_fin, Fintype.card_subtype_eq] at e
  rw [e]
  apply Fintype.card_congr
  apply Equiv.subtypeEquivRight
  intro σ
  constructor
  · rintro h a ha
    rw [not_not] at ha
    rw [ha, h]
  · intro h
    exact h _ (by simp)

theorem card_even_fixing (h4 : 4 ≤ n) :
    2 * (Finset.univ.filter fun σ : Perm (Fin n) => σ ⟨0, by omega⟩ = ⟨0, by omega⟩ ∧ Perm.sign σ = 1).card =
      (n - 1).factorial := by
  have hn : 0 < n := by omega
  have e1 : (Finset.univ.filter fun σ : Perm (Fin n) => σ ⟨0, hn⟩ = ⟨0, hn⟩ ∧ Perm.sign σ = 1).card =
      (Finset.univ.filter fun σ : Perm (Fin n) => σ ⟨0, hn⟩ = ⟨0, hn⟩ ∧ ¬ Perm.sign σ = 1).card := by
    have hsw : Perm.sign (swap (⟨1, by omega⟩ : Fin n) ⟨2, by omega⟩) = -1 := Perm.sign_swap (by simp)
    have h0 : swap (⟨1, by omega⟩ : Fin n) ⟨2, by omega⟩ ⟨0, hn⟩ = ⟨0, hn⟩ :=
      swap_apply_of_ne_of_ne (by simp) (by simp)
    apply Finset.card_bij (fun σ _ => swap (⟨1, by omega⟩ : Fin n) ⟨2, by omega⟩ * σ)
    · intro σ hσ
      rw [Finset.mem_filter] at hσ ⊢
      refine ⟨Finset.mem_univ _, ?_, ?_⟩
      · rw [Perm.mul_apply, hσ.2.1, h0]
      · rw [Perm.sign_mul, hsw, hσ.2.2]; decide
    · intro σ _ τ _ h
      exact mul_left_cancel h
    · intro σ hσ
      rw [Finset.mem_filter] at hσ
      refine ⟨swap (⟨1, by omega⟩ : Fin n) ⟨2, by omega⟩ * σ, ?_, by rw [swap_mul_self_mul]⟩
      rw [Finset.mem_filter]
      refine ⟨Finset.mem_univ _, ?_, ?_⟩
      · rw [Perm.mul_apply, hσ.2.1, h0]
      · rw [Perm.sign_mul, hsw, (Int.units_eq_one_or _).resolve_left hσ.2.2]; decide
  have e2 := Finset.card_filter_add_card_filter_not
    (s := Finset.univ.filter fun σ : Perm (Fin n) => σ ⟨0, hn⟩ = ⟨0, hn⟩) (fun σ : Perm (Fin n) => Perm.sign σ = 1)
  rw [Finset.filter_filter, Finset.filter_filter, card_fixing hn, ← e1, ← two_mul] at e2
  exact e2

theorem length_of_perms (out : List Row) (hnd : out.Nodup) (F : Finset (Perm (Fin n)))
    (h : ∀ r, r ∈ out ↔ ∃ σ ∈ F, r = .ofPerm σ) : out.length = F.card := by
  have : out.toFinset = F.image Row.ofPerm := by
    ext r
    rw [List.mem_toFinset, h, Finset.mem_image]
    constructor <;> rintro ⟨σ, h1, h2⟩ <;> exact ⟨σ, h1, h2.symm⟩
  rw [← List.toFinset_card_of_nodup hnd, this, Finset.card_image_of_injective _ Row.ofPerm_injective]

/-- The lead heads of Plain Bob on every stage.  The rows of the group generated by the ends of the plain, the bobbed
and the singled lead are all the rows in which the treble leads, and there are as many as there are rows of one bell
fewer.  The group generated by the ends of the plain and the bobbed lead has as many rows on an odd number of bells,
half as many on an even number. -/
theorem C110_group (name : String) (h4 : 4 ≤ n) (h22 : n ≤ 22) :
    ∃ pn bobPn singlePn m bob single i j bobbed singled plainHead bobHead singleHead out out',
      PnBlock.parse (plainBobText n) ⟨n⟩ = .ok (.ok pn) ∧ PnBlock.parse (bobText n) ⟨n⟩ = .ok (.ok bobPn) ∧
      PnBlock.parse (singleText n) ⟨n⟩ = .ok (.ok singlePn) ∧ (Method.withLeadEnd name pn).Returns m ∧
      Call.leBob bobPn = .ok bob ∧ Call.leSingle singlePn = .ok single ∧
      m.labelIndices bob.location = [i] ∧ m.labelIndices single.location = [j] ∧
      spliceCall m.firstLead (bob.block.mapAnnots fun _ => none) i bob.coverLen = .ok (some (bobbed, .ok ())) ∧
      spliceCall m.firstLead (single.block.mapAnnots fun _ => none) j single.coverLen =
        .ok (some (singled, .ok ())) ∧
      m.firstLead.leftoverRow = .ok plainHead ∧ bobbed.leftoverRow = .ok bobHead ∧
      singled.leftoverRow = .ok singleHead ∧
      (Row.leastGroupContaining [plainHead, bobHead, singleHead]).Returns (.ok out) ∧
      out.Nodup ∧ (∀ r, r ∈ out ↔ r.Valid ∧ r.bells.length = n ∧ r.placeOf ⟨0⟩ = some 0) ∧
      out.length = (n - 1).factorial ∧
      (Row.leastGroupContaining [plainHead, bobHead]).Returns (.ok out') ∧ out'.Nodup ∧
      (n % 2 = 1 → out'.length = (n - 1).factorial) ∧ (n % 2 = 0 → 2 * out'.length = (n - 1).factorial) := by
  have hn : 0 < n := by omega
  obtain ⟨pn, bobPn, singlePn, m, bob, single, i, j, bobbed, singled, an, an', an'', h1, h2, h3, h5, h6, h7, h8, h9,
    h10, h11, hm, hm', hb, hb', hs, hs'⟩ := bob_leads name h4 h22
  have hleft : ∀ (c : Perm (Fin n)) (a : List (Option String)),
      (AnnotBlock.rung (huntLeadChanges n c) a).leftoverRow = .ok (.ofPerm (calledHead n c)) := by
    intro c a
    rw [AnnotBlock.rung, AnnotBlock.leftover_ofPerms hn, prod_huntLeadChanges hn, calledHead]
  obtain ⟨out, g1, g2, g3⟩ := C18_least_group hn
    [calledHead n (bobChange n), calledHead n (bobCall h4), calledHead n (singleCall n)] (by simp)
  obtain ⟨out', k1, k2, k3⟩ := C18_least_group hn [calledHead n (bobChange n), calledHead n (bobCall h4)] (by simp)
  refine ⟨pn, bobPn, singlePn, m, bob, single, i, j, bobbed, singled, _, _, _, out, out', h1, h2, h3, h5, h6, h7, h8,
    h9, h10, h11, hm ▸ hleft _ _, hb ▸ hleft _ _, hs ▸ hleft _ _, g1, g2, ?_, ?_, k1, k2, ?_, ?_⟩
  · intro r
    rw [g3]
    constructor
    · rintro ⟨σ, hσ, rfl⟩
      exact ⟨Row.ofPerm_valid hn σ, by simp, (fixes_treble_iff hn σ).1 ((calls_group h4 σ).1 hσ)⟩
    · rintro ⟨hv, hl, hp⟩
      obtain ⟨σ, rfl⟩ := hv.exists_perm' hl
      exact ⟨σ, (calls_group h4 σ).2 ((fixes_treble_iff hn σ).2 hp), rfl⟩
  · rw [← card_fixing hn]
    apply length_of_perms out g2
    intro r
    rw [g3]
    simp only [calls_group h4, Finset.mem_filter, Finset.mem_univ, true_and]
  · intro ho
    rw [← card_fixing hn]
    apply length_of_perms out' k2
    intro r
    rw [k3]
    simp only [bobs_group h4, Finset.mem_filter, Finset.mem_univ, true_and]
    have : ¬ n % 2 = 0 := by omega
    simp [this]
  · intro he
    rw [← card_even_fixing h4]
    congr 1
    apply length_of_perms out' k2
    intro r
    rw [k3]
    simp only [bobs_group h4, Finset.mem_filter, Finset.mem_univ, true_and]
    simp [he]

example := C110_group (n := 7) "Plain" (by omega) (by omega)

end Bellframe.Props
