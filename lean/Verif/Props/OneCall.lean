import Verif.Spec.OneCall
import Verif.Props.Touch

/-! # C100: the same call in every course -/

namespace Bellframe.Props

open Equiv

variable {n : Nat} {A : Type}

theorem run_returns_unique {B : Type} {x : Run B} {a b : B} (h1 : x.Returns a) (h2 : x.Returns b) : a = b := by
  unfold Run.Returns at h1 h2
  rw [h1] at h2
  exact Except.ok.inj (Option.some.inj h2)

theorem one_call_prod (h x : Perm (Fin n)) (j times : Nat) (hj : j < orderOf h) :
    (h ^ j * (h * x) * h ^ (orderOf h - 1 - j)) ^ times = 1 ↔ orderOf x ∣ times := by
  have e : h ^ j * (h * x) * h ^ (orderOf h - 1 - j) = h ^ (j + 1) * x * (h ^ (j + 1))⁻¹ := by
    have : h ^ (orderOf h - 1 - j) = (h ^ (j + 1))⁻¹ := by
      rw [eq_inv_iff_mul_eq_one, ← pow_add, show orderOf h - 1 - j + (j + 1) = orderOf h by omega,
        pow_orderOf_eq_one]
    rw [this, pow_succ]
    simp only [mul_assoc]
  rw [e, conj_pow, mul_inv_eq_one, mul_eq_left, orderOf_dvd_iff_pow_eq_one]

/-- Courses of a method with a call at the same lead end of each: whichever lead it is, they come round
after as many courses as the transposition from the plain lead head to the called one has powers (`powers`, the
order of the plain change followed by the change of the call), and otherwise only at multiples of it. -/
theorem C100_one_call (name : String) (hn : 0 < n) (h22 : n ≤ 22) (τs : List (Perm (Fin n)))
    (τ υ : Perm (Fin n)) (hc : ∀ σ ∈ τs ++ [τ], IsChange σ) (hu : IsChange υ) :
    ∃ m bob single course k, (Method.withLeadEnd name ⟨(τs ++ [τ]).map PlaceNot.ofChange⟩).Returns m ∧
      Call.leBob ⟨[υ].map PlaceNot.ofChange⟩ = .ok bob ∧
      Call.leSingle ⟨[υ].map PlaceNot.ofChange⟩ = .ok single ∧
      m.plainCourse.Returns course ∧ course.len = k * m.leadLen ∧ 0 < k ∧
      ∀ c ∈ [bob, single], ∃ i called, m.labelIndices c.location = [i] ∧
        spliceCall m.firstLead (c.block.mapAnnots fun _ => none) i c.coverLen =
          .ok (some (called, .ok ())) ∧
        ∃ ph ch x powers, m.leadHead = .ok ph ∧ called.leftoverRow = .ok ch ∧
        ph.solveAxEqualsB ch = .ok (.ok x) ∧ x.closure.Returns powers ∧
        powers.length = orderOf (τ * υ) ∧
        ∀ j < k, ∀ times, ∃ touch r,
          ringTouch ⟨n⟩ (oneCallTouch m.firstLead called k j times) = .ok (touch, .ok ()) ∧
          touch.len = times * course.len ∧ touch.leftoverRow = .ok r ∧
          (r.isRounds = true ↔ powers.length ∣ times) := by
  obtain ⟨m, bob, single, h1, h2, h3, h4⟩ := C97_called_lead name hn h22 τs τ υ hc hu
  obtain ⟨m', h1', ⟨lead, l, h5, h6, -⟩, -⟩ := (C49_with_lead_end name hn (τs ++ [τ]) (by simp) hc).1 h22
  obtain rfl : m = m' := run_returns_unique h1 h1'
  have hfirst := h6
  rw [rung_of_follows h5] at hfirst
  simp only [List.length_append, List.length_singleton, Nat.add_sub_cancel] at hfirst
  set h := (τs ++ [τ]).prod with hh
  have hx : τs.prod * υ = h * (τ * υ) := by
    rw [hh, List.prod_append, List.prod_singleton, mul_assoc, ← mul_assoc τ,
      (hc τ (by simp)).involution, one_mul]
  obtain ⟨course, g1, -, g2, -⟩ := C48_plain_course hn m _ _ _ hfirst (by simp)
    (by rw [List.length_append, List.length_singleton, List.range_succ_eq_map]; rfl)
  have hll : m.leadLen = τs.length + 1 := by
    unfold Method.leadLen
    rw [hfirst]
    simp [AnnotBlock.len, AnnotBlock.rung, AnnotBlock.ofPerms]
  refine ⟨m, bob, single, course, orderOf h, h1, h2, h3, g1, g2, orderOf_pos h, ?_⟩
  intro c hcm
  obtain ⟨i, called, e1, e2, e3, e4⟩ := h4 c hcm
  obtain ⟨powers, p1, p2, -⟩ := C16_closure (τ * υ)
  refine ⟨i, called, e1, e2, .ofPerm h, _, .ofPerm (τ * υ), powers, ?_, e4, ?_, p1, p2, ?_⟩
  · unfold Method.leadHead
    rw [hfirst, AnnotBlock.rung, AnnotBlock.leftover_ofPerms hn]
  · rw [hx]
    simp [Row.solveAxEqualsB, Row.inv_ofPerm hn, Row.mulResult_ofPerm hn]
  rw [p2]
  intro j hj times
  let plain : List (Perm (Fin n)) × List (Option String) :=
    (τs ++ [τ], List.replicate τs.length none ++ [some "LE"])
  let call : List (Perm (Fin n)) × List (Option String) := (τs ++ [υ], List.replicate (τs.length + 1) none)
  let leads := (List.replicate times
    (List.replicate j plain ++ call :: List.replicate (orderOf h - 1 - j) plain)).flatten
  have hleads : oneCallTouch m.firstLead called (orderOf h) j times =
      leads.map fun x => .rung x.1 x.2 := by
    unfold oneCallTouch oneCallCourse
    simp only [leads, List.map_flatten, List.map_replicate, List.map_append, List.map_cons]
    rw [hfirst, e3]
  have hmem : ∀ x ∈ leads, x.1.length = τs.length + 1 ∧ x.1.length = x.2.length := by
    intro x hx
    simp only [leads, List.mem_flatten, List.mem_replicate] at hx
    obtain ⟨l, ⟨-, rfl⟩, hx⟩ := hx
    simp only [List.mem_append, List.mem_cons, List.mem_replicate] at hx
    rcases hx with ⟨-, rfl⟩ | rfl | ⟨-, rfl⟩ <;> simp [plain, call]
  obtain ⟨touch, f1, -, f2, f3⟩ := C97_touch hn leads (fun x hx => (hmem x hx).2)
  refine ⟨touch, _, by rw [hleads]; exact f1, ?_, f3, ?_⟩
  · rw [f2, List.map_congr_left (g := fun _ => τs.length + 1) (fun x hx => (hmem x hx).1),
      List.map_const', List.sum_replicate, g2, hll]
    have : leads.length = times * orderOf h := by
      simp only [leads, List.length_flatten, List.map_replicate, List.sum_replicate, List.length_append,
        List.length_cons, List.length_replicate, smul_eq_mul]
      congr 1
      omega
    rw [this, smul_eq_mul, Nat.mul_assoc]
  · rw [Row.ofPerm_isRounds]
    have : (leads.map (·.1.prod)).prod =
        (h ^ j * (h * (τ * υ)) * h ^ (orderOf h - 1 - j)) ^ times := by
      simp only [leads, List.map_flatten, List.map_replicate, List.map_append, List.map_cons,
        List.prod_flatten, List.prod_replicate, List.prod_append, List.prod_cons]
      rw [← hx, hh]
      simp only [plain, call, List.prod_append, List.prod_singleton, mul_assoc]
    rw [this, one_call_prod h _ j times hj]

/-- A lead of four changes on four bells; with 14 instead of 12 at the lead end the plain and the
called lead heads differ by a transposition with three powers. -/
example : let τs : List (Perm (Fin 4)) := [swap 0 1 * swap 2 3, swap 2 3, swap 0 1 * swap 2 3]
    (∀ σ ∈ τs ++ [swap 2 3], IsChange σ) ∧ IsChange (swap (1 : Fin 4) 2) ∧
    (swap 2 3 * swap (1 : Fin 4) 2) ^ 3 = 1 ∧ swap 2 3 * swap (1 : Fin 4) 2 ≠ 1 := by
  refine ⟨?_, ?_, ?_, ?_⟩ <;> try unfold IsChange
  all_goals decide +kernel

/-! ## Plain Bob -/

def bobCallFn (n x : Nat) : Nat :=
  if x = 0 then 0 else if x = 1 then 2 else if x = 2 then 1 else if x = 3 then 3 else huntFn n 0 x

def singleCallFn (n x : Nat) : Nat := if x < 4 then x else huntFn n 0 x

theorem huntFn_ge4 {x : Nat} (h : 4 ≤ x) : 4 ≤ huntFn n 0 x := by
  unfold huntFn; repeat' split
  all_goals omega

theorem bobCallFn_lt (h4 : 4 ≤ n) {x : Nat} (h : x < n) : bobCallFn n x < n := by
  have := huntFn_lt (k := 0) h
  unfold bobCallFn; repeat' split
  all_goals omega

theorem bobCallFn_invol {x : Nat} (h : x < n) : bobCallFn n (bobCallFn n x) = x := by
  by_cases h4 : 4 ≤ x
  · have e : ∀ y, 4 ≤ y → bobCallFn n y = huntFn n 0 y := by
      intro y hy
      unfold bobCallFn; repeat' split
      all_goals omega
    rw [e x h4, e _ (huntFn_ge4 h4), huntFn_invol h]
  · have : x = 0 ∨ x = 1 ∨ x = 2 ∨ x = 3 := by omega
    rcases this with rfl | rfl | rfl | rfl <;> rfl

theorem singleCallFn_lt {x : Nat} (h : x < n) : singleCallFn n x < n := by
  have := huntFn_lt (k := 0) h
  unfold singleCallFn; split
  all_goals omega

theorem singleCallFn_invol {x : Nat} (h : x < n) : singleCallFn n (singleCallFn n x) = x := by
  unfold singleCallFn
  by_cases h4 : x < 4
  · rw [if_pos h4, if_pos h4]
  · rw [if_neg h4, if_neg (by have := @huntFn_ge4 n x (by omega); omega), huntFn_invol h]

def bobCall (h4 : 4 ≤ n) : Perm (Fin n) :=
  permOfInvol (bobCallFn n) (fun _ h => bobCallFn_lt h4 h) (fun _ h => bobCallFn_invol h)

def singleCall (n : Nat) : Perm (Fin n) :=
  permOfInvol (singleCallFn n) (fun _ h => singleCallFn_lt h) (fun _ h => singleCallFn_invol h)

theorem bobCall_val (h4 : 4 ≤ n) (x : Fin n) : (bobCall h4 x).val = bobCallFn n x := rfl
theorem singleCall_val (x : Fin n) : (singleCall n x).val = singleCallFn n x := rfl

theorem bobCall_isChange (h4 : 4 ≤ n) : IsChange (bobCall h4) := by
  intro x
  simp only [bobCall_val]
  unfold bobCallFn huntFn; repeat' split
  all_goals omega

theorem singleCall_isChange : IsChange (singleCall n) := by
  intro x
  simp only [singleCall_val]
  unfold singleCallFn huntFn; repeat' split
  all_goals omega

theorem display_bobCall (h4 : 4 ≤ n) (h33 : n ≤ 33) :
    (PlaceNot.ofChange (bobCall h4)).display = bobText n := by
  have hx : ∀ x : Fin n, bobCall h4 x = x ↔ bobCallFn n x = x.val := fun x => Fin.ext_iff
  have hfix : ∀ x : Fin n, bobCall h4 x = x ↔ x.val = 0 ∨ x.val = 3 ∨ (x.val = n - 1 ∧ n % 2 = 1) := by
    intro x
    rw [hx]
    have := x.isLt
    unfold bobCallFn huntFn
    repeat' split
    all_goals omega
  unfold bobText
  rcases Nat.mod_two_eq_zero_or_one n with hn | hn
  · rw [if_pos hn, ofChange_places _ [0, 3] (by simp) (by simp; omega)]
    · rw [display_places _ (by simp) (by simp)]; rfl
    · intro x; rw [hfix]; simp; omega
  · rw [if_neg (by omega), ofChange_places _ [0, 3, n - 1] (by simp; omega) (by simp; omega)]
    · rw [display_places _ (by simp) (by simp; omega)]
      simp only [List.map_cons, List.map_nil, show n - 1 + 1 = n by omega]
      rfl
    · intro x; rw [hfix]; simp; omega

theorem display_singleCall (h4 : 4 ≤ n) (h33 : n ≤ 33) :
    (PlaceNot.ofChange (singleCall n)).display = singleText n := by
  have hx : ∀ x : Fin n, singleCall n x = x ↔ singleCallFn n x = x.val := fun x => Fin.ext_iff
  have hfix : ∀ x : Fin n, singleCall n x = x ↔ x.val < 4 ∨ (x.val = n - 1 ∧ n % 2 = 1) := by
    intro x
    rw [hx]
    have := x.isLt
    unfold singleCallFn huntFn
    repeat' split
    all_goals omega
  unfold singleText
  rcases Nat.mod_two_eq_zero_or_one n with hn | hn
  · rw [if_pos hn, ofChange_places _ [0, 1, 2, 3] (by simp) (by simp; omega)]
    · rw [display_places _ (by simp) (by simp)]; rfl
    · intro x; rw [hfix]; simp; omega
  · rw [if_neg (by omega), ofChange_places _ [0, 1, 2, 3, n - 1] (by simp; omega) (by simp; omega)]
    · rw [display_places _ (by simp) (by simp; omega)]
      simp only [List.map_cons, List.map_nil, show n - 1 + 1 = n by omega]
      rfl
    · intro x; rw [hfix]; simp; omega

theorem parse_call (hn : 0 < n) (h33 : n ≤ 33) (υ : Perm (Fin n)) (hu : IsChange υ) (text : List Char)
    (ht : (PlaceNot.ofChange υ).display = text) :
    PnBlock.parse text ⟨n⟩ = .ok (.ok ⟨[υ].map PlaceNot.ofChange⟩) := by
  have hb := C34_separated ⟨n⟩ h33 [PlaceNot.ofChange υ] (by simp)
    (by simp only [List.mem_singleton]; rintro _ rfl; exact ⟨⟨n, hn, _, hu, rfl⟩, rfl⟩)
    '.' (.inr rfl)
  simp only [List.map_cons, List.map_nil, List.intersperse_singleton, List.flatten_cons, List.flatten_nil,
    List.append_nil, ht] at hb
  exact hb

theorem bobRotation_val (h4 : 4 ≤ n) (x : Fin n) : ((bobChange n * bobCall h4) x).val =
    if x.val = 1 then 3 else if x.val = 2 then 1 else if x.val = 3 then 2 else x.val := by
  rw [Perm.mul_apply, bobChange_val, bobCall_val]
  have hx := x.isLt
  by_cases hx4 : 4 ≤ x.val
  · have e : bobCallFn n x = huntFn n 0 x := by
      unfold bobCallFn; repeat' split
      all_goals omega
    have h := @huntFn_ge4 n x hx4
    rw [e, bobFn, if_neg (by omega), huntFn_invol hx]
    repeat' split
    all_goals omega
  · have : x.val = 0 ∨ x.val = 1 ∨ x.val = 2 ∨ x.val = 3 := by omega
    rcases this with h | h | h | h <;> rw [h]
    · rfl
    · have : bobCallFn n 1 = 2 := rfl
      rw [this, bobFn, huntFn]
      repeat' split
      all_goals omega
    · rfl
    · have : bobCallFn n 3 = 3 := rfl
      rw [this, bobFn, huntFn]
      repeat' split
      all_goals omega

theorem order_bobCall (h4 : 4 ≤ n) : orderOf (bobChange n * bobCall h4) = 3 := by
  have key := bobRotation_val h4
  apply orderOf_eq_prime
  · ext x
    rw [pow_succ, pow_succ, pow_one, Perm.mul_apply, Perm.mul_apply, key, key, key, Perm.one_apply]
    repeat' split
    all_goals omega
  · intro h
    have := key ⟨1, by omega⟩
    rw [h] at this
    simp at this

theorem singleSwap_val (h4 : 4 ≤ n) (x : Fin n) : ((bobChange n * singleCall n) x).val =
    if x.val = 2 then 3 else if x.val = 3 then 2 else x.val := by
  rw [Perm.mul_apply, bobChange_val, singleCall_val]
  have hx := x.isLt
  by_cases hx4 : 4 ≤ x.val
  · have h := @huntFn_ge4 n x hx4
    rw [singleCallFn, if_neg (by omega), bobFn, if_neg (by omega), huntFn_invol hx]
    repeat' split
    all_goals omega
  · rw [singleCallFn, if_pos (by omega), bobFn, huntFn]
    repeat' split
    all_goals omega

theorem order_singleCall (h4 : 4 ≤ n) : orderOf (bobChange n * singleCall n) = 2 := by
  have key := singleSwap_val h4
  apply orderOf_eq_prime
  · ext x
    rw [pow_succ, pow_one, Perm.mul_apply, key, key, Perm.one_apply]
    repeat' split
    all_goals omega
  · intro h
    have := key ⟨2, by omega⟩
    rw [h] at this
    simp at this

/-- Plain Bob on every stage: with a bob at the same lead end of each course (whichever it is) it
comes round after three courses, and with a single after two. -/
theorem C100_plain_bob (name : String) (h4 : 4 ≤ n) (h22 : n ≤ 22) (text : List Char) (courses : Nat)
    (h : (text, courses) ∈ [(bobText n, 3), (singleText n, 2)]) :
    ∃ pn callPn m bob single, PnBlock.parse (plainBobText n) ⟨n⟩ = .ok (.ok pn) ∧
      PnBlock.parse text ⟨n⟩ = .ok (.ok callPn) ∧ (Method.withLeadEnd name pn).Returns m ∧
      Call.leBob callPn = .ok bob ∧ Call.leSingle callPn = .ok single ∧
      ∀ c ∈ [bob, single], ∃ i called, m.labelIndices c.location = [i] ∧
        spliceCall m.firstLead (c.block.mapAnnots fun _ => none) i c.coverLen =
          .ok (some (called, .ok ())) ∧
        ∀ j < n - 1, ∀ times, ∃ touch r,
          ringTouch ⟨n⟩ (oneCallTouch m.firstLead called (n - 1) j times) = .ok (touch, .ok ()) ∧
          touch.len = times * ((n - 1) * (2 * n)) ∧ touch.leftoverRow = .ok r ∧
          (r.isRounds = true ↔ courses ∣ times) := by
  obtain ⟨υ, hu, hp, ho⟩ : ∃ υ : Perm (Fin n), IsChange υ ∧
      PnBlock.parse text ⟨n⟩ = .ok (.ok ⟨[υ].map PlaceNot.ofChange⟩) ∧
      orderOf (bobChange n * υ) = courses := by
    simp only [List.mem_cons, Prod.mk.injEq, List.not_mem_nil, or_false] at h
    rcases h with ⟨rfl, rfl⟩ | ⟨rfl, rfl⟩
    · exact ⟨bobCall h4, bobCall_isChange h4,
        parse_call (by omega) (by omega) _ (bobCall_isChange h4) _ (display_bobCall h4 (by omega)),
        order_bobCall h4⟩
    · exact ⟨singleCall n, singleCall_isChange,
        parse_call (by omega) (by omega) _ singleCall_isChange _ (display_singleCall h4 (by omega)),
        order_singleCall h4⟩
  have hc : ∀ σ ∈ bobChanges n, IsChange σ := by
    intro σ hσ
    simp only [bobChanges, List.mem_append, List.mem_map, List.mem_singleton] at hσ
    rcases hσ with ⟨i, -, rfl⟩ | rfl
    · exact huntChange_isChange i
    · exact bobChange_isChange
  obtain ⟨m, bob, single, course, k, h1, h2, h3, h5, h6, h7, h8⟩ :=
    C100_one_call name (by omega) h22 ((List.range (2 * n - 1)).map (huntChange n)) (bobChange n) υ hc hu
  obtain ⟨m', h1', ⟨lead, l, g5, g6, -⟩, -⟩ :=
    (C49_with_lead_end name (by omega) (bobChanges n) (by simp [bobChanges]) hc).1 h22
  obtain rfl : m = m' := run_returns_unique h1 h1'
  have he := follows_unique (follows_bob (by omega)) g5
  obtain ⟨e1, e2⟩ := List.append_inj' he rfl
  obtain rfl := e1
  obtain rfl : bobHead n = l := by simpa using e2
  have hbl : (bobChanges n).length = 2 * n := by simp [bobChanges]; omega
  have hll : m.leadLen = 2 * n := by
    unfold Method.leadLen
    rw [g6]
    simp [AnnotBlock.len, AnnotBlock.ofPerms, hbl]
    omega
  have hk : k = n - 1 := by
    obtain ⟨course', q1, -, q2, -⟩ := C48_plain_course (by omega) m _ _ _ g6
      (by simp [huntLead, hbl]; omega)
      (by
        have := g5.2.1
        rw [show 2 * n = 2 * n - 1 + 1 by omega, huntLead, List.range_succ_eq_map]
        simp [huntRow])
    obtain rfl := run_returns_unique h5 q1
    rw [q2, orderOf_bobHead (by omega), hll] at h6
    exact (Nat.eq_of_mul_eq_mul_right (by omega) h6).symm
  subst hk
  refine ⟨_, _, m, bob, single, parse_plainBob h4 (by omega), hp, h1, h2, h3, ?_⟩
  intro c hcm
  obtain ⟨i, called, e1, e2, -, -, -, powers, -, -, -, -, e4, e3⟩ := h8 c hcm
  refine ⟨i, called, e1, e2, ?_⟩
  intro j hj times
  obtain ⟨touch, r, f1, f2, f3, f4⟩ := e3 j hj times
  exact ⟨touch, r, f1, by rw [f2, h6, hll], f3, by rw [f4, e4, ho]⟩

/-- The texts on six and on seven bells. -/
example : plainBobText 6 = "-.16.-.16.-.16,12".toList ∧ bobText 6 = "14".toList ∧
    singleText 6 = "1234".toList ∧ bobText 7 = "147".toList ∧ singleText 7 = "12347".toList := by decide +kernel

end Bellframe.Props
