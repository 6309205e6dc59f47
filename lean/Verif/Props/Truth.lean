import Verif.Spec.Truth
import Verif.Props.Touch
import Verif.Props.HashSet
import Mathlib.Data.Fintype.Perm

/-! # C99: the truth of courses and touches -/

namespace Bellframe.Props

open Equiv

variable {n : Nat} {A B : Type}

theorem rings_iff (hn : 0 < n) (σs : List (Perm (Fin n))) (l : Perm (Fin n)) (annots : List A)
    (h : σs.length = annots.length) (i : Nat) (r : Row) :
    (AnnotBlock.ofPerms σs l annots).Rings i r ↔ ∃ σ, σs[i]? = some σ ∧ r = .ofPerm σ := by
  unfold AnnotBlock.Rings
  rw [AnnotBlock.getRow_ofPerms hn, show (AnnotBlock.ofPerms σs l annots).len = annots.length from rfl, ← h]
  constructor
  · rintro ⟨hi, h2⟩
    rw [List.getElem?_append_left hi, List.getElem?_eq_getElem hi] at h2
    exact ⟨_, List.getElem?_eq_getElem hi, (Option.some.inj h2).symm⟩
  · rintro ⟨σ, h1, rfl⟩
    have hi := (List.getElem?_eq_some_iff.1 h1).1
    rw [List.getElem?_append_left hi, h1]
    exact ⟨hi, rfl⟩

theorem true_iff_nodup (hn : 0 < n) (σs : List (Perm (Fin n))) (l : Perm (Fin n)) (annots : List A)
    (h : σs.length = annots.length) :
    (AnnotBlock.ofPerms σs l annots).IsTrue ↔ σs.Nodup := by
  unfold AnnotBlock.IsTrue
  simp only [rings_iff hn σs l annots h]
  constructor
  · intro H
    rw [List.nodup_iff_injective_getElem]
    intro i j hij
    have := H i.1 j.1 (.ofPerm σs[i.1]) ⟨_, List.getElem?_eq_getElem i.2, rfl⟩
      ⟨_, List.getElem?_eq_getElem j.2, by simp only at hij; rw [hij]⟩
    exact Fin.ext this
  · rintro H i j r ⟨σ, h1, rfl⟩ ⟨τ, h2, h3⟩
    rw [Row.ofPerm_inj] at h3
    subst h3
    obtain ⟨hi, e1⟩ := List.getElem?_eq_some_iff.1 h1
    obtain ⟨hj, e2⟩ := List.getElem?_eq_some_iff.1 h2
    exact (List.Nodup.getElem_inj_iff H).1 (e1.trans e2.symm)

theorem against_iff_disjoint (hn : 0 < n) (σs τs : List (Perm (Fin n))) (l l' : Perm (Fin n))
    (annots : List A) (bnnots : List B) (h : σs.length = annots.length) (h' : τs.length = bnnots.length) :
    (AnnotBlock.ofPerms σs l annots).TrueAgainst (.ofPerms τs l' bnnots) ↔ σs.Disjoint τs := by
  unfold AnnotBlock.TrueAgainst
  simp only [rings_iff hn σs l annots h, rings_iff hn τs l' bnnots h']
  constructor
  · intro H σ h1 h2
    obtain ⟨i, hi, rfl⟩ := List.getElem_of_mem h1
    obtain ⟨j, hj, e⟩ := List.getElem_of_mem h2
    exact H i j _ ⟨_, List.getElem?_eq_getElem hi, rfl⟩ ⟨_, List.getElem?_eq_getElem hj, by rw [e]⟩
  · rintro H i j r ⟨σ, h1, rfl⟩ ⟨τ, h2, h3⟩
    rw [Row.ofPerm_inj] at h3
    subst h3
    exact H (List.mem_of_getElem? h1) (List.mem_of_getElem? h2)

theorem falseLeadHead_iff (hn : 0 < n) (σs τs : List (Perm (Fin n))) (l l' : Perm (Fin n))
    (annots : List A) (bnnots : List B) (h : σs.length = annots.length) (h' : τs.length = bnnots.length)
    (x : Perm (Fin n)) :
    FalseLeadHead (.ofPerms σs l annots) (.ofPerms τs l' bnnots) (.ofPerm x) ↔
      ∃ σ ∈ σs, ∃ τ ∈ τs, x * τ = σ := by
  unfold FalseLeadHead
  simp only [rings_iff hn σs l annots h, rings_iff hn τs l' bnnots h']
  constructor
  · rintro ⟨i, j, r, s, ⟨σ, h1, rfl⟩, ⟨τ, h2, rfl⟩, h3⟩
    rw [Row.solveXa_ofPerm hn] at h3
    have := Row.ofPerm_inj.1 (Except.ok.inj (Except.ok.inj h3))
    exact ⟨σ, List.mem_of_getElem? h1, τ, List.mem_of_getElem? h2, by rw [← this]; group⟩
  · rintro ⟨σ, h1, τ, h2, h3⟩
    obtain ⟨i, hi, rfl⟩ := List.getElem_of_mem h1
    obtain ⟨j, hj, rfl⟩ := List.getElem_of_mem h2
    refine ⟨i, j, _, _, ⟨_, List.getElem?_eq_getElem hi, rfl⟩, ⟨_, List.getElem?_eq_getElem hj, rfl⟩, ?_⟩
    rw [Row.solveXa_ofPerm hn, ← h3]
    congr 3
    group

theorem disjoint_mul_iff (σs τs : List (Perm (Fin n))) (h k : Perm (Fin n)) :
    (σs.map (h * ·)).Disjoint (τs.map (k * ·)) ↔ ¬ ∃ σ ∈ σs, ∃ τ ∈ τs, h⁻¹ * k * τ = σ := by
  constructor
  · rintro H ⟨σ, h1, τ, h2, h3⟩
    refine H (List.mem_map_of_mem h1) ?_
    rw [List.mem_map]
    exact ⟨τ, h2, by rw [← h3]; group⟩
  · intro H x h1 h2
    obtain ⟨σ, h1', rfl⟩ := List.mem_map.1 h1
    obtain ⟨τ, h2, h3⟩ := List.mem_map.1 h2
    refine H ⟨σ, h1', τ, h2, ?_⟩
    rw [mul_assoc, h3]
    group

/-- Two leads rung from the lead heads `p` and `q` have no row in common if and only if the transposition from `p`
to `q` is not a false lead head.  So whether leads are false against each other can be looked up, once the
false lead heads are known. -/
theorem C99_leads (b : AnnotBlock A) (c : AnnotBlock B) (hb : b.WellFormed) (hc : c.WellFormed)
    (hs : b.stage = c.stage) (p q : Row) (hp : p.Valid) (hq : q.Valid)
    (hps : p.bells.length = b.stage.numBells) (hqs : q.bells.length = b.stage.numBells) :
    ∃ b' c' x, b.preMultiply p = .ok (b', .ok ()) ∧ c.preMultiply q = .ok (c', .ok ()) ∧
      p.solveAxEqualsB q = .ok (.ok x) ∧ (b'.TrueAgainst c' ↔ ¬ FalseLeadHead b c x) := by
  obtain ⟨n, hn, σs, l, annots, h1, rfl⟩ := (C26_wellFormed_iff b).1 hb
  obtain ⟨n', hn', τs, l', bnnots, h2, rfl⟩ := (C26_wellFormed_iff c).1 hc
  obtain rfl : n = n' := congrArg Stage.numBells hs
  obtain ⟨k, hk, π, rfl⟩ := Row.valid_iff_exists_perm.1 hp
  obtain rfl : k = n := by rw [Row.ofPerm_length] at hps; exact hps
  obtain ⟨k', hk', κ, rfl⟩ := Row.valid_iff_exists_perm.1 hq
  obtain rfl : k' = k := by rw [Row.ofPerm_length] at hqs; exact hqs
  refine ⟨_, _, .ofPerm (π⁻¹ * κ), AnnotBlock.preMultiply_ofPerms hn _ _ _ _,
    AnnotBlock.preMultiply_ofPerms hn _ _ _ _, ?_, ?_⟩
  · simp [Row.solveAxEqualsB, Row.inv_ofPerm hn, Row.mulResult_ofPerm hn]
  · rw [against_iff_disjoint hn _ _ _ _ _ _ (by simpa using h1) (by simpa using h2),
      falseLeadHead_iff hn _ _ _ _ _ _ h1 h2, disjoint_mul_iff]

/-- The lead 123, 213 is false against the same lead from 213, and true against the one from 132. -/
example : let b := AnnotBlock.ofPerms (n := 3) [1, swap 0 1] (swap 0 1 * swap 1 2) [(), ()]
    b.WellFormed ∧ FalseLeadHead b b (.ofPerm (swap (0 : Fin 3) 1)) ∧
    ¬ FalseLeadHead b b (.ofPerm (swap (1 : Fin 3) 2)) := by
  refine ⟨AnnotBlock.ofPerms_wellFormed (by omega) rfl, ?_, ?_⟩ <;>
    rw [falseLeadHead_iff (by omega) _ _ _ _ _ _ (by rfl) (by rfl)] <;> decide +kernel

theorem mem_closure_iff (τ x : Perm (Fin n)) (cl : List Row) (h : (Row.ofPerm τ).closure.Returns cl) :
    Row.ofPerm x ∈ cl ↔ ∃ q, x = τ ^ q := by
  obtain ⟨l, h1, h2, -, h3, -⟩ := C16_closure τ
  obtain rfl : l = cl := Except.ok.inj (Option.some.inj (Eq.trans (Eq.symm h1) h))
  constructor
  · intro hm
    obtain ⟨i, hi, he⟩ := List.getElem_of_mem hm
    have := h3 i hi
    rw [List.getElem?_eq_getElem hi, he] at this
    exact ⟨i + 1, Row.ofPerm_inj.1 (Option.some.inj this)⟩
  · rintro ⟨q, rfl⟩
    have hpos := orderOf_pos τ
    have hlt : (q + orderOf τ - 1) % orderOf τ < l.length := by rw [h2]; exact Nat.mod_lt _ hpos
    have := h3 _ hlt
    have he : τ ^ ((q + orderOf τ - 1) % orderOf τ + 1) = τ ^ q := by
      rw [pow_succ, pow_mod_orderOf, ← pow_succ, show q + orderOf τ - 1 + 1 = q + orderOf τ by omega,
        pow_add, pow_orderOf_eq_one, mul_one]
    rw [he] at this
    exact List.mem_of_getElem? this

/-- The plain course of a method is true if and only if no two rows of the first lead, at different places, differ
by a row of the closure of the lead head: what turns one into the other is not the lead head of any lead. -/
theorem C99_course (hn : 0 < n) (m : Method) (lead : List (Perm (Fin n))) (τ : Perm (Fin n))
    (annots : List (Option String)) (hm : m.firstLead = .ofPerms lead τ annots)
    (hlen : lead.length = annots.length) (h0 : lead.head? = some 1) :
    ∃ course leadHead leadHeads, m.plainCourse.Returns course ∧ m.leadHead = .ok leadHead ∧
      leadHead.closure.Returns leadHeads ∧
      (course.IsTrue ↔ ∀ i j r s x, i < j → m.firstLead.Rings i r → m.firstLead.Rings j s →
        r.solveXaEqualsB s = .ok (.ok x) → x ∉ leadHeads) := by
  have hne : lead ≠ [] := by rintro rfl; simp at h0
  have hpos : 0 < lead.length := List.length_pos_of_ne_nil hne
  have hrow := C48_row_in_plain_course hn m lead τ annots hm hlen hne
  obtain ⟨course, h1, -, h2, -, h3, -⟩ := C48_plain_course hn m lead τ annots hm hlen h0
  obtain ⟨cl, h4, -⟩ := C16_closure τ
  have hll := (hrow 0).2.1
  have hord := orderOf_pos τ
  refine ⟨course, _, cl, h1, (hrow 0).2.2.1, h4, ?_⟩
  have hr : ∀ k r, course.Rings k r ↔ k < orderOf τ * lead.length ∧ r = .ofPerm (courseRow lead τ k) := by
    intro k r
    unfold AnnotBlock.Rings
    rw [h2, hll]
    refine and_congr_right fun hk => ?_
    obtain ⟨r', label, e1, -, e2⟩ := h3 k (by rw [h2, hll]; exact hk)
    have e3 : course.getRow k = some r' := by
      unfold AnnotBlock.getAnnotRow at e2
      cases hg : course.getRow k with
      | none => rw [hg] at e2; simp at e2
      | some y =>
        rw [hg] at e2
        cases ha : course.getAnnot k with
        | none => rw [ha] at e2; simp at e2
        | some z => rw [ha] at e2; simp at e2; rw [e2.1]
    rw [(hrow k).1] at e1
    rw [e3, ← Except.ok.inj e1, Option.some.injEq, eq_comm]
  have hcr : ∀ q i (hi : i < lead.length), courseRow lead τ (q * lead.length + i) = τ ^ q * lead[i] := by
    intro q i hi
    unfold courseRow
    rw [Nat.add_comm, Nat.add_mul_div_right _ _ hpos, Nat.div_eq_of_lt hi, Nat.add_mul_mod_self_right,
      Nat.mod_eq_of_lt hi, List.getElem?_eq_getElem hi, Nat.zero_add]
    rfl
  simp only [hm, rings_iff hn lead τ annots hlen]
  constructor
  · rintro H i j r s x hij ⟨σ, e1, rfl⟩ ⟨σ', e2, rfl⟩ e3 hx
    rw [Row.solveXa_ofPerm hn] at e3
    obtain rfl := Except.ok.inj (Except.ok.inj e3)
    obtain ⟨q, hq⟩ := (mem_closure_iff τ _ cl h4).1 hx
    obtain ⟨hi, rfl⟩ := List.getElem?_eq_some_iff.1 e1
    obtain ⟨hj, rfl⟩ := List.getElem?_eq_some_iff.1 e2
    have hq' : τ ^ (q % orderOf τ) * lead[i] = lead[j] := by
      rw [pow_mod_orderOf, ← hq]
      group
    have hqlt := Nat.mod_lt q hord
    have := H ((q % orderOf τ) * lead.length + i) j (.ofPerm lead[j])
      ((hr _ _).2 ⟨by
        calc _ < (q % orderOf τ) * lead.length + lead.length := by omega
          _ = (q % orderOf τ + 1) * lead.length := by rw [Nat.add_mul, Nat.one_mul]
          _ ≤ _ := Nat.mul_le_mul_right _ hqlt, by rw [hcr _ _ hi, hq']⟩)
      ((hr _ _).2 ⟨lt_of_lt_of_le hj (Nat.le_mul_of_pos_left _ hord), by
        have := hcr 0 j hj
        rw [Nat.zero_mul, Nat.zero_add] at this
        rw [this, pow_zero, one_mul]⟩)
    have h5 := congrArg (· % lead.length) this
    simp only [Nat.mul_add_mod_self_right, Nat.mod_eq_of_lt hi, Nat.mod_eq_of_lt hj] at h5
    omega
  · intro H k k' r e1 e2
    obtain ⟨hk, rfl⟩ := (hr _ _).1 e1
    obtain ⟨hk', e3⟩ := (hr _ _).1 e2
    rw [Row.ofPerm_inj] at e3
    have hmi := Nat.mod_lt k hpos
    have hmj := Nat.mod_lt k' hpos
    have hda : k / lead.length < orderOf τ := Nat.div_lt_of_lt_mul (by rw [Nat.mul_comm]; exact hk)
    have hdb : k' / lead.length < orderOf τ := Nat.div_lt_of_lt_mul (by rw [Nat.mul_comm]; exact hk')
    have ek : courseRow lead τ k = τ ^ (k / lead.length) * lead[k % lead.length] := by
      unfold courseRow
      rw [List.getElem?_eq_getElem hmi]
      rfl
    have ek' : courseRow lead τ k' = τ ^ (k' / lead.length) * lead[k' % lead.length] := by
      unfold courseRow
      rw [List.getElem?_eq_getElem hmj]
      rfl
    rw [ek, ek'] at e3
    have key : ∀ a b i j (hi : i < lead.length) (hj : j < lead.length), b < orderOf τ → i < j →
        τ ^ a * lead[i] = τ ^ b * lead[j] → False := by
      intro a b i j hi hj hb hij he
      refine H i j _ _ (.ofPerm (lead[j] * lead[i]⁻¹)) hij ⟨_, List.getElem?_eq_getElem hi, rfl⟩
        ⟨_, List.getElem?_eq_getElem hj, rfl⟩ (Row.solveXa_ofPerm hn _ _) ?_
      rw [mem_closure_iff τ _ cl h4]
      refine ⟨orderOf τ - b + a, ?_⟩
      have h6 : τ ^ (orderOf τ - b) * τ ^ b = 1 := by
        rw [← pow_add, Nat.sub_add_cancel hb.le, pow_orderOf_eq_one]
      rw [pow_add, mul_inv_eq_iff_eq_mul, mul_assoc, he, ← mul_assoc, h6, one_mul]
    rcases Nat.lt_trichotomy (k % lead.length) (k' % lead.length) with hlt | heq | hgt
    · exact (key _ _ _ _ hmi hmj hdb hlt e3).elim
    · have h7 : τ ^ (k / lead.length) = τ ^ (k' / lead.length) := by
        have : lead[k % lead.length] = lead[k' % lead.length] := by simp only [heq]
        rw [this] at e3
        exact mul_right_cancel e3
      have h8 := pow_injOn_Iio_orderOf (x := τ) hda hdb h7
      rw [← Nat.div_add_mod k lead.length, ← Nat.div_add_mod k' lead.length, h8, heq]
    · exact (key _ _ _ _ hmj hmi hda hgt e3.symm).elim

/-- Two methods of two rows a lead: one is true, the other, whose lead head is its second row, is false, because
the second row of the first lead is the first row of the second. -/
example : (∀ m : Method, m.firstLead = .ofPerms [1, swap 0 1] (swap 0 1 * swap 1 2 : Perm (Fin 3)) [none, none] →
      ∃ course, m.plainCourse.Returns course ∧ course.IsTrue) ∧
    (∀ m : Method, m.firstLead = .ofPerms [1, swap 0 1] (swap 0 1 : Perm (Fin 3)) [none, none] →
      ∃ course, m.plainCourse.Returns course ∧ ¬ course.IsTrue) := by
  constructor
  · intro m hm
    obtain ⟨course, h, cl, h1, h2, h3, h4⟩ := C99_course (by omega) m _ _ _ hm rfl rfl
    refine ⟨course, h1, h4.2 ?_⟩
    have hh := (C48_row_in_plain_course (by omega) m _ _ _ hm rfl (by simp) 0).2.2.1
    rw [hh] at h2
    cases h2
    rw [hm]
    simp only [rings_iff (n := 3) (by omega) [1, swap 0 1] (swap 0 1 * swap 1 2) [none, none] rfl]
    rintro i j r s x hij ⟨σ, e1, rfl⟩ ⟨σ', e2, rfl⟩ e3 hx
    have hj := (List.getElem?_eq_some_iff.1 e2).1
    simp only [List.length_cons, List.length_nil] at hj
    obtain rfl : j = 1 := by omega
    obtain rfl : i = 0 := by omega
    simp only [List.getElem?_cons_zero, List.getElem?_cons_succ, Option.some.injEq] at e1 e2
    subst e1 e2
    rw [Row.solveXa_ofPerm (by omega)] at e3
    obtain rfl := Except.ok.inj (Except.ok.inj e3)
    obtain ⟨q, hq⟩ := (mem_closure_iff _ _ cl h3).1 hx
    have h5 := congrArg Perm.sign hq
    rw [map_pow] at h5
    revert h5
    rw [show Perm.sign ((swap 0 1 : Perm (Fin 3)) * 1⁻¹) = -1 by decide,
      show Perm.sign ((swap 0 1 : Perm (Fin 3)) * swap 1 2) = 1 by decide, one_pow]
    decide
  · intro m hm
    obtain ⟨course, h, cl, h1, h2, h3, h4⟩ := C99_course (by omega) m _ _ _ hm rfl rfl
    refine ⟨course, h1, fun h5 => ?_⟩
    have hh := (C48_row_in_plain_course (by omega) m _ _ _ hm rfl (by simp) 0).2.2.1
    rw [hh] at h2
    cases h2
    refine h4.1 h5 0 1 (.ofPerm (1 : Perm (Fin 3))) (.ofPerm (swap (0 : Fin 3) 1)) (.ofPerm (swap (0 : Fin 3) 1)) (by omega) ?_ ?_ ?_ ?_
    · rw [hm, rings_iff (by omega) _ _ _ (by rfl)]
      exact ⟨1, rfl, rfl⟩
    · rw [hm, rings_iff (by omega) _ _ _ (by rfl)]
      exact ⟨_, rfl, rfl⟩
    · rw [Row.solveXa_ofPerm (by omega)]
      simp
    · rw [mem_closure_iff _ _ cl h3]
      exact ⟨1, by simp⟩

/-- The rows rung by changes: the product of each beginning. -/
def beginnings (τs : List (Perm (Fin n))) : List (Perm (Fin n)) :=
  (List.range τs.length).map fun t => (τs.take t).prod

theorem beginnings_append (τs υs : List (Perm (Fin n))) :
    beginnings (τs ++ υs) = beginnings τs ++ (beginnings υs).map (τs.prod * ·) := by
  unfold beginnings
  rw [List.length_append, List.range_add, List.map_append, List.map_map, List.map_map]
  congr 1
  · apply List.map_congr_left
    intro t ht
    rw [List.mem_range] at ht
    rw [List.take_append_of_le_length (by omega)]
  · apply List.map_congr_left
    intro t _
    simp [List.take_append, List.take_of_length_le]

theorem prod_flatMap (ls : List (List (Perm (Fin n)) × List A)) :
    (ls.flatMap (·.1)).prod = (ls.map (·.1.prod)).prod := by
  induction ls with
  | nil => rfl
  | cons x ls ih => rw [List.flatMap_cons, List.prod_append, ih, List.map_cons, List.prod_cons]

theorem beginnings_flatMap (leads : List (List (Perm (Fin n)) × List A)) :
    beginnings (leads.flatMap (·.1)) =
      ((List.range leads.length).map fun a =>
        (beginnings (leads[a]?.elim [] (·.1))).map (((leads.take a).map (·.1.prod)).prod * ·)).flatten := by
  induction leads using List.reverseRecOn with
  | nil => rfl
  | append_singleton ls x ih =>
    rw [List.flatMap_append, beginnings_append, ih, prod_flatMap, List.length_append, List.length_singleton,
      List.range_succ, List.map_append, List.flatten_append]
    congr 1
    · congr 1
      apply List.map_congr_left
      intro a ha
      rw [List.mem_range] at ha
      rw [List.getElem?_append_left ha, List.take_append_of_le_length ha.le]
    · simp

theorem nodup_map_mul (h : Perm (Fin n)) (l : List (Perm (Fin n))) : (l.map (h * ·)).Nodup ↔ l.Nodup :=
  List.nodup_map_iff (mul_right_injective h)

/-- A touch is true if and only if each of its leads is, and for any two of its leads what turns the first lead head
into the second is no false lead head of the two leads. The lead head of each lead is the product of the lead
heads of the leads before it. -/
theorem C99_touch (hn : 0 < n) (leads : List (List (Perm (Fin n)) × List A))
    (h : ∀ x ∈ leads, x.1.length = x.2.length) (touch : AnnotBlock A)
    (ht : ringTouch ⟨n⟩ (leads.map fun x => .rung x.1 x.2) = .ok (touch, .ok ())) :
    let leadHead a := Row.ofPerm ((leads.take a).map (·.1.prod)).prod
    touch.IsTrue ↔
      (∀ x ∈ leads, (AnnotBlock.rung x.1 x.2).IsTrue) ∧
      ∀ a b x y z, a < b → leads[a]? = some x → leads[b]? = some y →
        (leadHead a).solveAxEqualsB (leadHead b) = .ok (.ok z) →
        ¬ FalseLeadHead (.rung x.1 x.2) (.rung y.1 y.2) z := by
  intro leadHead
  obtain ⟨t, h1, h2, -, -⟩ := C97_touch hn leads h
  rw [h1] at ht
  cases ht
  subst h2
  have hlen : (leads.flatMap (·.1)).length = (leads.flatMap (·.2)).length := by
    clear h1
    induction leads with
    | nil => rfl
    | cons x ls ih =>
      rw [List.flatMap_cons, List.flatMap_cons, List.length_append, List.length_append, h x (by simp),
        ih (fun y hy => h y (by simp [hy]))]
  have hb : ∀ τs : List (Perm (Fin n)), (beginnings τs).length = τs.length := by
    intro τs; simp [beginnings]
  have e1 : (AnnotBlock.rung (leads.flatMap (·.1)) (leads.flatMap (·.2))).IsTrue ↔
      (beginnings (leads.flatMap (·.1))).Nodup := true_iff_nodup hn _ _ _ (by rw [← hlen]; exact hb _)
  rw [e1, beginnings_flatMap, List.nodup_flatten]
  refine and_congr ?_ ?_
  · simp only [List.mem_map, List.mem_range, forall_exists_index, and_imp, forall_apply_eq_imp_iff₂]
    constructor
    · intro H x hx
      obtain ⟨a, ha, rfl⟩ := List.getElem_of_mem hx
      have := H a ha
      rw [nodup_map_mul, List.getElem?_eq_getElem ha] at this
      exact (true_iff_nodup hn _ _ _ (by rw [← h _ hx]; exact hb _)).2 this
    · intro H a ha
      rw [nodup_map_mul, List.getElem?_eq_getElem ha]
      have hx := List.getElem_mem ha
      exact (true_iff_nodup hn _ _ _ (by rw [← h _ hx]; exact hb _)).1 (H _ hx)
  · rw [List.pairwise_iff_getElem]
    simp only [List.length_map, List.length_range, List.getElem_map, List.getElem_range]
    have key : ∀ a b (ha : a < leads.length) (hb' : b < leads.length),
        List.Disjoint
          ((beginnings (leads[a]?.elim [] (·.1))).map (((leads.take a).map (·.1.prod)).prod * ·))
          ((beginnings (leads[b]?.elim [] (·.1))).map (((leads.take b).map (·.1.prod)).prod * ·)) ↔
        ¬ FalseLeadHead (.rung leads[a].1 leads[a].2) (.rung leads[b].1 leads[b].2)
          (.ofPerm (((leads.take a).map (·.1.prod)).prod⁻¹ * ((leads.take b).map (·.1.prod)).prod)) := by
      intro a b ha hb'
      rw [disjoint_mul_iff, List.getElem?_eq_getElem ha, List.getElem?_eq_getElem hb']
      exact not_congr (falseLeadHead_iff hn _ _ _ _ _ _ (by rw [← h _ (List.getElem_mem ha)]; exact hb _)
        (by rw [← h _ (List.getElem_mem hb')]; exact hb _) _).symm
    have hz : ∀ a b, (leadHead a).solveAxEqualsB (leadHead b) =
        .ok (.ok (.ofPerm (((leads.take a).map (·.1.prod)).prod⁻¹ * ((leads.take b).map (·.1.prod)).prod))) := by
      intro a b
      simp [leadHead, Row.solveAxEqualsB, Row.inv_ofPerm hn, Row.mulResult_ofPerm hn]
    constructor
    · intro H a b x y z hab hx hy hz'
      obtain ⟨ha, rfl⟩ := List.getElem?_eq_some_iff.1 hx
      obtain ⟨hb', rfl⟩ := List.getElem?_eq_some_iff.1 hy
      rw [hz] at hz'
      obtain rfl := Except.ok.inj (Except.ok.inj hz')
      exact (key a b ha hb').1 (H a b ha hb' hab)
    · intro H a b ha hb' hab
      exact (key a b ha hb').2 (H a b _ _ _ hab (List.getElem?_eq_getElem ha) (List.getElem?_eq_getElem hb')
        (hz a b))

/-- Two leads of two changes on three bells: joined they are a true touch if the second is the first one backwards
after another change, and a false one if the second is the first one backwards. -/
example : ∃ leads leads' : List (List (Perm (Fin 3)) × List Unit),
    (∀ x ∈ leads ++ leads', x.1.length = x.2.length) ∧
    (beginnings (leads.flatMap (·.1))).Nodup ∧ ¬ (beginnings (leads'.flatMap (·.1))).Nodup :=
  ⟨[([swap 0 1, swap 1 2], [(), ()]), ([swap 0 1, swap 1 2], [(), ()])],
    [([swap 0 1, swap 1 2], [(), ()]), ([swap 1 2, swap 0 1], [(), ()])], by simp, by decide, by decide⟩

/-- A true block has at most `n!` rows; it has as many if and only if it is an extent, that is all rows of its stage
are rung. -/
theorem C99_extent (b : AnnotBlock A) (hb : b.WellFormed) (ht : b.IsTrue) :
    b.len ≤ b.stage.numBells.factorial ∧
    (b.len = b.stage.numBells.factorial ↔
      ∀ r : Row, r.Valid → r.bells.length = b.stage.numBells → ∃ i, b.Rings i r) := by
  obtain ⟨n, hn, σs, l, annots, h1, rfl⟩ := (C26_wellFormed_iff b).1 hb
  have hnd := (true_iff_nodup hn σs l annots h1).1 ht
  have hlen : (AnnotBlock.ofPerms σs l annots).len = σs.length := h1.symm
  have hst : (AnnotBlock.ofPerms σs l annots).stage.numBells = n := rfl
  have hcard : Fintype.card (Perm (Fin n)) = n.factorial := by rw [Fintype.card_perm, Fintype.card_fin]
  rw [hlen, hst, ← hcard]
  refine ⟨hnd.length_le_card, ?_⟩
  simp only [rings_iff hn σs l annots h1]
  have hmem : (σs.length = Fintype.card (Perm (Fin n))) ↔ ∀ σ, σ ∈ σs := by
    rw [← List.toFinset_card_of_nodup hnd, Finset.card_eq_iff_eq_univ, Finset.eq_univ_iff_forall]
    simp
  rw [hmem]
  constructor
  · intro H r hr hrl
    obtain ⟨k, hk, π, rfl⟩ := Row.valid_iff_exists_perm.1 hr
    obtain rfl : k = n := by rw [Row.ofPerm_length] at hrl; exact hrl
    obtain ⟨i, hi, e⟩ := List.getElem_of_mem (H π)
    exact ⟨i, π, by rw [List.getElem?_eq_getElem hi, e], rfl⟩
  · intro H σ
    obtain ⟨i, σ', e1, e2⟩ := H (.ofPerm σ) (Row.ofPerm_valid hn σ) (Row.ofPerm_length σ)
    rw [Row.ofPerm_inj] at e2
    exact e2 ▸ List.mem_of_getElem? e1

/-- The six rows of three bells. -/
example :
    let τs : List (Perm (Fin 3)) := [swap 0 1, swap 1 2, swap 0 1, swap 1 2, swap 0 1, swap 1 2]
    let b : AnnotBlock Unit := .rung τs (List.replicate 6 ())
    b.WellFormed ∧ b.IsTrue ∧ b.len = b.stage.numBells.factorial := by
  refine ⟨AnnotBlock.ofPerms_wellFormed (by omega) rfl, ?_, rfl⟩
  unfold AnnotBlock.rung
  rw [true_iff_nodup (by omega) _ _ _ (by rfl)]
  decide

/-- How truth can be tested: by collecting the rows in a hash set, with any hasher, which has as many elements as
the block has rows if and only if the block is true; or by comparing `fast_hash`es, as long as `n ^ n` is not
greater than the number of words. -/
theorem C99_tests (b : AnnotBlock A) (hb : b.WellFormed) (H : Hasher) (size : HashTable RowBuf → Nat) (w : Nat)
    (hw : b.stage.numBells ^ b.stage.numBells ≤ 2 ^ w) :
    ∃ it rows hashes, b.rowsIter = .ok it ∧ it.collect = .ok rows ∧
      (b.IsTrue ↔ (HashTable.collect H size RowBuf.hashWrites RowBuf.beq
        (rows.map Row.toOwned)).elems.length = b.len) ∧
      rows.mapM (Row.fastHash (.wrapping w)) = .ok hashes ∧ (b.IsTrue ↔ hashes.Nodup) := by
  obtain ⟨n, hn, σs, l, annots, h1, rfl⟩ := (C26_wellFormed_iff b).1 hb
  have hst : (AnnotBlock.ofPerms σs l annots).stage.numBells = n := rfl
  rw [hst] at hw
  have hlen : (AnnotBlock.ofPerms σs l annots).len = σs.length := h1.symm
  have hf : ∀ σ : Perm (Fin n), ∃ x, Row.fastHash (.wrapping w) (.ofPerm σ) = .ok x := by
    intro σ
    obtain ⟨x, -, e, -⟩ := C20_wrapping_injective w (.ofPerm σ) (.ofPerm σ) (Row.ofPerm_valid hn σ)
      (Row.ofPerm_valid hn σ) rfl (by rw [Row.ofPerm_length]; exact hw)
    exact ⟨x, e⟩
  choose f hf using hf
  have hinj : Function.Injective f := by
    intro σ τ e
    obtain ⟨x, y, e1, e2, e3⟩ := C20_wrapping_injective w (.ofPerm σ) (.ofPerm τ) (Row.ofPerm_valid hn σ)
      (Row.ofPerm_valid hn τ) (by simp) (by rw [Row.ofPerm_length]; exact hw)
    rw [hf] at e1 e2
    rw [← Except.ok.inj e1, ← Except.ok.inj e2, Row.ofPerm_inj] at e3
    exact e3.1 e
  refine ⟨_, σs.map Row.ofPerm, σs.map f, AnnotBlock.rowsIter_ofPerms hn _ _ _,
    SameStageVec.collect_ofRows _ (RowsOf.perms hn _), ?_, ?_, ?_⟩
  · rw [true_iff_nodup hn _ _ _ h1, hlen]
    obtain ⟨-, -, e1, e2, -⟩ := C89_sets H size (σs.map Row.ofPerm)
    classical
    have hown : Function.Injective (fun σ : Perm (Fin n) => (Row.ofPerm σ).toOwned) := by
      intro σ τ e
      exact Row.ofPerm_injective (Row.toOwned_inj.1 e)
    have hset : (HashTable.collect H size RowBuf.hashWrites RowBuf.beq
        ((σs.map Row.ofPerm).map Row.toOwned)).elems.toFinset =
        (σs.map fun σ => (Row.ofPerm σ).toOwned).toFinset := by
      ext x
      rw [List.mem_toFinset, List.mem_toFinset, show x = x.borrow.toOwned from rfl, e2]
      simp [Row.toOwned_inj]
    rw [← List.toFinset_card_of_nodup e1, hset, ← List.nodup_map_iff hown]
    constructor
    · intro h
      rw [List.toFinset_card_of_nodup h, List.length_map]
    · intro h
      have := (Multiset.toFinset_card_eq_card_iff_nodup
        (m := ((σs.map fun σ => (Row.ofPerm σ).toOwned : List RowBuf) : Multiset RowBuf))).1
        (by rw [Multiset.coe_card, List.length_map, ← h]; rfl)
      exact Multiset.coe_nodup.1 this
  · clear h1 hlen hst hb
    induction σs with
    | nil => rfl
    | cons σ σs ih => simp [hf, ih]
  · rw [true_iff_nodup hn _ _ _ h1, List.nodup_map_iff hinj]

example : let b := AnnotBlock.ofPerms (n := 3) [1, swap 0 1, 1] (swap 0 1) [(), (), ()]
    b.WellFormed ∧ ¬ b.IsTrue ∧ b.stage.numBells ^ b.stage.numBells ≤ 2 ^ 16 := by
  refine ⟨AnnotBlock.ofPerms_wellFormed (by omega) rfl, ?_, by decide⟩
  rw [true_iff_nodup (by omega) _ _ _ (by rfl)]
  decide

end Bellframe.Props
