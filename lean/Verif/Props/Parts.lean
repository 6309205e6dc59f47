import Verif.Spec.Parts
import Verif.Props.Truth

/-! # C112: touches rung in parts -/

namespace Bellframe.Props

open Equiv

variable {n : Nat} {A : Type}

/-- Joining copies of a block that begins with rounds: copy `q` is rung from the `q`-th power of the part end. -/
theorem ring_copies (hn : 0 < n) (σs : List (Perm (Fin n))) (l : Perm (Fin n)) (annots : List A)
    (h : σs.length = annots.length) (h0 : σs.head? = some 1) (times : Nat) :
    ringTouch ⟨n⟩ (List.replicate times (AnnotBlock.ofPerms σs l annots)) =
      .ok (.ofPerms ((List.range times).flatMap fun q => σs.map (l ^ q * ·)) (l ^ times)
        ((List.range times).flatMap fun _ => annots), .ok ()) := by
  have hempty : (AnnotBlock.empty ⟨n⟩ : Res (AnnotBlock A)) = .ok (.ofPerms ([] : List (Perm (Fin n))) 1 []) := by
    unfold AnnotBlock.empty
    rw [Row.rounds_eq_ofPerm n, SameStageVec.ofRows_fromRowBuf (Row.ofPerm_valid hn 1)]
    simp [AnnotBlock.ofPerms]
  have hf : (1 : Perm (Fin n)) = (σs ++ [l]).head (by simp) := by
    cases σs with
    | nil => simp at h0
    | cons x xs => simp at h0; simp [h0]
  unfold ringTouch
  rw [hempty, Res.ok_bind]
  induction times with
  | zero => rfl
  | succ t ih =>
    rw [List.replicate_succ', List.foldlM_append, ih, Res.ok_bind, List.foldlM_cons]
    unfold touchStep
    simp only
    rw [AnnotBlock.extend_ofPerms hn _ _ _ σs l annots h 1 hf, List.range_succ, List.flatMap_append,
      List.flatMap_append, inv_one, mul_one, ← pow_succ]
    simp

theorem copies_getElem? {α : Type} (l : List α) (f : Nat → α → α) (times k : Nat) (hpos : 0 < l.length) :
    ((List.range times).flatMap fun q => l.map (f q))[k]? =
      if k < times * l.length then l[k % l.length]?.map (f (k / l.length)) else none := by
  induction times with
  | zero => simp
  | succ t ih =>
    have hlen : ((List.range t).flatMap fun q => l.map (f q)).length = t * l.length := by
      simp [List.length_flatMap]
    rw [List.range_succ, List.flatMap_append, List.flatMap_singleton, List.getElem?_append, hlen, ih, Nat.succ_mul]
    by_cases hk : k < t * l.length
    · rw [if_pos hk, if_pos hk, if_pos (by omega)]
    · rw [if_neg hk]
      by_cases hk2 : k < t * l.length + l.length
      · have e : k = (k - t * l.length) + t * l.length := by omega
        have hlt : k - t * l.length < l.length := by omega
        have e1 : k / l.length = t := by
          rw [e, Nat.add_mul_div_right _ _ hpos, Nat.div_eq_of_lt hlt, Nat.zero_add]
        have e2 : k % l.length = k - t * l.length := by
          conv_lhs => rw [e]
          rw [Nat.add_mul_mod_self_right, Nat.mod_eq_of_lt hlt]
        rw [if_pos hk2, e1, e2, List.getElem?_map]
      · rw [if_neg hk2, List.getElem?_eq_none]
        rw [List.length_map]
        omega

/-- Any block that begins with rounds, rung again and again.  The row that is left over, the part end, has a closure
of some number of rows, and that is how many parts bring the touch round: a touch of so many parts, or of a multiple of
it, ends in rounds and no other does.  Row `i` of part `q` is row `i` of the part, rung from the `q`-th part end.  More
parts than that are never true, and exactly that many are true if and only if what turns one row of the part into
another is never a part end. -/
theorem C112_parts (part : AnnotBlock A) (hp : part.WellFormed) (h0 : part.Rings 0 (.rounds part.stage)) :
    ∃ partEnd partEnds, part.leftoverRow = .ok partEnd ∧ partEnd.closure.Returns partEnds ∧ ∀ times,
      ∃ touch last, ringTouch part.stage (List.replicate times part) = .ok (touch, .ok ()) ∧
        touch.WellFormed ∧ touch.len = times * part.len ∧ touch.leftoverRow = .ok last ∧
        (last.isRounds = true ↔ partEnds.length ∣ times) ∧
        (∀ q i r, q < times → part.Rings i r → ∃ head s, partEnd.powU q = .ok head ∧ head.mulResult r = .ok (.ok s) ∧
          touch.Rings (q * part.len + i) s) ∧
        (touch.IsTrue → times ≤ partEnds.length) ∧
        (times = partEnds.length → (touch.IsTrue ↔ ∀ i j r s x, i < j → part.Rings i r → part.Rings j s →
          r.solveXaEqualsB s = .ok (.ok x) → x ∉ partEnds)) := by
  obtain ⟨n, hn, σs, τ, annots, hlen, rfl⟩ := (C26_wellFormed_iff part).1 hp
  have hl : (AnnotBlock.ofPerms σs τ annots).len = σs.length := hlen.symm
  have hst : (AnnotBlock.ofPerms σs τ annots).stage = ⟨n⟩ := rfl
  rw [hst, Row.rounds_eq_ofPerm n, rings_iff hn σs τ annots hlen] at h0
  obtain ⟨σ0, e0, e1⟩ := h0
  obtain rfl := Row.ofPerm_inj.1 e1
  have hhead : σs.head? = some 1 := by rw [List.head?_eq_getElem?, e0]
  have hpos : 0 < σs.length := (List.getElem?_eq_some_iff.1 e0).1
  obtain ⟨cl, hcl, hcllen, -⟩ := C16_closure τ
  have hord := orderOf_pos τ
  refine ⟨_, cl, AnnotBlock.leftover_ofPerms hn _ _ _, hcl, fun times => ?_⟩
  have hlen' : ((List.range times).flatMap fun q => σs.map (τ ^ q * ·)).length =
      ((List.range times).flatMap fun _ => annots).length := by
    simp [List.length_flatMap, hlen]
  have hr : ∀ k r, (AnnotBlock.ofPerms ((List.range times).flatMap fun q => σs.map (τ ^ q * ·)) (τ ^ times)
        ((List.range times).flatMap fun _ => annots)).Rings k r ↔
      k < times * σs.length ∧ ∃ h : k % σs.length < σs.length,
        r = .ofPerm (τ ^ (k / σs.length) * σs[k % σs.length]) := by
    intro k r
    have hm := Nat.mod_lt k hpos
    rw [rings_iff hn _ _ _ hlen', copies_getElem? σs (fun q x => τ ^ q * x) _ _ hpos]
    constructor
    · rintro ⟨σ, h1, rfl⟩
      by_cases hk : k < times * σs.length
      · rw [if_pos hk, List.getElem?_eq_getElem hm, Option.map_some] at h1
        exact ⟨hk, hm, by rw [Option.some.inj h1]⟩
      · rw [if_neg hk] at h1
        cases h1
    · rintro ⟨hk, -, rfl⟩
      exact ⟨_, by rw [if_pos hk, List.getElem?_eq_getElem hm, Option.map_some], rfl⟩
  have hat : ∀ q i (hi : i < σs.length), q < times →
      (AnnotBlock.ofPerms ((List.range times).flatMap fun q => σs.map (τ ^ q * ·)) (τ ^ times)
        ((List.range times).flatMap fun _ => annots)).Rings (q * σs.length + i) (.ofPerm (τ ^ q * σs[i])) := by
    intro q i hi hq
    rw [hr]
    have e1 : (q * σs.length + i) / σs.length = q := by
      rw [Nat.add_comm, Nat.add_mul_div_right _ _ hpos, Nat.div_eq_of_lt hi, Nat.zero_add]
    have e2 : (q * σs.length + i) % σs.length = i := by
      rw [Nat.add_comm, Nat.add_mul_mod_self_right, Nat.mod_eq_of_lt hi]
    refine ⟨?_, by rw [e2]; exact hi, ?_⟩
    · calc _ < q * σs.length + σs.length := by omega
        _ = (q + 1) * σs.length := by rw [Nat.add_mul, Nat.one_mul]
        _ ≤ _ := Nat.mul_le_mul_right _ hq
    · simp only [e1, e2]
  refine ⟨_, .ofPerm (τ ^ times), by rw [hst]; exact ring_copies hn σs τ annots hlen hhead times,
    AnnotBlock.ofPerms_wellFormed hn hlen', ?_, AnnotBlock.leftover_ofPerms hn _ _ _, ?_, ?_, ?_, ?_⟩
  · rw [hl]
    show ((List.range times).flatMap fun _ => annots).length = _
    simp [List.length_flatMap, hlen]
  · rw [Row.ofPerm_isRounds, hcllen, orderOf_dvd_iff_pow_eq_one]
  · intro q i r hq hi
    rw [rings_iff hn σs τ annots hlen] at hi
    obtain ⟨σ, h1, rfl⟩ := hi
    obtain ⟨hi, rfl⟩ := List.getElem?_eq_some_iff.1 h1
    refine ⟨.ofPerm (τ ^ q), .ofPerm (τ ^ q * σs[i]), ?_, Row.mulResult_ofPerm hn _ _, ?_⟩
    · exact Row.powU_ofPerm hn τ q
    · rw [hl]
      exact hat q i hi hq
  · intro H
    rw [hcllen]
    by_contra hgt
    have h1 := hat 0 0 hpos (by omega)
    have h2 := hat (orderOf τ) 0 hpos (by omega)
    rw [pow_orderOf_eq_one] at h2
    rw [pow_zero] at h1
    have h3 := H _ _ _ h1 h2
    have := Nat.mul_pos hord hpos
    omega
  · rintro rfl
    rw [hcllen] at hr hat ⊢
    simp only [rings_iff hn σs τ annots hlen]
    constructor
    · rintro H i j r s x hij ⟨σ, e1, rfl⟩ ⟨σ', e2, rfl⟩ e3 hx
      rw [Row.solveXa_ofPerm hn] at e3
      obtain rfl := Except.ok.inj (Except.ok.inj e3)
      obtain ⟨q, hq⟩ := (mem_closure_iff τ _ cl hcl).1 hx
      obtain ⟨hi, rfl⟩ := List.getElem?_eq_some_iff.1 e1
      obtain ⟨hj, rfl⟩ := List.getElem?_eq_some_iff.1 e2
      have hq' : τ ^ (q % orderOf τ) * σs[i] = σs[j] := by
        rw [pow_mod_orderOf, ← hq]
        group
      have h1 := hat (q % orderOf τ) i hi (Nat.mod_lt q hord)
      have h2 := hat 0 j hj hord
      rw [hq'] at h1
      rw [pow_zero, one_mul] at h2
      have h5 := congrArg (· % σs.length) (H _ _ _ h1 h2)
      simp only [Nat.mul_add_mod_self_right, Nat.mod_eq_of_lt hi, Nat.mod_eq_of_lt hj] at h5
      omega
    · intro H k k' r e1 e2
      obtain ⟨hk, hmi, rfl⟩ := (hr _ _).1 e1
      obtain ⟨hk', hmj, e3⟩ := (hr _ _).1 e2
      rw [Row.ofPerm_inj] at e3
      have hda : k / σs.length < orderOf τ := Nat.div_lt_of_lt_mul (by rw [Nat.mul_comm]; exact hk)
      have hdb : k' / σs.length < orderOf τ := Nat.div_lt_of_lt_mul (by rw [Nat.mul_comm]; exact hk')
      have key : ∀ a b i j (hi : i < σs.length) (hj : j < σs.length), b < orderOf τ → i < j →
          τ ^ a * σs[i] = τ ^ b * σs[j] → False := by
        intro a b i j hi hj hb hij he
        refine H i j _ _ (.ofPerm (σs[j] * σs[i]⁻¹)) hij ⟨_, List.getElem?_eq_getElem hi, rfl⟩
          ⟨_, List.getElem?_eq_getElem hj, rfl⟩ (Row.solveXa_ofPerm hn _ _) ?_
        rw [mem_closure_iff τ _ cl hcl]
        refine ⟨orderOf τ - b + a, ?_⟩
        have h6 : τ ^ (orderOf τ - b) * τ ^ b = 1 := by
          rw [← pow_add, Nat.sub_add_cancel hb.le, pow_orderOf_eq_one]
        rw [pow_add, mul_inv_eq_iff_eq_mul, mul_assoc, he, ← mul_assoc, h6, one_mul]
      rcases Nat.lt_trichotomy (k % σs.length) (k' % σs.length) with hlt | heq | hgt
      · exact (key _ _ _ _ hmi hmj hdb hlt e3).elim
      · have h7 : τ ^ (k / σs.length) = τ ^ (k' / σs.length) := by
          have : σs[k % σs.length] = σs[k' % σs.length] := by simp only [heq]
          rw [this] at e3
          exact mul_right_cancel e3
        have h8 := pow_injOn_Iio_orderOf (x := τ) hda hdb h7
        rw [← Nat.div_add_mod k σs.length, ← Nat.div_add_mod k' σs.length, h8, heq]
      · exact (key _ _ _ _ hmj hmi hda hgt e3.symm).elim

/-- The part 123, 213 with part end 231 comes round after three parts, and these are the six rows on three bells; with
part end 213 the two parts that bring it round are false. -/
example : (∃ touch, ringTouch ⟨3⟩ (List.replicate 3 (AnnotBlock.ofPerms [1, swap 0 1]
      (swap 0 1 * swap 1 2 : Perm (Fin 3)) [(), ()])) = .ok (touch, .ok ()) ∧ touch.IsTrue ∧ touch.len = 6) ∧
    (∃ touch, ringTouch ⟨3⟩ (List.replicate 2 (AnnotBlock.ofPerms [1, swap 0 1]
      (swap 0 1 : Perm (Fin 3)) [(), ()])) = .ok (touch, .ok ()) ∧ ¬ touch.IsTrue ∧ touch.len = 4) := by
  constructor
  · refine ⟨_, ring_copies (n := 3) (by omega) [1, swap 0 1] (swap 0 1 * swap 1 2) [(), ()] rfl rfl 3, ?_, rfl⟩
    rw [true_iff_nodup (n := 3) (by omega) _ _ _ (by rfl)]
    decide +kernel
  · refine ⟨_, ring_copies (n := 3) (by omega) [1, swap 0 1] (swap 0 1) [(), ()] rfl rfl 2, ?_, rfl⟩
    rw [true_iff_nodup (n := 3) (by omega) _ _ _ (by rfl)]
    decide +kernel

example := C112_parts (AnnotBlock.ofPerms [1, swap 0 1] (swap 0 1 * swap 1 2 : Perm (Fin 3)) [(), ()])
  (AnnotBlock.ofPerms_wellFormed (by omega) rfl)
  ((rings_iff (n := 3) (by omega) [1, swap 0 1] _ [(), ()] rfl 0 _).2 ⟨1, rfl, Row.rounds_eq_ofPerm 3⟩)

/-- The other two ways to ring a block again and again give the same touch: adding its own first part to it with
`extend_from_within`, and taking the rows and annotations from `repeat_iter`, which also tells the place in the part. -/
theorem C112_ways (part : AnnotBlock A) (hp : part.WellFormed) (h0 : part.Rings 0 (.rounds part.stage)) :
    ∃ it, RepeatIter.new (.rounds part.stage) part = .ok (.ok it) ∧ ∀ again touch,
      ringTouch part.stage (List.replicate (again + 1) part) = .ok (touch, .ok ()) →
      ringWithin part again = .ok touch ∧
      ∀ k < touch.len, ∃ r a, touch.getAnnotRow k = some (r, a) ∧
        nthItem it k = .ok (some (r, k % part.len, a)) := by
  obtain ⟨n, hn, σs, τ, annots, hlen, rfl⟩ := (C26_wellFormed_iff part).1 hp
  have hl : (AnnotBlock.ofPerms σs τ annots).len = σs.length := hlen.symm
  have hst : (AnnotBlock.ofPerms σs τ annots).stage = ⟨n⟩ := rfl
  rw [hst, Row.rounds_eq_ofPerm n, rings_iff hn σs τ annots hlen] at h0
  obtain ⟨σ0, e0, e1⟩ := h0
  obtain rfl := Row.ofPerm_inj.1 e1
  have hhead : σs.head? = some 1 := by rw [List.head?_eq_getElem?, e0]
  have hpos : 0 < σs.length := (List.getElem?_eq_some_iff.1 e0).1
  obtain ⟨it, hit, hnth⟩ := C29_repeat_iter hn σs τ annots hlen hpos 1
  refine ⟨it, by rw [hst, Row.rounds_eq_ofPerm n]; exact hit, fun again touch ht => ?_⟩
  rw [hst, ring_copies hn σs τ annots hlen hhead] at ht
  cases ht
  have hlen' : ∀ times, ((List.range times).flatMap fun q => σs.map (τ ^ q * ·)).length =
      ((List.range times).flatMap fun _ => annots).length := by
    intro times
    simp [List.length_flatMap, hlen]
  have hann : ∀ times, ((List.range times).flatMap fun _ => annots).length = times * σs.length := by
    intro times
    simp [List.length_flatMap, hlen]
  constructor
  · induction again with
    | zero => simp [ringWithin]
    | succ t ih =>
      have hle : σs.length ≤ ((List.range (t + 1)).flatMap fun _ => annots).length := by
        rw [hann, Nat.add_mul, Nat.one_mul]
        omega
      have hfl : (List.range (t + 1)).flatMap (fun q => σs.map (τ ^ q * ·)) =
          σs ++ ((List.range t).map Nat.succ).flatMap (fun q => σs.map (τ ^ q * ·)) := by
        rw [List.range_succ_eq_map, List.flatMap_cons]
        simp
      have hfa : (List.range (t + 1)).flatMap (fun _ => annots) =
          annots ++ ((List.range t).map Nat.succ).flatMap (fun _ => annots) := by
        rw [List.range_succ_eq_map, List.flatMap_cons]
      obtain ⟨u, first, last, c1, c2, c3, c4⟩ := (C27_extend_from_within hn _ (τ ^ (t + 1)) _ (hlen' (t + 1)) 0
        σs.length).1 (by omega) hle
      have d1 : first = 1 := by
        rw [hfl, List.append_assoc, List.getElem?_append_left hpos, e0] at c1
        exact (Option.some.inj c1).symm
      have d2 : last = τ := by
        cases t with
        | zero =>
          rw [List.getElem?_append_right (by simp)] at c2
          simpa using c2.symm
        | succ t =>
          have hlt : σs.length < (t + 1 + 1) * σs.length := by
            rw [Nat.add_mul, Nat.one_mul, Nat.add_mul, Nat.one_mul]
            omega
          rw [List.getElem?_append_left (by rw [hlen', hann]; exact hlt), copies_getElem? σs (fun q x => τ ^ q * x) _ _ hpos, if_pos hlt,
            Nat.mod_self, Nat.div_self hpos, e0, pow_one, Option.map_some, mul_one] at c2
          exact (Option.some.inj c2).symm
      rw [d1, mul_one] at c3
      rw [ringWithin, ih, Res.ok_bind, hl, c4, c3, d2]
      congr 2
      · rw [List.drop_zero]
        conv_lhs => rw [hfl, List.take_append_of_le_length le_rfl, List.take_length, ← hfl]
        rw [List.range_succ (n := t + 1), List.flatMap_append, List.flatMap_singleton]
      · exact (pow_succ τ (t + 1)).symm
      · rw [List.drop_zero]
        conv_lhs => rw [hfa, List.take_append_of_le_length (by omega), hlen, List.take_length, ← hfa]
        rw [List.range_succ (n := t + 1), List.flatMap_append, List.flatMap_singleton]
  · intro k hk
    have hk' : k < (again + 1) * σs.length := by
      rw [← hann]
      exact hk
    obtain ⟨σ, a, f1, f2, f3⟩ := hnth k
    refine ⟨_, a, ?_, by rw [hl]; exact f3⟩
    unfold AnnotBlock.getAnnotRow
    rw [AnnotBlock.getRow_ofPerms hn, List.getElem?_append_left (by rw [hlen', hann]; exact hk'),
      copies_getElem? σs (fun q x => τ ^ q * x) _ _ hpos, if_pos hk', f1]
    have g : ((List.range (again + 1)).flatMap fun _ => annots)[k]? = some a := by
      have := copies_getElem? annots (fun _ x => x) (again + 1) k (by omega)
      simp only [List.map_id_fun', id_eq] at this
      rw [this, if_pos (by rw [← hlen]; exact hk'), ← hlen, f2]
      rfl
    simp only [Option.map_some, AnnotBlock.getAnnot, AnnotBlock.ofPerms, g, one_mul]

example := C112_ways (AnnotBlock.ofPerms [1, swap 0 1] (swap 0 1 * swap 1 2 : Perm (Fin 3)) [(), ()])
  (AnnotBlock.ofPerms_wellFormed (by omega) rfl)
  ((rings_iff (n := 3) (by omega) [1, swap 0 1] _ [(), ()] rfl 0 _).2 ⟨1, rfl, Row.rounds_eq_ofPerm 3⟩)

end Bellframe.Props
