import Verif.Proofs.Grandsire
import Verif.Props.PlainHunt

/-! # C96: Grandsire on all stages -/

namespace Bellframe.Props

open Equiv

variable {n : Nat}

/-! ## The text -/

theorem display_thirds (h5 : 5 ≤ n) (h33 : n ≤ 33) :
    (PlaceNot.ofChange (thirdsChange n (by omega))).display =
      if n % 2 = 0 then ['3', lastBellChar n] else ['3'] := by
  have hx : ∀ x : Fin n, thirdsChange n (by omega) x = x ↔ thirdsFn n x = x.val := fun x => Fin.ext_iff
  have hfix : ∀ x : Fin n, thirdsChange n (by omega) x = x ↔ x.val = 2 ∨ (x.val = n - 1 ∧ n % 2 = 0) := by
    intro x
    rw [hx]
    have := x.isLt
    unfold thirdsFn huntFn
    repeat' split
    all_goals omega
  rcases Nat.mod_two_eq_zero_or_one n with hn | hn
  · rw [if_pos hn, ofChange_places _ [2, n - 1] (by simp; omega) (by simp; omega)]
    · rw [display_places _ (by simp) (by simp; omega)]
      simp only [List.map_cons, List.map_nil, show n - 1 + 1 = n by omega]
      rfl
    · intro x; rw [hfix]; simp; omega
  · rw [if_neg (by omega), ofChange_places _ [2] (by simp) (by simp; omega)]
    · rw [display_places _ (by simp) (by simp)]; rfl
    · intro x; rw [hfix]; simp; omega

theorem parse_hunts_tail (h2 : 2 ≤ n) (h33 : n ≤ 33) (k : Nat) (hk : 0 < k) :
    PnBlock.parse ((huntChangesText n (k + 1)).tail.intersperse ['.']).flatten ⟨n⟩ =
      .ok (.ok ⟨(List.range k).map (fun i => PlaceNot.ofChange (huntChange n (i + 1)))⟩) := by
  have e : (huntChangesText n (k + 1)).tail =
      ((List.range k).map (fun i => PlaceNot.ofChange (huntChange n (i + 1)))).map PlaceNot.display := by
    rw [huntChangesText_eq h2 h33, List.range_succ_eq_map]
    simp [Function.comp_def]
  rw [e]
  apply C34_separated ⟨n⟩ h33 _ _ _ '.' (.inr rfl)
  · intro h
    have := congrArg List.length h
    simp at this; omega
  · intro pn hpn
    obtain ⟨i, -, rfl⟩ := List.mem_map.1 hpn
    exact ⟨⟨n, by omega, _, huntChange_isChange _, rfl⟩, rfl⟩

theorem hunts_tail_ne (h1 : 1 ≤ n) (h33 : n ≤ 33) (k : Nat) (c : Char) (hc : c = ',' ∨ c = '+') :
    c ∉ ((huntChangesText n k).tail.intersperse ['.']).flatten := by
  intro h
  apply hunts_ne h1 h33 k c hc
  cases hL : huntChangesText n k with
  | nil => rw [hL] at h; simp at h
  | cons a L =>
    rw [hL, List.tail_cons] at h
    cases L with
    | nil => simp at h
    | cons b L =>
      rw [List.intersperse_cons_cons, List.flatten_cons, List.flatten_cons]
      exact List.mem_append_right _ (List.mem_append_right _ h)

/-- The changes of a lead of Grandsire. -/
def grandsireChanges (n : Nat) (hn : 2 ≤ n) : List (Perm (Fin n)) :=
  thirdsChange n hn :: (List.range (2 * n - 1)).map (fun i => huntChange n (i + 1))

theorem parse_grandsire (h5 : 5 ≤ n) (h33 : n ≤ 33) :
    PnBlock.parse (grandsireText n) ⟨n⟩ =
      .ok (.ok ⟨(grandsireChanges n (by omega)).map PlaceNot.ofChange⟩) := by
  have hb := parse_hunts_tail (by omega) h33 n (by omega)
  have ha := C34_separated ⟨n⟩ h33 [PlaceNot.ofChange (thirdsChange n (by omega))] (by simp)
    (by
      simp only [List.mem_singleton]; rintro _ rfl
      exact ⟨⟨n, by omega, _, thirdsChange_isChange _, rfl⟩, rfl⟩)
    '.' (.inr rfl)
  simp only [List.map_cons, List.map_nil, List.intersperse_singleton, List.flatten_cons, List.flatten_nil,
    List.append_nil, display_thirds h5 h33] at ha
  have hne := lastBellChar_ne (n := n) (by omega) h33
  have hq : ∀ c, c = ',' ∨ c = '+' → c ∉ (if n % 2 = 0 then ['3', lastBellChar n] else ['3']) := by
    intro c hc
    split
    all_goals
      rcases hc with rfl | rfl
      all_goals simp [Ne.symm hne.1, Ne.symm hne.2]
  have := C77_text _ _ ⟨hq _ (.inl rfl), hunts_tail_ne (by omega) h33 (n + 1) _ (.inl rfl)⟩
    ⟨hq _ (.inr rfl), hunts_tail_ne (by omega) h33 (n + 1) _ (.inr rfl)⟩ ⟨n⟩ _ _ ha hb
  unfold grandsireText
  rw [this]
  congr 3
  simp only [List.dropLast_singleton, List.reverse_nil, List.append_nil, grandsireChanges, List.map_cons,
    List.map_map, List.singleton_append]
  congr 1
  apply List.ext_getElem
  · simp; omega
  · intro i h5 h6
    simp only [List.length_append, List.length_map, List.length_range, List.length_reverse,
      List.length_dropLast] at h5 h6
    rw [List.getElem_append]
    simp only [List.length_map, List.length_range, List.getElem_map, List.getElem_range,
      List.getElem_reverse, List.getElem_dropLast, List.length_dropLast, Function.comp_apply]
    split
    · rfl
    · rw [huntChange_mod, huntChange_mod (i + 1)]
      congr 2
      omega

/-! ## The lead -/

theorem take_grandsire (hn : 2 ≤ n) (t : Nat) (h : t ≤ 2 * n) :
    ((grandsireChanges n hn).take t).prod = grandsireRow n hn t := by
  induction t with
  | zero => simp [grandsireRow]
  | succ t ih =>
    have hl : t < (grandsireChanges n hn).length := by simp [grandsireChanges]; omega
    rw [List.take_succ_eq_append_getElem hl, List.prod_append, List.prod_singleton, ih (by omega)]
    cases t with
    | zero => rw [grandsireRow_one, grandsireRow, if_pos rfl, one_mul]; rfl
    | succ t =>
      rw [grandsireRow_succ]
      simp [grandsireChanges]

theorem follows_grandsire (hn : 2 ≤ n) :
    Follows 1 (grandsireChanges n hn) (grandsireLead n hn ++ [grandsireHead n hn]) := by
  have hl : (grandsireChanges n hn).length = 2 * n := by simp [grandsireChanges]; omega
  have := follows_of_prod (grandsireChanges n hn)
  convert this using 1
  rw [hl, List.range_succ, List.map_append]
  congr 1
  · unfold grandsireLead
    apply List.map_congr_left
    intro t ht
    rw [take_grandsire hn t (by have := List.mem_range.1 ht; omega)]
  · rw [List.map_cons, List.map_nil, take_grandsire hn _ (le_refl _), grandsireRow_last]

theorem grandsire_class (h5 : 5 ≤ n) :
    ClassIs (grandsireLead n (by omega)) (grandsireHead n (by omega)) .bob ∧
    ¬ IsLittle (grandsireLead n (by omega)) (grandsireHead n (by omega)) ∧
    ¬ IsDifferential (grandsireHead n (by omega)) := by
  have h2 : 2 ≤ n := by omega
  have h4 : 4 ≤ n := by omega
  have hhunt : ∀ b : Fin n, IsHuntBell (grandsireHead n h2) b ↔ b.val < 2 := by
    intro b
    constructor
    · intro hb
      by_contra h0
      have := (grandsireHead_pow_fixes h4 1 b (by omega)).1 (by rw [pow_one]; exact hb)
      have := Nat.le_of_dvd (by omega) this
      omega
    · exact grandsireHead_fixes_hunts h4 b
  have hlen : (grandsireLead n h2).length = 2 * n := by simp [grandsireLead]
  set L := grandsireLead n h2 with hL
  set g := grandsireHead n h2 with hg
  set z : Fin n := ⟨0, by omega⟩ with hz
  have htreble : ∀ t, (placeOfBell L g z t).val = wayPlace n (t % (2 * n)) := by
    intro t
    rw [hL, hg, placeOfBell_grandsire h4, hz, grandsirePlace_hunt (by simp)]
    simp [huntPlace, wayStart]
  have hplain : PlainHunt L g z := by
    constructor
    · rintro ⟨p, hp⟩
      have h0 := htreble 0
      have h1 := htreble 1
      rw [hp] at h0 h1
      rw [Nat.mod_eq_of_lt (by omega)] at h0 h1
      rw [h0] at h1
      rw [wayPlace_eq (by omega) (by omega)] at h1
      omega
    · intro p _
      unfold rowsInPlace
      rw [hlen]
      have hp := p.isLt
      have hperm : ((List.range (2 * n)).filter fun t =>
          decide (placeOfBell L g z t = p)).Perm [p.val, 2 * n - 1 - p.val] := by
        rw [List.perm_ext_iff_of_nodup (List.nodup_range.filter _) (by simp; omega)]
        intro t
        rw [List.mem_filter, List.mem_range, decide_eq_true_eq, Fin.ext_iff, htreble]
        simp only [List.mem_cons, List.not_mem_nil, or_false]
        constructor
        · rintro ⟨ht, he⟩
          rw [Nat.mod_eq_of_lt ht] at he
          unfold wayPlace at he
          split at he <;> omega
        · intro ht
          have htl : t < 2 * n := by omega
          refine ⟨htl, ?_⟩
          rw [Nat.mod_eq_of_lt htl]
          unfold wayPlace
          split <;> omega
      exact hperm.length_eq
  have hprin : Principal L g .plain z :=
    ⟨(hhunt z).2 (by simp [hz]), hplain, fun _ _ _ _ => Nat.zero_le _⟩
  refine ⟨⟨⟨z, hprin⟩, ?_⟩, ?_, ?_⟩
  · -- the bell that dodges in 4-5, from the last change of one lead to the first of the next
    have hrow : courseRow L g (2 * n - 1) = g * huntRow n (2 * n - 1) := by
      rw [hL, hg, courseRow_grandsire h2, show 2 * n - 1 + (2 * n - 1) = 2 * n + (2 * n - 2) by omega,
        Nat.add_div_left _ (by omega), Nat.div_eq_of_lt (by omega), Nat.mod_eq_of_lt (by omega), pow_one]
    have hrow1 : courseRow L g (2 * n - 1 + 1) = g * huntRow n (2 * n - 1) * huntChange n 1 := by
      rw [hL, hg, courseRow_grandsire h2, show 2 * n - 1 + 1 + (2 * n - 1) = 2 * n + (2 * n - 1) by omega,
        Nat.add_div_left _ (by omega), Nat.div_eq_of_lt (by omega), pow_one,
        show 2 * n - 1 + 1 = 2 * n by omega, Nat.mod_self, huntRow_zero, huntRow_last (by omega), mul_assoc,
        huntChange_mul_self]
    have hrow2 : courseRow L g (2 * n - 1 + 2) = g * huntRow n (2 * n - 1) * huntChange n 1 *
        thirdsChange n h2 := by
      rw [hL, hg, courseRow_grandsire h2, show 2 * n - 1 + 2 + (2 * n - 1) = 2 * n + 2 * n by omega,
        Nat.add_div_left _ (by omega), Nat.div_self (by omega),
        show 2 * n - 1 + 2 = 1 + 2 * n by omega, Nat.add_mod_right, Nat.mod_eq_of_lt (by omega),
        huntRow_last (by omega), mul_assoc _ (huntChange n 1) (huntChange n 1), huntChange_mul_self, mul_one,
        huntRow_succ,
        huntRow_zero, one_mul, show 0 + 1 + 1 = 1 + 1 from rfl, pow_succ, pow_one, mul_assoc]
      congr 1
      rw [grandsireHead, mul_assoc, huntChange_mul_self, mul_one]
    have e1 : huntFn n 1 3 = 4 := by unfold huntFn; rw [if_pos rfl, if_pos (by omega)]
    have e2 : thirdsFn n 4 = 3 := by unfold thirdsFn huntFn; simp
    set b := (g * huntRow n (2 * n - 1)) ⟨3, by omega⟩ with hb
    have p0 : (placeOfBell L g b (2 * n - 1)).val = 3 := by
      rw [placeOfBell, hrow, hb, invApply]
    have p1 : (placeOfBell L g b (2 * n - 1 + 1)).val = 4 := by
      rw [placeOfBell, hrow1, hb, mul_inv_rev, Perm.mul_apply, invApply, huntChange_inv_val]
      exact e1
    have p2 : (placeOfBell L g b (2 * n - 1 + 2)).val = 3 := by
      rw [placeOfBell, hrow2, hb, mul_inv_rev, mul_inv_rev (g * huntRow n (2 * n - 1)), Perm.mul_apply,
        Perm.mul_apply, invApply, thirdsChange_inv_val, huntChange_inv_val]
      change thirdsFn n (huntFn n 1 3) = 3
      rw [e1, e2]
    refine ⟨b, ?_, 2 * n - 1, Fin.ext (by rw [p0, p2]), .inr (by rw [p0, p1])⟩
    rintro ⟨hb0, -⟩
    have hb1 := (hhunt b).1 hb0
    have := placeOfBell_grandsire h4 b (2 * n - 1 + 1)
    rw [← hL, ← hg, p1, grandsirePlace_hunt hb1, show 2 * n - 1 + 1 = 0 + 2 * n by omega, huntPlace_period,
      huntPlace_zero b.isLt] at this
    omega
  · rintro ⟨-, h⟩
    obtain ⟨p, hp⟩ := h _ z hprin
    apply hp
    refine ⟨p.val, Fin.ext ?_⟩
    have := p.isLt
    rw [htreble, Nat.mod_eq_of_lt (by omega), wayPlace, if_pos p.isLt]
  · rintro ⟨a, b, ha, hb, hab⟩
    rw [hhunt] at ha hb
    exact hab (by rw [minimalPeriod_grandsireHead h4 a (by omega), minimalPeriod_grandsireHead h4 b (by omega)])

/-! ## C96 -/

/-- Grandsire on any stage from five bells up to the last with a name: the method made from its place
notation has the class `bob` (so the title made for it has the word, which the title in use has not); its
plain course has `n - 2` leads of `2 * n` rows and every bell is in each row where Grandsire takes it; so
both the treble and the second bell plain hunt, all other bells do the same work, one some leads after the
other, and no row comes twice. -/
theorem C96_grandsire (name : String) (h5 : 5 ≤ n) (h22 : n ≤ 22) :
    ∃ m course stageName, (Method.fromPlaceNotString name ⟨n⟩ (grandsireText n)).Returns (.ok m) ∧
      m.name = name ∧ m.cls = ⟨false, false, false, .bob⟩ ∧ stageNames[n - 1]? = some stageName ∧
      m.title = joinSpaces (nameWords name ++ ["Bob", stageName]) ∧ m.leadLen = 2 * n ∧
      m.plainCourse.Returns course ∧ course.len = 2 * n * (n - 2) ∧
      (∀ t < course.len, ∃ r a, course.getAnnotRow t = some (r, a) ∧
        (∀ b < n, r.placeOf ⟨b⟩ = some (grandsirePlace n b t)) ∧
        r.placeOf ⟨0⟩ = some (huntPlace n 0 t) ∧ r.placeOf ⟨1⟩ = some (huntPlace n 1 t)) ∧
      (∀ b c, 2 ≤ b → b < n → 2 ≤ c → c < n →
        ∃ j, ∀ t, grandsirePlace n c t = grandsirePlace n b (t + j * m.leadLen)) ∧
      (∀ i j r r' a a', course.getAnnotRow i = some (r, a) → course.getAnnotRow j = some (r', a') →
        i < course.len → j < course.len → r = r' → i = j) := by
  have hc : ∀ τ ∈ grandsireChanges n (by omega), IsChange τ := by
    intro τ hτ
    rcases List.mem_cons.1 hτ with rfl | hτ
    · exact thirdsChange_isChange _
    · obtain ⟨i, -, rfl⟩ := List.mem_map.1 hτ; exact huntChange_isChange _
  obtain ⟨m, h1, h3, h4', h5', h6, h7, h8, h9⟩ := fromPlaceNotString_of_parse (by omega) h22 name
    (grandsireText n) _ _ _ (by simp [grandsireChanges]) hc
    (parse_grandsire h5 (by omega)) (follows_grandsire (by omega))
  obtain ⟨c1, c2, c3⟩ := grandsire_class (n := n) h5
  have hcls := cls_eq h5' h6 h7 h8 c1 c2 c3
  rw [hcls] at h9
  obtain ⟨stageName, h10, h11⟩ := title_eq (by omega) h22 h9
  have hl : (grandsireLead n (by omega)).length = 2 * n := by simp [grandsireLead]
  have hh : (grandsireLead n (by omega)).head? = some 1 := by
    rw [List.head?_eq_getElem?, grandsireLead, List.getElem?_map, List.getElem?_range (by omega)]; rfl
  obtain ⟨h12, course, h13, h14, h15⟩ := course_rows (by omega) m _ _ h3 hh
  rw [hl, orderOf_grandsireHead (by omega), Nat.mul_comm] at h14
  rw [hl] at h12
  refine ⟨m, course, stageName, h1, h4', hcls, h10, ?_, h12, h13, h14, ?_, ?_, ?_⟩
  · rw [h11]; simp [titleWords, nameWords, className]
  · intro t ht
    obtain ⟨a, ha⟩ := h15 t ht
    have hp : ∀ b < n, (Row.ofPerm (courseRow (grandsireLead n (by omega)) (grandsireHead n (by omega)) t)).placeOf
        ⟨b⟩ = some (grandsirePlace n b t) := by
      intro b hb
      rw [placeOf_ofPerm _ ⟨b, hb⟩, ← placeOfBell_grandsire (by omega) ⟨b, hb⟩]; rfl
    refine ⟨_, a, ha, hp, ?_, ?_⟩
    · rw [hp 0 (by omega), grandsirePlace_hunt (by omega)]
    · rw [hp 1 (by omega), grandsirePlace_hunt (by omega)]
  · intro b c hb hb2 hc hc2
    rw [h12]
    exact grandsire_same_work ⟨hb, hb2⟩ ⟨hc, hc2⟩
  · intro i j r r' a a' hi hj hi2 hj2 hrr
    obtain ⟨x, hx⟩ := h15 i hi2
    obtain ⟨y, hy⟩ := h15 j hj2
    rw [hi] at hx
    rw [hj] at hy
    have e1 := (Prod.ext_iff.1 (Option.some.inj hx)).1
    have e2 := (Prod.ext_iff.1 (Option.some.inj hy)).1
    simp only at e1 e2
    rw [h14] at hi2 hj2
    exact grandsire_distinct (show 4 ≤ n by omega) hi2 hj2 (Row.ofPerm_injective (by rw [← e1, ← e2, hrr]))

/-- The texts and the places of the specification: the usual notation of Grandsire Doubles and Triples and of
Grandsire Minor, the first two lead heads of Doubles (12534, 12453) and Triples (1253746). -/
example : String.ofList (grandsireText 5) = "3,1.5.1.5.1" ∧ String.ofList (grandsireText 7) = "3,1.7.1.7.1.7.1" ∧
    String.ofList (grandsireText 6) = "36,16.-.16.-.16.-" ∧
    (List.range 5).map (fun b => grandsirePlace 5 b 1) = [1, 0, 2, 4, 3] ∧
    (List.range 5).map (fun b => grandsirePlace 5 b 10) = [0, 1, 3, 4, 2] ∧
    (List.range 5).map (fun b => grandsirePlace 5 b 20) = [0, 1, 4, 2, 3] ∧
    (List.range 7).map (fun b => grandsirePlace 7 b 14) = [0, 1, 3, 5, 2, 6, 4] := by decide +kernel

end Bellframe.Props
