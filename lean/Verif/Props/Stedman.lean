import Verif.Proofs.Stedman
import Verif.Props.Grandsire

/-! # C98: Stedman on all odd stages -/

namespace Bellframe.Props

open Equiv

variable {n : Nat}

/-- Change `k` of a lead of Stedman. -/
def stedmanChange (n : Nat) (hn : 2 ≤ n) (k : Nat) : Perm (Fin n) :=
  if k = 2 ∨ k = 8 then huntChange n 0
  else if k = 0 ∨ k = 3 ∨ k = 5 ∨ k = 7 ∨ k = 10 then thirdsChange n hn
  else huntChange n 1

theorem stedmanChange_isChange (hn : 2 ≤ n) (k : Nat) : IsChange (stedmanChange n hn k) := by
  unfold stedmanChange
  split
  · exact huntChange_isChange _
  · split
    · exact thirdsChange_isChange _
    · exact huntChange_isChange _

theorem stedmanChange_inv_val (h3 : 3 ≤ n) (ho : n % 2 = 1) (k : Nat) (x : Fin n) :
    ((stedmanChange n (by omega) k)⁻¹ x).val = stedmanStep n k x := by
  rw [stedmanStep_eq h3 ho x.isLt]
  unfold stedmanChange stedmanFn
  split
  · rfl
  · split <;> rfl

/-- The changes of a lead of Stedman. -/
def stedmanChanges (n : Nat) (hn : 2 ≤ n) : List (Perm (Fin n)) := (List.range 12).map (stedmanChange n hn)

theorem display_stedman (h5 : 5 ≤ n) (h33 : n ≤ 33) (ho : n % 2 = 1) (k : Nat) :
    (PlaceNot.ofChange (stedmanChange n (by omega) k)).display =
      if k = 2 ∨ k = 8 then [lastBellChar n]
      else if k = 0 ∨ k = 3 ∨ k = 5 ∨ k = 7 ∨ k = 10 then ['3'] else ['1'] := by
  unfold stedmanChange
  split
  · rw [display_hunt (by omega) h33, if_pos (by decide), huntTexts, if_neg (by omega)]
  · split
    · rw [display_thirds h5 h33, if_neg (by omega)]
    · rw [display_hunt (by omega) h33, if_neg (by decide), huntTexts, if_neg (by omega)]

theorem parse_stedman (h5 : 5 ≤ n) (h33 : n ≤ 33) (ho : n % 2 = 1) :
    PnBlock.parse (stedmanText n) ⟨n⟩ =
      .ok (.ok ⟨(stedmanChanges n (by omega)).map PlaceNot.ofChange⟩) := by
  have := C34_separated ⟨n⟩ h33 ((stedmanChanges n (by omega)).map PlaceNot.ofChange) (by simp [stedmanChanges])
    (by
      intro pn hpn
      obtain ⟨τ, hτ, rfl⟩ := List.mem_map.1 hpn
      obtain ⟨k, -, rfl⟩ := List.mem_map.1 hτ
      exact ⟨⟨n, by omega, _, stedmanChange_isChange _ _, rfl⟩, rfl⟩)
    '.' (.inr rfl)
  rw [← this]
  congr 1
  unfold stedmanText stedmanChanges
  congr 2
  rw [List.map_map, List.map_map]
  simp only [Function.comp_def, display_stedman h5 h33 ho]
  simp [List.range_succ]

/-! ## The lead -/

def stedmanRow (n : Nat) (hn : 2 ≤ n) (t : Nat) : Perm (Fin n) := ((stedmanChanges n hn).take t).prod

def stedmanLead (n : Nat) (hn : 2 ≤ n) : List (Perm (Fin n)) := (List.range 12).map (stedmanRow n hn)

def stedmanHead (n : Nat) (hn : 2 ≤ n) : Perm (Fin n) := (stedmanChanges n hn).prod

theorem follows_stedman (hn : 2 ≤ n) :
    Follows 1 (stedmanChanges n hn) (stedmanLead n hn ++ [stedmanHead n hn]) := by
  have := follows_of_prod (stedmanChanges n hn)
  convert this using 1
  have hl : (stedmanChanges n hn).length = 12 := by simp [stedmanChanges]
  rw [hl, List.range_succ, List.map_append]
  congr 1

theorem stedmanRow_inv_val (h3 : 3 ≤ n) (ho : n % 2 = 1) (b : Fin n) (t : Nat) (ht : t ≤ 12) :
    ((stedmanRow n (by omega) t)⁻¹ b).val = stedmanPlace n b t := by
  induction t with
  | zero => simp [stedmanRow, stedmanPlace]
  | succ t ih =>
    have hl : t < (stedmanChanges n (by omega)).length := by simp [stedmanChanges]; omega
    unfold stedmanRow
    rw [List.take_succ_eq_append_getElem hl, List.prod_append, List.prod_singleton, mul_inv_rev,
      Perm.mul_apply, stedmanPlace, ← ih (by omega), Nat.mod_eq_of_lt (by omega), stedmanRow]
    simp only [stedmanChanges, List.getElem_map, List.getElem_range]
    exact stedmanChange_inv_val h3 ho t _

theorem stedmanHead_pow_inv_val (h3 : 3 ≤ n) (ho : n % 2 = 1) (j : Nat) (b : Fin n) :
    ((stedmanHead n (by omega) ^ j)⁻¹ b).val = stedmanPlace n b (12 * j) := by
  induction j with
  | zero => rfl
  | succ j ih =>
    have hh : stedmanHead n (by omega) = stedmanRow n (by omega) 12 := by
      unfold stedmanHead stedmanRow
      rw [List.take_of_length_le (by simp [stedmanChanges])]
    rw [pow_succ, mul_inv_rev, Perm.mul_apply, Nat.mul_succ, stedmanPlace_add, ← ih, hh,
      stedmanRow_inv_val h3 ho _ 12 (le_refl _)]

theorem placeOfBell_stedman (h3 : 3 ≤ n) (ho : n % 2 = 1) (b : Fin n) (t : Nat) :
    (placeOfBell (stedmanLead n (by omega)) (stedmanHead n (by omega)) b t).val = stedmanPlace n b t := by
  have hm : t % 12 < 12 := Nat.mod_lt _ (by omega)
  unfold placeOfBell courseRow stedmanLead
  rw [List.length_map, List.length_range, List.getElem?_eq_getElem (by simpa using hm),
    List.getElem_map, List.getElem_range, Option.getD_some, mul_inv_rev, Perm.mul_apply,
    stedmanRow_inv_val h3 ho _ _ (by omega), stedmanHead_pow_inv_val h3 ho, ← stedmanPlace_add,
    Nat.div_add_mod]

theorem stedmanHead_pow_fixes (h5 : 5 ≤ n) (ho : n % 2 = 1) (j : Nat) (b : Fin n) :
    (stedmanHead n (by omega) ^ j) b = b ↔ n ∣ j := by
  rw [← stedmanPlace_leads_eq h5 ho b.isLt, ← stedmanHead_pow_inv_val (by omega) ho]
  constructor
  · intro h
    rw [Perm.inv_eq_iff_eq.2 h.symm]
  · intro h
    exact (Perm.inv_eq_iff_eq.1 (Fin.ext h)).symm

theorem orderOf_stedmanHead (h5 : 5 ≤ n) (ho : n % 2 = 1) : orderOf (stedmanHead n (by omega)) = n := by
  apply Nat.dvd_antisymm
  · apply orderOf_dvd_of_pow_eq_one
    ext b
    congr 1
    exact (stedmanHead_pow_fixes h5 ho n b).2 (dvd_refl _)
  · rw [← stedmanHead_pow_fixes h5 ho _ ⟨0, by omega⟩, pow_orderOf_eq_one]; rfl

theorem minimalPeriod_stedmanHead (h5 : 5 ≤ n) (ho : n % 2 = 1) (b : Fin n) :
    Function.minimalPeriod (stedmanHead n (by omega)) b = n := by
  have key : ∀ i, Function.IsPeriodicPt (stedmanHead n (by omega)) i b ↔ n ∣ i := by
    intro i
    rw [← stedmanHead_pow_fixes h5 ho i b, Function.IsPeriodicPt, Function.IsFixedPt, Perm.coe_pow]
  apply Nat.dvd_antisymm
  · exact (Function.isPeriodicPt_iff_minimalPeriod_dvd).1 ((key _).2 (dvd_refl _))
  · exact (key _).1 (Function.isPeriodicPt_minimalPeriod _ _)

theorem stedman_class (h5 : 5 ≤ n) (ho : n % 2 = 1) :
    ClassIs (stedmanLead n (by omega)) (stedmanHead n (by omega)) .principle ∧
    ¬ IsLittle (stedmanLead n (by omega)) (stedmanHead n (by omega)) ∧
    ¬ IsDifferential (stedmanHead n (by omega)) := by
  have h : ∀ b : Fin n, ¬ IsHuntBell (stedmanHead n (by omega)) b := by
    intro b hb
    have := (stedmanHead_pow_fixes h5 ho 1 b).1 (by rw [pow_one]; exact hb)
    have := Nat.le_of_dvd (by omega) this
    omega
  refine ⟨h, ?_, ?_⟩
  · rintro ⟨⟨b, hb⟩, -⟩
    exact h b hb
  · rintro ⟨a, b, -, -, hab⟩
    exact hab (by rw [minimalPeriod_stedmanHead h5 ho, minimalPeriod_stedmanHead h5 ho])

/-! ## C98 -/

/-- Stedman on any odd stage from five bells up to the last with a name: the method made from its place
notation is a principle, so the title is just its name and the stage; its plain course has `n` leads of twelve
rows and every bell is in each row where Stedman takes it; all bells do the same work, one some leads after
the other, and no row comes twice. -/
theorem C98_stedman (name : String) (h5 : 5 ≤ n) (h22 : n ≤ 22) (ho : n % 2 = 1) :
    ∃ m course stageName, (Method.fromPlaceNotString name ⟨n⟩ (stedmanText n)).Returns (.ok m) ∧
      m.name = name ∧ m.cls = ⟨false, false, false, .principle⟩ ∧ stageNames[n - 1]? = some stageName ∧
      m.title = joinSpaces (nameWords name ++ [stageName]) ∧ m.leadLen = 12 ∧
      m.plainCourse.Returns course ∧ course.len = 12 * n ∧
      (∀ t < course.len, ∃ r a, course.getAnnotRow t = some (r, a) ∧
        ∀ b < n, r.placeOf ⟨b⟩ = some (stedmanPlace n b t)) ∧
      (∀ b c, b < n → c < n → ∃ j, ∀ t, stedmanPlace n c t = stedmanPlace n b (t + j * m.leadLen)) ∧
      (∀ i j r r' a a', course.getAnnotRow i = some (r, a) → course.getAnnotRow j = some (r', a') →
        i < course.len → j < course.len → r = r' → i = j) := by
  obtain ⟨m, h1, h3, h4', h5', h6, h7, h8, h9⟩ := fromPlaceNotString_of_parse (by omega) h22 name
    (stedmanText n) (stedmanChanges n (by omega)) _ _ (by simp [stedmanChanges]) (by
      intro τ hτ; obtain ⟨i, -, rfl⟩ := List.mem_map.1 hτ; exact stedmanChange_isChange _ i)
    (parse_stedman h5 (by omega) ho) (follows_stedman (by omega))
  obtain ⟨c1, c2, c3⟩ := stedman_class (n := n) h5 ho
  have hcls := cls_eq h5' h6 h7 h8 c1 c2 c3
  rw [hcls] at h9
  obtain ⟨stageName, h10, h11⟩ := title_eq (by omega) h22 h9
  have hl : (stedmanLead n (by omega)).length = 12 := by simp [stedmanLead]
  obtain ⟨h12, course, h13, h14, h15⟩ := course_rows (by omega) m _ _ h3 rfl
  rw [hl, orderOf_stedmanHead h5 ho, Nat.mul_comm] at h14
  rw [hl] at h12
  have hp : ∀ t, ∀ b < n, (Row.ofPerm (courseRow (stedmanLead n (by omega)) (stedmanHead n (by omega)) t)).placeOf
      ⟨b⟩ = some (stedmanPlace n b t) := by
    intro t b hb
    rw [placeOf_ofPerm _ ⟨b, hb⟩, ← placeOfBell_stedman (by omega) ho ⟨b, hb⟩]; rfl
  refine ⟨m, course, stageName, h1, h4', hcls, h10, ?_, h12, h13, h14, ?_, ?_, ?_⟩
  · rw [h11]; simp [titleWords, nameWords]
  · intro t ht
    obtain ⟨a, ha⟩ := h15 t ht
    exact ⟨_, a, ha, hp t⟩
  · intro b c hb hc
    rw [h12]
    exact stedman_same_work h5 ho hb hc
  · intro i j r r' a a' hi hj hi2 hj2 hrr
    obtain ⟨x, hx⟩ := h15 i hi2
    obtain ⟨y, hy⟩ := h15 j hj2
    rw [hi] at hx
    rw [hj] at hy
    have e1 := (Prod.ext_iff.1 (Option.some.inj hx)).1
    have e2 := (Prod.ext_iff.1 (Option.some.inj hy)).1
    simp only at e1 e2
    rw [h14] at hi2 hj2
    refine stedman_distinct h5 ho hi2 hj2 fun b hb => ?_
    have q1 := hp i b hb
    have q2 := hp j b hb
    rw [← e1, hrr, e2, q2] at q1
    exact (Option.some.inj q1).symm

/-- The text and the places of the specification for Doubles and Triples: the usual place notation; the rows
after two and three changes of Doubles (places of the bells 1 to 5), and the lead heads. -/
example : String.ofList (stedmanText 5) = "3.1.5.3.1.3.1.3.5.1.3.1" ∧
    String.ofList (stedmanText 7) = "3.1.7.3.1.3.1.3.7.1.3.1" ∧
    (List.range 5).map (fun b => stedmanPlace 5 b 2) = [2, 0, 1, 3, 4] ∧
    (List.range 5).map (fun b => stedmanPlace 5 b 3) = [3, 1, 0, 2, 4] ∧
    (List.range 5).map (fun b => stedmanPlace 5 b 12) = [3, 4, 1, 2, 0] ∧
    (List.range 7).map (fun b => stedmanPlace 7 b 12) = [6, 4, 1, 2, 5, 0, 3] := by decide +kernel

end Bellframe.Props
