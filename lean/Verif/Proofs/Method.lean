import Verif.Spec.Method
import Verif.Model.Method
import Verif.Proofs.Block
import Mathlib.GroupTheory.OrderOfElement

/-! # Lemmas about plain courses -/

namespace Bellframe

open Equiv

variable {n : Nat} {A : Type}

theorem courseRow_lead {lead : List (Perm (Fin n))} (τ : Perm (Fin n)) {t : Nat}
    (ht : t < lead.length) : courseRow lead τ t = lead[t] := by
  unfold courseRow
  rw [Nat.div_eq_of_lt ht, Nat.mod_eq_of_lt ht, List.getElem?_eq_getElem ht]
  simp

theorem courseRow_add (lead : List (Perm (Fin n))) (τ : Perm (Fin n)) (hne : lead ≠ []) (k t : Nat) :
    courseRow lead τ (k * lead.length + t) = τ ^ k * courseRow lead τ t := by
  have hpos : 0 < lead.length := List.length_pos_of_ne_nil hne
  unfold courseRow
  rw [Nat.add_comm, Nat.add_mul_div_right _ _ hpos, Nat.add_mul_mod_self_right, Nat.add_comm, pow_add,
    mul_assoc]

theorem courseRow_zero {lead : List (Perm (Fin n))} (τ : Perm (Fin n)) (h0 : lead.head? = some 1) :
    courseRow lead τ 0 = 1 := by
  cases lead with
  | nil => simp at h0
  | cons x xs => simp at h0; subst h0; simp [courseRow]

theorem courseRow_mul {lead : List (Perm (Fin n))} (τ : Perm (Fin n)) (h0 : lead.head? = some 1)
    (k : Nat) : courseRow lead τ (k * lead.length) = τ ^ k := by
  have hne : lead ≠ [] := by rintro rfl; simp at h0
  have := courseRow_add lead τ hne k 0
  rwa [Nat.add_zero, courseRow_zero τ h0, mul_one] at this

/-- The first `t` rows of the plain course. -/
def courseRows (lead : List (Perm (Fin n))) (τ : Perm (Fin n)) (t : Nat) : List (Perm (Fin n)) :=
  (List.range t).map (courseRow lead τ)

theorem courseRows_lead (lead : List (Perm (Fin n))) (τ : Perm (Fin n)) :
    courseRows lead τ lead.length = lead := by
  apply List.ext_getElem
  · simp [courseRows]
  · intro i h1 h2
    simp [courseRows, courseRow_lead τ h2]

theorem courseRows_succ (lead : List (Perm (Fin n))) (τ : Perm (Fin n)) (t : Nat) :
    courseRows lead τ (t + 1) = courseRows lead τ t ++ [courseRow lead τ t] := by
  simp [courseRows, List.range_succ]

theorem courseRows_add (lead : List (Perm (Fin n))) (τ : Perm (Fin n)) (hne : lead ≠ []) (k : Nat) :
    courseRows lead τ (k * lead.length + 1) ++
        (((courseRows lead τ (k * lead.length + 1)).take (lead.length + 1)).drop 1).map (τ ^ k * ·) =
      courseRows lead τ ((k + 1) * lead.length + 1) ∨ k = 0 := by
  by_cases hk : k = 0
  · exact .inr hk
  left
  have hle : lead.length + 1 ≤ k * lead.length + 1 := by
    have : 1 * lead.length ≤ k * lead.length := Nat.mul_le_mul_right _ (by omega)
    omega
  unfold courseRows
  rw [← List.map_take, ← List.map_drop, List.take_range, Nat.min_eq_left hle, List.map_map]
  have h2 : (k + 1) * lead.length + 1 = (k * lead.length + 1) + lead.length := by ring
  rw [h2, List.range_add (n := k * lead.length + 1) (m := lead.length), List.map_append, List.append_cancel_left_eq, List.map_map]
  have h3 : (List.range (lead.length + 1)).drop 1 = (List.range lead.length).map (1 + ·) := by
    rw [Nat.add_comm, List.range_add]
    simp
  rw [h3, List.map_map]
  apply List.map_congr_left
  intro i _
  simp only [Function.comp_apply]
  rw [← courseRow_add lead τ hne]
  congr 1
  ring

/-- The annotations of the first `t` rows of the plain course. -/
def courseAnnots (annots : List A) (t : Nat) : List A :=
  (List.range t).filterMap (fun i => annots[i % annots.length]?)

theorem courseAnnots_length (annots : List A) (hne : annots ≠ []) (t : Nat) :
    (courseAnnots annots t).length = t := by
  have hpos : 0 < annots.length := List.length_pos_of_ne_nil hne
  induction t with
  | zero => rfl
  | succ t ih =>
    unfold courseAnnots at *
    rw [List.range_succ, List.filterMap_append, List.length_append, ih]
    simp [List.getElem?_eq_getElem (Nat.mod_lt t hpos)]

theorem courseAnnots_getElem? (annots : List A) (hne : annots ≠ []) (t i : Nat) (hi : i < t) :
    (courseAnnots annots t)[i]? = annots[i % annots.length]? := by
  have hpos : 0 < annots.length := List.length_pos_of_ne_nil hne
  induction t with
  | zero => omega
  | succ t ih =>
    have hsucc : courseAnnots annots (t + 1) = courseAnnots annots t ++ [annots[t % annots.length]'(Nat.mod_lt t hpos)] := by
      unfold courseAnnots
      rw [List.range_succ, List.filterMap_append]
      simp [List.getElem?_eq_getElem (Nat.mod_lt t hpos)]
    have hlen := courseAnnots_length annots hne t
    rw [hsucc]
    by_cases h : i < t
    · rw [List.getElem?_append_left (by omega), ih h]
    · have : i = t := by omega
      subst this
      rw [List.getElem?_append_right (by omega), hlen]
      simp [List.getElem?_eq_getElem (Nat.mod_lt i hpos)]

theorem courseAnnots_ext (annots : List A) (hne : annots ≠ []) (t : Nat) (l : List A)
    (hl : l.length = t) (h : ∀ i < t, l[i]? = annots[i % annots.length]?) :
    l = courseAnnots annots t := by
  apply List.ext_getElem?
  intro i
  by_cases hi : i < t
  · rw [h i hi, courseAnnots_getElem? annots hne t i hi]
  · rw [List.getElem?_eq_none (by omega),
      List.getElem?_eq_none (by rw [courseAnnots_length annots hne]; omega)]

theorem courseAnnots_lead (annots : List A) (hne : annots ≠ []) :
    courseAnnots annots annots.length = annots :=
  (courseAnnots_ext annots hne _ _ rfl (fun i hi => by rw [Nat.mod_eq_of_lt hi])).symm

theorem courseAnnots_add (annots : List A) (hne : annots ≠ []) (k : Nat) (hk : k ≠ 0) :
    courseAnnots annots (k * annots.length) ++
        ((courseAnnots annots (k * annots.length)).take annots.length).drop 0 =
      courseAnnots annots ((k + 1) * annots.length) := by
  have hpos : 0 < annots.length := List.length_pos_of_ne_nil hne
  have hle : annots.length ≤ k * annots.length := by
    have : 1 * annots.length ≤ k * annots.length := Nat.mul_le_mul_right _ (by omega)
    omega
  have hlen := courseAnnots_length annots hne (k * annots.length)
  have h2 : (k + 1) * annots.length = k * annots.length + annots.length := by ring
  apply courseAnnots_ext annots hne
  · rw [List.drop_zero, List.length_append, List.length_take, hlen, h2]
    omega
  · intro i hi
    by_cases h : i < k * annots.length
    · rw [List.getElem?_append_left (by omega), courseAnnots_getElem? annots hne _ _ h]
    · rw [List.getElem?_append_right (by omega), hlen, List.drop_zero, List.getElem?_take,
        if_pos (by omega), courseAnnots_getElem? annots hne _ _ (by omega)]
      congr 1
      conv_rhs => rw [show i = (i - k * annots.length) + k * annots.length from by omega]
      rw [Nat.add_mul_mod_self_right]

/-- The plain course of `k` leads. -/
def courseBlock (lead : List (Perm (Fin n))) (τ : Perm (Fin n)) (annots : List A) (k : Nat) :
    AnnotBlock A :=
  .ofPerms (courseRows lead τ (k * lead.length)) (τ ^ k) (courseAnnots annots (k * annots.length))

theorem courseBlock_extend (hn : 0 < n) {lead : List (Perm (Fin n))} (τ : Perm (Fin n))
    {annots : List A} (hlen : lead.length = annots.length) (h0 : lead.head? = some 1) (k : Nat)
    (hk : k ≠ 0) :
    (courseBlock lead τ annots k).extendFromWithin (.included 0) (.excluded annots.length) =
      .ok (courseBlock lead τ annots (k + 1)) := by
  have hne : lead ≠ [] := by rintro rfl; simp at h0
  have hpos : 0 < lead.length := List.length_pos_of_ne_nil hne
  have hane : annots ≠ [] := by rintro rfl; simp at hlen; exact hne hlen
  have hle : annots.length ≤ k * annots.length := by
    have : 1 * annots.length ≤ k * annots.length := Nat.mul_le_mul_right _ (by omega)
    omega
  have hal := courseAnnots_length annots hane (k * annots.length)
  unfold courseBlock
  have hrl : (courseRows lead τ (k * lead.length)).length =
      (courseAnnots annots (k * annots.length)).length := by
    rw [hal, ← hlen]; simp [courseRows]
  have hsucc : courseRows lead τ (k * lead.length) ++ [τ ^ k] =
      courseRows lead τ (k * lead.length + 1) := by
    rw [courseRows_succ, courseRow_mul τ h0]
  rw [AnnotBlock.extendFromWithin_ofPerms hn _ _ _ hrl _ _ 0 annots.length rfl 1 ?_ (by omega)
    (by omega)]
  · rw [hsucc, inv_one, mul_one, ← hlen]
    rcases courseRows_add lead τ hne k with h | h
    · simp only [Nat.zero_add]
      rw [h, hlen, courseAnnots_add annots hane k hk, ← hlen, courseRows_succ, courseRow_mul τ h0]
      rfl
    · exact absurd h hk
  · rw [hsucc]
    simp only [courseRows]
    rw [List.getElem?_map, List.getElem?_range (by omega)]
    simp [courseRow_zero τ h0]

theorem plainCourseLoop_returns (hn : 0 < n) {lead : List (Perm (Fin n))} (τ : Perm (Fin n))
    {annots : List A} (hlen : lead.length = annots.length) (h0 : lead.head? = some 1) (d : Nat) :
    ∀ k, k ≠ 0 → k + d = orderOf τ →
    (Method.plainCourseLoop annots.length (courseBlock lead τ annots k)).Returns
      (courseBlock lead τ annots (orderOf τ)) := by
  induction d with
  | zero =>
    intro k hk he
    rw [Nat.add_zero] at he
    subst he
    rw [Method.plainCourseLoop]
    have hl : (courseBlock lead τ annots (orderOf τ)).leftoverRow =
        .ok (Row.ofPerm (1 : Perm (Fin n))) := by
      unfold courseBlock
      rw [AnnotBlock.leftover_ofPerms hn, pow_orderOf_eq_one]
    simp only [hl, Run.lift_eq, Run.ofRes_ok_bind, (Row.ofPerm_isRounds (1 : Perm (Fin n))).2 rfl,
      if_true, Run.pure_eq, Run.returns_ofRes]
  | succ d ih =>
    intro k hk he
    rw [Method.plainCourseLoop]
    have hl : (courseBlock lead τ annots k).leftoverRow = .ok (Row.ofPerm (τ ^ k)) := by
      unfold courseBlock
      rw [AnnotBlock.leftover_ofPerms hn]
    have hnr : (Row.ofPerm (τ ^ k)).isRounds = false := by
      rw [← Bool.not_eq_true, Row.ofPerm_isRounds]
      exact pow_ne_one_of_lt_orderOf hk (by omega)
    simp only [hl, Run.lift_eq, Run.ofRes_ok_bind, hnr, Bool.false_eq_true, if_false,
      courseBlock_extend hn τ hlen h0 k hk]
    exact ih (k + 1) (by omega) (by omega)

theorem courseBlock_one (lead : List (Perm (Fin n))) (τ : Perm (Fin n)) {annots : List A}
    (hne : annots ≠ []) : courseBlock lead τ annots 1 = .ofPerms lead τ annots := by
  unfold courseBlock
  rw [Nat.one_mul, Nat.one_mul, courseRows_lead, pow_one, courseAnnots_lead annots hne]

end Bellframe
