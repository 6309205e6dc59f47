import Verif.Proofs.Method

/-! # When `plain_course` ends -/

namespace Bellframe

open Equiv

variable {n : Nat} {A : Type}

/-- The state of the loop after `j` more leads; `σ₀` is the first row. -/
def CourseState (lead : List (Perm (Fin n))) (τ : Perm (Fin n)) (m j : Nat) (c : AnnotBlock A) : Prop :=
  ∃ (σs : List (Perm (Fin n))) (l : Perm (Fin n)) (annots : List A),
    c = .ofPerms σs l annots ∧ σs.length = annots.length ∧ (lead ++ [τ]) <+: (σs ++ [l]) ∧
    m ≤ annots.length ∧ l = τ * ((lead.head?.getD τ)⁻¹ * τ) ^ j

theorem courseState_step (hn : 0 < n) {lead : List (Perm (Fin n))} {τ : Perm (Fin n)} {j : Nat}
    {c : AnnotBlock A} (h : CourseState lead τ lead.length j c) :
    ∃ c', c.extendFromWithin (.included 0) (.excluded lead.length) = .ok c' ∧
      CourseState lead τ lead.length (j + 1) c' := by
  obtain ⟨σs, l, annots, rfl, h1, ⟨rest, h2⟩, h3, h4⟩ := h
  set σ₀ := lead.head?.getD τ with hσ
  have h0 : (σs ++ [l])[0]? = some σ₀ := by
    rw [← h2]
    cases lead <;> rfl
  refine ⟨_, AnnotBlock.extendFromWithin_ofPerms hn σs l annots h1 _ _ 0 lead.length rfl σ₀ h0
    (by omega) h3, ?_⟩
  have htake : (σs ++ [l]).take (lead.length + 1) = lead ++ [τ] := by
    rw [← h2, List.take_left' (by simp)]
  rw [htake]
  rcases List.eq_nil_or_concat lead with rfl | ⟨lead', x, hlead⟩
  · refine ⟨σs, l, annots, ?_, h1, ⟨rest, h2⟩, h3, ?_⟩
    · simp [AnnotBlock.ofPerms]
    · have : σ₀ = τ := rfl
      rw [h4, this]
      simp
  · obtain ⟨y, ys, hy⟩ : ∃ y ys, lead = y :: ys := by
      cases lead with
      | nil => simp at hlead
      | cons y ys => exact ⟨y, ys, rfl⟩
    refine ⟨σs ++ [l] ++ (ys.map (l * σ₀⁻¹ * ·)), l * σ₀⁻¹ * τ, annots ++ (annots.take lead.length).drop 0,
      ?_, ?_, ?_, ?_, ?_⟩
    · simp [AnnotBlock.ofPerms, hy]
    · simp only [List.length_append, List.length_map, List.length_drop, List.length_take,
        List.length_singleton]
      have : lead.length = ys.length + 1 := by rw [hy]; rfl
      omega
    · rw [← h2]
      simp
    · rw [List.length_append]
      omega
    · show l * σ₀⁻¹ * τ = τ * (σ₀⁻¹ * τ) ^ (j + 1)
      rw [pow_succ, ← mul_assoc, ← h4, ← mul_assoc]

theorem courseState_leftover (hn : 0 < n) {lead : List (Perm (Fin n))} {τ : Perm (Fin n)} {m j : Nat}
    {c : AnnotBlock A} (h : CourseState lead τ m j c) :
    c.leftoverRow = .ok (.ofPerm (τ * ((lead.head?.getD τ)⁻¹ * τ) ^ j)) := by
  obtain ⟨σs, l, annots, rfl, -, -, -, rfl⟩ := h
  exact AnnotBlock.leftover_ofPerms hn _ _ _

theorem plainCourseLoop_diverges (hn : 0 < n) {lead : List (Perm (Fin n))} {τ : Perm (Fin n)}
    (hno : ∀ j, τ * ((lead.head?.getD τ)⁻¹ * τ) ^ j ≠ 1) (c : AnnotBlock A) (j : Nat)
    (hc : CourseState lead τ lead.length j c) : (Method.plainCourseLoop lead.length c).Diverges := by
  refine Method.plainCourseLoop.fixpoint_induct (A := A) lead.length
    (fun f => ∀ j c, CourseState lead τ lead.length j c → f c = (none : Option (Except Panic (AnnotBlock A))))
    ?_ ?_ j c hc
  · apply Lean.Order.admissible_pi
    intro j
    apply Lean.Order.admissible_pi
    intro c
    apply Lean.Order.admissible_pi
    intro _
    apply Lean.Order.admissible_apply (P := fun _ (y : Run (AnnotBlock A)) =>
      y = (none : Option (Except Panic (AnnotBlock A))))
    exact Lean.Order.admissible_flatOrder _ rfl
  · intro f ih j c hc
    have hr : (Row.ofPerm (τ * ((lead.head?.getD τ)⁻¹ * τ) ^ j)).isRounds = false := by
      rw [← Bool.not_eq_true, Row.ofPerm_isRounds]
      exact hno j
    obtain ⟨c', h1, h2⟩ := courseState_step hn hc
    simp only [courseState_leftover hn hc, Run.lift_eq, Run.ofRes_ok_bind, hr, Bool.false_eq_true,
      if_false, h1]
    exact ih (j + 1) c' h2

theorem plainCourseLoop_ends (hn : 0 < n) {lead : List (Perm (Fin n))} {τ : Perm (Fin n)} (d : Nat) :
    ∀ (j : Nat) (c : AnnotBlock A), CourseState lead τ lead.length j c →
      τ * ((lead.head?.getD τ)⁻¹ * τ) ^ (j + d) = 1 →
      ∃ c', (Method.plainCourseLoop lead.length c).Returns c' := by
  induction d with
  | zero =>
    intro j c hc hj
    refine ⟨c, ?_⟩
    rw [Method.plainCourseLoop]
    rw [Nat.add_zero] at hj
    simp only [courseState_leftover hn hc, Run.lift_eq, Run.ofRes_ok_bind, hj,
      (Row.ofPerm_isRounds (1 : Perm (Fin n))).2 rfl, if_true, Run.pure_eq, Run.returns_ofRes]
  | succ d ih =>
    intro j c hc hj
    rw [Method.plainCourseLoop]
    by_cases hr : (Row.ofPerm (τ * ((lead.head?.getD τ)⁻¹ * τ) ^ j)).isRounds = true
    · refine ⟨c, ?_⟩
      simp only [courseState_leftover hn hc, Run.lift_eq, Run.ofRes_ok_bind, hr, if_true, Run.pure_eq,
        Run.returns_ofRes]
    · obtain ⟨c', h1, h2⟩ := courseState_step hn hc
      obtain ⟨c'', h3⟩ := ih (j + 1) c' h2 (by rw [← hj]; congr 2; omega)
      refine ⟨c'', ?_⟩
      simp only [courseState_leftover hn hc, Run.lift_eq, Run.ofRes_ok_bind, hr, Bool.false_eq_true,
        if_false, h1]
      exact h3

end Bellframe
