import Verif.Props.Class
import Verif.Props.Call
import Verif.Proofs.ClassSymmetry
import Verif.Proofs.ClassMirror
import Mathlib.Tactic.Zify
import Mathlib.Tactic.Linarith

/-!
# Methods that are the same but for where and in which direction they are begun

**C71.**  A method rung backwards, or begun at another of its changes, has the same class and the same
flags.

**C72.**  So has a method rung upside down.
-/

namespace Bellframe.Props

open Equiv

variable {n : Nat} {A : Type}

/-! ## Courses of changes -/

/-- The change made after row `t`, when the changes are repeated endlessly, at integer times. -/
def changeAt (τs : List (Perm (Fin n))) (t : ℤ) : Perm (Fin n) :=
  τs[(t % τs.length).toNat]?.getD 1

theorem changeAt_add (τs : List (Perm (Fin n))) (t j : ℤ) :
    changeAt τs (t + j * τs.length) = changeAt τs t := by
  unfold changeAt
  rw [Int.add_mul_emod_self_right]

/-- The rows of the course follow from each other by the changes. -/
theorem courseRow_step {τs lead : List (Perm (Fin n))} {τ : Perm (Fin n)} (hne : τs ≠ [])
    (h : Follows 1 τs (lead ++ [τ])) (t : ℕ) :
    courseRow lead τ (t + 1) = courseRow lead τ t * changeAt τs t := by
  obtain ⟨h0, hl⟩ := follows_start hne h
  have hN : 0 < lead.length := by
    rw [hl]
    exact List.length_pos_of_ne_nil hne
  have hrow : ∀ t ≤ lead.length, (lead ++ [τ])[t]? = some (courseRow lead τ t) := by
    intro t ht
    rcases Nat.lt_or_eq_of_le ht with h | h
    · rw [List.getElem?_append_left h, List.getElem?_eq_getElem h, courseRow_lead τ h]
    · have := courseRow_mul τ h0 1
      rw [Nat.one_mul, pow_one] at this
      rw [h, this]
      simp
  have hlt : t % lead.length < lead.length := Nat.mod_lt _ hN
  obtain ⟨ρ, h1, h2⟩ := h.2.2 (t % lead.length) τs[t % lead.length] (List.getElem?_eq_getElem (by omega))
  rw [hrow _ hlt.le, Option.some.injEq] at h1
  rw [hrow _ hlt, Option.some.injEq, ← h1] at h2
  have h3 : changeAt τs t = τs[t % lead.length] := by
    unfold changeAt
    have e : (((t : ℤ) % τs.length).toNat) = t % lead.length := by
      rw [hl]
      norm_cast
    rw [e, List.getElem?_eq_getElem (by omega)]
    rfl
  have hne' : lead ≠ [] := List.ne_nil_of_length_pos hN
  have e : t = t / lead.length * lead.length + t % lead.length := (Nat.div_add_mod' t lead.length).symm
  have e1 := courseRow_add lead τ hne' (t / lead.length) (t % lead.length)
  have e2 := courseRow_add lead τ hne' (t / lead.length) (t % lead.length + 1)
  rw [← e] at e1
  rw [← Nat.add_assoc, ← e] at e2
  rw [h3, e1, e2, h2, mul_assoc]

/-- Rows that follow from rounds by the changes are the course. -/
theorem isCourse_of_steps {τs lead : List (Perm (Fin n))} {τ : Perm (Fin n)} (hne : τs ≠ [])
    (h : Follows 1 τs (lead ++ [τ])) {R : ℤ → Perm (Fin n)} (h0 : R 0 = 1)
    (hs : ∀ t, R (t + 1) = R t * changeAt τs t) : IsCourse lead τ R := by
  obtain ⟨hh, hl⟩ := follows_start hne h
  have hrow : ∀ t : ℕ, R t = courseRow lead τ t := by
    intro t
    induction t with
    | zero => rw [courseRow_zero τ hh]; exact h0
    | succ t ih =>
      push_cast
      rw [hs, ih, courseRow_step hne h]
  refine ⟨hrow, fun t => ?_⟩
  have hper : ∀ t : ℤ, changeAt τs (t + lead.length) = changeAt τs t := by
    intro t
    have := changeAt_add τs t 1
    rwa [one_mul, ← hl] at this
  induction t using Int.induction_on with
  | zero =>
    rw [zero_add, hrow, h0, mul_one]
    have := courseRow_mul τ hh 1
    rwa [Nat.one_mul, pow_one] at this
  | succ t ih =>
    rw [show (t : ℤ) + 1 + lead.length = t + lead.length + 1 by ring, hs, hs, ih, hper, mul_assoc]
  | pred t ih =>
    have h1 := hs (-t - 1)
    have h2 := hs (-t - 1 + lead.length)
    rw [show -(t : ℤ) - 1 + 1 = -t by ring] at h1
    rw [show -(t : ℤ) - 1 + lead.length + 1 = -t + lead.length by ring, ih, h1, hper, ← mul_assoc] at h2
    exact (mul_right_cancel h2).symm

/-- The course follows by the changes at all integer times. -/
theorem steps_of_isCourse {τs lead : List (Perm (Fin n))} {τ : Perm (Fin n)} (hne : τs ≠ [])
    (h : Follows 1 τs (lead ++ [τ])) {Q : ℤ → Perm (Fin n)} (hQ : IsCourse lead τ Q) (t : ℤ) :
    Q (t + 1) = Q t * changeAt τs t := by
  obtain ⟨hh, hl⟩ := follows_start hne h
  have hN : 0 < lead.length := by
    rw [hl]
    exact List.length_pos_of_ne_nil hne
  have hN' : (lead.length : ℤ) ≠ 0 := by omega
  have hback : ∀ (t : ℤ) (j : ℕ), Q (t + j * lead.length + 1) =
      Q (t + j * lead.length) * changeAt τs (t + j * lead.length) → Q (t + 1) = Q t * changeAt τs t := by
    intro t j hj
    rw [show t + (j : ℤ) * lead.length + 1 = t + 1 + j * lead.length by ring, hQ.leads, hQ.leads, hl,
      changeAt_add, mul_assoc] at hj
    exact mul_left_cancel hj
  apply hback t t.natAbs
  have hle : 0 ≤ t + (t.natAbs : ℤ) * lead.length := by
    have : (t.natAbs : ℤ) * 1 ≤ (t.natAbs : ℤ) * lead.length :=
      mul_le_mul_of_nonneg_left (by omega) (by omega)
    omega
  obtain ⟨s, hs⟩ := Int.eq_ofNat_of_zero_le hle
  rw [hs]
  have := courseRow_step hne h s
  rw [← hQ.row, ← hQ.row] at this
  exact_mod_cast this

theorem changeAt_rotate (τs : List (Perm (Fin n))) (k : ℕ) (t : ℤ) :
    changeAt (τs.rotate k) t = changeAt τs (t + k) := by
  unfold changeAt
  rw [List.length_rotate]
  rcases Nat.eq_zero_or_pos τs.length with h0 | h0
  · rw [List.length_eq_zero_iff.1 h0]
    simp
  · have h1 := Int.emod_nonneg t (b := τs.length) (by omega)
    have h2 := Int.emod_lt_of_pos t (b := τs.length) (by omega)
    rw [List.getElem?_rotate (by omega)]
    congr 2
    have h3 := Int.emod_nonneg (t + k) (b := τs.length) (by omega)
    zify
    rw [Int.toNat_of_nonneg h1, Int.toNat_of_nonneg h3, Int.emod_add_emod]

theorem changeAt_reverse (τs : List (Perm (Fin n))) (t : ℤ) :
    changeAt τs.reverse t = changeAt τs (-t - 1) := by
  unfold changeAt
  rw [List.length_reverse]
  rcases Nat.eq_zero_or_pos τs.length with h0 | h0
  · rw [List.length_eq_zero_iff.1 h0]
    simp
  · have h1 := Int.emod_nonneg t (b := τs.length) (by omega)
    have h2 := Int.emod_lt_of_pos t (b := τs.length) (by omega)
    rw [List.getElem?_reverse (by omega)]
    congr 2
    have h3 : (-t - 1) % (τs.length : ℤ) = τs.length - 1 - t % τs.length := by
      rw [show -t - 1 = (τs.length - 1 - t % τs.length) + (-(t / τs.length) - 1) * τs.length by
        have := Int.emod_add_mul_ediv t τs.length
        linarith]
      rw [Int.add_mul_emod_self_right, Int.emod_eq_of_lt (by omega) (by omega)]
    rw [h3]
    omega

theorem changeAt_involution {τs : List (Perm (Fin n))} (hc : ∀ τ ∈ τs, IsChange τ) (t : ℤ) :
    changeAt τs t * changeAt τs t = 1 := by
  unfold changeAt
  cases h : τs[(t % τs.length).toNat]? with
  | none => simp
  | some τ => exact (hc τ (List.mem_of_getElem? h)).involution

/-- The course of the same changes begun elsewhere. -/
theorem sameCourse_rotate {τs lead lead' : List (Perm (Fin n))} {τ τ' : Perm (Fin n)} (hne : τs ≠ [])
    (k : ℕ) (h : Follows 1 τs (lead ++ [τ])) (h' : Follows 1 (τs.rotate k) (lead' ++ [τ'])) :
    ∃ Q Q' β ε j, SameCourse lead τ lead' τ' Q Q' β ε j := by
  have hne' : τs.rotate k ≠ [] := by simpa using hne
  obtain ⟨h1, h2⟩ := follows_start hne h
  obtain ⟨-, h2'⟩ := follows_start hne' h'
  have hlne : lead ≠ [] := by rintro rfl; simp at h1
  have hQ := courseZ_isCourse lead τ hlne
  refine ⟨courseZ lead τ, fun t => (courseZ lead τ k)⁻¹ * courseZ lead τ (1 * t + k), courseZ lead τ k, 1, k,
    hlne, by simp [h2, h2'], hQ, ?_, .inl rfl, fun t => rfl⟩
  apply isCourse_of_steps hne' h'
  · simp
  · intro t
    rw [changeAt_rotate, mul_assoc, one_mul, one_mul, show t + 1 + (k : ℤ) = t + k + 1 by ring,
      steps_of_isCourse hne h hQ]

/-- The course of the same changes in the opposite order. -/
theorem sameCourse_reverse {τs lead lead' : List (Perm (Fin n))} {τ τ' : Perm (Fin n)} (hne : τs ≠ [])
    (hc : ∀ τ ∈ τs, IsChange τ) (h : Follows 1 τs (lead ++ [τ]))
    (h' : Follows 1 τs.reverse (lead' ++ [τ'])) :
    ∃ Q Q' β ε j, SameCourse lead τ lead' τ' Q Q' β ε j := by
  have hne' : τs.reverse ≠ [] := by simpa using hne
  obtain ⟨h1, h2⟩ := follows_start hne h
  obtain ⟨-, h2'⟩ := follows_start hne' h'
  have hlne : lead ≠ [] := by rintro rfl; simp at h1
  have hQ := courseZ_isCourse lead τ hlne
  refine ⟨courseZ lead τ, fun t => courseZ lead τ (-t), 1, -1, 0,
    hlne, by simp [h2, h2'], hQ, ?_, .inr rfl, fun t => by simp⟩
  apply isCourse_of_steps hne' h'
  · have := hQ.row 0
    rw [courseRow_zero τ h1] at this
    simpa using this
  · intro t
    have := steps_of_isCourse hne h hQ (-t - 1)
    rw [show -t - 1 + 1 = -t by ring] at this
    rw [changeAt_reverse, this, mul_assoc, changeAt_involution hc, mul_one]
    congr 1
    ring

/-! ## C71 -/

theorem same_class_of_spec (dflt : A) (hn : 0 < n) {τs τs' : List (Perm (Fin n))} (hne : τs ≠ [])
    (hc : ∀ τ ∈ τs, IsChange τ) (hne' : τs' ≠ []) (hc' : ∀ τ ∈ τs', IsChange τ)
    (hsame : ∀ lead τ lead' τ', Follows 1 τs (lead ++ [τ]) → Follows 1 τs' (lead' ++ [τ']) →
      (IsDifferential τ' ↔ IsDifferential τ) ∧ (IsLittle lead' τ' ↔ IsLittle lead τ) ∧
      ∀ c, ClassIs lead' τ' c ↔ ClassIs lead τ c) (c : FullClass)
    (h : ∃ block, PnBlock.toBlockFromRounds dflt ⟨τs.map PlaceNot.ofChange⟩ = .ok block ∧
      (FullClass.classify block).Returns c) :
    ∃ block, PnBlock.toBlockFromRounds dflt ⟨τs'.map PlaceNot.ofChange⟩ = .ok block ∧
      (FullClass.classify block).Returns c := by
  obtain ⟨lead, τ, c₁, h1, h2, h3, hj, hd, hl, hk⟩ := C51_place_notation dflt hn τs hne hc
  obtain ⟨lead', τ', c', h1', h2', h3', hj', hd', hl', hk'⟩ := C51_place_notation dflt hn τs' hne' hc'
  obtain ⟨block, h4, h5⟩ := h
  obtain rfl : c₁ = c := by
    rw [h2] at h4
    cases h4
    exact Except.ok.inj (Option.some.inj (h3.symm.trans h5))
  obtain ⟨s1, s2, s3⟩ := hsame _ _ _ _ h1 h1'
  refine ⟨_, h2', ?_⟩
  have : c' = c₁ := by
    have e1 : c'.isJump = c₁.isJump := hj'.trans hj.symm
    have e2 : c'.isDifferential = c₁.isDifferential := by rw [Bool.eq_iff_iff, hd, hd', s1]
    have e3 : c'.isLittle = c₁.isLittle := by rw [Bool.eq_iff_iff, hl, hl', s2]
    have e4 : c'.cls = c₁.cls := C51_class_unique lead τ _ _ ((s3 _).1 hk') hk
    cases c₁
    cases c'
    simp_all
  rwa [← this]

theorem same_class_of_sameCourse (dflt : A) (hn : 0 < n) {τs τs' : List (Perm (Fin n))} (hne : τs ≠ [])
    (hc : ∀ τ ∈ τs, IsChange τ) (hne' : τs' ≠ []) (hc' : ∀ τ ∈ τs', IsChange τ)
    (hsame : ∀ lead τ lead' τ', Follows 1 τs (lead ++ [τ]) → Follows 1 τs' (lead' ++ [τ']) →
      ∃ Q Q' β ε j, SameCourse lead τ lead' τ' Q Q' β ε j) (c : FullClass)
    (h : ∃ block, PnBlock.toBlockFromRounds dflt ⟨τs.map PlaceNot.ofChange⟩ = .ok block ∧
      (FullClass.classify block).Returns c) :
    ∃ block, PnBlock.toBlockFromRounds dflt ⟨τs'.map PlaceNot.ofChange⟩ = .ok block ∧
      (FullClass.classify block).Returns c := by
  refine same_class_of_spec dflt hn hne hc hne' hc' (fun lead τ lead' τ' h1 h2 => ?_) c h
  obtain ⟨Q, Q', β, ε, j, hs⟩ := hsame _ _ _ _ h1 h2
  exact ⟨hs.isDifferential, hs.isLittle, hs.classIs⟩

/-- The method with the same changes in the opposite order, and those that begin at another of the
changes, have the same class, and are little and differential if and only if the method is. -/
theorem C71_same_class (dflt : A) (hn : 0 < n) (τs : List (Perm (Fin n))) (hne : τs ≠ [])
    (hc : ∀ τ ∈ τs, IsChange τ) :
    ∃ c, ∀ τs', SameRound τs τs' →
      ∃ block, PnBlock.toBlockFromRounds dflt ⟨τs'.map PlaceNot.ofChange⟩ = .ok block ∧
        (FullClass.classify block).Returns c := by
  obtain ⟨lead, τ, c, -, h2, h3, -⟩ := C51_place_notation dflt hn τs hne hc
  refine ⟨c, ?_⟩
  rintro τs' ⟨k, rfl | rfl⟩
  · exact same_class_of_sameCourse dflt hn hne hc (by simpa using hne) (by simpa using hc)
      (fun _ _ _ _ => sameCourse_rotate hne k) c ⟨_, h2, h3⟩
  · have hne' : τs.reverse ≠ [] := by simpa using hne
    have hc' : ∀ τ ∈ τs.reverse, IsChange τ := by simpa using hc
    exact same_class_of_sameCourse dflt hn hne' hc' (by simpa using hne) (by simpa using hc)
      (fun _ _ _ _ => sameCourse_rotate hne' k) c
      (same_class_of_sameCourse dflt hn hne hc hne' hc' (fun _ _ _ _ => sameCourse_reverse hne hc) c
        ⟨_, h2, h3⟩)

/-- A lead of different changes that is neither the same backwards nor begun elsewhere. -/
example : ∃ τs : List (Perm (Fin 4)), τs ≠ [] ∧ (∀ τ ∈ τs, IsChange τ) ∧ SameRound τs (τs.rotate 1) ∧
    τs.rotate 1 ≠ τs ∧ SameRound τs τs.reverse ∧ τs.reverse ≠ τs ∧ τs.reverse ≠ τs.rotate 1 := by
  refine ⟨[swap 0 1 * swap 2 3, swap 1 2, swap 0 1], by simp, ?_, ⟨1, .inl rfl⟩, by decide,
    ⟨0, .inr rfl⟩, by decide, by decide⟩
  intro τ hτ
  simp only [List.mem_cons, List.not_mem_nil, or_false] at hτ
  rcases hτ with rfl | rfl | rfl <;> (unfold IsChange; decide)

/-! ## C72 -/

theorem upsideDown_one : upsideDown (1 : Perm (Fin n)) = 1 := by
  ext x
  simp [upsideDown]

theorem upsideDown_mul (σ τ : Perm (Fin n)) : upsideDown (σ * τ) = upsideDown σ * upsideDown τ := by
  ext x
  simp [upsideDown]

theorem upsideDown_isChange {τ : Perm (Fin n)} (h : IsChange τ) : IsChange (upsideDown τ) := by
  intro x
  have := h x.rev
  have h1 := x.isLt
  have h2 := (τ x.rev).isLt
  simp only [upsideDown, Perm.mul_apply, Fin.revPerm_apply, Fin.val_rev] at this ⊢
  omega

theorem changeAt_upsideDown (τs : List (Perm (Fin n))) (t : ℤ) :
    changeAt (τs.map upsideDown) t = upsideDown (changeAt τs t) := by
  unfold changeAt
  rw [List.length_map, List.getElem?_map]
  cases τs[(t % τs.length).toNat]? with
  | none => simp [upsideDown_one]
  | some τ => simp

theorem mirror_upsideDown {τs lead lead' : List (Perm (Fin n))} {τ τ' : Perm (Fin n)} (hne : τs ≠ [])
    (h : Follows 1 τs (lead ++ [τ])) (h' : Follows 1 (τs.map upsideDown) (lead' ++ [τ'])) :
    Mirror lead τ lead' τ' := by
  have hne' : τs.map upsideDown ≠ [] := by simpa using hne
  obtain ⟨h1, h2⟩ := follows_start hne h
  obtain ⟨h1', h2'⟩ := follows_start hne' h'
  have hlen : lead'.length = lead.length := by simp [h2, h2']
  have hrow : ∀ t, courseRow lead' τ' t = upsideDown (courseRow lead τ t) := by
    intro t
    induction t with
    | zero => rw [courseRow_zero τ h1, courseRow_zero τ' h1', upsideDown_one]
    | succ t ih =>
      rw [courseRow_step hne h, courseRow_step hne' h', ih, changeAt_upsideDown, upsideDown_mul]
  refine ⟨by rintro rfl; simp at h1, hlen, ?_, ?_⟩
  · have e1 := courseRow_mul τ h1 1
    have e2 := courseRow_mul τ' h1' 1
    rw [pow_one] at e1 e2
    rw [← e1, ← e2, hlen, hrow]
    rfl
  · intro b t
    unfold placeOfBell
    rw [hrow, Perm.inv_eq_iff_eq]
    simp [upsideDown]

/-- The method rung upside down has the same class, and is little and differential if and only if the
method is. -/
theorem C72_upside_down (dflt : A) (hn : 0 < n) (τs : List (Perm (Fin n))) (hne : τs ≠ [])
    (hc : ∀ τ ∈ τs, IsChange τ) :
    ∃ block block' c,
      PnBlock.toBlockFromRounds dflt ⟨τs.map PlaceNot.ofChange⟩ = .ok block ∧
      PnBlock.toBlockFromRounds dflt ⟨(τs.map upsideDown).map PlaceNot.ofChange⟩ = .ok block' ∧
      (FullClass.classify block).Returns c ∧ (FullClass.classify block').Returns c := by
  obtain ⟨lead, τ, c, -, h2, h3, -⟩ := C51_place_notation dflt hn τs hne hc
  have hc' : ∀ τ ∈ τs.map upsideDown, IsChange τ := by
    intro τ hτ
    obtain ⟨τ₀, h4, rfl⟩ := List.mem_map.1 hτ
    exact upsideDown_isChange (hc _ h4)
  obtain ⟨block', h4, h5⟩ := same_class_of_spec dflt hn hne hc (τs' := τs.map upsideDown)
    (by simpa using hne) hc'
    (fun _ _ _ _ h1 h1' => by
      have hm := mirror_upsideDown hne h1 h1'
      exact ⟨hm.isDifferential, hm.isLittle, hm.classIs (noJumps_of_follows hne hc h1)⟩) c ⟨_, h2, h3⟩
  exact ⟨_, block', c, h2, h4, h3, h5⟩

/-- A list of changes that is not the same upside down. -/
example : ∃ τs : List (Perm (Fin 4)), τs ≠ [] ∧ (∀ τ ∈ τs, IsChange τ) ∧ τs.map upsideDown ≠ τs ∧
    τs.map upsideDown = [swap 0 1 * swap 2 3, swap 0 1] := by
  refine ⟨[swap 0 1 * swap 2 3, swap 2 3], by simp, ?_, by decide, by decide⟩
  intro τ hτ
  simp only [List.mem_cons, List.not_mem_nil, or_false] at hτ
  rcases hτ with rfl | rfl <;> (unfold IsChange; decide)

end Bellframe.Props
