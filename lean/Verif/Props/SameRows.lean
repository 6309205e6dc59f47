import Verif.Props.Truth
import Verif.Props.ClassSymmetry
import Verif.Props.Symmetry

/-! # C101: the rows of a course rung backwards, begun elsewhere or upside down -/

namespace Bellframe.Props

open Equiv

variable {n : Nat}

theorem course_isTrue_iff {A : Type} (c : AnnotBlock A) (R : Nat → Perm (Fin n))
    (h : ∀ t ≤ c.len, c.getRow t = some (.ofPerm (R t))) :
    c.IsTrue ↔ ∀ i < c.len, ∀ j < c.len, R i = R j → i = j := by
  unfold AnnotBlock.IsTrue AnnotBlock.Rings
  constructor
  · intro H i hi j hj e
    exact H i j _ ⟨hi, h i hi.le⟩ ⟨hj, by rw [h j hj.le, e]⟩
  · rintro H i j r ⟨hi, e1⟩ ⟨hj, e2⟩
    rw [h i hi.le] at e1
    rw [h j hj.le, ← e1] at e2
    exact H i hi j hj (Row.ofPerm_inj.1 (Option.some.inj e2)).symm

theorem head_of_follows {τs lead : List (Perm (Fin n))} {τ : Perm (Fin n)}
    (h : Follows 1 τs (lead ++ [τ])) : τ = τs.prod := by
  have := follows_unique h (follows_of_prod τs)
  rw [List.range_succ, List.map_append] at this
  have e := (List.append_inj' this rfl).2
  simpa using e

/-- The plain course of a method from place notation. -/
theorem course_of_changes (hn : 0 < n) (τs : List (Perm (Fin n))) (hne : τs ≠ [])
    (hc : ∀ τ ∈ τs, IsChange τ) (m : Method)
    (hm : PnBlock.toBlockFromRounds none ⟨τs.map PlaceNot.ofChange⟩ = .ok m.firstLead) :
    ∃ lead τ course, Follows 1 τs (lead ++ [τ]) ∧ m.plainCourse.Returns course ∧
      m.leadHead = .ok (.ofPerm τ) ∧ course.len = orderOf τ * τs.length ∧
      (∀ t ≤ course.len, course.getRow t = some (.ofPerm (courseRow lead τ t))) ∧
      courseRow lead τ 0 = 1 ∧ courseRow lead τ course.len = 1 ∧
      ∀ t, courseRow lead τ (t + course.len) = courseRow lead τ t := by
  obtain ⟨-, -, ⟨lead, τ, h1, h2⟩, -⟩ := C36_rows (none : Option String) hn 1 τs hne hc
  rw [h2] at hm
  have hm := (Except.ok.inj hm).symm
  obtain ⟨h0, hl⟩ := follows_start hne h1
  have hlne : lead ≠ [] := by rintro rfl; simp at h0
  obtain ⟨course, h3, h4, h5, h6, h7, -⟩ := C48_plain_course hn m lead τ _ hm (by simp [hl]) h0
  have hrow := C48_row_in_plain_course hn m lead τ _ hm (by simp [hl]) hlne
  have hlen : course.len = orderOf τ * τs.length := by rw [h5, (hrow 0).2.1, hl]
  have hend : courseRow lead τ course.len = 1 := by
    rw [hlen, ← hl, courseRow_mul τ h0, pow_orderOf_eq_one]
  refine ⟨lead, τ, course, h1, h3, (hrow 0).2.2.1, hlen, ?_, courseRow_zero τ h0, hend, ?_⟩
  · intro t ht
    rcases Nat.lt_or_eq_of_le ht with ht | rfl
    · obtain ⟨r, label, e1, -, e2⟩ := h7 t ht
      rw [(hrow t).1] at e1
      have e3 : course.getRow t = some r := by
        unfold AnnotBlock.getAnnotRow at e2
        cases hg : course.getRow t with
        | none => rw [hg] at e2; simp at e2
        | some y =>
          rw [hg] at e2
          cases ha : course.getAnnot t with
          | none => rw [ha] at e2; simp at e2
          | some z => rw [ha] at e2; simp at e2; rw [e2.1]
      rw [e3, ← Except.ok.inj e1]
    · rw [hend]
      obtain ⟨k, hk, σs, l, annots, e1, e2⟩ := (C26_wellFormed_iff course).1 h4
      rw [e2, AnnotBlock.leftover_ofPerms hk] at h6
      rw [e2, AnnotBlock.getRow_ofPerms hk, show (AnnotBlock.ofPerms σs l annots).len = annots.length from rfl,
        ← e1, List.getElem?_append_right (le_refl _), Nat.sub_self]
      simp only [List.getElem?_cons_zero, Option.map_some]
      exact congrArg some (Except.ok.inj h6)
  · intro t
    have := courseRow_add lead τ hlne (orderOf τ) t
    rw [hlen, ← hl, Nat.add_comm, this, pow_orderOf_eq_one, one_mul]

/-- Rung backwards: the course has the same rows in the opposite order, its lead head is the inverse, and it is
true if and only if the course is. -/
theorem C101_backwards (hn : 0 < n) (τs : List (Perm (Fin n))) (hne : τs ≠ [])
    (hc : ∀ τ ∈ τs, IsChange τ) (m m' : Method)
    (hm : PnBlock.toBlockFromRounds none ⟨τs.map PlaceNot.ofChange⟩ = .ok m.firstLead)
    (hm' : PnBlock.toBlockFromRounds none ⟨(τs.map PlaceNot.ofChange).reverse⟩ = .ok m'.firstLead) :
    ∃ course course' h h', m.plainCourse.Returns course ∧ m'.plainCourse.Returns course' ∧
      course'.len = course.len ∧ (∀ t ≤ course.len, course'.getRow t = course.getRow (course.len - t)) ∧
      (course'.IsTrue ↔ course.IsTrue) ∧
      m.leadHead = .ok h ∧ m'.leadHead = .ok h' ∧ h.inv = .ok h' := by
  have hne' : τs.reverse ≠ [] := by simpa using hne
  have hc' : ∀ τ ∈ τs.reverse, IsChange τ := by simpa using hc
  rw [← List.map_reverse] at hm'
  obtain ⟨lead, τ, course, a1, a2, a3, a4, a5, a6, a7, a8⟩ := course_of_changes hn τs hne hc m hm
  obtain ⟨lead', τ', course', b1, b2, b3, b4, b5, b6, b7, b8⟩ :=
    course_of_changes hn τs.reverse hne' hc' m' hm'
  have hpos : 0 < τs.length := List.length_pos_of_ne_nil hne
  have hhead : τ' = τ⁻¹ := by
    rw [head_of_follows b1, head_of_follows a1, List.prod_inv_reverse]
    congr 2
    symm
    conv_rhs => rw [← List.map_id τs]
    apply List.map_congr_left
    intro σ hσ
    exact inv_eq_of_mul_eq_one_left (hc σ hσ).involution
  have hlen : course'.len = course.len := by rw [a4, b4, hhead, orderOf_inv, List.length_reverse]
  have key : ∀ t ≤ course.len, courseRow lead' τ' t = courseRow lead τ (course.len - t) := by
    intro t
    induction t with
    | zero => intro _; rw [b6, Nat.sub_zero, a7]
    | succ t ih =>
      intro ht
      have e := courseRow_step hne a1 (course.len - (t + 1))
      rw [show course.len - (t + 1) + 1 = course.len - t by omega] at e
      rw [courseRow_step hne' b1, ih (by omega), e, mul_assoc, changeAt_reverse]
      have : changeAt τs (-(t : ℤ) - 1) = changeAt τs ((course.len - (t + 1) : ℕ) : ℤ) := by
        rw [← changeAt_add τs (-(t : ℤ) - 1) (orderOf τ)]
        congr 1
        rw [Nat.cast_sub ht, a4]
        push_cast
        ring
      rw [this, changeAt_involution hc, mul_one]
  have hrows : ∀ t ≤ course.len, course'.getRow t = course.getRow (course.len - t) := by
    intro t ht
    rw [b5 t (by omega), a5 _ (by omega), key t ht]
  refine ⟨course, course', _, _, a2, b2, hlen, hrows, ?_, a3, b3, ?_⟩
  · rw [course_isTrue_iff course' (fun t => courseRow lead τ (course.len - t))
      (fun t ht => by rw [hrows t (by omega), a5 _ (by omega)]),
      course_isTrue_iff course _ a5, hlen]
    have hz : ∀ i, courseRow lead τ (course.len - i) = courseRow lead τ ((course.len - i) % course.len) := by
      intro i
      rcases Nat.eq_zero_or_pos i with rfl | hi
      · rw [Nat.sub_zero, Nat.mod_self, a7, a6]
      · rcases Nat.eq_zero_or_pos course.len with h0 | h0
        · rw [h0]; simp
        · rw [Nat.mod_eq_of_lt (by omega)]
    constructor
    · intro H i hi j hj e
      have hi' : courseRow lead τ (course.len - (course.len - i) % course.len) = courseRow lead τ i := by
        rcases Nat.eq_zero_or_pos i with rfl | h0
        · rw [Nat.sub_zero, Nat.mod_self, Nat.sub_zero, a7, a6]
        · rw [Nat.mod_eq_of_lt (by omega), Nat.sub_sub_self hi.le]
      have hj' : courseRow lead τ (course.len - (course.len - j) % course.len) = courseRow lead τ j := by
        rcases Nat.eq_zero_or_pos j with rfl | h0
        · rw [Nat.sub_zero, Nat.mod_self, Nat.sub_zero, a7, a6]
        · rw [Nat.mod_eq_of_lt (by omega), Nat.sub_sub_self hj.le]
      have := H ((course.len - i) % course.len) (Nat.mod_lt _ (by omega))
        ((course.len - j) % course.len) (Nat.mod_lt _ (by omega)) (by rw [hi', hj', e])
      rcases Nat.eq_zero_or_pos i with rfl | h0 <;> rcases Nat.eq_zero_or_pos j with rfl | h1
      · rfl
      · rw [Nat.sub_zero, Nat.mod_self, Nat.mod_eq_of_lt (by omega)] at this; omega
      · rw [Nat.sub_zero, Nat.mod_self, Nat.mod_eq_of_lt (by omega)] at this; omega
      · rw [Nat.mod_eq_of_lt (by omega), Nat.mod_eq_of_lt (by omega)] at this; omega
    · intro H i hi j hj e
      rw [hz i, hz j] at e
      have := H _ (Nat.mod_lt _ (by omega)) _ (Nat.mod_lt _ (by omega)) e
      rcases Nat.eq_zero_or_pos i with rfl | h0 <;> rcases Nat.eq_zero_or_pos j with rfl | h1
      · rfl
      · rw [Nat.sub_zero, Nat.mod_self, Nat.mod_eq_of_lt (by omega)] at this; omega
      · rw [Nat.sub_zero, Nat.mod_self, Nat.mod_eq_of_lt (by omega)] at this; omega
      · rw [Nat.mod_eq_of_lt (by omega), Nat.mod_eq_of_lt (by omega)] at this; omega
  · rw [Row.inv_ofPerm hn, hhead]

/-- Begun elsewhere, at change `k`: row `t` of the course is row `t + k` of the course (which is
round), as seen from row `k`; it is true if and only if the course is. -/
theorem C101_elsewhere (hn : 0 < n) (τs : List (Perm (Fin n))) (hne : τs ≠ [])
    (hc : ∀ τ ∈ τs, IsChange τ) (k : Nat) (m m' : Method)
    (hm : PnBlock.toBlockFromRounds none ⟨τs.map PlaceNot.ofChange⟩ = .ok m.firstLead)
    (hm' : PnBlock.toBlockFromRounds none ⟨(τs.map PlaceNot.ofChange).rotate k⟩ = .ok m'.firstLead) :
    ∃ course course' r, m.plainCourse.Returns course ∧ m'.plainCourse.Returns course' ∧
      course'.len = course.len ∧ course.getRow (k % course.len) = some r ∧
      (∀ t ≤ course.len, ∃ x y, course'.getRow t = some x ∧
        course.getRow ((t + k) % course.len) = some y ∧ r.mul x = .ok y) ∧
      (course'.IsTrue ↔ course.IsTrue) := by
  have hne' : τs.rotate k ≠ [] := by simpa using hne
  have hc' : ∀ τ ∈ τs.rotate k, IsChange τ := by simpa using hc
  rw [← List.map_rotate] at hm'
  obtain ⟨lead, τ, course, a1, a2, a3, a4, a5, a6, a7, a8⟩ := course_of_changes hn τs hne hc m hm
  obtain ⟨lead', τ', course', b1, b2, b3, b4, b5, b6, b7, b8⟩ :=
    course_of_changes hn (τs.rotate k) hne' hc' m' hm'
  have hpos : 0 < τs.length := List.length_pos_of_ne_nil hne
  have hN : 0 < course.len := by rw [a4]; exact Nat.mul_pos (orderOf_pos τ) hpos
  have key : ∀ t, courseRow lead τ k * courseRow lead' τ' t = courseRow lead τ (t + k) := by
    intro t
    induction t with
    | zero => rw [b6, mul_one, Nat.zero_add]
    | succ t ih =>
      rw [courseRow_step hne' b1, ← mul_assoc, ih, changeAt_rotate, show t + 1 + k = t + k + 1 by omega,
        courseRow_step hne a1]
      congr 2
  have hmod : ∀ t, courseRow lead τ (t % course.len) = courseRow lead τ t := by
    intro t
    have : ∀ q s, courseRow lead τ (s + course.len * q) = courseRow lead τ s := by
      intro q
      induction q with
      | zero => intro s; rw [Nat.mul_zero, Nat.add_zero]
      | succ q ih => intro s; rw [Nat.mul_succ, ← Nat.add_assoc, a8, ih]
    conv_rhs => rw [← Nat.mod_add_div t course.len, this]
  have hhead : τ' = (courseRow lead τ k)⁻¹ * τ * courseRow lead τ k := by
    obtain ⟨h0', hl'⟩ := follows_start hne' b1
    obtain ⟨h0, hl⟩ := follows_start hne a1
    have hlne : lead ≠ [] := by rintro rfl; simp at h0
    have e1 := courseRow_mul τ' h0' 1
    rw [pow_one, Nat.one_mul, hl', List.length_rotate, ← hl] at e1
    have e2 := key lead.length
    have e3 := courseRow_add lead τ hlne 1 k
    rw [pow_one, Nat.one_mul] at e3
    rw [e1, e3] at e2
    rw [mul_assoc, ← e2, inv_mul_cancel_left]
  have hord : orderOf τ' = orderOf τ := by
    have := orderOf_injective (MulAut.conj (courseRow lead τ k)⁻¹).toMonoidHom
      (MulAut.conj (courseRow lead τ k)⁻¹).injective τ
    rw [← this, hhead]
    simp
  have hlen : course'.len = course.len := by rw [a4, b4, hord, List.length_rotate]
  refine ⟨course, course', _, a2, b2, hlen, by rw [a5 _ (Nat.mod_lt _ hN).le, hmod], ?_, ?_⟩
  · intro t ht
    refine ⟨_, _, b5 t (by omega), by rw [a5 _ (Nat.mod_lt _ hN).le, hmod], ?_⟩
    rw [Row.mul_ofPerm hn, key]
  · rw [course_isTrue_iff course' _ b5, course_isTrue_iff course _ a5, hlen]
    have e : ∀ i j, courseRow lead' τ' i = courseRow lead' τ' j ↔
        courseRow lead τ ((i + k) % course.len) = courseRow lead τ ((j + k) % course.len) := by
      intro i j
      rw [hmod, hmod, ← key, ← key, mul_right_inj]
    have inj : ∀ i j, i < course.len → j < course.len → (i + k) % course.len = (j + k) % course.len →
        i = j := by
      intro i j hi hj h
      have : i ≡ j [MOD course.len] := Nat.ModEq.add_right_cancel' k h
      unfold Nat.ModEq at this
      rwa [Nat.mod_eq_of_lt hi, Nat.mod_eq_of_lt hj] at this
    constructor
    · intro H i hi j hj h
      have back : ∀ i < course.len, ((i + (course.len - k % course.len)) % course.len + k) % course.len = i := by
        intro i hi
        have hk := Nat.mod_lt k hN
        rw [Nat.mod_add_mod, Nat.add_mod, Nat.mod_add_mod,
          show i + (course.len - k % course.len) + k % course.len = i + course.len by omega,
          Nat.add_mod_right, Nat.mod_eq_of_lt hi]
      have := H ((i + (course.len - k % course.len)) % course.len) (Nat.mod_lt _ hN)
        ((j + (course.len - k % course.len)) % course.len) (Nat.mod_lt _ hN)
        ((e _ _).2 (by rw [back i hi, back j hj, h]))
      rw [← back i hi, ← back j hj, this]
    · intro H i hi j hj h
      exact inj i j hi hj (H _ (Nat.mod_lt _ hN) _ (Nat.mod_lt _ hN) ((e i j).1 h))

theorem backrounds_ofPerm : Row.backrounds ⟨n⟩ = .ofPerm (Fin.revPerm : Perm (Fin n)) := by
  unfold Row.backrounds Row.ofPerm
  congr 1
  apply List.ext_getElem
  · simp
  · intro i h1 h2
    simp [Bell.fromIndex]
    omega

/-- Upside down, that is with the places counted from the other end in each change: row `t` is row
`t` with bells and places counted from the other end; it is true if and only if the course is. -/
theorem C101_upside_down (hn : 0 < n) (τs : List (Perm (Fin n))) (hne : τs ≠ [])
    (hc : ∀ τ ∈ τs, IsChange τ) (m m' : Method)
    (hm : PnBlock.toBlockFromRounds none ⟨τs.map PlaceNot.ofChange⟩ = .ok m.firstLead)
    (hm' : PnBlock.toBlockFromRounds none ⟨(τs.map upsideDown).map PlaceNot.ofChange⟩ = .ok m'.firstLead) :
    ∃ course course', m.plainCourse.Returns course ∧ m'.plainCourse.Returns course' ∧
      course'.len = course.len ∧
      (∀ t ≤ course.len, ∃ x y z, course'.getRow t = some x ∧ course.getRow t = some y ∧
        (Row.backrounds ⟨n⟩).mul y = .ok z ∧ z.mul (Row.backrounds ⟨n⟩) = .ok x) ∧
      (course'.IsTrue ↔ course.IsTrue) := by
  have hne' : τs.map upsideDown ≠ [] := by simpa using hne
  have hc' : ∀ τ ∈ τs.map upsideDown, IsChange τ := by
    intro τ hτ
    obtain ⟨τ₀, h4, rfl⟩ := List.mem_map.1 hτ
    exact upsideDown_isChange (hc _ h4)
  obtain ⟨lead, τ, course, a1, a2, a3, a4, a5, a6, a7, a8⟩ := course_of_changes hn τs hne hc m hm
  obtain ⟨lead', τ', course', b1, b2, b3, b4, b5, b6, b7, b8⟩ :=
    course_of_changes hn (τs.map upsideDown) hne' hc' m' hm'
  have key : ∀ t, courseRow lead' τ' t = upsideDown (courseRow lead τ t) := by
    intro t
    induction t with
    | zero => rw [a6, b6, upsideDown_one]
    | succ t ih =>
      rw [courseRow_step hne a1, courseRow_step hne' b1, ih, changeAt_upsideDown, upsideDown_mul]
  have hinv : ∀ σ : Perm (Fin n), upsideDown (upsideDown σ) = σ := by
    intro σ
    ext x
    simp [upsideDown]
  have hord : orderOf τ' = orderOf τ := by
    have hm := (mirror_upsideDown hne a1 b1).head
    have hr : (Fin.revPerm : Perm (Fin n))⁻¹ = Fin.revPerm := by
      rw [inv_eq_iff_mul_eq_one]; exact Mirror.revPerm_sq
    have := orderOf_injective (MulAut.conj (Fin.revPerm : Perm (Fin n))).toMonoidHom
      (MulAut.conj (Fin.revPerm : Perm (Fin n))).injective τ
    rw [← this, hm]
    simp [hr]
  have hlen : course'.len = course.len := by rw [a4, b4, hord, List.length_map]
  refine ⟨course, course', a2, b2, hlen, ?_, ?_⟩
  · intro t ht
    refine ⟨_, _, .ofPerm (Fin.revPerm * courseRow lead τ t), b5 t (by omega), a5 t ht, ?_, ?_⟩
    · rw [backrounds_ofPerm, Row.mul_ofPerm hn]
    · rw [backrounds_ofPerm, Row.mul_ofPerm hn, key]
      rfl
  · rw [course_isTrue_iff course' _ b5, course_isTrue_iff course _ a5, hlen]
    have e : ∀ i j, courseRow lead' τ' i = courseRow lead' τ' j ↔
        courseRow lead τ i = courseRow lead τ j := by
      intro i j
      rw [key, key]
      exact ⟨fun h => by rw [← hinv (courseRow lead τ i), h, hinv], fun h => by rw [h]⟩
    simp only [e]

/-- Methods with leads of three changes that are not the same backwards, nor begun elsewhere, nor upside
down. -/
example : ∃ (τs : List (Perm (Fin 4))) (m m₁ m₂ m₃ : Method), τs ≠ [] ∧ (∀ τ ∈ τs, IsChange τ) ∧
    τs.reverse ≠ τs ∧ τs.rotate 1 ≠ τs ∧ τs.map upsideDown ≠ τs ∧
    PnBlock.toBlockFromRounds none ⟨τs.map PlaceNot.ofChange⟩ = .ok m.firstLead ∧
    PnBlock.toBlockFromRounds none ⟨(τs.map PlaceNot.ofChange).reverse⟩ = .ok m₁.firstLead ∧
    PnBlock.toBlockFromRounds none ⟨(τs.map PlaceNot.ofChange).rotate 1⟩ = .ok m₂.firstLead ∧
    PnBlock.toBlockFromRounds none ⟨(τs.map upsideDown).map PlaceNot.ofChange⟩ = .ok m₃.firstLead := by
  let τs : List (Perm (Fin 4)) := [swap 0 1 * swap 2 3, swap 1 2, swap 0 1]
  have hc : ∀ τ ∈ τs, IsChange τ := by unfold IsChange; decide +kernel
  have hu : ∀ τ ∈ τs.map upsideDown, IsChange τ := by unfold IsChange; decide +kernel
  have mk : ∀ us : List (Perm (Fin 4)), us ≠ [] → (∀ τ ∈ us, IsChange τ) → ∃ m : Method,
      PnBlock.toBlockFromRounds none ⟨us.map PlaceNot.ofChange⟩ = .ok m.firstLead :=
    fun us h1 h2 => ⟨⟨"", "", ⟨false, false, false, .principle⟩, _⟩, C97_rung none (by omega) us h1 h2⟩
  obtain ⟨m, h1⟩ := mk τs (by simp [τs]) hc
  obtain ⟨m₁, h2⟩ := mk τs.reverse (by simp [τs]) (by simpa using hc)
  obtain ⟨m₂, h3⟩ := mk (τs.rotate 1) (by simp [τs]) (by simpa using hc)
  obtain ⟨m₃, h4⟩ := mk (τs.map upsideDown) (by simp [τs]) hu
  refine ⟨τs, m, m₁, m₂, m₃, by simp [τs], hc, by decide +kernel, by decide +kernel, by decide +kernel,
    h1, ?_, ?_, h4⟩
  · rw [← List.map_reverse]; exact h2
  · rw [← List.map_rotate]; exact h3

/-- Place notation with a comma, with the parts exchanged, stands for the changes in the opposite order. -/
theorem C101_comma (a b : List Char) (hc : ',' ∉ a ∧ ',' ∉ b) (hp : '+' ∉ a ∧ '+' ∉ b) (stage : Stage)
    (hs : stage.Valid) (as bs : PnBlock) (ha : PnBlock.parse a stage = .ok (.ok as))
    (hb : PnBlock.parse b stage = .ok (.ok bs)) :
    ∃ pn, PnBlock.parse (a ++ ',' :: b) stage = .ok (.ok pn) ∧
      PnBlock.parse (b ++ ',' :: a) stage = .ok (.ok ⟨pn.pns.reverse⟩) := by
  have pal : ∀ l : List PlaceNot, l ≠ [] → (l ++ l.dropLast.reverse).reverse = l ++ l.dropLast.reverse := by
    intro l hl
    obtain ⟨l', x, rfl⟩ := List.eq_nil_or_concat l |>.resolve_left hl
    simp
  refine ⟨_, C77_text a b hc hp stage as.pns bs.pns ha hb, ?_⟩
  rw [C77_text b a ⟨hc.2, hc.1⟩ ⟨hp.2, hp.1⟩ stage bs.pns as.pns hb ha]
  simp only
  rw [List.reverse_append, pal _ (C34_well_formed a stage hs as ha).1,
    pal _ (C34_well_formed b stage hs bs hb).1]

/-- Plain Bob Minor, and the same backwards. -/
example : (∃ pn, PnBlock.parse "-.16.-.16.-.16".toList ⟨6⟩ = .ok (.ok pn)) ∧
    ∃ pn, PnBlock.parse "12".toList ⟨6⟩ = .ok (.ok pn) :=
  ⟨⟨_, rfl⟩, ⟨_, rfl⟩⟩

end Bellframe.Props
