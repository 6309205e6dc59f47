import Verif.Spec.Cover
import Verif.Props.SameRows
import Verif.Props.RowBuild
import Verif.Props.RowAlgebra
import Mathlib.GroupTheory.Perm.ViaEmbedding

/-! # C103: covering bells -/

namespace Bellframe.Props

open Equiv

variable {n m : Nat}

/-! ## Covered permutations -/

/-- The permutation with covering bells. -/
noncomputable def coverPerm (h : n ≤ m) : Perm (Fin n) →* Perm (Fin m) :=
  Perm.viaEmbeddingHom (Fin.castLEEmb h)

theorem coverPerm_lt (h : n ≤ m) (σ : Perm (Fin n)) (x : Fin n) :
    coverPerm h σ (Fin.castLE h x) = Fin.castLE h (σ x) := by
  exact Perm.viaEmbedding_apply σ (Fin.castLEEmb h) x

theorem coverPerm_ge (h : n ≤ m) (σ : Perm (Fin n)) (x : Fin m) (hx : n ≤ x.val) : coverPerm h σ x = x := by
  apply Perm.viaEmbedding_apply_of_notMem
  rintro ⟨y, rfl⟩
  have := y.isLt
  simp at hx
  omega

theorem coverPerm_injective (h : n ≤ m) : Function.Injective (coverPerm h) :=
  Perm.viaEmbeddingHom_injective _

theorem coverPerm_sign (h : n ≤ m) (σ : Perm (Fin n)) : Perm.sign (coverPerm h σ) = Perm.sign σ := by
  exact @Perm.sign_extendDomain _ _ _ _ _ _ σ _ (fun _ => Classical.propDecidable _) _

theorem orderOf_coverPerm (h : n ≤ m) (σ : Perm (Fin n)) : orderOf (coverPerm h σ) = orderOf σ :=
  orderOf_injective _ (coverPerm_injective h) σ

theorem covered_coverPerm (h : n ≤ m) (σ : Perm (Fin n)) : Covered σ (coverPerm h σ) := by
  refine ⟨?_, coverPerm_ge h σ⟩
  intro x x' hx
  have : x' = Fin.castLE h x := Fin.ext hx
  rw [this, coverPerm_lt]
  rfl

theorem covered_iff (h : n ≤ m) (σ : Perm (Fin n)) (σ' : Perm (Fin m)) : Covered σ σ' ↔ σ' = coverPerm h σ := by
  constructor
  · rintro ⟨h1, h2⟩
    apply Equiv.ext
    intro x
    by_cases hx : x.val < n
    · apply Fin.ext
      rw [h1 ⟨x.val, hx⟩ x rfl, (covered_coverPerm h σ).1 ⟨x.val, hx⟩ x rfl]
    · rw [h2 x (by omega), coverPerm_ge h σ x (by omega)]
  · rintro rfl
    exact covered_coverPerm h σ

theorem extend_ofPerm (hn : 0 < n) (h : n ≤ m) (σ : Perm (Fin n)) :
    (Row.ofPerm σ).extendToStage ⟨m⟩ = .ok (.ofPerm (coverPerm h σ)) := by
  have hlen : (Row.ofPerm σ).bells.length = n := Row.ofPerm_length σ
  simp only [Row.extendToStage, Row.ofPerm_stage hn, Res.ok_bind, assertThat, decide_eq_true h, hlen]
  refine congrArg Except.ok ?_
  apply Row.ext'
  apply List.ext_getElem?
  intro i
  by_cases hi : i < n
  · rw [List.getElem?_append_left (by simpa using hi), Row.ofPerm_getElem? _ _ hi,
      Row.ofPerm_getElem? _ _ (by omega)]
    congr 2
    exact ((covered_coverPerm h σ).1 ⟨i, hi⟩ ⟨i, by omega⟩ rfl).symm
  · rw [List.getElem?_append_right (by simpa using hi), hlen]
    by_cases him : i < m
    · rw [Row.ofPerm_getElem? _ _ him, coverPerm_ge h σ _ (by simpa using hi), List.getElem?_map,
        List.getElem?_range' (by omega), Option.map_some]
      congr 1
      rw [Bell.fromIndex_eq]
      congr 1
      change n + 1 * (i - n) = i
      omega
    · rw [List.getElem?_eq_none (by simp; omega), List.getElem?_eq_none (by simp; omega)]

/-! ## C103 -/

/-- Adding covering bells to a row: for stages at least as large it succeeds, the bells of the row stay where they
are, and each bell of the larger stage is added in its own place. -/
theorem C103_extend (r : Row) (h : r.Valid) (stage : Stage) (hs : r.bells.length ≤ stage.numBells) :
    ∃ r', r.extendToStage stage = .ok r' ∧ r'.Valid ∧ r'.bells.length = stage.numBells ∧
      (∀ i < r.bells.length, r'.bells[i]? = r.bells[i]?) ∧
      ∀ i, r.bells.length ≤ i → i < stage.numBells → r'.bells[i]? = some ⟨i⟩ := by
  obtain ⟨n, hn, σ, rfl⟩ := C16_covers_valid_rows r h
  obtain ⟨m⟩ := stage
  rw [Row.ofPerm_length] at *
  refine ⟨_, extend_ofPerm hn hs σ, Row.ofPerm_valid (by omega) _, by simp, ?_, ?_⟩
  · intro i hi
    rw [Row.ofPerm_getElem? _ _ (show i < m by simp at hs; omega), Row.ofPerm_getElem? _ _ hi]
    congr 2
    exact (covered_coverPerm hs σ).1 ⟨i, hi⟩ ⟨i, _⟩ rfl
  · intro i h1 h2
    rw [Row.ofPerm_getElem? _ _ h2, coverPerm_ge hs σ _ (by simpa using h1)]

example := C103_extend ⟨[⟨1⟩, ⟨0⟩, ⟨2⟩]⟩ (by decide) ⟨5⟩ (by decide)

/-- To the stage of the row itself nothing is added, and adding bells in two steps is adding them in one. -/
theorem C103_steps (r : Row) (h : r.Valid) (s₁ s₂ : Stage) (h1 : r.bells.length ≤ s₁.numBells)
    (h2 : s₁.numBells ≤ s₂.numBells) :
    r.extendToStage ⟨r.bells.length⟩ = .ok r ∧
    ∃ r₁ r₂, r.extendToStage s₁ = .ok r₁ ∧ r₁.extendToStage s₂ = .ok r₂ ∧ r.extendToStage s₂ = .ok r₂ := by
  obtain ⟨r', e1, -, e2, e3, -⟩ := C103_extend r h ⟨r.bells.length⟩ (le_refl _)
  obtain ⟨r₁, a1, a2, a3, a4, a5⟩ := C103_extend r h s₁ h1
  obtain ⟨r₂, b1, b2, b3, b4, b5⟩ := C103_extend r₁ a2 s₂ (by omega)
  obtain ⟨r₃, c1, c2, c3, c4, c5⟩ := C103_extend r h s₂ (by omega)
  constructor
  · rw [e1]
    congr 1
    apply Row.ext'
    apply List.ext_getElem?
    intro i
    by_cases hi : i < r.bells.length
    · exact e3 i hi
    · rw [List.getElem?_eq_none (by simp at e2; omega), List.getElem?_eq_none (by omega)]
  · refine ⟨r₁, r₂, a1, b1, ?_⟩
    rw [c1]
    congr 1
    apply Row.ext'
    apply List.ext_getElem?
    intro i
    by_cases hi : i < r.bells.length
    · rw [c4 i hi, b4 i (by omega), a4 i hi]
    · by_cases hi1 : i < s₁.numBells
      · rw [c5 i (by omega) (by omega), b4 i (by omega), a5 i (by omega) hi1]
      · by_cases hi2 : i < s₂.numBells
        · rw [c5 i (by omega) hi2, b5 i (by omega) hi2]
        · rw [List.getElem?_eq_none (by omega), List.getElem?_eq_none (by omega)]

example := C103_steps ⟨[⟨1⟩, ⟨0⟩, ⟨2⟩]⟩ (by decide) ⟨5⟩ ⟨6⟩ (by decide) (by decide)

/-- Rows with covering bells multiply, invert and are raised to powers like the rows without them; they are rounds or
equal when those are; they have the same parity and effective stage. -/
theorem C103_arithmetic (a b : Row) (ha : a.Valid) (hb : b.Valid) (hab : a.bells.length = b.bells.length)
    (stage : Stage) (hs : a.bells.length ≤ stage.numBells) :
    ∃ a' b', a.extendToStage stage = .ok a' ∧ b.extendToStage stage = .ok b' ∧
      (∃ c c', a.mul b = .ok c ∧ c.extendToStage stage = .ok c' ∧ a'.mul b' = .ok c') ∧
      (∃ c c', a.inv = .ok c ∧ c.extendToStage stage = .ok c' ∧ a'.inv = .ok c') ∧
      (∀ k : Int, ∃ c c', a.powI k = .ok c ∧ c.extendToStage stage = .ok c' ∧ a'.powI k = .ok c') ∧
      a'.isRounds = a.isRounds ∧ (a' = b' ↔ a = b) ∧
      (∃ r r' p, a.parity.Returns (r, p) ∧ a'.parity.Returns (r', p)) ∧
      a'.effectiveStage = a.effectiveStage := by
  obtain ⟨n, hn, σ, rfl⟩ := C16_covers_valid_rows a ha
  obtain ⟨τ, rfl⟩ := hb.exists_perm' (n := n) (by rw [← hab]; simp)
  obtain ⟨m⟩ := stage
  rw [Row.ofPerm_length] at hs
  have hs : n ≤ m := hs
  have hm : 0 < m := by omega
  refine ⟨_, _, extend_ofPerm hn hs σ, extend_ofPerm hn hs τ,
    ⟨_, _, Row.mul_ofPerm hn σ τ, extend_ofPerm hn hs _, ?_⟩, ⟨_, _, Row.inv_ofPerm hn σ, extend_ofPerm hn hs _, ?_⟩,
    fun k => ⟨_, _, Row.powI_ofPerm hn σ k, extend_ofPerm hn hs _, ?_⟩, ?_, ?_, ?_, ?_⟩
  · rw [Row.mul_ofPerm hm, ← map_mul]
  · rw [Row.inv_ofPerm hm, ← map_inv]
  · rw [Row.powI_ofPerm hm, ← map_zpow]
  · rw [Bool.eq_iff_iff, Row.ofPerm_isRounds, Row.ofPerm_isRounds, map_eq_one_iff _ (coverPerm_injective hs)]
  · rw [Row.ofPerm_inj, Row.ofPerm_inj, (coverPerm_injective hs).eq_iff]
  · obtain ⟨p, h1, h2, -⟩ := Row.parity_ofPerm hn σ
    obtain ⟨p', h1', h2', -⟩ := Row.parity_ofPerm hm (coverPerm hs σ)
    rw [coverPerm_sign] at h2'
    have : p' = p := by
      have e := h2'.trans h2.symm
      cases p <;> cases p' <;> simp_all
    exact ⟨_, _, p, h1, this ▸ h1'⟩
  · obtain ⟨s, e1, e2⟩ := C15_effective_stage (Row.ofPerm σ)
    obtain ⟨s', e1', e2'⟩ := C15_effective_stage (Row.ofPerm (coverPerm hs σ))
    obtain ⟨r', f1, -, f2, f3, f4⟩ := C103_extend (Row.ofPerm σ) (Row.ofPerm_valid hn σ) ⟨m⟩ (by simpa using hs)
    rw [extend_ofPerm hn hs] at f1
    obtain rfl := Except.ok.inj f1
    rw [Row.ofPerm_length] at f3 f4
    rw [e1, e1']
    have hset : {k | 1 ≤ k ∧ ∀ i x, k ≤ i → (Row.ofPerm (coverPerm hs σ)).bells[i]? = some x → x = ⟨i⟩} =
        {k | 1 ≤ k ∧ ∀ i x, k ≤ i → (Row.ofPerm σ).bells[i]? = some x → x = ⟨i⟩} := by
      ext k
      simp only [Set.mem_ofPred_eq]
      refine and_congr_right fun _ => ⟨?_, ?_⟩
      · intro H i x hi hx
        have hin : i < n := by
          by_contra hc
          rw [List.getElem?_eq_none (by simp; omega)] at hx
          cases hx
        exact H i x hi (by rw [f3 i hin]; exact hx)
      · intro H i x hi hx
        by_cases hin : i < n
        · exact H i x hi (by rw [← f3 i hin]; exact hx)
        · have him : i < m := by
            by_contra hc
            rw [List.getElem?_eq_none (by simp; omega)] at hx
            cases hx
          rw [f4 i (by omega) him] at hx
          exact (Option.some.inj hx).symm
    rw [hset] at e2'
    have := e2'.unique e2
    cases s; cases s'
    simp_all

example := C103_arithmetic ⟨[⟨1⟩, ⟨0⟩, ⟨2⟩]⟩ ⟨[⟨0⟩, ⟨2⟩, ⟨1⟩]⟩ (by decide) (by decide) rfl ⟨5⟩ (by decide)

/-- The closures of a row with covering bells are the closures of the row, with covering bells. -/
theorem C103_closure (a : Row) (ha : a.Valid) (stage : Stage) (hs : a.bells.length ≤ stage.numBells) :
    ∃ a' l l' k k', a.extendToStage stage = .ok a' ∧ a.closure.Returns l ∧ a'.closure.Returns l' ∧
      l.mapM (fun r => r.extendToStage stage) = .ok l' ∧
      a.closureFromRounds.Returns k ∧ a'.closureFromRounds.Returns k' ∧
      k.mapM (fun r => r.extendToStage stage) = .ok k' := by
  obtain ⟨n, hn, σ, rfl⟩ := C16_covers_valid_rows a ha
  obtain ⟨m⟩ := stage
  rw [Row.ofPerm_length] at hs
  have hs : n ≤ m := hs
  have hm : 0 < m := by omega
  have key : ∀ (L : List Nat) (f : Nat → Nat),
      (L.map fun i => Row.ofPerm (σ ^ f i)).mapM (fun r => r.extendToStage ⟨m⟩) =
        .ok (L.map fun i => Row.ofPerm (coverPerm hs σ ^ f i)) := by
    intro L f
    induction L with
    | nil => rfl
    | cons x L ih =>
      simp only [List.map_cons, List.mapM_cons, ih, extend_ofPerm hn hs, map_pow]
      rfl
  refine ⟨_, _, _, _, _, extend_ofPerm hn hs σ, Row.closure_ofPerm σ, Row.closure_ofPerm _, ?_,
    Row.closureFromRounds_ofPerm hn σ, Row.closureFromRounds_ofPerm hm _, ?_⟩
  · rw [orderOf_coverPerm]
    exact key _ (fun i => i + 1)
  · rw [orderOf_coverPerm]
    exact key _ (fun i => i)

example := C103_closure ⟨[⟨1⟩, ⟨2⟩, ⟨0⟩]⟩ (by decide) ⟨5⟩ (by decide)

/-- The text of a row with covering bells is the text of the row and the names of the bells added; and the text of
the row, read on the larger stage, is the row with covering bells. -/
theorem C103_text (a : Row) (ha : a.Valid) (stage : Stage) (hs : a.bells.length ≤ stage.numBells) :
    ∃ a', a.extendToStage stage = .ok a' ∧
      a'.display = a.display ++
        (List.range' a.bells.length (stage.numBells - a.bells.length)).flatMap (fun i => (Bell.fromIndex i).name) ∧
      (a.bells.length ≤ 33 → Row.parseWithStage a.display stage = .ok (.ok a')) := by
  have he : a.extendToStage stage = .ok ⟨a.bells ++
      (List.range' a.bells.length (stage.numBells - a.bells.length)).map Bell.fromIndex⟩ := by
    simp only [Row.extendToStage, ha.stage_eq, Res.ok_bind, assertThat, decide_eq_true hs]
    rfl
  refine ⟨_, he, ?_, ?_⟩
  · simp only [Row.display, List.flatMap_append]
    rw [List.flatMap_map]
  · intro h33
    have : a.display.filterMap Bell.fromName = a.bells := by
      apply display_filterMap
      intro b hb
      have := (ha.mem_iff b).1 hb
      omega
    unfold Row.parseWithStage
    rw [this, C07_with_stage_ok]
    exact ⟨_, hs, ha.perm_range.symm, rfl⟩

example := C103_text ⟨[⟨1⟩, ⟨2⟩, ⟨0⟩]⟩ (by decide) ⟨5⟩ (by decide)

/-! ## Changes and courses -/

/-- A change with covering bells is a change, with the places of the covering bells added. -/
theorem C103_change (h : n ≤ m) (τ : Perm (Fin n)) (τ' : Perm (Fin m)) (hc : IsChange τ) (hcov : Covered τ τ') :
    IsChange τ' ∧ (PlaceNot.ofChange τ').places = (PlaceNot.ofChange τ).places ++ List.range' n (m - n) := by
  constructor
  · intro x
    by_cases hx : x.val < n
    · have := hc ⟨x.val, hx⟩
      rw [hcov.1 ⟨x.val, hx⟩ x rfl]
      exact this
    · rw [hcov.2 x (by omega)]
      omega
  · obtain ⟨h1, -, -, -⟩ := C30_places τ
    have hlt : ∀ p ∈ (PlaceNot.ofChange τ).places, p < n := by
      intro p hp
      simp only [PlaceNot.ofChange, List.mem_map] at hp
      obtain ⟨x, -, rfl⟩ := hp
      exact x.isLt
    have := ofChange_places τ' ((PlaceNot.ofChange τ).places ++ List.range' n (m - n)) (by
        rw [List.pairwise_append]
        refine ⟨h1, List.pairwise_lt_range', ?_⟩
        intro a ha b hb
        have := hlt a ha
        rw [List.mem_range'_1] at hb
        omega) (by
        intro p hp
        rcases List.mem_append.1 hp with hp | hp
        · have := hlt p hp; omega
        · rw [List.mem_range'_1] at hp; omega) (by
        intro x
        rw [List.mem_append, List.mem_range'_1]
        by_cases hx : x.val < n
        · rw [Fin.ext_iff, hcov.1 ⟨x.val, hx⟩ x rfl]
          simp only [PlaceNot.ofChange, List.mem_map, List.mem_filter, List.mem_finRange, true_and,
            decide_eq_true_eq]
          constructor
          · intro e
            exact .inl ⟨⟨x.val, hx⟩, Fin.ext e, rfl⟩
          · rintro (⟨y, hy, e⟩ | e)
            · have : y = ⟨x.val, hx⟩ := Fin.ext e
              rw [← this, hy, e]
            · omega
        · have := x.isLt
          simp only [hcov.2 x (by omega), true_iff]
          exact .inr (by omega))
    rw [this]

example := C103_change (by decide) (swap (0 : Fin 3) 1) (swap (0 : Fin 5) 1) (by decide) ⟨by decide, by decide⟩

/-- The plain course of a method rung with covering bells: it has the rows of the course without them, with covering
bells; so it is as long, and true if and only if the other is; so are the lead heads. -/
theorem C103_course (hn : 0 < n) (h : n ≤ m) (τs : List (Perm (Fin n))) (τs' : List (Perm (Fin m)))
    (hne : τs ≠ []) (hc : ∀ τ ∈ τs, IsChange τ) (hcov : List.Forall₂ Covered τs τs') (M M' : Method)
    (hm : PnBlock.toBlockFromRounds none ⟨τs.map PlaceNot.ofChange⟩ = .ok M.firstLead)
    (hm' : PnBlock.toBlockFromRounds none ⟨τs'.map PlaceNot.ofChange⟩ = .ok M'.firstLead) :
    ∃ course course' g g', M.plainCourse.Returns course ∧ M'.plainCourse.Returns course' ∧
      course'.len = course.len ∧
      (∀ t ≤ course.len, ∃ x y, course.getRow t = some x ∧ course'.getRow t = some y ∧
        x.extendToStage ⟨m⟩ = .ok y) ∧
      (course'.IsTrue ↔ course.IsTrue) ∧
      M.leadHead = .ok g ∧ M'.leadHead = .ok g' ∧ g.extendToStage ⟨m⟩ = .ok g' := by
  have hτs : τs' = τs.map (coverPerm h) := by
    clear hm hm' hne hc
    induction hcov with
    | nil => rfl
    | cons h1 _ ih => rw [List.map_cons, ← ih, (covered_iff h _ _).1 h1]
  subst hτs
  have hne' : τs.map (coverPerm h) ≠ [] := by simpa using hne
  have hc' : ∀ τ ∈ τs.map (coverPerm h), IsChange τ := by
    intro τ hτ
    obtain ⟨σ, hσ, rfl⟩ := List.mem_map.1 hτ
    exact (C103_change h σ _ (hc σ hσ) (covered_coverPerm h σ)).1
  obtain ⟨lead, τ, course, f1, f2, f3, f4, f5, f6, -, -⟩ := course_of_changes hn τs hne hc M hm
  obtain ⟨lead', τ', course', g1, g2, g3, g4, g5, g6, -, -⟩ := course_of_changes (by omega) _ hne' hc' M' hm'
  have hτ' : τ' = coverPerm h τ := by
    rw [head_of_follows f1, head_of_follows g1, map_list_prod]
  have hlen : course'.len = course.len := by
    rw [f4, g4, hτ', orderOf_coverPerm, List.length_map]
  have hrow : ∀ t : ℕ, courseRow lead' τ' t = coverPerm h (courseRow lead τ t) := by
    intro t
    induction t with
    | zero => rw [f6, g6, map_one]
    | succ t ih =>
      rw [courseRow_step hne' g1, courseRow_step hne f1, map_mul, ih]
      congr 1
      unfold changeAt
      rw [List.length_map, List.getElem?_map]
      cases τs[((t : ℤ) % τs.length).toNat]? with
      | none => simp
      | some x => rfl
  refine ⟨course, course', _, _, f2, g2, hlen, ?_, ?_, f3, g3, ?_⟩
  · intro t ht
    exact ⟨_, _, f5 t ht, g5 t (by omega), by rw [hrow]; exact extend_ofPerm hn h _⟩
  · rw [course_isTrue_iff course _ f5, course_isTrue_iff course' _ g5, hlen]
    simp only [hrow, (coverPerm_injective h).eq_iff]
  · rw [hτ']
    exact extend_ofPerm hn h τ

/-! ## Classes -/

/-- The course of `lead'` is the course of `lead` with covering bells. -/
structure CoverOf (h : n ≤ m) (lead : List (Perm (Fin n))) (τ : Perm (Fin n)) (lead' : List (Perm (Fin m)))
    (τ' : Perm (Fin m)) : Prop where
  length : lead'.length = lead.length
  head : τ' = coverPerm h τ
  rows : ∀ t, courseRow lead' τ' t = coverPerm h (courseRow lead τ t)

namespace CoverOf

variable {h : n ≤ m} {lead : List (Perm (Fin n))} {τ : Perm (Fin n)} {lead' : List (Perm (Fin m))}
  {τ' : Perm (Fin m)}

theorem bell_cases (h : n ≤ m) (x : Fin m) : (∃ b : Fin n, x = Fin.castLE h b) ∨ n ≤ x.val := by
  by_cases hx : x.val < n
  · exact .inl ⟨⟨x.val, hx⟩, rfl⟩
  · exact .inr (by omega)

theorem cast_inj (h : n ≤ m) {a b : Fin n} : Fin.castLE h a = Fin.castLE h b ↔ a = b := by
  rw [Fin.ext_iff, Fin.ext_iff]; rfl

theorem place (H : CoverOf h lead τ lead' τ') (b : Fin n) (t : Nat) :
    placeOfBell lead' τ' (Fin.castLE h b) t = Fin.castLE h (placeOfBell lead τ b t) := by
  unfold placeOfBell
  rw [H.rows, ← map_inv, coverPerm_lt]

theorem place_cover (H : CoverOf h lead τ lead' τ') (x : Fin m) (hx : n ≤ x.val) (t : Nat) :
    placeOfBell lead' τ' x t = x := by
  unfold placeOfBell
  rw [H.rows, ← map_inv, coverPerm_ge _ _ _ hx]

theorem hunt (H : CoverOf h lead τ lead' τ') (b : Fin n) :
    IsHuntBell τ' (Fin.castLE h b) ↔ IsHuntBell τ b := by
  unfold IsHuntBell
  rw [H.head, coverPerm_lt, cast_inj]

theorem hunt_cover (H : CoverOf h lead τ lead' τ') (x : Fin m) (hx : n ≤ x.val) : IsHuntBell τ' x := by
  unfold IsHuntBell
  rw [H.head, coverPerm_ge _ _ _ hx]

theorem visits (H : CoverOf h lead τ lead' τ') (b p : Fin n) :
    Visits lead' τ' (Fin.castLE h b) (Fin.castLE h p) ↔ Visits lead τ b p := by
  unfold Visits
  simp only [H.place, cast_inj]

theorem visits_cases (H : CoverOf h lead τ lead' τ') (b : Fin n) (p : Fin m)
    (hp : Visits lead' τ' (Fin.castLE h b) p) : ∃ q, p = Fin.castLE h q ∧ Visits lead τ b q := by
  obtain ⟨t, rfl⟩ := hp
  rw [H.place]
  exact ⟨_, rfl, t, rfl⟩

theorem rowsInPlace (H : CoverOf h lead τ lead' τ') (b p : Fin n) :
    rowsInPlace lead' τ' (Fin.castLE h b) (Fin.castLE h p) = rowsInPlace lead τ b p := by
  unfold Bellframe.rowsInPlace
  simp only [H.place, cast_inj, H.length]

theorem placesMade (H : CoverOf h lead τ lead' τ') (b : Fin n) :
    placesMade lead' τ' (Fin.castLE h b) = placesMade lead τ b := by
  unfold Bellframe.placesMade
  simp only [H.place, cast_inj, H.length]

theorem stationary (H : CoverOf h lead τ lead' τ') (b : Fin n) :
    Stationary lead' τ' (Fin.castLE h b) ↔ Stationary lead τ b := by
  constructor
  · rintro ⟨p, hp⟩
    refine ⟨placeOfBell lead τ b 0, fun t => ?_⟩
    have h1 := hp t
    have h2 := hp 0
    rw [H.place] at h1 h2
    rw [← h2] at h1
    exact (cast_inj h).1 h1
  · rintro ⟨p, hp⟩
    exact ⟨Fin.castLE h p, fun t => by rw [H.place, hp]⟩

theorem plainHunt (H : CoverOf h lead τ lead' τ') (b : Fin n) :
    PlainHunt lead' τ' (Fin.castLE h b) ↔ PlainHunt lead τ b := by
  unfold PlainHunt
  rw [H.stationary]
  refine and_congr_right fun _ => ⟨?_, ?_⟩
  · intro H1 p hp
    have := H1 _ ((H.visits b p).2 hp)
    rwa [H.rowsInPlace] at this
  · intro H1 p hp
    obtain ⟨q, rfl, hq⟩ := H.visits_cases b p hp
    rw [H.rowsInPlace]
    exact H1 q hq

theorem symmetric (H : CoverOf h lead τ lead' τ') (b : Fin n) :
    Symmetric lead' τ' (Fin.castLE h b) ↔ Symmetric lead τ b := by
  unfold Symmetric
  simp only [H.place, cast_inj, H.length]

theorem evenlySpread (H : CoverOf h lead τ lead' τ') (b : Fin n) :
    EvenlySpread lead' τ' (Fin.castLE h b) ↔ EvenlySpread lead τ b := by
  constructor
  · intro H1 p q hp hq
    have := H1 _ _ ((H.visits b p).2 hp) ((H.visits b q).2 hq)
    rwa [H.rowsInPlace, H.rowsInPlace] at this
  · intro H1 p q hp hq
    obtain ⟨p, rfl, hp'⟩ := H.visits_cases b p hp
    obtain ⟨q, rfl, hq'⟩ := H.visits_cases b q hq
    rw [H.rowsInPlace, H.rowsInPlace]
    exact H1 p q hp' hq'

theorem huntPath (H : CoverOf h lead τ lead' τ') (b : Fin n) (k : HuntBellClass) :
    HuntPathIs lead' τ' (Fin.castLE h b) k ↔ HuntPathIs lead τ b k := by
  cases k <;>
    simp only [HuntPathIs, H.stationary, H.plainHunt, H.symmetric, H.evenlySpread, H.placesMade]

theorem huntPath_cover (H : CoverOf h lead τ lead' τ') (x : Fin m) (hx : n ≤ x.val) :
    HuntPathIs lead' τ' x .treblePlace :=
  .inl ⟨x, H.place_cover x hx⟩

theorem principal (H : CoverOf h lead τ lead' τ') (b : Fin n) (k : HuntBellClass) (hk : dominance.idxOf k ≤ 2) :
    Principal lead' τ' k (Fin.castLE h b) ↔ Principal lead τ k b := by
  unfold Principal
  rw [H.hunt, H.huntPath]
  refine and_congr_right fun _ => and_congr_right fun _ => ⟨?_, ?_⟩
  · intro H1 c hc k' hk'
    exact H1 _ ((H.hunt c).2 hc) k' ((H.huntPath c k').2 hk')
  · intro H1 c hc k' hk'
    rcases bell_cases h c with ⟨c, rfl⟩ | hx
    · exact H1 c ((H.hunt c).1 hc) k' ((H.huntPath c k').1 hk')
    · rw [← huntPathIs_unique (H.huntPath_cover c hx) hk']
      exact hk

theorem principal_cases (H : CoverOf h lead τ lead' τ') (x : Fin m) (k : HuntBellClass)
    (hk : dominance.idxOf k < 2) (hp : Principal lead' τ' k x) :
    ∃ b, x = Fin.castLE h b ∧ Principal lead τ k b := by
  rcases bell_cases h x with ⟨b, rfl⟩ | hx
  · exact ⟨b, rfl, (H.principal b k (by omega)).1 hp⟩
  · rw [← huntPathIs_unique (H.huntPath_cover x hx) hp.2.1] at hk
    exact absurd hk (by decide)

theorem sharpTurn (H : CoverOf h lead τ lead' τ') (b : Fin n) :
    SharpTurn lead' τ' (Fin.castLE h b) ↔ SharpTurn lead τ b := by
  unfold SharpTurn
  simp only [H.place, cast_inj]
  rfl

theorem sharpTurn_cover (H : CoverOf h lead τ lead' τ') (x : Fin m) (hx : n ≤ x.val) :
    ¬ SharpTurn lead' τ' x := by
  rintro ⟨t, -, e⟩
  simp only [H.place_cover x hx] at e
  omega

theorem crossesAt (H : CoverOf h lead τ lead' τ') (b : Fin n) (t : Nat) :
    CrossesAt lead' τ' (Fin.castLE h b) t ↔ CrossesAt lead τ b t := by
  constructor
  · rintro ⟨lo, h1, h2, h3⟩
    obtain ⟨lo, rfl, h1'⟩ := H.visits_cases b lo h1
    refine ⟨lo, h1', fun p hp => h2 _ ((H.visits b p).2 hp), ?_⟩
    rw [H.place, H.place] at h3
    exact h3
  · rintro ⟨lo, h1, h2, h3⟩
    refine ⟨Fin.castLE h lo, (H.visits b lo).2 h1, ?_, ?_⟩
    · intro p hp
      obtain ⟨p, rfl, hp'⟩ := H.visits_cases b p hp
      exact h2 p hp'
    · rw [H.place, H.place]
      exact h3

theorem crossSection (H : CoverOf h lead τ lead' τ') (t : Nat) :
    CrossSection lead' τ' t ↔ CrossSection lead τ t := by
  constructor
  · rintro ⟨x, h1, h2⟩
    obtain ⟨b, rfl, hb⟩ := H.principal_cases x _ (by decide) h1
    exact ⟨b, hb, (H.crossesAt b t).1 h2⟩
  · rintro ⟨b, h1, h2⟩
    exact ⟨_, (H.principal b _ (by decide)).2 h1, (H.crossesAt b t).2 h2⟩

theorem internal (H : CoverOf h lead τ lead' τ') (t : Nat) (hi : InternalPlaceAt lead τ t) :
    InternalPlaceAt lead' τ' t := by
  obtain ⟨p, h1, h2, h3⟩ := hi
  have := p.isLt
  refine ⟨Fin.castLE h p, h1, ?_, ?_⟩
  · have e : (Fin.castLE h p).val = p.val := rfl
    omega
  · rw [H.rows, H.rows, coverPerm_lt, coverPerm_lt, h3]

theorem internal_two (H : CoverOf h lead τ lead' τ') (hn : 0 < n) (h2 : n + 2 ≤ m) (t : Nat) :
    InternalPlaceAt lead' τ' t := by
  refine ⟨⟨n, by omega⟩, by simp; omega, by simp; omega, ?_⟩
  rw [H.rows, H.rows, coverPerm_ge h _ ⟨n, by omega⟩ (le_refl _), coverPerm_ge h _ ⟨n, by omega⟩ (le_refl _)]

theorem isLittle (H : CoverOf h lead τ lead' τ') (hn : 0 < n) (hlt : n < m) : IsLittle lead' τ' := by
  refine ⟨⟨⟨n, hlt⟩, H.hunt_cover _ (le_refl _)⟩, ?_⟩
  intro k x _
  rcases bell_cases h x with ⟨b, rfl⟩ | hx
  · refine ⟨⟨n, hlt⟩, fun hv => ?_⟩
    obtain ⟨q, hq, -⟩ := H.visits_cases b _ hv
    have := congrArg Fin.val hq
    have := q.isLt
    simp at *
    omega
  · refine ⟨⟨0, by omega⟩, ?_⟩
    rintro ⟨t, ht⟩
    rw [H.place_cover x hx] at ht
    have := congrArg Fin.val ht
    simp at this
    omega

theorem period (H : CoverOf h lead τ lead' τ') (b : Fin n) :
    Function.minimalPeriod τ' (Fin.castLE h b) = Function.minimalPeriod τ b := by
  apply Function.minimalPeriod_eq_minimalPeriod_iff.2
  intro k
  rw [Function.IsPeriodicPt, Function.IsPeriodicPt, Function.IsFixedPt, Function.IsFixedPt, ← Perm.coe_pow,
    ← Perm.coe_pow, H.head, ← map_pow, coverPerm_lt, cast_inj]

theorem isDifferential (H : CoverOf h lead τ lead' τ') : IsDifferential τ' ↔ IsDifferential τ := by
  constructor
  · rintro ⟨a, b, ha, hb, hab⟩
    rcases bell_cases h a with ⟨a, rfl⟩ | hx
    · rcases bell_cases h b with ⟨b, rfl⟩ | hy
      · rw [H.hunt] at ha hb
        rw [H.period, H.period] at hab
        exact ⟨a, b, ha, hb, hab⟩
      · exact absurd (H.hunt_cover b hy) hb
    · exact absurd (H.hunt_cover a hx) ha
  · rintro ⟨a, b, ha, hb, hab⟩
    exact ⟨Fin.castLE h a, Fin.castLE h b, by rwa [H.hunt], by rwa [H.hunt], by rwa [H.period, H.period]⟩

theorem classIs_plain (H : CoverOf h lead τ lead' τ') (c : MethodClass) (hc : c = .place ∨ c = .bob)
    (hk : ClassIs lead τ c) : ClassIs lead' τ' c := by
  rcases hc with rfl | rfl
  · obtain ⟨⟨b, hb⟩, h2⟩ := hk
    refine ⟨⟨_, (H.principal b _ (by decide)).2 hb⟩, ?_⟩
    intro x hx
    rcases bell_cases h x with ⟨a, rfl⟩ | hx'
    · rw [H.principal _ _ (by decide)] at hx
      rw [H.sharpTurn]
      exact h2 a hx
    · exact H.sharpTurn_cover x hx'
  · obtain ⟨⟨b, hb⟩, a, h2, h3⟩ := hk
    exact ⟨⟨_, (H.principal b _ (by decide)).2 hb⟩, Fin.castLE h a, by rwa [H.principal _ _ (by decide)],
      by rwa [H.sharpTurn]⟩

theorem classIs_surprise (H : CoverOf h lead τ lead' τ') (hk : ClassIs lead τ .surprise) :
    ClassIs lead' τ' .surprise := by
  obtain ⟨⟨b, hb⟩, ⟨t, ht⟩, h2⟩ := hk
  refine ⟨⟨_, (H.principal b _ (by decide)).2 hb⟩, ⟨t, (H.crossSection t).2 ht⟩, ?_⟩
  intro t ht
  exact H.internal t (h2 t ((H.crossSection t).1 ht))

theorem classIs_delight (H : CoverOf h lead τ lead' τ') (hn : 0 < n) (h2 : n + 2 ≤ m)
    (hk : ClassIs lead τ .delight) : ClassIs lead' τ' .surprise := by
  obtain ⟨⟨b, hb⟩, ⟨t, ht, -⟩, -⟩ := hk
  exact ⟨⟨_, (H.principal b _ (by decide)).2 hb⟩, ⟨t, (H.crossSection t).2 ht⟩, fun t _ => H.internal_two hn h2 t⟩

theorem classIs_treblePlace (H : CoverOf h lead τ lead' τ') (hlt : n < m) (c : MethodClass)
    (hc : c = .principle ∨ c = .treblePlace ∨ c = .alliance ∨ c = .hybrid) (hk : ClassIs lead τ c) :
    ClassIs lead' τ' .treblePlace := by
  have key : ∀ b, IsHuntBell τ b → ∀ k', HuntPathIs lead τ b k' → 2 ≤ dominance.idxOf k' := by
    intro b hb k' hk'
    rcases hc with rfl | rfl | rfl | rfl
    · exact absurd hb (hk b)
    · obtain ⟨a, ha⟩ := hk
      exact ha.2.2 b hb k' hk'
    · obtain ⟨a, ha⟩ := hk
      exact le_trans (by decide) (ha.2.2 b hb k' hk')
    · obtain ⟨a, ha⟩ := hk
      exact le_trans (by decide) (ha.2.2 b hb k' hk')
  refine ⟨⟨n, hlt⟩, H.hunt_cover _ (le_refl _), H.huntPath_cover _ (le_refl _), ?_⟩
  intro x hx k' hk'
  rcases bell_cases h x with ⟨b, rfl⟩ | hy
  · exact key b ((H.hunt b).1 hx) k' ((H.huntPath b k').1 hk')
  · rw [← huntPathIs_unique (H.huntPath_cover x hy) hk']

end CoverOf

/-- The class of a method rung with covering bells.  It is always little, and it is differential if the method is.
Plain methods keep their class; methods without hunt bells, or with none that plain hunts or dodges, become Treble
Place, since the covering bells stand still; treble dodging methods remain so, and Surprise methods remain Surprise,
but with two covering bells or more the places these make are internal ones, so that Delight methods become Surprise
and Treble Bob methods may. -/
theorem C103_class {A : Type} (dflt : A) (hn : 0 < n) (hlt : n < m) (τs : List (Perm (Fin n)))
    (τs' : List (Perm (Fin m))) (hne : τs ≠ []) (hc : ∀ τ ∈ τs, IsChange τ)
    (hcov : List.Forall₂ Covered τs τs') :
    ∃ block block' c c',
      PnBlock.toBlockFromRounds dflt ⟨τs.map PlaceNot.ofChange⟩ = .ok block ∧
      PnBlock.toBlockFromRounds dflt ⟨τs'.map PlaceNot.ofChange⟩ = .ok block' ∧
      (FullClass.classify block).Returns c ∧ (FullClass.classify block').Returns c' ∧
      c'.isJump = false ∧ c'.isLittle = true ∧ c'.isDifferential = c.isDifferential ∧
      (c.cls = .place ∨ c.cls = .bob → c'.cls = c.cls) ∧
      (c.cls = .principle ∨ c.cls = .treblePlace ∨ c.cls = .alliance ∨ c.cls = .hybrid → c'.cls = .treblePlace) ∧
      (c.cls.isTrebleDodging = true → c'.cls.isTrebleDodging = true) ∧
      (c.cls = .surprise → c'.cls = .surprise) ∧
      (n + 2 ≤ m → (c.cls = .delight → c'.cls = .surprise) ∧
        (c.cls = .trebleBob → c'.cls = .surprise ∨ c'.cls = .trebleBob)) := by
  have h := hlt.le
  have hτs : τs' = τs.map (coverPerm h) := by
    clear hne hc
    induction hcov with
    | nil => rfl
    | cons h1 _ ih => rw [List.map_cons, ← ih, (covered_iff h _ _).1 h1]
  subst hτs
  have hne' : τs.map (coverPerm h) ≠ [] := by simpa using hne
  have hc' : ∀ τ ∈ τs.map (coverPerm h), IsChange τ := by
    intro τ hτ
    obtain ⟨σ, hσ, rfl⟩ := List.mem_map.1 hτ
    exact (C103_change h σ _ (hc σ hσ) (covered_coverPerm h σ)).1
  obtain ⟨lead, τ, c, f1, f2, f3, -, f4, -, f5⟩ := C51_place_notation dflt hn τs hne hc
  obtain ⟨lead', τ', c', g1, g2, g3, g0, g4, g6, g5⟩ := C51_place_notation dflt (by omega) _ hne' hc'
  obtain ⟨f0, fl⟩ := follows_start hne f1
  obtain ⟨g0', gl⟩ := follows_start hne' g1
  have H : CoverOf h lead τ lead' τ' := by
    refine ⟨by rw [fl, gl, List.length_map], by rw [head_of_follows f1, head_of_follows g1, map_list_prod], ?_⟩
    intro t
    induction t with
    | zero => rw [courseRow_zero τ f0, courseRow_zero τ' g0', map_one]
    | succ t ih =>
      rw [courseRow_step hne' g1, courseRow_step hne f1, map_mul, ih]
      congr 1
      unfold changeAt
      rw [List.length_map, List.getElem?_map]
      cases τs[((t : ℤ) % τs.length).toNat]? with
      | none => simp
      | some x => rfl
  have huniq := C51_class_unique lead' τ'
  have htd : c.cls.isTrebleDodging = true → c'.cls.isTrebleDodging = true := by
    intro e
    obtain ⟨-, -, -, e1, -⟩ := C51_hunt_bell_class lead τ _ f5
    obtain ⟨-, -, -, e2, -⟩ := C51_hunt_bell_class lead' τ' _ g5
    obtain ⟨b, hb⟩ := e1.1 e
    exact e2.2 ⟨_, (H.principal b _ (by decide)).2 hb⟩
  refine ⟨_, _, c, c', f2, g2, f3, g3, g0, g6.2 (H.isLittle hn hlt), ?_, ?_, ?_, htd, ?_, ?_⟩
  · rw [Bool.eq_iff_iff, f4, g4, H.isDifferential]
  · intro e
    exact huniq _ _ g5 (H.classIs_plain _ e f5)
  · intro e
    exact huniq _ _ g5 (H.classIs_treblePlace hlt _ e f5)
  · intro e
    rw [e] at f5
    exact huniq _ _ g5 (H.classIs_surprise f5)
  · intro h2
    constructor
    · intro e
      rw [e] at f5
      exact huniq _ _ g5 (H.classIs_delight hn h2 f5)
    · intro e
      have e1 := htd (by rw [e]; rfl)
      cases hk : c'.cls <;> rw [hk] at e1 <;> first | (exact .inl rfl) | (exact .inr rfl) | skip
      · exact absurd e1 (by decide)
      · exact absurd e1 (by decide)
      · exact absurd e1 (by decide)
      · rw [hk] at g5
        obtain ⟨-, -, t, -, ht⟩ := g5
        exact absurd (H.internal_two hn h2 t) ht
      · exact absurd e1 (by decide)
      · exact absurd e1 (by decide)
      · exact absurd e1 (by decide)

/-- Plain hunting on three bells with a covering tenor: rows, lead head and changes. -/
example : (Row.mk [⟨1⟩, ⟨0⟩, ⟨2⟩]).extendToStage ⟨5⟩ = .ok ⟨[⟨1⟩, ⟨0⟩, ⟨2⟩, ⟨3⟩, ⟨4⟩]⟩ ∧
    (Row.mk [⟨1⟩, ⟨0⟩, ⟨2⟩]).Valid ∧
    Row.parseWithStage "213".toList ⟨5⟩ = .ok (.ok ⟨[⟨1⟩, ⟨0⟩, ⟨2⟩, ⟨3⟩, ⟨4⟩]⟩) ∧
    PnBlock.toBlockFromRounds (none : Option String) ⟨[⟨[2], ⟨3⟩⟩, ⟨[0], ⟨3⟩⟩]⟩ =
      .ok ⟨⟨[[0, 1, 2], [1, 0, 2], [1, 2, 0]].flatten.map Bell.mk, ⟨3⟩⟩, [none, none]⟩ ∧
    PnBlock.toBlockFromRounds (none : Option String) ⟨[⟨[2, 3], ⟨4⟩⟩, ⟨[0, 3], ⟨4⟩⟩]⟩ =
      .ok ⟨⟨[[0, 1, 2, 3], [1, 0, 2, 3], [1, 2, 0, 3]].flatten.map Bell.mk, ⟨4⟩⟩, [none, none]⟩ := by
  decide +kernel

example : Covered (Equiv.swap (0 : Fin 3) 1) (Equiv.swap (0 : Fin 5) 1) ∧ IsChange (Equiv.swap (0 : Fin 3) 1) := by
  refine ⟨⟨by decide, by decide⟩, by decide⟩

/-- The changes of plain hunting on three bells, and with two covering bells. -/
example : List.Forall₂ Covered [Equiv.swap (0 : Fin 3) 1, Equiv.swap 1 2] [Equiv.swap (0 : Fin 5) 1, Equiv.swap 1 2] ∧
    ∀ τ ∈ [Equiv.swap (0 : Fin 3) 1, Equiv.swap 1 2], IsChange τ := by
  refine ⟨.cons ⟨by decide, by decide⟩ (.cons ⟨by decide, by decide⟩ .nil), by decide⟩

end Bellframe.Props
