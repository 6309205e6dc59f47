import Verif.Proofs.RowBasic

/-! # Lemmas about row constructors -/

namespace Bellframe

namespace Row

/-- The checklist records exactly which bells of `seen` are within it. -/
def ChecklistInv (seen : List Bell) (cl : List Bool) : Prop :=
  ∀ j, j < cl.length → cl[j]? = some (decide ((⟨j⟩ : Bell) ∈ seen))

theorem checklistInv_nil (m : Nat) : ChecklistInv [] (List.replicate m false) := by
  intro j hj
  simp at hj
  simp [hj]

theorem checkOff_spec (stage : Stage) : ∀ (bs seen : List Bell) (cl : List Bool) (big : Bell),
    ChecklistInv seen cl →
    (∃ cl' big', checkOff stage bs cl big = .ok (cl', big') ∧
      (∀ b ∈ bs, b.index < cl.length ∧ b ∉ seen) ∧ bs.Nodup ∧ cl'.length = cl.length ∧
      ChecklistInv (seen ++ bs) cl' ∧
      (big' = big ∨ big' ∈ bs) ∧ big.index ≤ big'.index ∧ ∀ b ∈ bs, b.index ≤ big'.index) ∨
    (∃ pre b post, bs = pre ++ b :: post ∧ (∀ c ∈ pre, c.index < cl.length ∧ c ∉ seen) ∧
      pre.Nodup ∧
      ((cl.length ≤ b.index ∧ checkOff stage bs cl big = .error (.bellOutOfStage b stage)) ∨
       (b.index < cl.length ∧ b ∈ seen ++ pre ∧
        checkOff stage bs cl big = .error (.duplicateBell b))))
  | [], seen, cl, big, hinv => by
    left
    exact ⟨cl, big, rfl, by simp, by simp, rfl, by simpa using hinv, Or.inl rfl, le_refl _, by simp⟩
  | b :: bs, seen, cl, big, hinv => by
    by_cases hb : b.index < cl.length
    · by_cases hs : b ∈ seen
      · right
        refine ⟨[], b, bs, rfl, by simp, by simp, Or.inr ⟨hb, by simpa using hs, ?_⟩⟩
        have := hinv b.index hb
        rw [checkOff, this]
        simp [hs]
      · have hget := hinv b.index hb
        have hstep : checkOff stage (b :: bs) cl big =
            checkOff stage bs (cl.set b.index true)
              (if big.index ≤ b.index then b else big) := by
          rw [checkOff, hget]
          simp [hs]
        have hinv' : ChecklistInv (seen ++ [b]) (cl.set b.index true) := by
          intro j hj
          rw [List.length_set] at hj
          rw [List.getElem?_set]
          by_cases hjb : b.index = j
          · subst hjb
            simp [hb]
          · rw [if_neg hjb, hinv j hj]
            have : (⟨j⟩ : Bell) ≠ b := by rintro rfl; exact hjb rfl
            simp [this]
        rw [hstep]
        have hbig : (big.index ≤ (if big.index ≤ b.index then b else big).index) ∧
            b.index ≤ (if big.index ≤ b.index then b else big).index ∧
            ((if big.index ≤ b.index then b else big) = big ∨
             (if big.index ≤ b.index then b else big) = b) := by
          split
          · exact ⟨by omega, by omega, Or.inr rfl⟩
          · exact ⟨by omega, by omega, Or.inl rfl⟩
        generalize (if big.index ≤ b.index then b else big) = big1 at *
        rcases checkOff_spec stage bs (seen ++ [b]) (cl.set b.index true) big1 hinv' with
          ⟨cl', big', he, hall, hnd, hlen, hi, hmem, hle, hmax⟩ |
          ⟨pre, c, post, he, hall, hnd, hcase⟩
        · left
          rw [List.length_set] at hlen
          simp only [List.length_set] at hall
          refine ⟨cl', big', he, ?_, ?_, hlen, by simpa using hi, ?_, ?_, ?_⟩
          · intro c hc
            rcases List.mem_cons.1 hc with rfl | hc
            · exact ⟨hb, hs⟩
            · have := hall c hc
              simp at this
              exact ⟨this.1, this.2.1⟩
          · rw [List.nodup_cons]
            refine ⟨?_, hnd⟩
            intro hc
            have := (hall b hc).2
            simp at this
          · rcases hmem with rfl | hmem
            · rcases hbig.2.2 with h | h
              · exact Or.inl h
              · exact Or.inr (by simp [h])
            · exact Or.inr (by simp [hmem])
          · omega
          · intro c hc
            rcases List.mem_cons.1 hc with rfl | hc
            · omega
            · exact hmax c hc
        · right
          simp only [List.length_set] at hall hcase
          refine ⟨b :: pre, c, post, by simp [he], ?_, ?_, ?_⟩
          · intro d hd
            rcases List.mem_cons.1 hd with rfl | hd
            · exact ⟨hb, hs⟩
            · have := hall d hd
              simp at this
              exact ⟨this.1, this.2.1⟩
          · rw [List.nodup_cons]
            refine ⟨?_, hnd⟩
            intro hc
            have := (hall b hc).2
            simp at this
          · simpa using hcase
    · right
      refine ⟨[], b, bs, rfl, by simp, by simp, Or.inl ⟨by omega, ?_⟩⟩
      rw [checkOff, List.getElem?_eq_none (by omega)]

theorem range_map_mk (n : Nat) :
    (List.range n).map Bell.fromIndex = (List.range n).map Bell.mk := rfl

/-- bells `0..k` followed by bells `k..n` in order. -/
theorem append_cover_perm {bells : List Bell} {k n : Nat} (hk : k ≤ n)
    (hp : bells.Perm ((List.range k).map Bell.mk)) :
    ((List.range n).map Bell.mk).Perm (bells ++ (List.range' k (n - k)).map Bell.mk) := by
  have : List.range n = List.range k ++ List.range' k (n - k) := by
    have h := List.range'_append (s := 0) (m := k) (n := n - k) (step := 1)
    simp only [Nat.one_mul, Nat.zero_add] at h
    rw [List.range_eq_range', List.range_eq_range', h]
    congr 1; omega
  rw [this, List.map_append]
  exact List.Perm.append_right _ hp.symm

/-- `fromVecWithStage` computed: the panic branches are never taken. -/
theorem fromVecWithStage_cases (bells : List Bell) (stage : Stage) :
    (∃ k, k ≤ stage.numBells ∧ bells.Perm ((List.range k).map Bell.mk) ∧
      fromVecWithStage bells stage =
        .ok (.ok ⟨bells ++ (List.range' k (stage.numBells - k)).map Bell.mk⟩)) ∨
    (∃ m, bells.Nodup ∧ (∀ b ∈ bells, b.index < stage.numBells) ∧ ⟨m⟩ ∉ bells ∧
      (∀ j < m, ⟨j⟩ ∈ bells) ∧ (∃ b ∈ bells, m < b.index) ∧
      fromVecWithStage bells stage = .ok (.error (.missingBell ⟨m⟩))) ∨
    (∃ pre b post, bells = pre ++ b :: post ∧ (∀ c ∈ pre, c.index < stage.numBells) ∧
      pre.Nodup ∧
      ((stage.numBells ≤ b.index ∧
          fromVecWithStage bells stage = .ok (.error (.bellOutOfStage b stage))) ∨
       (b.index < stage.numBells ∧ b ∈ pre ∧
          fromVecWithStage bells stage = .ok (.error (.duplicateBell b))))) := by
  rcases checkOff_spec stage bells [] (List.replicate stage.numBells false) Bell.treble
    (checklistInv_nil _) with
    ⟨cl', big', he, hall, hnd, hlen, hi, hmem, hle, hmax⟩ |
    ⟨pre, c, post, he, hall, hnd, hcase⟩
  · simp only [List.length_replicate, List.nil_append] at hall hlen hi
    have hall' : ∀ b ∈ bells, b.index < stage.numBells := fun b hb => (hall b hb).1
    have hbig : big'.index ≤ cl'.length := by
      rcases hmem with rfl | h
      · simp [Bell.treble]
      · have := hall' _ h; omega
    have hbigmem : bells ≠ [] → big' ∈ bells := by
      intro hne
      rcases hmem with rfl | h
      · obtain ⟨b, hb⟩ := List.exists_mem_of_ne_nil _ hne
        have h1 := hmax b hb
        have : b = Bell.treble := by
          ext; simp [Bell.treble] at h1 ⊢; exact h1
        rwa [← this]
      · exact h
    cases hf : (cl'.take big'.index).findIdx? (fun x => !x) with
    | some m =>
      right; left
      rw [List.findIdx?_eq_some_iff_getElem] at hf
      obtain ⟨hm, hfm, hbefore⟩ := hf
      simp only [List.length_take] at hm
      simp only [List.getElem_take] at hfm hbefore
      have hmlen : m < cl'.length := by omega
      have hmbig : m < big'.index := by omega
      have hne : bells ≠ [] := by
        rintro rfl
        rcases hmem with rfl | h
        · simp [Bell.treble] at hmbig
        · simp at h
      refine ⟨m, hnd, hall', ?_, ?_, ⟨big', hbigmem hne, hmbig⟩, ?_⟩
      · have := hi m hmlen
        rw [List.getElem?_eq_getElem hmlen, Option.some_inj] at this
        rw [this] at hfm
        simpa using hfm
      · intro j hj
        have h1 := hbefore j hj
        have := hi j (by omega)
        rw [List.getElem?_eq_getElem (by omega), Option.some_inj] at this
        rw [this] at h1
        simpa using h1
      · unfold fromVecWithStage
        rw [he]
        have hf' : (cl'.take big'.index).findIdx? (fun x => !x) = some m := by
          rw [List.findIdx?_eq_some_iff_getElem]
          refine ⟨by simp; omega, by simpa using hfm, by simpa using hbefore⟩
        simp only [hf', Res.pure_eq]
        rw [if_neg (by omega)]
        rfl
    | none =>
      left
      rw [List.findIdx?_eq_none_iff] at hf
      have hlow : ∀ j, j < big'.index → (⟨j⟩ : Bell) ∈ bells := by
        intro j hj
        have hjl : j < cl'.length := by omega
        have h1 := hi j hjl
        have h2 := hf (cl'[j]) (by
          rw [List.mem_take_iff_getElem]
          exact ⟨j, by omega, rfl⟩)
        rw [List.getElem?_eq_getElem hjl, Option.some_inj] at h1
        rw [h1] at h2
        simpa using h2
      obtain ⟨k, hk⟩ : ∃ k, bells.Perm ((List.range k).map Bell.mk) := by
        by_cases hne : bells = []
        · exact ⟨0, by simp [hne]⟩
        · refine ⟨big'.index + 1, ?_⟩
          have h1 : bells ⊆ (List.range (big'.index + 1)).map Bell.mk := by
            intro b hb
            simp only [List.mem_map, List.mem_range]
            exact ⟨b.index, by have := hmax b hb; omega, rfl⟩
          have h2 : (List.range (big'.index + 1)).map Bell.mk ⊆ bells := by
            intro b hb
            simp only [List.mem_map, List.mem_range] at hb
            obtain ⟨j, hj, rfl⟩ := hb
            by_cases hjb : j < big'.index
            · exact hlow j hjb
            · have : j = big'.index := by omega
              subst this
              exact hbigmem hne
          exact (List.subperm_of_subset hnd h1).antisymm
            (List.subperm_of_subset (List.nodup_range.map Bell.mk_injective) h2)
      have hkl : bells.length = k := by simpa using hk.length_eq
      have hkn : k ≤ stage.numBells := by
        cases k with
        | zero => omega
        | succ k =>
          have : (⟨k⟩ : Bell) ∈ bells := by rw [hk.mem_iff]; simp
          have := hall' _ this
          simp at this; omega
      refine ⟨k, hkn, hk, ?_⟩
      unfold fromVecWithStage
      rw [he]
      have hf' : (cl'.take big'.index).findIdx? (fun x => !x) = none := by
        rw [List.findIdx?_eq_none_iff]; exact hf
      have hdec : decide (bells.length ≤ stage.numBells) = true := by simp; omega
      simp only [hf', Res.pure_eq, hdec, assertThat_true]
      rw [if_neg (by omega)]
      simp only [Res.ok_bind, hkl]
      rfl
  · right; right
    simp only [List.length_replicate, List.nil_append] at hall hcase
    refine ⟨pre, c, post, he, fun b hb => (hall b hb).1, hnd, ?_⟩
    rcases hcase with ⟨h1, h2⟩ | ⟨h1, h2, h3⟩
    · exact Or.inl ⟨h1, by unfold fromVecWithStage; rw [h2]; rfl⟩
    · exact Or.inr ⟨h1, h2, by unfold fromVecWithStage; rw [h3]; rfl⟩

theorem fromVec_cases (bells : List Bell) :
    (bells = [] ∧ fromVec bells = .error .noBells) ∨
    ((Row.mk bells).Valid ∧ fromVec bells = .ok ⟨bells⟩) ∨
    (∃ pre b post, bells = pre ++ b :: post ∧ (∀ c ∈ pre, c.index < bells.length) ∧
      pre.Nodup ∧
      ((bells.length ≤ b.index ∧
          fromVec bells = .error (.bellOutOfStage b ⟨bells.length⟩)) ∨
       (b.index < bells.length ∧ b ∈ pre ∧ fromVec bells = .error (.duplicateBell b)))) := by
  by_cases hne : bells = []
  · left; subst hne; exact ⟨rfl, rfl⟩
  right
  have hl : bells.length ≠ 0 := by simpa using hne
  have hfv : fromVec bells =
      match checkOff ⟨bells.length⟩ bells (List.replicate bells.length false) Bell.treble with
      | .error e => .error e
      | .ok _ => .ok ⟨bells⟩ := by
    simp only [fromVec, Stage.tryFrom, hl, if_false]
    rfl
  rcases checkOff_spec ⟨bells.length⟩ bells [] (List.replicate bells.length false) Bell.treble
    (checklistInv_nil _) with
    ⟨cl', big', he, hall, hnd, hlen, hi, hmem, hle, hmax⟩ |
    ⟨pre, c, post, he, hall, hnd, hcase⟩
  · left
    simp only [List.length_replicate] at hall
    exact ⟨valid_of_nodup_lt hne hnd (fun b hb => (hall b hb).1), by rw [hfv, he]⟩
  · right
    simp only [List.length_replicate, List.nil_append] at hall hcase
    refine ⟨pre, c, post, he, fun b hb => (hall b hb).1, hnd, ?_⟩
    rcases hcase with ⟨h1, h2⟩ | ⟨h1, h2, h3⟩
    · exact Or.inl ⟨h1, by rw [hfv, h2]⟩
    · exact Or.inr ⟨h1, h2, by rw [hfv, h3]⟩

/-! ## rounds, backrounds, queens -/

theorem rounds_valid {s : Stage} (h : s.Valid) : (rounds s).Valid :=
  valid_of_perm_range (k := s.numBells) h (List.Perm.refl _)

theorem backrounds_valid {s : Stage} (h : s.Valid) : (backrounds s).Valid :=
  valid_of_perm_range (k := s.numBells) h ((List.reverse_perm _).symm.map _)

theorem mem_stepByTwo (a n x : Nat) (ha : a ≤ 1) :
    x ∈ stepByTwo a n ↔ x < n ∧ x % 2 = a := by
  simp only [stepByTwo, List.mem_range']
  constructor
  · rintro ⟨i, hi, rfl⟩; omega
  · rintro ⟨h1, h2⟩; exact ⟨x / 2, by omega, by omega⟩

theorem stepByTwo_nodup (a n : Nat) : (stepByTwo a n).Nodup := by
  unfold stepByTwo
  exact List.nodup_range' 2 (by omega)

theorem queens_valid {s : Stage} (h : s.Valid) : (queens s).Valid := by
  have hp : (List.range s.numBells).Perm (stepByTwo 0 s.numBells ++ stepByTwo 1 s.numBells) := by
    rw [List.perm_ext_iff_of_nodup List.nodup_range]
    · intro a
      simp only [List.mem_range, List.mem_append, mem_stepByTwo _ _ _ (Nat.zero_le 1),
        mem_stepByTwo _ _ _ (le_refl 1)]
      omega
    · rw [List.nodup_append]
      refine ⟨stepByTwo_nodup _ _, stepByTwo_nodup _ _, ?_⟩
      intro a ha b hb
      rw [mem_stepByTwo _ _ _ (Nat.zero_le 1)] at ha
      rw [mem_stepByTwo _ _ _ (le_refl 1)] at hb
      omega
  exact valid_of_perm_range (k := s.numBells) h (hp.map _)

theorem isBackrounds_iff_eq (r : Row) :
    r.isBackrounds = true ↔ r = backrounds ⟨r.bells.length⟩ := by
  have h1 : r.isBackrounds = (Row.mk r.bells.reverse).isRounds := rfl
  rw [h1, isRounds_iff_eq]
  constructor
  · intro h
    have h2 := congrArg (fun r => r.bells.reverse) h
    simp only [List.reverse_reverse, List.length_reverse] at h2
    ext1
    rw [h2]
    simp [rounds, backrounds]
  · intro h
    ext1
    dsimp only
    rw [h]
    simp [rounds, backrounds]

end Row

end Bellframe
