import Verif.Proofs.RowBuild
import Verif.Props.BellStage

/-! # C06–C09: building rows -/

namespace Bellframe.Props

/-! ## C06: constructors accept exactly the permutations -/

/-- `from_vec` succeeds exactly on the valid rows and keeps the bells. -/
theorem C06_from_vec_ok (bells : List Bell) (r : Row) :
    Row.fromVec bells = .ok r ↔ r.bells = bells ∧ r.Valid := by
  rcases Row.fromVec_cases bells with ⟨rfl, he⟩ | ⟨hv, he⟩ | ⟨pre, b, post, hsplit, hlt, hnd, hcase⟩
  · rw [he]
    constructor
    · intro h; cases h
    · rintro ⟨h1, h2⟩; exact absurd h1 h2.1
  · rw [he]
    constructor
    · intro h; cases h; exact ⟨rfl, hv⟩
    · rintro ⟨rfl, -⟩; rfl
  · constructor
    · intro h
      rcases hcase with ⟨-, h2⟩ | ⟨-, -, h2⟩ <;> rw [h2] at h <;> cases h
    · rintro ⟨rfl, hv⟩
      exfalso
      rcases hcase with ⟨h1, -⟩ | ⟨h1, h2, -⟩
      · have : b ∈ r.bells := by rw [hsplit]; simp
        rw [hv.mem_iff] at this
        omega
      · have := hv.nodup
        rw [hsplit, List.nodup_append] at this
        exact this.2.2 b h2 b (by simp) rfl

/-- Valid rows are exactly the rearrangements of the first `n` bells, `n > 0`; equivalently the rows
of permutations of `n` places. -/
theorem C06_valid_iff (r : Row) :
    (r.Valid ↔ r.bells ≠ [] ∧ r.bells.Perm ((List.range r.bells.length).map Bell.mk)) ∧
    (r.Valid ↔ ∃ n, 0 < n ∧ ∃ σ : Equiv.Perm (Fin n), r = Row.ofPerm σ) :=
  ⟨⟨fun h => ⟨h.1, h.perm_range.symm⟩,
    fun h => Row.valid_of_perm_range (List.length_pos_iff.2 h.1) h.2.symm⟩,
   Row.valid_iff_exists_perm⟩

/-- Errors are accurate and deterministic: the reported bell is the first one at which the row stops
being completable, and it is reported as out of stage if it is, as a duplicate otherwise. -/
theorem C06_from_vec_err (bells : List Bell) (e : InvalidRowError)
    (h : Row.fromVec bells = .error e) :
    (bells = [] ∧ e = .noBells) ∨
    ∃ pre b post, bells = pre ++ b :: post ∧ pre.Nodup ∧ (∀ c ∈ pre, c.index < bells.length) ∧
      ((e = .bellOutOfStage b ⟨bells.length⟩ ∧ bells.length ≤ b.index) ∨
       (e = .duplicateBell b ∧ b.index < bells.length ∧ b ∈ pre)) := by
  rcases Row.fromVec_cases bells with ⟨rfl, he⟩ | ⟨hv, he⟩ | ⟨pre, b, post, hsplit, hlt, hnd, hcase⟩
  · rw [he] at h; cases h; exact Or.inl ⟨rfl, rfl⟩
  · rw [he] at h; cases h
  · right
    refine ⟨pre, b, post, hsplit, hnd, hlt, ?_⟩
    rcases hcase with ⟨h1, h2⟩ | ⟨h1, h2, h3⟩
    · rw [h2] at h; cases h; exact Or.inl ⟨rfl, h1⟩
    · rw [h3] at h; cases h; exact Or.inr ⟨rfl, h1, h2⟩

example := C06_from_vec_err [⟨3⟩, ⟨1⟩, ⟨0⟩, ⟨3⟩] (.duplicateBell ⟨3⟩) (by decide)

/-- In words of the documentation: `BellOutOfStage` names a bell of the input outside the stage,
`DuplicateBell` a bell occurring at least twice, and `MissingBell` is never used. -/
theorem C06_from_vec_err_true (bells : List Bell) :
    (∀ b s, Row.fromVec bells = .error (.bellOutOfStage b s) →
      b ∈ bells ∧ s.numBells = bells.length ∧ s.numBells ≤ b.index) ∧
    (∀ b, Row.fromVec bells = .error (.duplicateBell b) → 2 ≤ bells.count b) ∧
    (∀ b, Row.fromVec bells ≠ .error (.missingBell b)) ∧
    (Row.fromVec bells = .error .noBells ↔ bells = []) := by
  refine ⟨?_, ?_, ?_, ?_⟩
  · intro b s h
    rcases C06_from_vec_err _ _ h with ⟨-, h⟩ | ⟨pre, c, post, hs, -, -, h | h⟩
    · cases h
    · obtain ⟨h1, h2⟩ := h
      cases h1
      exact ⟨by rw [hs]; simp, rfl, h2⟩
    · cases h.1
  · intro b h
    rcases C06_from_vec_err _ _ h with ⟨-, h⟩ | ⟨pre, c, post, hs, -, -, h | h⟩
    · cases h
    · cases h.1
    · obtain ⟨h1, h2, h3⟩ := h
      cases h1
      rw [hs, List.count_append, List.count_cons_self]
      have := List.count_pos_iff.2 h3
      omega
  · intro b h
    rcases C06_from_vec_err _ _ h with ⟨-, h⟩ | ⟨pre, c, post, hs, -, -, h | h⟩
    · cases h
    · cases h.1
    · cases h.1
  · constructor
    · intro h
      rcases C06_from_vec_err _ _ h with ⟨h, -⟩ | ⟨pre, c, post, hs, -, -, h | h⟩
      · exact h
      · cases h.1
      · cases h.1
    · rintro rfl; rfl

example : (Row.mk [⟨3⟩, ⟨1⟩, ⟨0⟩, ⟨2⟩]).Valid ∧
    Row.fromVec [⟨3⟩, ⟨1⟩, ⟨0⟩, ⟨2⟩] = .ok ⟨[⟨3⟩, ⟨1⟩, ⟨0⟩, ⟨2⟩]⟩ ∧
    Row.fromVec [⟨3⟩, ⟨1⟩, ⟨0⟩, ⟨3⟩] = .error (.duplicateBell ⟨3⟩) ∧
    Row.fromVec [⟨0⟩, ⟨1⟩, ⟨6⟩] = .error (.bellOutOfStage ⟨6⟩ ⟨3⟩) := by decide

/-! ## C07: rows completed to a stage -/

/-- `from_vec_with_stage` never panics. -/
theorem C07_never_panics (bells : List Bell) (stage : Stage) :
    ∃ r, Row.fromVecWithStage bells stage = .ok r := by
  rcases Row.fromVecWithStage_cases bells stage with ⟨k, -, -, h⟩ | ⟨m, -, -, -, -, -, h⟩ |
    ⟨pre, b, post, -, -, -, ⟨-, h⟩ | ⟨-, -, h⟩⟩ <;> exact ⟨_, h⟩

/-- Exact characterisation of success and of the completed row. -/
theorem C07_with_stage_ok (bells : List Bell) (stage : Stage) (r : Row) :
    Row.fromVecWithStage bells stage = .ok (.ok r) ↔
      ∃ k ≤ stage.numBells, bells.Perm ((List.range k).map Bell.mk) ∧
        r.bells = bells ++ (List.range' k (stage.numBells - k)).map Bell.mk := by
  rcases Row.fromVecWithStage_cases bells stage with ⟨k, hk, hp, h⟩ | ⟨m, hnd, hlt, hm, hlo, hhi, h⟩ |
    ⟨pre, b, post, hsplit, hlt, hnd, hcase⟩
  · rw [h]
    constructor
    · intro h'; cases h'; exact ⟨k, hk, hp, rfl⟩
    · rintro ⟨k', hk', hp', hr⟩
      have h1 := hp.length_eq
      have h2 := hp'.length_eq
      simp at h1 h2
      have : k' = k := by omega
      subst this
      congr 2; ext1; exact hr.symm
  · rw [h]
    constructor
    · intro h'; cases h'
    · rintro ⟨k, hk, hp, -⟩
      exfalso
      obtain ⟨b, hb, hmb⟩ := hhi
      rw [hp.mem_iff] at hb hm
      simp only [List.mem_map, List.mem_range] at hb hm
      obtain ⟨i, hi, rfl⟩ := hb
      exact hm ⟨m, by simp at hmb; omega, rfl⟩
  · constructor
    · intro h'
      rcases hcase with ⟨-, h⟩ | ⟨-, -, h⟩ <;> rw [h] at h' <;> cases h'
    · rintro ⟨k, hk, hp, -⟩
      exfalso
      rcases hcase with ⟨h1, -⟩ | ⟨h1, h2, -⟩
      · have : b ∈ bells := by rw [hsplit]; simp
        rw [hp.mem_iff] at this
        simp only [List.mem_map, List.mem_range] at this
        obtain ⟨i, hi, rfl⟩ := this
        simp at h1; omega
      · have hn : bells.Nodup := (hp.nodup_iff).2 (List.nodup_range.map Bell.mk_injective)
        rw [hsplit, List.nodup_append] at hn
        exact hn.2.2 b h2 b (by simp) rfl

/-- The completed row is valid, has the requested stage, starts with the given bells and holds
every further bell in its home place. -/
theorem C07_with_stage_valid (bells : List Bell) (stage : Stage) (r : Row) (hs : stage.Valid)
    (h : Row.fromVecWithStage bells stage = .ok (.ok r)) :
    r.Valid ∧ r.bells.length = stage.numBells ∧ bells <+: r.bells ∧
    ∀ i, bells.length ≤ i → i < stage.numBells → r.bells[i]? = some ⟨i⟩ := by
  obtain ⟨k, hk, hp, hr⟩ := (C07_with_stage_ok bells stage r).1 h
  have hkl : bells.length = k := by simpa using hp.length_eq
  refine ⟨?_, ?_, ⟨_, hr.symm⟩, ?_⟩
  · apply Row.valid_of_perm_range hs
    rw [hr]
    exact Row.append_cover_perm hk hp
  · rw [hr]; simp; omega
  · intro i h1 h2
    rw [hr, List.getElem?_append_right h1]
    rw [List.getElem?_eq_getElem (by simp; omega)]
    simp [hkl]
    omega

example := C07_with_stage_valid [⟨0⟩, ⟨2⟩, ⟨1⟩] ⟨5⟩ ⟨[⟨0⟩, ⟨2⟩, ⟨1⟩, ⟨3⟩, ⟨4⟩]⟩ (by decide) (by decide)

/-- Errors are accurate; `MissingBell` is the lowest missing bell, and there is a higher bell. -/
theorem C07_with_stage_err (bells : List Bell) (stage : Stage) (e : InvalidRowError)
    (h : Row.fromVecWithStage bells stage = .ok (.error e)) :
    (∃ m, e = .missingBell ⟨m⟩ ∧ bells.Nodup ∧ (∀ b ∈ bells, b.index < stage.numBells) ∧
      ⟨m⟩ ∉ bells ∧ (∀ j < m, (⟨j⟩ : Bell) ∈ bells) ∧ ∃ b ∈ bells, m < b.index) ∨
    ∃ pre b post, bells = pre ++ b :: post ∧ pre.Nodup ∧
      (∀ c ∈ pre, c.index < stage.numBells) ∧
      ((e = .bellOutOfStage b stage ∧ stage.numBells ≤ b.index) ∨
       (e = .duplicateBell b ∧ b.index < stage.numBells ∧ b ∈ pre)) := by
  rcases Row.fromVecWithStage_cases bells stage with ⟨k, hk, hp, h'⟩ |
    ⟨m, hnd, hlt, hm, hlo, hhi, h'⟩ | ⟨pre, b, post, hsplit, hlt, hnd, hcase⟩
  · rw [h'] at h; cases h
  · rw [h'] at h; cases h
    exact Or.inl ⟨m, rfl, hnd, hlt, hm, hlo, hhi⟩
  · right
    refine ⟨pre, b, post, hsplit, hnd, hlt, ?_⟩
    rcases hcase with ⟨h1, h2⟩ | ⟨h1, h2, h3⟩
    · rw [h2] at h; cases h; exact Or.inl ⟨rfl, h1⟩
    · rw [h3] at h; cases h; exact Or.inr ⟨rfl, h1, h2⟩

example : Row.parseWithStage "1342".toList ⟨6⟩ =
      .ok (.ok ⟨[⟨0⟩, ⟨2⟩, ⟨3⟩, ⟨1⟩, ⟨4⟩, ⟨5⟩]⟩) ∧
    Row.parseWithStage "14".toList ⟨6⟩ = .ok (.error (.missingBell ⟨1⟩)) ∧
    Row.parseWithStage "".toList ⟨3⟩ = .ok (.ok ⟨[⟨0⟩, ⟨1⟩, ⟨2⟩]⟩) := by decide

/-! ## C08: display and parse -/

theorem display_filterMap (bells : List Bell) (h : ∀ b ∈ bells, b.index < 33) :
    (bells.flatMap Bell.name).filterMap Bell.fromName = bells := by
  induction bells with
  | nil => rfl
  | cons b bs ih =>
    have hb := h b (by simp)
    rcases C01_name_cases b with ⟨-, c, hc, hn⟩ | ⟨h33, -, -⟩
    · rw [List.flatMap_cons, List.filterMap_append, hn,
        ih (fun c hc => h c (by simp [hc]))]
      simp [(C01_from_name_iff_to_char c b).2 hc]
    · omega

/-- Every row on at most 33 bells survives being displayed and parsed. -/
theorem C08_display_parse (r : Row) (hv : r.Valid) (h33 : r.bells.length ≤ 33) :
    Row.parse r.display = .ok r := by
  have : r.display.filterMap Bell.fromName = r.bells := by
    apply display_filterMap
    intro b hb
    have := (hv.mem_iff b).1 hb
    omega
  unfold Row.parse
  rw [this, C06_from_vec_ok]
  exact ⟨rfl, hv⟩

example : (Row.mk [⟨2⟩, ⟨0⟩, ⟨1⟩]).Valid ∧ (Row.mk [⟨2⟩, ⟨0⟩, ⟨1⟩]).display = "312".toList := by
  decide

/-- Characters that are not bell names make no difference, wherever they are. -/
theorem C08_parse_ignores_other_chars (s : List Char) (stage : Stage) :
    Row.parse s = Row.parse (s.filter (fun c => decide (c ∈ validBellNames))) ∧
    Row.parseWithStage s stage =
      Row.parseWithStage (s.filter (fun c => decide (c ∈ validBellNames))) stage := by
  have : (s.filter (fun c => decide (c ∈ validBellNames))).filterMap Bell.fromName =
      s.filterMap Bell.fromName := by
    rw [List.filterMap_filter]
    congr 1
    funext c
    split
    · rfl
    · rename_i h
      have h' : c ∉ validBellNames := by simpa using h
      rw [← C01_from_name_accepts] at h'
      cases hc : Bell.fromName c with
      | none => rfl
      | some b => exact absurd ⟨b, hc⟩ h'
  exact ⟨by unfold Row.parse; rw [this], by unfold Row.parseWithStage; rw [this]⟩

/-- The bells written in a text: one for each character that is a bell name, in the order of the text. -/
inductive Writes : List Char → List Bell → Prop
  | nil : Writes [] []
  | name (i : Nat) (c : Char) (s : List Char) (bells : List Bell) :
      validBellNames[i]? = some c → Writes s bells → Writes (c :: s) (⟨i⟩ :: bells)
  | other (c : Char) (s : List Char) (bells : List Bell) : c ∉ validBellNames → Writes s bells → Writes (c :: s) bells

theorem writes_iff (s : List Char) (bells : List Bell) : Writes s bells ↔ bells = s.filterMap Bell.fromName := by
  have hpos : ∀ i c, validBellNames[i]? = some c → Bell.fromName c = some ⟨i⟩ := by
    intro i c h
    obtain ⟨hi, rfl⟩ := List.getElem?_eq_some_iff.1 h
    exact C01_from_name_position i hi
  have hnone : ∀ c, c ∉ validBellNames → Bell.fromName c = none := by
    intro c h
    rw [← C01_from_name_accepts] at h
    cases hc : Bell.fromName c with
    | none => rfl
    | some b => exact absurd ⟨b, hc⟩ h
  constructor
  · intro h
    induction h with
    | nil => rfl
    | name i c s bells hc _ ih => rw [List.filterMap_cons, hpos i c hc, ih]
    | other c s bells hc _ ih => rw [List.filterMap_cons, hnone c hc, ih]
  · rintro rfl
    induction s with
    | nil => exact .nil
    | cons c s ih =>
      by_cases hc : c ∈ validBellNames
      · obtain ⟨i, hi⟩ := List.mem_iff_getElem?.1 hc
        rw [List.filterMap_cons, hpos i c hi]
        exact .name i c s _ hi ih
      · rw [List.filterMap_cons, hnone c hc]
        exact .other c s _ hc ih

/-- What a text says: it has exactly one list of bells.  `parse` gives the row of these bells if they are a row, and the
error that `from_vec` gives otherwise. `parse_with_stage` succeeds if and only if they are the first bells of the stage in
some order, and then adds the missing bells in order; otherwise it gives the error that `from_vec_with_stage` gives. -/
theorem C08_text (s : List Char) (stage : Stage) :
    ∃ bells, Writes s bells ∧ (∀ bells', Writes s bells' → bells' = bells) ∧
      (∀ r, Row.parse s = .ok r ↔ r.bells = bells ∧ r.Valid) ∧
      (∀ e, Row.parse s = .error e ↔ Row.fromVec bells = .error e) ∧
      (∀ r, Row.parseWithStage s stage = .ok (.ok r) ↔
        ∃ k ≤ stage.numBells, bells.Perm ((List.range k).map Bell.mk) ∧
          r.bells = bells ++ (List.range' k (stage.numBells - k)).map Bell.mk) ∧
      (∀ e, Row.parseWithStage s stage = .ok (.error e) ↔ Row.fromVecWithStage bells stage = .ok (.error e)) ∧
      (∀ p, Row.parseWithStage s stage ≠ .error p) := by
  refine ⟨s.filterMap Bell.fromName, (writes_iff _ _).2 rfl, fun b h => (writes_iff _ _).1 h,
    fun r => C06_from_vec_ok _ r, fun e => Iff.rfl, fun r => C07_with_stage_ok _ stage r, fun e => Iff.rfl, ?_⟩
  intro p h
  obtain ⟨x, hx⟩ := C07_never_panics (s.filterMap Bell.fromName) stage
  rw [Row.parseWithStage, hx] at h
  cases h

example : Writes "2-1 T?".toList [⟨1⟩, ⟨0⟩, ⟨11⟩] ∧
    Row.parseWithStage "12345".toList ⟨4⟩ = .ok (.error (.bellOutOfStage ⟨4⟩ ⟨4⟩)) := by
  rw [writes_iff]; decide

/-- The law fails from 34 bells on: rounds on 34 bells displays its last bell as `<34>`. -/
theorem C08_display_parse_false_at_34 :
    (Row.rounds ⟨34⟩).Valid ∧ Row.parse (Row.rounds ⟨34⟩).display ≠ .ok (Row.rounds ⟨34⟩) := by
  decide +kernel

/-! ## C09: named rows -/

/-- Rounds, backrounds and queens are valid rows with the documented bells. -/
theorem C09_named_rows (s : Stage) (hs : s.Valid) :
    (Row.rounds s).Valid ∧ (Row.backrounds s).Valid ∧ (Row.queens s).Valid ∧
    (Row.rounds s).bells.length = s.numBells ∧ (Row.backrounds s).bells.length = s.numBells ∧
    (Row.queens s).bells.length = s.numBells ∧
    (∀ i < s.numBells, (Row.rounds s).bells[i]? = some ⟨i⟩) ∧
    (∀ i < s.numBells, (Row.backrounds s).bells[i]? = some ⟨s.numBells - 1 - i⟩) ∧
    (∀ i < (s.numBells + 1) / 2, (Row.queens s).bells[i]? = some ⟨2 * i⟩) ∧
    (∀ i < s.numBells / 2, (Row.queens s).bells[(s.numBells + 1) / 2 + i]? = some ⟨2 * i + 1⟩) := by
  have hlen0 : (Row.stepByTwo 0 s.numBells).length = (s.numBells + 1) / 2 := by
    simp [Row.stepByTwo]
  have hlen1 : (Row.stepByTwo 1 s.numBells).length = s.numBells / 2 := by
    simp [Row.stepByTwo]; unfold Stage.Valid at hs; omega
  refine ⟨Row.rounds_valid hs, Row.backrounds_valid hs, Row.queens_valid hs, by simp [Row.rounds],
    by simp [Row.backrounds], ?_, ?_, ?_, ?_, ?_⟩
  · simp only [Row.queens, List.length_map, List.length_append, hlen0, hlen1]; omega
  · intro i hi; simp [Row.rounds, hi, Bell.fromIndex]
  · intro i hi
    simp only [Row.backrounds, List.getElem?_map]
    rw [List.getElem?_reverse (by simpa using hi), List.getElem?_eq_getElem (by simp; omega)]
    simp [Bell.fromIndex]
  · intro i hi
    simp only [Row.queens, List.getElem?_map]
    rw [List.getElem?_append_left (by omega)]
    simp [Row.stepByTwo, Bell.fromIndex, hi]
  · intro i hi
    simp only [Row.queens, List.getElem?_map]
    rw [List.getElem?_append_right (by omega), hlen0, Nat.add_sub_cancel_left]
    have : i < (s.numBells - 1 + 1) / 2 := by omega
    simp [Row.stepByTwo, Bell.fromIndex, this]; omega

example : (Stage.mk 9).Valid ∧ (Row.queens ⟨9⟩).display = "135792468".toList := by decide

/-- The tests for rounds and backrounds recognise exactly these rows. -/
theorem C09_tests (r : Row) :
    (r.isRounds = true ↔ r = Row.rounds ⟨r.bells.length⟩) ∧
    (r.isBackrounds = true ↔ r = Row.backrounds ⟨r.bells.length⟩) :=
  ⟨Row.isRounds_iff_eq r, Row.isBackrounds_iff_eq r⟩

end Bellframe.Props
