import Verif.Proofs.MethodCourse
import Verif.Props.Class
import Verif.Props.BellStage

/-! # C48, C49, C52, C61: methods -/

namespace Bellframe.Props

open Equiv

variable {n : Nat}

/-! ## C48: the plain course -/

/-- The rows of the endless plain course, for all methods with at least one row. -/
theorem C48_row_in_plain_course (hn : 0 < n) (m : Method) (lead : List (Perm (Fin n)))
    (τ : Perm (Fin n)) (annots : List (Option String)) (hm : m.firstLead = .ofPerms lead τ annots)
    (hlen : lead.length = annots.length) (hne : lead ≠ []) (k : Nat) :
    m.rowInPlainCourse k = .ok (.ofPerm (courseRow lead τ k)) ∧
    m.leadLen = lead.length ∧ m.leadHead = .ok (.ofPerm τ) ∧ m.stage = ⟨n⟩ ∧
    m.rowInPlainLead k =
      if h : k < lead.length then .ok (.ofPerm lead[k])
      else if k = lead.length then .ok (.ofPerm τ) else .error .index := by
  have hpos : 0 < lead.length := List.length_pos_of_ne_nil hne
  have hll : m.leadLen = lead.length := by
    unfold Method.leadLen
    rw [hm, hlen]
    rfl
  have hhead : m.leadHead = .ok (.ofPerm τ) := by
    unfold Method.leadHead
    rw [hm, AnnotBlock.leftover_ofPerms hn]
  have hlead : ∀ k, m.rowInPlainLead k =
      if h : k < lead.length then .ok (.ofPerm lead[k])
      else if k = lead.length then .ok (.ofPerm τ) else .error .index := by
    intro k
    unfold Method.rowInPlainLead
    rw [hm]
    have := SameStageVec.ofRows_index (RowsOf.perms hn (lead ++ [τ])) k
    refine Eq.trans this ?_
    by_cases h1 : k < lead.length
    · rw [dif_pos h1, getIdx_of_lt _ _ (by simp; omega)]
      simp [List.getElem_append_left, h1]
    · rw [dif_neg h1]
      by_cases h2 : k = lead.length
      · rw [if_pos h2, getIdx_of_lt _ _ (by simp; omega)]
        simp [h2]
      · rw [if_neg h2]
        exact getIdx_of_le (by simp; omega)
  refine ⟨?_, hll, hhead, by unfold Method.stage; rw [hm]; rfl, hlead k⟩
  unfold Method.rowInPlainCourse
  rw [hll, if_neg (by omega), hhead]
  have hmod := Nat.mod_lt k hpos
  simp only [Res.ok_bind, Res.pure_eq, Row.powU_ofPerm hn, hlead, dif_pos hmod, Row.mul_ofPerm hn]
  unfold courseRow
  rw [List.getElem?_eq_getElem hmod, Option.getD_some]

example := C48_row_in_plain_course (n := 4) (by decide)
  ⟨"", "", ⟨false, false, false, .hybrid⟩, .ofPerms [1, swap 0 1] (swap 0 1 * swap 1 2) [none, some "LE"]⟩
  _ _ _ rfl rfl (by decide) 7

/-- The plain course of a method that starts from rounds: as many leads as it takes to come round,
row `k` being row `k` of the endless plain course, with its index in its lead and the label there. -/
theorem C48_plain_course (hn : 0 < n) (m : Method) (lead : List (Perm (Fin n))) (τ : Perm (Fin n))
    (annots : List (Option String)) (hm : m.firstLead = .ofPerms lead τ annots)
    (hlen : lead.length = annots.length) (h0 : lead.head? = some 1) :
    ∃ course, m.plainCourse.Returns course ∧ course.WellFormed ∧
      course.len = orderOf τ * m.leadLen ∧ course.leftoverRow = .ok (.ofPerm (1 : Perm (Fin n))) ∧
      (∀ k < course.len, ∃ r label, m.rowInPlainCourse k = .ok r ∧
        m.getLabel (k % m.leadLen) = .ok label ∧
        course.getAnnotRow k = some (r, ⟨k % m.leadLen, label⟩)) ∧
      (∀ j, 0 < j → j < orderOf τ → ∃ r, m.rowInPlainCourse (j * m.leadLen) = .ok r ∧
        r.isRounds = false) := by
  have hne : lead ≠ [] := by rintro rfl; simp at h0
  have hpos : 0 < lead.length := List.length_pos_of_ne_nil hne
  have hane : annots ≠ [] := by rintro rfl; simp at hlen; exact hne hlen
  have hrow := C48_row_in_plain_course hn m lead τ annots hm hlen hne
  have hll := (hrow 0).2.1
  set annots' : List RowAnnot := annots.zipIdx.map (fun p => ⟨p.2, p.1⟩) with hannots'
  have hal : annots'.length = annots.length := by simp [hannots']
  have hane' : annots' ≠ [] := by
    intro h
    rw [h] at hal
    exact hane (List.length_eq_zero_iff.1 hal.symm)
  have hstart : m.firstLead.mapAnnotsWithIndex (fun i label => (⟨i, label⟩ : RowAnnot)) =
      courseBlock lead τ annots' 1 := by
    rw [courseBlock_one lead τ hane', hm]
    rfl
  have hpo := orderOf_pos τ
  have hret := plainCourseLoop_returns hn τ (lead := lead) (annots := annots') (by omega) h0
    (orderOf τ - 1) 1 (by omega) (by omega)
  have hcl : (courseBlock lead τ annots' (orderOf τ)).len = orderOf τ * lead.length := by
    show (courseAnnots annots' (orderOf τ * annots'.length)).length = _
    rw [courseAnnots_length annots' hane', hal, hlen]
  refine ⟨courseBlock lead τ annots' (orderOf τ), ?_, ?_, ?_, ?_, ?_, ?_⟩
  · unfold Method.plainCourse
    rw [hstart, hll, hlen, ← hal]
    exact hret
  · apply AnnotBlock.ofPerms_wellFormed hn
    rw [courseAnnots_length annots' hane', hal, ← hlen]
    simp [courseRows]
  · rw [hcl, hll]
  · unfold courseBlock
    rw [AnnotBlock.leftover_ofPerms hn, pow_orderOf_eq_one]
  · intro k hk
    rw [hcl] at hk
    have hmod : k % lead.length < annots.length := by
      rw [← hlen]
      exact Nat.mod_lt _ hpos
    refine ⟨_, annots[k % lead.length], (hrow k).1, ?_, ?_⟩
    · unfold Method.getLabel AnnotBlock.getAnnot
      rw [hm, hll]
      show unwrap annots[k % lead.length]? = _
      rw [List.getElem?_eq_getElem hmod]
      rfl
    · unfold AnnotBlock.getAnnotRow
      have h1 : (courseBlock lead τ annots' (orderOf τ)).getRow k =
          some (.ofPerm (courseRow lead τ k)) := by
        unfold courseBlock
        rw [AnnotBlock.getRow_ofPerms hn, List.getElem?_append_left (by simpa [courseRows] using hk)]
        simp [courseRows, hk]
      have h2 : (courseBlock lead τ annots' (orderOf τ)).getAnnot k =
          some ⟨k % lead.length, annots[k % lead.length]⟩ := by
        show (courseAnnots annots' (orderOf τ * annots'.length))[k]? = _
        rw [courseAnnots_getElem? annots' hane' _ _ (by rw [hal, ← hlen]; exact hk), hal, ← hlen,
          hannots', List.getElem?_map, List.getElem?_zipIdx, List.getElem?_eq_getElem hmod]
        simp
      rw [h1, h2, hll]
  · intro j hj1 hj2
    refine ⟨_, (hrow _).1, ?_⟩
    rw [hll, courseRow_mul τ h0, ← Bool.not_eq_true, Row.ofPerm_isRounds]
    exact pow_ne_one_of_lt_orderOf (by omega) hj2

example := C48_plain_course (n := 4) (by decide)
  ⟨"", "", ⟨false, false, false, .hybrid⟩, .ofPerms [1, swap 0 1] (swap 0 1 * swap 1 2) [none, some "LE"]⟩
  _ _ _ rfl rfl rfl

/-- `plain_course` of any method whose lead is well formed, whether or not it starts from rounds: it
ends if and only if rounds is reached by adding leads, and otherwise goes on for ever. -/
theorem C48_plain_course_ends (hn : 0 < n) (m : Method) (lead : List (Perm (Fin n)))
    (τ : Perm (Fin n)) (annots : List (Option String)) (hm : m.firstLead = .ofPerms lead τ annots)
    (hlen : lead.length = annots.length) :
    ((∃ j, τ * ((lead.head?.getD τ)⁻¹ * τ) ^ j = 1) → ∃ course, m.plainCourse.Returns course) ∧
    ((∀ j, τ * ((lead.head?.getD τ)⁻¹ * τ) ^ j ≠ 1) → m.plainCourse.Diverges) := by
  have hll : m.leadLen = lead.length := by
    unfold Method.leadLen
    rw [hm, hlen]
    rfl
  have hst : CourseState lead τ lead.length 0
      (m.firstLead.mapAnnotsWithIndex (fun i label => (⟨i, label⟩ : RowAnnot))) := by
    refine ⟨lead, τ, annots.zipIdx.map (fun p => ⟨p.2, p.1⟩), ?_, by simp [hlen], List.prefix_refl _,
      by simp [hlen], by simp⟩
    rw [hm]
    rfl
  unfold Method.plainCourse
  rw [hll]
  constructor
  · rintro ⟨j, hj⟩
    exact plainCourseLoop_ends hn j 0 _ hst (by rw [Nat.zero_add]; exact hj)
  · intro hno
    exact plainCourseLoop_diverges hn hno _ 0 hst

example := C48_plain_course_ends (n := 4) (by decide)
  ⟨"", "", ⟨false, false, false, .hybrid⟩, .ofPerms [1, swap 0 1] (swap 0 1 * swap 1 2) [none, some "LE"]⟩
  _ _ _ rfl rfl

/-- Some methods have no plain course: those without rows whose lead head is not rounds, and some of
those that do not start from rounds. -/
theorem C48_diverges_witness :
    (∀ m : Method, m.firstLead = .ofPerms [] (swap 0 1 : Perm (Fin 3)) [] → m.plainCourse.Diverges) ∧
    (∀ m : Method, m.firstLead = .ofPerms [swap 0 1] (swap 0 1 : Perm (Fin 3)) [none] →
      m.plainCourse.Diverges) := by
  constructor
  · intro m hm
    refine (C48_plain_course_ends (by omega) m _ _ _ hm rfl).2 ?_
    intro j
    simp
  · intro m hm
    refine (C48_plain_course_ends (by omega) m _ _ _ hm rfl).2 ?_
    intro j
    simp

/-- A method without rows has no rows in its plain course either: asking for one panics. -/
theorem C48_empty_lead (m : Method) (h : m.leadLen = 0) (k : Nat) :
    m.rowInPlainCourse k = .error .divByZero := by
  unfold Method.rowInPlainCourse
  rw [if_pos h]
  rfl

/-- The hypotheses of the theorems above for a lead with a lead head of order 3. -/
example : ∃ (m : Method) (lead : List (Perm (Fin 4))) (τ : Perm (Fin 4)) (annots : List (Option String)),
    m.firstLead = .ofPerms lead τ annots ∧ lead.length = annots.length ∧ lead.head? = some 1 ∧
    τ ≠ 1 ∧ τ ^ 3 = 1 :=
  ⟨⟨"", "", ⟨false, false, false, .hybrid⟩, .ofPerms [1, swap 0 1] (swap 0 1 * swap 1 2) [none, some "LE"]⟩,
    _, _, _, rfl, rfl, rfl, by decide, by decide⟩

/-! ## C49: labels -/

/-- Setting one label. -/
theorem C49_set_label (m : Method) (i : Nat) (label : Option String) :
    if i < m.leadLen then ∃ m', m.setLabel i label = .ok m' ∧ m'.leadLen = m.leadLen ∧
      m'.title = m.title ∧ m'.name = m.name ∧ m'.cls = m.cls ∧
      m'.firstLead.rows = m.firstLead.rows ∧
      ∀ j, m'.getLabel j = if j = i then .ok label else m.getLabel j
    else m.setLabel i label = .error .unwrap ∧ m.getLabel i = .error .unwrap := by
  unfold Method.setLabel AnnotBlock.setAnnot Method.leadLen AnnotBlock.len
  split
  · next h =>
    refine ⟨_, rfl, by simp, rfl, rfl, rfl, rfl, ?_⟩
    intro j
    unfold Method.getLabel AnnotBlock.getAnnot
    simp only
    by_cases hj : j = i
    · subst hj
      rw [if_pos rfl, List.getElem?_set_self h]
      rfl
    · rw [if_neg hj, List.getElem?_set_ne (Ne.symm hj)]
  · next h =>
    refine ⟨rfl, ?_⟩
    unfold Method.getLabel AnnotBlock.getAnnot
    rw [List.getElem?_eq_none (by omega)]
    rfl

/-- Any sequence of label changes within the lead: each index has the label last set there. -/
theorem C49_history (changes : List (Nat × Option String)) (m : Method)
    (h : ∀ c ∈ changes, c.1 < m.leadLen) :
    ∃ m', changes.foldlM (fun m c => m.setLabel c.1 c.2) m = .ok m' ∧ m'.leadLen = m.leadLen ∧
      m'.firstLead.rows = m.firstLead.rows ∧
      ∀ i before, m.getLabel i = .ok before → m'.getLabel i = .ok (labelAfter before changes i) := by
  induction changes generalizing m with
  | nil => exact ⟨m, rfl, rfl, rfl, fun i before hb => by rw [hb]; rfl⟩
  | cons c cs ih =>
    have hc := C49_set_label m c.1 c.2
    rw [if_pos (h c (by simp))] at hc
    obtain ⟨m1, h1, h2, -, -, -, h3, h4⟩ := hc
    obtain ⟨m2, h5, h6, h7, h8⟩ := ih m1 (fun c hc => by rw [h2]; exact h c (by simp [hc]))
    refine ⟨m2, ?_, h6.trans h2, h7.trans h3, ?_⟩
    · rw [List.foldlM_cons, h1]
      exact h5
    · intro i before hb
      rw [h8 i (if c.1 = i then c.2 else before)]
      · unfold labelAfter
        by_cases hi : c.1 = i
        · rw [if_pos hi, List.filter_cons_of_pos (by simpa using hi)]
          cases hf : (cs.filter fun c => c.1 == i).getLast? with
          | none =>
            rw [List.getLast?_eq_none_iff] at hf
            simp [hf]
          | some x => simp [List.getLast?_cons, hf]
        · rw [if_neg hi, List.filter_cons_of_neg (by simpa using hi)]
      · rw [h4]
        by_cases hi : c.1 = i
        · rw [if_pos hi, if_pos hi.symm]
        · rw [if_neg hi, if_neg (Ne.symm hi)]
          exact hb

example := C49_history [(1, some "LE"), (0, none), (1, none)]
  ⟨"", "", ⟨false, false, false, .hybrid⟩, .ofPerms (n := 4) [1, swap 0 1] (swap 0 1 * swap 1 2) [none, some "LE"]⟩
  (by decide)

/-- `label_indices` lists the indices with a label, in ascending order. -/
theorem C49_label_indices (m : Method) (label : String) :
    (m.labelIndices label).Pairwise (· < ·) ∧
    ∀ i, i ∈ m.labelIndices label ↔ m.getLabel i = .ok (some label) := by
  unfold Method.labelIndices
  constructor
  · rw [List.pairwise_map]
    apply List.Pairwise.filter
    rw [List.pairwise_iff_getElem]
    intro i j hi hj hij
    simpa using hij
  · intro i
    unfold Method.getLabel AnnotBlock.getAnnot
    simp only [List.mem_map, List.mem_filter, List.mem_zipIdx_iff_getElem?, beq_iff_eq, Prod.exists,
      exists_eq_right]
    cases h : m.firstLead.annots[i]? with
    | none => simp [unwrap]
    | some l =>
      simp only [unwrap_some, Except.ok.injEq]
      constructor
      · intro h
        exact Option.some.inj h
      · intro h
        rw [h]

/-- `set_lead_end_label` labels the first row of the lead and changes nothing else; it panics for a method
without rows. -/
theorem C49_set_lead_end_label (m : Method) :
    if 0 < m.leadLen then ∃ m', m.setLeadEndLabel = .ok m' ∧ m'.leadLen = m.leadLen ∧
      m'.title = m.title ∧ m'.name = m.name ∧ m'.cls = m.cls ∧
      m'.firstLead.rows = m.firstLead.rows ∧
      ∀ j, m'.getLabel j = if j = 0 then .ok (some "LE") else m.getLabel j
    else m.setLeadEndLabel = .error .unwrap := by
  have h := C49_set_label m 0 (some "LE")
  have he : m.setLeadEndLabel = m.setLabel 0 (some "LE") := rfl
  rw [he]
  split at h
  · rwa [if_pos ‹_›]
  · rw [if_neg ‹_›]
    exact h.1

/-! ## C52: names and titles -/

/-- The full name of a class. -/
theorem C52_class_name (c : FullClass) : c.display = joinSpaces (classWords c) := by
  rcases c with ⟨a, b, d, k⟩
  cases a <;> cases b <;> cases d <;> cases k <;> decide +kernel

/-- Different classes have different names. -/
theorem C52_class_name_injective (c c' : FullClass) (h : c.display = c'.display) : c = c' := by
  have key : ∀ a b d a' b' d' : Bool, ∀ k k' : MethodClass,
      (⟨a, b, d, k⟩ : FullClass).display = (⟨a', b', d', k'⟩ : FullClass).display →
      (⟨a, b, d, k⟩ : FullClass) = ⟨a', b', d', k'⟩ := by
    intro a b d a' b' d' k k'
    revert a b d a' b' d'
    cases k <;> cases k' <;> decide +kernel
  exact key _ _ _ _ _ _ _ _ h

theorem fmtName_title (c : FullClass) : c.fmtName true = joinSpaces (titleWords c) := by
  rcases c with ⟨a, b, d, k⟩
  cases a <;> cases b <;> cases d <;> cases k <;> decide +kernel

theorem joinSpaces_title_empty (c : FullClass) :
    (titleWords c = [] ∧ c.fmtName true = "") ∨ (titleWords c ≠ [] ∧ 0 < (c.fmtName true).utf8ByteSize) := by
  rcases c with ⟨a, b, d, k⟩
  cases a <;> cases b <;> cases d <;> cases k <;> decide +kernel

theorem joinSpaces_append (ws : List String) (w : String) (h : ws ≠ []) :
    joinSpaces (ws ++ [w]) = joinSpaces ws ++ (" " ++ w) := by
  induction ws with
  | nil => exact absurd rfl h
  | cons a ws ih =>
    cases ws with
    | nil => rfl
    | cons b ws =>
      have := ih (by simp)
      simp only [List.cons_append, joinSpaces] at this ⊢
      rw [this, String.append_assoc, String.append_assoc]

/-- The title: the name (unless it is empty), the words for the class and the name of the stage, with
single spaces between them. Stages without a name have no titles. -/
theorem C52_title (name : String) (c : FullClass) (stage : Stage) :
    generateTitle name c stage =
      match stage.name with
      | some stageName => .ok (joinSpaces ((if name = "" then [] else [name]) ++ titleWords c ++ [stageName]))
      | none => .error .unwrap := by
  unfold generateTitle
  cases hst : stage.name with
  | none => simp [unwrap]
  | some sn =>
    simp only [unwrap_some, Res.ok_bind, Res.pure_eq, Except.ok.injEq, String.empty_append]
    have hemp : (!name.isEmpty) = true ↔ name ≠ "" := by
      simp [String.isEmpty_iff]
    have hcls := joinSpaces_title_empty c
    have hname : (if (!name.isEmpty) = true then name ++ " " else name) =
        if name = "" then "" else name ++ " " := by
      by_cases h : name = ""
      · subst h; rfl
      · rw [if_pos (hemp.2 h), if_neg h]
    rw [hname]
    rcases hcls with ⟨h1, h2⟩ | ⟨h1, h2⟩
    · rw [h2, h1, if_neg (by simp)]
      by_cases h : name = ""
      · simp [h, joinSpaces]
      · simp [h, joinSpaces, String.append_assoc]
    · rw [if_pos (by rw [String.utf8ByteSize_append]; omega), fmtName_title]
      by_cases h : name = ""
      · simp only [h, if_true, List.nil_append, String.empty_append]
        rw [joinSpaces_append _ _ h1, String.append_assoc]
      · simp only [h, if_false]
        rw [joinSpaces_append _ _ (by simp)]
        obtain ⟨w, ws, hw⟩ : ∃ w ws, titleWords c = w :: ws := by
          cases hc : titleWords c with
          | nil => exact absurd hc h1
          | cons w ws => exact ⟨w, ws, rfl⟩
        rw [hw]
        simp only [List.singleton_append, joinSpaces, String.append_assoc]

/-- All stages up to 22 bells have titles. -/
theorem C52_title_exists (name : String) (c : FullClass) (stage : Stage)
    (h : 1 ≤ stage.numBells ∧ stage.numBells ≤ 22) : ∃ t, generateTitle name c stage = .ok t := by
  obtain ⟨sn, hsn⟩ := (C03_named_stages stage).2 h
  rw [C52_title, hsn]
  exact ⟨_, rfl⟩

example := C52_title_exists "Plain" ⟨false, false, false, .bob⟩ ⟨6⟩ (by decide)

/-- From 23 bells on, there is no title: making one panics. -/
theorem C52_title_panics (name : String) (c : FullClass) (stage : Stage) (h : 22 < stage.numBells) :
    generateTitle name c stage = .error .unwrap := by
  rw [C52_title]
  cases hst : stage.name with
  | none => rfl
  | some sn =>
    have := (C03_named_stages stage).1 ⟨sn, hst⟩
    omega

example := C52_title_panics "Plain" ⟨false, false, false, .bob⟩ ⟨24⟩ (by decide)

/-! Spaces -/

theorem wellSpaced_join {a b : String} (ha : WellSpaced a) (hb : WellSpaced b) (ha' : a ≠ "")
    (hb' : b ≠ "") : WellSpaced (a ++ (" " ++ b)) := by
  have hal : a.toList ≠ [] := fun h => ha' (String.toList_eq_nil_iff.1 h)
  have hbl : b.toList ≠ [] := fun h => hb' (String.toList_eq_nil_iff.1 h)
  obtain ⟨ha1, ha2, ha3⟩ := ha
  obtain ⟨hb1, hb2, hb3⟩ := hb
  have hl : (a ++ (" " ++ b)).toList = a.toList ++ ' ' :: b.toList := by
    simp
  unfold WellSpaced
  rw [hl]
  refine ⟨?_, ?_, ?_⟩
  · cases h : a.toList with
    | nil => exact absurd h hal
    | cons x xs =>
      rw [h] at ha1
      simpa using ha1
  · rw [List.getLast?_append]
    cases h : b.toList with
    | nil => exact absurd h hbl
    | cons x xs =>
      rw [h] at hb2
      rw [List.getLast?_cons_cons]
      rw [List.getLast?_cons] at hb2 ⊢
      simpa using hb2
  · rintro ⟨p, q, hpq⟩
    have hpq' : p ++ ' ' :: ' ' :: q = a.toList ++ ' ' :: b.toList := by simpa using hpq
    rcases List.append_eq_append_iff.1 hpq' with ⟨r, h1, h2⟩ | ⟨r, h1, h2⟩
    · -- `a` reaches beyond `p`
      cases r with
      | nil =>
        simp only [List.nil_append, List.cons.injEq, true_and] at h2
        rw [← h2] at hb1
        simp at hb1
      | cons x r =>
        simp only [List.cons_append, List.cons.injEq] at h2
        obtain ⟨rfl, h2⟩ := h2
        cases r with
        | nil =>
          apply ha2
          rw [h1]
          simp
        | cons y r =>
          simp only [List.cons_append, List.cons.injEq] at h2
          obtain ⟨rfl, h2⟩ := h2
          exact ha3 ⟨p, r, by rw [h1]; simp⟩
    · cases r with
      | nil =>
        simp only [List.nil_append, List.cons.injEq, true_and] at h2
        rw [h2] at hb1
        simp at hb1
      | cons x r =>
        simp only [List.cons_append, List.cons.injEq] at h2
        obtain ⟨rfl, h2⟩ := h2
        exact hb3 ⟨r, q, by rw [h2]; simp⟩

theorem joinSpaces_ne_empty {ws : List String} (h : ws ≠ []) (hw : ∀ w ∈ ws, w ≠ "") :
    joinSpaces ws ≠ "" := by
  cases ws with
  | nil => exact absurd rfl h
  | cons a ws =>
    cases ws with
    | nil => exact hw a (by simp)
    | cons b ws =>
      intro he
      have := congrArg String.toList he
      simp [joinSpaces] at this

theorem wellSpaced_joinSpaces {ws : List String} (h : ∀ w ∈ ws, WellSpaced w ∧ w ≠ "") :
    WellSpaced (joinSpaces ws) := by
  induction ws with
  | nil => exact ⟨by simp [joinSpaces], by simp [joinSpaces], by simp [joinSpaces]⟩
  | cons a ws ih =>
    cases ws with
    | nil => exact (h a (by simp)).1
    | cons b ws =>
      exact wellSpaced_join (h a (by simp)).1 (ih fun w hw => h w (by simp [hw])) (h a (by simp)).2
        (joinSpaces_ne_empty (by simp) fun w hw => (h w (by simp [hw])).2)

instance (s : String) : Decidable (WellSpaced s) := by
  unfold WellSpaced
  infer_instance

/-- Unless the name has misplaced spaces, the title has none. -/
theorem C52_spaces (name : String) (hname : WellSpaced name) (c : FullClass) (stage : Stage)
    (t : String) (ht : generateTitle name c stage = .ok t) : WellSpaced t := by
  rw [C52_title] at ht
  cases hst : stage.name with
  | none => rw [hst] at ht; cases ht
  | some sn =>
    rw [hst] at ht
    cases ht
    apply wellSpaced_joinSpaces
    intro w hw
    simp only [List.mem_append, List.mem_singleton] at hw
    rcases hw with (hw | hw) | rfl
    · by_cases h : name = ""
      · simp [h] at hw
      · simp [h] at hw
        rw [hw]
        exact ⟨hname, h⟩
    · have key : ∀ a b d : Bool, ∀ k : MethodClass, ∀ w ∈ titleWords ⟨a, b, d, k⟩, WellSpaced w ∧ w ≠ "" := by
        intro a b d k
        cases a <;> cases b <;> cases d <;> cases k <;> decide +kernel
      exact key _ _ _ _ w hw
    · obtain ⟨k⟩ := stage
      have hk := (C03_named_stages ⟨k⟩).1 ⟨w, hst⟩
      simp only at hk
      have key : ∀ k : Fin 23, ∀ w, Stage.name ⟨k.val⟩ = some w → WellSpaced w ∧ w ≠ "" := by
        intro k w hw
        have : ∀ k : Fin 23, (Stage.name ⟨k.val⟩).all (fun w => decide (WellSpaced w ∧ w ≠ "")) = true := by
          decide +kernel
        have := this k
        rw [hw] at this
        simpa using this
      exact key ⟨k, by omega⟩ w hst

/-- Two methods with the same name and stage have the same title if and only if their classes have
the same words for titles. In particular, a principle and a hybrid with the same name have the same
title. -/
theorem C52_same_title (name : String) (c c' : FullClass) (stage : Stage)
    (h : 1 ≤ stage.numBells ∧ stage.numBells ≤ 22) :
    (generateTitle name c stage = generateTitle name c' stage ↔ titleWords c = titleWords c') ∧
    generateTitle name ⟨false, false, false, .principle⟩ stage =
      generateTitle name ⟨false, true, false, .hybrid⟩ stage := by
  obtain ⟨sn, hsn⟩ := (C03_named_stages stage).2 h
  simp only [C52_title, hsn, Except.ok.injEq]
  refine ⟨⟨?_, fun h => by rw [h]⟩, rfl⟩
  have hpre : ∀ ws : List String, joinSpaces ((if name = "" then [] else [name]) ++ ws ++ [sn]) =
      (if name = "" then "" else name ++ " ") ++ joinSpaces (ws ++ [sn]) := by
    intro ws
    by_cases h : name = ""
    · simp [h]
    · simp only [h, if_false, List.append_assoc, List.singleton_append]
      cases ws <;> simp [joinSpaces, String.append_assoc]
  have hpost : ∀ ws : List String, joinSpaces (ws ++ [sn]) =
      (if ws = [] then "" else joinSpaces ws ++ " ") ++ sn := by
    intro ws
    by_cases h : ws = []
    · simp [h, joinSpaces]
    · rw [joinSpaces_append _ _ h, if_neg h, String.append_assoc]
  intro he
  rw [hpre, hpre, hpost, hpost] at he
  have he' := congrArg String.toList he
  simp only [String.toList_append] at he'
  have he2 := List.append_cancel_right (List.append_cancel_left he')
  rw [String.toList_inj] at he2
  have key : ∀ a b d a' b' d' : Bool, ∀ k k' : MethodClass,
      (if titleWords ⟨a, b, d, k⟩ = [] then "" else joinSpaces (titleWords ⟨a, b, d, k⟩) ++ " ") =
      (if titleWords ⟨a', b', d', k'⟩ = [] then "" else joinSpaces (titleWords ⟨a', b', d', k'⟩) ++ " ") →
      titleWords ⟨a, b, d, k⟩ = titleWords ⟨a', b', d', k'⟩ := by
    intro a b d a' b' d' k k'
    revert a b d a' b' d'
    cases k <;> cases k' <;> decide +kernel
  exact key _ _ _ _ _ _ _ _ he2

example : generateTitle "Plain" ⟨false, false, false, .bob⟩ ⟨6⟩ = .ok "Plain Bob Minor" ∧
    generateTitle "Stedman" ⟨false, false, false, .principle⟩ ⟨7⟩ = .ok "Stedman Triples" ∧
    generateTitle "" ⟨false, true, true, .alliance⟩ ⟨8⟩ = .ok "Differential Little Alliance Major" ∧
    generateTitle "" ⟨false, true, false, .hybrid⟩ ⟨8⟩ = .ok "Major" := by decide +kernel

/-! ## C61: methods from place notation -/

/-- The method made from the place notation with the changes `τs`. -/
def MethodFrom (name : String) (τs : List (Perm (Fin n))) (annots : List (Option String)) (m : Method) :
    Prop :=
  ∃ lead τ, Follows 1 τs (lead ++ [τ]) ∧ m.firstLead = .ofPerms lead τ annots ∧
    annots.length = τs.length ∧ m.name = name ∧ m.cls.isJump = false ∧
    (m.cls.isDifferential = true ↔ IsDifferential τ) ∧ (m.cls.isLittle = true ↔ IsLittle lead τ) ∧
    ClassIs lead τ m.cls.cls ∧ generateTitle name m.cls ⟨n⟩ = .ok m.title

theorem withName_place_notation (hn : 0 < n) (name : String) (τs : List (Perm (Fin n))) (hne : τs ≠ [])
    (hc : ∀ τ ∈ τs, IsChange τ) (lead : List (Perm (Fin n))) (τ : Perm (Fin n))
    (hf : Follows 1 τs (lead ++ [τ])) (annots : List (Option String))
    (hal : annots.length = τs.length) :
    (n ≤ 22 → ∃ m, (Method.withName name (.ofPerms lead τ annots)).Returns m ∧
      MethodFrom name τs annots m ∧ m.firstLead = .ofPerms lead τ annots) ∧
    (22 < n → (Method.withName name (.ofPerms lead τ annots)).Panics .unwrap) := by
  obtain ⟨h3, h4⟩ := follows_start hne hf
  obtain ⟨c, h5, h6, h7, h8, h9⟩ := C51_classify hn lead τ annots h3 (by omega)
    (crossesClear_of_noJumps (noJumps_of_follows hne hc hf))
  have hst : (AnnotBlock.ofPerms lead τ annots).stage = ⟨n⟩ := rfl
  constructor
  · intro h22
    obtain ⟨t, ht⟩ := C52_title_exists name c ⟨n⟩ ⟨hn, h22⟩
    refine ⟨⟨t, name, c, .ofPerms lead τ annots⟩, ?_, ⟨lead, τ, hf, rfl, hal, rfl, h6, h7, h8, h9, ht⟩, rfl⟩
    unfold Method.withName
    rw [Run.returns_bind h5, hst, ht]
    simp
  · intro h22
    unfold Method.withName
    rw [Run.returns_bind h5, hst, C52_title_panics name c ⟨n⟩ h22]
    rfl

/-- `from_place_not_string`: the text is rejected with the error of `PnBlock::parse`, or the method
has the rows given by the changes, the class of these rows, the standard title and no labels; for
stages without a name it panics. -/
theorem C61_from_place_not_string (name : String) (text : List Char) (stage : Stage)
    (hs : 0 < stage.numBells) :
    (∃ e, PnBlock.parse text stage = .ok (.error e) ∧
      (Method.fromPlaceNotString name stage text).Returns (.error e)) ∨
    (∃ τs : List (Perm (Fin stage.numBells)), τs ≠ [] ∧ (∀ τ ∈ τs, IsChange τ) ∧
      PnBlock.parse text stage = .ok (.ok ⟨τs.map PlaceNot.ofChange⟩) ∧
      (stage.numBells ≤ 22 → ∃ m, (Method.fromPlaceNotString name stage text).Returns (.ok m) ∧
        MethodFrom name τs (List.replicate τs.length none) m) ∧
      (22 < stage.numBells → (Method.fromPlaceNotString name stage text).Panics .unwrap)) := by
  obtain ⟨r, hr⟩ := C34_total text stage
  unfold Method.fromPlaceNotString
  simp only [hr, Run.lift_eq, Run.ofRes_ok_bind]
  cases r with
  | error e => exact .inl ⟨e, rfl, rfl⟩
  | ok pn =>
    right
    obtain ⟨h1, h2⟩ := C34_well_formed text stage hs pn hr
    obtain ⟨-, k, hk, τs, hc, hpn⟩ := (C36_well_formed [] (by simp) text stage hs pn).2 hr
    have hne : τs ≠ [] := by
      rintro rfl
      exact h1 (by simpa using hpn)
    obtain ⟨k'⟩ := stage
    have hkk : k = k' := by
      obtain ⟨τ, hτ⟩ := List.exists_mem_of_ne_nil τs hne
      have := (h2 (PlaceNot.ofChange τ) (by rw [hpn]; exact List.mem_map.2 ⟨τ, hτ, rfl⟩)).2
      simpa [PlaceNot.ofChange] using this
    subst hkk
    obtain rfl : pn = ⟨τs.map PlaceNot.ofChange⟩ := by cases pn; simpa using hpn
    refine ⟨τs, hne, hc, rfl, ?_⟩
    obtain ⟨-, -, ⟨lead, τ, h5, h6⟩, -⟩ := C36_rows (none : Option String) hk 1 τs hne hc
    simp only [h6, Run.ofRes_ok_bind]
    obtain ⟨h7, h8⟩ := withName_place_notation hk name τs hne hc lead τ h5
      (List.replicate τs.length none) (by simp)
    constructor
    · intro h22
      obtain ⟨m, h9, h10, -⟩ := h7 h22
      refine ⟨m, ?_, h10⟩
      rw [Run.returns_bind h9]
      rfl
    · intro h22
      have := h8 h22
      unfold Run.Panics at this ⊢
      rw [this]
      rfl

/-- Both cases happen: the text of Plain Bob Minimus makes a method of that title, a wrong text does
not. -/
example : (∃ m, (Method.fromPlaceNotString "Plain" ⟨4⟩ ['x', '1', '4', 'x', '1', '4', ',', '1', '2']).Returns
      (.ok m) ∧ m.name = "Plain" ∧ m.leadLen = 8) ∧
    ∃ e, (Method.fromPlaceNotString "Wrong" ⟨4⟩ ['1', '2', '3', '9']).Returns (.error e) := by
  constructor
  · have hp : PnBlock.parse ['x', '1', '4', 'x', '1', '4', ',', '1', '2'] ⟨4⟩ = .ok (.ok ⟨[⟨[], ⟨4⟩⟩,
      ⟨[0, 3], ⟨4⟩⟩, ⟨[], ⟨4⟩⟩, ⟨[0, 3], ⟨4⟩⟩, ⟨[], ⟨4⟩⟩, ⟨[0, 3], ⟨4⟩⟩, ⟨[], ⟨4⟩⟩, ⟨[0, 1], ⟨4⟩⟩]⟩) := by
      decide +kernel
    rcases C61_from_place_not_string "Plain" ['x', '1', '4', 'x', '1', '4', ',', '1', '2'] ⟨4⟩ (by decide)
      with ⟨e, h1, -⟩ | ⟨τs, -, -, h1, h2, -⟩
    · rw [hp] at h1
      simp at h1
    · obtain ⟨m, h3, lead, τ, -, h5, h6, h7, -⟩ := h2 (by decide)
      refine ⟨m, h3, h7, ?_⟩
      rw [hp] at h1
      have := congrArg List.length (PnBlock.mk.inj (Except.ok.inj (Except.ok.inj h1)))
      simp only [List.length_map, List.length_cons, List.length_nil] at this
      rw [Method.leadLen, AnnotBlock.len, h5]
      simp [AnnotBlock.ofPerms, ← this]
  · rcases C61_from_place_not_string "Wrong" ['1', '2', '3', '9'] ⟨4⟩ (by decide)
      with ⟨e, -, h⟩ | ⟨τs, -, -, h1, -⟩
    · exact ⟨e, h⟩
    · have : PnBlock.parse ['1', '2', '3', '9'] ⟨4⟩ ≠ .ok (.ok ⟨τs.map PlaceNot.ofChange⟩) := by
        have hq : (match PnBlock.parse ['1', '2', '3', '9'] ⟨4⟩ with
          | .ok (.ok _) => true
          | _ => false) = false := by decide +kernel
        intro h
        rw [h] at hq
        simp at hq
      exact absurd h1 this

/-- `with_lead_end`: the same, with the label `LE` at the last row of the lead (whereas
`set_lead_end_label` labels the first one). -/
theorem C49_with_lead_end (name : String) (hn : 0 < n) (τs : List (Perm (Fin n))) (hne : τs ≠ [])
    (hc : ∀ τ ∈ τs, IsChange τ) :
    (n ≤ 22 → ∃ m, (Method.withLeadEnd name ⟨τs.map PlaceNot.ofChange⟩).Returns m ∧
      MethodFrom name τs (List.replicate (τs.length - 1) none ++ [some "LE"]) m ∧
      m.labelIndices "LE" = [m.leadLen - 1]) ∧
    (22 < n → (Method.withLeadEnd name ⟨τs.map PlaceNot.ofChange⟩).Panics .unwrap) := by
  have hpos : 0 < τs.length := List.length_pos_of_ne_nil hne
  obtain ⟨-, -, ⟨lead, τ, h5, h6⟩, -⟩ := C36_rows (none : Option String) hn 1 τs hne hc
  have hset : (List.replicate τs.length (none : Option String)).set (τs.length - 1) (some "LE") =
      List.replicate (τs.length - 1) none ++ [some "LE"] := by
    obtain ⟨k, hk⟩ : ∃ k, τs.length = k + 1 := ⟨τs.length - 1, by omega⟩
    rw [hk, Nat.add_sub_cancel, List.replicate_succ']
    rw [List.set_append_right _ _ (by simp)]
    simp
  unfold Method.withLeadEnd
  have hlen : (AnnotBlock.ofPerms lead τ (List.replicate τs.length (none : Option String))).len = τs.length := by
    simp [AnnotBlock.len, AnnotBlock.ofPerms]
  have hsub : checkedSub τs.length 1 = .ok (τs.length - 1) := by
    unfold checkedSub
    rw [if_pos (by omega)]
  have hann : AnnotBlock.setAnnot (AnnotBlock.ofPerms lead τ (List.replicate τs.length (none : Option String)))
      (τs.length - 1) (some labelLeadEnd) =
      some (.ofPerms lead τ (List.replicate (τs.length - 1) none ++ [some "LE"])) := by
    unfold AnnotBlock.setAnnot
    rw [if_pos (by simp [AnnotBlock.ofPerms]; omega)]
    simp only [AnnotBlock.ofPerms, labelLeadEnd, hset]
  simp only [h6, Run.lift_eq, Run.ofRes_ok_bind, hlen, hsub, hann, unwrap_some]
  obtain ⟨h7, h8⟩ := withName_place_notation hn name τs hne hc lead τ h5
    (List.replicate (τs.length - 1) none ++ [some "LE"]) (by simp; omega)
  refine ⟨?_, h8⟩
  intro h22
  obtain ⟨m, h9, h10, h11⟩ := h7 h22
  refine ⟨m, h9, h10, ?_⟩
  unfold Method.labelIndices Method.leadLen AnnotBlock.len
  rw [h11]
  simp only [AnnotBlock.ofPerms, List.zipIdx_append, List.filter_append, List.map_append,
    List.length_append, List.length_replicate, List.length_singleton]
  have : ((List.replicate (τs.length - 1) (none : Option String)).zipIdx 0).filter
      (fun p => p.1 == some "LE") = [] := by
    rw [List.filter_eq_nil_iff]
    intro p hp
    have := List.fst_mem_of_mem_zipIdx hp
    rw [List.mem_replicate] at this
    rw [this.2]
    simp
  rw [this]
  simp

example := C49_with_lead_end (n := 4) "Plain" (by decide) [swap 0 1 * swap 2 3, swap 1 2] (by decide) (by decide)

end Bellframe.Props
