import Verif.Model.Text
import Verif.Proofs.Errors
import Verif.Proofs.Block

/-! # Lemmas on texts -/

namespace Bellframe

/-- Names of bells use no other characters than these. -/
theorem Bell.not_mem_name (b : Bell) (c : Char) (h1 : c ∉ Bell.bellNames) (h2 : c ≠ '<') (h3 : c ≠ '>')
    (h4 : c.isDigit = false) : c ∉ b.name := by
  rcases Props.C01_name_cases b with ⟨-, d, hd, hn⟩ | ⟨-, -, h⟩
  · rw [hn]
    have hm : d ∈ Bell.bellNames := List.mem_of_getElem? hd
    intro hq
    rw [List.mem_singleton] at hq
    subst hq
    exact h1 hm
  · rw [h]
    simp only [List.mem_append, List.mem_singleton, not_or]
    exact ⟨⟨h2, not_mem_decimal _ _ h4⟩, h3⟩

theorem Bell.name_first (b : Bell) : ∃ c x, b.name = c :: x ∧ (c ∈ Bell.bellNames ∧ x = [] ∨ c = '<') := by
  rcases Props.C01_name_cases b with ⟨-, d, hd, hn⟩ | ⟨-, -, h⟩
  · exact ⟨d, [], hn, .inl ⟨List.mem_of_getElem? hd, rfl⟩⟩
  · exact ⟨'<', _, h, .inr rfl⟩

/-- Names of bells are a prefix code. -/
theorem Bell.name_append_inj (a b : Bell) (x y : List Char) (h : a.name ++ x = b.name ++ y) :
    a = b ∧ x = y := by
  have hlt : '<' ∉ Bell.bellNames := by decide
  have key : a.name = b.name ∧ x = y := by
    rcases Props.C01_name_cases a with ⟨-, c, h1, h2⟩ | ⟨-, -, h2⟩ <;>
    rcases Props.C01_name_cases b with ⟨-, d, h3, h4⟩ | ⟨-, -, h4⟩ <;> rw [h2, h4] at h
    · simp only [List.cons_append, List.nil_append, List.cons.injEq] at h
      rw [h2, h4, h.1]
      exact ⟨rfl, h.2⟩
    · simp only [List.cons_append, List.nil_append, List.cons.injEq] at h
      exact absurd (h.1 ▸ List.mem_of_getElem? h1) hlt
    · simp only [List.cons_append, List.nil_append, List.cons.injEq] at h
      exact absurd (h.1 ▸ List.mem_of_getElem? h3) hlt
    · simp only [List.cons_append, List.nil_append, List.append_assoc, List.cons.injEq,
        true_and] at h
      obtain ⟨h5, h6⟩ := append_cons_inj '>' (not_mem_decimal _ _ (by decide))
        (not_mem_decimal _ _ (by decide)) h
      rw [h2, h4, show Nat.toDigits 10 (a.index + 1) = _ from h5]
      exact ⟨rfl, h6⟩
  exact ⟨a.name_inj b key.1, key.2⟩

/-- Texts made of the words of a prefix code are determined. -/
theorem flatMap_inj_of_prefix {α : Type} (f : α → List Char) (hne : ∀ a, f a ≠ [])
    (hf : ∀ a b x y, f a ++ x = f b ++ y → a = b ∧ x = y) :
    ∀ (l m : List α), l.flatMap f = m.flatMap f → l = m
  | [], [], _ => rfl
  | [], b :: m, h => by
    simp only [List.flatMap_nil, List.flatMap_cons] at h
    exact absurd (List.append_eq_nil_iff.1 h.symm).1 (hne b)
  | a :: l, [], h => by
    simp only [List.flatMap_nil, List.flatMap_cons] at h
    exact absurd (List.append_eq_nil_iff.1 h).1 (hne a)
  | a :: l, b :: m, h => by
    simp only [List.flatMap_cons] at h
    obtain ⟨h1, h2⟩ := hf _ _ _ _ h
    rw [h1, flatMap_inj_of_prefix f hne hf l m h2]

theorem Bell.name_ne_nil (b : Bell) : b.name ≠ [] := by
  obtain ⟨c, x, h, -⟩ := b.name_first
  rw [h]
  exact List.cons_ne_nil _ _

theorem Regex.displayElem_ne_nil (e : RegexElem) : Regex.displayElem e ≠ [] := by
  cases e with
  | bell b => exact b.name_ne_nil
  | any => exact List.cons_ne_nil _ _
  | glob => exact List.cons_ne_nil _ _

theorem Regex.displayElem_append_inj (a b : RegexElem) (x y : List Char)
    (h : displayElem a ++ x = displayElem b ++ y) : a = b ∧ x = y := by
  have hb : ∀ (e : Bell) (c : Char) (x y : List Char), c ∉ Bell.bellNames → c ≠ '<' →
      e.name ++ x ≠ c :: y := by
    intro e c x y h1 h2 h3
    obtain ⟨d, z, h4, h5⟩ := e.name_first
    rw [h4, List.cons_append, List.cons.injEq] at h3
    obtain ⟨rfl, -⟩ := h3
    rcases h5 with h5 | rfl
    · exact h1 h5.1
    · exact h2 rfl
  cases a <;> cases b <;> simp only [displayElem, List.cons_append, List.nil_append, List.cons.injEq,
    true_and] at h
  · obtain ⟨h1, h2⟩ := Bell.name_append_inj _ _ _ _ h
    exact ⟨by rw [h1], h2⟩
  · exact absurd h (hb _ _ _ _ (by decide) (by decide))
  · exact absurd h (hb _ _ _ _ (by decide) (by decide))
  · exact absurd h.symm (hb _ _ _ _ (by decide) (by decide))
  · exact ⟨rfl, h⟩
  · exact absurd h.1 (by decide)
  · exact absurd h.symm (hb _ _ _ _ (by decide) (by decide))
  · exact absurd h.1 (by decide)
  · exact ⟨rfl, h⟩

theorem Row.display_inj (a b : Row) (h : a.display = b.display) : a = b := by
  have := flatMap_inj_of_prefix _ Bell.name_ne_nil Bell.name_append_inj _ _ h
  obtain ⟨l⟩ := a
  obtain ⟨m⟩ := b
  simp only at this
  rw [this]

theorem Row.not_mem_display (r : Row) (c : Char) (h1 : c ∉ Bell.bellNames) (h2 : c ≠ '<') (h3 : c ≠ '>')
    (h4 : c.isDigit = false) : c ∉ r.display := by
  intro h
  obtain ⟨b, -, hb⟩ := List.mem_flatMap.1 h
  exact Bell.not_mem_name b c h1 h2 h3 h4 hb

theorem joinFields_cons (f g : List Char) (fs : List (List Char)) :
    joinFields (f :: g :: fs) = f ++ ',' :: ' ' :: joinFields (g :: fs) := by
  simp [joinFields]

/-- Fields without commas are determined by the text. -/
theorem joinFields_inj : ∀ (fs gs : List (List Char)), fs ≠ [] → gs ≠ [] → (∀ f ∈ fs, ',' ∉ f) →
    (∀ g ∈ gs, ',' ∉ g) → joinFields fs = joinFields gs → fs = gs
  | [], _, h, _, _, _, _ => absurd rfl h
  | _, [], _, h, _, _, _ => absurd rfl h
  | [f], [g], _, _, _, _, h => by
    simp only [joinFields] at h
    rw [h]
  | [f], g :: g' :: gs, _, _, hf, _, h => by
    rw [joinFields_cons] at h
    simp only [joinFields] at h
    exact absurd (show ',' ∈ f by rw [h]; simp) (hf f (by simp))
  | f :: f' :: fs, [g], _, _, _, hg, h => by
    rw [joinFields_cons] at h
    simp only [joinFields] at h
    exact absurd (show ',' ∈ g by rw [← h]; simp) (hg g (by simp))
  | f :: f' :: fs, g :: g' :: gs, _, _, hf, hg, h => by
    rw [joinFields_cons, joinFields_cons] at h
    obtain ⟨h1, h2⟩ := append_cons_inj ',' (hf f (by simp)) (hg g (by simp)) h
    rw [List.cons.injEq] at h2
    rw [h1, joinFields_inj (f' :: fs) (g' :: gs) (by simp) (by simp)
      (fun x hx => hf x (List.mem_cons_of_mem _ hx)) (fun x hx => hg x (List.mem_cons_of_mem _ hx)) h2.2]

theorem debugTuple_inj (name : List Char) (fs gs : List (List Char)) (hf : ∀ f ∈ fs, ',' ∉ f)
    (hg : ∀ g ∈ gs, ',' ∉ g) (h : debugTuple name fs = debugTuple name gs) : fs = gs := by
  unfold debugTuple at h
  cases fs with
  | nil =>
    cases gs with
    | nil => rfl
    | cons g gs =>
      have := congrArg List.length h
      simp at this
  | cons f fs =>
    cases gs with
    | nil =>
      have := congrArg List.length h
      simp at this
    | cons g gs =>
      simp only [List.isEmpty_cons, Bool.false_eq_true, if_false] at h
      have h1 := List.append_cancel_right h
      exact joinFields_inj _ _ (by simp) (by simp) hf hg (List.append_cancel_left h1)

/-! ## Orders -/

theorem cmpSlices_eq_iff : ∀ a b : List Bell, cmpSlices a b = .eq ↔ a = b
  | [], [] => by simp [cmpSlices]
  | [], _ :: _ => by simp [cmpSlices]
  | _ :: _, [] => by simp [cmpSlices]
  | ⟨x⟩ :: a, ⟨y⟩ :: b => by
    have ih := cmpSlices_eq_iff a b
    rcases lt_trichotomy x y with h | h | h
    · have : compare x y = .lt := Nat.compare_eq_lt.2 h
      simp [cmpSlices, Bell.cmp, this]
      omega
    · subst h
      simp [cmpSlices, Bell.cmp, ih]
    · have : compare x y = .gt := Nat.compare_eq_gt.2 h
      simp [cmpSlices, Bell.cmp, this]
      omega

theorem cmpSlices_lt_iff : ∀ a b : List Bell, cmpSlices a b = .lt ↔
    List.Lex (· < ·) (a.map Bell.index) (b.map Bell.index)
  | [], [] => by simp [cmpSlices]
  | [], _ :: _ => by simp [cmpSlices]
  | _ :: _, [] => by simp [cmpSlices]
  | ⟨x⟩ :: a, ⟨y⟩ :: b => by
    have ih := cmpSlices_lt_iff a b
    rcases lt_trichotomy x y with h | h | h
    · have : compare x y = .lt := Nat.compare_eq_lt.2 h
      simp [cmpSlices, Bell.cmp, this, List.Lex.rel h]
    · subst h
      simp [cmpSlices, Bell.cmp, ih, List.lex_cons_iff]
    · have : compare x y = .gt := Nat.compare_eq_gt.2 h
      simp only [cmpSlices, Bell.cmp, this, List.map_cons]
      constructor
      · nofun
      · intro hl
        cases hl with
        | cons _ => omega
        | rel h' => omega

theorem cmpSlices_swap : ∀ a b : List Bell, cmpSlices b a = (cmpSlices a b).swap
  | [], [] => rfl
  | [], _ :: _ => rfl
  | _ :: _, [] => rfl
  | ⟨x⟩ :: a, ⟨y⟩ :: b => by
    have ih := cmpSlices_swap a b
    rcases lt_trichotomy x y with h | h | h
    · have h1 : compare x y = .lt := Nat.compare_eq_lt.2 h
      have h2 : compare y x = .gt := Nat.compare_eq_gt.2 h
      simp [cmpSlices, Bell.cmp, h1, h2]
    · subst h
      simp [cmpSlices, Bell.cmp, ih]
    · have h1 : compare x y = .gt := Nat.compare_eq_gt.2 h
      have h2 : compare y x = .lt := Nat.compare_eq_lt.2 h
      simp [cmpSlices, Bell.cmp, h1, h2]

end Bellframe
