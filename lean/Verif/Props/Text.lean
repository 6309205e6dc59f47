import Verif.Proofs.Text
import Verif.Props.RowBuild
import Mathlib.Data.List.Lex

/-! # C69, C70: texts identify values; the order of rows -/

namespace Bellframe.Props

/-! ## C69 -/

/-- Texts of rows, of any number of bells, identify them. -/
theorem C69_rows (a b : Row) : a.display = b.display ↔ a = b :=
  ⟨a.display_inj b, fun h => by rw [h]⟩

/-- Texts of regexes identify them. -/
theorem C69_regexes (a b : Regex) : a.display = b.display ↔ a = b := by
  refine ⟨fun h => ?_, fun h => by rw [h]⟩
  have := flatMap_inj_of_prefix _ Regex.displayElem_ne_nil Regex.displayElem_append_inj _ _ h
  obtain ⟨l⟩ := a
  obtain ⟨m⟩ := b
  simp only at this
  rw [this]

/-- Texts of masks identify them. -/
theorem C69_masks (a b : Mask) : a.display = b.display ↔ a = b := by
  refine ⟨fun h => ?_, fun h => by rw [h]⟩
  have he : ∀ m : Mask, m.display = (m.bells.map Regex.elemOfMask).flatMap Regex.displayElem := by
    intro m
    rw [Mask.display, List.flatMap_map]
    congr 1
    funext o
    cases o <;> rfl
  rw [he, he] at h
  have := flatMap_inj_of_prefix _ Regex.displayElem_ne_nil Regex.displayElem_append_inj _ _ h
  have hinj : Function.Injective Regex.elemOfMask := by
    intro x y hxy
    cases x <;> cases y <;> simp_all [Regex.elemOfMask]
  have h1 := List.map_injective_iff.2 hinj this
  obtain ⟨l⟩ := a
  obtain ⟨m⟩ := b
  simp only at h1
  rw [h1]

/-- Texts of place notations of one stage identify them. -/
theorem C69_place_notations (a b : PlaceNot) (hs : a.stage = b.stage) :
    a.display = b.display ↔ a = b := by
  refine ⟨fun h => ?_, fun h => by rw [h]⟩
  have he : ∀ p : PlaceNot, p.display =
      if p.places = [] then ['-'] else (p.places.map Bell.fromIndex).flatMap Bell.name := by
    intro p
    rw [PlaceNot.display, PlaceNot.isCross, List.flatMap_map]
    cases hp : p.places <;> simp
  have hd : ∀ ps : List Nat, ps ≠ [] → (ps.map Bell.fromIndex).flatMap Bell.name ≠ ['-'] := by
    intro ps hne h'
    cases ps with
    | nil => exact hne rfl
    | cons p ps =>
      rw [List.map_cons, List.flatMap_cons] at h'
      obtain ⟨c, x, hc, hc'⟩ := (Bell.fromIndex p).name_first
      rw [hc, List.cons_append, List.cons.injEq] at h'
      obtain ⟨rfl, -⟩ := h'
      revert hc'
      have : '-' ∉ Bell.bellNames := by decide
      simp [this]
  obtain ⟨ps, s⟩ := a
  obtain ⟨qs, t⟩ := b
  simp only at hs
  subst hs
  rw [he, he] at h
  simp only at h
  by_cases hp : ps = [] <;> by_cases hq : qs = []
  · rw [hp, hq]
  · rw [if_pos hp, if_neg hq] at h
    exact absurd h.symm (hd _ hq)
  · rw [if_neg hp, if_pos hq] at h
    exact absurd h (hd _ hp)
  · rw [if_neg hp, if_neg hq] at h
    have := flatMap_inj_of_prefix _ Bell.name_ne_nil Bell.name_append_inj _ _ h
    have hinj : Function.Injective Bell.fromIndex := fun x y hxy => by simpa [Bell.fromIndex] using hxy
    rw [List.map_injective_iff.2 hinj this]

example := C69_place_notations ⟨[0, 3], ⟨4⟩⟩ ⟨[], ⟨4⟩⟩ rfl

/-- Both texts of a stage identify it, and `Debug` does not panic. -/
theorem C69_stages (s t : Stage) (hs : s.Valid) (ht : t.Valid) :
    (∃ m, s.debug = .ok m) ∧ (s.debug = t.debug ↔ s = t) ∧ (s.display = t.display ↔ s = t) := by
  have hcases : ∀ s : Stage, s.Valid → (∃ m, s.debug = .ok ("Stage::".toList ++ m) ∧ s.numBells ≤ 16) ∨
      (16 < s.numBells ∧ s.debug = .ok ("Stage(".toList ++ decimal s.numBells ++ ")".toList)) := by
    rintro ⟨n⟩ hn
    by_cases h : n ≤ 16
    · left
      have hn' : 0 < n := hn
      interval_cases n <;> exact ⟨_, rfl, by decide⟩
    · right
      refine ⟨by simpa using h, ?_⟩
      unfold Stage.debug
      split <;> rename_i he <;> simp only at he <;> first | omega | rfl
  refine ⟨?_, ⟨fun h => ?_, fun h => by rw [h]⟩,
    ⟨fun h => Stage.display_inj s t hs ht (by rw [h]), fun h => by rw [h]⟩⟩
  · rcases hcases s hs with ⟨m, h, -⟩ | ⟨-, h⟩ <;> exact ⟨_, h⟩
  · rcases hcases s hs with ⟨m, h1, hle⟩ | ⟨h0, h1⟩ <;> rcases hcases t ht with ⟨m', h2, hle'⟩ | ⟨h0', h2⟩
    · obtain ⟨i⟩ := s
      obtain ⟨j⟩ := t
      have hi : 0 < i := hs
      have hj : 0 < j := ht
      simp only at hle hle'
      have key : ∀ i ∈ List.range 17, ∀ j ∈ List.range 17, Stage.debug ⟨i⟩ = Stage.debug ⟨j⟩ → i = j := by
        decide +kernel
      rw [key i (List.mem_range.2 (by omega)) j (List.mem_range.2 (by omega)) h]
    · rw [h1, h2] at h
      simp at h
    · rw [h1, h2] at h
      simp at h
    · rw [h1, h2] at h
      have h3 := List.append_cancel_left (List.append_cancel_right (Except.ok.inj h))
      have := decimal_inj _ _ h3
      obtain ⟨i⟩ := s
      obtain ⟨j⟩ := t
      simp only at this
      rw [this]

example := C69_stages ⟨8⟩ ⟨30⟩ (by decide) (by decide)

theorem comma_not_mem_display (r : Row) : ',' ∉ r.display :=
  r.not_mem_display _ (by decide) (by decide) (by decide) (by decide)

/-- The text of a vector of rows identifies its rows. -/
theorem C69_vectors (s t : Stage) (rows rows' : List Row) (h : RowsOf s rows) (h' : RowsOf t rows') :
    ∃ m m', (SameStageVec.ofRows s rows).debug = .ok m ∧ (SameStageVec.ofRows t rows').debug = .ok m' ∧
      (m = m' ↔ rows = rows') := by
  refine ⟨_, _, by simp only [SameStageVec.debug, SameStageVec.collect_ofRows _ h, Res.ok_bind]; rfl,
    by simp only [SameStageVec.debug, SameStageVec.collect_ofRows _ h', Res.ok_bind]; rfl, ?_⟩
  refine ⟨fun he => ?_, fun he => by rw [he]⟩
  have := debugTuple_inj _ _ _ ?_ ?_ he
  · exact List.map_injective_iff.2 Row.display_inj this
  · intro f hf
    obtain ⟨r, -, rfl⟩ := List.mem_map.1 hf
    exact comma_not_mem_display r
  · intro f hf
    obtain ⟨r, -, rfl⟩ := List.mem_map.1 hf
    exact comma_not_mem_display r

example := C69_vectors ⟨3⟩ ⟨2⟩ [⟨[⟨0⟩, ⟨1⟩, ⟨2⟩]⟩, ⟨[⟨1⟩, ⟨0⟩, ⟨2⟩]⟩] [⟨[⟨1⟩, ⟨0⟩]⟩] (by decide) (by decide)

/-- The text of a block identifies it, provided that texts of annotations identify them and have no
commas. -/
theorem C69_blocks {A : Type} (fmt : A → List Char) (hinj : Function.Injective fmt)
    (hc : ∀ a, ',' ∉ fmt a) (b b' : AnnotBlock A) (h : b.WellFormed) (h' : b'.WellFormed) :
    ∃ m m', b.debug fmt = .ok m ∧ b'.debug fmt = .ok m' ∧ (m = m' ↔ b = b') := by
  obtain ⟨n, hn, σs, l, annots, hl, rfl⟩ := h.cases
  obtain ⟨n', hn', σs', l', annots', hl', rfl⟩ := h'.cases
  refine ⟨_, _, by simp only [AnnotBlock.debug, AnnotBlock.annotRows_ofPerms hn _ _ _ hl,
      AnnotBlock.leftover_ofPerms hn, Res.ok_bind]; rfl,
    by simp only [AnnotBlock.debug, AnnotBlock.annotRows_ofPerms hn' _ _ _ hl',
      AnnotBlock.leftover_ofPerms hn', Res.ok_bind]; rfl, ?_⟩
  constructor
  · intro he
    have hcf : ∀ (ps : List (Row × A)) (r : Row),
        ∀ f ∈ ps.map (fun p => p.1.display ++ ": ".toList ++ fmt p.2) ++ [r.display], ',' ∉ f := by
      intro ps r f hf
      simp only [List.mem_append, List.mem_map, List.mem_singleton] at hf
      rcases hf with ⟨p, -, rfl⟩ | rfl
      · simp only [List.mem_append, not_or]
        exact ⟨⟨comma_not_mem_display _, by decide⟩, hc _⟩
      · exact comma_not_mem_display _
    have h1 := debugTuple_inj _ _ _ (hcf _ _) (hcf _ _) he
    have h2 := List.append_inj' h1 rfl
    have h3 : Row.ofPerm l = Row.ofPerm l' := Row.display_inj _ _ (List.singleton_inj.1 h2.2)
    have hpair : Function.Injective (fun p : Row × A => p.1.display ++ ": ".toList ++ fmt p.2) := by
      rintro ⟨r, a⟩ ⟨r', a'⟩ hp
      simp only at hp
      have hcol : ∀ r : Row, ':' ∉ r.display := fun r =>
        r.not_mem_display _ (by decide) (by decide) (by decide) (by decide)
      have hp' : r.display ++ ':' :: (' ' :: fmt a) = r'.display ++ ':' :: (' ' :: fmt a') := by
        simpa using hp
      obtain ⟨h4, h5⟩ := append_cons_inj ':' (hcol r) (hcol r') hp'
      rw [Row.display_inj _ _ h4, hinj (List.cons.inj h5).2]
    have h4 := List.map_injective_iff.2 hpair h2.1
    have hnn : n = n' := by
      have := congrArg (fun r => r.bells.length) h3
      simpa using this
    subst hnn
    have hσ : σs.map Row.ofPerm = σs'.map Row.ofPerm := by
      have := congrArg (List.map Prod.fst) h4
      rwa [List.map_fst_zip (by simp [hl]), List.map_fst_zip (by simp [hl'])] at this
    have ha : annots = annots' := by
      have := congrArg (List.map Prod.snd) h4
      rwa [List.map_snd_zip (by simp [hl]), List.map_snd_zip (by simp [hl'])] at this
    simp only [AnnotBlock.ofPerms, List.map_append, List.map_cons, List.map_nil, hσ, h3, ha]
  · intro he
    have e1 := AnnotBlock.annotRows_ofPerms hn σs l annots hl
    have e2 := AnnotBlock.annotRows_ofPerms hn' σs' l' annots' hl'
    have e3 := AnnotBlock.leftover_ofPerms hn σs l annots
    have e4 := AnnotBlock.leftover_ofPerms hn' σs' l' annots'
    rw [he, e2] at e1
    rw [he, e4] at e3
    rw [Except.ok.inj e1, Except.ok.inj e3]

example : Function.Injective (fun _ : Unit => "()".toList) ∧ (∀ a : Unit, ',' ∉ "()".toList) ∧
    AnnotBlock.debug (fun _ : Unit => "()".toList) ⟨.ofRows ⟨2⟩ [⟨[⟨0⟩, ⟨1⟩]⟩, ⟨[⟨1⟩, ⟨0⟩]⟩], [()]⟩ =
      .ok "AnnotBlock(12: (), 21)".toList := by
  exact ⟨fun _ _ _ => rfl, by decide, by decide +kernel⟩

/-! ## C70 -/

theorem cmp_lt_iff (a b : Row) : a.cmp b = .lt ↔ a.bells.map Bell.index < b.bells.map Bell.index :=
  cmpSlices_lt_iff _ _

/-- The order of rows is a total order, for which only equal rows are equal. -/
theorem C70_total_order (a b c : Row) :
    (a.cmp b = .eq ↔ a = b) ∧ b.cmp a = (a.cmp b).swap ∧
    (a.cmp b = .lt → b.cmp c = .lt → a.cmp c = .lt) := by
  refine ⟨?_, cmpSlices_swap _ _, ?_⟩
  · obtain ⟨l⟩ := a
    obtain ⟨m⟩ := b
    rw [Row.cmp, cmpSlices_eq_iff, Row.mk.injEq]
  · rw [cmp_lt_iff, cmp_lt_iff, cmp_lt_iff]
    exact lt_trans

/-- Between rows of the same stage, the first place where they differ decides. -/
theorem C70_first_difference (a b : Row) (h : a.bells.length = b.bells.length) :
    a.cmp b = .lt ↔ ∃ (i : Nat) (x y : Bell), a.bells[i]? = some x ∧ b.bells[i]? = some y ∧ x.index < y.index ∧
      ∀ j < i, a.bells[j]? = b.bells[j]? := by
  rw [cmp_lt_iff, List.lt_iff_exists]
  constructor
  · rintro (⟨-, h1⟩ | ⟨i, h1, h2, h3, h4⟩)
    · simp [h] at h1
    · simp only [List.length_map, List.getElem_map] at h1 h2 h3 h4
      refine ⟨i, _, _, List.getElem?_eq_getElem h1, List.getElem?_eq_getElem h2, h4, fun j hj => ?_⟩
      have := h3 j hj
      rw [List.getElem?_eq_getElem (by omega), List.getElem?_eq_getElem (by omega)]
      have hb : ∀ x y : Bell, x.index = y.index → x = y := by
        rintro ⟨x⟩ ⟨y⟩ h
        simpa using h
      rw [hb _ _ this]
  · rintro ⟨i, x, y, h1, h2, h3, h4⟩
    right
    obtain ⟨h5, rfl⟩ := List.getElem?_eq_some_iff.1 h1
    obtain ⟨h6, rfl⟩ := List.getElem?_eq_some_iff.1 h2
    refine ⟨i, by simpa using h5, by simpa using h6, fun j hj => ?_, by simpa using h3⟩
    have := h4 j hj
    rw [List.getElem?_eq_getElem (by omega), List.getElem?_eq_getElem (by omega)] at this
    simp only [List.getElem_map, Option.some.inj this]

example := C70_first_difference ⟨[⟨0⟩, ⟨1⟩, ⟨2⟩]⟩ ⟨[⟨0⟩, ⟨2⟩, ⟨1⟩]⟩ rfl

/-- Between rows of any stages, the first place where they differ decides; if there is none, the row with
fewer bells comes first. -/
theorem C70_any_stages (a b : Row) :
    a.cmp b = .lt ↔
      (∃ (i : Nat) (x y : Bell), a.bells[i]? = some x ∧ b.bells[i]? = some y ∧ x.index < y.index ∧
        ∀ j < i, a.bells[j]? = b.bells[j]?) ∨
      (a.bells <+: b.bells ∧ a.bells.length < b.bells.length) := by
  have hb : ∀ x y : Bell, x.index = y.index → x = y := by
    rintro ⟨x⟩ ⟨y⟩ h
    simpa using h
  rw [cmp_lt_iff, List.lt_iff_exists]
  constructor
  · rintro (⟨h0, h1⟩ | ⟨i, h1, h2, h3, h4⟩)
    · right
      simp only [List.length_map] at h0 h1
      rw [← List.map_take] at h0
      refine ⟨?_, h1⟩
      rw [List.prefix_iff_eq_take]
      exact List.map_injective_iff.2 (fun x y h => hb x y h) h0
    · left
      simp only [List.length_map, List.getElem_map] at h1 h2 h3 h4
      refine ⟨i, _, _, List.getElem?_eq_getElem h1, List.getElem?_eq_getElem h2, h4, fun j hj => ?_⟩
      rw [List.getElem?_eq_getElem (by omega), List.getElem?_eq_getElem (by omega), hb _ _ (h3 j hj)]
  · rintro (⟨i, x, y, h1, h2, h3, h4⟩ | ⟨h1, h2⟩)
    · right
      obtain ⟨h5, rfl⟩ := List.getElem?_eq_some_iff.1 h1
      obtain ⟨h6, rfl⟩ := List.getElem?_eq_some_iff.1 h2
      refine ⟨i, by simpa using h5, by simpa using h6, fun j hj => ?_, by simpa using h3⟩
      have := h4 j hj
      rw [List.getElem?_eq_getElem (by omega), List.getElem?_eq_getElem (by omega)] at this
      simp only [List.getElem_map, Option.some.inj this]
    · left
      rw [List.prefix_iff_eq_take] at h1
      refine ⟨?_, by simpa using h2⟩
      rw [List.length_map, ← List.map_take, ← h1]

/-- Rounds comes first and backrounds last. -/
theorem C70_extremes (r : Row) (hr : r.Valid) :
    (r ≠ Row.rounds ⟨r.bells.length⟩ → (Row.rounds ⟨r.bells.length⟩).cmp r = .lt) ∧
    (r ≠ Row.backrounds ⟨r.bells.length⟩ → r.cmp (Row.backrounds ⟨r.bells.length⟩) = .lt) := by
  obtain ⟨hv1, hv2, -, hl1, hl2, -, hg1, hg2, -⟩ := C09_named_rows ⟨r.bells.length⟩ hr.length_pos
  simp only at hl1 hl2 hg1 hg2
  have hnd := hr.nodup
  have hinj : ∀ (i j : Nat) (x : Bell), r.bells[i]? = some x → r.bells[j]? = some x → i = j := by
    intro i j x h1 h2
    have hi := (List.getElem?_eq_some_iff.1 h1).1
    exact (List.getElem?_inj hi hnd).1 (h1.trans h2.symm)
  have hlt : ∀ (i : Nat) (x : Bell), r.bells[i]? = some x → x.index < r.bells.length := by
    intro i x h
    exact (hr.mem_iff x).1 (List.mem_of_getElem? h)
  constructor
  · intro hne
    cases hc : (Row.rounds ⟨r.bells.length⟩).cmp r with
    | lt => rfl
    | eq => exact absurd ((C70_total_order _ _ r).1.1 hc).symm hne
    | gt =>
      exfalso
      have : r.cmp (Row.rounds ⟨r.bells.length⟩) = .lt := by
        rw [(C70_total_order _ _ r).2.1, hc]
        rfl
      obtain ⟨i, x, y, h1, h2, h3, h4⟩ := (C70_first_difference _ _ hl1.symm).1 this
      have hi := (List.getElem?_eq_some_iff.1 h1).1
      rw [hg1 i hi] at h2
      obtain rfl := Option.some.inj h2
      simp only at h3
      have h5 := h4 x.index h3
      rw [hg1 _ (by omega)] at h5
      have := hinj _ _ _ h1 h5
      omega
  · intro hne
    cases hc : r.cmp (Row.backrounds ⟨r.bells.length⟩) with
    | lt => rfl
    | eq => exact absurd ((C70_total_order _ _ r).1.1 hc) hne
    | gt =>
      exfalso
      have : (Row.backrounds ⟨r.bells.length⟩).cmp r = .lt := by
        rw [(C70_total_order _ _ r).2.1, hc]
        rfl
      obtain ⟨i, x, y, h1, h2, h3, h4⟩ := (C70_first_difference _ _ hl2).1 this
      have hi := (List.getElem?_eq_some_iff.1 h2).1
      rw [hg2 i hi] at h1
      obtain rfl := Option.some.inj h1
      simp only at h3
      have hy := hlt _ _ h2
      have h5 := h4 (r.bells.length - 1 - y.index) (by omega)
      rw [hg2 _ (by omega)] at h5
      have h6 : (⟨r.bells.length - 1 - (r.bells.length - 1 - y.index)⟩ : Bell) = y := by
        obtain ⟨k⟩ := y
        simp only at hy ⊢
        congr 1
        omega
      rw [h6] at h5
      have := hinj _ _ _ h2 h5.symm
      omega

example : (⟨[⟨1⟩, ⟨0⟩, ⟨2⟩]⟩ : Row).Valid ∧ Row.rounds ⟨3⟩ ≠ ⟨[⟨1⟩, ⟨0⟩, ⟨2⟩]⟩ ∧
    (Row.rounds ⟨3⟩).cmp ⟨[⟨1⟩, ⟨0⟩, ⟨2⟩]⟩ = .lt ∧ (Row.rounds ⟨2⟩).cmp (Row.rounds ⟨3⟩) = .lt ∧
    (Row.rounds ⟨3⟩).cmp ⟨[⟨1⟩, ⟨0⟩]⟩ = .lt := by decide

end Bellframe.Props
