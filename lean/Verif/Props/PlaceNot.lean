import Verif.Proofs.PlaceNotParse
import Verif.Props.RowBuild

/-! # C30–C33: place notation

`PlaceNot.ofChange τ` is the place notation of the change `τ` (every bell moves at most one place);
its places are those that `τ` fixes. -/

namespace Bellframe.Props

open PlaceNot

variable {n : Nat}

/-! ## C30: parsing -/

/-- A cross is accepted on even stages exactly, and makes no places. -/
theorem C30_cross (s : List Char) (hx : IsCrossText s) (n : Nat) :
    (n % 2 = 0 → parse s ⟨n⟩ = .ok (.ok ⟨[], ⟨n⟩⟩) ∧
      ∃ τ : Equiv.Perm (Fin n), IsChange τ ∧ (∀ x, τ x ≠ x) ∧ PlaceNot.ofChange τ = ⟨[], ⟨n⟩⟩) ∧
    (n % 2 = 1 → parse s ⟨n⟩ = .ok (.error (.oddStageCross ⟨n⟩))) := by
  unfold parse
  rw [if_pos ((isCrossText_iff s).2 hx)]
  unfold cross
  constructor
  · intro he
    rw [if_pos he]
    refine ⟨rfl, ?_⟩
    obtain ⟨τ, h1, h2⟩ := PlaceNot.ofChange_of_gaps (n := n)
      (Gaps.done.swaps_to (Nat.zero_le _) (by omega))
    refine ⟨τ, h1, ?_, h2⟩
    intro x hx
    have := PlaceNot.ofChange_places τ
    rw [h2] at this
    have hm : x.val ∈ fixedFrom τ 0 := mem_fixedFrom.2 ⟨Nat.zero_le _, x.isLt, hx⟩
    rw [← this] at hm
    simp at hm
  · intro ho
    rw [if_neg (by simp only; omega)]

example := C30_cross ['-'] (.inr (.inr rfl)) 6

theorem parse_not_cross (s : List Char) (stage : Stage) (hx : ¬ IsCrossText s) :
    parse s stage = fromSortedSlice (sortPlaces (givenPlaces s)) stage := by
  unfold parse
  rw [if_neg (fun h => hx ((isCrossText_iff s).1 h))]
  rfl

/-- Any other text is accepted exactly when the given places determine a change, and then the result
is that change: its places are those given, those between two given places that are two apart, and
the implicit lead and lie. Otherwise the error is true of the text. -/
theorem C30_parse (s : List Char) (hx : ¬ IsCrossText s) (n : Nat) :
    (Completable n (givenPlaces s) → ∃ τ : Equiv.Perm (Fin n), IsChange τ ∧
      parse s ⟨n⟩ = .ok (.ok (.ofChange τ)) ∧
      ∀ x : Fin n, τ x = x ↔ Completed n (givenPlaces s) x.val) ∧
    (¬ Completable n (givenPlaces s) → ∃ e, parse s ⟨n⟩ = .ok (.error e) ∧ e.TrueOf s ⟨n⟩) := by
  have hp := sortPlaces_perm (givenPlaces s)
  have hmem : ∀ y, y ∈ sortPlaces (givenPlaces s) ↔ y ∈ givenPlaces s := fun y => hp.mem_iff
  rw [parse_not_cross s ⟨n⟩ hx]
  rcases fromSortedSlice_spec (n := n) _ (sortPlaces_sorted (givenPlaces s)) with
    ⟨h1, h2⟩ | ⟨p, h1, h2, h3, h4⟩ | ⟨h1, d, h2, h3⟩ | ⟨h1, a, b, h2, h3, h4, h5⟩ | ⟨h1, ps, h2, h3, h4⟩
  · have hnil : givenPlaces s = [] := by rw [h1] at hp; exact hp.symm.eq_nil
    exact ⟨fun hc => absurd hnil hc.1, fun _ => ⟨_, h2, hx, hnil⟩⟩
  · have hp' := (hmem p).1 h1
    refine ⟨fun hc => absurd (hc.2.1 p hp') (by omega), fun _ => ⟨_, h4, rfl, hp', h2, ?_⟩⟩
    exact fun q hq => h3 q ((hmem q).2 hq)
  · have hc2 : 2 ≤ (givenPlaces s).count d := by rw [← hp.count_eq]; exact h3
    refine ⟨fun hc => ?_, fun _ => ⟨_, h2, hc2, fun q hq => h1 q ((hmem q).2 hq)⟩⟩
    have := List.nodup_iff_count_le_one.1 hc.2.2.1 d
    omega
  · have hnb : Neighbours (givenPlaces s) a b := h3.perm hp
    refine ⟨fun hc => ?_, fun _ => ⟨_, h2, hnb, h4, h5, fun q hq => h1 q ((hmem q).2 hq)⟩⟩
    have := hc.2.2.2 a b hnb
    omega
  · refine ⟨fun _ => ?_, fun hc => absurd (h1.perm hp) hc⟩
    obtain ⟨τ, h5, h6⟩ := PlaceNot.ofChange_of_gaps h3
    refine ⟨τ, h5, by rw [h6]; exact h2, ?_⟩
    intro x
    have hpl := PlaceNot.ofChange_places τ
    rw [h6] at hpl
    have : τ x = x ↔ x.val ∈ ps := by
      simp only at hpl
      rw [hpl, mem_fixedFrom]
      constructor
      · intro h; exact ⟨Nat.zero_le _, x.isLt, h⟩
      · rintro ⟨-, h, h'⟩; exact h'
    rw [this, h4 x.val]
    exact ⟨fun h => h.perm hp, fun h => h.perm hp.symm⟩

example := C30_parse "467".toList (by unfold IsCrossText; decide) 12

/-- The result does not depend on the order of the characters, nor on ignored characters. -/
theorem C30_order (s t : List Char) (stage : Stage) (hs : ¬ IsCrossText s) (ht : ¬ IsCrossText t)
    (h : (givenPlaces s).Perm (givenPlaces t)) : parse s stage = parse t stage := by
  rw [parse_not_cross s stage hs, parse_not_cross t stage ht, sortPlaces_eq_of_perm h]

example := C30_order "647".toList "467".toList ⟨12⟩ (by unfold IsCrossText; decide)
  (by unfold IsCrossText; decide) (by decide)

/-- The places of a place notation that stands for a change are sorted and distinct, inside the
stage, and are the places made. -/
theorem C30_places (τ : Equiv.Perm (Fin n)) :
    (PlaceNot.ofChange τ).places.Pairwise (· < ·) ∧ (PlaceNot.ofChange τ).stage = ⟨n⟩ ∧
    (∀ p ∈ (PlaceNot.ofChange τ).places, p < n) ∧
    ∀ x : Fin n, (PlaceNot.ofChange τ).contains x.val = true ↔ τ x = x := by
  have hpl := PlaceNot.ofChange_places τ
  refine ⟨by rw [hpl]; exact fixedFrom_sorted τ 0, rfl, ?_, ?_⟩
  · intro p hp
    rw [hpl] at hp
    obtain ⟨-, h, -⟩ := mem_fixedFrom.1 hp
    exact h
  · intro x
    unfold contains
    rw [hpl, List.contains_iff_mem, mem_fixedFrom]
    constructor
    · rintro ⟨-, h, h'⟩; exact h'
    · intro h; exact ⟨Nat.zero_le _, x.isLt, h⟩

/-- `467` on twelve bells is `14567T`; `15` on eight bells is ambiguous. -/
example : ¬ IsCrossText "467".toList ∧ givenPlaces "467".toList = [3, 5, 6] ∧
    parse "467".toList ⟨12⟩ = .ok (.ok ⟨[0, 3, 4, 5, 6, 11], ⟨12⟩⟩) ∧
    parse "15".toList ⟨8⟩ = .ok (.error (.ambiguousPlacesBetween 0 4)) := by
  refine ⟨by unfold IsCrossText; decide, by decide, by decide +kernel, by decide +kernel⟩

/-- All ways to make a place notation give one that stands for a change. -/
theorem C30_well_formed (s : List Char) (stage : Stage) (hs : stage.Valid) (l : List Nat)
    (hl : l.Pairwise (· ≤ ·)) (a b : Row) (ha : a.Valid) (hb : b.Valid) (pn : PlaceNot) :
    (parse s stage = .ok (.ok pn) → pn.WellFormed ∧ pn.stage = stage) ∧
    (fromSortedSlice l stage = .ok (.ok pn) → pn.WellFormed ∧ pn.stage = stage) ∧
    (cross stage = some pn → pn.WellFormed ∧ pn.stage = stage) ∧
    (pnBetween a b = .ok (some pn) → pn.WellFormed ∧ a.stage = .ok pn.stage) := by
  have hn : 0 < stage.numBells := hs
  have hsort : ∀ l : List Nat, l.Pairwise (· ≤ ·) →
      fromSortedSlice l stage = .ok (.ok pn) → pn.WellFormed ∧ pn.stage = stage := by
    intro l hl h
    rcases fromSortedSlice_spec (n := stage.numBells) l hl with
      ⟨h1, h2⟩ | ⟨p, h1, h2, h3, h4⟩ | ⟨h1, d, h2, h3⟩ | ⟨h1, a, b, h2, h3, h4, h5⟩ |
      ⟨h1, ps, h2, h3, h4⟩
    · rw [h2] at h; cases h
    · rw [h4] at h; cases h
    · rw [h2] at h; cases h
    · rw [h2] at h; cases h
    · rw [h2] at h; cases h
      exact ⟨(PlaceNot.wellFormed_iff_gaps _).2 ⟨hn, h3⟩, rfl⟩
  have hcross : cross stage = some pn → pn.WellFormed ∧ pn.stage = stage := by
    intro h
    unfold cross at h
    split at h
    · rename_i he
      cases h
      exact ⟨(PlaceNot.wellFormed_iff_gaps _).2 ⟨hn, Gaps.done.swaps_to (Nat.zero_le _) (by simpa using he)⟩,
        rfl⟩
    · cases h
  refine ⟨?_, hsort l hl, hcross, ?_⟩
  · intro h
    unfold parse at h
    split at h
    · split at h
      · rename_i pn' hp
        cases h
        exact hcross hp
      · cases h
    · exact hsort _ (sortPlaces_sorted _) h
  · intro h
    by_cases hst : b.bells.length = a.bells.length
    · obtain ⟨k, hk, σ, rfl⟩ := Row.valid_iff_exists_perm.1 ha
      obtain ⟨ρ, rfl⟩ := hb.exists_perm' (n := k) (by simpa using hst)
      rw [pnBetween_ofPerm hk] at h
      split at h
      · rename_i hc
        cases h
        exact ⟨⟨k, hk, _, hc, rfl⟩, Row.ofPerm_stage hk σ⟩
      · cases h
    · unfold pnBetween at h
      rw [ha.stage_eq, hb.stage_eq] at h
      simp only [Res.ok_bind, Res.pure_eq] at h
      rw [if_pos (by simpa using fun h => hst h.symm)] at h
      cases h

example := C30_well_formed "14".toList ⟨4⟩ (by decide) [0, 3] (by decide) ⟨[⟨0⟩, ⟨1⟩, ⟨2⟩, ⟨3⟩]⟩
  ⟨[⟨0⟩, ⟨2⟩, ⟨1⟩, ⟨3⟩]⟩ (by decide) (by decide) ⟨[0, 3], ⟨4⟩⟩

/-! ## C31: permuting -/

/-- Permuting a row by a place notation multiplies it by the change: bells in the places made stay,
all others swap with a neighbour. `permute` in place, `permute_new` and multiplication by the
transposition agree, and permuting twice restores the row. -/
theorem C31_permute (hn : 0 < n) (τ σ : Equiv.Perm (Fin n)) (hc : IsChange τ) :
    (PlaceNot.ofChange τ).permute (.ofPerm σ) = .ok (.ofPerm (σ * τ), .ok ()) ∧
    (PlaceNot.ofChange τ).permuteNew (.ofPerm σ) = .ok (.ok (.ofPerm (σ * τ))) ∧
    (PlaceNot.ofChange τ).transposition = .ok (.ofPerm τ) ∧
    (PlaceNot.ofChange τ).permute (.ofPerm (σ * τ)) = .ok (.ofPerm σ, .ok ()) ∧
    (∀ x : Fin n, τ x = x ∨
      ((τ x).val = x.val + 1 ∨ x.val = (τ x).val + 1) ∧ τ (τ x) = x) := by
  have hp : ∀ σ : Equiv.Perm (Fin n),
      (PlaceNot.ofChange τ).permute (.ofPerm σ) = .ok (.ofPerm (σ * τ), .ok ()) := by
    intro σ
    simp only [permute, Row.ofPerm_stage hn, Res.ok_bind]
    rw [show (PlaceNot.ofChange τ).stage = ⟨n⟩ from rfl, Row.testErr_self]
    simp only [PlaceNot.permuteUnchecked_ofChange hc, Res.ok_bind]
    rfl
  refine ⟨hp σ, ?_, ?_, ?_, ?_⟩
  · simp only [permuteNew, Row.ofPerm_stage hn, Res.ok_bind]
    rw [show (PlaceNot.ofChange τ).stage = ⟨n⟩ from rfl, Row.testErr_self]
    simp only [PlaceNot.permuteUnchecked_ofChange hc, Res.ok_bind]
    rfl
  · unfold transposition
    rw [show (PlaceNot.ofChange τ).stage = ⟨n⟩ from rfl, Row.rounds_eq_ofPerm,
      PlaceNot.permuteUnchecked_ofChange hc, one_mul]
  · rw [hp, mul_assoc, hc.involution, mul_one]
  · intro x
    by_cases hx : τ x = x
    · exact .inl hx
    · right
      have h1 := hc x
      have h2 : (τ x).val ≠ x.val := fun h => hx (Fin.ext h)
      refine ⟨by omega, ?_⟩
      have := congrArg (fun p : Equiv.Perm (Fin n) => p x) hc.involution
      exact this

example := C31_permute (n := 4) (by decide) (Equiv.swap 1 2) (Equiv.swap 0 3) (by decide)

/-- A row of another stage is left unchanged and reported. -/
theorem C31_mismatch (pn : PlaceNot) (r : Row) (hr : r.Valid)
    (h : (⟨r.bells.length⟩ : Stage) ≠ pn.stage) :
    pn.permute r = .ok (r, .error ⟨⟨r.bells.length⟩, pn.stage⟩) ∧
    pn.permuteNew r = .ok (.error ⟨⟨r.bells.length⟩, pn.stage⟩) := by
  simp only [permute, permuteNew, hr.stage_eq, Res.ok_bind, Row.testErr_ne h]
  exact ⟨rfl, rfl⟩

example := C31_mismatch ⟨[0, 3], ⟨4⟩⟩ ⟨[⟨0⟩, ⟨2⟩, ⟨1⟩]⟩ (by decide) (by decide)

/-- A place notation determines the change: different changes have different place notations. -/
theorem C31_injective (τ τ' : Equiv.Perm (Fin n)) (h : IsChange τ) (h' : IsChange τ') :
    PlaceNot.ofChange τ = PlaceNot.ofChange τ' ↔ τ = τ' :=
  ⟨fun he => h.eq_of_places h' he, fun he => by rw [he]⟩

example : IsChange (n := 4) (Equiv.swap 1 2) ∧
    PlaceNot.ofChange (n := 4) (Equiv.swap 1 2) = ⟨[0, 3], ⟨4⟩⟩ := by decide

/-! ## C32: the place notation between two rows -/

/-- `pn_between(a, b)` is the one place notation that takes `a` to `b`, if there is one. -/
theorem C32_pn_between (a b : Row) (ha : a.Valid) (hb : b.Valid)
    (hst : a.bells.length = b.bells.length) :
    (∀ pn, pnBetween a b = .ok (some pn) ↔
      pn.WellFormed ∧ pn.permuteNew a = .ok (.ok b)) ∧
    (pnBetween a b = .ok none ↔ ¬ ∃ pn : PlaceNot, pn.WellFormed ∧ pn.permuteNew a = .ok (.ok b)) := by
  obtain ⟨k, hk, σ, rfl⟩ := Row.valid_iff_exists_perm.1 ha
  obtain ⟨ρ, rfl⟩ := hb.exists_perm' (n := k) (by simpa using hst.symm)
  have key : ∀ pn, pnBetween (.ofPerm σ) (.ofPerm ρ) = .ok (some pn) ↔
      pn.WellFormed ∧ pn.permuteNew (.ofPerm σ) = .ok (.ok (.ofPerm ρ)) := by
    intro pn
    rw [pnBetween_ofPerm hk]
    constructor
    · intro h
      split at h
      · rename_i hc
        cases h
        refine ⟨⟨k, hk, _, hc, rfl⟩, ?_⟩
        rw [(C31_permute hk _ σ hc).2.1]
        simp
      · cases h
    · rintro ⟨⟨m, hm, τ, hc, rfl⟩, h⟩
      by_cases hkm : k = m
      · subst hkm
        rw [(C31_permute hk τ σ hc).2.1] at h
        have := Row.ofPerm_injective (Except.ok.inj (Except.ok.inj h))
        subst this
        simp [hc]
      · rw [(C31_mismatch _ _ (Row.ofPerm_valid hk σ)
          (by simp [PlaceNot.ofChange, hkm])).2] at h
        cases h
  refine ⟨key, ?_⟩
  constructor
  · rintro h ⟨pn, hpn⟩
    rw [(key pn).2 hpn] at h
    cases h
  · intro h
    rw [pnBetween_ofPerm hk]
    split
    · rename_i hc
      exact absurd ⟨_, (key _).1 (by rw [pnBetween_ofPerm hk, if_pos hc])⟩ h
    · rfl

example := C32_pn_between ⟨[⟨3⟩, ⟨1⟩, ⟨2⟩, ⟨0⟩]⟩ ⟨[⟨3⟩, ⟨2⟩, ⟨1⟩, ⟨0⟩]⟩ (by decide)
  (by decide) rfl

/-- The taking place notation is unique. -/
theorem C32_unique (a b : Row) (ha : a.Valid) (hb : b.Valid) (p q : PlaceNot) (hp : p.WellFormed)
    (hq : q.WellFormed) (h1 : p.permuteNew a = .ok (.ok b)) (h2 : q.permuteNew a = .ok (.ok b)) :
    p = q := by
  by_cases hst : a.bells.length = b.bells.length
  · have e1 := ((C32_pn_between a b ha hb hst).1 p).2 ⟨hp, h1⟩
    rw [((C32_pn_between a b ha hb hst).1 q).2 ⟨hq, h2⟩] at e1
    cases e1
    rfl
  · exfalso
    obtain ⟨m, hm, τ, hc, rfl⟩ := hp
    by_cases hk : a.bells.length = m
    · obtain ⟨σ, rfl⟩ := ha.exists_perm' hk
      rw [(C31_permute hm τ σ hc).2.1] at h1
      have := Except.ok.inj (Except.ok.inj h1)
      rw [← this] at hst
      simp at hst
    · rw [(C31_mismatch _ _ ha (by simp [PlaceNot.ofChange, hk])).2] at h1
      cases h1

example := C32_unique ⟨[⟨3⟩, ⟨1⟩, ⟨2⟩, ⟨0⟩]⟩ ⟨[⟨3⟩, ⟨2⟩, ⟨1⟩, ⟨0⟩]⟩ (by decide)
  (by decide) ⟨[0, 3], ⟨4⟩⟩ ⟨[0, 3], ⟨4⟩⟩ ⟨4, by decide, Equiv.swap 1 2, by decide, rfl⟩
  ⟨4, by decide, Equiv.swap 1 2, by decide, rfl⟩ (by decide +kernel) (by decide +kernel)

/-- Rows of different stages have no place notation between them. -/
theorem C32_mismatch (a b : Row) (ha : a.Valid) (hb : b.Valid)
    (hst : a.bells.length ≠ b.bells.length) : pnBetween a b = .ok none := by
  unfold pnBetween
  rw [ha.stage_eq, hb.stage_eq]
  simp only [Res.ok_bind, Res.pure_eq]
  rw [if_pos (by simpa using hst)]

example : pnBetween ⟨[⟨0⟩, ⟨1⟩, ⟨2⟩, ⟨3⟩]⟩ ⟨[⟨1⟩, ⟨0⟩, ⟨2⟩, ⟨3⟩]⟩ = .ok (some ⟨[2, 3], ⟨4⟩⟩) ∧
    pnBetween ⟨[⟨0⟩, ⟨1⟩, ⟨2⟩, ⟨3⟩]⟩ ⟨[⟨2⟩, ⟨0⟩, ⟨1⟩, ⟨3⟩]⟩ = .ok none := by decide

/-! ## C33: display -/

/-- Every place notation on at most 33 bells survives being displayed and parsed. -/
theorem C33_display_parse (pn : PlaceNot) (hw : pn.WellFormed) (h33 : pn.stage.numBells ≤ 33) :
    parse pn.display pn.stage = .ok (.ok pn) := by
  obtain ⟨ps, ⟨m⟩⟩ := pn
  obtain ⟨hm, hg⟩ := (PlaceNot.wellFormed_iff_gaps _).1 hw
  simp only at hm hg h33 ⊢
  cases ps with
  | nil =>
    have hd : display ⟨[], ⟨m⟩⟩ = ['-'] := rfl
    have he := hg.windows.2.2.2 rfl
    rw [hd, ((C30_cross ['-'] (.inr (.inr rfl)) m).1 (by omega)).1]
  | cons p rest =>
    obtain ⟨k, hk, τ, hc, hτ⟩ := hw
    have hkm : k = m := (congrArg (fun q : PlaceNot => q.stage.numBells) hτ).symm
    subst hkm
    have hpl : p :: rest = (PlaceNot.ofChange τ).places := congrArg PlaceNot.places hτ
    obtain ⟨h1, -, h3, -⟩ := C30_places τ
    rw [← hpl] at h1 h3
    have hfm : (display ⟨p :: rest, ⟨k⟩⟩).filterMap Bell.fromName =
        (p :: rest).map Bell.fromIndex := by
      have hd : display ⟨p :: rest, ⟨k⟩⟩ = ((p :: rest).map Bell.fromIndex).flatMap Bell.name := by
        unfold display isCross
        simp [List.flatMap_map]
      rw [hd]
      apply display_filterMap
      intro b hb
      obtain ⟨x, hx, rfl⟩ := List.mem_map.1 hb
      have := h3 x hx
      show x < 33
      omega
    have hgiven : givenPlaces (display ⟨p :: rest, ⟨k⟩⟩) = p :: rest := by
      unfold givenPlaces
      rw [hfm, List.map_map]
      exact List.map_id' _
    have hx : ¬ IsCrossText (display ⟨p :: rest, ⟨k⟩⟩) := by
      intro hx
      have : givenPlaces (display ⟨p :: rest, ⟨k⟩⟩) = [] := by
        rcases hx with h | h | h <;> rw [h] <;> decide
      rw [hgiven] at this
      cases this
    rw [parse_not_cross _ _ hx, hgiven, sortPlaces_of_sorted (h1.imp Nat.le_of_lt)]
    exact hg.fromSortedSlice (by simp)

example := C33_display_parse ⟨[0, 3], ⟨4⟩⟩ ⟨4, by decide, Equiv.swap 1 2, by decide, rfl⟩ (by decide)

/-- From 34 bells on the law fails: place 34 is displayed as `<34>`. -/
theorem C33_display_parse_false_at_34 : ∃ pn : PlaceNot, pn.WellFormed ∧
    parse pn.display pn.stage ≠ .ok (.ok pn) := by
  refine ⟨⟨[0, 33], ⟨34⟩⟩, ?_, by decide +kernel⟩
  rw [PlaceNot.wellFormed_iff_gaps]
  refine ⟨by decide, .place ?_⟩
  have : Gaps 34 33 [33] := .place .done
  exact this.swaps_to (by decide) (by decide)

/-- `has_internal_places` says whether a place other than lead and lie is made; `is_cross` whether
none is made. -/
theorem C33_internal_places (hn : 0 < n) (τ : Equiv.Perm (Fin n)) :
    ((PlaceNot.ofChange τ).hasInternalPlaces = true ↔
      ∃ x : Fin n, τ x = x ∧ x.val ≠ 0 ∧ x.val + 1 ≠ n) ∧
    ((PlaceNot.ofChange τ).isCross = true ↔ ∀ x, τ x ≠ x) := by
  obtain ⟨h1, h2, h3, h4⟩ := C30_places τ
  have hmem : ∀ x, x ∈ (PlaceNot.ofChange τ).places ↔ ∃ h : x < n, τ ⟨x, h⟩ = ⟨x, h⟩ := by
    intro x
    constructor
    · intro hx
      have hlt := h3 x hx
      exact ⟨hlt, (h4 ⟨x, hlt⟩).1 (by simpa [contains] using hx)⟩
    · rintro ⟨hlt, hx⟩
      simpa [contains] using (h4 ⟨x, hlt⟩).2 hx
  constructor
  · -- in terms of the list of places
    have hiff : (∃ x : Fin n, τ x = x ∧ x.val ≠ 0 ∧ x.val + 1 ≠ n) ↔
        ∃ x ∈ (PlaceNot.ofChange τ).places, x ≠ 0 ∧ x ≠ n - 1 := by
      constructor
      · rintro ⟨x, hx, h0, hl⟩
        exact ⟨x.val, (hmem _).2 ⟨x.isLt, hx⟩, h0, by omega⟩
      · rintro ⟨x, hx, h0, hl⟩
        obtain ⟨hlt, hx'⟩ := (hmem x).1 hx
        exact ⟨⟨x, hlt⟩, hx', h0, by simp only; omega⟩
    rw [hiff]
    unfold hasInternalPlaces
    rw [h2]
    generalize (PlaceNot.ofChange τ).places = ps at h1 h3
    clear hiff hmem h4 h2
    simp only [decide_eq_true_eq, beq_iff_eq]
    rcases ps with _ | ⟨a, rest⟩
    · simp
    · rcases List.eq_nil_or_concat rest with rfl | ⟨mid, z, hz'⟩
      · have := h3 a (by simp)
        simp only [List.head?_cons, List.getLast?_singleton, Option.some.injEq, List.length_singleton,
          List.mem_singleton, exists_eq_left]
        split <;> split <;> omega
      · rw [List.concat_eq_append] at hz'
        subst hz'
        have hz := h3 z (by simp)
        have ha : ∀ x ∈ mid ++ [z], a < x := (List.pairwise_cons.1 h1).1
        have hmid : ∀ x ∈ mid, x < z := fun x hx =>
          (List.pairwise_append.1 (List.pairwise_cons.1 h1).2).2.2 x hx z (List.mem_singleton.2 rfl)
        have haz := ha z (by simp)
        have hlast : (a :: (mid ++ [z])).getLast? = some z := by
          rw [← List.cons_append]
          exact List.getLast?_concat
        simp only [List.head?_cons, hlast, Option.some.injEq,
          List.length_cons, List.length_append, List.length_nil]
        constructor
        · intro hlen
          by_cases h0 : a = 0
          · by_cases hl : z = n - 1
            · rw [if_pos h0, if_pos hl] at hlen
              obtain ⟨x, hx⟩ : ∃ x, x ∈ mid := by
                cases mid with
                | nil => simp at hlen
                | cons x _ => exact ⟨x, by simp⟩
              have := hmid x hx
              have := ha x (by simp [hx])
              exact ⟨x, by simp [hx], by omega, by omega⟩
            · exact ⟨z, by simp, by omega, hl⟩
          · exact ⟨a, by simp, h0, by omega⟩
        · rintro ⟨x, hx, h0, hl⟩
          simp only [List.mem_cons, List.mem_append, List.not_mem_nil, or_false] at hx
          rcases hx with rfl | hx | rfl
          · rw [if_neg h0]; split <;> omega
          · have : 0 < mid.length := List.length_pos_of_mem hx
            split <;> split <;> omega
          · rw [if_neg hl]; split <;> omega
  · unfold isCross
    rw [List.isEmpty_iff, List.eq_nil_iff_forall_not_mem]
    constructor
    · intro h x hx
      exact h x.val ((hmem _).2 ⟨x.isLt, hx⟩)
    · intro h x hx
      obtain ⟨hlt, hx'⟩ := (hmem x).1 hx
      exact h _ hx'

example : (PlaceNot.ofChange (n := 4) (Equiv.swap 0 1)).hasInternalPlaces = true ∧
    (PlaceNot.ofChange (n := 4) (Equiv.swap 1 2)).hasInternalPlaces = false := by decide

end Bellframe.Props
