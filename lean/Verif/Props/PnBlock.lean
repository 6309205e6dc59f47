import Verif.Proofs.PnBlockParse
import Verif.Proofs.PnBlockErrors
import Verif.Props.PlaceNot
import Verif.Props.Block

/-! # C34–C36: blocks of place notation -/

namespace Bellframe.Props

open PnBlock

/-! ## C34: syntax -/

/-- `PnBlock::parse` accepts exactly the texts described by `BlockText`, with exactly the changes
described there. -/
theorem C34_syntax (text : List Char) (stage : Stage) (pns : List PlaceNot) :
    PnBlock.parse text stage = .ok (.ok ⟨pns⟩) ↔ BlockText stage text pns := by
  have hloop := parseLoop_ok_iff stage (!text.contains ',') (splitComma text) 0 []
  unfold PnBlock.parse
  obtain ⟨r, hr⟩ := parseLoop_total stage (!text.contains ',') (splitComma text) 0 []
  simp only [hr, Res.ok_bind]
  have hmatch : ∀ ps : List (List Char × Bool × List PlaceNot), ps.map (·.1) = splitComma text →
      assembleParts (ps.map (·.2)) =
      ps.flatMap fun p => if (!text.contains ',') then p.2.2 else unfoldPart p.2.1 p.2.2 := by
    intro ps hps
    have hl : ps.length = (splitComma text).length := by rw [← hps, List.length_map]
    rw [contains_comma, ← hl]
    match ps with
    | [] => rfl
    | [p] => simp [assembleParts]
    | p :: q :: ps => simp [assembleParts, List.flatMap_map]
  constructor
  · intro h
    cases r with
    | error e => cases h
    | ok pns' =>
      simp only at h
      split at h
      · cases h
      · rename_i hne
        cases h
        obtain ⟨ps, h1, h2, h3⟩ := (hloop pns).1 hr
        refine ⟨by simpa using hne, ps, by rw [h1, joinComma_splitComma], ?_, ?_, ?_⟩
        · rintro rfl
          exact splitComma_ne text h1.symm
        · intro p hp
          exact ⟨splitComma_no_comma text p.1 (by rw [← h1]; exact List.mem_map.2 ⟨p, hp, rfl⟩), h2 p hp⟩
        · rw [hmatch ps h1, h3, List.nil_append]
  · rintro ⟨hne, ps, h1, h2, h3, h4⟩
    have hs : ps.map (·.1) = splitComma text := by
      rw [h1, splitComma_joinComma (by simpa using h2)]
      intro q hq
      obtain ⟨p, hp, rfl⟩ := List.mem_map.1 hq
      exact (h3 p hp).1
    have := (hloop pns).2 ⟨ps, hs, fun p hp => (h3 p hp).2, by rw [h4, hmatch ps hs, List.nil_append]⟩
    rw [hr] at this
    cases this
    simp [hne]

/-- Parsing never panics. -/
theorem C34_total (text : List Char) (stage : Stage) : ∃ r, PnBlock.parse text stage = .ok r := by
  unfold PnBlock.parse
  obtain ⟨r, hr⟩ := parseLoop_total stage (!text.contains ',') (splitComma text) 0 []
  simp only [hr, Res.ok_bind]
  cases r with
  | error e => exact ⟨_, rfl⟩
  | ok pns =>
    simp only
    split <;> exact ⟨_, rfl⟩

theorem name_place {i : Nat} (hi : i < 33) : ∀ c ∈ Bell.name ⟨i⟩, IsPlaceChar c := by
  intro c hc
  have h := display_filterMap [⟨i⟩] (by intro b hb; simp at hb; subst hb; exact hi)
  obtain ⟨d, hd⟩ : ∃ d, Bell.name ⟨i⟩ = [d] := by
    have : ∀ i : Fin 33, ∃ d, Bell.name ⟨i.val⟩ = [d] := by
      intro i
      have : (Bell.name ⟨i.val⟩).length = 1 := by revert i; decide
      exact List.length_eq_one_iff.1 this
    exact this ⟨i, hi⟩
  rw [hd] at hc
  simp only [List.mem_singleton] at hc
  subst hc
  simp only [List.flatMap_cons, List.flatMap_nil, hd, List.append_nil, List.filterMap_cons,
    List.filterMap_nil] at h
  cases hb : Bell.fromName c with
  | none => rw [hb] at h; cases h
  | some b => exact ⟨b, hb⟩

/-- A displayed place notation, in front of correct text that starts with a delimiter or is empty. -/
theorem body_display {pn : PlaceNot} (hw : pn.WellFormed) (h33 : pn.stage.numBells ≤ 33)
    {rest : List Char} {pns : List PlaceNot} (hr : ∀ c, rest.head? = some c → IsDelimChar c)
    (hb : Body pn.stage rest pns) : Body pn.stage (pn.display ++ rest) (pn :: pns) := by
  have hp := C33_display_parse pn hw h33
  obtain ⟨ps, ⟨m⟩⟩ := pn
  cases ps with
  | nil =>
    have hd : PlaceNot.display ⟨[], ⟨m⟩⟩ = ['-'] := rfl
    rw [hd] at hp ⊢
    have he : m % 2 = 0 := by
      by_contra ho
      rw [(C30_cross ['-'] (.inr (.inr rfl)) m).2 (by omega)] at hp
      cases hp
    exact .cross (.inr (.inr rfl)) he hb
  | cons p rest' =>
    refine .places ?_ hp (fun c hc => .inl (hr c hc)) hb
    intro c hc
    left
    have hd : PlaceNot.display ⟨p :: rest', ⟨m⟩⟩ =
        ((p :: rest').map Bell.fromIndex).flatMap Bell.name := by
      unfold PlaceNot.display PlaceNot.isCross
      simp [List.flatMap_map]
    rw [hd] at hc
    obtain ⟨b, hb', hc'⟩ := List.mem_flatMap.1 hc
    obtain ⟨x, hx, rfl⟩ := List.mem_map.1 hb'
    obtain ⟨k, hk, τ, hch, hτ⟩ := hw
    have hkm : k = m := (congrArg (fun q : PlaceNot => q.stage.numBells) hτ).symm
    subst hkm
    have hpl : p :: rest' = (PlaceNot.ofChange τ).places := congrArg PlaceNot.places hτ
    have := (C30_places τ).2.2.1 x (hpl ▸ hx)
    exact name_place (i := x) (by simp only at h33; omega) c hc'

/-- Place notations written one after another, separated by a delimiter, are read back as they are. -/
theorem C34_separated (stage : Stage) (h33 : stage.numBells ≤ 33) (pns : List PlaceNot)
    (hne : pns ≠ []) (hw : ∀ pn ∈ pns, pn.WellFormed ∧ pn.stage = stage)
    (d : Char) (hd : IsDelimChar d) :
    PnBlock.parse ((pns.map PlaceNot.display).intersperse [d]).flatten stage = .ok (.ok ⟨pns⟩) := by
  have hbody : ∀ (pns : List PlaceNot), (∀ pn ∈ pns, pn.WellFormed ∧ pn.stage = stage) →
      Body stage ((pns.map PlaceNot.display).intersperse [d]).flatten pns := by
    intro pns
    induction pns with
    | nil => intro _; exact .nil
    | cons pn pns ih =>
      intro h
      obtain ⟨h1, h2⟩ := h pn (by simp)
      have ih := ih fun q hq => h q (by simp [hq])
      cases pns with
      | nil =>
        have := body_display h1 (by rw [h2]; exact h33) (rest := []) (pns := []) (by simp) .nil
        rw [h2] at this
        simpa using this
      | cons q qs =>
        have := body_display h1 (by rw [h2]; exact h33)
          (rest := d :: (((q :: qs).map PlaceNot.display).intersperse [d]).flatten)
          (pns := q :: qs) (by simp [hd]) (by rw [h2]; exact .skip (.inl hd) ih)
        rw [h2] at this
        simpa using this
  have hcomma : ∀ (text : List Char) (l : List PlaceNot), text ≠ [] →
      (∀ pn ∈ l, pn.WellFormed ∧ pn.stage = stage) →
      text = ((l.map PlaceNot.display).intersperse [d]).flatten → ',' ∉ text := by
    intro text l _ hl ht hm
    rw [ht] at hm
    obtain ⟨t, ht, hm⟩ := List.mem_flatten.1 hm
    have hmem : t = [d] ∨ t ∈ l.map PlaceNot.display := by
      have : ∀ (l : List (List Char)) (t x : List Char), t ∈ l.intersperse x → t = x ∨ t ∈ l := by
        intro l
        induction l with
        | nil => intro t x h; simp at h
        | cons a l ih =>
          intro t x h
          cases l with
          | nil => simp at h; simp [h]
          | cons b l =>
            simp only [List.intersperse_cons_cons, List.mem_cons] at h
            rcases h with h | h | h
            · simp [h]
            · simp [h]
            · rcases ih t x (by simpa using h) with h | h
              · exact .inl h
              · exact .inr (List.mem_cons_of_mem _ h)
      exact this _ _ _ ht
    rcases hmem with rfl | hmem
    · simp only [List.mem_singleton] at hm
      subst hm
      rcases hd with hd | hd <;> exact absurd hd (by decide)
    · obtain ⟨pn, hpn, rfl⟩ := List.mem_map.1 hmem
      obtain ⟨h1, h2⟩ := hl pn hpn
      have hb := body_display h1 (by rw [h2]; exact h33) (rest := []) (pns := []) (by simp) .nil
      obtain ⟨ps, st⟩ := pn
      cases ps with
      | nil =>
        have : PlaceNot.display ⟨[], st⟩ = ['-'] := rfl
        rw [this] at hm
        simp at hm
      | cons p rest' =>
        have hd : PlaceNot.display ⟨p :: rest', st⟩ =
            ((p :: rest').map Bell.fromIndex).flatMap Bell.name := by
          unfold PlaceNot.display PlaceNot.isCross
          simp [List.flatMap_map]
        rw [hd] at hm
        obtain ⟨b, hb', hc'⟩ := List.mem_flatMap.1 hm
        obtain ⟨x, hx, rfl⟩ := List.mem_map.1 hb'
        obtain ⟨k, hk, τ, hch, hτ⟩ := h1
        have hpl : p :: rest' = (PlaceNot.ofChange τ).places := congrArg PlaceNot.places hτ
        have hst : st = ⟨k⟩ := congrArg PlaceNot.stage hτ
        have hk33 : k ≤ 33 := by
          have := h33
          rw [← h2] at this
          simp only [hst] at this
          exact this
        have hxk := (C30_places τ).2.2.1 x (hpl ▸ hx)
        obtain ⟨b, hb⟩ := name_place (i := x) (by omega) ',' hc'
        rw [show Bell.fromName ',' = none by decide] at hb
        cases hb
  rw [C34_syntax]
  refine ⟨hne, [(((pns.map PlaceNot.display).intersperse [d]).flatten, false, pns)],
    by simp [joinComma], by simp, ?_, rfl⟩
  intro p hp
  simp only [List.mem_singleton] at hp
  subst hp
  refine ⟨?_, .sym (hbody pns hw)⟩
  by_cases ht : ((pns.map PlaceNot.display).intersperse [d]).flatten = []
  · rw [ht]; simp
  · exact hcomma _ pns ht hw rfl

example := C34_separated ⟨4⟩ (by decide) [⟨[0, 3], ⟨4⟩⟩, ⟨[0, 3], ⟨4⟩⟩] (by decide)
  (fun pn h => by
    obtain rfl : pn = ⟨[0, 3], ⟨4⟩⟩ := by simpa using h
    exact ⟨⟨4, by decide, Equiv.swap 1 2, by decide, rfl⟩, rfl⟩) '.' (.inr rfl)

/-- Everything `parse` returns is one or more changes of the given stage. -/
theorem C34_well_formed (text : List Char) (stage : Stage) (hs : stage.Valid) (b : PnBlock)
    (h : PnBlock.parse text stage = .ok (.ok b)) :
    b.pns ≠ [] ∧ ∀ pn ∈ b.pns, pn.WellFormed ∧ pn.stage = stage := by
  obtain ⟨hne, ps, h1, h2, h3, h4⟩ := (C34_syntax text stage b.pns).1 h
  refine ⟨hne, ?_⟩
  have hbody : ∀ {t : List Char} {l : List PlaceNot}, Body stage t l →
      ∀ pn ∈ l, pn.WellFormed ∧ pn.stage = stage := by
    intro t l hb
    have hv := Row.rounds_valid hs
    induction hb with
    | nil => simp
    | skip _ _ ih => exact ih
    | cross _ he _ ih =>
      intro pn hpn
      rcases List.mem_cons.1 hpn with rfl | hpn
      · exact (C30_well_formed [] stage hs [] (by simp) _ _ hv hv _).2.2.1
          (by simp [PlaceNot.cross, he])
      · exact ih pn hpn
    | places _ hp _ _ ih =>
      intro pn hpn
      rcases List.mem_cons.1 hpn with rfl | hpn
      · exact (C30_well_formed _ stage hs [] (by simp) _ _ hv hv _).1 hp
      · exact ih pn hpn
  have hpart : ∀ p ∈ ps, ∀ pn ∈ p.2.2, pn.WellFormed ∧ pn.stage = stage := by
    intro p hp
    obtain ⟨t, a, l⟩ := p
    cases (h3 _ hp).2 with
    | sym hb => exact hbody hb
    | asym _ hb => exact hbody hb
  intro pn hpn
  rw [h4] at hpn
  have : ∃ p ∈ ps, pn ∈ p.2.2 := by
    match ps, hpn with
    | [p], hpn => exact ⟨p, by simp, hpn⟩
    | [], hpn => simp [assembleParts] at hpn
    | p :: q :: ps, hpn =>
      simp only [List.map_cons, assembleParts] at hpn
      obtain ⟨r, hr, hm⟩ := List.mem_flatMap.1 hpn
      have hr : r ∈ (p :: q :: ps).map (·.2) := hr
      obtain ⟨p', hp', rfl⟩ := List.mem_map.1 hr
      refine ⟨p', hp', ?_⟩
      unfold unfoldPart at hm
      split at hm
      · exact hm
      · rcases List.mem_append.1 hm with hm | hm
        · exact hm
        · exact List.dropLast_subset _ (List.mem_reverse.1 hm)
  obtain ⟨p, hp, hm⟩ := this
  exact hpart p hp pn hm

/-- Plain Bob Minimus is read as its two symmetric parts unfolded; `+` stops the unfolding. -/
example : PnBlock.parse "x14x14,12".toList ⟨4⟩ = .ok (.ok ⟨[⟨[], ⟨4⟩⟩, ⟨[0, 3], ⟨4⟩⟩, ⟨[], ⟨4⟩⟩,
      ⟨[0, 3], ⟨4⟩⟩, ⟨[], ⟨4⟩⟩, ⟨[0, 3], ⟨4⟩⟩, ⟨[], ⟨4⟩⟩, ⟨[0, 1], ⟨4⟩⟩]⟩) ∧
    PnBlock.parse "+x14,12".toList ⟨4⟩ = .ok (.ok ⟨[⟨[], ⟨4⟩⟩, ⟨[0, 3], ⟨4⟩⟩, ⟨[0, 1], ⟨4⟩⟩]⟩) ∧
    PnBlock.parse " , .".toList ⟨4⟩ = .ok (.error .emptyBlock) := by
  refine ⟨by decide +kernel, by decide +kernel, by decide +kernel⟩

/-! ## C35: error positions -/

/-- A text is rejected exactly if nothing in it means anything, or if one of its parts is wrong. The
error is then about the first piece of text that is wrong, in the first part that is wrong. The
positions reported are the true positions moved by once more the position of the part, and the end
of the range of a wrong group of places is one byte too far. -/
theorem C35_positions_partial (text : List Char) (stage : Stage) (e : PnBlockParseError) :
    PnBlock.parse text stage = .ok (.error e) ↔
    (e = .emptyBlock ∧ ∃ parts, text = joinComma parts ∧ parts ≠ [] ∧
      ∀ part ∈ parts, ',' ∉ part ∧ ∃ a, PartText stage part a []) ∨
    ∃ done part todo before wrong e0, text = joinComma (done ++ part :: todo) ∧
      (∀ p ∈ done ++ part :: todo, ',' ∉ p) ∧
      (∀ p ∈ done, ∃ a pns, PartText stage p a pns) ∧ WrongPart stage part before wrong e0 ∧
      e = e0.shifted (2 * Bell.utf8Len (textBefore done)) := by
  refine ⟨fun h => ?_, fun h => ?_⟩
  case refine_2 =>
    rcases h with ⟨rfl, parts, rfl, hne, hp⟩ | ⟨done, part, todo, before, w, e0, rfl, h2, h3, h4, rfl⟩
    · unfold PnBlock.parse
      have hs := splitComma_joinComma hne fun p h => (hp p h).1
      have : ∀ single, parseLoop stage single parts 0 [] = .ok (.ok []) := by
        intro single
        choose! f hf using fun p h => (hp p h).2
        refine (parseLoop_ok_iff stage single parts 0 [] []).2
          ⟨parts.map fun p => (p, f p, []), by simp [Function.comp_def], ?_, ?_⟩
        · intro q hq
          obtain ⟨p, h1, rfl⟩ := List.mem_map.1 hq
          exact hf p h1
        · rw [List.nil_append, eq_comm, List.flatMap_eq_nil_iff]
          intro q hq
          obtain ⟨p, h1, rfl⟩ := List.mem_map.1 hq
          simp [unfoldPart]
      simp only [hs, this, Res.ok_bind]
      rfl
    · unfold PnBlock.parse
      have hs := splitComma_joinComma (ps := done ++ part :: todo) (by simp) h2
      simp only [hs, parseLoop_of_wrong h4 done h3, Res.ok_bind, Nat.zero_add]
      rfl
  unfold PnBlock.parse at h
  obtain ⟨r, hr⟩ := parseLoop_total stage (!text.contains ',') (splitComma text) 0 []
  simp only [hr, Res.ok_bind] at h
  cases r with
  | ok pns =>
    simp only at h
    split at h
    · rename_i hne
      cases h
      refine .inl ⟨rfl, splitComma text, (joinComma_splitComma text).symm, splitComma_ne text, ?_⟩
      obtain ⟨ps, h1, h2, h3⟩ := (parseLoop_ok_iff stage _ _ _ _ _).1 hr
      have hnil : pns = [] := by simpa using hne
      rw [hnil] at h3
      intro part hp
      refine ⟨splitComma_no_comma text part hp, ?_⟩
      rw [← h1] at hp
      obtain ⟨⟨t, a, l⟩, hp', rfl⟩ := List.mem_map.1 hp
      have hl : l = [] := by
        rw [List.nil_append] at h3
        have := List.flatMap_eq_nil_iff.1 h3.symm _ hp'
        simp only at this
        split at this
        · exact this
        · unfold unfoldPart at this
          split at this
          · exact this
          · exact (List.append_eq_nil_iff.1 this).1
      subst hl
      exact ⟨a, h2 _ hp'⟩
    · cases h
  | error e' =>
    cases h
    right
    obtain ⟨done, part, todo, before, w, e0, h1, h2, h3, h4⟩ := parseLoop_wrong stage _ _ _ _ _ hr
    refine ⟨done, part, todo, before, w, e0, ?_, ?_, h2, h3, by simpa using h4⟩
    · rw [← h1, joinComma_splitComma]
    · rw [← h1]
      exact splitComma_no_comma text

/-- In particular positions in texts without commas are right, but for the end of the range of a wrong
group of places. -/
theorem C35_single_part_partial (text : List Char) (hc : ',' ∉ text) (stage : Stage)
    (e : PnBlockParseError) (h : PnBlock.parse text stage = .ok (.error e)) (he : e ≠ .emptyBlock) :
    ∃ before wrong e0, WrongPart stage text before wrong e0 ∧ e = e0.shifted 0 := by
  rcases (C35_positions_partial text stage e).1 h with ⟨h1, -⟩ |
    ⟨done, part, todo, before, w, e0, h1, h2, h3, h4, h5⟩
  · exact absurd h1 he
  · have hs := splitComma_joinComma (ps := done ++ part :: todo) (by simp) h2
    rw [← h1, splitComma_no_comma_self hc] at hs
    cases done with
    | nil =>
      simp only [List.nil_append, List.cons.injEq] at hs
      rw [hs.1]
      exact ⟨before, w, e0, h4, by simpa [textBefore, Bell.utf8Len] using h5⟩
    | cons d done =>
      simp only [List.cons_append, List.cons.injEq] at hs
      have := congrArg List.length hs.2
      simp at this

example := C35_single_part_partial "x18x".toList (by decide) ⟨6⟩ _ rfl (by decide)

/-- The positions are wrong after a comma: the `+` is at byte 3, but 5 is reported, outside the
text. -/
theorem C35_positions_false : ∃ (text : List Char) (stage : Stage) (i : Nat), stage.Valid ∧
    PnBlock.parse text stage = .ok (.error (.plusNotAtBlockStart i)) ∧
    Bell.utf8Len text ≤ i ∧ ¬ ∃ before after, text = before ++ '+' :: after ∧ i = Bell.utf8Len before := by
  refine ⟨"x,x+".toList, ⟨8⟩, 5, by decide, by decide +kernel, by decide, ?_⟩
  rintro ⟨before, after, h1, h2⟩
  have h3 := congrArg Bell.utf8Len h1
  rw [utf8Len_append, utf8Len_cons, ← h2] at h3
  have : Bell.utf8Len "x,x+".toList = 4 := by decide
  omega

/-- The range of a wrong group of places reaches past it, even past the end of the text. -/
theorem C35_range_false : ∃ (text : List Char) (stage : Stage) (s t : Nat) (e : PnParseError),
    stage.Valid ∧ PnBlock.parse text stage = .ok (.error (.pnError s t e)) ∧ Bell.utf8Len text < t :=
  ⟨"x4x15".toList, ⟨8⟩, 3, 6, .ambiguousPlacesBetween 0 4, by decide, by decide +kernel, by decide⟩

/-! ## C36: rows and constructors -/

variable {n : Nat}

theorem follows_scanl (σ : Equiv.Perm (Fin n)) (τs : List (Equiv.Perm (Fin n))) :
    Follows σ τs (τs.scanl (· * ·) σ) :=
  ⟨by simp, by cases τs <;> simp [List.scanl], fun k τ h => scanl_get τs σ k τ h⟩

theorem toRows_ofChanges (hn : 0 < n) (σ : Equiv.Perm (Fin n)) (τs : List (Equiv.Perm (Fin n)))
    (hne : τs ≠ []) (hc : ∀ τ ∈ τs, IsChange τ) :
    PnBlock.toRows ⟨τs.map PlaceNot.ofChange⟩ (.ofPerm σ) =
      .ok (.ok (.ofRows ⟨n⟩ ((τs.scanl (· * ·) σ).map Row.ofPerm))) := by
  obtain ⟨τ, rest, rfl⟩ : ∃ τ rest, τs = τ :: rest := by
    cases τs with
    | nil => exact absurd rfl hne
    | cons a b => exact ⟨a, b, rfl⟩
  have hst : PnBlock.stage ⟨(τ :: rest).map PlaceNot.ofChange⟩ = .ok ⟨n⟩ := by
    simp [PnBlock.stage, getIdx, PlaceNot.ofChange]
  have hbuf : SameStageVec.fromRowBuf (.ofPerm σ) = .ok (.ofRows ⟨n⟩ ([σ].map Row.ofPerm)) := by
    rw [SameStageVec.ofRows_fromRowBuf (Row.ofPerm_valid hn σ)]
    simp
  simp only [PnBlock.toRows, Row.ofPerm_stage hn, hst, Res.ok_bind, Row.testErr_self, hbuf]
  rw [toRowsLoop_ofChange hn (τ :: rest) σ [σ] hc]
  simp only [Res.ok_bind]
  rw [show [σ] ++ ((τ :: rest).scanl (· * ·) σ).tail = (τ :: rest).scanl (· * ·) σ by
    rw [List.scanl_cons]; rfl]
  rfl

/-- The rows of `k` changes from a row of their stage: `k + 1` rows, the first of them the given one,
each next one the last one changed by the next change. `to_block` and `to_block_from_rounds` give the
block with these rows, the last of them left over, and default annotations. -/
theorem C36_rows {A : Type} (dflt : A) (hn : 0 < n) (σ : Equiv.Perm (Fin n))
    (τs : List (Equiv.Perm (Fin n))) (hne : τs ≠ []) (hc : ∀ τ ∈ τs, IsChange τ) :
    (∃ ρs, Follows σ τs ρs ∧ PnBlock.toRows ⟨τs.map PlaceNot.ofChange⟩ (.ofPerm σ) =
      .ok (.ok (.ofRows ⟨n⟩ (ρs.map Row.ofPerm)))) ∧
    (∃ ρs l, Follows σ τs (ρs ++ [l]) ∧ PnBlock.toBlock dflt ⟨τs.map PlaceNot.ofChange⟩ (.ofPerm σ) =
      .ok (.ok (.ofPerms ρs l (List.replicate τs.length dflt)))) ∧
    (∃ ρs l, Follows 1 τs (ρs ++ [l]) ∧
      PnBlock.toBlockFromRounds dflt ⟨τs.map PlaceNot.ofChange⟩ =
        .ok (.ofPerms ρs l (List.replicate τs.length dflt))) ∧
    PnBlock.len ⟨τs.map PlaceNot.ofChange⟩ = τs.length ∧
    PnBlock.stage ⟨τs.map PlaceNot.ofChange⟩ = .ok ⟨n⟩ := by
  have hst : PnBlock.stage ⟨τs.map PlaceNot.ofChange⟩ = .ok ⟨n⟩ := by
    cases τs with
    | nil => exact absurd rfl hne
    | cons a b => simp [PnBlock.stage, getIdx, PlaceNot.ofChange]
  have hblock : ∀ σ : Equiv.Perm (Fin n), ∃ ρs l, Follows σ τs (ρs ++ [l]) ∧
      PnBlock.toBlock dflt ⟨τs.map PlaceNot.ofChange⟩ (.ofPerm σ) =
        .ok (.ok (.ofPerms ρs l (List.replicate τs.length dflt))) := by
    intro σ
    have hlen : (τs.scanl (· * ·) σ).length = τs.length + 1 := by simp
    obtain ⟨ρs, l, hl⟩ : ∃ ρs l, τs.scanl (· * ·) σ = ρs ++ [l] := by
      rcases List.eq_nil_or_concat (τs.scanl (· * ·) σ) with h | ⟨a, b, h⟩
      · rw [h] at hlen; simp at hlen
      · exact ⟨a, b, by rw [h, List.concat_eq_append]⟩
    refine ⟨ρs, l, hl ▸ follows_scanl σ τs, ?_⟩
    have hro := RowsOf.perms hn (τs.scanl (· * ·) σ)
    simp only [PnBlock.toBlock, toRows_ofChanges hn σ τs hne hc, Res.ok_bind]
    have hd : AnnotBlock.withDefaultAnnots dflt
        (.ofRows ⟨n⟩ ((τs.scanl (· * ·) σ).map Row.ofPerm)) =
        .ok (.ofPerms ρs l (List.replicate τs.length dflt)) := by
      have hemp : ((τs.scanl (· * ·) σ).map Row.ofPerm).isEmpty = false := by rw [hl]; simp
      simp only [AnnotBlock.withDefaultAnnots, SameStageVec.ofRows_isEmpty hro, hemp, assertThat,
        SameStageVec.ofRows_len hro, checkedSub, List.length_map, hlen, Res.ok_bind]
      simp [AnnotBlock.ofPerms, ← hl]
    rw [hd]
    rfl
  refine ⟨⟨_, follows_scanl σ τs, toRows_ofChanges hn σ τs hne hc⟩, hblock σ, ?_, by simp [PnBlock.len],
    hst⟩
  obtain ⟨ρs, l, h1, h2⟩ := hblock 1
  refine ⟨ρs, l, h1, ?_⟩
  simp only [PnBlock.toBlockFromRounds, hst, Res.ok_bind, Row.rounds_eq_ofPerm, h2, unwrapResult]

example := C36_rows (A := Nat) 0 (n := 4) (by decide) (Equiv.swap 0 3)
  [Equiv.swap 0 1 * Equiv.swap 2 3, Equiv.swap 1 2] (by decide) (by decide)

/-- A start row of another stage is rejected. -/
theorem C36_mismatch {A : Type} (dflt : A) (r : Row) (hr : r.Valid)
    (h : r.bells.length ≠ n) (τs : List (Equiv.Perm (Fin n))) (hne : τs ≠ []) :
    PnBlock.toRows ⟨τs.map PlaceNot.ofChange⟩ r = .ok (.error ⟨⟨r.bells.length⟩, ⟨n⟩⟩) ∧
    PnBlock.toBlock dflt ⟨τs.map PlaceNot.ofChange⟩ r =
      .ok (.error ⟨⟨r.bells.length⟩, ⟨n⟩⟩) := by
  have hst : PnBlock.stage ⟨τs.map PlaceNot.ofChange⟩ = .ok ⟨n⟩ := by
    cases τs with
    | nil => exact absurd rfl hne
    | cons a b => simp [PnBlock.stage, getIdx, PlaceNot.ofChange]
  have ht : PnBlock.toRows ⟨τs.map PlaceNot.ofChange⟩ r = .ok (.error ⟨⟨r.bells.length⟩, ⟨n⟩⟩) := by
    simp only [PnBlock.toRows, hr.stage_eq, hst, Res.ok_bind]
    rw [Row.testErr_ne (by simpa using h)]
    rfl
  refine ⟨ht, ?_⟩
  simp only [PnBlock.toBlock, ht, Res.ok_bind]
  rfl

example := C36_mismatch (A := Nat) (n := 4) 0 ⟨[⟨0⟩, ⟨2⟩, ⟨1⟩]⟩ (by decide) (by decide)
  [Equiv.swap 1 2] (by decide)

/-- What `from_vec` and `from_iter` do with every list: empty lists and lists with a stage that differs
from the first are rejected, naming the first such place notation; all others are accepted as they
are. -/
theorem C36_from_vec (pns : List PlaceNot) :
    (pns = [] ∧ PnBlock.fromVec pns = .error .emptyBlock) ∨
    (∃ pn rest, pns = pn :: rest ∧ (∀ q ∈ rest, q.stage = pn.stage) ∧
      PnBlock.fromVec pns = .ok ⟨pns⟩) ∨
    (∃ pn same q rest, pns = pn :: same ++ q :: rest ∧ (∀ p ∈ same, p.stage = pn.stage) ∧
      q.stage ≠ pn.stage ∧
      PnBlock.fromVec pns = .error (.incompatibleStages (same.length + 1) ⟨pn.stage, q.stage⟩)) := by
  cases pns with
  | nil => exact .inl ⟨rfl, rfl⟩
  | cons pn rest =>
    right
    have key : ∀ (rest : List PlaceNot) (i : Nat),
        ((∀ q ∈ rest, q.stage = pn.stage) ∧ checkStages pn.stage rest i = .ok ()) ∨
        ∃ same q rest', rest = same ++ q :: rest' ∧ (∀ p ∈ same, p.stage = pn.stage) ∧
          q.stage ≠ pn.stage ∧
          checkStages pn.stage rest i = .error (.incompatibleStages (same.length + i) ⟨pn.stage, q.stage⟩) := by
      intro rest
      induction rest with
      | nil => intro i; exact .inl ⟨by simp, rfl⟩
      | cons q rest ih =>
        intro i
        by_cases hq : q.stage = pn.stage
        · have e : checkStages pn.stage (q :: rest) i = checkStages pn.stage rest (i + 1) := by
            simp only [checkStages, hq, Row.testErr_self]
          rw [e]
          rcases ih (i + 1) with ⟨h1, h2⟩ | ⟨same, q', rest', h1, h2, h3, h4⟩
          · refine .inl ⟨?_, h2⟩
            intro p hp
            rcases List.mem_cons.1 hp with rfl | hp
            · exact hq
            · exact h1 p hp
          · refine .inr ⟨q :: same, q', rest', by simp [h1], ?_, h3, ?_⟩
            · intro p hp
              rcases List.mem_cons.1 hp with rfl | hp
              · exact hq
              · exact h2 p hp
            · rw [h4, List.length_cons]
              congr 2
              omega
        · refine .inr ⟨[], q, rest, rfl, by simp, hq, ?_⟩
          simp only [checkStages, Row.testErr_ne (Ne.symm hq), List.length_nil, Nat.zero_add]
    rcases key rest 1 with ⟨h1, h2⟩ | ⟨same, q, rest', h1, h2, h3, h4⟩
    · refine .inl ⟨pn, rest, rfl, h1, ?_⟩
      simp only [PnBlock.fromVec, h2]
    · refine .inr ⟨pn, same, q, rest', by simp [h1], h2, h3, ?_⟩
      simp only [PnBlock.fromVec, h4]

/-- Every block that can be made from existing place notations, or parsed, is well-formed. -/
theorem C36_well_formed (pns : List PlaceNot) (hw : ∀ pn ∈ pns, pn.WellFormed) (text : List Char)
    (stage : Stage) (hs : stage.Valid) (b : PnBlock) :
    (PnBlock.fromVec pns = .ok b → b.WellFormed) ∧
    (PnBlock.parse text stage = .ok (.ok b) → b.WellFormed) := by
  have key : ∀ (st : Stage) (l : List PlaceNot), l ≠ [] → st.Valid →
      (∀ pn ∈ l, pn.WellFormed ∧ pn.stage = st) → PnBlock.WellFormed ⟨l⟩ := by
    rintro ⟨m⟩ l hne hv hl
    refine ⟨hne, m, hv, ?_⟩
    have : ∀ l : List PlaceNot, (∀ pn ∈ l, pn.WellFormed ∧ pn.stage = ⟨m⟩) →
        ∃ τs : List (Equiv.Perm (Fin m)), (∀ τ ∈ τs, IsChange τ) ∧ l = τs.map PlaceNot.ofChange := by
      intro l
      induction l with
      | nil => intro _; exact ⟨[], by simp, rfl⟩
      | cons pn l ih =>
        intro h
        obtain ⟨τs, h1, h2⟩ := ih fun q hq => h q (by simp [hq])
        obtain ⟨⟨k, hk, τ, hc, rfl⟩, hst⟩ := h pn (by simp)
        have hkm : k = m := congrArg Stage.numBells hst
        subst hkm
        refine ⟨τ :: τs, ?_, by simp [h2]⟩
        intro t ht
        rcases List.mem_cons.1 ht with rfl | ht
        · exact hc
        · exact h1 t ht
    exact this l hl
  constructor
  · intro h
    rcases C36_from_vec pns with ⟨h1, h2⟩ | ⟨pn, rest, h1, h2, h3⟩ | ⟨pn, same, q, rest, h1, h2, h3, h4⟩
    · rw [h2] at h; cases h
    · rw [h3] at h
      cases h
      obtain ⟨k, hk, τ, hc, hpn⟩ := hw pn (by simp [h1])
      refine key pn.stage pns (by simp [h1]) ?_ ?_
      · rw [hpn]; exact hk
      · intro q hq
        refine ⟨hw q hq, ?_⟩
        rw [h1] at hq
        rcases List.mem_cons.1 hq with rfl | hq
        · rfl
        · exact h2 q hq
    · rw [h4] at h; cases h
  · intro h
    obtain ⟨h1, h2⟩ := C34_well_formed text stage hs b h
    exact key stage b.pns h1 hs h2

example : PnBlock.WellFormed ⟨[⟨[], ⟨4⟩⟩, ⟨[0, 3], ⟨4⟩⟩]⟩ :=
  ((C36_well_formed [] (by simp) "x14".toList ⟨4⟩ (by decide) _).2 (by decide +kernel))

end Bellframe.Props
