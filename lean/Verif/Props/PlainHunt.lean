import Verif.Proofs.PlainHunt
import Verif.Props.Call
import Verif.Props.PnRecover
import Verif.Props.Symmetry

/-! # C93: plain hunting and Plain Bob on all stages -/

namespace Bellframe.Props

open Equiv

variable {n : Nat}

/-! ## The texts -/

theorem bellChars_eq : bellChars = validBellNames := by decide

theorem name_of_index (p : Nat) (h : p < 33) : (Bell.fromIndex p).name = [lastBellChar (p + 1)] := by
  have hl : p < validBellNames.length := by
    rw [show validBellNames.length = 33 by decide]; exact h
  have h1 := C01_name_of_named _ _ (C01_from_name_position p hl)
  change Bell.name ⟨p⟩ = _
  rw [h1, lastBellChar, bellChars_eq, Nat.add_sub_cancel, List.getElem?_eq_getElem hl, Option.getD_some]

theorem ofChange_places (τ : Perm (Fin n)) (L : List Nat) (hs : L.Pairwise (· < ·)) (hlt : ∀ p ∈ L, p < n)
    (h : ∀ x : Fin n, τ x = x ↔ x.val ∈ L) : PlaceNot.ofChange τ = ⟨L, ⟨n⟩⟩ := by
  obtain ⟨h1, -, -, -⟩ := C30_places τ
  have : (PlaceNot.ofChange τ).places = L := by
    apply List.Perm.eq_of_pairwise (le := fun a b : Nat => a < b) (fun a b _ _ h1 h2 => by omega) h1 hs
    rw [List.perm_ext_iff_of_nodup (h1.imp (fun h => by omega)) (hs.imp (fun h => by omega))]
    intro p
    simp only [PlaceNot.ofChange, List.mem_map, List.mem_filter, List.mem_finRange, true_and,
      decide_eq_true_eq]
    constructor
    · rintro ⟨x, hx, rfl⟩
      exact (h x).1 hx
    · intro hp
      exact ⟨⟨p, hlt p hp⟩, (h ⟨p, hlt p hp⟩).2 hp, rfl⟩
  rw [← this]; rfl

theorem display_places (L : List Nat) (hne : L ≠ []) (h33 : ∀ p ∈ L, p < 33) :
    (PlaceNot.mk L ⟨n⟩).display = L.map fun p => lastBellChar (p + 1) := by
  have hc : (PlaceNot.mk L ⟨n⟩).isCross = false := by
    cases L with
    | nil => exact absurd rfl hne
    | cons a l => rfl
  rw [PlaceNot.display, hc, if_neg (by decide)]
  change L.flatMap _ = _
  rw [List.flatMap_congr (g := fun p => [lastBellChar (p + 1)]) (fun p hp => name_of_index p (h33 p hp))]
  exact List.flatMap_pure_eq_map _ _

theorem display_hunt (h2 : 2 ≤ n) (h33 : n ≤ 33) (k : Nat) :
    (PlaceNot.ofChange (huntChange n k)).display =
      if k % 2 = 0 then (huntTexts n).1 else (huntTexts n).2 := by
  have hx : ∀ x : Fin n, huntChange n k x = x ↔ huntFn n k x = x.val := fun x => Fin.ext_iff
  have hfix : ∀ x : Fin n, huntChange n k x = x ↔
      (x.val = 0 ∧ k % 2 = 1) ∨ (x.val = n - 1 ∧ (n - 1) % 2 = k % 2) := by
    intro x
    rw [hx]
    have := x.isLt
    unfold huntFn
    repeat' split
    all_goals omega
  unfold huntTexts
  rcases Nat.mod_two_eq_zero_or_one n with hn | hn <;>
    rcases Nat.mod_two_eq_zero_or_one k with hk | hk
  · rw [if_pos hk, if_pos hn, ofChange_places _ [] (by simp) (by simp)]
    · rfl
    · intro x; rw [hfix]; simp; omega
  · rw [if_neg (by omega), if_pos hn, ofChange_places _ [0, n - 1] (by simp; omega) (by simp; omega)]
    · rw [display_places _ (by simp) (by simp; omega)]
      simp only [List.map_cons, List.map_nil, show n - 1 + 1 = n by omega]
      rfl
    · intro x; rw [hfix]; simp; omega
  · rw [if_pos hk, if_neg (by omega), ofChange_places _ [n - 1] (by simp) (by simp; omega)]
    · rw [display_places _ (by simp) (by simp; omega)]
      simp only [List.map_cons, List.map_nil, show n - 1 + 1 = n by omega]
    · intro x; rw [hfix]; simp; omega
  · rw [if_neg (by omega), if_neg (by omega), ofChange_places _ [0] (by simp) (by simp; omega)]
    · rw [display_places _ (by simp) (by simp)]
      rfl
    · intro x; rw [hfix]; simp; omega

theorem display_bob (h2 : 4 ≤ n) (h33 : n ≤ 33) :
    (PlaceNot.ofChange (bobChange n)).display =
      if n % 2 = 0 then ['1', '2'] else ['1', '2', lastBellChar n] := by
  have hx : ∀ x : Fin n, bobChange n x = x ↔ bobFn n x = x.val := fun x => Fin.ext_iff
  have hfix : ∀ x : Fin n, bobChange n x = x ↔ x.val < 2 ∨ (x.val = n - 1 ∧ n % 2 = 1) := by
    intro x
    rw [hx]
    have := x.isLt
    unfold bobFn huntFn
    repeat' split
    all_goals omega
  rcases Nat.mod_two_eq_zero_or_one n with hn | hn
  · rw [if_pos hn, ofChange_places _ [0, 1] (by simp) (by simp; omega)]
    · rw [display_places _ (by simp) (by simp)]; rfl
    · intro x; rw [hfix]; simp; omega
  · rw [if_neg (by omega), ofChange_places _ [0, 1, n - 1] (by simp; omega) (by simp; omega)]
    · rw [display_places _ (by simp) (by simp; omega)]
      simp only [List.map_cons, List.map_nil, show n - 1 + 1 = n by omega]
      rfl
    · intro x; rw [hfix]; simp; omega

theorem huntChangesText_eq (h2 : 2 ≤ n) (h33 : n ≤ 33) (k : Nat) : huntChangesText n k =
    ((List.range k).map (fun i => PlaceNot.ofChange (huntChange n i))).map PlaceNot.display := by
  induction k with
  | zero => rfl
  | succ k ih => rw [huntChangesText, ih, List.range_succ]; simp [display_hunt h2 h33]

theorem parse_hunts (h2 : 2 ≤ n) (h33 : n ≤ 33) (k : Nat) (hk : 0 < k) :
    PnBlock.parse ((huntChangesText n k).intersperse ['.']).flatten ⟨n⟩ =
      .ok (.ok ⟨(List.range k).map (fun i => PlaceNot.ofChange (huntChange n i))⟩) := by
  rw [huntChangesText_eq h2 h33]
  apply C34_separated ⟨n⟩ h33 _ _ _ '.' (.inr rfl)
  · intro h
    have := congrArg List.length h
    simp at this; omega
  · intro pn hpn
    obtain ⟨i, -, rfl⟩ := List.mem_map.1 hpn
    exact ⟨⟨n, by omega, _, huntChange_isChange i, rfl⟩, rfl⟩

theorem parse_plainHunt (h2 : 2 ≤ n) (h33 : n ≤ 33) :
    PnBlock.parse (plainHuntText n) ⟨n⟩ =
      .ok (.ok ⟨((List.range 2).map (huntChange n)).map PlaceNot.ofChange⟩) := by
  have := parse_hunts h2 h33 2 (by omega)
  have e : ((huntChangesText n 2).intersperse ['.']).flatten = plainHuntText n := by
    simp [huntChangesText, plainHuntText]
  rw [e] at this
  rw [this, List.map_map]; rfl

theorem lastBellChar_ne (h1 : 1 ≤ n) (h33 : n ≤ 33) : lastBellChar n ≠ ',' ∧ lastBellChar n ≠ '+' := by
  have : ∀ i < 33, lastBellChar (i + 1) ≠ ',' ∧ lastBellChar (i + 1) ≠ '+' := by decide
  have h := this (n - 1) (by omega)
  rwa [show n - 1 + 1 = n by omega] at h

theorem huntTexts_ne (h1 : 1 ≤ n) (h33 : n ≤ 33) : ∀ c, c = ',' ∨ c = '+' →
    c ∉ (huntTexts n).1 ∧ c ∉ (huntTexts n).2 := by
  obtain ⟨h1, h2⟩ := lastBellChar_ne h1 h33
  intro c hc
  unfold huntTexts
  split
  all_goals
    rcases hc with rfl | rfl
    all_goals simp [Ne.symm h1, Ne.symm h2]

theorem hunts_ne (h1 : 1 ≤ n) (h33 : n ≤ 33) (k : Nat) (c : Char) (hc : c = ',' ∨ c = '+') :
    c ∉ ((huntChangesText n k).intersperse ['.']).flatten := by
  have hmem : ∀ k, ∀ l ∈ huntChangesText n k, c ∉ l := by
    intro k
    induction k with
    | zero => simp [huntChangesText]
    | succ k ih =>
      intro l hl
      rw [huntChangesText, List.mem_append, List.mem_singleton] at hl
      rcases hl with hl | rfl
      · exact ih l hl
      · have := huntTexts_ne h1 h33 c hc
        split
        · exact this.1
        · exact this.2
  have hint : ∀ L : List (List Char), (∀ l ∈ L, c ∉ l) → ∀ l ∈ L.intersperse ['.'], c ∉ l := by
    intro L
    induction L with
    | nil => simp
    | cons a L ih =>
      cases L with
      | nil => simp
      | cons b L =>
        intro h l hl
        rw [List.intersperse_cons_cons] at hl
        simp only [List.mem_cons] at hl
        rcases hl with rfl | rfl | hl
        · exact h _ (by simp)
        · rcases hc with rfl | rfl <;> simp
        · exact ih (fun l hl => h l (List.mem_cons_of_mem _ hl)) l hl
  intro h
  obtain ⟨l, hl, hcl⟩ := List.mem_flatten.1 h
  exact hint _ (hmem k) l hl hcl

/-- The changes of a lead of Plain Bob. -/
def bobChanges (n : Nat) : List (Perm (Fin n)) := (List.range (2 * n - 1)).map (huntChange n) ++ [bobChange n]

theorem parse_plainBob (h4 : 4 ≤ n) (h33 : n ≤ 33) :
    PnBlock.parse (plainBobText n) ⟨n⟩ = .ok (.ok ⟨(bobChanges n).map PlaceNot.ofChange⟩) := by
  have ha := parse_hunts (by omega) h33 n (by omega)
  have hb := C34_separated ⟨n⟩ h33 [PlaceNot.ofChange (bobChange n)] (by simp)
    (by simp only [List.mem_singleton]; rintro _ rfl; exact ⟨⟨n, by omega, _, bobChange_isChange, rfl⟩, rfl⟩)
    '.' (.inr rfl)
  simp only [List.map_cons, List.map_nil, List.intersperse_singleton, List.flatten_cons, List.flatten_nil,
    List.append_nil, display_bob h4 h33] at hb
  have hne := lastBellChar_ne (n := n) (by omega) h33
  have hq : ∀ c, c = ',' ∨ c = '+' → c ∉ (if n % 2 = 0 then ['1', '2'] else ['1', '2', lastBellChar n]) := by
    intro c hc
    split
    all_goals
      rcases hc with rfl | rfl
      all_goals simp [Ne.symm hne.1, Ne.symm hne.2]
  have := C77_text _ _ ⟨hunts_ne (by omega) h33 n _ (.inl rfl), hq _ (.inl rfl)⟩
    ⟨hunts_ne (by omega) h33 n _ (.inr rfl), hq _ (.inr rfl)⟩ ⟨n⟩ _ _ ha hb
  unfold plainBobText
  rw [this]
  congr 3
  simp only [List.dropLast_singleton, List.reverse_nil, List.append_nil, bobChanges, List.map_append,
    List.map_map, List.map_cons, List.map_nil]
  congr 1
  apply List.ext_getElem
  · simp; omega
  · intro i h5 h6
    simp only [List.length_append, List.length_map, List.length_range, List.length_reverse,
      List.length_dropLast] at h5 h6
    rw [List.getElem_append]
    simp only [List.length_map, List.length_range, List.getElem_map, List.getElem_range,
      List.getElem_reverse, List.getElem_dropLast, List.length_dropLast, Function.comp_apply]
    split
    · rfl
    · rw [huntChange_mod, huntChange_mod i]
      congr 2
      omega

/-! ## The leads -/

theorem follows_of_prod (τs : List (Perm (Fin n))) :
    Follows 1 τs ((List.range (τs.length + 1)).map fun t => (τs.take t).prod) := by
  refine ⟨by simp, by simp, ?_⟩
  intro k τ hk
  obtain ⟨hlt, rfl⟩ := List.getElem?_eq_some_iff.1 hk
  refine ⟨(τs.take k).prod, ?_, ?_⟩
  · rw [List.getElem?_map, List.getElem?_range (by omega)]; rfl
  · rw [List.getElem?_map, List.getElem?_range (by omega), Option.map_some,
      List.take_succ_eq_append_getElem hlt, List.prod_append, List.prod_singleton]

theorem take_hunts (L t : Nat) (h : t ≤ L) :
    (((List.range L).map (huntChange n)).take t).prod = huntRow n t := by
  rw [← List.map_take, List.take_range, Nat.min_eq_left h]; rfl

theorem follows_hunt : Follows 1 ((List.range 2).map (huntChange n)) (huntLead n 2 ++ [huntRow n 2]) := by
  have := follows_of_prod ((List.range 2).map (huntChange n))
  exact this

theorem follows_bob (hn : 2 ≤ n) : Follows 1 (bobChanges n) (huntLead n (2 * n) ++ [bobHead n]) := by
  have hl : (bobChanges n).length = 2 * n := by simp [bobChanges]; omega
  have := follows_of_prod (bobChanges n)
  convert this using 1
  rw [hl, List.range_succ, List.map_append]
  congr 1
  · unfold huntLead
    apply List.map_congr_left
    intro t ht
    have ht := List.mem_range.1 ht
    rw [bobChanges, List.take_append_of_le_length (by simp; omega), take_hunts _ _ (by omega)]
  · rw [List.map_cons, List.map_nil, List.take_of_length_le (by omega), bobChanges, List.prod_append,
      List.prod_singleton]
    have := take_hunts (n := n) (2 * n - 1) (2 * n - 1) (le_refl _)
    rw [List.take_of_length_le (by simp)] at this
    rw [this]; rfl

theorem fromPlaceNotString_of_parse (hn : 0 < n) (h22 : n ≤ 22) (name : String) (text : List Char)
    (τs lead : List (Perm (Fin n))) (τ : Perm (Fin n)) (hne : τs ≠ []) (hc : ∀ τ ∈ τs, IsChange τ)
    (hp : PnBlock.parse text ⟨n⟩ = .ok (.ok ⟨τs.map PlaceNot.ofChange⟩))
    (hf : Follows 1 τs (lead ++ [τ])) :
    ∃ m, (Method.fromPlaceNotString name ⟨n⟩ text).Returns (.ok m) ∧
      m.firstLead = .ofPerms lead τ (List.replicate lead.length none) ∧
      m.name = name ∧ m.cls.isJump = false ∧
      (m.cls.isDifferential = true ↔ IsDifferential τ) ∧ (m.cls.isLittle = true ↔ IsLittle lead τ) ∧
      ClassIs lead τ m.cls.cls ∧ generateTitle name m.cls ⟨n⟩ = .ok m.title := by
  unfold Method.fromPlaceNotString
  simp only [hp, Run.lift_eq, Run.ofRes_ok_bind]
  obtain ⟨-, -, ⟨lead', τ', h5, h6⟩, -⟩ := C36_rows (none : Option String) hn 1 τs hne hc
  have he := follows_unique hf h5
  obtain ⟨e1, e2⟩ := List.append_inj' he rfl
  obtain rfl := e1
  obtain rfl : τ = τ' := by simpa using e2
  simp only [h6, Run.ofRes_ok_bind]
  obtain ⟨h7, -⟩ := withName_place_notation hn name τs hne hc lead τ h5
    (List.replicate τs.length none) (by simp)
  obtain ⟨m, h9, ⟨lead', τ', h10, h11, h12, h13⟩, h14⟩ := h7 h22
  have he := follows_unique hf h10
  obtain ⟨e1, e2⟩ := List.append_inj' he rfl
  obtain rfl := e1
  obtain rfl : τ = τ' := by simpa using e2
  have hl : lead.length = τs.length := by have := hf.1; simpa using this
  refine ⟨m, ?_, by rw [hl]; exact h11, h13⟩
  rw [Run.returns_bind h9]
  rfl

theorem invApply (σ : Perm (Fin n)) (x : Fin n) : σ⁻¹ (σ x) = x := by simp

theorem cls_eq {c : FullClass} {lead : List (Perm (Fin n))} {τ : Perm (Fin n)} {k : MethodClass}
    (h5 : c.isJump = false) (h6 : c.isDifferential = true ↔ IsDifferential τ)
    (h7 : c.isLittle = true ↔ IsLittle lead τ) (h8 : ClassIs lead τ c.cls) (c1 : ClassIs lead τ k)
    (c2 : ¬ IsLittle lead τ) (c3 : ¬ IsDifferential τ) : c = ⟨false, false, false, k⟩ := by
  have e := C51_class_unique _ _ _ _ h8 c1
  have e2 := Bool.eq_false_iff.2 (mt h7.1 c2)
  have e3 := Bool.eq_false_iff.2 (mt h6.1 c3)
  obtain ⟨a, b, d, k'⟩ := c
  simp only at h5 e2 e3 e
  rw [h5, e2, e3, e]

theorem title_eq {name t : String} {c : FullClass} (h1 : 1 ≤ n) (h22 : n ≤ 22)
    (h : generateTitle name c ⟨n⟩ = .ok t) : ∃ stageName, stageNames[n - 1]? = some stageName ∧
      t = joinSpaces ((if name = "" then [] else [name]) ++ titleWords c ++ [stageName]) := by
  rw [C52_title] at h
  have hs := C03_name_table ⟨n⟩ h1
  change _ = stageNames[n - 1]? at hs
  obtain ⟨nm, hnm⟩ := (C03_named_stages ⟨n⟩).2 ⟨h1, h22⟩
  rw [hnm] at h hs
  exact ⟨nm, hs.symm, (Except.ok.inj h).symm⟩

/-- The rows of the plain course of a method made from place notation. -/
theorem course_rows (hn : 0 < n) (m : Method) (lead : List (Perm (Fin n))) (τ : Perm (Fin n))
    (hm : m.firstLead = .ofPerms lead τ (List.replicate lead.length none)) (h0 : lead.head? = some 1) :
    m.leadLen = lead.length ∧ ∃ course, m.plainCourse.Returns course ∧
      course.len = orderOf τ * lead.length ∧
      ∀ t < course.len, ∃ a, course.getAnnotRow t = some (.ofPerm (courseRow lead τ t), a) := by
  have hne : lead ≠ [] := by rintro rfl; simp at h0
  obtain ⟨course, h1, -, h2, -, h3, -⟩ := C48_plain_course hn m lead τ _ hm (by simp) h0
  have hr := fun k => C48_row_in_plain_course hn m lead τ _ hm (by simp) hne k
  have hl := (hr 0).2.1
  refine ⟨hl, course, h1, by rw [h2, hl], ?_⟩
  intro t ht
  obtain ⟨r, label, h4, -, h5⟩ := h3 t ht
  rw [(hr t).1] at h4
  rw [h5, ← Except.ok.inj h4]
  exact ⟨_, rfl⟩

theorem plainHunt_class (h2 : 2 ≤ n) : ClassIs (huntLead n 2) (huntRow n 2) .principle ∧
    ¬ IsLittle (huntLead n 2) (huntRow n 2) ∧ ¬ IsDifferential (huntRow n 2) := by
  have h : ∀ b : Fin n, ¬ IsHuntBell (huntRow n 2) b := by
    intro b hb
    have := (huntRow_pow_fixes 1 b).1 (by rw [pow_one]; exact hb)
    have := Nat.le_of_dvd (by omega) this
    omega
  refine ⟨h, ?_, ?_⟩
  · rintro ⟨⟨b, hb⟩, -⟩
    exact h b hb
  · rintro ⟨a, b, -, -, hab⟩
    exact hab (by rw [minimalPeriod_huntRow, minimalPeriod_huntRow])

theorem plainBob_class (h4 : 4 ≤ n) : ClassIs (huntLead n (2 * n)) (bobHead n) .bob ∧
    ¬ IsLittle (huntLead n (2 * n)) (bobHead n) ∧ ¬ IsDifferential (bobHead n) := by
  have h2 : 2 ≤ n := by omega
  have hhunt : ∀ b : Fin n, IsHuntBell (bobHead n) b ↔ b.val = 0 := by
    intro b
    constructor
    · intro hb
      by_contra h0
      have := (bobHead_pow_fixes h2 1 b h0).1 (by rw [pow_one]; exact hb)
      have := Nat.le_of_dvd (by omega) this
      omega
    · exact bobHead_fixes_treble h2 b
  have hplace : ∀ (b : Fin n) t, (placeOfBell (huntLead n (2 * n)) (bobHead n) b t).val = bobPlace n b t :=
    fun b t => placeOfBell_bob h2 b t
  have hlen : (huntLead n (2 * n)).length = 2 * n := by simp [huntLead]
  set z : Fin n := ⟨0, by omega⟩ with hz
  have htreble : ∀ t, (placeOfBell (huntLead n (2 * n)) (bobHead n) z t).val = wayPlace n (t % (2 * n)) := by
    intro t
    rw [hplace, hz, bobPlace_treble h2]
  have hplain : PlainHunt (huntLead n (2 * n)) (bobHead n) z := by
    constructor
    · rintro ⟨p, hp⟩
      have h0 := htreble 0
      have h1 := htreble 1
      rw [hp] at h0 h1
      rw [Nat.mod_eq_of_lt (by omega)] at h0 h1
      rw [h0] at h1
      rw [wayPlace_eq (by omega) (by omega)] at h1
      omega
    · intro p _
      unfold rowsInPlace
      rw [hlen]
      have hp := p.isLt
      have hperm : ((List.range (2 * n)).filter fun t =>
          decide (placeOfBell (huntLead n (2 * n)) (bobHead n) z t = p)).Perm [p.val, 2 * n - 1 - p.val] := by
        rw [List.perm_ext_iff_of_nodup (List.nodup_range.filter _) (by simp; omega)]
        intro t
        rw [List.mem_filter, List.mem_range, decide_eq_true_eq, Fin.ext_iff, htreble]
        simp only [List.mem_cons, List.not_mem_nil, or_false]
        constructor
        · rintro ⟨ht, he⟩
          rw [Nat.mod_eq_of_lt ht] at he
          unfold wayPlace at he
          split at he <;> omega
        · intro ht
          have htl : t < 2 * n := by omega
          refine ⟨htl, ?_⟩
          rw [Nat.mod_eq_of_lt htl]
          unfold wayPlace
          split <;> omega
      exact hperm.length_eq
  have hprin : Principal (huntLead n (2 * n)) (bobHead n) .plain z :=
    ⟨(hhunt z).2 rfl, hplain, fun _ _ _ _ => Nat.zero_le _⟩
  refine ⟨⟨⟨z, hprin⟩, ?_⟩, ?_, ?_⟩
  · -- the bell that dodges in 3-4
    set L := huntLead n (2 * n)
    have hrow : courseRow L (bobHead n) (2 * n - 2) = huntRow n (2 * n - 2) := by
      rw [courseRow_bob h2, Nat.div_eq_of_lt (by omega), Nat.mod_eq_of_lt (by omega), pow_zero, one_mul]
    have hrow1 : courseRow L (bobHead n) (2 * n - 2 + 1) = huntRow n (2 * n - 2) * huntChange n 0 := by
      rw [courseRow_bob h2, Nat.div_eq_of_lt (by omega), Nat.mod_eq_of_lt (by omega), pow_zero, one_mul,
        huntRow_succ, huntChange_mod (2 * n - 2), show (2 * n - 2) % 2 = 0 by omega]
    have hrow2 : courseRow L (bobHead n) (2 * n - 2 + 2) =
        huntRow n (2 * n - 2) * huntChange n 0 * bobChange n := by
      rw [courseRow_bob h2, show 2 * n - 2 + 2 = 2 * n by omega, Nat.div_self (by omega), Nat.mod_self,
        pow_one, huntRow_zero, mul_one, bobHead, show 2 * n - 1 = 2 * n - 2 + 1 by omega, huntRow_succ,
        huntChange_mod (2 * n - 2), show (2 * n - 2) % 2 = 0 by omega]
    have e1 : huntFn n 0 2 = 3 := by unfold huntFn; rw [if_pos rfl, if_pos (by omega)]
    have e2 : bobFn n 3 = 2 := by unfold bobFn huntFn; simp
    set b := huntRow n (2 * n - 2) ⟨2, by omega⟩ with hb
    have p0 : (placeOfBell L (bobHead n) b (2 * n - 2)).val = 2 := by
      rw [placeOfBell, hrow, hb, invApply]
    have p1 : (placeOfBell L (bobHead n) b (2 * n - 2 + 1)).val = 3 := by
      rw [placeOfBell, hrow1, hb, mul_inv_rev, Perm.mul_apply, invApply, huntChange_inv_val]
      exact e1
    have p2 : (placeOfBell L (bobHead n) b (2 * n - 2 + 2)).val = 2 := by
      rw [placeOfBell, hrow2, hb, mul_inv_rev, mul_inv_rev, Perm.mul_apply, Perm.mul_apply,
        invApply, bobChange_inv_val, huntChange_inv_val]
      change bobFn n (huntFn n 0 2) = 2
      rw [e1, e2]
    refine ⟨b, ?_, 2 * n - 2, Fin.ext (by rw [p0, p2]), .inr (by rw [p0, p1])⟩
    rintro ⟨hb0, -⟩
    have hbz : b = z := Fin.ext ((hhunt b).1 hb0)
    have := htreble (2 * n - 2)
    rw [← hbz, p0, Nat.mod_eq_of_lt (by omega), wayPlace, if_neg (by omega)] at this
    omega
  · rintro ⟨-, h⟩
    obtain ⟨p, hp⟩ := h _ z hprin
    apply hp
    refine ⟨p.val, Fin.ext ?_⟩
    have := p.isLt
    rw [htreble, Nat.mod_eq_of_lt (by omega), wayPlace, if_pos p.isLt]
  · rintro ⟨a, b, ha, hb, hab⟩
    rw [hhunt] at ha hb
    exact hab (by rw [minimalPeriod_bobHead h2 a ha, minimalPeriod_bobHead h2 b hb])

/-! ## C93 -/

/-- The words of a name. -/
def nameWords (name : String) : List String := if name = "" then [] else [name]

/-- Plain hunting on any number of bells with a name: the method made from its two changes is a
principle (which adds nothing to the title); its plain course has `2 * n` rows, and in each of them
every bell is where plain hunting takes it; on three bells or more no row comes twice. -/
theorem C93_plain_hunt (name : String) (h2 : 2 ≤ n) (h22 : n ≤ 22) :
    ∃ m course stageName, (Method.fromPlaceNotString name ⟨n⟩ (plainHuntText n)).Returns (.ok m) ∧
      m.name = name ∧ m.cls = ⟨false, false, false, .principle⟩ ∧ stageNames[n - 1]? = some stageName ∧
      m.title = joinSpaces (nameWords name ++ [stageName]) ∧ m.leadLen = 2 ∧
      m.plainCourse.Returns course ∧ course.len = 2 * n ∧
      (∀ t < 2 * n, ∃ r a, course.getAnnotRow t = some (r, a) ∧
        ∀ b < n, r.placeOf ⟨b⟩ = some (huntPlace n b t)) ∧
      (3 ≤ n → ∀ i j r r' a a', course.getAnnotRow i = some (r, a) → course.getAnnotRow j = some (r', a') →
        i < 2 * n → j < 2 * n → r = r' → i = j) := by
  obtain ⟨m, h1, h3, h4, h5, h6, h7, h8, h9⟩ := fromPlaceNotString_of_parse (by omega) h22 name
    (plainHuntText n) _ _ _ (by simp) (by
      intro τ hτ; obtain ⟨i, -, rfl⟩ := List.mem_map.1 hτ; exact huntChange_isChange i)
    (parse_plainHunt h2 (by omega)) follows_hunt
  obtain ⟨c1, c2, c3⟩ := plainHunt_class (n := n) h2
  have hcls := cls_eq h5 h6 h7 h8 c1 c2 c3
  rw [hcls] at h9
  obtain ⟨stageName, h10, h11⟩ := title_eq (by omega) h22 h9
  obtain ⟨h12, course, h13, h14, h15⟩ := course_rows (by omega) m _ _ h3 rfl
  have hl : (huntLead n 2).length = 2 := rfl
  rw [hl, orderOf_huntRow (by omega), Nat.mul_comm] at h14
  have hrows : ∀ t < 2 * n, ∃ a, course.getAnnotRow t = some (.ofPerm (huntRow n t), a) := by
    intro t ht
    obtain ⟨a, ha⟩ := h15 t (by omega)
    rw [courseRow_hunt] at ha
    exact ⟨a, ha⟩
  refine ⟨m, course, stageName, h1, h4, hcls, h10, ?_, h12, h13, h14, ?_, ?_⟩
  · rw [h11]; simp [titleWords, nameWords]
  · intro t ht
    obtain ⟨a, ha⟩ := hrows t ht
    refine ⟨_, a, ha, fun b hb => ?_⟩
    rw [placeOf_ofPerm _ ⟨b, hb⟩, huntRow_inv_val]
  · intro hn3 i j r r' a a' hi hj hi2 hj2 hrr
    obtain ⟨x, hx⟩ := hrows i hi2
    obtain ⟨y, hy⟩ := hrows j hj2
    rw [hi] at hx
    rw [hj] at hy
    have e1 := (Prod.ext_iff.1 (Option.some.inj hx)).1
    have e2 := (Prod.ext_iff.1 (Option.some.inj hy)).1
    simp only at e1 e2
    exact hunt_distinct hn3 hi2 hj2 (Row.ofPerm_injective (by rw [← e1, ← e2, hrr]))

example := C93_plain_hunt (n := 7) "Plain Hunt" (by decide) (by decide)

/-- Plain Bob on any stage from four bells up to the last with a name: the method made from its place
notation has the class `bob`; its plain course has `n - 1` leads of `2 * n` rows and every bell is in
each row where Plain Bob takes it; so the treble plain hunts, all other bells do the same work, one
some leads after the other, and no row comes twice. -/
theorem C93_plain_bob (name : String) (h4 : 4 ≤ n) (h22 : n ≤ 22) :
    ∃ m course stageName, (Method.fromPlaceNotString name ⟨n⟩ (plainBobText n)).Returns (.ok m) ∧
      m.name = name ∧ m.cls = ⟨false, false, false, .bob⟩ ∧ stageNames[n - 1]? = some stageName ∧
      m.title = joinSpaces (nameWords name ++ ["Bob", stageName]) ∧ m.leadLen = 2 * n ∧
      m.plainCourse.Returns course ∧ course.len = 2 * n * (n - 1) ∧
      (∀ t < course.len, ∃ r a, course.getAnnotRow t = some (r, a) ∧
        (∀ b < n, r.placeOf ⟨b⟩ = some (bobPlace n b t)) ∧
        r.placeOf ⟨0⟩ = some (huntPlace n 0 t)) ∧
      (∀ b c, 0 < b → b < n → 0 < c → c < n → ∃ j, ∀ t, bobPlace n c t = bobPlace n b (t + j * m.leadLen)) ∧
      (∀ i j r r' a a', course.getAnnotRow i = some (r, a) → course.getAnnotRow j = some (r', a') →
        i < course.len → j < course.len → r = r' → i = j) := by
  have hc : ∀ τ ∈ bobChanges n, IsChange τ := by
    intro τ hτ
    rcases List.mem_append.1 hτ with hτ | hτ
    · obtain ⟨i, -, rfl⟩ := List.mem_map.1 hτ; exact huntChange_isChange i
    · rw [List.mem_singleton.1 hτ]; exact bobChange_isChange
  obtain ⟨m, h1, h3, h4', h5, h6, h7, h8, h9⟩ := fromPlaceNotString_of_parse (by omega) h22 name
    (plainBobText n) _ _ _ (by simp [bobChanges]) hc
    (parse_plainBob h4 (by omega)) (follows_bob (by omega))
  obtain ⟨c1, c2, c3⟩ := plainBob_class (n := n) h4
  have hcls := cls_eq h5 h6 h7 h8 c1 c2 c3
  rw [hcls] at h9
  obtain ⟨stageName, h10, h11⟩ := title_eq (by omega) h22 h9
  have hl : (huntLead n (2 * n)).length = 2 * n := by simp [huntLead]
  have hh : (huntLead n (2 * n)).head? = some 1 := by
    rw [List.head?_eq_getElem?, huntLead, List.getElem?_map, List.getElem?_range (by omega)]; rfl
  obtain ⟨h12, course, h13, h14, h15⟩ := course_rows (by omega) m _ _ h3 hh
  rw [hl, orderOf_bobHead (by omega), Nat.mul_comm] at h14
  rw [hl] at h12
  refine ⟨m, course, stageName, h1, h4', hcls, h10, ?_, h12, h13, h14, ?_, ?_, ?_⟩
  · rw [h11]; simp [titleWords, nameWords, className]
  · intro t ht
    obtain ⟨a, ha⟩ := h15 t ht
    have hp : ∀ b < n, (Row.ofPerm (courseRow (huntLead n (2 * n)) (bobHead n) t)).placeOf ⟨b⟩ =
        some (bobPlace n b t) := by
      intro b hb
      rw [placeOf_ofPerm _ ⟨b, hb⟩, ← placeOfBell_bob (by omega) ⟨b, hb⟩]; rfl
    refine ⟨_, a, ha, hp, ?_⟩
    rw [hp 0 (by omega), bobPlace_treble (by omega), huntPlace, wayStart]
    simp
  · intro b c hb hb2 hc hc2
    rw [h12]
    exact bob_same_work ⟨hb, hb2⟩ ⟨hc, hc2⟩
  · intro i j r r' a a' hi hj hi2 hj2 hrr
    obtain ⟨x, hx⟩ := h15 i hi2
    obtain ⟨y, hy⟩ := h15 j hj2
    rw [hi] at hx
    rw [hj] at hy
    have e1 := (Prod.ext_iff.1 (Option.some.inj hx)).1
    have e2 := (Prod.ext_iff.1 (Option.some.inj hy)).1
    simp only at e1 e2
    exact bob_distinct h4 (by omega) (by omega) (Row.ofPerm_injective (by rw [← e1, ← e2, hrr]))

/-- The texts and the places of the specification on six bells. -/
example : String.ofList (plainHuntText 6) = "-.16" ∧ String.ofList (plainHuntText 7) = "7.1" ∧
    String.ofList (plainBobText 6) = "-.16.-.16.-.16,12" ∧
    String.ofList (plainBobText 7) = "7.1.7.1.7.1.7,127" ∧
    (List.range 13).map (huntPlace 6 0) = [0, 1, 2, 3, 4, 5, 5, 4, 3, 2, 1, 0, 0] ∧
    (List.range 14).map (bobPlace 6 1) = [1, 0, 0, 1, 2, 3, 4, 5, 5, 4, 3, 2, 3, 2] ∧
    (List.range 6).map (fun b => bobPlace 6 b 12) = [0, 3, 1, 5, 2, 4] := by decide +kernel

end Bellframe.Props
