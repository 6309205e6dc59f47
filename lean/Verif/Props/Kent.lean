import Verif.Proofs.Kent
import Verif.Props.PlainHunt
import Verif.Props.ClassSymmetry

/-! # C102: Kent Treble Bob on all even stages -/

namespace Bellframe.Props

open Equiv

variable {n : Nat}

/-! ## The text -/

theorem display_kent (h6 : 6 ≤ n) (he : n % 2 = 0) :
    (PlaceNot.ofChange (kentChange n)).display = ['3', '4'] := by
  have hx : ∀ x : Fin n, kentChange n x = x ↔ kentFn n x = x.val := fun x => Fin.ext_iff
  have hfix : ∀ x : Fin n, kentChange n x = x ↔ x.val = 2 ∨ x.val = 3 := by
    intro x
    rw [hx]
    have := x.isLt
    unfold kentFn huntFn
    repeat' split
    all_goals omega
  rw [ofChange_places _ [2, 3] (by simp) (by simp; omega)]
  · rw [display_places _ (by simp) (by simp)]; rfl
  · intro x; rw [hfix]; simp

/-- The text of the change after row `k` of the first half of the lead. -/
def kentHalfText (n k : Nat) : List Char :=
  if k % 4 = 3 then ['1', lastBellChar n]
  else if k % 4 = 1 then (if k < 4 then ['-'] else ['1', '2'])
  else (if k < 4 then ['3', '4'] else ['-'])

theorem display_kentHalf (h6 : 6 ≤ n) (h33 : n ≤ 33) (he : n % 2 = 0) (k : Nat) :
    (PlaceNot.ofChange (kentHalf n k)).display = kentHalfText n k := by
  have d0 := display_hunt (n := n) (by omega) h33 0
  have d1 := display_hunt (n := n) (by omega) h33 1
  have db := display_bob (n := n) (by omega) h33
  have dk := display_kent h6 he
  simp only [huntTexts, if_pos he] at d0 d1 db
  unfold kentHalf kentHalfText
  repeat' split
  all_goals first
    | exact d1
    | exact d0
    | exact db
    | exact dk

theorem flatten_replicate_four (a b c d : List Char) (j : Nat) :
    (List.replicate j [a, b, c, d]).flatten = (List.range (4 * j)).map fun k =>
      if k % 4 = 3 then d else if k % 4 = 1 then b else if k % 4 = 0 then a else c := by
  induction j with
  | zero => rfl
  | succ j ih =>
    rw [List.replicate_succ', List.flatten_append, ih, show 4 * (j + 1) = 4 * j + 4 by omega, List.range_add,
      List.map_append]
    congr 1
    simp [List.range_succ, Nat.mul_add_mod]

theorem kentText_eq (h6 : 6 ≤ n) (h33 : n ≤ 33) (he : n % 2 = 0) : kentText n =
    ((((List.range (2 * n)).map (fun k => PlaceNot.ofChange (kentHalf n k))).map
      PlaceNot.display).intersperse ['.']).flatten ++ ',' :: ['1', lastBellChar n] := by
  unfold kentText
  congr 3
  rw [flatten_replicate_four, List.map_map]
  have e : List.map (PlaceNot.display ∘ fun k => PlaceNot.ofChange (kentHalf n k)) (List.range (2 * n)) =
      (List.range (2 * n)).map (kentHalfText n) := by
    apply List.map_congr_left
    intro k _
    exact display_kentHalf h6 h33 he k
  rw [e, show 2 * n = 4 + 4 * (n / 2 - 1) by omega, List.range_add, List.map_append]
  congr 1
  rw [List.map_map]
  apply List.map_congr_left
  intro k _
  simp only [Function.comp_apply, kentHalfText, Nat.add_mod_left]
  rw [if_neg (show ¬ 4 + k < 4 by omega), if_neg (show ¬ 4 + k < 4 by omega)]
  simp

/-- The changes of a lead of Kent. -/
def kentChanges (n : Nat) : List (Perm (Fin n)) := (List.range (4 * n)).map (kentAt n)

theorem kent_text_ne (h6 : 6 ≤ n) (h33 : n ≤ 33) (c : Char) (hc : c = ',' ∨ c = '+') (L : List Nat) :
    c ∉ ((L.map (kentHalfText n)).intersperse ['.']).flatten := by
  have hne := lastBellChar_ne (n := n) (by omega) h33
  have hk : ∀ k, c ∉ kentHalfText n k := by
    intro k
    unfold kentHalfText
    rcases hc with rfl | rfl
    all_goals
      repeat' split
      all_goals simp [Ne.symm hne.1, Ne.symm hne.2]
  induction L with
  | nil => simp
  | cons a L ih =>
    cases L with
    | nil => simpa using hk a
    | cons b L =>
      rw [List.map_cons, List.map_cons, List.intersperse_cons_cons, List.flatten_cons, List.flatten_cons,
        List.mem_append, List.mem_append]
      rintro (h | h | h)
      · exact hk a h
      · rcases hc with rfl | rfl <;> simp at h
      · exact ih h

theorem parse_kent (h6 : 6 ≤ n) (h33 : n ≤ 33) (he : n % 2 = 0) :
    PnBlock.parse (kentText n) ⟨n⟩ = .ok (.ok ⟨(kentChanges n).map PlaceNot.ofChange⟩) := by
  have ha := C34_separated ⟨n⟩ h33 ((List.range (2 * n)).map (fun k => PlaceNot.ofChange (kentHalf n k)))
    (by
      intro h
      have := congrArg List.length h
      simp at this; omega)
    (by
      intro pn hpn
      obtain ⟨i, -, rfl⟩ := List.mem_map.1 hpn
      exact ⟨⟨n, by omega, _, kentHalf_isChange i, rfl⟩, rfl⟩)
    '.' (.inr rfl)
  have hb := C34_separated ⟨n⟩ h33 [PlaceNot.ofChange (huntChange n 1)] (by simp)
    (by simp only [List.mem_singleton]; rintro _ rfl; exact ⟨⟨n, by omega, _, huntChange_isChange 1, rfl⟩, rfl⟩)
    '.' (.inr rfl)
  have d1 := display_hunt (n := n) (by omega) h33 1
  simp only [huntTexts, if_pos he] at d1
  simp only [List.map_cons, List.map_nil, List.intersperse_singleton, List.flatten_cons, List.flatten_nil,
    List.append_nil, d1] at hb
  have hne := lastBellChar_ne (n := n) (by omega) h33
  have hq : ∀ c, c = ',' ∨ c = '+' → c ∉ ['1', lastBellChar n] := by
    intro c hc
    rcases hc with rfl | rfl
    all_goals simp [Ne.symm hne.1, Ne.symm hne.2]
  have ht : ∀ c, c = ',' ∨ c = '+' → c ∉ ((((List.range (2 * n)).map (fun k => PlaceNot.ofChange (kentHalf n k))).map
      PlaceNot.display).intersperse ['.']).flatten := by
    intro c hc
    have e : List.map (PlaceNot.display ∘ fun k => PlaceNot.ofChange (kentHalf n k)) (List.range (2 * n)) =
        (List.range (2 * n)).map (kentHalfText n) :=
      List.map_congr_left (fun k _ => display_kentHalf h6 h33 he k)
    rw [List.map_map, e]
    exact kent_text_ne h6 h33 c hc _
  have := C77_text _ _ ⟨ht _ (.inl rfl), hq _ (.inl rfl)⟩ ⟨ht _ (.inr rfl), hq _ (.inr rfl)⟩ ⟨n⟩ _ _ ha hb
  rw [kentText_eq h6 h33 he]
  rw [this]
  congr 3
  simp only [List.dropLast_singleton, List.reverse_nil, List.append_nil, kentChanges]
  apply List.ext_getElem
  · simp; omega
  · intro i h5 h7
    simp only [List.length_append, List.length_map, List.length_range, List.length_reverse,
      List.length_dropLast, List.length_cons, List.length_nil] at h5 h7
    simp only [List.getElem_append, List.length_map, List.length_range, List.getElem_map, List.getElem_range,
      List.getElem_reverse, List.getElem_dropLast, List.length_dropLast, List.length_append, List.length_reverse]
    unfold kentAt
    by_cases h8 : i < 2 * n
    · rw [dif_pos (by omega), dif_pos h8, if_pos h8]
    · by_cases h9 : i = 4 * n - 1
      · rw [dif_neg (by omega), if_neg h8, if_pos h9]
        simp
      · rw [dif_pos (by omega), dif_neg h8, if_neg h8, if_neg h9]
        congr 2
        omega

/-! ## The lead -/

def kentLead (n : Nat) : List (Perm (Fin n)) := (List.range (4 * n)).map (kentRow n)

theorem take_kent (h4 : 4 ≤ n) (he : n % 2 = 0) (t : Nat) (h : t < 4 * n) :
    ((kentChanges n).take t).prod = kentRow n t := by
  induction t with
  | zero => simp [kentRow_zero h4]
  | succ t ih =>
    have hl : t < (kentChanges n).length := by simp [kentChanges]; omega
    rw [List.take_succ_eq_append_getElem hl, List.prod_append, List.prod_singleton, ih (by omega),
      kentRow_succ h4 he t h]
    simp [kentChanges]

theorem follows_kent (h4 : 4 ≤ n) (he : n % 2 = 0) :
    Follows 1 (kentChanges n) (kentLead n ++ [kentHead n]) := by
  have hl : (kentChanges n).length = 4 * n := by simp [kentChanges]
  have := follows_of_prod (kentChanges n)
  convert this using 1
  rw [hl, List.range_succ, List.map_append]
  congr 1
  · unfold kentLead
    apply List.map_congr_left
    intro t ht
    rw [take_kent h4 he t (List.mem_range.1 ht)]
  · rw [List.map_cons, List.map_nil, show 4 * n = (4 * n - 1) + 1 by omega,
      List.take_succ_eq_append_getElem (by omega), List.prod_append, List.prod_singleton,
      take_kent h4 he _ (by omega), ← kentRow_last h4]
    simp [kentChanges]

theorem courseRow_kent (h4 : 4 ≤ n) (t : Nat) : courseRow (kentLead n) (kentHead n) t =
    kentHead n ^ (t / (4 * n)) * kentRow n (t % (4 * n)) := by
  have : t % (4 * n) < 4 * n := Nat.mod_lt _ (by omega)
  unfold courseRow kentLead
  rw [List.length_map, List.length_range, List.getElem?_eq_getElem (by simpa using this),
    List.getElem_map, List.getElem_range, Option.getD_some]

theorem kentHead_pow_treble (h4 : 4 ≤ n) (z : Fin n) (hz : z.val = 0) (k : Nat) :
    (kentHead n ^ k)⁻¹ z = z := by
  rw [Perm.inv_eq_iff_eq]
  exact (Function.IsFixedPt.perm_pow (kentHead_fixes_treble h4 z hz) k).symm

theorem placeOfBell_kent_treble (h4 : 4 ≤ n) (he : n % 2 = 0) (z : Fin n) (hz : z.val = 0) (t : Nat) :
    (placeOfBell (kentLead n) (kentHead n) z t).val = trebleBobPlace n (t % (4 * n)) := by
  unfold placeOfBell
  rw [courseRow_kent h4, mul_inv_rev, Perm.mul_apply, kentHead_pow_treble h4 z hz,
    kentRow_treble h4 he _ (Nat.mod_lt _ (by omega)) z hz]

theorem kent_step (h4 : 4 ≤ n) (he : n % 2 = 0) (t : Nat) :
    courseRow (kentLead n) (kentHead n) (t + 1) =
      courseRow (kentLead n) (kentHead n) t * kentAt n (t % (4 * n)) := by
  have hl : (kentChanges n).length = 4 * n := by simp [kentChanges]
  rw [courseRow_step (List.ne_nil_of_length_pos (by omega)) (follows_kent h4 he)]
  congr 1
  unfold changeAt
  have e : (((t : ℤ) % (kentChanges n).length).toNat) = t % (4 * n) := by
    rw [hl]; norm_cast
  have hlt : t % (4 * n) < 4 * n := Nat.mod_lt _ (by omega)
  rw [e, List.getElem?_eq_getElem (by omega)]
  simp [kentChanges]

theorem trebleBobPlace_cross {u : Nat} (he : n % 2 = 0) (hu : u < 4 * n)
    (h : trebleBobPlace n u / 2 ≠ trebleBobPlace n ((u + 1) % (4 * n)) / 2) : kentAt n u = huntChange n 1 := by
  by_cases h1 : u + 1 = 4 * n
  · exfalso
    apply h
    rw [h1, Nat.mod_self]
    unfold trebleBobPlace
    rw [if_neg (by omega), if_pos (by omega)]
    simp only
    omega
  · rw [Nat.mod_eq_of_lt (by omega)] at h
    unfold trebleBobPlace at h
    simp only at h
    unfold kentAt
    by_cases h2 : u + 1 < 2 * n
    · rw [if_pos (by omega), if_pos h2] at h
      rw [if_pos (by omega), kentHalf, if_pos (by omega)]
    · by_cases h3 : u + 1 = 2 * n
      · rw [if_pos (by omega), kentHalf, if_pos (by omega)]
      · rw [if_neg (by omega), if_neg (by omega)] at h
        rw [if_neg (by omega), if_neg (by omega), kentHalf, if_pos (by omega)]

theorem kent_class (h6 : 6 ≤ n) (he : n % 2 = 0) : ClassIs (kentLead n) (kentHead n) .trebleBob ∧
    ¬ IsLittle (kentLead n) (kentHead n) ∧ ¬ IsDifferential (kentHead n) := by
  have h4 : 4 ≤ n := by omega
  have hhunt : ∀ b : Fin n, IsHuntBell (kentHead n) b ↔ b.val = 0 := by
    intro b
    constructor
    · intro hb
      by_contra h0
      have := (kentHead_pow_fixes h4 1 b h0).1 (by rw [pow_one]; exact hb)
      have := Nat.le_of_dvd (by omega) this
      omega
    · exact kentHead_fixes_treble h4 b
  have hlen : (kentLead n).length = 4 * n := by simp [kentLead]
  set L := kentLead n with hL
  set g := kentHead n with hg
  set z : Fin n := ⟨0, by omega⟩ with hz
  have htreble : ∀ t, (placeOfBell L g z t).val = trebleBobPlace n (t % (4 * n)) :=
    fun t => placeOfBell_kent_treble h4 he z rfl t
  have hrows : ∀ p : Fin n, rowsInPlace L g z p = 4 := by
    intro p
    unfold rowsInPlace
    rw [hlen]
    have hp := p.isLt
    have hperm : ((List.range (4 * n)).filter fun t => decide (placeOfBell L g z t = p)).Perm
        [4 * (p.val / 2) + p.val % 2, 4 * (p.val / 2) + p.val % 2 + 2,
          4 * n - 1 - (4 * (p.val / 2) + p.val % 2), 4 * n - 1 - (4 * (p.val / 2) + p.val % 2 + 2)] := by
      rw [List.perm_ext_iff_of_nodup (List.nodup_range.filter _) (by simp; omega)]
      intro t
      rw [List.mem_filter, List.mem_range, decide_eq_true_eq, Fin.ext_iff, htreble]
      simp only [List.mem_cons, List.not_mem_nil, or_false]
      constructor
      · rintro ⟨ht, e⟩
        rw [Nat.mod_eq_of_lt ht] at e
        unfold trebleBobPlace at e
        simp only at e
        split at e <;> omega
      · intro ht
        have htl : t < 4 * n := by omega
        refine ⟨htl, ?_⟩
        rw [Nat.mod_eq_of_lt htl]
        unfold trebleBobPlace
        simp only
        split <;> omega
    exact hperm.length_eq
  have hvisits : ∀ p : Fin n, Visits L g z p := by
    intro p
    have hp := p.isLt
    refine ⟨4 * (p.val / 2) + p.val % 2, Fin.ext ?_⟩
    rw [htreble, Nat.mod_eq_of_lt (by omega)]
    unfold trebleBobPlace
    simp only
    rw [if_pos (by omega)]
    omega
  have hstat : ¬ Stationary L g z := by
    rintro ⟨p, hp⟩
    have h0 := htreble 0
    have h1 := htreble 1
    rw [hp] at h0 h1
    rw [h0, Nat.mod_eq_of_lt (by omega), Nat.mod_eq_of_lt (by omega)] at h1
    unfold trebleBobPlace at h1
    simp only at h1
    rw [if_pos (by omega), if_pos (by omega)] at h1
    omega
  have hplain : ¬ PlainHunt L g z := by
    rintro ⟨-, h⟩
    have := h z (hvisits z)
    rw [hrows] at this
    omega
  have hsym : Symmetric L g z := by
    refine ⟨4 * n - 1, ?_⟩
    intro s t hst
    rw [hlen] at hst
    apply Fin.ext
    rw [htreble, htreble]
    have hs : s % (4 * n) < 4 * n := Nat.mod_lt _ (by omega)
    have ht : t % (4 * n) < 4 * n := Nat.mod_lt _ (by omega)
    have e : s % (4 * n) + t % (4 * n) = 4 * n - 1 := by
      have h1 : (s % (4 * n) + t % (4 * n)) % (4 * n) = 4 * n - 1 := by
        rw [← Nat.add_mod]
        have h2 : (s + t) % (4 * n) = (4 * n - 1) % (4 * n) := hst
        rw [h2, Nat.mod_eq_of_lt (by omega)]
      generalize s % (4 * n) = a at *
      generalize t % (4 * n) = b at *
      by_cases hlt : a + b < 4 * n
      · rwa [Nat.mod_eq_of_lt hlt] at h1
      · rw [Nat.mod_eq_sub_mod (by omega), Nat.mod_eq_of_lt (by omega)] at h1
        omega
    generalize s % (4 * n) = a at *
    generalize t % (4 * n) = b at *
    unfold trebleBobPlace
    simp only
    split <;> split <;> omega
  have hplaces : placesMade L g z = 2 := by
    unfold placesMade
    rw [hlen]
    have hperm : ((List.range (4 * n)).filter fun t =>
        decide (placeOfBell L g z t = placeOfBell L g z (t + 1))).Perm [2 * n - 1, 4 * n - 1] := by
      rw [List.perm_ext_iff_of_nodup (List.nodup_range.filter _) (by simp; omega)]
      intro t
      rw [List.mem_filter, List.mem_range, decide_eq_true_eq, Fin.ext_iff, htreble, htreble]
      simp only [List.mem_cons, List.not_mem_nil, or_false]
      by_cases ht : t < 4 * n
      · by_cases hlast : t + 1 = 4 * n
        · rw [hlast, Nat.mod_self, Nat.mod_eq_of_lt ht]
          unfold trebleBobPlace
          simp only
          rw [if_neg (by omega), if_pos (by omega)]
          constructor
          · omega
          · intro _; exact ⟨by omega, by omega⟩
        · rw [Nat.mod_eq_of_lt ht, Nat.mod_eq_of_lt (by omega)]
          unfold trebleBobPlace
          simp only
          split <;> split <;> omega
      · constructor
        · rintro ⟨h, -⟩; omega
        · omega
    exact hperm.length_eq
  have hpath : HuntPathIs L g z .trebleDodging :=
    ⟨hstat, hplain, hsym, fun p q _ _ => by rw [hrows, hrows], hplaces⟩
  have hz' : ∀ b, IsHuntBell g b → b = z := fun b hb => Fin.ext ((hhunt b).1 hb)
  have hprin : Principal L g .trebleDodging z := by
    refine ⟨(hhunt z).2 rfl, hpath, ?_⟩
    intro c hc k' hk'
    rw [hz' c hc] at hk'
    rw [huntPathIs_unique hpath hk']
  refine ⟨⟨⟨z, hprin⟩, ?_⟩, ?_, ?_⟩
  · rintro t ⟨b, hb, lo, hlo, hmin, hcross⟩
    obtain rfl := hz' b hb.1
    have hlo0 : lo.val = 0 := by
      have := hmin _ (hvisits z)
      exact Nat.le_zero.1 this
    rw [hlo0, Nat.sub_zero, Nat.sub_zero, htreble, htreble] at hcross
    have hu : t % (4 * n) < 4 * n := Nat.mod_lt _ (by omega)
    have e : (t + 1) % (4 * n) = (t % (4 * n) + 1) % (4 * n) := by rw [Nat.mod_add_mod]
    rw [e] at hcross
    have hch := trebleBobPlace_cross he hu hcross
    rintro ⟨p, hp0, hpn, hp⟩
    rw [hL, hg, kent_step h4 he, hch, Perm.mul_apply] at hp
    have hp := congrArg Fin.val ((courseRow (kentLead n) (kentHead n) t).injective hp)
    rw [huntChange_val] at hp
    have := p.isLt
    unfold huntFn at hp
    repeat' split at hp
    all_goals omega
  · rintro ⟨-, h⟩
    obtain ⟨p, hp⟩ := h _ z hprin
    exact hp (hvisits p)
  · rintro ⟨a, b, ha, hb, hab⟩
    rw [hhunt] at ha hb
    exact hab (by rw [minimalPeriod_kentHead h4 a ha, minimalPeriod_kentHead h4 b hb])

/-! ## C102 -/

/-- Kent Treble Bob on any even stage from six bells up to the last with a name: the method made from its place
notation has the class Treble Bob and the title that goes with it; its plain course has `n - 1` leads of `4 * n` rows;
the treble dodges in every pair of places; the lead heads are those of Plain Bob in the opposite order; all other
bells do the same work, one some leads after the other; and no row comes twice. -/
theorem C102_kent (name : String) (h6 : 6 ≤ n) (h22 : n ≤ 22) (he : n % 2 = 0) :
    ∃ m course stageName, (Method.fromPlaceNotString name ⟨n⟩ (kentText n)).Returns (.ok m) ∧
      m.name = name ∧ m.cls = ⟨false, false, false, .trebleBob⟩ ∧ stageNames[n - 1]? = some stageName ∧
      m.title = joinSpaces (nameWords name ++ ["Treble Bob", stageName]) ∧ m.leadLen = 4 * n ∧
      m.plainCourse.Returns course ∧ course.len = 4 * n * (n - 1) ∧
      (∀ t < course.len, ∃ r a, course.getAnnotRow t = some (r, a) ∧
        r.placeOf ⟨0⟩ = some (trebleBobPlace n (t % m.leadLen))) ∧
      (∀ i < n - 1, ∃ r a, course.getAnnotRow (i * m.leadLen) = some (r, a) ∧
        ∀ b < n, r.placeOf ⟨b⟩ = some (bobLeadHeadPlace n b (n - 1 - i))) ∧
      (∀ b c, 0 < b → b < n → 0 < c → c < n → ∃ j, ∀ t < course.len, ∃ r a r' a',
        course.getAnnotRow t = some (r, a) ∧
        course.getAnnotRow ((t + j * m.leadLen) % course.len) = some (r', a') ∧
        r.placeOf ⟨c⟩ = r'.placeOf ⟨b⟩) ∧
      (∀ i j r r' a a', course.getAnnotRow i = some (r, a) → course.getAnnotRow j = some (r', a') →
        i < course.len → j < course.len → r = r' → i = j) := by
  have h4 : 4 ≤ n := by omega
  have hc : ∀ τ ∈ kentChanges n, IsChange τ := by
    intro τ hτ
    obtain ⟨i, -, rfl⟩ := List.mem_map.1 hτ; exact kentAt_isChange i
  have hcl : (kentChanges n).length = 4 * n := by simp [kentChanges]
  obtain ⟨m, h1, h3, h4', h5, h7, h8, h9, h10⟩ := fromPlaceNotString_of_parse (by omega) h22 name
    (kentText n) _ _ _ (List.ne_nil_of_length_pos (by omega)) hc
    (parse_kent h6 (by omega) he) (follows_kent h4 he)
  obtain ⟨c1, c2, c3⟩ := kent_class (n := n) h6 he
  have hcls := cls_eq h5 h7 h8 h9 c1 c2 c3
  rw [hcls] at h10
  obtain ⟨stageName, h11, h12⟩ := title_eq (by omega) h22 h10
  have hl : (kentLead n).length = 4 * n := by simp [kentLead]
  have hh : (kentLead n).head? = some 1 := by
    rw [List.head?_eq_getElem?, kentLead, List.getElem?_map, List.getElem?_range (by omega), Option.map_some,
      kentRow_zero h4]
  obtain ⟨h13, course, h14, h15, h16⟩ := course_rows (by omega) m _ _ h3 hh
  rw [hl, orderOf_kentHead h4, Nat.mul_comm] at h15
  rw [hl] at h13
  have hord : kentHead n ^ (n - 1) = 1 := by rw [← orderOf_kentHead h4, pow_orderOf_eq_one]
  refine ⟨m, course, stageName, h1, h4', hcls, h11, ?_, h13, h14, h15, ?_, ?_, ?_, ?_⟩
  · rw [h12]; simp [titleWords, nameWords, className]
  · intro t ht
    obtain ⟨a, ha⟩ := h16 t ht
    refine ⟨_, a, ha, ?_⟩
    rw [placeOf_ofPerm _ ⟨0, by omega⟩, h13, ← placeOfBell_kent_treble h4 he ⟨0, by omega⟩ rfl]; rfl
  · intro i hi
    have hlt : i * (4 * n) < course.len := by
      rw [h15, Nat.mul_comm]; exact Nat.mul_lt_mul_of_pos_left hi (by omega)
    obtain ⟨a, ha⟩ := h16 _ hlt
    refine ⟨_, a, by rw [h13]; exact ha, ?_⟩
    intro b hb
    rw [placeOf_ofPerm _ ⟨b, hb⟩, courseRow_kent h4, Nat.mul_div_cancel _ (by omega), Nat.mul_mod_left,
      kentRow_zero h4, mul_one, ← bobHead_pow_inv_val (by omega) _ ⟨b, hb⟩]
    congr 3
    rw [kentHead_eq h4, inv_pow, inv_inj, inv_eq_iff_mul_eq_one, ← pow_add, show i + (n - 1 - i) = n - 1 by omega,
      ← orderOf_bobHead (show 2 ≤ n by omega), pow_orderOf_eq_one]
  · intro b c hb hb2 hc hc2
    obtain ⟨j, hj⟩ := huntPlace_reach (n := n - 1) (a := c - 1) (b := b - 1) (by omega) (by omega)
    have hj' : (kentHead n ^ j)⁻¹ ⟨b, hb2⟩ = ⟨c, hc2⟩ := by
      rw [kentHead_eq h4, inv_pow, inv_inv, ← Perm.eq_inv_iff_eq]
      apply Fin.ext
      rw [bobHead_pow_inv_val (by omega), bobLeadHeadPlace, if_neg (by simp; omega)]
      change b = huntPlace (n - 1) (c - 1) (2 * j) + 1
      rw [hj]; omega
    refine ⟨j, fun t ht => ?_⟩
    rw [h13]
    obtain ⟨a, ha⟩ := h16 t ht
    obtain ⟨a', ha'⟩ := h16 ((t + j * (4 * n)) % course.len) (Nat.mod_lt _ (by omega))
    refine ⟨_, a, _, a', ha, ha', ?_⟩
    rw [placeOf_ofPerm _ ⟨b, hb2⟩, placeOf_ofPerm _ ⟨c, hc2⟩, courseRow_kent h4, courseRow_kent h4, h15,
      Nat.mod_mul_right_mod, Nat.add_mul_mod_self_right, Nat.mod_mul_right_div_self,
      Nat.add_mul_div_right _ _ (by omega), mul_inv_rev, mul_inv_rev, Perm.mul_apply, Perm.mul_apply]
    have e : kentHead n ^ ((t / (4 * n) + j) % (n - 1)) = kentHead n ^ j * kentHead n ^ (t / (4 * n)) := by
      rw [← pow_add, Nat.add_comm]
      have := pow_mod_orderOf (kentHead n) (j + t / (4 * n))
      rwa [orderOf_kentHead h4] at this
    rw [e, mul_inv_rev, Perm.mul_apply, hj']
  · intro i j r r' a a' hi hj hi2 hj2 hrr
    obtain ⟨x, hx⟩ := h16 i hi2
    obtain ⟨y, hy⟩ := h16 j hj2
    rw [hi] at hx
    rw [hj] at hy
    have e1 := (Prod.ext_iff.1 (Option.some.inj hx)).1
    have e2 := (Prod.ext_iff.1 (Option.some.inj hy)).1
    simp only at e1 e2
    have e3 := Row.ofPerm_injective (e1.symm.trans (hrr.trans e2))
    rw [courseRow_kent h4, courseRow_kent h4] at e3
    rw [h15] at hi2 hj2
    obtain ⟨e4, e5⟩ := kent_distinct h6 he (Nat.div_lt_of_lt_mul hi2) (Nat.div_lt_of_lt_mul hj2)
      (Nat.mod_lt _ (by omega)) (Nat.mod_lt _ (by omega)) e3
    rw [← Nat.div_add_mod i (4 * n), ← Nat.div_add_mod j (4 * n), e4, e5]

/-- The texts and the places of the specification: the usual notation of Kent Minor and Major, the path of the treble
of Minor, and the first lead head of Minor (142635) and Major (14263857). -/
example : String.ofList (kentText 6) = "34.-.34.16.-.12.-.16.-.12.-.16,16" ∧
    String.ofList (kentText 8) = "34.-.34.18.-.12.-.18.-.12.-.18.-.12.-.18,18" ∧
    (List.range 24).map (trebleBobPlace 6) =
      [0, 1, 0, 1, 2, 3, 2, 3, 4, 5, 4, 5, 5, 4, 5, 4, 3, 2, 3, 2, 1, 0, 1, 0] ∧
    (List.range 6).map (fun b => bobLeadHeadPlace 6 b 4) = [0, 2, 4, 1, 5, 3] ∧
    (List.range 8).map (fun b => bobLeadHeadPlace 8 b 6) = [0, 2, 4, 1, 6, 3, 7, 5] := by decide +kernel

end Bellframe.Props
