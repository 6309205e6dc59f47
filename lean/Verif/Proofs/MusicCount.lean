import Verif.Proofs.Music
import Mathlib.Data.Nat.Choose.Basic
import Mathlib.Algebra.BigOperators.Intervals
import Mathlib.Algebra.BigOperators.Fin
import Mathlib.Logic.Equiv.Fintype
import Mathlib.GroupTheory.Perm.Basic
import Mathlib.Data.Fintype.Perm

/-! # Counting the rows matched by masks and regexes -/

namespace Bellframe

open Finset

namespace Mask

/-- A well-formed mask with `k` open places is matched by `k!` rows. -/
theorem card_matches {m : Mask} {n : Nat} (hm : m.WellFormed) (hl : m.bells.length = n) :
    Nat.card {σ : Equiv.Perm (Fin n) // m.Matches (Row.ofPerm σ)} = (m.bells.count none).factorial := by
  classical
  obtain ⟨r, hr, hrm⟩ := hm.exists_row
  obtain ⟨σ₀, rfl⟩ := hr.exists_perm' (n := n) (by rw [← hrm.1]; exact hl)
  rw [matches_ofPerm hl] at hrm
  let p : Fin n → Prop := fun i => m.Open i.val
  have e : {σ : Equiv.Perm (Fin n) // m.Matches (Row.ofPerm σ)} ≃
      {f : Equiv.Perm (Fin n) // ∀ a, ¬ p a → f a = a} :=
    { toFun := fun σ => ⟨σ₀⁻¹ * σ.1, fun a ha => by
        have hσ := (matches_ofPerm hl σ.1).1 σ.2
        rcases gives_or_open (m := m) (i := a.val) (by rw [hl]; exact a.isLt) with ⟨b, hb⟩ | ho
        · have : σ.1 a = σ₀ a := Fin.ext ((hσ a b hb).trans (hrm a b hb).symm)
          simp [Equiv.Perm.mul_apply, this]
        · exact absurd ho ha⟩
      invFun := fun f => ⟨σ₀ * f.1, (matches_ofPerm hl _).2 fun i b hb => by
        rw [Equiv.Perm.mul_apply, f.2 i (not_open_of_gives hb)]
        exact hrm i b hb⟩
      left_inv := fun σ => by simp
      right_inv := fun f => by simp }
  rw [Nat.card_congr e, Nat.card_congr (Equiv.Perm.subtypeEquivSubtypePerm p).symm,
    Nat.card_eq_fintype_card, Fintype.card_perm, ← Nat.card_eq_fintype_card]
  congr 1
  have : Nat.card (Subtype p) = (List.finRange n |>.filter (fun i => decide (m.bells[i.val]? = some none))).length := by
    rw [Nat.card_eq_fintype_card, Fintype.card_subtype,
      ← List.toFinset_card_of_nodup ((List.nodup_finRange n).filter _)]
    congr 1
    ext i
    simp only [Finset.mem_filter, Finset.mem_univ, true_and, List.mem_toFinset, List.mem_filter,
      List.mem_finRange, decide_eq_true_eq]
    rfl
  rw [this]
  subst hl
  rw [List.count_eq_length_filter]
  conv_rhs => rw [show m.bells = (List.finRange m.bells.length).map (fun i => m.bells[i.val]) from by
    apply List.ext_getElem <;> simp]
  rw [List.filter_map, List.length_map]
  congr 1
  apply List.filter_congr
  intro i _
  simp only [List.getElem?_eq_getElem i.isLt, Function.comp_apply, Option.some.injEq]
  cases m.bells[i.val] <;> simp

end Mask

namespace Regex

/-- The place of a mask for an element other than a glob. -/
def maskOfElem : RegexElem → Option Bell
  | .bell b => some b
  | _ => none

theorem lang_no_glob_append : ∀ (es fs : List RegexElem) (bs : List Bell), RegexElem.glob ∉ es →
    (Lang (es ++ fs) bs ↔ ∃ b1 b2, bs = b1 ++ b2 ∧ (⟨es.map maskOfElem⟩ : Mask).Matches ⟨b1⟩ ∧ Lang fs b2)
  | [], fs, bs, _ => by
    constructor
    · intro h
      exact ⟨[], bs, rfl, ⟨rfl, by simp [Mask.Gives]⟩, h⟩
    · rintro ⟨b1, b2, rfl, ⟨hl, _⟩, h⟩
      have : b1 = [] := List.length_eq_zero_iff.1 (by simpa using hl.symm)
      subst this
      exact h
  | e :: es, fs, bs, hg => by
    have ih := lang_no_glob_append es fs
    have hg' : RegexElem.glob ∉ es := fun h => hg (List.mem_cons_of_mem _ h)
    cases e with
    | glob => simp at hg
    | bell b =>
      rw [List.cons_append]
      simp only [Lang]
      constructor
      · rintro ⟨rest, rfl, h⟩
        obtain ⟨b1, b2, rfl, h1, h2⟩ := (ih rest hg').1 h
        refine ⟨b :: b1, b2, rfl, ?_, h2⟩
        rw [List.map_cons, Mask.matches_cons]
        exact ⟨by simp [maskOfElem], h1⟩
      · rintro ⟨b1, b2, rfl, h1, h2⟩
        cases b1 with
        | nil => exact absurd h1.1 (by simp)
        | cons x b1 =>
          rw [List.map_cons, Mask.matches_cons] at h1
          have : b = x := h1.1 b rfl
          subst this
          exact ⟨b1 ++ b2, rfl, (ih _ hg').2 ⟨b1, b2, rfl, h1.2, h2⟩⟩
    | any =>
      rw [List.cons_append]
      simp only [Lang]
      constructor
      · rintro ⟨x, rest, rfl, h⟩
        obtain ⟨b1, b2, rfl, h1, h2⟩ := (ih rest hg').1 h
        refine ⟨x :: b1, b2, rfl, ?_, h2⟩
        rw [List.map_cons, Mask.matches_cons]
        exact ⟨by simp [maskOfElem], h1⟩
      · rintro ⟨b1, b2, rfl, h1, h2⟩
        cases b1 with
        | nil => exact absurd h1.1 (by simp)
        | cons x b1 =>
          rw [List.map_cons, Mask.matches_cons] at h1
          exact ⟨x, b1 ++ b2, rfl, (ih _ hg').2 ⟨b1, b2, rfl, h1.2, h2⟩⟩

theorem lang_no_glob {es : List RegexElem} (h : RegexElem.glob ∉ es) (bs : List Bell) :
    Lang es bs ↔ (⟨es.map maskOfElem⟩ : Mask).Matches ⟨bs⟩ := by
  have := lang_no_glob_append es [] bs h
  rw [List.append_nil] at this
  rw [this]
  constructor
  · rintro ⟨b1, b2, rfl, h1, h2⟩
    simp only [Lang] at h2
    subst h2
    simpa using h1
  · intro h1
    exact ⟨bs, [], by simp, h1, rfl⟩

theorem lang_append (es fs : List RegexElem) (bs : List Bell) :
    Lang (es ++ fs) bs ↔ ∃ b1 b2, bs = b1 ++ b2 ∧ Lang es b1 ∧ Lang fs b2 := by
  induction es generalizing bs with
  | nil =>
    simp only [List.nil_append, Lang]
    constructor
    · intro h; exact ⟨[], bs, rfl, rfl, h⟩
    · rintro ⟨b1, b2, rfl, rfl, h⟩; exact h
  | cons e es ih =>
    rw [List.cons_append]
    cases e with
    | bell b =>
      simp only [Lang, ih]
      constructor
      · rintro ⟨_, rfl, b1, b2, rfl, h1, h2⟩
        exact ⟨b :: b1, b2, rfl, ⟨b1, rfl, h1⟩, h2⟩
      · rintro ⟨_, b2, rfl, ⟨b1, rfl, h1⟩, h2⟩
        exact ⟨b1 ++ b2, rfl, b1, b2, rfl, h1, h2⟩
    | any =>
      simp only [Lang, ih]
      constructor
      · rintro ⟨x, _, rfl, b1, b2, rfl, h1, h2⟩
        exact ⟨x :: b1, b2, rfl, ⟨x, b1, rfl, h1⟩, h2⟩
      · rintro ⟨_, b2, rfl, ⟨x, b1, rfl, h1⟩, h2⟩
        exact ⟨x, b1 ++ b2, rfl, b1, b2, rfl, h1, h2⟩
    | glob =>
      simp only [Lang, ih]
      constructor
      · rintro ⟨sk, _, rfl, b1, b2, rfl, h1, h2⟩
        exact ⟨sk ++ b1, b2, by simp, ⟨sk, b1, rfl, h1⟩, h2⟩
      · rintro ⟨_, b2, rfl, ⟨sk, b1, rfl, h1⟩, h2⟩
        exact ⟨sk, b1 ++ b2, by simp, b1, b2, rfl, h1, h2⟩

theorem lang_replicate_any (k : Nat) (bs : List Bell) :
    Lang (List.replicate k .any) bs ↔ bs.length = k := by
  induction k generalizing bs with
  | zero => simp [Lang]
  | succ k ih =>
    rw [List.replicate_succ]
    simp only [Lang, ih]
    constructor
    · rintro ⟨x, rest, rfl, h⟩
      simp [h]
    · intro h
      cases bs with
      | nil => simp at h
      | cons x bs => exact ⟨x, bs, rfl, by simpa using h⟩

/-- A glob stands for some number of wildcards. -/
theorem lang_glob_iff (ps es : List RegexElem) (bs : List Bell) :
    Lang (ps ++ .glob :: es) bs ↔ ∃ d ≤ bs.length, Lang (ps ++ (List.replicate d .any ++ es)) bs := by
  simp only [lang_append, lang_replicate_any]
  constructor
  · rintro ⟨b1, b2, rfl, h1, sk, rest, rfl, h2⟩
    exact ⟨sk.length, by simp; omega, b1, _, rfl, h1, sk, rest, rfl, rfl, h2⟩
  · rintro ⟨d, _, b1, _, rfl, h1, sk, rest, rfl, _, h2⟩
    exact ⟨b1, _, rfl, h1, sk, rest, rfl, h2⟩

theorem lang_no_glob_length {es : List RegexElem} (h : RegexElem.glob ∉ es) {bs : List Bell}
    (hl : Lang es bs) : bs.length = es.length := by
  have := ((lang_no_glob h bs).1 hl).1
  simpa using this.symm

/-- With distinct bells, a glob before a bell or the end stands for one number of wildcards only. -/
theorem lang_glob_unique {ps es : List RegexElem} (hps : RegexElem.glob ∉ ps)
    (hes : es = [] ∨ ∃ b fs, es = .bell b :: fs) {bs : List Bell} (hnd : bs.Nodup) {d d' : Nat}
    (h : Lang (ps ++ (List.replicate d .any ++ es)) bs)
    (h' : Lang (ps ++ (List.replicate d' .any ++ es)) bs) : d = d' := by
  simp only [lang_append, lang_replicate_any] at h h'
  obtain ⟨b1, _, rfl, h1, s1, r1, rfl, hd, h2⟩ := h
  obtain ⟨b1', _, he, h1', s1', r1', rfl, hd', h2'⟩ := h'
  have hb1 := lang_no_glob_length hps h1
  have hb1' := lang_no_glob_length hps h1'
  rcases hes with rfl | ⟨b, fs, rfl⟩
  · simp only [Lang] at h2 h2'
    subst h2 h2'
    have := congrArg List.length he
    simp at this
    omega
  · simp only [Lang] at h2 h2'
    obtain ⟨t, rfl, _⟩ := h2
    obtain ⟨t', rfl, _⟩ := h2'
    have g1 : (b1 ++ (s1 ++ b :: t))[b1.length + s1.length]? = some b := by
      rw [← List.append_assoc, List.getElem?_append_right (by simp)]
      simp
    have g2 : (b1 ++ (s1 ++ b :: t))[b1'.length + s1'.length]? = some b := by
      rw [he, ← List.append_assoc, List.getElem?_append_right (by simp)]
      simp
    have := (List.getElem?_inj (by simp) hnd).1 (g1.trans g2.symm)
    omega

theorem bellsNamed_append (es fs : List RegexElem) :
    bellsNamed (es ++ fs) = bellsNamed es ++ bellsNamed fs := by
  induction es with
  | nil => rfl
  | cons e es ih => cases e <;> simp [bellsNamed, ih]

theorem bellsNamed_replicate_any (k : Nat) : bellsNamed (List.replicate k .any) = [] := by
  induction k with
  | zero => rfl
  | succ k ih => simpa [List.replicate_succ, bellsNamed] using ih

theorem bellsNamed_length (es : List RegexElem) :
    (bellsNamed es).length + es.count .any + es.count .glob = es.length := by
  induction es with
  | nil => rfl
  | cons e es ih => cases e <;> simp [bellsNamed] <;> omega

theorem mem_bellsNamed (es : List RegexElem) (b : Bell) : b ∈ bellsNamed es ↔ RegexElem.bell b ∈ es := by
  induction es with
  | nil => simp [bellsNamed]
  | cons e es ih => cases e <;> simp [bellsNamed, ih]

theorem lang_sublist {es : List RegexElem} {bs : List Bell} (h : Lang es bs) :
    (bellsNamed es).Sublist bs := by
  induction es generalizing bs with
  | nil => exact List.nil_sublist _
  | cons e es ih =>
    cases e with
    | bell b =>
      obtain ⟨rest, rfl, h⟩ := h
      exact (ih h).cons_cons b
    | any =>
      obtain ⟨x, rest, rfl, h⟩ := h
      exact (ih h).cons x
    | glob =>
      obtain ⟨sk, rest, rfl, h⟩ := h
      exact (ih h).trans (List.sublist_append_right _ _)

theorem filterMap_maskOfElem (es : List RegexElem) :
    (es.map maskOfElem).filterMap id = bellsNamed es := by
  induction es with
  | nil => rfl
  | cons e es ih =>
    rw [List.map_cons, List.filterMap_cons, ih]
    cases e <;> rfl

theorem count_maskOfElem (es : List RegexElem) (h : RegexElem.glob ∉ es) :
    (es.map maskOfElem).count none = es.count .any := by
  induction es with
  | nil => rfl
  | cons e es ih =>
    have := ih fun h' => h (List.mem_cons_of_mem _ h')
    cases e with
    | glob => simp at h
    | bell b => simpa [maskOfElem] using this
    | any => simpa [maskOfElem] using this

theorem hockey (D k : Nat) : ∑ e ∈ range (D + 1), (e + k).choose k = (D + k + 1).choose (k + 1) := by
  induction D with
  | zero => simp
  | succ D ih =>
    rw [sum_range_succ, ih, show D + 1 + k + 1 = (D + k + 1) + 1 from by omega,
      Nat.choose_succ_succ (D + k + 1) k, show D + 1 + k = D + k + 1 from by omega, Nat.add_comm]

theorem expectedCount_sum (u w g N : Nat) (hN : u ≤ N) :
    ∑ d ∈ range (N + 1), expectedCount u (w + d) g = expectedCount u w (g + 1) := by
  by_cases hw : w ≤ u
  · have hsub : range (u - w + 1) ⊆ range (N + 1) := by
      intro x hx
      simp only [mem_range] at *
      omega
    rw [← sum_subset hsub (fun d _ hd => by
      simp only [mem_range, not_lt] at hd
      cases g with
      | zero => exact if_neg (by omega)
      | succ g => exact if_neg (by omega))]
    rw [expectedCount, if_pos hw]
    cases g with
    | zero =>
      rw [sum_eq_single (u - w)]
      · simp [expectedCount, Nat.add_sub_cancel' hw]
      · intro d _ hd
        exact if_neg (by omega)
      · intro h; simp at h
    | succ g =>
      rw [show u - w + (g + 1) = (u - w) + g + 1 from by omega, ← hockey, mul_sum,
        ← sum_range_reflect]
      apply sum_congr rfl
      intro d hd
      simp only [mem_range] at hd
      rw [expectedCount, if_pos (by omega)]
      congr 2
      omega
  · rw [expectedCount, if_neg hw]
    apply sum_eq_zero
    intro d _
    cases g with
    | zero => exact if_neg (by omega)
    | succ g => exact if_neg (by omega)

theorem split_first_glob (es : List RegexElem) :
    RegexElem.glob ∉ es ∨ ∃ ps fs, es = ps ++ .glob :: fs ∧ RegexElem.glob ∉ ps := by
  by_cases h : RegexElem.glob ∈ es
  · right
    obtain ⟨ps, fs, he, hps⟩ := List.eq_append_cons_of_mem h
    exact ⟨ps, fs, he, hps⟩
  · exact .inl h

theorem normal_append_right {ps es : List RegexElem} (h : (⟨ps ++ es⟩ : Regex).Normal) :
    (⟨es⟩ : Regex).Normal := by
  induction ps with
  | nil => exact h
  | cons p ps ih => exact ih (normal_tail h)

theorem normal_prepend {ps es : List RegexElem} (hps : RegexElem.glob ∉ ps)
    (h : (⟨es⟩ : Regex).Normal) : (⟨ps ++ es⟩ : Regex).Normal := by
  induction ps with
  | nil => exact h
  | cons p ps ih =>
    refine normal_cons_of_ne (fun e => hps (by simp [e])) (ih fun h' => hps (List.mem_cons_of_mem _ h'))

theorem card_lang {n : Nat} (hn : 0 < n) (g : Nat) : ∀ es : List RegexElem, es.count .glob = g →
    (⟨es⟩ : Regex).Normal → (bellsNamed es).Nodup → (∀ b ∈ bellsNamed es, b.index < n) →
    Nat.card {σ : Equiv.Perm (Fin n) // Lang es (Row.ofPerm σ).bells} =
      expectedCount (n - (bellsNamed es).length) (es.count .any) g := by
  have hle : ∀ es : List RegexElem, (bellsNamed es).Nodup → (∀ b ∈ bellsNamed es, b.index < n) →
      (bellsNamed es).length ≤ n := by
    intro es hnd hlt
    have h1 : ((bellsNamed es).map Bell.index).Nodup := by
      refine hnd.map fun a b h => Bell.ext' h
    have h2 : ((bellsNamed es).map Bell.index) ⊆ List.range n := by
      intro x hx
      obtain ⟨b, hb, rfl⟩ := List.mem_map.1 hx
      exact List.mem_range.2 (hlt b hb)
    have := (List.subperm_of_subset h1 h2).length_le
    simpa using this
  induction g with
  | zero =>
    intro es hg hnorm hnd hlt
    have hno : RegexElem.glob ∉ es := List.count_eq_zero.1 hg
    have hlen := bellsNamed_length es
    have hle' := hle es hnd hlt
    by_cases hl : es.length = n
    · have hm : (⟨es.map maskOfElem⟩ : Mask).WellFormed := by
        rw [Mask.wellFormed_iff_given]
        simp only [filterMap_maskOfElem, List.length_map]
        refine ⟨?_, hnd, by rw [hl]; exact hlt⟩
        intro h
        have := congrArg List.length h
        simp at this
        subst this
        simp at hl
        omega
      rw [Nat.card_congr (Equiv.subtypeEquivRight fun σ => lang_no_glob hno _),
        Mask.card_matches hm (by simpa using hl)]
      simp only [count_maskOfElem es hno, expectedCount]
      rw [if_pos (by omega)]
      congr 1
      omega
    · rw [expectedCount, if_neg (by omega), Nat.card_eq_zero]
      left
      exact ⟨fun σ => hl (by simpa using (lang_no_glob_length hno σ.2).symm)⟩
  | succ g ih =>
    intro es hg hnorm hnd hlt
    rcases split_first_glob es with h | ⟨ps, fs, rfl, hps⟩
    · rw [List.count_eq_zero.2 h] at hg
      omega
    · have hfs : fs = [] ∨ ∃ b fs', fs = .bell b :: fs' := by
        have := normal_append_right hnorm 0 rfl
        cases fs with
        | nil => exact .inl rfl
        | cons e fs =>
          right
          simp at this
          obtain ⟨b, hb⟩ := this
          exact ⟨b, fs, by rw [hb]⟩
      have hnf : (⟨fs⟩ : Regex).Normal := normal_tail (normal_append_right hnorm)
      let es' : Nat → List RegexElem := fun d => ps ++ (List.replicate d .any ++ fs)
      have hnamed : ∀ d, bellsNamed (es' d) = bellsNamed (ps ++ .glob :: fs) := by
        intro d
        simp only [es', bellsNamed_append, bellsNamed_replicate_any, List.nil_append]
        rfl
      have hcard : ∀ d, Nat.card {σ : Equiv.Perm (Fin n) // Lang (es' d) (Row.ofPerm σ).bells} =
          expectedCount (n - (bellsNamed (ps ++ .glob :: fs)).length)
            ((ps ++ .glob :: fs).count .any + d) g := by
        intro d
        rw [← hnamed d]
        have := ih (es' d) (by
            simp only [es', List.count_append, List.count_cons, List.count_replicate] at *
            simp at *
            omega)
          (normal_prepend hps (normal_any_append d hnf)) (by rw [hnamed]; exact hnd)
          (by rw [hnamed]; exact hlt)
        rw [this]
        congr 1
        simp only [es', List.count_append, List.count_cons, List.count_replicate]
        simp
        omega
      have e : {σ : Equiv.Perm (Fin n) // Lang (ps ++ .glob :: fs) (Row.ofPerm σ).bells} ≃
          (Σ d : Fin (n + 1), {σ : Equiv.Perm (Fin n) // Lang (es' d) (Row.ofPerm σ).bells}) := by
        refine Equiv.symm (Equiv.ofBijective (fun x => ⟨x.2.1, (lang_glob_iff ps fs _).2
          ⟨x.1, by simpa using Nat.lt_succ_iff.1 x.1.2, x.2.2⟩⟩) ⟨?_, ?_⟩)
        · rintro ⟨d, σ, h⟩ ⟨d', σ', h'⟩ he
          simp only [Subtype.mk.injEq] at he
          subst he
          have := lang_glob_unique hps hfs (Row.ofPerm_nodup σ) h h'
          have : d = d' := Fin.ext this
          subst this
          rfl
        · rintro ⟨σ, h⟩
          obtain ⟨d, hd, h'⟩ := (lang_glob_iff ps fs _).1 h
          exact ⟨⟨⟨d, by simp at hd; omega⟩, σ, h'⟩, rfl⟩
      rw [Nat.card_congr e, Nat.card_sigma, Fin.sum_univ_eq_sum_range
        (fun d => Nat.card {σ : Equiv.Perm (Fin n) // Lang (es' d) (Row.ofPerm σ).bells}) (n + 1)]
      simp only [hcard]
      exact expectedCount_sum _ _ _ _ (by omega)

/-- No row matches if a bell is named twice or lies outside the stage. -/
theorem card_lang_zero {n : Nat} (es : List RegexElem)
    (h : ¬ ((bellsNamed es).Nodup ∧ ∀ b ∈ bellsNamed es, b.index < n)) :
    Nat.card {σ : Equiv.Perm (Fin n) // Lang es (Row.ofPerm σ).bells} = 0 := by
  rw [Nat.card_eq_zero]
  left
  refine ⟨fun ⟨σ, hσ⟩ => h ⟨?_, fun b hb => ?_⟩⟩
  · exact (lang_sublist hσ).nodup (Row.ofPerm_nodup σ)
  · exact (Row.mem_ofPerm σ b).1 ((lang_sublist hσ).subset hb)

end Regex

end Bellframe
