import Verif.Proofs.MusicCount

/-!
# Lemmas about the characters, runs and counters of music regexes
-/

namespace Bellframe

open Regex

theorem parseChar_some (c : Char) (e : RegexElem) : Regex.parseChar c = some e ↔ RegexChar c e := by
  unfold Regex.parseChar
  constructor
  · intro h
    by_cases h1 : c = 'x' ∨ c = '.'
    · rw [if_pos h1] at h
      simp only [Option.some.injEq] at h
      subst h
      rcases h1 with rfl | rfl
      · exact .wildX
      · exact .wildDot
    · rw [if_neg h1] at h
      by_cases h2 : c = '*'
      · rw [if_pos h2] at h
        simp only [Option.some.injEq] at h
        subst h h2
        exact .glob
      · rw [if_neg h2] at h
        obtain ⟨b, hb, rfl⟩ := Option.map_eq_some_iff.1 h
        exact .bell hb
  · intro h
    cases h with
    | wildX => rfl
    | wildDot => rfl
    | glob => rfl
    | bell hb =>
      have h1 : ¬ (c = 'x' ∨ c = '.') := by
        rintro (rfl | rfl) <;> revert hb <;> rw [show Bell.fromName _ = none from by decide] <;> simp
      have h2 : c ≠ '*' := by
        rintro rfl
        revert hb
        rw [show Bell.fromName '*' = none from by decide]
        simp
      rw [if_neg h1, if_neg h2, hb]
      rfl

/-- The bells of an ascending run. -/
def ascending (b len : Nat) : List Bell := (List.range' b len).map Bell.fromIndex

theorem runElems_eq (b len : Nat) : runElems b len = (ascending b len).map RegexElem.bell := rfl

theorem lang_bells (ds : List Bell) (es : List RegexElem) (bs : List Bell) :
    Lang (ds.map RegexElem.bell ++ es) bs ↔ ∃ rest, bs = ds ++ rest ∧ Lang es rest := by
  induction ds generalizing bs with
  | nil => simp
  | cons d ds ih =>
    rw [List.map_cons, List.cons_append]
    simp only [Lang, ih]
    constructor
    · rintro ⟨_, rfl, rest, rfl, h⟩
      exact ⟨rest, rfl, h⟩
    · rintro ⟨rest, rfl, h⟩
      exact ⟨ds ++ rest, rfl, rest, rfl, h⟩

theorem lang_glob_end (bs : List Bell) : Lang [.glob] bs :=
  ⟨bs, [], by simp, rfl⟩

theorem segment_iff (bs ds : List Bell) (p : Nat) :
    (p + ds.length ≤ bs.length ∧ ∀ k < ds.length, bs[p + k]? = ds[k]?) ↔
      ∃ pre post, pre.length = p ∧ bs = pre ++ (ds ++ post) := by
  constructor
  · rintro ⟨hl, h⟩
    refine ⟨bs.take p, bs.drop (p + ds.length), by simp; omega, ?_⟩
    apply List.ext_getElem?
    intro i
    by_cases h1 : i < p
    · rw [List.getElem?_append_left (by simp; omega), List.getElem?_take, if_pos h1]
    · rw [List.getElem?_append_right (by simp; omega)]
      have hp : (bs.take p).length = p := by simp; omega
      rw [hp]
      by_cases h2 : i - p < ds.length
      · rw [List.getElem?_append_left h2, ← h (i - p) h2]
        congr 1
        omega
      · rw [List.getElem?_append_right (by omega), List.getElem?_drop]
        congr 1
        omega
  · rintro ⟨pre, post, rfl, rfl⟩
    refine ⟨by simp, fun k hk => ?_⟩
    rw [List.getElem?_append_right (by omega), Nat.add_sub_cancel_left, List.getElem?_append_left hk]

theorem ascending_length (b len : Nat) : (ascending b len).length = len := by simp [ascending]

theorem ascending_getElem? (b len k : Nat) (h : k < len) : (ascending b len)[k]? = some ⟨b + k⟩ := by
  simp [ascending, h, Bell.fromIndex]

theorem descending_getElem? (b len k : Nat) (h : k < len) :
    (ascending b len).reverse[k]? = some ⟨b + (len - 1 - k)⟩ := by
  rw [List.getElem?_reverse (by rw [ascending_length]; exact h), ascending_length,
    ascending_getElem? _ _ _ (by omega)]

theorem runAt_iff (r : Row) (hr : r.Valid) (p len : Nat) :
    RunAt r p len ↔ ∃ b, b + len ≤ r.bells.length ∧ ∃ pre post, pre.length = p ∧
      (r.bells = pre ++ (ascending b len ++ post) ∨ r.bells = pre ++ ((ascending b len).reverse ++ post)) := by
  have hasc : ∀ b, (p + len ≤ r.bells.length ∧ ∀ k < len, r.bells[p + k]? = some ⟨b + k⟩) ↔
      ∃ pre post, pre.length = p ∧ r.bells = pre ++ (ascending b len ++ post) := by
    intro b
    rw [← segment_iff, ascending_length]
    refine and_congr_right fun _ => forall_congr' fun k => imp_congr_right fun hk => ?_
    rw [ascending_getElem? _ _ _ hk]
  have hdesc : ∀ b, (p + len ≤ r.bells.length ∧
        ∀ k < len, r.bells[p + k]? = some ⟨b + (len - 1 - k)⟩) ↔
      ∃ pre post, pre.length = p ∧ r.bells = pre ++ ((ascending b len).reverse ++ post) := by
    intro b
    rw [← segment_iff, List.length_reverse, ascending_length]
    refine and_congr_right fun _ => forall_congr' fun k => imp_congr_right fun hk => ?_
    rw [descending_getElem? _ _ _ hk]
  constructor
  · rintro ⟨hl, b, h⟩
    by_cases h0 : len = 0
    · subst h0
      obtain ⟨pre, post, h1, h2⟩ := (hasc 0).1 ⟨hl, by simp⟩
      exact ⟨0, by omega, pre, post, h1, .inl h2⟩
    · rcases h with h | h
      · refine ⟨b, ?_, ?_⟩
        · have := (hr.mem_iff _).1 (List.mem_of_getElem? (h (len - 1) (by omega)))
          simp only at this
          omega
        · obtain ⟨pre, post, h1, h2⟩ := (hasc b).1 ⟨hl, h⟩
          exact ⟨pre, post, h1, .inl h2⟩
      · refine ⟨b, ?_, ?_⟩
        · have := (hr.mem_iff _).1 (List.mem_of_getElem? (h 0 (by omega)))
          simp only at this
          omega
        · obtain ⟨pre, post, h1, h2⟩ := (hdesc b).1 ⟨hl, h⟩
          exact ⟨pre, post, h1, .inr h2⟩
  · rintro ⟨b, _, pre, post, h1, h | h⟩
    · obtain ⟨hl, h⟩ := (hasc b).2 ⟨pre, post, h1, h⟩
      exact ⟨hl, b, .inl h⟩
    · obtain ⟨hl, h⟩ := (hdesc b).2 ⟨pre, post, h1, h⟩
      exact ⟨hl, b, .inr h⟩

theorem normal_bells (ds : List Bell) {es : List RegexElem} (h : (⟨es⟩ : Regex).Normal) :
    (⟨ds.map RegexElem.bell ++ es⟩ : Regex).Normal :=
  normal_prepend (by simp) h

theorem mem_runs_iff (f g : Nat → Regex) (n len : Nat) (re : Regex) :
    re ∈ (if n < len then [] else (List.range (n - len + 1)).flatMap fun i => [f i, g i]) ↔
      ∃ b, b + len ≤ n ∧ (re = f b ∨ re = g b) := by
  by_cases h : n < len
  · rw [if_pos h]
    simp only [List.not_mem_nil, false_iff]
    rintro ⟨b, hb, _⟩
    omega
  · rw [if_neg h]
    simp only [List.mem_flatMap, List.mem_range, List.mem_cons, List.not_mem_nil, or_false]
    constructor
    · rintro ⟨b, hb, he⟩
      exact ⟨b, by omega, he⟩
    · rintro ⟨b, hb, he⟩
      exact ⟨b, by omega, he⟩

theorem countElems_eq : ∀ (es : List RegexElem) (u w g : Nat), (bellsNamed es).length ≤ u →
    countElems es u w g =
      .ok (u - (bellsNamed es).length, w + es.count .any, g + es.count .glob)
  | [], u, w, g, _ => by simp [countElems, bellsNamed]
  | .bell b :: es, u, w, g, h => by
    have h' : (bellsNamed es).length + 1 ≤ u := by simpa [bellsNamed] using h
    have hs : checkedSub u 1 = .ok (u - 1) := if_pos (by omega)
    simp only [countElems, hs, Res.ok_bind]
    rw [countElems_eq es (u - 1) w g (by omega)]
    simp [bellsNamed]
    omega
  | .any :: es, u, w, g, h => by
    simp only [countElems]
    rw [countElems_eq es u (w + 1) g (by simpa [bellsNamed] using h)]
    simp [bellsNamed]
    omega
  | .glob :: es, u, w, g, h => by
    simp only [countElems]
    rw [countElems_eq es u w (g + 1) (by simpa [bellsNamed] using h)]
    simp [bellsNamed]
    omega

theorem countElems_underflow : ∀ (es : List RegexElem) (u w g : Nat), u < (bellsNamed es).length →
    countElems es u w g = .error .overflow
  | [], u, w, g, h => by simp [bellsNamed] at h
  | .bell b :: es, u, w, g, h => by
    have h' : u < (bellsNamed es).length + 1 := by simpa [bellsNamed] using h
    by_cases hu : 1 ≤ u
    · have hs : checkedSub u 1 = .ok (u - 1) := if_pos hu
      simp only [countElems, hs, Res.ok_bind]
      exact countElems_underflow es (u - 1) w g (by omega)
    · have hs : checkedSub u 1 = .error .overflow := if_neg hu
      simp only [countElems, hs, Res.error_bind]
  | .any :: es, u, w, g, h => countElems_underflow es u (w + 1) g (by simpa [bellsNamed] using h)
  | .glob :: es, u, w, g, h => countElems_underflow es u w (g + 1) (by simpa [bellsNamed] using h)

theorem checkedFactorial_eq (max n : Nat) :
    checkedFactorial max n = if n.factorial ≤ max then some n.factorial else none := by
  have h : ∀ n a, (List.range' 1 n).foldl (· * ·) a = a * n.factorial := by
    intro n
    induction n with
    | zero => simp
    | succ n ih =>
      intro a
      rw [List.range'_1_concat, List.foldl_append, ih]
      simp [Nat.factorial_succ]
      rw [Nat.add_comm 1 n]
      ring
  unfold checkedFactorial
  simp only [h n 1, Nat.one_mul]

end Bellframe
