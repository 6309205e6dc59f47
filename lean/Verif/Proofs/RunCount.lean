import Verif.Proofs.MusicRuns
import Mathlib.Algebra.BigOperators.Group.Finset.Basic
import Mathlib.Data.Fintype.Perm

/-! # Counting runs: lemmas for C84 -/

namespace Bellframe

open Regex Finset

/-- The row has the bells `ds` from place `p` on. -/
def BellsAt (r : Row) (p : Nat) (ds : List Bell) : Prop :=
  ∃ pre post, pre.length = p ∧ r.bells = pre ++ (ds ++ post)

theorem BellsAt.bells_eq {r : Row} {p : Nat} {ds es : List Bell} (h1 : BellsAt r p ds)
    (h2 : BellsAt r p es) (hlen : ds.length = es.length) : ds = es := by
  obtain ⟨pre, post, hp, he⟩ := h1
  obtain ⟨pre', post', hp', he'⟩ := h2
  have h := List.append_inj (he.symm.trans he') (hp.trans hp'.symm)
  exact (List.append_inj h.2 hlen).1

theorem BellsAt.place_eq {r : Row} (hr : r.Valid) {p q : Nat} {d : Bell} {ds : List Bell}
    (h1 : BellsAt r p (d :: ds)) (h2 : BellsAt r q (d :: ds)) : p = q := by
  have key : ∀ p, BellsAt r p (d :: ds) → r.bells[p]? = some d := by
    rintro p ⟨pre, post, rfl, he⟩
    rw [he]
    simp
  have h1 := key p h1
  have h2 := key q h2
  obtain ⟨hi, hx⟩ := List.getElem?_eq_some_iff.1 h1
  obtain ⟨hj, hy⟩ := List.getElem?_eq_some_iff.1 h2
  exact (hr.nodup.getElem_inj_iff (hi := hi) (hj := hj)).1 (hx.trans hy.symm)

theorem BellsAt.le {r : Row} {p : Nat} {ds : List Bell} (h : BellsAt r p ds) :
    p + ds.length ≤ r.bells.length := by
  obtain ⟨pre, post, rfl, he⟩ := h
  rw [he]
  simp

theorem ascending_inj {b c len : Nat} (hlen : 0 < len) (h : ascending b len = ascending c len) :
    b = c := by
  have h1 := ascending_getElem? b len 0 hlen
  rw [h, ascending_getElem? c len 0 hlen] at h1
  simpa using h1.symm

theorem ascending_ne_reverse {b c len : Nat} (hlen : 2 ≤ len) :
    ascending b len ≠ (ascending c len).reverse := by
  intro h
  have h0 := ascending_getElem? b len 0 (by omega)
  have h1 := ascending_getElem? b len 1 (by omega)
  rw [h, List.getElem?_reverse (by rw [ascending_length]; omega), ascending_length,
    ascending_getElem? c len _ (by omega)] at h0 h1
  simp at h0 h1
  omega

theorem reverse_ascending_cons {b len : Nat} (hlen : 0 < len) :
    ∃ d ds, (ascending b len).reverse = d :: ds := by
  cases h : (ascending b len).reverse with
  | nil =>
    have := congrArg List.length h
    rw [List.length_reverse, ascending_length] at this
    simp at this
    omega
  | cons d ds => exact ⟨d, ds, rfl⟩

theorem ascending_cons {b len : Nat} (hlen : 0 < len) : ∃ d ds, ascending b len = d :: ds := by
  cases h : ascending b len with
  | nil =>
    have := congrArg List.length h
    rw [ascending_length] at this
    simp at this
    omega
  | cons d ds => exact ⟨d, ds, rfl⟩

theorem runAt_iff_bellsAt (r : Row) (hr : r.Valid) (p len : Nat) :
    RunAt r p len ↔ ∃ b, b + len ≤ r.bells.length ∧
      (BellsAt r p (ascending b len) ∨ BellsAt r p (ascending b len).reverse) := by
  rw [runAt_iff r hr]
  constructor
  · rintro ⟨b, hb, pre, post, hp, h | h⟩
    · exact ⟨b, hb, .inl ⟨pre, post, hp, h⟩⟩
    · exact ⟨b, hb, .inr ⟨pre, post, hp, h⟩⟩
  · rintro ⟨b, hb, ⟨pre, post, hp, h⟩ | ⟨pre, post, hp, h⟩⟩
    · exact ⟨b, hb, pre, post, hp, .inl h⟩
    · exact ⟨b, hb, pre, post, hp, .inr h⟩

/-- A relation that is one to one relates as many numbers on the left as on the right. -/
theorem card_one_to_one (R : Nat → Nat → Prop) (N M : Nat) [DecidablePred fun p => ∃ b, R p b]
    [DecidablePred fun b => ∃ p, R p b] (hN : ∀ p b, R p b → p < N) (hM : ∀ p b, R p b → b < M)
    (h1 : ∀ p b c, R p b → R p c → b = c) (h2 : ∀ p q b, R p b → R q b → p = q) :
    #{p ∈ range N | ∃ b, R p b} = #{b ∈ range M | ∃ p, R p b} := by
  classical
  refine Finset.card_bij (fun p hp => ((mem_filter.1 hp).2).choose) ?_ ?_ ?_
  · intro p hp
    have := ((mem_filter.1 hp).2).choose_spec
    exact mem_filter.2 ⟨mem_range.2 (hM _ _ this), p, this⟩
  · intro p hp q hq h
    have hp' := ((mem_filter.1 hp).2).choose_spec
    have hq' := ((mem_filter.1 hq).2).choose_spec
    have h : ((mem_filter.1 hp).2).choose = ((mem_filter.1 hq).2).choose := h
    rw [← h] at hq'
    exact h2 _ _ _ hp' hq'
  · intro b hb
    obtain ⟨p, hp⟩ := (mem_filter.1 hb).2
    have hm : p ∈ ({p ∈ range N | ∃ b, R p b} : Finset Nat) :=
      mem_filter.2 ⟨mem_range.2 (hN _ _ hp), b, hp⟩
    exact ⟨p, hm, h1 _ _ _ ((mem_filter.1 hm).2).choose_spec hp⟩

/-- The number of regexes, one for each direction of each run, that match. -/
theorem countP_pairs (f g : Nat → Regex) (P : Regex → Bool) (k : Nat) :
    ((List.range k).flatMap fun i => [f i, g i]).countP P =
      #{b ∈ range k | P (f b) = true} + #{b ∈ range k | P (g b) = true} := by
  induction k with
  | zero => simp
  | succ k ih =>
    rw [List.range_succ, List.flatMap_append, List.countP_append, ih, Finset.range_add_one,
      Finset.filter_insert, Finset.filter_insert]
    simp only [List.flatMap_cons, List.flatMap_nil, List.append_nil, List.countP_cons,
      List.countP_nil]
    have hn : ∀ Q : Nat → Prop, [DecidablePred Q] → k ∉ ({b ∈ range k | Q b} : Finset Nat) := by
      intro Q _ h
      simpa using (mem_filter.1 h).1
    cases hf : P (f k) <;> cases hg : P (g k) <;>
      simp [Finset.card_insert_of_notMem (hn _)] <;> omega

/-- If the regexes of a list match the runs at the places of `Q`, then as many of them match a row
as it has runs at these places. -/
theorem countP_runs (Q : Nat → Prop) [DecidablePred Q] (r : Row) (hr : r.Valid) (len : Nat)
    (hlen : 2 ≤ len) (hle : len ≤ r.bells.length) (f g : Nat → Regex) (P : Regex → Bool)
    (hf : ∀ b, P (f b) = true ↔ ∃ p, Q p ∧ BellsAt r p (ascending b len))
    (hg : ∀ b, P (g b) = true ↔ ∃ p, Q p ∧ BellsAt r p (ascending b len).reverse) :
    ((List.range (r.bells.length - len + 1)).flatMap fun i => [f i, g i]).countP P =
      Nat.card {p // Q p ∧ RunAt r p len} := by
  classical
  have hbound : ∀ p b ds, (ds = ascending b len ∨ ds = (ascending b len).reverse) →
      BellsAt r p ds → p < r.bells.length - len + 1 ∧ b < r.bells.length - len + 1 := by
    intro p b ds hds h
    have hl : ds.length = len := by
      rcases hds with rfl | rfl <;> simp [ascending_length]
    have h1 := h.le
    have hmem : (⟨b + (len - 1)⟩ : Bell) ∈ ds := by
      have : (⟨b + (len - 1)⟩ : Bell) ∈ ascending b len :=
        List.mem_of_getElem? (ascending_getElem? b len (len - 1) (by omega))
      rcases hds with rfl | rfl
      · exact this
      · exact List.mem_reverse.2 this
    have hmem' : (⟨b + (len - 1)⟩ : Bell) ∈ r.bells := by
      obtain ⟨pre, post, _, he⟩ := h
      rw [he]
      simp [hmem]
    have := (hr.mem_iff _).1 hmem'
    simp only at this
    omega
  rw [countP_pairs]
  set K := r.bells.length - len + 1 with hK
  have e1 := card_one_to_one (fun p b => Q p ∧ BellsAt r p (ascending b len)) K K
    (fun p b h => (hbound p b _ (.inl rfl) h.2).1) (fun p b h => (hbound p b _ (.inl rfl) h.2).2)
    (fun p b c h h' => ascending_inj (by omega)
      (h.2.bells_eq h'.2 (by rw [ascending_length, ascending_length])))
    (fun p q b h h' => by
      obtain ⟨d, ds, hd⟩ := ascending_cons (b := b) (len := len) (by omega)
      rw [hd] at h h'
      exact h.2.place_eq hr h'.2)
  have e2 := card_one_to_one (fun p b => Q p ∧ BellsAt r p (ascending b len).reverse) K K
    (fun p b h => (hbound p b _ (.inr rfl) h.2).1) (fun p b h => (hbound p b _ (.inr rfl) h.2).2)
    (fun p b c h h' => ascending_inj (by omega) (List.reverse_inj.1
      (h.2.bells_eq h'.2 (by simp [ascending_length]))))
    (fun p q b h h' => by
      obtain ⟨d, ds, hd⟩ := reverse_ascending_cons (b := b) (len := len) (by omega)
      rw [hd] at h h'
      exact h.2.place_eq hr h'.2)
  have f1 : ({b ∈ range K | P (f b) = true} : Finset Nat) =
      {b ∈ range K | ∃ p, Q p ∧ BellsAt r p (ascending b len)} :=
    Finset.filter_congr fun b _ => hf b
  have f2 : ({b ∈ range K | P (g b) = true} : Finset Nat) =
      {b ∈ range K | ∃ p, Q p ∧ BellsAt r p (ascending b len).reverse} :=
    Finset.filter_congr fun b _ => hg b
  rw [f1, f2, ← e1, ← e2, ← Finset.card_union_of_disjoint]
  · rw [← Nat.card_eq_finsetCard]
    refine Nat.card_congr (Equiv.subtypeEquivRight fun p => ?_)
    simp only [mem_union, mem_filter, mem_range]
    rw [runAt_iff_bellsAt r hr]
    constructor
    · rintro (⟨_, b, hq, h⟩ | ⟨_, b, hq, h⟩)
      · have := (hbound p b _ (.inl rfl) h).2
        exact ⟨hq, b, by omega, .inl h⟩
      · have := (hbound p b _ (.inr rfl) h).2
        exact ⟨hq, b, by omega, .inr h⟩
    · rintro ⟨hq, b, _, h | h⟩
      · exact .inl ⟨(hbound p b _ (.inl rfl) h).1, b, hq, h⟩
      · exact .inr ⟨(hbound p b _ (.inr rfl) h).1, b, hq, h⟩
  · rw [Finset.disjoint_left]
    intro p h h'
    obtain ⟨b, _, hb⟩ := (mem_filter.1 h).2
    obtain ⟨c, _, hc⟩ := (mem_filter.1 h').2
    exact ascending_ne_reverse hlen (hb.bells_eq hc (by simp [ascending_length]))

/-! ## What the regexes of runs match -/

theorem reverse_runElems (b len : Nat) :
    (runElems b len).reverse = (ascending b len).reverse.map RegexElem.bell := by
  rw [runElems_eq, List.map_reverse]

theorem lang_front (r : Row) (ds : List Bell) :
    Lang (ds.map RegexElem.bell ++ [.glob]) r.bells ↔ ∃ p, p = 0 ∧ BellsAt r p ds := by
  rw [lang_bells]
  constructor
  · rintro ⟨rest, he, _⟩
    exact ⟨0, rfl, [], rest, rfl, he⟩
  · rintro ⟨p, rfl, pre, post, hp, he⟩
    obtain rfl := List.length_eq_zero_iff.1 hp
    exact ⟨post, he, lang_glob_end _⟩

theorem lang_back (r : Row) (ds : List Bell) (h : ds.length ≤ r.bells.length) :
    Lang ([.glob] ++ ds.map RegexElem.bell) r.bells ↔
      ∃ p, p = r.bells.length - ds.length ∧ BellsAt r p ds := by
  have := lang_bells ds []
  simp only [List.append_nil] at this
  simp only [List.singleton_append, Lang, this]
  constructor
  · rintro ⟨sk, _, he, rest, rfl, rfl⟩
    have hlen := congrArg List.length he
    simp only [List.length_append, List.length_nil] at hlen
    exact ⟨_, rfl, sk, [], by omega, he⟩
  · rintro ⟨p, rfl, pre, post, hp, he⟩
    have hlen := congrArg List.length he
    simp only [List.length_append] at hlen
    obtain rfl : post = [] := List.length_eq_zero_iff.1 (by omega)
    exact ⟨pre, ds ++ [], he, [], rfl, rfl⟩

theorem lang_anywhere (r : Row) (ds : List Bell) :
    Lang ([.glob] ++ ds.map RegexElem.bell ++ [.glob]) r.bells ↔ ∃ p, True ∧ BellsAt r p ds := by
  simp only [List.cons_append, List.nil_append, Lang, lang_bells]
  constructor
  · rintro ⟨sk, _, he, rest, rfl, _⟩
    exact ⟨sk.length, trivial, sk, rest, rfl, he⟩
  · rintro ⟨_, _, pre, post, _, he⟩
    exact ⟨pre, _, he, post, rfl, post, [], by simp, rfl⟩

theorem normal_front (ds : List Bell) : (⟨ds.map RegexElem.bell ++ [.glob]⟩ : Regex).Normal :=
  normal_bells _ normal_glob_nil

theorem normal_back (ds : List Bell) : (⟨[.glob] ++ ds.map RegexElem.bell⟩ : Regex).Normal := by
  cases ds with
  | nil => exact normal_glob_nil
  | cons d ds =>
    refine normal_glob_bell ?_
    have := normal_bells ds normal_nil
    rwa [List.append_nil] at this

theorem normal_anywhere (d : Bell) (ds : List Bell) :
    (⟨[.glob] ++ (d :: ds).map RegexElem.bell ++ [.glob]⟩ : Regex).Normal :=
  normal_glob_bell (normal_bells ds normal_glob_nil)

theorem bellsNamed_append (es fs : List RegexElem) :
    bellsNamed (es ++ fs) = bellsNamed es ++ bellsNamed fs := by
  induction es with
  | nil => rfl
  | cons e es ih => cases e <;> simp [bellsNamed, ih]

theorem bellsNamed_map (ds : List Bell) : bellsNamed (ds.map RegexElem.bell) = ds := by
  induction ds with
  | nil => rfl
  | cons d ds ih => simp [bellsNamed, ih]

theorem ascending_nodup (b len : Nat) : (ascending b len).Nodup := by
  refine List.Nodup.map (fun x y h => ?_) List.nodup_range'
  simpa [Bell.fromIndex] using h

theorem mem_ascending {b len : Nat} {x : Bell} :
    x ∈ ascending b len ↔ b ≤ x.index ∧ x.index < b + len := by
  constructor
  · intro h
    obtain ⟨i, hi, rfl⟩ := List.mem_map.1 h
    obtain ⟨h1, h2⟩ := List.mem_range'_1.1 hi
    exact ⟨h1, h2⟩
  · rintro ⟨h1, h2⟩
    exact List.mem_map.2 ⟨x.index, List.mem_range'_1.2 ⟨h1, h2⟩, rfl⟩

/-- Counting pairs of a regex and a row both ways. -/
theorem sum_card_eq {n : Nat} (l : List Regex) (P : Regex → Equiv.Perm (Fin n) → Bool) :
    (l.map fun re => #{σ : Equiv.Perm (Fin n) | P re σ = true}).sum =
      ∑ σ : Equiv.Perm (Fin n), l.countP fun re => P re σ := by
  induction l with
  | nil => simp
  | cons re l ih =>
    rw [List.map_cons, List.sum_cons, ih, Finset.card_filter, ← Finset.sum_add_distrib]
    refine Finset.sum_congr rfl fun σ _ => ?_
    rw [List.countP_cons, add_comm]

end Bellframe
