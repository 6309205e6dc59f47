import Verif.Proofs.ClassCycles
import Verif.Props.PlaceNot
import Mathlib.Data.Nat.Periodic

/-! # Lemmas about the classification of methods -/

namespace Bellframe

open Equiv Classify

variable {n : Nat} {A : Type}

/-! ## Periodic paths -/

section Periodic

variable {α : Type} {g : Nat → α} {N : Nat}

theorem periodic_mod (hg : ∀ t, g (t + N) = g t) (t : Nat) : g (t % N) = g t :=
  Function.Periodic.map_mod_nat (f := g) (a := N) hg t

theorem rotate_range_map (hg : ∀ t, g (t + N) = g t) (k : Nat) :
    ((List.range N).map g).rotate k = (List.range N).map fun t => g (t + k) := by
  apply List.ext_getElem
  · simp
  · intro i h1 h2
    rw [List.getElem_rotate]
    simp only [List.getElem_map, List.getElem_range, List.length_map, List.length_range]
    exact periodic_mod hg _

theorem zip_range_map {β : Type} (g : Nat → α) (h : Nat → β) (N : Nat) :
    ((List.range N).map g).zip ((List.range N).map h) = (List.range N).map fun t => (g t, h t) := by
  rw [List.zip_map']

theorem circularPairs_range (hg : ∀ t, g (t + N) = g t) :
    circularPairs ((List.range N).map g) = (List.range N).map fun t => (g t, g (t + 1)) := by
  rw [circularPairs, rotate_range_map hg, zip_range_map]

theorem circularTriples_range (hg : ∀ t, g (t + N) = g t) :
    circularTriples ((List.range N).map g) =
      (List.range N).map fun t => (g t, g (t + 1), g (t + 2)) := by
  rw [circularTriples, rotate_range_map hg, rotate_range_map hg, zip_range_map, zip_range_map]

end Periodic

theorem isPalindromic_range {g : Nat → Nat} {N : Nat} (hN : 0 < N) (hg : ∀ t, g (t + N) = g t) :
    isPalindromic ((List.range N).map g) = true ↔
      ∃ c, ∀ s t, s + t ≡ c [MOD N] → g s = g t := by
  have hrev : ∀ i, (((List.range N).map g).reverse.rotate i).zip ((List.range N).map g) =
      (List.range N).map fun j => (g (N - 1 - (j + i) % N), g j) := by
    intro i
    rw [← zip_range_map]
    congr 1
    apply List.ext_getElem
    · simp
    · intro j h1 h2
      rw [List.getElem_rotate]
      simp
  unfold isPalindromic
  simp only [hrev, List.any_eq_true, List.all_eq_true, List.mem_range, List.length_map,
    List.length_range, List.mem_map, forall_exists_index, and_imp, forall_apply_eq_imp_iff₂, beq_iff_eq]
  constructor
  · rintro ⟨i, hi, H⟩
    refine ⟨N - 1 - i, ?_⟩
    intro s t hst
    have h1 : s % N + (t % N + i) % N ≡ N - 1 [MOD N] := by
      have e1 : s % N + (t % N + i) % N ≡ s + (t + i) [MOD N] := by
        refine Nat.ModEq.add (Nat.mod_modEq _ _) ((Nat.mod_modEq _ _).trans ?_)
        exact Nat.ModEq.add_right _ (Nat.mod_modEq _ _)
      have e2 : s + (t + i) ≡ N - 1 - i + i [MOD N] := by
        rw [← Nat.add_assoc]
        exact Nat.ModEq.add_right _ hst
      rw [show N - 1 - i + i = N - 1 from by omega] at e2
      exact e1.trans e2
    have hs := Nat.mod_lt s hN
    have hx := Nat.mod_lt (t % N + i) hN
    have h2 : s % N + (t % N + i) % N = N - 1 := by
      unfold Nat.ModEq at h1
      rw [Nat.mod_eq_of_lt (show N - 1 < N from by omega)] at h1
      by_cases hlt : s % N + (t % N + i) % N < N
      · rwa [Nat.mod_eq_of_lt hlt] at h1
      · rw [Nat.mod_eq_sub_mod (by omega), Nat.mod_eq_of_lt (by omega)] at h1
        omega
    have h3 := H (t % N) (Nat.mod_lt _ hN)
    rw [show N - 1 - (t % N + i) % N = s % N from by omega, periodic_mod hg, periodic_mod hg] at h3
    exact h3
  · rintro ⟨c, H⟩
    have hc := Nat.mod_lt c hN
    refine ⟨N - 1 - c % N, by omega, ?_⟩
    intro j hj
    apply H
    have hx := Nat.mod_lt (j + (N - 1 - c % N)) hN
    set i := N - 1 - c % N with hi
    apply Nat.ModEq.add_right_cancel' i
    have e1 : N - 1 - (j + i) % N + j + i ≡ N - 1 - (j + i) % N + (j + i) % N [MOD N] := by
      rw [Nat.add_assoc]
      exact Nat.ModEq.add_left _ (Nat.mod_modEq _ _).symm
    rw [show N - 1 - (j + i) % N + (j + i) % N = N - 1 from by omega] at e1
    refine e1.trans ?_
    have e2 : N - 1 = c % N + i := by omega
    rw [e2]
    exact Nat.ModEq.add_right _ (Nat.mod_modEq _ _)

theorem windows_all {α β : Type} [DecidableEq β] (key : α → β) (l : List α) :
    ((windows l).all fun p => key p.1 == key p.2) = true ↔ ∀ a ∈ l, ∀ b ∈ l, key a = key b := by
  unfold windows
  induction l with
  | nil => simp
  | cons x l ih =>
    cases l with
    | nil => simp
    | cons y l =>
      simp only [List.tail_cons, List.zip_cons_cons, List.all_cons, Bool.and_eq_true, beq_iff_eq] at ih ⊢
      rw [ih]
      constructor
      · rintro ⟨h1, h2⟩ a ha b hb
        have : ∀ c ∈ x :: y :: l, key c = key y := by
          intro c hc
          rcases List.mem_cons.1 hc with rfl | hc
          · exact h1
          · exact h2 c hc y (by simp)
        rw [this a ha, this b hb]
      · intro H
        exact ⟨H x (by simp) y (by simp), fun a ha b hb =>
          H a (List.mem_cons_of_mem _ ha) b (List.mem_cons_of_mem _ hb)⟩

theorem countPlaces_ofFn (l : List (Fin n)) (f : Fin n → Nat) :
    countPlaces (l.map Fin.val) (List.ofFn f) = .ok (List.ofFn fun p => f p + l.count p) := by
  induction l generalizing f with
  | nil => simp [countPlaces]
  | cons x l ih =>
    have hget : getIdx (List.ofFn f) x.val = .ok (f x) := by
      rw [getIdx_of_lt (List.ofFn f) (i := x.val) (by simp)]
      simp
    rw [List.map_cons, countPlaces, hget]
    simp only [Res.ok_bind, setIdx_ofFn, ih]
    congr 2
    funext p
    by_cases hp : p = x
    · subst hp
      simp
      omega
    · rw [if_neg hp, List.count_cons_of_ne (by simpa using fun h => hp h.symm)]

theorem countP_ofFn_card {α : Type} (f : Fin n → α) (q : α → Bool) :
    (List.ofFn f).countP q = (Finset.univ.filter (fun b => q (f b) = true)).card := by
  rw [List.ofFn_eq_map, List.countP_map, Finset.card_def]
  simp only [Finset.filter_val, ← Multiset.countP_eq_card_filter]
  rw [Finset.univ, Fin.fintype]
  simp only [Multiset.coe_countP]
  congr 1
  funext b
  simp [Function.comp]

/-! ## The path of a bell -/

section

variable (lead : List (Perm (Fin n))) (τ : Perm (Fin n))

theorem isHuntBell_iff (b : Fin n) : IsHuntBell τ b ↔ Function.minimalPeriod τ b = 1 :=
  Function.minimalPeriod_eq_one_iff_isFixedPt.symm

variable {lead τ}

theorem placeOfBell_periodic (hne : lead ≠ []) (b : Fin n) (t : Nat) :
    placeOfBell lead τ b (t + Function.minimalPeriod τ b * lead.length) = placeOfBell lead τ b t := by
  rw [Nat.add_comm, placeOfBell_add lead τ hne, ← minimalPeriod_inv, pow_minimalPeriod]

theorem placeOfBell_hunt (hne : lead ≠ []) {b : Fin n} (hb : IsHuntBell τ b) (t : Nat) :
    placeOfBell lead τ b (t + lead.length) = placeOfBell lead τ b t := by
  have := placeOfBell_periodic (τ := τ) hne b t
  rwa [(isHuntBell_iff τ b).1 hb, Nat.one_mul] at this

theorem cycleFrom_hunt {b : Fin n} (hb : IsHuntBell τ b) : cycleFrom lead τ b =
    ⟨[⟨b.val⟩], (List.range lead.length).map fun t => (placeOfBell lead τ b t).val⟩ := by
  unfold cycleFrom
  rw [(isHuntBell_iff τ b).1 hb, Nat.one_mul]
  rfl

theorem rowsInPlace_eq_count (b p : Fin n) :
    ((List.range lead.length).map (placeOfBell lead τ b)).count p = rowsInPlace lead τ b p := by
  unfold rowsInPlace
  rw [List.count, List.countP_map, List.countP_eq_length_filter]
  congr 2

theorem visits_iff (hne : lead ≠ []) {b : Fin n} (hb : IsHuntBell τ b) (p : Fin n) :
    Visits lead τ b p ↔ 0 < rowsInPlace lead τ b p := by
  rw [← rowsInPlace_eq_count, List.count_pos_iff, List.mem_map]
  constructor
  · rintro ⟨t, ht⟩
    refine ⟨t % lead.length, ?_, ?_⟩
    · rw [List.mem_range]
      exact Nat.mod_lt _ (List.length_pos_of_ne_nil hne)
    · rw [periodic_mod (fun t => placeOfBell_hunt hne hb t), ht]
  · rintro ⟨t, _, ht⟩
    exact ⟨t, ht⟩

theorem classifyHuntCycle_spec (hne : lead ≠ []) {b : Fin n} (hb : IsHuntBell τ b) :
    ∃ little k, classifyHuntCycle (cycleFrom lead τ b) ⟨n⟩ = .ok (little, k) ∧
      (little = true ↔ ∃ p, ¬ Visits lead τ b p) ∧ HuntPathIs lead τ b k := by
  classical
  have hpos : 0 < lead.length := List.length_pos_of_ne_nil hne
  have hper : ∀ t, (placeOfBell lead τ b (t + lead.length)).val = (placeOfBell lead τ b t).val :=
    fun t => by rw [placeOfBell_hunt hne hb]
  have hcounts : countPlaces ((List.range lead.length).map fun t => (placeOfBell lead τ b t).val)
      (List.replicate n 0) = .ok (List.ofFn fun p => rowsInPlace lead τ b p) := by
    have := countPlaces_ofFn ((List.range lead.length).map (placeOfBell lead τ b)) (fun _ => 0)
    rw [List.map_map, List.ofFn_const] at this
    rw [show (fun t => (placeOfBell lead τ b t).val) = Fin.val ∘ placeOfBell lead τ b from rfl, this]
    simp [rowsInPlace_eq_count]
  have hlittle : (List.ofFn fun p => rowsInPlace lead τ b p).contains 0 = true ↔
      ∃ p, ¬ Visits lead τ b p := by
    rw [List.contains_iff_mem, List.mem_ofFn]
    refine exists_congr fun p => ?_
    rw [visits_iff hne hb]
    omega
  have hstat : ((((List.ofFn fun p => rowsInPlace lead τ b p).filter
      (fun v => decide (v > 0))).length == 1) = true) ↔ Stationary lead τ b := by
    rw [beq_iff_eq, ← List.countP_eq_length_filter, countP_ofFn_card, Finset.card_eq_one]
    constructor
    · rintro ⟨p, hp⟩
      refine ⟨p, fun t => ?_⟩
      have : placeOfBell lead τ b t ∈ ({p} : Finset (Fin n)) := by
        rw [← hp]
        simp only [gt_iff_lt, decide_eq_true_eq, Finset.mem_filter, Finset.mem_univ, true_and]
        rw [← visits_iff hne hb]
        exact ⟨t, rfl⟩
      simpa using this
    · rintro ⟨p, hp⟩
      refine ⟨p, ?_⟩
      ext q
      simp only [gt_iff_lt, decide_eq_true_eq, Finset.mem_filter, Finset.mem_univ, true_and,
        Finset.mem_singleton]
      rw [← visits_iff hne hb]
      constructor
      · rintro ⟨t, rfl⟩
        exact hp t
      · rintro rfl
        exact ⟨0, hp 0⟩
  have htwice : ((List.ofFn fun p => rowsInPlace lead τ b p).all fun v => v == 0 || v == 2) = true ↔
      ∀ p, Visits lead τ b p → rowsInPlace lead τ b p = 2 := by
    simp only [List.all_eq_true, List.mem_ofFn, forall_exists_index, forall_apply_eq_imp_iff,
      Bool.or_eq_true, beq_iff_eq]
    refine forall_congr' fun p => ?_
    rw [visits_iff hne hb]
    omega
  have heven : ((windows ((List.ofFn fun p => rowsInPlace lead τ b p).filter
      (fun v => v != 0))).all fun p => p.1 == p.2) = true ↔ EvenlySpread lead τ b := by
    rw [windows_all (fun v => v)]
    simp only [List.mem_filter, List.mem_ofFn, bne_iff_ne, ne_eq, and_imp, forall_exists_index,
      forall_apply_eq_imp_iff]
    unfold EvenlySpread
    constructor
    · intro H p q hp hq
      rw [visits_iff hne hb] at hp hq
      exact H p (by omega) q (by omega)
    · intro H p hp q hq
      exact H p q ((visits_iff hne hb p).2 (by omega)) ((visits_iff hne hb q).2 (by omega))
  have hpm : ((circularPairs ((List.range lead.length).map fun t => (placeOfBell lead τ b t).val)).filter
      (fun p => p.1 == p.2)).length = placesMade lead τ b := by
    rw [circularPairs_range hper, ← List.countP_eq_length_filter, List.countP_map, placesMade,
      ← List.countP_eq_length_filter]
    congr 1
    funext t
    simp only [Function.comp_apply, beq_eq_decide, Fin.val_inj]
  have hsym : isPalindromic ((List.range lead.length).map fun t => (placeOfBell lead τ b t).val) = true ↔
      Symmetric lead τ b := by
    rw [isPalindromic_range hpos hper]
    unfold Symmetric
    simp only [Fin.val_inj]
  unfold classifyHuntCycle
  rw [cycleFrom_hunt hb]
  simp only [hcounts, Res.ok_bind, Res.pure_eq, hpm]
  by_cases h1 : Stationary lead τ b
  · rw [if_pos (hstat.2 h1)]
    exact ⟨_, _, rfl, hlittle, Or.inl h1⟩
  rw [if_neg (fun h => h1 (hstat.1 h))]
  by_cases h2 : ∀ p, Visits lead τ b p → rowsInPlace lead τ b p = 2
  · rw [if_pos (htwice.2 h2)]
    exact ⟨_, _, rfl, hlittle, h1, h2⟩
  have h2' : ¬ PlainHunt lead τ b := fun h => h2 h.2
  rw [if_neg (fun h => h2 (htwice.1 h))]
  refine ⟨_, _, rfl, hlittle, ?_⟩
  by_cases h3 : Symmetric lead τ b
  · rw [hsym.2 h3]
    by_cases h4 : EvenlySpread lead τ b
    · rw [heven.2 h4]
      rcases Nat.lt_trichotomy (placesMade lead τ b) 2 with h | h | h
      · rw [Nat.compare_eq_lt.2 h]
        exact ⟨h1, h2', Or.inr ⟨h4, h⟩⟩
      · rw [Nat.compare_eq_eq.2 h]
        exact ⟨h1, h2', h3, h4, h⟩
      · rw [Nat.compare_eq_gt.2 h]
        exact Or.inr ⟨h2', h3, h4, h⟩
    · rw [Bool.eq_false_iff.2 (fun h => h4 (heven.1 h))]
      exact ⟨h1, h2', h3, h4⟩
  · rw [Bool.eq_false_iff.2 (fun h => h3 (hsym.1 h))]
    exact ⟨h1, h2', Or.inl h3⟩

theorem huntPathIs_unique {b : Fin n} {k k' : HuntBellClass} (h : HuntPathIs lead τ b k)
    (h' : HuntPathIs lead τ b k') : k = k' := by
  have hp : PlainHunt lead τ b → ¬ Stationary lead τ b := fun h => h.1
  have hlt : placesMade lead τ b < 2 → placesMade lead τ b ≠ 2 := by omega
  have hgt : 2 < placesMade lead τ b → placesMade lead τ b ≠ 2 := by omega
  have hlg : 2 < placesMade lead τ b → ¬ placesMade lead τ b < 2 := by omega
  cases k <;> cases k' <;> simp only [HuntPathIs] at h h' <;> first | rfl | (exfalso; tauto)

theorem huntPathIs_exists (hne : lead ≠ []) {b : Fin n} (hb : IsHuntBell τ b) :
    ∃ k, HuntPathIs lead τ b k := by
  obtain ⟨_, k, _, _, hk⟩ := classifyHuntCycle_spec hne hb
  exact ⟨k, hk⟩

theorem HuntBellClass.rank_eq (k : HuntBellClass) : k.rank = dominance.idxOf k := by cases k <;> rfl

theorem HuntBellClass.idxOf_injective {a b : HuntBellClass} (h : dominance.idxOf a = dominance.idxOf b) : a = b := by
  cases a <;> cases b <;> first | rfl | (exact absurd h (by decide))

theorem HuntBellClass.rank_injective : Function.Injective HuntBellClass.rank := by
  intro a b h
  cases a <;> cases b <;> first | rfl | (simp [rank] at h)

/-! ## The dominant hunt bells -/

/-- What is known after some of the hunt bells have been looked at. -/
def BestState (lead : List (Perm (Fin n))) (τ : Perm (Fin n)) (done : List (Fin n)) (little : Bool)
    (k : HuntBellClass) (bs : List (Fin n)) : Prop :=
  bs ≠ [] ∧ (∀ b, b ∈ bs ↔ b ∈ done ∧ HuntPathIs lead τ b k) ∧
    (∀ b ∈ done, ∀ k', HuntPathIs lead τ b k' → k.rank ≤ k'.rank) ∧
    (little = true ↔ ∀ b ∈ bs, ∃ p, ¬ Visits lead τ b p)

theorem bestLoop_spec (hne : lead ≠ []) (cs : List (Fin n)) :
    ∀ (done bs : List (Fin n)) (little : Bool) (k : HuntBellClass), (∀ b ∈ cs, IsHuntBell τ b) →
      BestState lead τ done little k bs →
      ∃ little' k' bs', bestLoop ⟨n⟩ (cs.map (cycleFrom lead τ)) little k (bs.map (cycleFrom lead τ)) =
        .ok (little', k', bs'.map (cycleFrom lead τ)) ∧ BestState lead τ (done ++ cs) little' k' bs' := by
  induction cs with
  | nil =>
    intro done bs little k _ h
    exact ⟨little, k, bs, rfl, by simpa using h⟩
  | cons c cs ih =>
    intro done bs little k hh hst
    obtain ⟨h1, h2, h3, h4⟩ := hst
    obtain ⟨il, kc, hc1, hc2, hc3⟩ := classifyHuntCycle_spec hne (hh c (by simp))
    have hassoc : done ++ c :: cs = (done ++ [c]) ++ cs := by simp
    rw [hassoc, List.map_cons, bestLoop, hc1]
    simp only [Res.ok_bind]
    have hkc : ∀ k', HuntPathIs lead τ c k' → k' = kc := fun k' h => huntPathIs_unique h hc3
    rcases Nat.lt_trichotomy kc.rank k.rank with h | h | h
    · rw [Nat.compare_eq_lt.2 h]
      refine ih (done ++ [c]) [c] il kc (fun b hb => hh b (by simp [hb])) ⟨by simp, ?_, ?_, ?_⟩
      · intro b
        simp only [List.mem_singleton, List.mem_append]
        constructor
        · rintro rfl
          exact ⟨Or.inr rfl, hc3⟩
        · rintro ⟨hb | hb, hb2⟩
          · exact absurd (h3 b hb kc hb2) (by omega)
          · exact hb
      · intro b hb k' hk'
        rcases List.mem_append.1 hb with hb | hb
        · exact le_trans (le_of_lt h) (h3 b hb k' hk')
        · rw [List.mem_singleton] at hb
          subst hb
          rw [hkc k' hk']
      · simpa using hc2
    · rw [Nat.compare_eq_eq.2 h]
      have hk : kc = k := HuntBellClass.rank_injective h
      subst hk
      have := ih (done ++ [c]) (bs ++ [c]) (little && il) kc (fun b hb => hh b (by simp [hb]))
        ⟨by simp, ?_, ?_, ?_⟩
      · rw [List.map_append] at this
        exact this
      · intro b
        simp only [List.mem_append, List.mem_singleton, h2]
        constructor
        · rintro (⟨hb, hb2⟩ | rfl)
          · exact ⟨Or.inl hb, hb2⟩
          · exact ⟨Or.inr rfl, hc3⟩
        · rintro ⟨hb | hb, hb2⟩
          · exact Or.inl ⟨hb, hb2⟩
          · exact Or.inr hb
      · intro b hb k' hk'
        rcases List.mem_append.1 hb with hb | hb
        · exact h3 b hb k' hk'
        · rw [List.mem_singleton] at hb
          subst hb
          rw [hkc k' hk']
      · rw [Bool.and_eq_true, h4, hc2]
        simp only [List.mem_append, List.mem_singleton, or_imp, forall_and, forall_eq]
    · rw [Nat.compare_eq_gt.2 h]
      refine ih (done ++ [c]) bs little k (fun b hb => hh b (by simp [hb])) ⟨h1, ?_, ?_, h4⟩
      · intro b
        rw [h2]
        simp only [List.mem_append, List.mem_singleton]
        constructor
        · rintro ⟨hb, hb2⟩
          exact ⟨Or.inl hb, hb2⟩
        · rintro ⟨hb | rfl, hb2⟩
          · exact ⟨hb, hb2⟩
          · rw [hkc k hb2] at h
            omega
      · intro b hb k' hk'
        rcases List.mem_append.1 hb with hb | hb
        · exact h3 b hb k' hk'
        · rw [List.mem_singleton] at hb
          subst hb
          rw [hkc k' hk']
          omega

theorem otherHunts_spec (bs hs : List (Fin n)) (hh : ∀ b ∈ hs, IsHuntBell τ b) :
    otherHunts (bs.map fun b => (⟨b.val⟩ : Bell)) (hs.map (cycleFrom lead τ)) =
      .ok ((hs.filter (fun b => decide (b ∉ bs))).map (cycleFrom lead τ)) := by
  induction hs with
  | nil => rfl
  | cons h hs ih =>
    rw [List.map_cons, otherHunts, cycleFrom_hunt (hh h (by simp)), Cycle.asHuntBell,
      ih (fun b hb => hh b (by simp [hb]))]
    simp only [unwrap_some, Res.ok_bind, Res.pure_eq]
    have hmem : (bs.map fun b => (⟨b.val⟩ : Bell)).contains ⟨h.val⟩ = true ↔ h ∈ bs := by
      rw [List.contains_iff_mem, List.mem_map]
      constructor
      · rintro ⟨b, hb, he⟩
        rwa [← show b = h from Fin.ext (by simpa using he)]
      · intro hb
        exact ⟨h, hb, rfl⟩
    by_cases hb : h ∈ bs
    · rw [if_pos (hmem.2 hb), List.filter_cons_of_neg (by simpa using hb)]
    · rw [if_neg (fun h' => hb (hmem.1 h')), List.filter_cons_of_pos (by simpa using hb), List.map_cons,
        cycleFrom_hunt (hh h (by simp))]

/-! ## Sharp turns -/

theorem sharpTurn_pow (hne : lead ≠ []) (b : Fin n) (k : Nat) (h : SharpTurn lead τ ((τ⁻¹ ^ k) b)) :
    SharpTurn lead τ b := by
  obtain ⟨t, ht⟩ := h
  refine ⟨k * lead.length + t, ?_⟩
  rw [Nat.add_assoc, Nat.add_assoc]
  simpa only [placeOfBell_add lead τ hne] using ht

theorem sharpTurn_sameCycle (hne : lead ≠ []) {a b : Fin n} (h : τ.SameCycle a b) :
    SharpTurn lead τ a ↔ SharpTurn lead τ b := by
  have key : ∀ {a b : Fin n}, τ.SameCycle a b → SharpTurn lead τ a → SharpTurn lead τ b := by
    intro a b h ha
    obtain ⟨k, _, hk⟩ := (sameCycle_iff τ⁻¹ b a).1 (Equiv.Perm.sameCycle_inv.2 h.symm)
    rw [← hk] at ha
    exact sharpTurn_pow hne b k ha
  exact ⟨key h, key h.symm⟩

theorem sharpTurn_iff_path (hne : lead ≠ []) (s : Fin n) :
    ((circularTriples (cycleFrom lead τ s).fullPath).any fun t =>
      t.1 == t.2.2 && (t.2.1 + 1 == t.1 || t.2.1 == t.1 + 1)) = true ↔ SharpTurn lead τ s := by
  have hN : 0 < Function.minimalPeriod τ s * lead.length :=
    Nat.mul_pos (minimalPeriod_pos τ s) (List.length_pos_of_ne_nil hne)
  have hper : ∀ t, (placeOfBell lead τ s (t + Function.minimalPeriod τ s * lead.length)).val =
      (placeOfBell lead τ s t).val := fun t => by rw [placeOfBell_periodic hne]
  have hper' : ∀ t, placeOfBell lead τ s (t + Function.minimalPeriod τ s * lead.length) =
      placeOfBell lead τ s t := fun t => by rw [placeOfBell_periodic hne]
  unfold cycleFrom
  rw [circularTriples_range hper]
  simp only [List.any_eq_true, List.mem_map, List.mem_range, exists_exists_and_eq_and,
    Bool.and_eq_true, Bool.or_eq_true, beq_iff_eq, Fin.val_inj]
  constructor
  · rintro ⟨t, _, ht⟩
    exact ⟨t, ht⟩
  · rintro ⟨t, ht⟩
    have hmod : ∀ i, placeOfBell lead τ s (t % (Function.minimalPeriod τ s * lead.length) + i) =
        placeOfBell lead τ s (t + i) := by
      intro i
      exact periodic_mod (g := fun t => placeOfBell lead τ s (t + i)) (fun t => by
        rw [Nat.add_right_comm, hper']) t
    refine ⟨t % (Function.minimalPeriod τ s * lead.length), Nat.mod_lt _ hN, ?_⟩
    have h0 := hmod 0
    simp only [Nat.add_zero] at h0
    rw [hmod 1, hmod 2, h0]
    exact ht

theorem subClassifyPlain_spec (ss : List (Fin n)) :
    subClassifyPlain (ss.map (cycleFrom lead τ)) =
      if ss.any (fun s => (circularTriples (cycleFrom lead τ s).fullPath).any fun t =>
        t.1 == t.2.2 && (t.2.1 + 1 == t.1 || t.2.1 == t.1 + 1)) then .bob else .place := by
  rw [subClassifyPlain, List.any_map]
  rfl

/-! ## Cross sections -/

theorem crossesAt_add (hne : lead ≠ []) {b : Fin n} (hb : IsHuntBell τ b) (t : Nat) :
    CrossesAt lead τ b (t + lead.length) ↔ CrossesAt lead τ b t := by
  unfold CrossesAt
  rw [Nat.add_right_comm, placeOfBell_hunt hne hb, placeOfBell_hunt hne hb]

theorem crossesAt_mod (hne : lead ≠ []) {b : Fin n} (hb : IsHuntBell τ b) (t : Nat) :
    CrossesAt lead τ b (t % lead.length) ↔ CrossesAt lead τ b t :=
  iff_of_eq (periodic_mod (g := CrossesAt lead τ b) (fun t => propext (crossesAt_add hne hb t)) t)

theorem internalPlaceAt_add (hne : lead ≠ []) (t : Nat) :
    InternalPlaceAt lead τ (t + lead.length) ↔ InternalPlaceAt lead τ t := by
  unfold InternalPlaceAt
  have h1 : t + lead.length = 1 * lead.length + t := by ring
  have h2 : t + lead.length + 1 = 1 * lead.length + (t + 1) := by ring
  rw [h2, h1, courseRow_add lead τ hne, courseRow_add lead τ hne]
  simp [Equiv.Perm.mul_apply]

theorem internalPlaceAt_mod (hne : lead ≠ []) (t : Nat) :
    InternalPlaceAt lead τ (t % lead.length) ↔ InternalPlaceAt lead τ t :=
  iff_of_eq (periodic_mod (g := InternalPlaceAt lead τ) (fun t => propext (internalPlaceAt_add hne t)) t)

theorem crossSection_mod (hne : lead ≠ []) (t : Nat) :
    CrossSection lead τ (t % lead.length) ↔ CrossSection lead τ t := by
  unfold CrossSection
  refine exists_congr fun b => and_congr_right fun hb => ?_
  exact crossesAt_mod hne hb.1 t

theorem crossIndices_spec (hne : lead ≠ []) {b : Fin n} (hb : IsHuntBell τ b) :
    ∃ idxs, crossIndices (cycleFrom lead τ b) = .ok idxs ∧
      ∀ t, t ∈ idxs ↔ t < lead.length ∧ CrossesAt lead τ b t := by
  have hpos : 0 < lead.length := List.length_pos_of_ne_nil hne
  have hper : ∀ t, (placeOfBell lead τ b (t + lead.length)).val = (placeOfBell lead τ b t).val :=
    fun t => by rw [placeOfBell_hunt hne hb]
  rw [cycleFrom_hunt hb]
  unfold crossIndices
  cases hmin : ((List.range lead.length).map fun t => (placeOfBell lead τ b t).val).min? with
  | none =>
    rw [List.min?_eq_none_iff] at hmin
    simp at hmin
    exact absurd hmin hne
  | some lo =>
    rw [List.min?_eq_some_iff] at hmin
    obtain ⟨hlo1, hlo2⟩ := hmin
    simp only [List.mem_map, List.mem_range, forall_exists_index, and_imp,
      forall_apply_eq_imp_iff₂] at hlo1 hlo2
    obtain ⟨t0, ht0, rfl⟩ := hlo1
    simp only [unwrap_some, Res.ok_bind, Res.pure_eq]
    rw [circularPairs_range (g := fun t => (placeOfBell lead τ b t).val) hper]
    refine ⟨_, rfl, ?_⟩
    intro t
    simp only [List.mem_map, List.mem_filter, List.mem_zipIdx_iff_getElem?, bne_iff_ne, ne_eq,
      Prod.exists, exists_eq_right, List.getElem?_map]
    have hlo : ∀ p, Visits lead τ b p → placeOfBell lead τ b t0 ≤ p := by
      rintro p ⟨s, rfl⟩
      have := hlo2 (s % lead.length) (Nat.mod_lt _ hpos)
      rwa [periodic_mod (g := fun t => (placeOfBell lead τ b t).val) hper] at this
    constructor
    · rintro ⟨x, y, h1, h2⟩
      obtain ⟨i, hi, he⟩ := Option.map_eq_some_iff.1 h1
      rw [List.getElem?_eq_some_iff] at hi
      obtain ⟨hi1, hi2⟩ := hi
      rw [List.getElem_range] at hi2
      subst hi2
      simp only [Prod.mk.injEq] at he
      obtain ⟨rfl, rfl⟩ := he
      exact ⟨by simpa using hi1, placeOfBell lead τ b t0, ⟨t0, rfl⟩, hlo, h2⟩
    · rintro ⟨ht, lo, hv, hl, hx⟩
      have : lo = placeOfBell lead τ b t0 := le_antisymm (hl _ ⟨t0, rfl⟩) (hlo _ hv)
      subst this
      exact ⟨_, _, by rw [List.getElem?_range ht]; rfl, hx⟩

theorem rowAt_ofPerms (hn : 0 < n) (annots : List A) (h0 : lead.head? = some 1) {t : Nat}
    (ht : t ≤ lead.length) :
    (AnnotBlock.ofPerms lead τ annots).getRow t = some (.ofPerm (courseRow lead τ t)) := by
  rw [AnnotBlock.getRow_ofPerms hn]
  rcases Nat.lt_or_eq_of_le ht with h | h
  · rw [List.getElem?_append_left h, List.getElem?_eq_getElem h, courseRow_lead τ h]
    rfl
  · have := courseRow_mul τ h0 1
    rw [Nat.one_mul, pow_one] at this
    rw [h, this]
    simp

open Classical in
theorem crossLoop_spec (hn : 0 < n) (annots : List A) (h0 : lead.head? = some 1) (idxs : List Nat) :
    ∀ (a b : Bool), (∀ t ∈ idxs, t < lead.length) →
      crossLoop (.ofPerms lead τ annots) idxs a b =
        if ∀ t ∈ idxs, IsChange ((courseRow lead τ t)⁻¹ * courseRow lead τ (t + 1)) then
          .ok (a && decide (∀ t ∈ idxs, InternalPlaceAt lead τ t),
            b && decide (∀ t ∈ idxs, ¬ InternalPlaceAt lead τ t))
        else .error .unwrap := by
  induction idxs with
  | nil => intro a b _; simp [crossLoop]
  | cons i idxs ih =>
    intro a b hlt
    have hi : i < lead.length := hlt i (by simp)
    have hlt' : ∀ t ∈ idxs, t < lead.length := fun t ht => hlt t (by simp [ht])
    rw [crossLoop, rowAt_ofPerms hn annots h0 (le_of_lt hi), rowAt_ofPerms hn annots h0 hi]
    simp only [unwrap_some, Res.ok_bind, pnBetween_ofPerm hn, Nat.succ_eq_add_one]
    by_cases hc : IsChange ((courseRow lead τ i)⁻¹ * courseRow lead τ (i + 1))
    · rw [if_pos hc]
      have hint := (Props.C33_internal_places hn ((courseRow lead τ i)⁻¹ * courseRow lead τ (i + 1))).1
      have hint' : (PlaceNot.ofChange ((courseRow lead τ i)⁻¹ * courseRow lead τ (i + 1))).hasInternalPlaces = true
          ↔ InternalPlaceAt lead τ i := by
        rw [hint]
        unfold InternalPlaceAt
        refine exists_congr fun x => ?_
        rw [Equiv.Perm.mul_apply, Equiv.Perm.inv_eq_iff_eq]
        constructor
        · rintro ⟨h1, h2, h3⟩
          exact ⟨h2, h3, h1.symm⟩
        · rintro ⟨h2, h3, h1⟩
          exact ⟨h1.symm, h2, h3⟩
      simp only [unwrap_some, Res.ok_bind]
      by_cases hp : InternalPlaceAt lead τ i
      · rw [if_pos (hint'.2 hp), ih a false hlt']
        simp [hc, hp]
      · rw [if_neg (fun h => hp (hint'.1 h)), ih false b hlt']
        simp [hc, hp]
    · rw [if_neg hc, if_neg (fun h => hc (h i (by simp)))]
      rfl

theorem mapM_crossIndices (hne : lead ≠ []) (bs : List (Fin n)) (hh : ∀ b ∈ bs, IsHuntBell τ b) :
    ∃ idxs, (bs.map (cycleFrom lead τ)).mapM crossIndices = .ok idxs ∧
      ∀ t, t ∈ idxs.flatten ↔ t < lead.length ∧ ∃ b ∈ bs, CrossesAt lead τ b t := by
  induction bs with
  | nil => exact ⟨[], rfl, by simp⟩
  | cons b bs ih =>
    obtain ⟨is, h1, h2⟩ := crossIndices_spec hne (hh b (by simp))
    obtain ⟨idxs, h3, h4⟩ := ih (fun b hb => hh b (by simp [hb]))
    refine ⟨is :: idxs, ?_, ?_⟩
    · rw [List.map_cons, List.mapM_cons, h1]
      simp only [Res.ok_bind, h3, Res.pure_eq]
    · intro t
      rw [List.flatten_cons, List.mem_append, h2, h4]
      simp only [List.mem_cons, exists_eq_or_imp]
      tauto

/-! ## All together -/

open Classical in
theorem classifyCycles_spec (hn : 0 < n) (annots : List A) (h0 : lead.head? = some 1)
    (starts : List (Fin n)) (hall : ∀ b, ∃ s ∈ starts, τ.SameCycle s b) :
    (CrossesClear lead τ → ∃ c, classifyCycles (.ofPerms lead τ annots) (starts.map (cycleFrom lead τ)) =
      .ok c ∧ c.isJump = false ∧ (c.isDifferential = true ↔ IsDifferential τ) ∧
      (c.isLittle = true ↔ IsLittle lead τ) ∧ ClassIs lead τ c.cls) ∧
    (¬ CrossesClear lead τ → classifyCycles (.ofPerms lead τ annots) (starts.map (cycleFrom lead τ)) =
      .error .unwrap) := by
  have hne : lead ≠ [] := by rintro rfl; simp at h0
  have hpos : 0 < lead.length := List.length_pos_of_ne_nil hne
  have hhunt : ∀ s, (cycleFrom lead τ s).isHunt = true ↔ IsHuntBell τ s := by
    intro s
    rw [isHuntBell_iff, Cycle.isHunt, cycleFrom]
    simp
  have hstart : ∀ b, IsHuntBell τ b → b ∈ starts := by
    intro b hb
    obtain ⟨s, hs, hsb⟩ := hall b
    rwa [← hsb.eq_of_right hb]
  set hs := starts.filter (fun s => decide (IsHuntBell τ s)) with hhs
  set ws := starts.filter (fun s => decide (¬ IsHuntBell τ s)) with hws
  have hf1 : (starts.map (cycleFrom lead τ)).filter Cycle.isHunt = hs.map (cycleFrom lead τ) := by
    rw [List.filter_map, hhs]
    congr 2
    funext s
    rw [Bool.eq_iff_iff, decide_eq_true_eq]
    exact hhunt s
  have hf2 : (starts.map (cycleFrom lead τ)).filter (fun c => !c.isHunt) = ws.map (cycleFrom lead τ) := by
    rw [List.filter_map, hws]
    congr 2
    funext s
    rw [Bool.eq_iff_iff, decide_eq_true_eq, Function.comp_apply, Bool.not_eq_true', Bool.eq_false_iff]
    exact not_congr (hhunt s)
  have hmem : ∀ b, b ∈ hs ↔ IsHuntBell τ b := by
    intro b
    rw [hhs, List.mem_filter, decide_eq_true_eq]
    exact ⟨fun h => h.2, fun h => ⟨hstart b h, h⟩⟩
  have hdiff : (!((windows (ws.map (cycleFrom lead τ))).all fun p => p.1.numLeads == p.2.numLeads)) = true ↔
      IsDifferential τ := by
    rw [Bool.not_eq_true', Bool.eq_false_iff, Ne, windows_all]
    have hnum : ∀ s, (cycleFrom lead τ s).numLeads = Function.minimalPeriod τ s := by
      intro s
      simp [Cycle.numLeads, cycleFrom]
    unfold IsDifferential
    simp only [List.mem_map, forall_exists_index, and_imp, forall_apply_eq_imp_iff₂, hnum]
    push Not
    constructor
    · rintro ⟨a, ha, b, hb, hab⟩
      rw [hws, List.mem_filter, decide_eq_true_eq] at ha hb
      exact ⟨a, b, ha.2, hb.2, hab⟩
    · rintro ⟨a, b, ha, hb, hab⟩
      have key : ∀ a, ¬ IsHuntBell τ a → ∃ s ∈ ws, Function.minimalPeriod τ s = Function.minimalPeriod τ a := by
        intro a ha
        obtain ⟨s, hs1, hs2⟩ := hall a
        have hp := sameCycle_minimalPeriod hs2
        refine ⟨s, ?_, hp⟩
        rw [hws, List.mem_filter, decide_eq_true_eq, isHuntBell_iff, hp, ← isHuntBell_iff]
        exact ⟨hs1, ha⟩
      obtain ⟨a', ha1, ha2⟩ := key a ha
      obtain ⟨b', hb1, hb2⟩ := key b hb
      exact ⟨a', ha1, b', hb1, by rwa [ha2, hb2]⟩
  have hstage : (AnnotBlock.ofPerms lead τ annots).stage = ⟨n⟩ := rfl
  unfold classifyCycles Cycle.partitionCycles
  rw [hstage]
  simp only [hf1, hf2]
  cases hcase : hs with
  | nil =>
    have hno : ∀ b, ¬ IsHuntBell τ b := by
      intro b hb
      have := (hmem b).2 hb
      rw [hcase] at this
      simp at this
    simp only [List.map_nil]
    refine ⟨fun _ => ⟨_, rfl, rfl, hdiff, ?_, hno⟩, ?_⟩
    · simp only [Bool.false_eq_true, false_iff]
      rintro ⟨⟨b, hb⟩, _⟩
      exact hno b hb
    · intro h
      exfalso
      apply h
      rintro t _ ⟨b, hb, _⟩
      exact absurd hb.1 (hno b)
  | cons h rest =>
    simp only [List.map_cons]
    have hhb : ∀ b ∈ h :: rest, IsHuntBell τ b := fun b hb => (hmem b).1 (by rw [hcase]; exact hb)
    obtain ⟨l0, k0, e0, hl0, hk0⟩ := classifyHuntCycle_spec hne (hhb h (by simp))
    have hst0 : BestState lead τ [h] l0 k0 [h] := by
      refine ⟨by simp, ?_, ?_, by simpa using hl0⟩
      · intro b
        simp only [List.mem_singleton, iff_self_and]
        rintro rfl
        exact hk0
      · intro b hb k' hk'
        rw [List.mem_singleton] at hb
        subst hb
        rw [huntPathIs_unique hk' hk0]
    obtain ⟨little, k, bs, e1, hbs1, hbs2, hbs3, hbs4⟩ := bestLoop_spec hne rest [h] [h] l0 k0
      (fun b hb => hhb b (by simp [hb])) hst0
    have hprin : ∀ b, b ∈ bs ↔ Principal lead τ k b := by
      intro b
      rw [hbs2, List.singleton_append]
      constructor
      · rintro ⟨hb1, hb2⟩
        refine ⟨hhb b hb1, hb2, ?_⟩
        intro c hc k' hk'
        rw [← HuntBellClass.rank_eq, ← HuntBellClass.rank_eq]
        exact hbs3 c (by rw [List.singleton_append, ← hcase]; exact (hmem c).2 hc) k' hk'
      · rintro ⟨hb1, hb2, _⟩
        exact ⟨by rw [← hcase]; exact (hmem b).2 hb1, hb2⟩
    have hex : ∃ b, Principal lead τ k b := by
      obtain ⟨b, hb⟩ := List.exists_mem_of_ne_nil bs hbs1
      exact ⟨b, (hprin b).1 hb⟩
    have huniq : ∀ k' b, Principal lead τ k' b → k' = k := by
      rintro k' b ⟨hb1, hb2, hb3⟩
      obtain ⟨c, hc1, hc2, hc3⟩ := hex
      exact HuntBellClass.idxOf_injective (le_antisymm (hb3 c hc1 k hc2) (hc3 b hb1 k' hb2))
    have hlit : little = true ↔ IsLittle lead τ := by
      rw [hbs4]
      unfold IsLittle
      constructor
      · intro H
        refine ⟨⟨h, hhb h (by simp)⟩, ?_⟩
        intro k' b hb
        rw [huniq k' b hb] at hb
        exact H b ((hprin b).2 hb)
      · rintro ⟨_, H⟩ b hb
        exact H k b ((hprin b).1 hb)
    have hbh : ∀ b ∈ bs, IsHuntBell τ b := fun b hb => ((hprin b).1 hb).1
    have hbells : (bs.map (cycleFrom lead τ)).mapM (fun c => unwrap c.asHuntBell) =
        (.ok (bs.map fun b => (⟨b.val⟩ : Bell)) : Res (List Bell)) := by
      clear_value hs ws
      clear hbs1 hbs2 hbs3 hbs4 hprin e1 hlit
      induction bs with
      | nil => rfl
      | cons b bs ih =>
        rw [List.map_cons, List.mapM_cons, cycleFrom_hunt (hbh b (by simp)), Cycle.asHuntBell]
        simp only [unwrap_some, Res.ok_bind]
        rw [ih (fun b hb => hbh b (by simp [hb]))]
        rfl
    rw [e0]
    simp only [Res.ok_bind]
    rw [show [cycleFrom lead τ h] = [h].map (cycleFrom lead τ) from rfl, e1]
    simp only [Res.ok_bind, hbells]
    have hclear : k ≠ .trebleDodging → CrossesClear lead τ := by
      rintro hk t _ ⟨b, hb, _⟩
      exact absurd (huniq _ b hb).symm hk
    cases k with
    | plain =>
      refine ⟨fun _ => ?_, fun h => absurd (hclear (by simp)) h⟩
      have := otherHunts_spec (lead := lead) bs (h :: rest) hhb
      rw [List.map_cons] at this
      simp only [this, Res.ok_bind, Res.pure_eq]
      refine ⟨_, rfl, rfl, hdiff, hlit, ?_⟩
      simp only
      rw [← List.map_append, subClassifyPlain_spec]
      have hany : ((ws ++ (h :: rest).filter fun b => decide (b ∉ bs)).any
          (fun s => (circularTriples (cycleFrom lead τ s).fullPath).any fun t =>
            t.1 == t.2.2 && (t.2.1 + 1 == t.1 || t.2.1 == t.1 + 1))) = true ↔
          ∃ b, ¬ Principal lead τ .plain b ∧ SharpTurn lead τ b := by
        rw [List.any_eq_true]
        constructor
        · rintro ⟨s, hs1, hs2⟩
          refine ⟨s, ?_, (sharpTurn_iff_path hne s).1 hs2⟩
          rcases List.mem_append.1 hs1 with hs1 | hs1
          · rw [hws, List.mem_filter, decide_eq_true_eq] at hs1
            exact fun h => hs1.2 h.1
          · rw [List.mem_filter, decide_eq_true_eq] at hs1
            exact fun h => hs1.2 ((hprin s).2 h)
        · rintro ⟨b, hb1, hb2⟩
          obtain ⟨s, hs1, hs2⟩ := hall b
          refine ⟨s, ?_, (sharpTurn_iff_path hne s).2 ((sharpTurn_sameCycle hne hs2).2 hb2)⟩
          rw [List.mem_append]
          by_cases hsh : IsHuntBell τ s
          · right
            have hsb : s = b := hs2.eq_of_left hsh
            rw [List.mem_filter, decide_eq_true_eq, ← hcase, hprin, hsb]
            exact ⟨(hmem b).2 (hsb ▸ hsh), hb1⟩
          · left
            rw [hws, List.mem_filter, decide_eq_true_eq]
            exact ⟨hs1, hsh⟩
      split
      · next hc => exact ⟨hex, hany.1 hc⟩
      · next hc => exact ⟨hex, fun b hb1 hb2 => hc (hany.2 ⟨b, hb1, hb2⟩)⟩
    | trebleDodging =>
      obtain ⟨idxs, e2, hidx⟩ := mapM_crossIndices hne bs hbh
      have hidx' : ∀ t, t ∈ idxs.flatten ↔ t < lead.length ∧ CrossSection lead τ t := by
        intro t
        rw [hidx]
        unfold CrossSection
        simp only [hprin]
      have hiff : (∀ t ∈ idxs.flatten, IsChange ((courseRow lead τ t)⁻¹ * courseRow lead τ (t + 1))) ↔
          CrossesClear lead τ := by
        unfold CrossesClear
        simp only [hidx', and_imp]
      have hI : (∀ t ∈ idxs.flatten, InternalPlaceAt lead τ t) ↔
          ∀ t, CrossSection lead τ t → InternalPlaceAt lead τ t := by
        simp only [hidx', and_imp]
        constructor
        · intro H t ht
          exact (internalPlaceAt_mod hne t).1 (H (t % lead.length) (Nat.mod_lt _ hpos)
            ((crossSection_mod hne t).2 ht))
        · intro H t _ ht
          exact H t ht
      have hN : (∀ t ∈ idxs.flatten, ¬ InternalPlaceAt lead τ t) ↔
          ∀ t, CrossSection lead τ t → ¬ InternalPlaceAt lead τ t := by
        simp only [hidx', and_imp]
        constructor
        · intro H t ht hi
          exact H (t % lead.length) (Nat.mod_lt _ hpos) ((crossSection_mod hne t).2 ht)
            ((internalPlaceAt_mod hne t).2 hi)
        · intro H t _ ht
          exact H t ht
      unfold subClassifyTrebleDodging
      simp only [e2, Res.ok_bind]
      rw [crossLoop_spec hn annots h0 idxs.flatten true true (fun t ht => ((hidx' t).1 ht).1)]
      simp only [Bool.true_and]
      constructor
      · intro hc
        rw [if_pos (hiff.2 hc)]
        simp only [Res.ok_bind, Res.pure_eq]
        refine ⟨_, rfl, rfl, hdiff, hlit, ?_⟩
        simp only
        by_cases hi : ∀ t ∈ idxs.flatten, InternalPlaceAt lead τ t
        · by_cases hno : ∀ t ∈ idxs.flatten, ¬ InternalPlaceAt lead τ t
          · rw [decide_eq_true hi, decide_eq_true hno]
            exact ⟨hex, hN.1 hno⟩
          · rw [decide_eq_true hi, decide_eq_false hno]
            refine ⟨hex, ?_, hI.1 hi⟩
            push Not at hno
            obtain ⟨t, ht, _⟩ := hno
            exact ⟨t, ((hidx' t).1 ht).2⟩
        · by_cases hno : ∀ t ∈ idxs.flatten, ¬ InternalPlaceAt lead τ t
          · rw [decide_eq_false hi, decide_eq_true hno]
            exact ⟨hex, hN.1 hno⟩
          · rw [decide_eq_false hi, decide_eq_false hno]
            push Not at hno hi
            obtain ⟨t, ht, ht2⟩ := hno
            obtain ⟨u, hu, hu2⟩ := hi
            exact ⟨hex, ⟨t, ((hidx' t).1 ht).2, ht2⟩, ⟨u, ((hidx' u).1 hu).2, hu2⟩⟩
      · intro hc
        rw [if_neg (fun h => hc (hiff.1 h))]
        rfl
    | treblePlace =>
      exact ⟨fun _ => ⟨_, rfl, rfl, hdiff, hlit, hex⟩, fun h => absurd (hclear (by simp)) h⟩
    | alliance =>
      exact ⟨fun _ => ⟨_, rfl, rfl, hdiff, hlit, hex⟩, fun h => absurd (hclear (by simp)) h⟩
    | hybrid =>
      exact ⟨fun _ => ⟨_, rfl, rfl, hdiff, hlit, hex⟩, fun h => absurd (hclear (by simp)) h⟩

end

end Bellframe
