import Verif.Proofs.PlaceNot

/-! # Lemmas about parsing place notation -/

namespace Bellframe

open PlaceNot

/-- The implicit place at the back. -/
def lieOf (n last : Nat) : List Nat := if (n - last) % 2 = 0 then [n - 1] else []

theorem gaps_last {n p : Nat} (h : p < n) : Gaps n p (p :: lieOf n p) := by
  apply Gaps.place
  unfold lieOf
  split
  · rename_i he
    have : Gaps n (n - 1) [n - 1] := .place (by rw [Nat.sub_add_cancel (by omega)]; exact .done)
    exact this.swaps_to (by omega) (by omega)
  · exact Gaps.done.swaps_to (by omega) (by omega)

theorem neighbours_cons {p q : Nat} {rest : List Nat} (hs : (p :: q :: rest).Pairwise (· < ·))
    (a b : Nat) : Neighbours (p :: q :: rest) a b ↔ (a = p ∧ b = q) ∨ Neighbours (q :: rest) a b := by
  have h1 := (List.pairwise_cons.1 hs).1
  have h2 := (List.pairwise_cons.1 (List.pairwise_cons.1 hs).2).1
  have hpq := h1 q (by simp)
  have hq : ∀ z ∈ q :: rest, q ≤ z := by
    intro z hz
    rcases List.mem_cons.1 hz with rfl | hz
    · exact Nat.le_refl _
    · exact Nat.le_of_lt (h2 z hz)
  constructor
  · rintro ⟨ha, hb, hab, hz⟩
    rcases List.mem_cons.1 hb with hbp | hb'
    · rcases List.mem_cons.1 ha with hap | ha'
      · omega
      · have := h1 a ha'; omega
    · rcases List.mem_cons.1 ha with hap | ha'
      · left
        refine ⟨hap, ?_⟩
        have := hq b hb'
        have := hz q (by simp)
        omega
      · exact .inr ⟨ha', hb', hab, fun z hz' => hz z (by simp only [List.mem_cons] at hz' ⊢; tauto)⟩
  · rintro (⟨rfl, rfl⟩ | ⟨ha, hb, hab, hz⟩)
    · refine ⟨by simp, by simp, hpq, ?_⟩
      intro z hz
      rcases List.mem_cons.1 hz with rfl | hz
      · omega
      · have := hq z hz; omega
    · refine ⟨by simp only [List.mem_cons] at ha ⊢; tauto, by simp only [List.mem_cons] at hb ⊢; tauto,
        hab, ?_⟩
      intro z hz'
      rcases List.mem_cons.1 hz' with rfl | hz'
      · have := h1 a ha; omega
      · exact hz z hz'

theorem windowsLoop_spec (n : Nat) : ∀ (l : List Nat) (p : Nat), (p :: l).Pairwise (· ≤ ·) →
    (∀ x ∈ p :: l, x < n) →
    (∃ ps, windowsLoop (p :: l) = .ok (.ok ps) ∧ (p :: l).Pairwise (· < ·) ∧
      (∀ a b, Neighbours (p :: l) a b → b = a + 2 ∨ (b - a) % 2 = 1) ∧
      Gaps n p (ps ++ [(p :: l).getLast (by simp)] ++ lieOf n ((p :: l).getLast (by simp))) ∧
      (∀ x, x ∈ ps ++ [(p :: l).getLast (by simp)] ↔
        x ∈ p :: l ∨ ∃ a ∈ p :: l, x = a + 1 ∧ a + 2 ∈ p :: l)) ∨
    (∃ d, windowsLoop (p :: l) = .ok (.error (.duplicatePlace d)) ∧ 2 ≤ (p :: l).count d) ∨
    (∃ a b, windowsLoop (p :: l) = .ok (.error (.ambiguousPlacesBetween a b)) ∧
      Neighbours (p :: l) a b ∧ (b - a) % 2 = 0 ∧ b - a > 2) := by
  intro l
  induction l with
  | nil =>
    intro p _ hn
    left
    refine ⟨[], rfl, by simp, ?_, ?_, ?_⟩
    · rintro a b ⟨h1, h2, h3, -⟩
      simp at h1 h2; omega
    · simpa using gaps_last (hn p (by simp))
    · intro x
      simp
  | cons q rest ih =>
    intro p hs hn
    have hpq : p ≤ q := (List.pairwise_cons.1 hs).1 q (by simp)
    have hs' := (List.pairwise_cons.1 hs).2
    have hq : ∀ z ∈ q :: rest, q ≤ z := by
      intro z hz
      rcases List.mem_cons.1 hz with rfl | hz
      · exact Nat.le_refl _
      · exact (List.pairwise_cons.1 hs').1 z hz
    simp only [windowsLoop, checkedSub, if_pos hpq, Res.ok_bind]
    by_cases h0 : q - p = 0
    · right; left
      have : q = p := by omega
      subst this
      refine ⟨q, by simp, ?_⟩
      simp
    · rw [if_neg h0]
      -- neighbours `p` and `q`, also when the rest is not strictly increasing
      have hnb : Neighbours (p :: q :: rest) p q := by
        refine ⟨by simp, by simp, by omega, ?_⟩
        intro z hz
        rcases List.mem_cons.1 hz with rfl | hz
        · omega
        · have := hq z hz; omega
      have hlift : ∀ a b, Neighbours (q :: rest) a b → Neighbours (p :: q :: rest) a b := by
        rintro a b ⟨ha, hb, hab, hz⟩
        refine ⟨List.mem_cons_of_mem _ ha, List.mem_cons_of_mem _ hb, hab, ?_⟩
        intro z hz'
        rcases List.mem_cons.1 hz' with rfl | hz'
        · have := hq a ha; omega
        · exact hz z hz'
      by_cases hamb : q - p - 1 ≠ 1 ∧ (q - p - 1) % 2 = 1
      · right; right
        rw [if_pos hamb]
        exact ⟨p, q, rfl, hnb, by omega, by omega⟩
      · rw [if_neg hamb]
        rcases ih q hs' (fun x hx => hn x (List.mem_cons_of_mem _ hx)) with
          ⟨ps, h1, h2, h3, h4, h5⟩ | ⟨d, h1, h2⟩ | ⟨a, b, h1, h2, h3, h4⟩
        · left
          rw [h1]
          have hstrict : (p :: q :: rest).Pairwise (· < ·) := by
            refine List.pairwise_cons.2 ⟨?_, h2⟩
            intro z hz
            have := hq z hz; omega
          refine ⟨_, rfl, hstrict, ?_, ?_, ?_⟩
          · intro a b hab
            rcases (neighbours_cons hstrict a b).1 hab with ⟨rfl, rfl⟩ | hab
            · omega
            · exact h3 a b hab
          · rw [List.getLast_cons (by simp)]
            simp only [List.cons_append, List.append_assoc] at h4 ⊢
            apply Gaps.place
            by_cases hb : q - p - 1 = 1
            · rw [if_pos hb]
              apply Gaps.place
              rw [show p + 1 + 1 = q by omega]
              exact h4
            · rw [if_neg hb]
              exact h4.swaps_to (by omega) (by omega)
          · intro x
            rw [List.getLast_cons (by simp), List.cons_append, List.append_assoc, List.mem_cons,
              List.mem_append, h5 x]
            constructor
            · rintro (rfl | hx | hx | ⟨a, ha, rfl, ha2⟩)
              · simp
              · split at hx
                · simp at hx
                  subst hx
                  exact .inr ⟨p, by simp, rfl, by
                    have : p + 2 = q := by omega
                    simp [this]⟩
                · simp at hx
              · exact .inl (List.mem_cons_of_mem _ hx)
              · exact .inr ⟨a, List.mem_cons_of_mem _ ha, rfl, List.mem_cons_of_mem _ ha2⟩
            · rintro (hx | ⟨a, ha, rfl, ha2⟩)
              · rcases List.mem_cons.1 hx with rfl | hx
                · exact .inl rfl
                · exact .inr (.inr (.inl hx))
              · rcases List.mem_cons.1 ha2 with hp | ha2'
                · have : p ≤ a := by
                    rcases List.mem_cons.1 ha with rfl | ha
                    · exact Nat.le_refl _
                    · have := hq a ha; omega
                  omega
                · rcases List.mem_cons.1 ha with hap | ha'
                  · have hle := hq _ ha2'
                    by_cases hq1 : q = a + 1
                    · exact .inr (.inr (.inl (by simp [hq1])))
                    · rw [if_pos (by omega)]
                      simp [hap]
                  · exact .inr (.inr (.inr ⟨a, ha', rfl, ha2'⟩))
        · right; left
          rw [h1]
          refine ⟨d, rfl, ?_⟩
          rw [List.count_cons]
          omega
        · right; right
          rw [h1]
          exact ⟨a, b, rfl, hlift a b h2, h3, h4⟩

/-- `from_sorted_slice` on a sorted slice. -/
theorem fromSortedSlice_spec {n : Nat} (l : List Nat) (hs : l.Pairwise (· ≤ ·)) :
    (l = [] ∧ fromSortedSlice l ⟨n⟩ = .ok (.error .noPlacesGiven)) ∨
    (∃ p ∈ l, n ≤ p ∧ (∀ q ∈ l, q ≤ p) ∧
      fromSortedSlice l ⟨n⟩ = .ok (.error (.placeOutOfStage p ⟨n⟩))) ∨
    ((∀ q ∈ l, q < n) ∧ ∃ d, fromSortedSlice l ⟨n⟩ = .ok (.error (.duplicatePlace d)) ∧
      2 ≤ l.count d) ∨
    ((∀ q ∈ l, q < n) ∧ ∃ a b, fromSortedSlice l ⟨n⟩ = .ok (.error (.ambiguousPlacesBetween a b)) ∧
      Neighbours l a b ∧ (b - a) % 2 = 0 ∧ b - a > 2) ∨
    (Completable n l ∧ ∃ ps, fromSortedSlice l ⟨n⟩ = .ok (.ok ⟨ps, ⟨n⟩⟩) ∧ Gaps n 0 ps ∧
      ∀ x, x ∈ ps ↔ Completed n l x) := by
  cases l with
  | nil => exact .inl ⟨rfl, rfl⟩
  | cons p rest =>
    right
    have hlast : (p :: rest).getLast? = some ((p :: rest).getLast (by simp)) :=
      List.getLast?_eq_some_getLast _
    have hmax : ∀ q ∈ p :: rest, q ≤ (p :: rest).getLast (by simp) := by
      intro q hq
      rw [← List.dropLast_append_getLast (l := p :: rest) (by simp)] at hq hs
      rcases List.mem_append.1 hq with hq | hq
      · exact (List.pairwise_append.1 hs).2.2 q hq _ (by simp)
      · simp at hq; exact Nat.le_of_eq hq
    have hmem : (p :: rest).getLast (by simp) ∈ p :: rest := List.getLast_mem _
    unfold fromSortedSlice
    simp only [List.head?_cons, hlast]
    by_cases hge : (p :: rest).getLast (by simp) ≥ n
    · left
      rw [if_pos hge]
      exact ⟨_, hmem, hge, hmax, rfl⟩
    · right
      rw [if_neg hge]
      have hlt : ∀ q ∈ p :: rest, q < n := fun q hq => by have := hmax q hq; omega
      rcases windowsLoop_spec n rest p hs hlt with
        ⟨ps, h1, h2, h3, h4, h5⟩ | ⟨d, h1, h2⟩ | ⟨a, b, h1, h2, h3, h4⟩
      · right; right
        have hmin : ∀ q ∈ p :: rest, p ≤ q := by
          intro q hq
          rcases List.mem_cons.1 hq with rfl | hq
          · exact Nat.le_refl _
          · exact (List.pairwise_cons.1 hs).1 q hq
        refine ⟨⟨by simp, hlt, h2.imp (fun h => Nat.ne_of_lt h), h3⟩, _, by rw [h1]; rfl, ?_, ?_⟩
        · by_cases hodd : p % 2 = 1
          · rw [if_pos hodd, List.append_assoc, List.append_assoc, List.singleton_append,
              ← List.append_assoc]
            exact .place (h4.swaps_to (by omega) (by omega))
          · rw [if_neg hodd, List.nil_append]
            exact h4.swaps_to (by omega) (by omega)
        · intro x
          generalize hL : (p :: rest).getLast (by simp) = last at *
          have hlie : (x ∈ if (n - last) % 2 = 0 then [n - 1] else []) ↔
              x + 1 = n ∧ ∃ a ∈ p :: rest, (∀ q ∈ p :: rest, q ≤ a) ∧ (n - (a + 1)) % 2 = 1 := by
            constructor
            · intro hx
              split at hx
              · simp at hx
                exact ⟨by omega, last, hmem, hmax, by omega⟩
              · simp at hx
            · rintro ⟨hx, a, ha, ha2, ha3⟩
              have := ha2 last hmem
              have := hmax a ha
              rw [if_pos (by omega)]
              simp; omega
          have hlead : (x ∈ if p % 2 = 1 then [0] else []) ↔
              x = 0 ∧ ∃ a ∈ p :: rest, (∀ q ∈ p :: rest, a ≤ q) ∧ a % 2 = 1 := by
            constructor
            · intro hx
              split at hx
              · rename_i hp1
                simp at hx
                exact ⟨hx, p, by simp, hmin, hp1⟩
              · simp at hx
            · rintro ⟨hx, a, ha, ha2, ha3⟩
              have := ha2 p (by simp)
              have := hmin a ha
              rw [if_pos (by omega)]
              simp [hx]
          rw [List.append_assoc, List.append_assoc, List.mem_append, ← List.append_assoc,
            List.mem_append, h5 x, hlie, hlead]
          have aux : ∀ a b c d : Prop, (c ∨ ((a ∨ b) ∨ d)) ↔ (a ∨ b ∨ c ∨ d) := by tauto
          exact aux _ _ _ _
      · left
        rw [h1]
        exact ⟨hlt, d, rfl, h2⟩
      · right; left
        rw [h1]
        exact ⟨hlt, a, b, rfl, h2, h3, h4⟩

theorem sortPlaces_perm (l : List Nat) : (sortPlaces l).Perm l := List.perm_insertionSort _ _

theorem sortPlaces_sorted (l : List Nat) : (sortPlaces l).Pairwise (· ≤ ·) :=
  List.pairwise_insertionSort _ _

theorem sortPlaces_of_sorted {l : List Nat} (h : l.Pairwise (· ≤ ·)) : sortPlaces l = l :=
  h.insertionSort_eq

theorem sortPlaces_eq_of_perm {l l' : List Nat} (h : l.Perm l') : sortPlaces l = sortPlaces l' :=
  List.Perm.eq_of_pairwise (le := fun a b : Nat => a ≤ b) (fun a b _ _ h1 h2 => Nat.le_antisymm h1 h2)
    (sortPlaces_sorted l) (sortPlaces_sorted l')
    ((sortPlaces_perm l).trans (h.trans (sortPlaces_perm l').symm))

theorem Neighbours.perm {G G' : List Nat} (h : G.Perm G') {p q : Nat} (hn : Neighbours G p q) :
    Neighbours G' p q :=
  ⟨h.mem_iff.1 hn.1, h.mem_iff.1 hn.2.1, hn.2.2.1, fun z hz => hn.2.2.2 z (h.mem_iff.2 hz)⟩

theorem Completable.perm {n : Nat} {G G' : List Nat} (h : G.Perm G') (hc : Completable n G) :
    Completable n G' :=
  ⟨fun hn => hc.1 (by subst hn; exact h.eq_nil), fun p hp => hc.2.1 p (h.mem_iff.2 hp),
    h.nodup_iff.1 hc.2.2.1, fun p q hpq => hc.2.2.2 p q (hpq.perm h.symm)⟩

theorem Completed.perm {n : Nat} {G G' : List Nat} (h : G.Perm G') {x : Nat}
    (hc : Completed n G x) : Completed n G' x := by
  have hm : ∀ y, y ∈ G ↔ y ∈ G' := fun y => h.mem_iff
  unfold Completed at hc ⊢
  simpa only [hm] using hc

/-! ## Place lists that are already complete -/

theorem Gaps.windows {n i : Nat} {ps : List Nat} (h : Gaps n i ps) :
    (∀ p, ps.head? = some p → i ≤ p ∧ (p - i) % 2 = 0) ∧
    windowsLoop ps = .ok (.ok ps.dropLast) ∧
    (∀ l, ps.getLast? = some l → l < n ∧ (n - l) % 2 = 1) ∧ (ps = [] → (n - i) % 2 = 0) := by
  induction h with
  | done => simp [windowsLoop]
  | @place i ps h ih =>
    obtain ⟨h1, h2, h3, h4⟩ := ih
    have hle := h.le
    refine ⟨by simp, ?_, ?_, by simp⟩
    · cases ps with
      | nil => rfl
      | cons q rest =>
        obtain ⟨h5, h6⟩ := h1 q rfl
        simp only [windowsLoop, checkedSub, if_pos (show i ≤ q by omega), Res.ok_bind,
          if_neg (show ¬ q - i = 0 by omega)]
        rw [if_neg (by omega), h2]
        simp only [Res.ok_bind, if_neg (show ¬ q - i - 1 = 1 by omega)]
        rfl
    · cases ps with
      | nil =>
        have := h4 rfl
        intro l hl
        simp at hl
        subst hl
        omega
      | cons q rest =>
        intro l hl
        exact h3 l (by simpa using hl)
  | @swap i ps h ih =>
    obtain ⟨h1, h2, h3, h4⟩ := ih
    have hle := h.le
    refine ⟨fun p hp => ?_, h2, h3, fun hp => ?_⟩
    · obtain ⟨h5, h6⟩ := h1 p hp
      omega
    · have := h4 hp; omega

/-- A complete place list is read back unchanged. -/
theorem Gaps.fromSortedSlice {n : Nat} {ps : List Nat} (h : Gaps n 0 ps) (hne : ps ≠ []) :
    PlaceNot.fromSortedSlice ps ⟨n⟩ = .ok (.ok ⟨ps, ⟨n⟩⟩) := by
  obtain ⟨h1, h2, h3, -⟩ := h.windows
  obtain ⟨p, hp⟩ : ∃ p, ps.head? = some p := ⟨ps.head hne, List.head?_eq_some_head hne⟩
  have hl : ps.getLast? = some (ps.getLast hne) := List.getLast?_eq_some_getLast hne
  obtain ⟨h5, h6⟩ := h3 _ hl
  have h7 := (h1 p hp).2
  unfold PlaceNot.fromSortedSlice
  simp only [hp, hl]
  rw [if_neg (Nat.not_le.2 h5), h2]
  simp only [Res.ok_bind, Res.pure_eq]
  rw [if_neg (by omega), if_neg (by omega), List.nil_append, List.append_nil,
    List.dropLast_append_getLast]

/-! ## The change between two rows -/

theorem pnBetweenLoop_cons (b1 b2 : Bell) (rest : List (Bell × Bell)) (place : Nat) :
    pnBetweenLoop ((b1, b2) :: rest) place =
      if b1 = b2 then (pnBetweenLoop rest (place + 1)).map (place :: ·)
      else
        match rest with
        | (c1, c2) :: rest' => if c1 = b2 ∧ c2 = b1 then pnBetweenLoop rest' (place + 2) else none
        | [] => none := by
  rcases rest with _ | ⟨⟨c1, c2⟩, rest⟩
  · conv_lhs => unfold pnBetweenLoop
  · conv_lhs => unfold pnBetweenLoop

theorem pnBetweenLoop_spec {n : Nat} (σ ρ : Equiv.Perm (Fin n)) : ∀ (k i : Nat), n - i ≤ k → i ≤ n →
    Below (σ⁻¹ * ρ) i → ∀ ps,
    (pnBetweenLoop ((List.ofFn fun x => ((⟨(σ x).val⟩, ⟨(ρ x).val⟩) : Bell × Bell)).drop i) i = some ps ↔
      ps = fixedFrom (σ⁻¹ * ρ) i ∧ ∀ x : Fin n, i ≤ x.val →
        ((σ⁻¹ * ρ) x).val ≤ x.val + 1 ∧ x.val ≤ ((σ⁻¹ * ρ) x).val + 1) := by
  intro k
  induction k with
  | zero =>
    intro i hk hi hb ps
    rw [List.drop_of_length_le (by simp; omega), fixedFrom_ge (by omega)]
    simp only [pnBetweenLoop, Option.some.injEq]
    constructor
    · rintro rfl
      exact ⟨rfl, fun x hx => by have := x.isLt; omega⟩
    · rintro ⟨rfl, -⟩; rfl
  | succ k ih =>
    intro i hk hin hb ps
    by_cases hi : i < n
    · have hτ : ∀ x y : Fin n, (σ⁻¹ * ρ) x = y ↔ ρ x = σ y := by
        intro x y
        rw [Equiv.Perm.mul_apply, Equiv.Perm.inv_eq_iff_eq]
      rw [List.drop_eq_getElem_cons (by simpa using hi)]
      simp only [List.getElem_ofFn, pnBetweenLoop_cons, Bell.mk.injEq, Fin.val_inj]
      by_cases hf : σ ⟨i, hi⟩ = ρ ⟨i, hi⟩
      · have hfix : (σ⁻¹ * ρ) ⟨i, hi⟩ = ⟨i, hi⟩ := (hτ _ _).2 hf.symm
        rw [if_pos hf, fixedFrom_fix hi hfix]
        have hb' : Below (σ⁻¹ * ρ) (i + 1) := by
          intro x hx
          by_cases hx' : x.val < i
          · have := hb x hx'; omega
          · have : x = ⟨i, hi⟩ := Fin.ext (by simp only; omega)
            rw [this, hfix]; simp
        simp only [Option.map_eq_some_iff, ih (i + 1) (by omega) (by omega) hb']
        constructor
        · rintro ⟨ps', ⟨rfl, hn⟩, rfl⟩
          refine ⟨rfl, fun x hx => ?_⟩
          by_cases hx' : x.val = i
          · have : x = ⟨i, hi⟩ := Fin.ext hx'
            rw [this, hfix]; omega
          · exact hn x (by omega)
        · rintro ⟨rfl, hn⟩
          exact ⟨_, ⟨rfl, fun x hx => hn x (by omega)⟩, rfl⟩
      · have hne : (σ⁻¹ * ρ) ⟨i, hi⟩ ≠ ⟨i, hi⟩ := fun h => hf ((hτ _ _).1 h).symm
        rw [if_neg hf]
        by_cases hj : i + 1 < n
        · rw [List.drop_eq_getElem_cons (by simpa using hj)]
          simp only [List.getElem_ofFn, Bell.mk.injEq, Fin.val_inj]
          by_cases hsw : σ ⟨i + 1, hj⟩ = ρ ⟨i, hi⟩ ∧ ρ ⟨i + 1, hj⟩ = σ ⟨i, hi⟩
          · have e1 : (σ⁻¹ * ρ) ⟨i, hi⟩ = ⟨i + 1, hj⟩ := (hτ _ _).2 hsw.1.symm
            have e2 : (σ⁻¹ * ρ) ⟨i + 1, hj⟩ = ⟨i, hi⟩ := (hτ _ _).2 hsw.2
            have hb' : Below (σ⁻¹ * ρ) (i + 2) := by
              intro x hx
              by_cases hx' : x.val < i
              · have := hb x hx'; omega
              · by_cases hx2 : x.val = i
                · have : x = ⟨i, hi⟩ := Fin.ext hx2
                  rw [this, e1]; simp
                · have : x = ⟨i + 1, hj⟩ := Fin.ext (by simp only; omega)
                  rw [this, e2]; simp
            have hne2 : (σ⁻¹ * ρ) ⟨i + 1, hj⟩ ≠ ⟨i + 1, hj⟩ := by
              rw [e2]; intro hh; have := congrArg Fin.val hh; simp at this
            rw [if_pos hsw, ih (i + 2) (by omega) (by omega) hb', fixedFrom_move hi hne,
              fixedFrom_move hj hne2]
            constructor
            · rintro ⟨rfl, hn⟩
              refine ⟨rfl, fun x hx => ?_⟩
              by_cases hx1 : x.val = i
              · have : x = ⟨i, hi⟩ := Fin.ext hx1
                rw [this, e1]; simp only; omega
              · by_cases hx2 : x.val = i + 1
                · have : x = ⟨i + 1, hj⟩ := Fin.ext hx2
                  rw [this, e2]; simp only; omega
                · exact hn x (by omega)
            · rintro ⟨rfl, hn⟩
              exact ⟨rfl, fun x hx => hn x (by omega)⟩
          · rw [if_neg hsw]
            constructor
            · intro h; cases h
            · rintro ⟨-, hn⟩
              obtain ⟨h, h1, h2⟩ := near_swap hb hi hn hne
              exact absurd ⟨((hτ _ _).1 h1).symm, (hτ _ _).1 h2⟩ hsw
        · rw [List.drop_of_length_le (by simp; omega)]
          constructor
          · intro h; cases h
          · rintro ⟨-, hn⟩
            obtain ⟨h, -, -⟩ := near_swap hb hi hn hne
            omega
    · exact (by
        rw [List.drop_of_length_le (by simp; omega), fixedFrom_ge (by omega)]
        simp only [pnBetweenLoop, Option.some.injEq]
        constructor
        · rintro rfl
          exact ⟨rfl, fun x hx => by have := x.isLt; omega⟩
        · rintro ⟨rfl, -⟩; rfl)

theorem pnBetween_ofPerm {n : Nat} (hn : 0 < n) (σ ρ : Equiv.Perm (Fin n)) :
    pnBetween (.ofPerm σ) (.ofPerm ρ) =
      .ok (if IsChange (σ⁻¹ * ρ) then some (.ofChange (σ⁻¹ * ρ)) else none) := by
  have hz : zipEq (Row.ofPerm σ).bells (Row.ofPerm ρ).bells =
      .ok (List.ofFn fun x => ((⟨(σ x).val⟩, ⟨(ρ x).val⟩) : Bell × Bell)) := by
    rw [zipEq_eq_zip _ _ (by simp)]
    congr 1
    apply List.ext_getElem?
    intro i
    by_cases hi : i < n
    · simp [Row.ofPerm, hi, List.getElem?_zip_eq_some]
    · rw [List.getElem?_eq_none (by simp; omega), List.getElem?_eq_none (by simp; omega)]
  unfold pnBetween
  simp only [Row.ofPerm_stage hn, Res.ok_bind, ne_eq, not_true_eq_false, if_false, hz, Res.pure_eq]
  congr 1
  have := pnBetweenLoop_spec σ ρ n 0 (by simp) (by simp) (fun x hx => by omega)
  simp only [List.drop_zero] at this
  split
  · rename_i hc
    rw [(this (fixedFrom (σ⁻¹ * ρ) 0)).2 ⟨rfl, fun x _ => hc x⟩, ← PlaceNot.ofChange_places]
    rfl
  · rename_i hc
    cases hr : pnBetweenLoop (List.ofFn fun x => ((⟨(σ x).val⟩, ⟨(ρ x).val⟩) : Bell × Bell)) 0 with
    | none => rfl
    | some ps => exact absurd (fun x => ((this ps).1 hr).2 x (Nat.zero_le _)) hc

/-! ## Characters -/

theorem ofChar_cross (c : Char) : CharMeaning.ofChar c = .cross ↔ c = 'x' ∨ c = 'X' ∨ c = '-' := by
  constructor
  · intro h
    unfold CharMeaning.ofChar at h
    split at h
    · cases h
    · split at h
      · cases h
      · split at h
        · cases h
        · split at h
          · assumption
          · cases h
  · rintro (rfl | rfl | rfl) <;> decide

theorem isCrossText_iff (s : List Char) :
    (Bell.utf8Len s = 1 ∧ s.head?.map CharMeaning.ofChar = some .cross) ↔ IsCrossText s := by
  constructor
  · rintro ⟨h1, h2⟩
    cases s with
    | nil => simp at h2
    | cons c cs =>
      have hcs : cs = [] := by
        cases cs with
        | nil => rfl
        | cons d ds =>
          have e1 := Char.utf8Size_pos c
          have e2 := Char.utf8Size_pos d
          simp [Bell.utf8Len] at h1
          omega
      subst hcs
      simp at h2
      unfold IsCrossText
      rcases (ofChar_cross c).1 h2 with rfl | rfl | rfl <;> simp
  · rintro (rfl | rfl | rfl) <;> decide

end Bellframe
