import Verif.Proofs.RunCount
import Verif.Props.Music
import Verif.Props.RowBuild

/-! # C84: counting runs -/

namespace Bellframe.Props

open Regex Equiv Utils

/-- How many regexes of a list match a row. -/
def numMatching (res : List Regex) (r : Row) : Nat :=
  res.countP fun re => decide (re.matches_ r = .ok true)

theorem decide_matches (re : Regex) (hn : re.Normal) (r : Row) (hr : r.Valid) :
    decide (re.matches_ r = .ok true) = true ↔ Lang re.elems r.bells := by
  rw [decide_eq_true_iff, matches_true_iff re hn r hr]

/-- A run on the front (or back) of a row counts once: exactly one of the regexes matches the row,
and none if there is no run. -/
theorem C84_once (s : Stage) (len : Nat) (hlen : 2 ≤ len) (r : Row) (hr : r.Valid)
    (hs : r.bells.length = s.numBells) :
    (RunAt r 0 len → numMatching (runsFront s len) r = 1) ∧
    (¬ RunAt r 0 len → numMatching (runsFront s len) r = 0) ∧
    (RunAt r (s.numBells - len) len → numMatching (runsBack s len) r = 1) ∧
    (¬ RunAt r (s.numBells - len) len → numMatching (runsBack s len) r = 0) := by
  have key : ∀ q, (RunAt r q len → Nat.card {p // p = q ∧ RunAt r p len} = 1) ∧
      (¬ RunAt r q len → Nat.card {p // p = q ∧ RunAt r p len} = 0) := by
    intro q
    refine ⟨fun h => ?_, fun h => ?_⟩
    · rw [Nat.card_eq_one_iff_exists]
      exact ⟨⟨q, rfl, h⟩, fun y => Subtype.ext y.2.1⟩
    · rw [Nat.card_eq_zero]
      exact .inl ⟨fun y => h (y.2.1 ▸ y.2.2)⟩
  by_cases hle : len ≤ s.numBells
  · have hfront : numMatching (runsFront s len) r = Nat.card {p // p = 0 ∧ RunAt r p len} := by
      unfold numMatching runsFront
      rw [if_neg (by omega), ← hs]
      refine countP_runs (· = 0) r hr len hlen (by omega)
        (fun i => ⟨runElems i len ++ [.glob]⟩) (fun i => ⟨(runElems i len).reverse ++ [.glob]⟩) _
        (fun b => ?_) (fun b => ?_)
      · rw [runElems_eq, decide_matches _ (normal_front _) r hr]
        exact lang_front r _
      · rw [reverse_runElems, decide_matches _ (normal_front _) r hr]
        exact lang_front r _
    have hback : numMatching (runsBack s len) r =
        Nat.card {p // p = s.numBells - len ∧ RunAt r p len} := by
      unfold numMatching runsBack
      rw [if_neg (by omega), ← hs]
      refine countP_runs (· = r.bells.length - len) r hr len hlen (by omega)
        (fun i => ⟨[.glob] ++ runElems i len⟩) (fun i => ⟨[.glob] ++ (runElems i len).reverse⟩) _
        (fun b => ?_) (fun b => ?_)
      · rw [runElems_eq, decide_matches _ (normal_back _) r hr]
        have := lang_back r (ascending b len) (by rw [ascending_length]; omega)
        rwa [ascending_length] at this
      · rw [reverse_runElems, decide_matches _ (normal_back _) r hr]
        have := lang_back r (ascending b len).reverse
          (by rw [List.length_reverse, ascending_length]; omega)
        rwa [List.length_reverse, ascending_length] at this
    rw [hfront, hback]
    exact ⟨(key 0).1, (key 0).2, (key _).1, (key _).2⟩
  · have hno : ∀ p, ¬ RunAt r p len := by
      intro p h
      have := h.1
      omega
    refine ⟨fun h => absurd h (hno _), fun _ => ?_, fun h => absurd h (hno _), fun _ => ?_⟩
    · unfold runsFront
      rw [if_pos (by omega)]
      rfl
    · unfold runsBack
      rw [if_pos (by omega)]
      rfl

example := C84_once ⟨6⟩ 3 (by decide) ⟨[⟨3⟩, ⟨2⟩, ⟨1⟩, ⟨0⟩, ⟨4⟩, ⟨5⟩]⟩ (by decide) rfl

/-- Of the regexes for runs anywhere, as many match a row as it has places where a run starts. -/
theorem C84_anywhere (s : Stage) (len : Nat) (hlen : 2 ≤ len) (r : Row) (hr : r.Valid)
    (hs : r.bells.length = s.numBells) :
    numMatching (allRuns s len) r = Nat.card {p // RunAt r p len} := by
  by_cases hle : len ≤ s.numBells
  · have : numMatching (allRuns s len) r = Nat.card {p // True ∧ RunAt r p len} := by
      unfold numMatching allRuns
      rw [if_neg (by omega), ← hs]
      refine countP_runs (fun _ => True) r hr len hlen (by omega)
        (fun i => ⟨[.glob] ++ runElems i len ++ [.glob]⟩)
        (fun i => ⟨[.glob] ++ (runElems i len).reverse ++ [.glob]⟩) _
        (fun b => ?_) (fun b => ?_)
      · obtain ⟨d, ds, hd⟩ := ascending_cons (b := b) (len := len) (by omega)
        rw [runElems_eq, hd, decide_matches _ (normal_anywhere d ds) r hr]
        exact lang_anywhere r _
      · obtain ⟨d, ds, hd⟩ := reverse_ascending_cons (b := b) (len := len) (by omega)
        rw [reverse_runElems, hd, decide_matches _ (normal_anywhere d ds) r hr]
        exact lang_anywhere r _
    rw [this]
    simp
  · unfold allRuns
    rw [if_pos (by omega)]
    symm
    show _ = 0
    rw [Nat.card_eq_zero]
    refine .inl ⟨fun y => ?_⟩
    have := y.2.1
    omega

/-- A row with runs of three bells at two places, of which one is on the front. -/
example : numMatching (allRuns ⟨6⟩ 3) ⟨[⟨3⟩, ⟨2⟩, ⟨1⟩, ⟨0⟩, ⟨4⟩, ⟨5⟩]⟩ = 2 ∧
    numMatching (runsFront ⟨6⟩ 3) ⟨[⟨3⟩, ⟨2⟩, ⟨1⟩, ⟨0⟩, ⟨4⟩, ⟨5⟩]⟩ = 1 ∧
    numMatching (runsBack ⟨6⟩ 3) ⟨[⟨3⟩, ⟨2⟩, ⟨1⟩, ⟨0⟩, ⟨4⟩, ⟨5⟩]⟩ = 0 := by decide

/-- For a run of one bell every row is counted twice, since each bell is its own run in both
directions. -/
example : numMatching (runsFront ⟨3⟩ 1) ⟨[⟨1⟩, ⟨0⟩, ⟨2⟩]⟩ = 2 := by decide

/-! ## The number of rows -/

theorem mem_front_back {s : Stage} {len : Nat} {re : Regex}
    (h : re ∈ runsFront s len ∨ re ∈ runsBack s len) :
    len ≤ s.numBells ∧ ∃ ds : List Bell, ds.length = len ∧ ds.Nodup ∧
      (∀ x ∈ ds, x.index < s.numBells) ∧
      (re = ⟨ds.map RegexElem.bell ++ [.glob]⟩ ∨ re = ⟨[.glob] ++ ds.map RegexElem.bell⟩) := by
  have hA : ∀ b, b + len ≤ s.numBells → len ≤ s.numBells ∧ (ascending b len).length = len ∧
      (ascending b len).Nodup ∧ ∀ x ∈ ascending b len, x.index < s.numBells := by
    intro b hb
    refine ⟨by omega, ascending_length _ _, ascending_nodup _ _, fun x hx => ?_⟩
    have := (mem_ascending.1 hx).2
    omega
  have hD : ∀ b, b + len ≤ s.numBells → len ≤ s.numBells ∧
      (ascending b len).reverse.length = len ∧
      (ascending b len).reverse.Nodup ∧ ∀ x ∈ (ascending b len).reverse, x.index < s.numBells := by
    intro b hb
    obtain ⟨h1, h2, h3, h4⟩ := hA b hb
    exact ⟨h1, by rw [List.length_reverse, h2], List.nodup_reverse.2 h3,
      fun x hx => h4 x (List.mem_reverse.1 hx)⟩
  rcases h with h | h
  · obtain ⟨b, hb, rfl | rfl⟩ := (mem_runs_iff (fun b => (⟨runElems b len ++ [RegexElem.glob]⟩ : Regex))
      (fun b => (⟨(runElems b len).reverse ++ [RegexElem.glob]⟩ : Regex)) s.numBells len re).1 h
    · obtain ⟨h1, h2, h3, h4⟩ := hA b hb
      exact ⟨h1, _, h2, h3, h4, .inl rfl⟩
    · obtain ⟨h1, h2, h3, h4⟩ := hD b hb
      exact ⟨h1, _, h2, h3, h4, .inl (by rw [reverse_runElems])⟩
  · obtain ⟨b, hb, rfl | rfl⟩ := (mem_runs_iff (fun b => (⟨[RegexElem.glob] ++ runElems b len⟩ : Regex))
      (fun b => (⟨[RegexElem.glob] ++ (runElems b len).reverse⟩ : Regex)) s.numBells len re).1 h
    · obtain ⟨h1, h2, h3, h4⟩ := hA b hb
      exact ⟨h1, _, h2, h3, h4, .inr rfl⟩
    · obtain ⟨h1, h2, h3, h4⟩ := hD b hb
      exact ⟨h1, _, h2, h3, h4, .inr (by rw [reverse_runElems])⟩

theorem count_any_map (ds : List Bell) : (ds.map RegexElem.bell).count .any = 0 := by
  rw [List.count_eq_zero]
  simp

theorem count_glob_map (ds : List Bell) : (ds.map RegexElem.bell).count .glob = 0 := by
  rw [List.count_eq_zero]
  simp

/-- Each regex for a run on the front or back matches as many rows as there are orders of the other
bells, and `num_matching_rows` says so. -/
theorem C84_count (s : Stage) (hs : s.Valid) (len : Nat) (re : Regex)
    (h : re ∈ runsFront s len ∨ re ∈ runsBack s len) :
    numRowsMatching re s.numBells = (s.numBells - len).factorial ∧
    ∀ max, (s.numBells - len).factorial ≤ max →
      re.numMatchingRows max s = .ok (some (s.numBells - len).factorial) := by
  obtain ⟨hle, ds, hlen, hnd, hlt, hre⟩ := mem_front_back h
  have hfacts : re.Normal ∧ bellsNamed re.elems = ds ∧ re.elems.count .any = 0 ∧
      re.elems.count .glob = 1 := by
    rcases hre with rfl | rfl
    · refine ⟨normal_front _, ?_, ?_, ?_⟩
      · simp [bellsNamed_append, bellsNamed_map, bellsNamed]
      · simp [count_any_map]
      · simp [count_glob_map]
    · refine ⟨normal_back _, ?_, ?_, ?_⟩
      · simp [bellsNamed, bellsNamed_map]
      · simp [count_any_map]
      · simp [count_glob_map]
  obtain ⟨hn, hb, ha, hg⟩ := hfacts
  have hcount : numRowsMatching re s.numBells = (s.numBells - len).factorial := by
    rw [(C45_count re hn s.numBells hs).1 (by rw [hb]; exact hnd) (by rw [hb]; exact hlt), hb, ha,
      hg, hlen]
    simp [expectedCount]
  refine ⟨hcount, fun max hmax => ?_⟩
  have := C45_count_partial max re hn s hs (by rw [hb]; exact hnd) (by rw [hb]; exact hlt) hg
    (by omega) (by rw [hb, ha, hlen]; omega) (by rw [hb, hlen]; exact hmax)
  rw [this, hcount]

example : (⟨[.bell ⟨2⟩, .bell ⟨1⟩, .bell ⟨0⟩, .glob]⟩ : Regex) ∈ runsFront ⟨6⟩ 3 := by decide

theorem length_runs (f g : Nat → Regex) (k : Nat) :
    ((List.range k).flatMap fun i => [f i, g i]).length = 2 * k := by
  induction k with
  | zero => rfl
  | succ k ih =>
    rw [List.range_succ, List.flatMap_append, List.length_append, ih]
    simp
    omega

theorem total_runs {n : Nat} (hn : 0 < n) (len : Nat) (l : List Regex) (q : Nat)
    (hlen : l.length = 2 * (n - len + 1))
    (hN : ∀ re ∈ l, re.Normal)
    (hc : ∀ re ∈ l, numRowsMatching re n = (n - len).factorial)
    (h1 : ∀ r : Row, r.Valid → r.bells.length = n → RunAt r q len → numMatching l r = 1)
    (h0 : ∀ r : Row, r.Valid → r.bells.length = n → ¬ RunAt r q len → numMatching l r = 0) :
    Nat.card {σ : Perm (Fin n) // RunAt (Row.ofPerm σ) q len} =
      2 * (n - len + 1) * (n - len).factorial := by
  classical
  have hsum := sum_card_eq l (fun re (σ : Perm (Fin n)) =>
    decide (re.matches_ (Row.ofPerm σ) = .ok true))
  have hleft : (l.map fun re => Finset.card {σ : Perm (Fin n) |
      decide (re.matches_ (Row.ofPerm σ) = .ok true) = true}).sum =
      2 * (n - len + 1) * (n - len).factorial := by
    have : (l.map fun re => Finset.card {σ : Perm (Fin n) |
        decide (re.matches_ (Row.ofPerm σ) = .ok true) = true}) =
        List.replicate l.length (n - len).factorial := by
      rw [List.eq_replicate_iff]
      refine ⟨by simp, fun x hx => ?_⟩
      obtain ⟨re, hre, rfl⟩ := List.mem_map.1 hx
      rw [← hc re hre, numRowsMatching, Nat.card_eq_fintype_card, Fintype.card_subtype]
      congr 1
      refine Finset.filter_congr fun σ _ => ?_
      rw [decide_matches re (hN re hre) _ (Row.ofPerm_valid hn σ)]
    rw [this, List.sum_replicate, hlen, smul_eq_mul]
  have hright : (∑ σ : Perm (Fin n), l.countP fun re =>
      decide (re.matches_ (Row.ofPerm σ) = .ok true)) =
      Nat.card {σ : Perm (Fin n) // RunAt (Row.ofPerm σ) q len} := by
    rw [Nat.card_eq_fintype_card, Fintype.card_subtype, Finset.card_filter]
    refine Finset.sum_congr rfl fun σ _ => ?_
    by_cases h : RunAt (Row.ofPerm σ) q len
    · rw [if_pos h]
      exact h1 _ (Row.ofPerm_valid hn σ) (by simp) h
    · rw [if_neg h]
      exact h0 _ (Row.ofPerm_valid hn σ) (by simp) h
  rw [← hright, ← hsum, hleft]

/-- So there are `2 (n - len + 1) (n - len)!` rows with a run of `len` bells on the front, and as
many with one on the back: the number of regexes times the number of rows each matches. -/
theorem C84_total (n : Nat) (len : Nat) (h2 : 2 ≤ len) (hn : len ≤ n) :
    Nat.card {σ : Perm (Fin n) // RunAt (Row.ofPerm σ) 0 len} =
      2 * (n - len + 1) * (n - len).factorial ∧
    Nat.card {σ : Perm (Fin n) // RunAt (Row.ofPerm σ) (n - len) len} =
      2 * (n - len + 1) * (n - len).factorial ∧
    (runsFront ⟨n⟩ len).length = 2 * (n - len + 1) ∧
    (runsBack ⟨n⟩ len).length = 2 * (n - len + 1) := by
  have hf : (runsFront ⟨n⟩ len).length = 2 * (n - len + 1) := by
    unfold runsFront
    rw [if_neg (by simp only; omega)]
    exact length_runs _ _ _
  have hb : (runsBack ⟨n⟩ len).length = 2 * (n - len + 1) := by
    unfold runsBack
    rw [if_neg (by simp only; omega)]
    exact length_runs _ _ _
  have hnorm : ∀ re, (re ∈ runsFront ⟨n⟩ len ∨ re ∈ runsBack ⟨n⟩ len) → re.Normal := by
    intro re hre
    obtain ⟨_, ds, _, _, _, rfl | rfl⟩ := mem_front_back hre
    · exact normal_front ds
    · exact normal_back ds
  have h0 : 0 < n := by omega
  refine ⟨?_, ?_, hf, hb⟩
  · exact total_runs h0 len _ 0 hf (fun re h => hnorm re (.inl h))
      (fun re h => (C84_count ⟨n⟩ h0 len re (.inl h)).1)
      (fun r hr hs => (C84_once ⟨n⟩ len h2 r hr hs).1)
      (fun r hr hs => (C84_once ⟨n⟩ len h2 r hr hs).2.1)
  · exact total_runs h0 len _ (n - len) hb (fun re h => hnorm re (.inr h))
      (fun re h => (C84_count ⟨n⟩ h0 len re (.inr h)).1)
      (fun r hr hs => (C84_once ⟨n⟩ len h2 r hr hs).2.2.1)
      (fun r hr hs => (C84_once ⟨n⟩ len h2 r hr hs).2.2.2)

/-- On eight bells, 240 rows have a run of four bells on the front. -/
example : 2 * (8 - 4 + 1) * (8 - 4).factorial = 240 := by decide

/-- `num_matching_rows` does not know about runs anywhere: each regex matches `(n - len + 1)!` rows,
but the answer is `(n - len)!`. -/
theorem C84_count_anywhere (s : Stage) (hs : s.Valid) (len : Nat) (hlen : 0 < len) (re : Regex)
    (h : re ∈ allRuns s len) :
    numRowsMatching re s.numBells = (s.numBells - len + 1).factorial ∧
    ∀ max, (s.numBells - len).factorial ≤ max →
      re.numMatchingRows max s = .ok (some (s.numBells - len).factorial) := by
  obtain ⟨hle, d, ds, hl, hnd, hlt, rfl⟩ : len ≤ s.numBells ∧ ∃ d ds, (d :: ds).length = len ∧
      (d :: ds).Nodup ∧ (∀ x ∈ d :: ds, x.index < s.numBells) ∧
      re = ⟨[.glob] ++ (d :: ds).map RegexElem.bell ++ [.glob]⟩ := by
    obtain ⟨b, hb, rfl | rfl⟩ := (mem_runs_iff (fun b => (⟨[RegexElem.glob] ++ runElems b len ++ [RegexElem.glob]⟩ : Regex))
      (fun b => (⟨[RegexElem.glob] ++ (runElems b len).reverse ++ [RegexElem.glob]⟩ : Regex)) s.numBells len re).1 h
    · obtain ⟨d, ds, hd⟩ := ascending_cons (b := b) (len := len) hlen
      refine ⟨by omega, d, ds, ?_, ?_, ?_, by rw [runElems_eq, hd]⟩
      · rw [← hd, ascending_length]
      · rw [← hd]; exact ascending_nodup b len
      · rw [← hd]
        intro x hx
        have := (mem_ascending.1 hx).2
        omega
    · obtain ⟨d, ds, hd⟩ := reverse_ascending_cons (b := b) (len := len) hlen
      refine ⟨by omega, d, ds, ?_, ?_, ?_, by rw [reverse_runElems, hd]⟩
      · rw [← hd, List.length_reverse, ascending_length]
      · rw [← hd, List.nodup_reverse]; exact ascending_nodup b len
      · rw [← hd]
        intro x hx
        have := (mem_ascending.1 (List.mem_reverse.1 hx)).2
        omega
  have hb : bellsNamed (⟨[.glob] ++ (d :: ds).map RegexElem.bell ++ [.glob]⟩ : Regex).elems =
      d :: ds := by
    simp [bellsNamed, bellsNamed_append, bellsNamed_map]
  have ha : (⟨[.glob] ++ (d :: ds).map RegexElem.bell ++ [.glob]⟩ : Regex).elems.count .any = 0 := by
    simp [count_any_map]
  have hg : (⟨[.glob] ++ (d :: ds).map RegexElem.bell ++ [.glob]⟩ : Regex).elems.count .glob = 2 := by
    simp [count_glob_map]
  constructor
  · rw [(C45_count _ (normal_anywhere d ds) s.numBells hs).1 (by rw [hb]; exact hnd)
      (by rw [hb]; exact hlt), hb, ha, hg, hl]
    simp [expectedCount, Nat.factorial_succ, mul_comm]
  · intro max hmax
    have h1 : 1 ≤ max := le_trans (Nat.factorial_pos _) hmax
    have := C45_computed max _ s (s.numBells - len) 0 2 (by rw [hb, hl]; omega) ha hg (by omega)
      (by simpa using h1) (by simpa using hmax) (by simpa using h1) (by simpa using hmax)
    rw [this]
    simp

example : (⟨[.glob, .bell ⟨2⟩, .bell ⟨1⟩, .bell ⟨0⟩, .glob]⟩ : Regex) ∈ allRuns ⟨6⟩ 3 := by decide

/-! ## Lengths of runs -/

theorem runAt_front_iff (bells : List Bell) (len : Nat) :
    RunAt ⟨bells⟩ 0 len ↔ len ≤ bells.length ∧ (Ascending bells len ∨ Descending bells len) := by
  constructor
  · rintro ⟨h1, b, h | h⟩
    · refine ⟨by simpa using h1, .inl fun i x y hi hx hy => ?_⟩
      have e1 := h i (by omega)
      have e2 := h (i + 1) hi
      simp only [Nat.zero_add] at e1 e2
      rw [e1] at hx
      rw [e2] at hy
      cases hx; cases hy
      simp only
      omega
    · refine ⟨by simpa using h1, .inr fun i x y hi hx hy => ?_⟩
      have e1 := h i (by omega)
      have e2 := h (i + 1) hi
      simp only [Nat.zero_add] at e1 e2
      rw [e1] at hx
      rw [e2] at hy
      cases hx; cases hy
      simp only
      omega
  · rintro ⟨hle, h⟩
    refine ⟨by simpa using hle, ?_⟩
    rcases Nat.eq_zero_or_pos len with rfl | hpos
    · exact ⟨0, .inl fun k hk => absurd hk (Nat.not_lt_zero _)⟩
    have hget : ∀ k (hk : k < len), bells[k]? = some bells[k] :=
      fun k hk => List.getElem?_eq_getElem (by omega)
    rcases h with h | h
    · have key : ∀ k (hk : k < len), bells[k].index = bells[0].index + k := by
        intro k
        induction k with
        | zero => intro _; rfl
        | succ k ih =>
          intro hk
          rw [h k _ _ hk (hget k (by omega)) (hget (k + 1) hk), ih (by omega)]
          rfl
      refine ⟨bells[0].index, .inl fun k hk => ?_⟩
      rw [Nat.zero_add]
      show bells[k]? = _
      rw [hget k hk, ← key k hk]
    · have key : ∀ k (hk : k < len), bells[k].index + k = bells[0].index := by
        intro k
        induction k with
        | zero => intro _; rfl
        | succ k ih =>
          intro hk
          have := h k _ _ hk (hget k (by omega)) (hget (k + 1) hk)
          rw [← ih (by omega), this]
          omega
      have hlast := key (len - 1) (by omega)
      refine ⟨bells[0].index - (len - 1), .inr fun k hk => ?_⟩
      rw [Nat.zero_add]
      show bells[k]? = _
      rw [hget k hk]
      have hk' := key k hk
      congr 1
      have : bells[k].index = bells[0].index - (len - 1) + (len - 1 - k) := by omega
      rw [← this]

theorem runAt_reverse (bells : List Bell) (len : Nat) (hle : len ≤ bells.length) :
    RunAt ⟨bells⟩ (bells.length - len) len ↔ RunAt ⟨bells.reverse⟩ 0 len := by
  have hrev : ∀ k < len, bells.reverse[k]? = bells[bells.length - len + (len - 1 - k)]? := by
    intro k hk
    rw [List.getElem?_reverse (by omega)]
    congr 1
    omega
  constructor
  · rintro ⟨_, b, h | h⟩
    · refine ⟨by simpa using hle, b, .inr fun k hk => ?_⟩
      rw [Nat.zero_add]
      show bells.reverse[k]? = _
      rw [hrev k hk]
      exact h (len - 1 - k) (by omega)
    · refine ⟨by simpa using hle, b, .inl fun k hk => ?_⟩
      rw [Nat.zero_add]
      show bells.reverse[k]? = _
      rw [hrev k hk]
      have := h (len - 1 - k) (by omega)
      rw [show len - 1 - (len - 1 - k) = k by omega] at this
      exact this
  · rintro ⟨_, b, h | h⟩
    · refine ⟨by simp only; omega, b, .inr fun k hk => ?_⟩
      have := h (len - 1 - k) (by omega)
      rw [Nat.zero_add] at this
      have e := hrev (len - 1 - k) (by omega)
      rw [show len - 1 - (len - 1 - k) = k by omega] at e
      exact e.symm.trans this
    · refine ⟨by simp only; omega, b, .inl fun k hk => ?_⟩
      have := h (len - 1 - k) (by omega)
      rw [Nat.zero_add, show len - 1 - (len - 1 - k) = k by omega] at this
      have e := hrev (len - 1 - k) (by omega)
      rw [show len - 1 - (len - 1 - k) = k by omega] at e
      exact e.symm.trans this

/-- `run_len` and the regexes agree: a row has a run of `len` bells on the front exactly when
`run_len` of its bells is at least `len`, and on the back exactly when that of the reversed bells
is. -/
theorem C84_run_len (s : Stage) (len : Nat) (r : Row) (hr : r.Valid)
    (hs : r.bells.length = s.numBells) :
    (SomeMatches (runsFront s len) r ↔ len ≤ runLen r.bells) ∧
    (SomeMatches (runsBack s len) r ↔ len ≤ runLen r.bells.reverse) := by
  have key : ∀ bells : List Bell, bells ≠ [] → bells.Nodup →
      (RunAt ⟨bells⟩ 0 len ↔ len ≤ runLen bells) := by
    intro bells hne hnd
    obtain ⟨⟨h1, h2⟩, h3⟩ := C47_run_len bells hne hnd
    rw [runAt_front_iff]
    constructor
    · exact fun h => h3 h
    · intro h
      refine ⟨by omega, ?_⟩
      rcases h2 with h2 | h2
      · exact .inl fun i x y hi => h2 i x y (by omega)
      · exact .inr fun i x y hi => h2 i x y (by omega)
  constructor
  · rw [(C44_runs_front s len r hr hs).2]
    exact key r.bells hr.1 hr.nodup
  · by_cases hle : len ≤ r.bells.length
    · rw [(C44_runs_back s len r hr hs).2, ← hs]
      rw [← key r.bells.reverse (by simpa using hr.1) (List.nodup_reverse.2 hr.nodup)]
      exact runAt_reverse r.bells len hle
    · constructor
      · rintro ⟨re, hre, _⟩
        unfold runsBack at hre
        rw [if_pos (by omega)] at hre
        cases hre
      · intro h
        obtain ⟨⟨h1, _⟩, _⟩ := C47_run_len r.bells.reverse (by simpa using hr.1)
          (List.nodup_reverse.2 hr.nodup)
        rw [List.length_reverse] at h1
        omega

example : runLen [⟨3⟩, ⟨2⟩, ⟨1⟩, ⟨0⟩, ⟨4⟩, ⟨5⟩] = 4 ∧ runLen [⟨5⟩, ⟨4⟩, ⟨0⟩, ⟨1⟩, ⟨2⟩, ⟨3⟩] = 2 := by
  decide

end Bellframe.Props
