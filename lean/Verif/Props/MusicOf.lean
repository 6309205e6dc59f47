import Verif.Spec.MusicOf
import Verif.Props.Truth
import Verif.Props.SameRows
import Verif.Props.RunCount

/-! # C104: the music of courses and touches -/

namespace Bellframe.Props

open Equiv Regex

variable {n : Nat} {A : Type}

/-! ## Other bells -/

theorem seekBell_map (f : Bell → Bell) (b : Bell) :
    ∀ (bs : List (Bell × Nat)), (∀ x ∈ bs, f x.1 = f b → x.1 = b) →
      seekBell (f b) (bs.map fun x => (f x.1, x.2)) =
        (seekBell b bs).map fun p => (p.1, p.2.map fun x => (f x.1, x.2))
  | [], _ => rfl
  | (x, i) :: rest, h => by
    have h0 := h (x, i) (by simp)
    simp only at h0
    simp only [List.map_cons, seekBell]
    by_cases hx : x = b
    · subst hx
      simp
    · rw [if_neg (fun e => hx (h0 e)), if_neg hx]
      exact seekBell_map f b rest (fun y hy => h y (by simp [hy]))

theorem mem_of_seekBell (b : Bell) : ∀ (bs : List (Bell × Nat)) (i : Nat) (rest : List (Bell × Nat)),
    seekBell b bs = some (i, rest) → ∀ x ∈ rest, x ∈ bs
  | [], _, _, h => by simp [seekBell] at h
  | (x, j) :: bs, i, rest, h => by
    unfold seekBell at h
    intro y hy
    split at h
    · simp only [Option.some.injEq, Prod.mk.injEq] at h
      rw [← h.2] at hy
      simp [hy]
    · exact List.mem_cons_of_mem _ (mem_of_seekBell b bs i rest h y hy)

theorem runMatchLoop_map (f : Bell → Bell) (P : Bell → Prop) (hf : ∀ x y, P x → P y → f x = f y → x = y) :
    ∀ (es : List RegexElem) (bs : List (Bell × Nat)) (acc : List Nat),
      (∀ b, RegexElem.bell b ∈ es → P b) → (∀ x ∈ bs, P x.1) →
      runMatchLoop (es.map fun e => match e with | .bell b => .bell (f b) | e => e)
        (bs.map fun x => (f x.1, x.2)) acc = runMatchLoop es bs acc
  | [], bs, acc, _, _ => by simp [runMatchLoop]
  | .bell b :: es, [], acc, _, _ => by simp [runMatchLoop]
  | .bell b :: es, (x, i) :: bs, acc, he, hb => by
    have ih := runMatchLoop_map f P hf es bs (acc ++ [i]) (fun b hb => he b (by simp [hb]))
      (fun y hy => hb y (by simp [hy]))
    simp only [List.map_cons, runMatchLoop, ih]
    by_cases hx : x = b
    · subst hx
      simp
    · rw [if_neg hx, if_neg (fun e => hx (hf _ _ (hb (x, i) (by simp)) (he b (by simp)) e))]
  | .any :: es, [], acc, _, _ => by simp [runMatchLoop]
  | .any :: es, (x, i) :: bs, acc, he, hb => by
    have ih := runMatchLoop_map f P hf es bs acc (fun b hb => he b (by simp [hb]))
      (fun y hy => hb y (by simp [hy]))
    simp only [List.map_cons, runMatchLoop, ih]
  | .glob :: [], bs, acc, _, _ => by simp [runMatchLoop]
  | .glob :: .bell b :: es, bs, acc, he, hb => by
    have hs := seekBell_map f b bs (fun x hx => hf _ _ (hb x hx) (he b (by simp)))
    simp only [List.map_cons, runMatchLoop, hs]
    cases hk : seekBell b bs with
    | none => rfl
    | some p =>
      obtain ⟨i, rest⟩ := p
      exact runMatchLoop_map f P hf es rest (acc ++ [i]) (fun b hb => he b (by simp [hb]))
        (fun y hy => hb y (mem_of_seekBell b bs i rest hk y hy))
  | .glob :: .any :: es, bs, acc, _, _ => by simp [runMatchLoop]
  | .glob :: .glob :: es, bs, acc, _, _ => by simp [runMatchLoop]

/-- Replacing in a regex each bell by the one which the row `s` has in its place, and doing the same in a row, that
is multiplying it by `s`, changes nothing: neither whether the row matches, nor in which places the bells are
found. -/
theorem C104_relabel (s r : Row) (hs : s.Valid) (hr : r.Valid) (h : s.bells.length = r.bells.length) (re re' : Regex)
    (hre : List.Forall₂ (Relabelled s) re.elems re'.elems) :
    ∃ sr, s.mul r = .ok sr ∧ sr.Valid ∧ re'.matches_ sr = re.matches_ r ∧ re'.matchPattern sr = re.matchPattern r := by
  obtain ⟨sr, h1, h2, h3, h4⟩ := C10_mul_spec s r hs hr h
  refine ⟨sr, h1, h2, ?_⟩
  suffices hk : re'.runMatch sr = re.runMatch r by
    unfold matches_ matchPattern
    rw [hk]
    exact ⟨rfl, rfl⟩
  obtain ⟨k, hk, σ, rfl⟩ := Row.valid_iff_exists_perm.1 hs
  let f : Bell → Bell := fun b => (Row.ofPerm σ).bells[b.index]?.getD b
  have hf : ∀ x y : Bell, x.index < k → y.index < k → f x = f y → x = y := by
    intro x y hx hy hxy
    simp only [f, Row.ofPerm_getElem? σ _ hx, Row.ofPerm_getElem? σ _ hy, Option.getD_some, Bell.mk.injEq] at hxy
    have := congrArg Fin.val (σ.injective (Fin.ext hxy))
    cases x; cases y
    simpa using this
  have hsr : sr.bells = r.bells.map f := by
    apply List.ext_getElem?
    intro i
    rw [List.getElem?_map]
    by_cases hi : i < r.bells.length
    · obtain ⟨y, e1, e2⟩ := h4 i _ (List.getElem?_eq_getElem hi)
      rw [List.getElem?_eq_getElem hi, e2, Option.map_some]
      simp only [f, e1, Option.getD_some]
    · rw [List.getElem?_eq_none (by omega), List.getElem?_eq_none (by omega)]
      rfl
  have hes : re'.elems = (re.elems.map fun e => match e with | .bell b => .bell (f b) | e => e) ∧
      ∀ b, RegexElem.bell b ∈ re.elems → b.index < k := by
    generalize re.elems = es at hre
    generalize re'.elems = es' at hre
    clear re re'
    induction hre with
    | nil => simp
    | cons h1 _ ih =>
      rw [List.map_cons, ← ih.1]
      cases h1 with
      | bell hb =>
        constructor
        · simp only [f, hb, Option.getD_some]
        · intro b hb'
          rcases List.mem_cons.1 hb' with e | e
          · cases e
            have := (List.getElem?_eq_some_iff.1 hb).1
            simpa using this
          · exact ih.2 b e
      | any => exact ⟨rfl, fun b hb' => ih.2 b (by simpa using hb')⟩
      | glob => exact ⟨rfl, fun b hb' => ih.2 b (by simpa using hb')⟩
  unfold runMatch
  rw [hes.1, hsr, List.zipIdx_map]
  refine runMatchLoop_map f (fun b => b.index < k) hf _ _ _ hes.2 ?_
  intro x hx
  have hm : x.1 ∈ r.bells := by
    obtain ⟨x, i⟩ := x
    exact (List.mem_zipIdx' hx).2 ▸ List.getElem_mem _
  have := (hr.mem_iff _).1 hm
  rw [Row.ofPerm_length] at h
  omega

/-- Bells 1 and 2 of four change their names. -/
example : List.Forall₂ (Relabelled ⟨[⟨1⟩, ⟨0⟩, ⟨2⟩, ⟨3⟩]⟩) [.glob, .bell ⟨0⟩, .any, .bell ⟨2⟩]
    [.glob, .bell ⟨1⟩, .any, .bell ⟨2⟩] ∧ (Row.mk [⟨1⟩, ⟨0⟩, ⟨2⟩, ⟨3⟩]).Valid :=
  ⟨.cons .glob (.cons (.bell rfl) (.cons .any (.cons (.bell rfl) .nil))), by decide⟩

/-- Tenors together: a regex that names only bells which the row `s` has in their own places matches a row if and
only if it matches the row multiplied by `s`. -/
theorem C104_kept (s r : Row) (hs : s.Valid) (hr : r.Valid) (h : s.bells.length = r.bells.length) (re : Regex)
    (hre : ∀ b, RegexElem.bell b ∈ re.elems → s.bells[b.index]? = some b) :
    ∃ sr, s.mul r = .ok sr ∧ sr.Valid ∧ re.matches_ sr = re.matches_ r ∧ re.matchPattern sr = re.matchPattern r := by
  refine C104_relabel s r hs hr h re re ?_
  rw [List.forall₂_same]
  intro e he
  cases e with
  | bell b => exact .bell (hre b he)
  | any => exact .any
  | glob => exact .glob

/-- So every course of a touch that begins with these bells at home has the same music of these bells as the plain
course, in the same rows. -/
theorem C104_courses (b : AnnotBlock A) (hb : b.WellFormed) (s : Row) (hs : s.Valid)
    (h : s.bells.length = b.stage.numBells) (re : Regex)
    (hre : ∀ b, RegexElem.bell b ∈ re.elems → s.bells[b.index]? = some b) :
    ∃ b', b.preMultiply s = .ok (b', .ok ()) ∧ b'.musicalRows re = b.musicalRows re ∧ b'.music re = b.music re := by
  obtain ⟨n, hn, σs, l, annots, h1, rfl⟩ := (C26_wellFormed_iff b).1 hb
  obtain ⟨k, hk, π, rfl⟩ := Row.valid_iff_exists_perm.1 hs
  obtain rfl : k = n := by rw [Row.ofPerm_length] at h; exact h
  suffices hset : (AnnotBlock.ofPerms (σs.map (π * ·)) (π * l) annots).musicalRows re =
      (AnnotBlock.ofPerms σs l annots).musicalRows re by
    refine ⟨_, AnnotBlock.preMultiply_ofPerms hn _ _ _ _, hset, ?_⟩
    unfold AnnotBlock.music
    rw [hset]
  have key : ∀ σ : Perm (Fin k), re.matches_ (Row.ofPerm (π * σ)) = re.matches_ (Row.ofPerm σ) := by
    intro σ
    obtain ⟨sr, e1, -, e2, -⟩ := C104_kept (.ofPerm π) (.ofPerm σ) hs (Row.ofPerm_valid hn σ) (by simp) re hre
    rw [C10_mul_perm hn] at e1
    cases e1
    exact e2
  ext i
  simp only [AnnotBlock.musicalRows, Set.mem_ofPred_eq, rings_iff hn (σs.map (π * ·)) _ annots (by simpa using h1),
    rings_iff hn σs _ annots h1, List.getElem?_map]
  constructor
  · rintro ⟨r, ⟨σ, e1, rfl⟩, e2⟩
    obtain ⟨σ', e3, rfl⟩ := Option.map_eq_some_iff.1 e1
    exact ⟨_, ⟨σ', e3, rfl⟩, by rw [← key]; exact e2⟩
  · rintro ⟨r, ⟨σ, e1, rfl⟩, e2⟩
    exact ⟨_, ⟨π * σ, by rw [e1]; rfl, rfl⟩, by rw [key]; exact e2⟩

/-- A course with the bells 5 and 6 at home: the rows with 56 at the back. -/
example : (Row.mk [⟨2⟩, ⟨0⟩, ⟨1⟩, ⟨3⟩, ⟨4⟩, ⟨5⟩]).Valid ∧
    ∀ b, RegexElem.bell b ∈ (Regex.mk [.glob, .bell ⟨4⟩, .bell ⟨5⟩]).elems →
      (Row.mk [⟨2⟩, ⟨0⟩, ⟨1⟩, ⟨3⟩, ⟨4⟩, ⟨5⟩]).bells[b.index]? = some b := by
  refine ⟨by decide, ?_⟩
  intro b hb
  simp at hb
  rcases hb with rfl | rfl <;> rfl

/-! ## Backwards -/

theorem lang_reverse : ∀ (es : List RegexElem) (bs : List Bell), Lang es bs → Lang es.reverse bs.reverse
  | [], bs, h => by
    rw [show bs = [] from h]
    rfl
  | .bell b :: es, bs, h => by
    obtain ⟨rest, rfl, h'⟩ := h
    rw [List.reverse_cons, List.reverse_cons, lang_append]
    exact ⟨_, _, rfl, lang_reverse es rest h', [], rfl, rfl⟩
  | .any :: es, bs, h => by
    obtain ⟨x, rest, rfl, h'⟩ := h
    rw [List.reverse_cons, List.reverse_cons, lang_append]
    exact ⟨_, _, rfl, lang_reverse es rest h', x, [], rfl, rfl⟩
  | .glob :: es, bs, h => by
    obtain ⟨sk, rest, rfl, h'⟩ := h
    rw [List.reverse_cons, List.reverse_append, lang_append]
    exact ⟨_, _, rfl, lang_reverse es rest h', sk.reverse, [], by simp, rfl⟩

theorem lang_reverse_iff (es : List RegexElem) (bs : List Bell) : Lang es.reverse bs.reverse ↔ Lang es bs := by
  refine ⟨fun h => ?_, lang_reverse es bs⟩
  have := lang_reverse _ _ h
  rwa [List.reverse_reverse, List.reverse_reverse] at this

theorem bells_mul_revPerm (σ : Perm (Fin n)) : (Row.ofPerm (σ * Fin.revPerm)).bells = (Row.ofPerm σ).bells.reverse := by
  apply List.ext_getElem?
  intro i
  by_cases hi : i < n
  · rw [List.getElem?_reverse (by simpa using hi), Row.ofPerm_getElem? _ _ hi, Row.ofPerm_length,
      Row.ofPerm_getElem? _ _ (show n - 1 - i < n by omega)]
    congr 3
    rw [Perm.mul_apply, Fin.revPerm_apply]
    congr 1
    apply Fin.ext
    rw [Fin.val_rev]
    simp only
    omega
  · rw [List.getElem?_eq_none (by simpa using hi), List.getElem?_eq_none (by simpa using hi)]

/-- The row with its places in the opposite order matches the regex with its elements in the opposite order. -/
theorem C104_reversed (r : Row) (hr : r.Valid) (es : List RegexElem) :
    ∃ r' re re', r.mul (Row.backrounds ⟨r.bells.length⟩) = .ok r' ∧ r'.bells = r.bells.reverse ∧
      Regex.fromVec es = .ok re ∧ Regex.fromVec es.reverse = .ok re' ∧ re'.matches_ r' = re.matches_ r := by
  obtain ⟨k, hk, σ, rfl⟩ := Row.valid_iff_exists_perm.1 hr
  obtain ⟨re, e1, e2⟩ := C41_from_vec es
  obtain ⟨re', e3, e4⟩ := C41_from_vec es.reverse
  obtain ⟨v, e5, e6⟩ := e2 _ hr
  obtain ⟨v', e7, e8⟩ := e4 _ (Row.ofPerm_valid hk (σ * Fin.revPerm))
  refine ⟨_, re, re', ?_, bells_mul_revPerm σ, e1, e3, ?_⟩
  · rw [Row.ofPerm_length, backrounds_ofPerm, C10_mul_perm hk]
    rfl
  · rw [e5, e7]
    rw [bells_mul_revPerm, lang_reverse_iff] at e8
    congr 1
    rw [Bool.eq_iff_iff, e6, e8]

example := C104_reversed ⟨[⟨2⟩, ⟨0⟩, ⟨3⟩, ⟨1⟩]⟩ (by decide) [.bell ⟨2⟩, .any, .glob]

theorem runAt_backwards (r r' : Row) (h : r'.bells = r.bells.reverse) (p len : Nat) (hp : p + len ≤ r.bells.length)
    (hr : RunAt r p len) : RunAt r' (r.bells.length - p - len) len := by
  have hget : ∀ k < len, r'.bells[r.bells.length - p - len + k]? = r.bells[p + (len - 1 - k)]? := by
    intro k hk
    rw [h, List.getElem?_reverse (by omega)]
    congr 1
    omega
  obtain ⟨-, b, H⟩ := hr
  refine ⟨by rw [h, List.length_reverse]; omega, b, ?_⟩
  rcases H with H | H
  · refine .inr fun k hk => ?_
    rw [hget k hk, H _ (by omega)]
  · refine .inl fun k hk => ?_
    rw [hget k hk, H _ (by omega)]
    congr 2
    omega

theorem runAt_complement (r r' : Row) (hr : r.Valid) (hl : r'.bells.length = r.bells.length)
    (h : ∀ (i : Nat) (x : Bell), r.bells[i]? = some x → r'.bells[i]? = some ⟨r.bells.length - 1 - x.index⟩)
    (p len : Nat) (hra : RunAt r p len) : RunAt r' p len := by
  obtain ⟨h1, b, H⟩ := hra
  by_cases h0 : len = 0
  · subst h0
    exact ⟨by omega, 0, .inl fun k hk => absurd hk (by omega)⟩
  have hlt : b + (len - 1) < r.bells.length := by
    rcases H with H | H
    · have := (hr.mem_iff _).1 (List.mem_of_getElem? (H (len - 1) (by omega)))
      simpa using this
    · have := (hr.mem_iff _).1 (List.mem_of_getElem? (H 0 (by omega)))
      simpa using this
  refine ⟨by omega, r.bells.length - 1 - (b + (len - 1)), ?_⟩
  rcases H with H | H
  · refine .inr fun k hk => ?_
    rw [h _ _ (H k hk)]
    congr 2
    simp only
    omega
  · refine .inl fun k hk => ?_
    rw [h _ _ (H k hk)]
    congr 2
    simp only
    omega

/-- Runs on the front are as many as runs on the back of the row with its places in the opposite order; and a row has
as many runs as the row in which the treble is called the tenor, the second bell the last but one, and so on. -/
theorem C104_runs (r : Row) (hr : r.Valid) (len : Nat) (hlen : 2 ≤ len) :
    let s : Stage := ⟨r.bells.length⟩
    ∃ r' r'', r.mul (Row.backrounds s) = .ok r' ∧ (Row.backrounds s).mul r = .ok r'' ∧
      numMatching (runsBack s len) r' = numMatching (runsFront s len) r ∧
      numMatching (runsFront s len) r' = numMatching (runsBack s len) r ∧
      numMatching (allRuns s len) r' = numMatching (allRuns s len) r ∧
      numMatching (runsFront s len) r'' = numMatching (runsFront s len) r ∧
      numMatching (runsBack s len) r'' = numMatching (runsBack s len) r ∧
      numMatching (allRuns s len) r'' = numMatching (allRuns s len) r := by
  intro s
  obtain ⟨n, hn, σ, rfl⟩ := Row.valid_iff_exists_perm.1 hr
  have hs : s = ⟨n⟩ := by simp only [s, Row.ofPerm_length]
  clear_value s
  subst hs
  have hrev := bells_mul_revPerm σ
  have hrev' : (Row.ofPerm σ).bells = (Row.ofPerm (σ * Fin.revPerm)).bells.reverse := by
    rw [hrev, List.reverse_reverse]
  have hv' := Row.ofPerm_valid hn (σ * Fin.revPerm)
  have hv'' := Row.ofPerm_valid hn (Fin.revPerm * σ)
  have hcomp : ∀ τ : Perm (Fin n), ∀ (i : Nat) (x : Bell), (Row.ofPerm τ).bells[i]? = some x →
      (Row.ofPerm (Fin.revPerm * τ)).bells[i]? = some ⟨(Row.ofPerm τ).bells.length - 1 - x.index⟩ := by
    intro τ i x hx
    have hi := (List.getElem?_eq_some_iff.1 hx).1
    rw [Row.ofPerm_length] at hi
    rw [Row.ofPerm_getElem? _ _ hi] at hx ⊢
    cases hx
    rw [Row.ofPerm_length, Perm.mul_apply, Fin.revPerm_apply, Fin.val_rev]
    congr 2
    simp only
    omega
  -- runs of the three rows
  have hA : ∀ p, p + len ≤ n → (RunAt (Row.ofPerm (σ * Fin.revPerm)) (n - p - len) len ↔ RunAt (Row.ofPerm σ) p len) := by
    intro p hp
    constructor
    · intro H
      have := runAt_backwards _ _ hrev' _ _ (by rw [Row.ofPerm_length]; omega) H
      rw [Row.ofPerm_length] at this
      rwa [show n - (n - p - len) - len = p by omega] at this
    · intro H
      have := runAt_backwards _ _ hrev _ _ (by rw [Row.ofPerm_length]; omega) H
      rwa [Row.ofPerm_length] at this
  have hB : ∀ p, RunAt (Row.ofPerm (Fin.revPerm * σ)) p len ↔ RunAt (Row.ofPerm σ) p len := by
    intro p
    constructor
    · intro H
      have := runAt_complement _ _ hv'' (by simp) (hcomp (Fin.revPerm * σ)) p len H
      rwa [← mul_assoc, show (Fin.revPerm : Perm (Fin n)) * Fin.revPerm = 1 from by ext; simp, one_mul] at this
    · exact runAt_complement _ _ hr (by simp) (hcomp σ) p len
  have hle : ∀ {τ : Perm (Fin n)} {p}, RunAt (Row.ofPerm τ) p len → p + len ≤ n := by
    intro τ p H
    have := H.1
    rwa [Row.ofPerm_length] at this
  have conv : ∀ (P Q : Prop) (a b : Nat), (P → a = 1) → (¬ P → a = 0) → (Q → b = 1) → (¬ Q → b = 0) →
      (P ↔ Q) → a = b := by
    intro P Q a b h1 h2 h3 h4 h5
    by_cases hp : P
    · rw [h1 hp, h3 (h5.1 hp)]
    · rw [h2 hp, h4 (fun hq => hp (h5.2 hq))]
  obtain ⟨a1, a2, a3, a4⟩ := C84_once ⟨n⟩ len hlen _ hr (by simp)
  obtain ⟨b1, b2, b3, b4⟩ := C84_once ⟨n⟩ len hlen _ hv' (by simp)
  obtain ⟨c1, c2, c3, c4⟩ := C84_once ⟨n⟩ len hlen _ hv'' (by simp)
  simp only at a3 a4 b3 b4 c3 c4
  refine ⟨.ofPerm (σ * Fin.revPerm), .ofPerm (Fin.revPerm * σ), ?_, ?_, ?_, ?_, ?_, ?_, ?_, ?_⟩
  · rw [backrounds_ofPerm, C10_mul_perm hn]
    rfl
  · rw [backrounds_ofPerm, C10_mul_perm hn]
    rfl
  · refine conv _ _ _ _ b3 b4 a1 a2 ⟨fun H => ?_, fun H => ?_⟩
    · have := hle H
      exact (hA 0 (by omega)).1 (by simpa using H)
    · have := hle H
      simpa using (hA 0 (by omega)).2 H
  · refine conv _ _ _ _ b1 b2 a3 a4 ⟨fun H => ?_, fun H => ?_⟩
    · have := hle H
      refine (hA (n - len) (by omega)).1 ?_
      rwa [show n - (n - len) - len = 0 by omega]
    · have := hle H
      have h2 := (hA (n - len) (by omega)).2 H
      rwa [show n - (n - len) - len = 0 by omega] at h2
  · rw [C84_anywhere ⟨n⟩ len hlen _ hr (by simp), C84_anywhere ⟨n⟩ len hlen _ hv' (by simp)]
    refine Nat.card_congr ⟨fun p => ⟨n - p.1 - len, ?_⟩, fun p => ⟨n - p.1 - len, ?_⟩, ?_, ?_⟩
    · have := hle p.2
      refine (hA _ (by omega)).1 ?_
      rw [show n - (n - p.1 - len) - len = p.1 by omega]
      exact p.2
    · exact (hA _ (hle p.2)).2 p.2
    · intro p
      have := hle p.2
      apply Subtype.ext
      simp only
      omega
    · intro p
      have := hle p.2
      apply Subtype.ext
      simp only
      omega
  · exact conv _ _ _ _ c1 c2 a1 a2 (hB 0)
  · exact conv _ _ _ _ c3 c4 a3 a4 (hB _)
  · rw [C84_anywhere ⟨n⟩ len hlen _ hr (by simp), C84_anywhere ⟨n⟩ len hlen _ hv'' (by simp)]
    simp only [hB]

example := C104_runs ⟨[⟨2⟩, ⟨0⟩, ⟨3⟩, ⟨1⟩]⟩ (by decide) 3 (by decide)

/-! ## Extents -/

theorem music_card (hn : 0 < n) (σs : List (Perm (Fin n))) (l : Perm (Fin n)) (annots : List A)
    (h : σs.length = annots.length) (hnd : σs.Nodup) (P : Row → Prop) :
    Nat.card {i | ∃ r, (AnnotBlock.ofPerms σs l annots).Rings i r ∧ P r} =
      Nat.card {σ : Perm (Fin n) // σ ∈ σs ∧ P (.ofPerm σ)} := by
  refine Nat.card_congr (Equiv.ofBijective
    (fun i => ⟨σs.getD i.1 1, ?_⟩) ⟨?_, ?_⟩)
  · obtain ⟨i, r, hi, hp⟩ := i
    obtain ⟨σ, e1, rfl⟩ := (rings_iff hn σs l annots h i r).1 hi
    simp only [List.getD_eq_getElem?_getD, e1, Option.getD_some]
    exact ⟨List.mem_of_getElem? e1, hp⟩
  · rintro ⟨i, r, hi, hp⟩ ⟨j, r', hj, hp'⟩ hij
    obtain ⟨σ, e1, rfl⟩ := (rings_iff hn σs l annots h i r).1 hi
    obtain ⟨σ', e2, rfl⟩ := (rings_iff hn σs l annots h j r').1 hj
    simp only [List.getD_eq_getElem?_getD, e1, e2, Option.getD_some, Subtype.mk.injEq] at hij
    subst hij
    obtain ⟨h1, e1⟩ := List.getElem?_eq_some_iff.1 e1
    obtain ⟨h2, e2⟩ := List.getElem?_eq_some_iff.1 e2
    exact Subtype.ext ((List.Nodup.getElem_inj_iff hnd).1 (e1.trans e2.symm))
  · rintro ⟨σ, hσ, hp⟩
    obtain ⟨i, hi, rfl⟩ := List.getElem_of_mem hσ
    refine ⟨⟨i, _, (rings_iff hn σs l annots h i _).2 ⟨_, List.getElem?_eq_getElem hi, rfl⟩, hp⟩, ?_⟩
    apply Subtype.ext
    simp only [List.getD_eq_getElem?_getD, List.getElem?_eq_getElem hi, Option.getD_some]

/-- A true block has at most as many rows that match a regex as there are such rows; an extent has all of them.  An
extent has `2 (n - len + 1) (n - len)!` rows with a run of `len` bells on the front, and as many with one on the back;
a true block has no more. -/
theorem C104_extent (b : AnnotBlock A) (hb : b.WellFormed) (ht : b.IsTrue) (re : Regex) (hre : re.Normal) (len : Nat)
    (h2 : 2 ≤ len) (hlen : len ≤ b.stage.numBells) :
    let n := b.stage.numBells
    let runRows p := Nat.card {i | ∃ r, b.Rings i r ∧ RunAt r p len}
    b.music re ≤ numRowsMatching re n ∧ (b.len = n.factorial → b.music re = numRowsMatching re n) ∧
    runRows 0 ≤ 2 * (n - len + 1) * (n - len).factorial ∧
    runRows (n - len) ≤ 2 * (n - len + 1) * (n - len).factorial ∧
    (b.len = n.factorial → runRows 0 = 2 * (n - len + 1) * (n - len).factorial ∧
      runRows (n - len) = 2 * (n - len + 1) * (n - len).factorial) := by
  obtain ⟨n, hn, σs, l, annots, h1, rfl⟩ := (C26_wellFormed_iff b).1 hb
  have hnd := (true_iff_nodup hn σs l annots h1).1 ht
  have hall := (C99_extent _ hb ht).2
  have hst : (AnnotBlock.ofPerms σs l annots).stage.numBells = n := rfl
  simp only [hst] at hall hlen ⊢
  have hmem : (AnnotBlock.ofPerms σs l annots).len = n.factorial → ∀ σ, σ ∈ σs := by
    intro e σ
    obtain ⟨i, hi⟩ := hall.1 e (.ofPerm σ) (Row.ofPerm_valid hn σ) (Row.ofPerm_length σ)
    obtain ⟨σ', e1, e2⟩ := (rings_iff hn σs l annots h1 i _).1 hi
    rw [Row.ofPerm_inj] at e2
    exact e2 ▸ List.mem_of_getElem? e1
  have hle : ∀ P : Row → Prop, Nat.card {i | ∃ r, (AnnotBlock.ofPerms σs l annots).Rings i r ∧ P r} ≤
      Nat.card {σ : Perm (Fin n) // P (.ofPerm σ)} := by
    intro P
    rw [music_card hn σs l annots h1 hnd P]
    exact Nat.card_le_card_of_injective (fun x => ⟨x.1, x.2.2⟩) fun x y hxy => Subtype.ext (by simpa using hxy)
  have heq : ∀ P : Row → Prop, (AnnotBlock.ofPerms σs l annots).len = n.factorial →
      Nat.card {i | ∃ r, (AnnotBlock.ofPerms σs l annots).Rings i r ∧ P r} =
        Nat.card {σ : Perm (Fin n) // P (.ofPerm σ)} := by
    intro P e
    rw [music_card hn σs l annots h1 hnd P]
    refine Nat.card_congr (Equiv.subtypeEquivRight fun σ => ?_)
    simp only [hmem e σ, true_and]
  have hmus : numRowsMatching re n = Nat.card {σ : Perm (Fin n) // re.matches_ (.ofPerm σ) = .ok true} := by
    unfold numRowsMatching
    refine Nat.card_congr (Equiv.subtypeEquivRight fun σ => ?_)
    rw [matches_true_iff re hre _ (Row.ofPerm_valid hn σ)]
  obtain ⟨t1, t2, -, -⟩ := C84_total n len h2 hlen
  refine ⟨?_, ?_, ?_, ?_, fun e => ⟨?_, ?_⟩⟩
  · rw [hmus]
    exact hle _
  · intro e
    rw [hmus]
    exact heq _ e
  · rw [← t1]
    exact hle _
  · rw [← t2]
    exact hle _
  · rw [← t1]
    exact heq _ e
  · rw [← t2]
    exact heq _ e

/-- The extent of three bells, and rows with 23 at the back. -/
example :
    let τs : List (Perm (Fin 3)) := [swap 0 1, swap 1 2, swap 0 1, swap 1 2, swap 0 1, swap 1 2]
    let b : AnnotBlock Unit := .rung τs (List.replicate 6 ())
    b.WellFormed ∧ b.IsTrue ∧ b.len = b.stage.numBells.factorial ∧ b.stage.numBells = 3 ∧
      (Regex.mk [.glob, .bell ⟨1⟩, .bell ⟨2⟩]).Normal := by
  refine ⟨AnnotBlock.ofPerms_wellFormed (by omega) rfl, ?_, rfl, rfl, normal_back [⟨1⟩, ⟨2⟩]⟩
  unfold AnnotBlock.rung
  rw [true_iff_nodup (by omega) _ _ _ (by rfl)]
  decide

end Bellframe.Props
