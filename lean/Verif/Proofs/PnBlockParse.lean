import Verif.Proofs.PnBlock
import Verif.Proofs.Block

/-! # Lemmas about parsing whole blocks of place notation, and about their rows -/

namespace Bellframe

open PnBlock

/-! ## Commas -/

theorem splitComma_ne (s : List Char) : splitComma s ≠ [] := by
  cases s with
  | nil => simp [splitComma]
  | cons c cs =>
    unfold splitComma
    split
    · simp
    · split <;> simp

theorem joinComma_cons (p : List Char) {ps : List (List Char)} (h : ps ≠ []) :
    joinComma (p :: ps) = p ++ ',' :: joinComma ps := by
  cases ps with
  | nil => exact absurd rfl h
  | cons q qs => rfl

theorem joinComma_splitComma (s : List Char) : joinComma (splitComma s) = s := by
  induction s with
  | nil => rfl
  | cons c cs ih =>
    unfold splitComma
    split
    · rename_i hc
      rw [joinComma_cons _ (splitComma_ne cs), ih, hc]
      rfl
    · split
      · rename_i h
        exact absurd h (splitComma_ne cs)
      · rename_i p ps h
        rw [h] at ih
        cases ps with
        | nil => simp only [joinComma] at ih ⊢; rw [ih]
        | cons q qs =>
          simp only [joinComma] at ih ⊢
          rw [List.cons_append, ih]

theorem splitComma_no_comma (s : List Char) : ∀ p ∈ splitComma s, ',' ∉ p := by
  induction s with
  | nil => simp [splitComma]
  | cons c cs ih =>
    intro p hp
    unfold splitComma at hp
    split at hp
    · rcases List.mem_cons.1 hp with rfl | hp
      · simp
      · exact ih p hp
    · rename_i hc
      split at hp
      · rename_i h
        exact absurd h (splitComma_ne cs)
      · rename_i q qs h
        rw [h] at ih
        rcases List.mem_cons.1 hp with rfl | hp
        · intro hm
          rcases List.mem_cons.1 hm with h1 | h1
          · exact hc h1.symm
          · exact ih q (by simp) h1
        · exact ih p (by simp [hp])

theorem splitComma_no_comma_self {s : List Char} (h : ',' ∉ s) : splitComma s = [s] := by
  induction s with
  | nil => rfl
  | cons c cs ih =>
    simp only [List.mem_cons, not_or] at h
    unfold splitComma
    rw [if_neg (fun hc => h.1 hc.symm), ih h.2]

theorem splitComma_append_comma {p : List Char} (h : ',' ∉ p) (rest : List Char) :
    splitComma (p ++ ',' :: rest) = p :: splitComma rest := by
  induction p with
  | nil => rw [List.nil_append]; conv_lhs => unfold splitComma
           rw [if_pos rfl]
  | cons c cs ih =>
    simp only [List.mem_cons, not_or] at h
    rw [List.cons_append]
    conv_lhs => unfold splitComma
    rw [if_neg (fun hc => h.1 hc.symm), ih h.2]

theorem splitComma_joinComma : ∀ {ps : List (List Char)}, ps ≠ [] → (∀ p ∈ ps, ',' ∉ p) →
    splitComma (joinComma ps) = ps := by
  intro ps
  induction ps with
  | nil => intro h; exact absurd rfl h
  | cons p ps ih =>
    intro _ hp
    cases ps with
    | nil => exact splitComma_no_comma_self (hp p (by simp))
    | cons q qs =>
      rw [joinComma_cons _ (by simp), splitComma_append_comma (hp p (by simp)),
        ih (by simp) (fun r hr => hp r (by simp [hr]))]

theorem contains_comma (s : List Char) : (!s.contains ',') = decide ((splitComma s).length = 1) := by
  by_cases h : ',' ∈ s
  · have h1 : s.contains ',' = true := by simpa using h
    have h2 : (splitComma s).length ≠ 1 := by
      intro hl
      obtain ⟨p, hp⟩ := List.length_eq_one_iff.1 hl
      have hj := joinComma_splitComma s
      have hn := splitComma_no_comma s p (by rw [hp]; simp)
      rw [hp] at hj
      simp only [joinComma] at hj
      exact hn (hj ▸ h)
    rw [h1, decide_eq_false h2]
    rfl
  · have h1 : s.contains ',' = false := by simpa using h
    rw [h1, splitComma_no_comma_self h]
    rfl

/-! ## The loop over the parts -/

theorem reverse_drop_one {α : Type} (l : List α) : l.reverse.drop 1 = l.dropLast.reverse := by
  rw [List.drop_one, List.tail_reverse]

theorem parseLoop_ok_iff (stage : Stage) (single : Bool) : ∀ (parts : List (List Char)) (off : Nat)
    (pns r : List PlaceNot), parseLoop stage single parts off pns = .ok (.ok r) ↔
    ∃ ps : List (List Char × Bool × List PlaceNot), ps.map (·.1) = parts ∧
      (∀ p ∈ ps, PartText stage p.1 p.2.1 p.2.2) ∧
      r = pns ++ ps.flatMap fun p => if single then p.2.2 else unfoldPart p.2.1 p.2.2 := by
  intro parts
  induction parts with
  | nil =>
    intro off pns r
    simp only [parseLoop]
    constructor
    · intro h
      cases h
      exact ⟨[], rfl, by simp, by simp⟩
    · rintro ⟨ps, h1, -, h3⟩
      rw [List.map_eq_nil_iff] at h1
      subst h1
      simp [h3]
  | cons part parts ih =>
    intro off pns r
    obtain ⟨x, hx⟩ := parseAsymBlock_total part off stage
    rw [parseLoop, hx, Res.ok_bind]
    have hunf : ∀ (a : Bool) (buf : List PlaceNot),
        (if (single || a) = true then pns ++ buf else pns ++ buf ++ buf.reverse.drop 1) =
          pns ++ (if single then buf else unfoldPart a buf) := by
      intro a buf
      rw [reverse_drop_one]
      cases single <;> cases a <;> simp [unfoldPart]
    cases x with
    | error e =>
      constructor
      · intro h; cases h
      · rintro ⟨ps, h1, h2, -⟩
        cases ps with
        | nil => cases h1
        | cons p ps =>
          simp only [List.map_cons, List.cons.injEq] at h1
          have := (parseAsymBlock_ok_iff p.1 off stage _ _).2 (h2 p (by simp))
          rw [h1.1, hx] at this
          cases this
    | ok ab =>
      obtain ⟨a, buf⟩ := ab
      have hpt := (parseAsymBlock_ok_iff part off stage a buf).1 hx
      simp only [hunf]
      rw [ih]
      constructor
      · rintro ⟨ps, h1, h2, h3⟩
        refine ⟨(part, a, buf) :: ps, by simp [h1], ?_, by rw [h3]; simp⟩
        intro p hp
        rcases List.mem_cons.1 hp with rfl | hp
        · exact hpt
        · exact h2 p hp
      · rintro ⟨ps, h1, h2, h3⟩
        cases ps with
        | nil => cases h1
        | cons p ps =>
          obtain ⟨t, a', buf'⟩ := p
          simp only [List.map_cons, List.cons.injEq] at h1
          obtain ⟨rfl, h1⟩ := h1
          have := (parseAsymBlock_ok_iff t off stage _ _).2 (h2 (t, a', buf') (by simp))
          rw [hx] at this
          cases this
          exact ⟨ps, h1, fun p hp => h2 p (by simp [hp]), by rw [h3]; simp⟩

theorem parseLoop_total (stage : Stage) (single : Bool) : ∀ (parts : List (List Char)) (off : Nat)
    (pns : List PlaceNot), ∃ r, parseLoop stage single parts off pns = .ok r := by
  intro parts
  induction parts with
  | nil => intro off pns; exact ⟨_, rfl⟩
  | cons part parts ih =>
    intro off pns
    obtain ⟨x, hx⟩ := parseAsymBlock_total part off stage
    rw [parseLoop, hx, Res.ok_bind]
    cases x with
    | error e => exact ⟨_, rfl⟩
    | ok ab => exact ih _ _

theorem parseLoop_wrong (stage : Stage) (single : Bool) : ∀ (parts : List (List Char)) (off : Nat)
    (pns : List PlaceNot) (e : PnBlockParseError),
    parseLoop stage single parts off pns = .ok (.error e) →
    ∃ done part todo before w e0, parts = done ++ part :: todo ∧
      (∀ p ∈ done, ∃ a pns, PartText stage p a pns) ∧ WrongPart stage part before w e0 ∧
      e = e0.shifted (2 * (off + Bell.utf8Len (textBefore done))) := by
  intro parts
  induction parts with
  | nil => intro off pns e h; cases h
  | cons part parts ih =>
    intro off pns e h
    obtain ⟨x, hx⟩ := parseAsymBlock_total part off stage
    rw [parseLoop, hx, Res.ok_bind] at h
    cases x with
    | error e' =>
      cases h
      obtain ⟨before, w, e0, h1, h2⟩ := parseAsymBlock_wrong part off stage e hx
      exact ⟨[], part, parts, before, w, e0, rfl, by simp, h1, by simpa [textBefore, Bell.utf8Len]⟩
    | ok ab =>
      obtain ⟨a, buf⟩ := ab
      obtain ⟨done, part', todo, before, w, e0, h1, h2, h3, h4⟩ := ih _ _ _ h
      refine ⟨part :: done, part', todo, before, w, e0, by simp [h1], ?_, h3, ?_⟩
      · intro p hp
        rcases List.mem_cons.1 hp with rfl | hp
        · exact ⟨a, buf, (parseAsymBlock_ok_iff p off stage a buf).1 hx⟩
        · exact h2 p hp
      · rw [h4]
        congr 2
        simp only [textBefore, List.flatMap_cons, utf8Len_append]
        simp only [Bell.utf8Len, List.map_cons, List.map_nil, List.sum_cons, List.sum_nil]
        have : Char.utf8Size ',' = 1 := by decide
        omega

/-! ## Rows -/

theorem PnBlock.toRowsLoop_ofChange {n : Nat} (hn : 0 < n) : ∀ (τs : List (Equiv.Perm (Fin n)))
    (σ : Equiv.Perm (Fin n)) (ρs : List (Equiv.Perm (Fin n))), (∀ τ ∈ τs, IsChange τ) →
    toRowsLoop (τs.map PlaceNot.ofChange) (.ofPerm σ) (.ofRows ⟨n⟩ (ρs.map Row.ofPerm)) =
      .ok (.ofRows ⟨n⟩ ((ρs ++ (τs.scanl (· * ·) σ).tail).map Row.ofPerm)) := by
  intro τs
  induction τs with
  | nil => intro σ ρs _; simp [toRowsLoop]
  | cons τ τs ih =>
    intro σ ρs hc
    have hstep : (SameStageVec.ofRows ⟨n⟩ (ρs.map Row.ofPerm)).push (.ofPerm (σ * τ)) =
        .ok (.ofRows ⟨n⟩ ((ρs ++ [σ * τ]).map Row.ofPerm), .ok ()) := by
      rw [SameStageVec.ofRows_push _ (Row.ofPerm_valid hn _), if_pos (by simp)]
      simp
    simp only [List.map_cons, toRowsLoop, PlaceNot.permuteUnchecked_ofChange (hc τ (by simp)),
      Res.ok_bind, hstep, unwrapResult]
    rw [ih (σ * τ) (ρs ++ [σ * τ]) (fun t ht => hc t (by simp [ht]))]
    congr 3
    cases τs <;> simp [List.scanl]

theorem scanl_get {α : Type} [Monoid α] : ∀ (τs : List α) (σ : α) (k : Nat) (τ : α),
    τs[k]? = some τ → ∃ ρ, (τs.scanl (· * ·) σ)[k]? = some ρ ∧
      (τs.scanl (· * ·) σ)[k + 1]? = some (ρ * τ) := by
  intro τs
  induction τs with
  | nil => intro σ k τ h; simp at h
  | cons t τs ih =>
    intro σ k τ h
    rw [List.scanl_cons]
    cases k with
    | zero =>
      simp only [List.getElem?_cons_zero, Option.some.injEq] at h
      subst h
      refine ⟨σ, by simp, ?_⟩
      cases τs <;> simp [List.scanl]
    | succ k =>
      simp only [List.getElem?_cons_succ] at h
      obtain ⟨ρ, h1, h2⟩ := ih (σ * t) k τ h
      exact ⟨ρ, by simpa using h1, by simpa using h2⟩

end Bellframe
