import Verif.Spec.Iterators
import Verif.Proofs.SameStageVec

/-! # Lemmas about iterators and adapters -/

namespace Bellframe

variable {S T α β : Type}

/-- The function takes away the first item. -/
def Front (next : S → Res (Option α × S)) (R : S → List α → Prop) : Prop :=
  ∀ s l, R s l → ∃ s', next s = .ok (l.head?, s') ∧ R s' l.tail

theorem IsDeque.front {it : ExactIter S α} {R} (h : IsDeque it R) : Front it.next R := h.next

theorem IsDeque.back {it : ExactIter S α} {R} (h : IsDeque it R) :
    Front it.nextBack (fun s l => R s l.reverse) := by
  intro s l hs
  obtain ⟨s', h1, h2⟩ := h.nextBack s _ hs
  refine ⟨s', ?_, ?_⟩
  · rw [h1, List.getLast?_reverse]
  · rwa [List.dropLast_reverse] at h2

theorem Front.yields {next : S → Res (Option α × S)} {R} (h : Front next R) {l : List α} :
    ∀ {s : S}, R s l → Yields next s l := by
  induction l with
  | nil =>
    intro s hs
    obtain ⟨s', h1, _⟩ := h s [] hs
    exact .done h1
  | cons a l ih =>
    intro s hs
    obtain ⟨s', h1, h2⟩ := h s _ hs
    exact .item h1 (ih h2)

theorem IsDeque.yields {it : ExactIter S α} {R} (h : IsDeque it R) {s : S} {l : List α} (hs : R s l) :
    Yields it.next s l ∧ Yields it.nextBack s l.reverse :=
  ⟨h.front.yields hs, h.back.yields (by simpa using hs)⟩

theorem Yields.unique {next : S → Res (Option α × S)} {s : S} {l l' : List α} (h : Yields next s l)
    (h' : Yields next s l') : l = l' := by
  induction h generalizing l' with
  | done h1 =>
    cases h' with
    | done => rfl
    | item h2 _ => simp [h1] at h2
  | item h1 _ ih =>
    cases h' with
    | done h2 => simp [h1] at h2
    | item h2 h3 =>
      rw [h1] at h2
      simp only [Except.ok.injEq, Prod.mk.injEq, Option.some.injEq] at h2
      obtain ⟨rfl, rfl⟩ := h2
      rw [ih h3]

theorem Front.advance {next : S → Res (Option α × S)} {R} (h : Front next R) (n : Nat) :
    ∀ (s : S) (l : List α), R s l →
      ∃ s', ExactIter.advance next n s = .ok (decide (n ≤ l.length), s') ∧ R s' (l.drop n) := by
  induction n with
  | zero => exact fun s l hs => ⟨s, by simp [ExactIter.advance], by simpa using hs⟩
  | succ n ih =>
    intro s l hs
    obtain ⟨s', h1, h2⟩ := h s l hs
    cases l with
    | nil =>
      refine ⟨s', ?_, by simpa using h2⟩
      simp [ExactIter.advance, h1]
    | cons a l =>
      obtain ⟨s'', h3, h4⟩ := ih s' l h2
      refine ⟨s'', ?_, by simpa using h4⟩
      simp [ExactIter.advance, h1, h3]

theorem Front.nth {next : S → Res (Option α × S)} {R} (h : Front next R) (n : Nat) {s : S} {l : List α}
    (hs : R s l) :
    ∃ s', ExactIter.nth next n s = .ok ((l.drop n).head?, s') ∧ R s' (l.drop n).tail := by
  obtain ⟨s', h1, h2⟩ := h.advance n s l hs
  unfold ExactIter.nth
  rw [h1]
  simp only [Res.ok_bind]
  by_cases hn : n ≤ l.length
  · rw [if_pos (by simpa using hn)]
    exact h s' _ h2
  · have : l.drop n = [] := by rw [List.drop_eq_nil_iff]; omega
    rw [if_neg (by simpa using hn)]
    rw [this] at h2 ⊢
    exact ⟨s', rfl, h2⟩

theorem take_sub (l : List α) (m : Nat) : l.take (l.length - (l.length - m)) = l.take m := by
  rcases Nat.le_total m l.length with h | h
  · rw [Nat.sub_sub_self h]
  · rw [Nat.sub_eq_zero_of_le h, Nat.sub_zero, List.take_of_length_le h, List.take_length]

namespace IsDeque

variable {it : ExactIter S α} {jt : ExactIter T β} {R : S → List α → Prop} {Q : T → List β → Prop}

theorem rev (h : IsDeque it R) : IsDeque it.rev (fun s l => R s l.reverse) where
  next := h.back
  nextBack := by
    intro s l hs
    obtain ⟨s', h1, h2⟩ := h.next s _ hs
    refine ⟨s', ?_, ?_⟩
    · rw [← List.head?_reverse]
      exact h1
    · rwa [List.tail_reverse] at h2

/-- The states of `enumerate`. -/
def EnumR (R : S → List α → Prop) : S × Nat → List (Nat × α) → Prop :=
  fun s l => ∃ l₀, R s.1 l₀ ∧ l = (l₀.zipIdx s.2).map Prod.swap

theorem enumerate (h : IsDeque it R) (hl : KnowsLength it R) : IsDeque it.enumerate (EnumR R) where
  next := by
    rintro ⟨s, n⟩ _ ⟨l, hs, rfl⟩
    obtain ⟨s', h1, h2⟩ := h.next s l hs
    simp only [ExactIter.enumerate, h1, Res.ok_bind]
    cases l with
    | nil => exact ⟨_, rfl, [], h2, rfl⟩
    | cons a l => exact ⟨_, rfl, l, h2, rfl⟩
  nextBack := by
    rintro ⟨s, n⟩ _ ⟨l, hs, rfl⟩
    obtain ⟨s', h1, h2⟩ := h.nextBack s l hs
    simp only [ExactIter.enumerate, h1, Res.ok_bind]
    rcases List.eq_nil_or_concat l with rfl | ⟨l, a, rfl⟩
    · exact ⟨_, rfl, [], h2, rfl⟩
    · simp only [List.concat_eq_append, List.dropLast_concat] at h2
      simp only [List.concat_eq_append, List.getLast?_concat, hl _ _ h2, Res.ok_bind]
      refine ⟨(s', n), ?_, l, h2, ?_⟩
      · simp [List.zipIdx_append]
      · simp [List.zipIdx_append]

theorem enumerate_knows (hl : KnowsLength it R) : KnowsLength it.enumerate (EnumR R) := by
  rintro ⟨s, n⟩ _ ⟨l, hs, rfl⟩
  simpa [ExactIter.enumerate] using hl s l hs

/-- The states of `take`. -/
def TakeR (R : S → List α → Prop) : S × Nat → List α → Prop :=
  fun s l => ∃ l₀, R s.1 l₀ ∧ l = l₀.take s.2

theorem take (h : IsDeque it R) (hl : KnowsLength it R) : IsDeque it.take (TakeR R) where
  next := by
    rintro ⟨s, n⟩ _ ⟨l, hs, rfl⟩
    cases n with
    | zero => exact ⟨_, rfl, l, hs, rfl⟩
    | succ n =>
      obtain ⟨s', h1, h2⟩ := h.next s l hs
      refine ⟨(s', n), ?_, l.tail, h2, ?_⟩
      · simp [ExactIter.take, h1]
        cases l <;> rfl
      · cases l <;> simp
  nextBack := by
    rintro ⟨s, n⟩ _ ⟨l, hs, rfl⟩
    cases n with
    | zero => exact ⟨_, rfl, l, hs, rfl⟩
    | succ n =>
      obtain ⟨s', h1, h2⟩ := h.back.nth (l.length - (n + 1)) (s := s) (l := l.reverse) (by simpa using hs)
      refine ⟨(s', n), ?_, _, h2, ?_⟩
      · simp only [ExactIter.take, Nat.add_eq_zero_iff, one_ne_zero, and_false, if_false, hl s l hs,
          Res.ok_bind, h1]
        rw [List.drop_reverse, List.head?_reverse, take_sub]
        rfl
      · rw [List.drop_reverse, List.tail_reverse, List.reverse_reverse, take_sub]
        exact (List.take_of_length_le (by simp)).symm

theorem take_hints (hh : HintsLength it R) : HintsLength it.take (TakeR R) := by
  rintro ⟨s, n⟩ _ ⟨l, hs, rfl⟩
  have h := hh s l hs
  simp only [ExactIter.take, h, List.length_take]
  by_cases h0 : n = 0
  · simp [h0]
  · rw [if_neg h0, Nat.min_comm]
    split <;> simp <;> omega

/-- The states of `skip`. -/
def SkipR (R : S → List α → Prop) : S × Nat → List α → Prop :=
  fun s l => ∃ l₀, R s.1 l₀ ∧ l = l₀.drop s.2

theorem skip_front (h : IsDeque it R) : Front it.skip.next (SkipR R) := by
  rintro ⟨s, n⟩ _ ⟨l, hs, rfl⟩
  simp only [ExactIter.skip]
  by_cases hn : n > 0
  · obtain ⟨s', h1, h2⟩ := h.front.nth n hs
    rw [if_pos hn, h1]
    exact ⟨(s', 0), rfl, _, h2, by simp⟩
  · obtain ⟨s', h1, h2⟩ := h.next s l hs
    have : n = 0 := by omega
    subst this
    rw [if_neg hn, h1]
    exact ⟨(s', 0), rfl, _, h2, by simp⟩

theorem skip_hints (hh : HintsLength it R) : HintsLength it.skip (SkipR R) := by
  rintro ⟨s, n⟩ _ ⟨l, hs, rfl⟩
  simp [ExactIter.skip, hh s l hs]

theorem skip (h : IsDeque it R) (hh : HintsLength it R) : IsDeque it.skip (SkipR R) where
  next := h.skip_front
  nextBack := by
    rintro ⟨s, n⟩ _ ⟨l, hs, rfl⟩
    obtain ⟨s', h1, h2⟩ := h.nextBack s l hs
    have hl : ExactIter.defaultLen it.skip.sizeHint (s, n) = .ok (l.length - n) := by
      simp [ExactIter.defaultLen, skip_hints hh (s, n) _ ⟨l, hs, rfl⟩, assertThat]
    have hnb : it.skip.nextBack (s, n) = (do
      let len ← ExactIter.defaultLen it.skip.sizeHint (s, n)
      if len > 0 then
        let (a, s') ← it.nextBack s
        return (a, s', n)
      else return (none, s, n)) := rfl
    rw [hnb, hl]
    simp only [Res.ok_bind]
    by_cases hlt : l.length - n > 0
    · rw [if_pos hlt, h1]
      refine ⟨(s', n), ?_, _, h2, ?_⟩
      · rw [List.getLast?_drop, if_neg (by omega)]
        rfl
      · simp [List.dropLast_eq_take, List.drop_take]
        congr 1
        omega
    · have : l.drop n = [] := by rw [List.drop_eq_nil_iff]; omega
      rw [if_neg hlt, this]
      exact ⟨(s, n), rfl, l, hs, by simp [this]⟩

/-- The states of `zip`. -/
def ZipR (R : S → List α → Prop) (Q : T → List β → Prop) : S × T → List (α × β) → Prop :=
  fun s l => ∃ l₁ l₂, R s.1 l₁ ∧ Q s.2 l₂ ∧ l = l₁.zip l₂

theorem zip (h : IsDeque it R) (hl : KnowsLength it R) (h' : IsDeque jt Q) (hl' : KnowsLength jt Q) :
    IsDeque (it.zip jt) (ZipR R Q) where
  next := by
    rintro ⟨s, t⟩ _ ⟨l₁, l₂, hs, ht, rfl⟩
    obtain ⟨s', h1, h2⟩ := h.next s l₁ hs
    obtain ⟨t', h3, h4⟩ := h'.next t l₂ ht
    simp only [ExactIter.zip, h1, Res.ok_bind]
    cases l₁ with
    | nil => exact ⟨(s', t), rfl, [], l₂, h2, ht, rfl⟩
    | cons a l₁ =>
      simp only [List.head?_cons, h3, Res.ok_bind]
      cases l₂ with
      | nil => exact ⟨(s', t'), rfl, l₁, [], h2, h4, by simp⟩
      | cons b l₂ => exact ⟨(s', t'), rfl, l₁, l₂, h2, h4, rfl⟩
  nextBack := by
    rintro ⟨s, t⟩ _ ⟨l₁, l₂, hs, ht, rfl⟩
    obtain ⟨s₁, h1, h2⟩ := h.back.advance (l₁.length - l₂.length) s l₁.reverse (by simpa using hs)
    obtain ⟨t₁, h3, h4⟩ := h'.back.advance (l₂.length - l₁.length) t l₂.reverse (by simpa using ht)
    rw [List.drop_reverse, List.reverse_reverse, take_sub] at h2 h4
    obtain ⟨s₂, h5, h6⟩ := h.nextBack s₁ _ h2
    obtain ⟨t₂, h7, h8⟩ := h'.nextBack t₁ _ h4
    simp only [ExactIter.zip, hl s l₁ hs, hl' t l₂ ht, h1, h3, h5, h7, Res.ok_bind]
    have hz : l₁.zip l₂ = (l₁.take l₂.length).zip (l₂.take l₁.length) := by
      have h₁ : l₁.take (min l₁.length l₂.length) = l₁.take l₂.length := by
        rw [Nat.min_comm, ← List.take_take, List.take_length]
      have h₂ : l₂.take (min l₁.length l₂.length) = l₂.take l₁.length := by
        rw [← List.take_take, List.take_length]
      rw [List.zip_eq_zip_take_min, h₁, h₂]
    rw [hz]
    have hlen : (l₁.take l₂.length).length = (l₂.take l₁.length).length := by
      simp [Nat.min_comm]
    generalize l₁.take l₂.length = k₁ at *
    generalize l₂.take l₁.length = k₂ at *
    rcases List.eq_nil_or_concat k₁ with rfl | ⟨k₁, a, rfl⟩
    · have : k₂ = [] := by simpa using hlen.symm
      subst this
      exact ⟨(s₂, t₂), rfl, [], [], h6, h8, rfl⟩
    · rcases List.eq_nil_or_concat k₂ with rfl | ⟨k₂, b, rfl⟩
      · simp at hlen
      · simp only [List.concat_eq_append, List.length_append, List.length_cons, List.length_nil,
          Nat.add_right_cancel_iff, List.dropLast_concat, List.getLast?_concat] at hlen h6 h8 ⊢
        refine ⟨(s₂, t₂), ?_, k₁, k₂, h6, h8, ?_⟩
        · rw [List.zip_append hlen]
          simp
        · rw [List.zip_append hlen]
          simp

theorem zip_hints (hh : HintsLength it R) (hh' : HintsLength jt Q) :
    HintsLength (it.zip jt) (ZipR R Q) := by
  rintro ⟨s, t⟩ _ ⟨l₁, l₂, hs, ht, rfl⟩
  simp [ExactIter.zip, hh s l₁ hs, hh' t l₂ ht]

end IsDeque

theorem HintsLength.defaultLen {it : ExactIter S α} {R} (h : HintsLength it R) {s : S} {l : List α}
    (hs : R s l) : ExactIter.defaultLen it.sizeHint s = .ok l.length := by
  simp [ExactIter.defaultLen, h s l hs, assertThat]

/-- The iterator over the rows of a vector. -/
theorem rows_isDeque (stage : Stage) : IsDeque SameStageVec.Iter.traits (HasRows stage) where
  next := by
    rintro _ rows ⟨h, rfl⟩
    exact ⟨_, SameStageVec.next_ofRows h, h.of_subset fun r hr => List.mem_of_mem_tail hr, rfl⟩
  nextBack := by
    rintro _ rows ⟨h, rfl⟩
    exact ⟨_, SameStageVec.nextBack_ofRows h, h.of_subset fun r hr => List.mem_of_mem_dropLast hr, rfl⟩

theorem rows_knowsLength (stage : Stage) : KnowsLength SameStageVec.Iter.traits (HasRows stage) := by
  rintro _ rows ⟨h, rfl⟩
  exact SameStageVec.iterLen_ofRows h

end Bellframe
