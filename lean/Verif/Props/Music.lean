import Verif.Proofs.MusicRuns
import Verif.Props.Utils

/-!
# Music regexes (C41–C46, C59–C61)
-/

namespace Bellframe.Props

open Regex

/-- The regex `*1x` used in examples. -/
private def exampleElems : List RegexElem := [.glob, .bell ⟨0⟩, .any]

private theorem exampleElems_normal : (⟨exampleElems⟩ : Regex).Normal :=
  normal_glob_bell (normal_cons_of_ne (by simp) normal_nil)

/-! ## C41 -/

theorem C41_normal (re : Regex) (hn : re.Normal) (r : Row) (hr : r.Valid) :
    ∃ v, re.matches_ r = .ok v ∧ (v = true ↔ Lang re.elems r.bells) := by
  obtain ⟨v, out, h1, h2, _⟩ := runMatch_spec re hn r hr.nodup
  exact ⟨v, by simp [Regex.matches_, h1], h2⟩

example : (⟨exampleElems⟩ : Regex).Normal ∧ (⟨[⟨2⟩, ⟨0⟩, ⟨1⟩]⟩ : Row).Valid ∧
    (⟨exampleElems⟩ : Regex).matches_ ⟨[⟨2⟩, ⟨0⟩, ⟨1⟩]⟩ = .ok true :=
  ⟨exampleElems_normal, by decide, by decide⟩

/-- A regex made from any sequence of elements matches exactly the rows which can be cut into pieces
matching the elements in turn.  Neither building it nor matching panics. -/
theorem C41_from_vec (es : List RegexElem) :
    ∃ re, Regex.fromVec es = .ok re ∧ ∀ r : Row, r.Valid →
      ∃ v, re.matches_ r = .ok v ∧ (v = true ↔ Lang es r.bells) := by
  refine ⟨_, normalise_eq ⟨es⟩, fun r hr => ?_⟩
  obtain ⟨v, h1, h2⟩ := C41_normal _ (normal_normAux es 0 false) r hr
  refine ⟨v, h1, h2.trans ?_⟩
  simpa [pending] using lang_normAux es 0 false r.bells

example : Regex.fromVec [.glob, .any, .bell ⟨0⟩] = .ok ⟨[.any, .glob, .bell ⟨0⟩]⟩ := by decide

/-- A parsed regex matches exactly the rows in the language of the elements written; other characters
are ignored.  Neither parsing nor matching panics. -/
theorem C41_parse (s : List Char) :
    ∃ es, RegexText s es ∧ ∃ re, Regex.parse s = .ok re ∧ ∀ r : Row, r.Valid →
      ∃ v, re.matches_ r = .ok v ∧ (v = true ↔ Lang es r.bells) := by
  refine ⟨s.filterMap Regex.parseChar, ?_, C41_from_vec _⟩
  induction s with
  | nil => exact .nil
  | cons c s ih =>
    rw [List.filterMap_cons]
    cases h : Regex.parseChar c with
    | none =>
      refine .skip (fun e he => ?_) ih
      rw [(parseChar_some c e).2 he] at h
      simp at h
    | some e => exact .char ((parseChar_some c e).1 h) ih

/-- A text stands for one sequence of elements only. -/
theorem C41_text_unique (s : List Char) (es fs : List RegexElem) (he : RegexText s es)
    (hf : RegexText s fs) : es = fs := by
  have key : ∀ (s : List Char) (es : List RegexElem), RegexText s es →
      es = s.filterMap Regex.parseChar := by
    intro s es h
    induction h with
    | nil => rfl
    | char hc _ ih => rw [List.filterMap_cons, (parseChar_some _ _).2 hc, ← ih]
    | @skip c s es hc _ ih =>
      have : Regex.parseChar c = none := by
        cases h : Regex.parseChar c with
        | none => rfl
        | some e => exact absurd ((parseChar_some c e).1 h) (hc e)
      rw [List.filterMap_cons, this, ← ih]
  rw [key s es he, key s fs hf]

example : RegexText ['*', '1', ' ', 'x'] [.glob, .bell ⟨0⟩, .any] :=
  .char .glob (.char (.bell (by decide)) (.skip (fun e he => by
    rw [← parseChar_some] at he; revert he; rw [show Regex.parseChar ' ' = none from by decide]; simp)
    (.char .wildX .nil)))

/-! ## C42 -/

/-- Normalisation never panics, keeps the language, gives a normal regex, and does nothing the second
time. -/
theorem C42_normalise (re : Regex) :
    ∃ re', re.normalise = .ok re' ∧ (∀ bs, Lang re'.elems bs ↔ Lang re.elems bs) ∧ re'.Normal ∧
      re'.normalise = .ok re' := by
  refine ⟨_, normalise_eq re, fun bs => ?_, normal_normAux _ _ _, ?_⟩
  · simpa [pending] using lang_normAux re.elems 0 false bs
  · rw [normalise_eq, normAux_of_normal _ _ (normal_normAux _ _ _)]
    simp

example : (⟨[.glob, .any, .glob, .any, .bell ⟨3⟩, .glob, .glob]⟩ : Regex).normalise =
    .ok ⟨[.any, .any, .glob, .bell ⟨3⟩, .glob]⟩ := by decide

/-- Normal regexes are left alone. -/
theorem C42_normal_unchanged (re : Regex) (hn : re.Normal) : re.normalise = .ok re := by
  rw [normalise_eq, normAux_of_normal _ _ hn]
  simp

example : (⟨exampleElems⟩ : Regex).Normal := exampleElems_normal

/-- Normalisation keeps the bells, in order, and the number of wildcards, and adds no globs. -/
theorem C42_keeps (re re' : Regex) (h : re.normalise = .ok re') :
    bellsNamed re'.elems = bellsNamed re.elems ∧ re'.elems.count .any = re.elems.count .any ∧
      re'.elems.count .glob ≤ re.elems.count .glob := by
  rw [normalise_eq] at h
  have h := (Except.ok.inj h).symm
  subst h
  have key : ∀ (es : List RegexElem) (k : Nat) (g : Bool),
      bellsNamed (normAux k g es) = bellsNamed es ∧
      (normAux k g es).count .any = k + es.count .any ∧
      (normAux k g es).count .glob ≤ (if g then 1 else 0) + es.count .glob := by
    intro es
    induction es with
    | nil =>
      intro k g
      cases g <;> simp [normAux, bellsNamed_append, bellsNamed_replicate_any, List.count_replicate,
        bellsNamed]
    | cons e es ih =>
      intro k g
      cases e with
      | bell b =>
        obtain ⟨h1, h2, h3⟩ := ih 0 false
        simp only [Bool.false_eq_true, if_false] at h3
        cases g <;> simp [normAux, bellsNamed_append, bellsNamed_replicate_any, List.count_replicate,
          bellsNamed, h1, h2] <;> omega
      | any =>
        obtain ⟨h1, h2, h3⟩ := ih (k + 1) g
        refine ⟨h1, ?_, ?_⟩
        · rw [normAux, h2]; simp; omega
        · rw [normAux]; simpa using h3
      | glob =>
        obtain ⟨h1, h2, h3⟩ := ih k true
        refine ⟨h1, by rw [normAux, h2]; simp, ?_⟩
        rw [normAux]
        simp only [if_true] at h3
        cases g <;> simp <;> omega
  obtain ⟨h1, h2, h3⟩ := key re.elems 0 false
  exact ⟨h1, by simpa using h2, by simpa using h3⟩

example := C42_keeps ⟨[.glob, .any, .glob, .any, .bell ⟨3⟩, .glob, .glob]⟩ _ rfl

/-! ## C43 -/

/-- `match_pattern` never panics on a normal regex.  It is `None` exactly when the row does not match;
otherwise it gives, in ascending order, exactly the places of the bells named by the regex. -/
theorem C43_match_pattern (re : Regex) (hn : re.Normal) (r : Row) (hr : r.Valid) :
    ∃ o, re.matchPattern r = .ok o ∧ (o = none ↔ ¬ Lang re.elems r.bells) ∧
      ∀ ps, o = some ps → ps.Pairwise (· < ·) ∧
        ∀ i, i ∈ ps ↔ ∃ b, RegexElem.bell b ∈ re.elems ∧ r.bells[i]? = some b := by
  obtain ⟨v, out, h1, h2, h3⟩ := runMatch_spec re hn r hr.nodup
  cases v with
  | false =>
    refine ⟨none, by simp [Regex.matchPattern, h1], ?_, by simp⟩
    simp only [true_iff]
    exact fun h => by simpa using h2.2 h
  | true =>
    refine ⟨some out, by simp [Regex.matchPattern, h1], ?_, ?_⟩
    · simp only [reduceCtorEq, false_iff, not_not]
      exact h2.1 rfl
    · intro ps hps
      cases hps
      rw [h3 rfl]
      unfold named
      constructor
      · have : (r.bells.zipIdx.map Prod.snd).Pairwise (· < ·) := by
          rw [List.zipIdx_map_snd]
          exact List.pairwise_lt_range'
        exact this.sublist (List.filter_sublist.map _)
      · intro i
        simp only [List.mem_map, List.mem_filter, decide_eq_true_eq]
        constructor
        · rintro ⟨⟨b, j⟩, ⟨hmem, hb⟩, rfl⟩
          rw [List.mem_zipIdx_iff_getElem?] at hmem
          exact ⟨b, hb, by simpa using hmem⟩
        · rintro ⟨b, hb, hi⟩
          refine ⟨(b, i), ⟨?_, hb⟩, rfl⟩
          rw [List.mem_zipIdx_iff_getElem?]
          simpa using hi

example : (⟨[.glob, .bell ⟨0⟩, .any, .bell ⟨3⟩]⟩ : Regex).matchPattern ⟨[⟨2⟩, ⟨0⟩, ⟨1⟩, ⟨3⟩]⟩ =
    .ok (some [1, 3]) := by decide

/-! ## C44 -/

/-- Some regex of the list matches the row. -/
def SomeMatches (res : List Regex) (r : Row) : Prop := ∃ re ∈ res, re.matches_ r = .ok true

/-- No regex of the list panics on the row. -/
def NonePanics (res : List Regex) (r : Row) : Prop := ∀ re ∈ res, ∃ v, re.matches_ r = .ok v

theorem matches_true_iff (re : Regex) (hn : re.Normal) (r : Row) (hr : r.Valid) :
    re.matches_ r = .ok true ↔ Lang re.elems r.bells := by
  obtain ⟨v, h1, h2⟩ := C41_normal re hn r hr
  rw [h1, ← h2]
  simp

theorem someMatches_iff {res : List Regex} (h : ∀ re ∈ res, re.Normal) (r : Row) (hr : r.Valid) :
    NonePanics res r ∧ (SomeMatches res r ↔ ∃ re ∈ res, Lang re.elems r.bells) := by
  constructor
  · intro re hre
    obtain ⟨v, h1, _⟩ := C41_normal re (h re hre) r hr
    exact ⟨v, h1⟩
  · unfold SomeMatches
    constructor
    · rintro ⟨re, hre, hm⟩
      exact ⟨re, hre, (matches_true_iff re (h re hre) r hr).1 hm⟩
    · rintro ⟨re, hre, hm⟩
      exact ⟨re, hre, (matches_true_iff re (h re hre) r hr).2 hm⟩

/-- `runs_front(stage, len)` matches exactly the rows which start with a run of `len` bells. -/
theorem C44_runs_front (s : Stage) (len : Nat) (r : Row) (hr : r.Valid)
    (hs : r.bells.length = s.numBells) :
    NonePanics (runsFront s len) r ∧ (SomeMatches (runsFront s len) r ↔ RunAt r 0 len) := by
  have hmem := mem_runs_iff (fun b => ⟨runElems b len ++ [.glob]⟩)
    (fun b => ⟨(runElems b len).reverse ++ [.glob]⟩) s.numBells len
  have hnormal : ∀ re ∈ runsFront s len, re.Normal := by
    intro re hre
    obtain ⟨b, _, rfl | rfl⟩ := (hmem re).1 hre
    · exact normal_bells _ normal_glob_nil
    · rw [runElems_eq, ← List.map_reverse]
      exact normal_bells _ normal_glob_nil
  obtain ⟨h1, h2⟩ := someMatches_iff hnormal r hr
  refine ⟨h1, h2.trans ?_⟩
  rw [runAt_iff r hr, hs]
  have hrev : ∀ b, (runElems b len).reverse = (ascending b len).reverse.map RegexElem.bell := by
    intro b; rw [runElems_eq, List.map_reverse]
  constructor
  · rintro ⟨re, hre, hl⟩
    obtain ⟨b, hb, rfl | rfl⟩ := (hmem re).1 hre
    · rw [runElems_eq, lang_bells] at hl
      obtain ⟨rest, he, _⟩ := hl
      exact ⟨b, hb, [], rest, rfl, .inl he⟩
    · rw [hrev, lang_bells] at hl
      obtain ⟨rest, he, _⟩ := hl
      exact ⟨b, hb, [], rest, rfl, .inr he⟩
  · rintro ⟨b, hb, pre, post, hp, he⟩
    have : pre = [] := List.length_eq_zero_iff.1 hp
    subst this
    rcases he with he | he
    · refine ⟨_, (hmem _).2 ⟨b, hb, .inl rfl⟩, ?_⟩
      rw [runElems_eq, lang_bells]
      exact ⟨post, he, lang_glob_end _⟩
    · refine ⟨_, (hmem _).2 ⟨b, hb, .inr rfl⟩, ?_⟩
      rw [hrev, lang_bells]
      exact ⟨post, he, lang_glob_end _⟩

example := C44_runs_front ⟨5⟩ 3 ⟨[⟨3⟩, ⟨2⟩, ⟨1⟩, ⟨4⟩, ⟨0⟩]⟩ (by decide) rfl

/-- `runs_back(stage, len)` matches exactly the rows which end with a run of `len` bells. -/
theorem C44_runs_back (s : Stage) (len : Nat) (r : Row) (hr : r.Valid)
    (hs : r.bells.length = s.numBells) :
    NonePanics (runsBack s len) r ∧
      (SomeMatches (runsBack s len) r ↔ RunAt r (s.numBells - len) len) := by
  have hmem := mem_runs_iff (fun b => ⟨[.glob] ++ runElems b len⟩)
    (fun b => ⟨[.glob] ++ (runElems b len).reverse⟩) s.numBells len
  have hng : ∀ ds : List Bell, (⟨[.glob] ++ ds.map RegexElem.bell⟩ : Regex).Normal := by
    intro ds
    cases ds with
    | nil => exact normal_glob_nil
    | cons d ds =>
      refine normal_glob_bell ?_
      have := normal_bells ds normal_nil
      rwa [List.append_nil] at this
  have hrev : ∀ b, (runElems b len).reverse = (ascending b len).reverse.map RegexElem.bell := by
    intro b; rw [runElems_eq, List.map_reverse]
  have hnormal : ∀ re ∈ runsBack s len, re.Normal := by
    intro re hre
    obtain ⟨b, _, rfl | rfl⟩ := (hmem re).1 hre
    · exact hng _
    · simp only [hrev]
      exact hng _
  obtain ⟨h1, h2⟩ := someMatches_iff hnormal r hr
  refine ⟨h1, h2.trans ?_⟩
  rw [runAt_iff r hr, hs]
  have hlang : ∀ ds : List Bell, ds.length = len →
      (Lang ([.glob] ++ ds.map RegexElem.bell) r.bells ↔
        len ≤ s.numBells ∧ ∃ pre post, pre.length = s.numBells - len ∧ r.bells = pre ++ (ds ++ post)) := by
    intro ds hds
    have := lang_bells ds []
    simp only [List.append_nil] at this
    simp only [List.singleton_append, Lang, this]
    constructor
    · rintro ⟨sk, _, he, rest, rfl, rfl⟩
      have hlen := congrArg List.length he
      simp at hlen
      exact ⟨by omega, sk, [], by omega, he⟩
    · rintro ⟨hle, pre, post, hp, he⟩
      have hlen := congrArg List.length he
      simp at hlen
      have : post = [] := List.length_eq_zero_iff.1 (by omega)
      subst this
      exact ⟨pre, ds ++ [], he, [], rfl, rfl⟩
  constructor
  · rintro ⟨re, hre, hl⟩
    obtain ⟨b, hb, rfl | rfl⟩ := (hmem re).1 hre
    · simp only [runElems_eq] at hl
      rw [hlang _ (ascending_length b len)] at hl
      obtain ⟨_, pre, post, hp, he⟩ := hl
      exact ⟨b, hb, pre, post, hp, .inl he⟩
    · simp only [hrev] at hl
      rw [hlang _ (by rw [List.length_reverse, ascending_length])] at hl
      obtain ⟨_, pre, post, hp, he⟩ := hl
      exact ⟨b, hb, pre, post, hp, .inr he⟩
  · rintro ⟨b, hb, pre, post, hp, he | he⟩
    · refine ⟨_, (hmem _).2 ⟨b, hb, .inl rfl⟩, ?_⟩
      simp only [runElems_eq]
      rw [hlang _ (ascending_length b len)]
      exact ⟨by omega, pre, post, hp, he⟩
    · refine ⟨_, (hmem _).2 ⟨b, hb, .inr rfl⟩, ?_⟩
      simp only [hrev]
      rw [hlang _ (by rw [List.length_reverse, ascending_length])]
      exact ⟨by omega, pre, post, hp, he⟩

example := C44_runs_back ⟨5⟩ 3 ⟨[⟨0⟩, ⟨4⟩, ⟨1⟩, ⟨2⟩, ⟨3⟩]⟩ (by decide) rfl

/-- `runs_front_or_back(stage, len)` and `runs(stage, len, false)` match exactly the rows which start or
end with a run of `len` bells. -/
theorem C44_runs_front_or_back (s : Stage) (len : Nat) (r : Row) (hr : r.Valid)
    (hs : r.bells.length = s.numBells) :
    NonePanics (runsFrontOrBack s len) r ∧
    (SomeMatches (runsFrontOrBack s len) r ↔ RunAt r 0 len ∨ RunAt r (s.numBells - len) len) ∧
    runs s len false = runsFrontOrBack s len := by
  obtain ⟨f1, f2⟩ := C44_runs_front s len r hr hs
  obtain ⟨b1, b2⟩ := C44_runs_back s len r hr hs
  refine ⟨?_, ?_, rfl⟩
  · intro re hre
    rcases List.mem_append.1 hre with h | h
    · exact f1 re h
    · exact b1 re h
  · rw [← f2, ← b2]
    unfold SomeMatches runsFrontOrBack
    constructor
    · rintro ⟨re, hre, h⟩
      rcases List.mem_append.1 hre with h' | h'
      · exact .inl ⟨re, h', h⟩
      · exact .inr ⟨re, h', h⟩
    · rintro (⟨re, h', h⟩ | ⟨re, h', h⟩)
      · exact ⟨re, List.mem_append_left _ h', h⟩
      · exact ⟨re, List.mem_append_right _ h', h⟩

example := C44_runs_front_or_back ⟨5⟩ 3 ⟨[⟨0⟩, ⟨4⟩, ⟨1⟩, ⟨2⟩, ⟨3⟩]⟩ (by decide) rfl

/-- `all_runs(stage, len)` and `runs(stage, len, true)` match exactly the rows with a run of `len` bells
anywhere, if `len` is not 0.  (Missing: `len = 0`, where matching panics.) -/
theorem C44_all_runs_partial (s : Stage) (len : Nat) (hlen : 0 < len) (r : Row) (hr : r.Valid)
    (hs : r.bells.length = s.numBells) :
    NonePanics (allRuns s len) r ∧ (SomeMatches (allRuns s len) r ↔ ∃ p, RunAt r p len) ∧
      runs s len true = allRuns s len := by
  have hmem := mem_runs_iff (fun b => ⟨[.glob] ++ runElems b len ++ [.glob]⟩)
    (fun b => ⟨[.glob] ++ (runElems b len).reverse ++ [.glob]⟩) s.numBells len
  have hrev : ∀ b, (runElems b len).reverse = (ascending b len).reverse.map RegexElem.bell := by
    intro b; rw [runElems_eq, List.map_reverse]
  have hng : ∀ ds : List Bell, ds.length = len →
      (⟨[.glob] ++ ds.map RegexElem.bell ++ [.glob]⟩ : Regex).Normal := by
    intro ds hds
    cases ds with
    | nil => simp at hds; omega
    | cons d ds => exact normal_glob_bell (normal_bells ds normal_glob_nil)
  have hnormal : ∀ re ∈ allRuns s len, re.Normal := by
    intro re hre
    obtain ⟨b, _, rfl | rfl⟩ := (hmem re).1 hre
    · exact hng _ (ascending_length b len)
    · simp only [hrev]
      exact hng _ (by rw [List.length_reverse, ascending_length])
  obtain ⟨h1, h2⟩ := someMatches_iff hnormal r hr
  refine ⟨h1, h2.trans ?_, rfl⟩
  have hlang : ∀ ds : List Bell, (Lang ([.glob] ++ ds.map RegexElem.bell ++ [.glob]) r.bells ↔
        ∃ pre post, r.bells = pre ++ (ds ++ post)) := by
    intro ds
    simp only [List.cons_append, List.nil_append, Lang, lang_bells]
    constructor
    · rintro ⟨sk, _, he, rest, rfl, _⟩
      exact ⟨sk, rest, he⟩
    · rintro ⟨pre, post, he⟩
      exact ⟨pre, _, he, post, rfl, post, [], by simp, rfl⟩
  constructor
  · rintro ⟨re, hre, hl⟩
    obtain ⟨b, hb, rfl | rfl⟩ := (hmem re).1 hre
    · simp only [runElems_eq] at hl
      rw [hlang] at hl
      obtain ⟨pre, post, he⟩ := hl
      exact ⟨pre.length, (runAt_iff r hr _ _).2 ⟨b, by omega, pre, post, rfl, .inl he⟩⟩
    · simp only [hrev] at hl
      rw [hlang] at hl
      obtain ⟨pre, post, he⟩ := hl
      exact ⟨pre.length, (runAt_iff r hr _ _).2 ⟨b, by omega, pre, post, rfl, .inr he⟩⟩
  · rintro ⟨p, hp⟩
    obtain ⟨b, hb, pre, post, _, he | he⟩ := (runAt_iff r hr _ _).1 hp
    · refine ⟨_, (hmem _).2 ⟨b, by omega, .inl rfl⟩, ?_⟩
      simp only [runElems_eq]
      rw [hlang]
      exact ⟨pre, post, he⟩
    · refine ⟨_, (hmem _).2 ⟨b, by omega, .inr rfl⟩, ?_⟩
      simp only [hrev]
      rw [hlang]
      exact ⟨pre, post, he⟩

example : SomeMatches (runsFront ⟨5⟩ 3) ⟨[⟨3⟩, ⟨2⟩, ⟨1⟩, ⟨4⟩, ⟨0⟩]⟩ ∧
    ¬ SomeMatches (runsFront ⟨5⟩ 4) ⟨[⟨3⟩, ⟨2⟩, ⟨1⟩, ⟨4⟩, ⟨0⟩]⟩ := by
  unfold SomeMatches
  decide

/-- The regexes of `all_runs(stage, 0)` are not normal, and matching any row with them panics. -/
theorem C44_all_runs_zero_false (s : Stage) :
    (allRuns s 0 ≠ []) ∧ ∀ re ∈ allRuns s 0, ∀ r : Row, re.matches_ r = .error .unreachable := by
  have hmem := mem_runs_iff (fun b => ⟨[.glob] ++ runElems b 0 ++ [.glob]⟩)
    (fun b => ⟨[.glob] ++ (runElems b 0).reverse ++ [.glob]⟩) s.numBells 0
  constructor
  · intro h
    have := (hmem _).2 ⟨0, by omega, .inl rfl⟩
    unfold allRuns at h
    rw [h] at this
    simp at this
  · intro re hre r
    obtain ⟨b, _, rfl | rfl⟩ := (hmem re).1 hre <;> rfl

/-! ## C45 -/

/-- The number of rows that match a normal regex: none if a bell is named twice or outside the stage,
otherwise as given by `expectedCount`. -/
theorem C45_count (re : Regex) (hn : re.Normal) (n : Nat) (h0 : 0 < n) :
    ((bellsNamed re.elems).Nodup → (∀ b ∈ bellsNamed re.elems, b.index < n) →
      numRowsMatching re n =
        expectedCount (n - (bellsNamed re.elems).length) (re.elems.count .any) (re.elems.count .glob)) ∧
    (¬ ((bellsNamed re.elems).Nodup ∧ ∀ b ∈ bellsNamed re.elems, b.index < n) →
      numRowsMatching re n = 0) :=
  ⟨fun h1 h2 => card_lang h0 _ re.elems rfl hn h1 h2, fun h => card_lang_zero _ h⟩

/-- `*1x` on four bells is matched by six rows. -/
example : numRowsMatching ⟨exampleElems⟩ 4 = 6 := by
  rw [(C45_count ⟨exampleElems⟩ exampleElems_normal 4 (by decide)).1 (by decide) (by decide)]
  decide

/-- The value computed for a regex with `u` bells of the stage not named, `w` wildcards and `g` globs,
when all intermediate results fit into a `usize`: `C(u, w) (u - w + (w - 1))! / (g - 1)!`, where `0 - 1`
counts as 0. -/
theorem C45_computed (max : Nat) (re : Regex) (s : Stage) (u w g : Nat)
    (hu : u + (bellsNamed re.elems).length = s.numBells) (hw : re.elems.count .any = w)
    (hg : re.elems.count .glob = g) (hwu : w ≤ u)
    (f1 : u.descFactorial (min w (u - w)) ≤ max) (f2 : (u - w + (w - 1)).factorial ≤ max)
    (f3 : (g - 1).factorial ≤ max)
    (f4 : u.choose w * ((u - w + (w - 1)).factorial / (g - 1).factorial) ≤ max) :
    re.numMatchingRows max s =
      .ok (some (u.choose w * ((u - w + (w - 1)).factorial / (g - 1).factorial))) := by
  have hmax : 0 < max := Nat.lt_of_lt_of_le (Nat.factorial_pos _) f2
  unfold numMatchingRows
  rw [countElems_eq _ _ _ _ (by omega)]
  have hu' : s.numBells - (bellsNamed re.elems).length = u := by omega
  have hs : checkedSub u w = .ok (u - w) := if_pos hwu
  simp only [Res.ok_bind, Nat.zero_add, hw, hg, hu', Props.C47_choice max u w hwu hmax, if_pos f1, hs,
    checkedFactorial_eq, if_pos f2, if_pos f3, if_pos f4, Res.pure_eq]

example := C45_computed (2 ^ 64 - 1) ⟨[.any, .glob, .bell ⟨4⟩, .bell ⟨5⟩]⟩ ⟨6⟩ 4 1 1 rfl rfl rfl (by decide)
  (by decide) (by decide) (by decide) (by decide)

/-- The count is right for a regex with exactly one glob and at most one wildcard, whose bells are
distinct and in the stage and leave room for the wildcard, if the count fits into a `usize`.  (Missing:
all other regexes, on which it may be wrong or panic.) -/
theorem C45_count_partial (max : Nat) (re : Regex) (hn : re.Normal) (s : Stage) (hs : s.Valid)
    (hnd : (bellsNamed re.elems).Nodup) (hlt : ∀ b ∈ bellsNamed re.elems, b.index < s.numBells)
    (hg : re.elems.count .glob = 1) (hw : re.elems.count .any ≤ 1)
    (hroom : (bellsNamed re.elems).length + re.elems.count .any ≤ s.numBells)
    (hfit : (s.numBells - (bellsNamed re.elems).length).factorial ≤ max) :
    re.numMatchingRows max s = .ok (some (numRowsMatching re s.numBells)) := by
  rw [(C45_count re hn s.numBells hs).1 hnd hlt, hg]
  generalize hu : s.numBells - (bellsNamed re.elems).length = u at *
  generalize hw' : re.elems.count .any = w at *
  have h0 : w = 0 ∨ w = 1 := by omega
  have hle : ∀ k, k ≤ u → k.factorial ≤ max := fun k hk => (Nat.factorial_le hk).trans hfit
  have hmax : 1 ≤ max := by simpa using hle 0 (by omega)
  have hval : u.choose w * ((u - w + (w - 1)).factorial / (1 - 1).factorial) = u.factorial := by
    rcases h0 with rfl | rfl
    · simp
    · obtain ⟨k, rfl⟩ : ∃ k, u = k + 1 := ⟨u - 1, by omega⟩
      simp [Nat.factorial_succ]
  have hexp : expectedCount u w 1 = u.factorial := by
    have : w ≤ u := by omega
    simp [expectedCount, this]
  rw [hexp, ← hval]
  apply C45_computed max re s u w 1 (by omega) hw' hg (by omega)
  · rcases h0 with rfl | rfl
    · simpa using hmax
    · have h1 : u.descFactorial (min 1 (u - 1)) ≤ u.descFactorial u := by
        rw [Nat.descFactorial_self]
        by_cases hu1 : 1 ≤ u - 1
        · rw [Nat.min_eq_left hu1, Nat.descFactorial_one]
          exact Nat.self_le_factorial u
        · rw [Nat.min_eq_right (by omega), show u - 1 = 0 from by omega]
          simp
          exact Nat.factorial_pos u
      rw [Nat.descFactorial_self] at h1
      exact h1.trans hfit
  · exact hle _ (by omega)
  · simpa using hmax
  · rw [hval]
    exact hfit

example : (⟨[.any, .glob, .bell ⟨4⟩, .bell ⟨5⟩]⟩ : Regex).numMatchingRows (2 ^ 64 - 1) ⟨6⟩ =
    .ok (some 24) := by decide

/-- On a 64-bit machine the count is wrong: too low for two wildcards (`xx` on two bells), for four
wildcards (`xxxx5678` on eight bells) and for two globs (`*1*` on two bells), and too high for a bell
named twice (`11` on two bells). -/
theorem C45_count_false :
    ((⟨[.any, .any]⟩ : Regex).numMatchingRows (2 ^ 64 - 1) ⟨2⟩ = .ok (some 1) ∧
      numRowsMatching ⟨[.any, .any]⟩ 2 = 2) ∧
    ((⟨[.any, .any, .any, .any, .bell ⟨4⟩, .bell ⟨5⟩, .bell ⟨6⟩, .bell ⟨7⟩]⟩ : Regex).numMatchingRows
        (2 ^ 64 - 1) ⟨8⟩ = .ok (some 6) ∧
      numRowsMatching
        ⟨[.any, .any, .any, .any, .bell ⟨4⟩, .bell ⟨5⟩, .bell ⟨6⟩, .bell ⟨7⟩]⟩ 8 = 24) ∧
    ((⟨[.glob, .bell ⟨0⟩, .glob]⟩ : Regex).numMatchingRows (2 ^ 64 - 1) ⟨2⟩ = .ok (some 1) ∧
      numRowsMatching ⟨[.glob, .bell ⟨0⟩, .glob]⟩ 2 = 2) ∧
    ((⟨[.bell ⟨0⟩, .bell ⟨0⟩]⟩ : Regex).numMatchingRows (2 ^ 64 - 1) ⟨2⟩ = .ok (some 1) ∧
      numRowsMatching ⟨[.bell ⟨0⟩, .bell ⟨0⟩]⟩ 2 = 0) := by
  refine ⟨⟨by decide, ?_⟩, ⟨by decide, ?_⟩, ⟨by decide, ?_⟩, ⟨by decide, ?_⟩⟩
  · rw [(C45_count ⟨[.any, .any]⟩ (normal_any_append 2 normal_nil) 2 (by decide)).1 (by decide)
      (by decide)]
    decide
  · rw [(C45_count ⟨[.any, .any, .any, .any, .bell ⟨4⟩, .bell ⟨5⟩, .bell ⟨6⟩, .bell ⟨7⟩]⟩
      (by
        have := normal_prepend (ps := [.any, .any, .any, .any, .bell ⟨4⟩, .bell ⟨5⟩, .bell ⟨6⟩,
          .bell ⟨7⟩]) (by decide) normal_nil
        simpa using this) 8 (by decide)).1 (by decide) (by decide)]
    decide
  · rw [(C45_count ⟨[.glob, .bell ⟨0⟩, .glob]⟩ (normal_glob_bell normal_glob_nil) 2 (by decide)).1
      (by decide) (by decide)]
    decide
  · exact (C45_count ⟨[.bell ⟨0⟩, .bell ⟨0⟩]⟩ (by
      have := normal_prepend (ps := [.bell ⟨0⟩, .bell ⟨0⟩]) (by decide) normal_nil
      simpa using this) 2 (by decide)).2 (by decide)

/-- With overflow checks, counting panics if more bells are named than the stage has, or fewer bells are
left than there are wildcards; on a 64-bit machine also for `x*` on 21 bells, where the last product
overflows (the documentation promises `None`). -/
theorem C45_panics :
    (∀ (max : Nat) (re : Regex) (s : Stage), s.numBells < (bellsNamed re.elems).length →
      re.numMatchingRows max s = .error .overflow) ∧
    (∀ (max : Nat) (re : Regex) (s : Stage), (bellsNamed re.elems).length ≤ s.numBells →
      s.numBells < (bellsNamed re.elems).length + re.elems.count .any →
      re.numMatchingRows max s = .error .overflow) ∧
    (⟨[.any, .glob]⟩ : Regex).numMatchingRows (2 ^ 64 - 1) ⟨21⟩ = .error .overflow := by
  refine ⟨fun max re s h => ?_, fun max re s h1 h2 => ?_, by decide +kernel⟩
  · unfold numMatchingRows
    rw [countElems_underflow _ _ _ _ h]
    rfl
  · unfold numMatchingRows
    rw [countElems_eq _ _ _ _ h1]
    simp only [Res.ok_bind, Nat.zero_add]
    rw [Props.C47_choice_underflow _ _ _ (by omega)]
    rfl

/-- The answer in all cases: a panic if more bells are named than there are, or more places are left open than
bells are left; otherwise `None` if one of the falling factorial inside the binomial coefficient and the two
factorials is too large for a `usize`; otherwise the number, or a panic if this is too large. -/
theorem C45_computed_exact (max : Nat) (hmax : 0 < max) (re : Regex) (s : Stage) :
    let named := (bellsNamed re.elems).length
    let w := re.elems.count .any
    let g := re.elems.count .glob
    let u := s.numBells - named
    let value := u.choose w * ((u - w + (w - 1)).factorial / (g - 1).factorial)
    re.numMatchingRows max s =
      if s.numBells < named + w then .error .overflow
      else if max < u.descFactorial (min w (u - w)) ∨ max < (u - w + (w - 1)).factorial ∨
        max < (g - 1).factorial then .ok none
      else if value ≤ max then .ok (some value) else .error .overflow := by
  intro named w g u value
  by_cases h1 : s.numBells < named + w
  · rw [if_pos h1]
    by_cases h2 : s.numBells < named
    · exact C45_panics.1 max re s h2
    · exact C45_panics.2.1 max re s (by omega) h1
  rw [if_neg h1]
  have hs : checkedSub u w = .ok (u - w) := if_pos (by omega)
  unfold numMatchingRows
  rw [countElems_eq _ _ _ _ (show named ≤ _ by omega)]
  have hw : re.elems.count .any = w := rfl
  have hg : re.elems.count .glob = g := rfl
  have hu : s.numBells - (bellsNamed re.elems).length = u := rfl
  have hwu : w ≤ u := by omega
  have hv : value = u.choose w * ((u - w + (w - 1)).factorial / (g - 1).factorial) := rfl
  clear_value value u w g
  subst hv
  simp only [Res.ok_bind, Nat.zero_add, hw, hg, hu, Props.C47_choice max u w hwu hmax]
  by_cases f1 : u.descFactorial (min w (u - w)) ≤ max
  · simp only [if_pos f1, hs, Res.ok_bind, checkedFactorial_eq]
    by_cases f2 : (u - w + (w - 1)).factorial ≤ max
    · simp only [if_pos f2]
      by_cases f3 : (g - 1).factorial ≤ max
      · simp only [if_pos f3]
        rw [if_neg (show ¬ (max < u.descFactorial (min w (u - w)) ∨ max < (u - w + (w - 1)).factorial ∨
          max < (g - 1).factorial) by omega)]
        rfl
      · simp only [if_neg f3]
        rw [if_pos (by omega)]
        rfl
    · simp only [if_neg f2]
      rw [if_pos (by omega)]
      rfl
  · simp only [if_neg f1]
    rw [if_pos (by omega)]
    rfl

example : (⟨[.bell ⟨0⟩, .bell ⟨1⟩, .any]⟩ : Regex).numMatchingRows (2 ^ 64 - 1) ⟨2⟩ =
    .error .overflow := by decide

/-- Between the second and the last but one, binomial coefficients are larger than the row they are in. -/
theorem lt_choose_of_mid {u w : Nat} (h2 : 2 ≤ w) (hw : w + 2 ≤ u) : u < u.choose w := by
  induction u generalizing w with
  | zero => omega
  | succ u ih =>
    obtain ⟨k, rfl⟩ : ∃ k, w = k + 1 := ⟨w - 1, by omega⟩
    rw [Nat.choose_succ_succ']
    by_cases h : k + 1 + 2 ≤ u
    · have h1 := ih h2 h
      have h3 : 0 < u.choose k := Nat.choose_pos (by omega)
      omega
    · obtain rfl : u = k + 2 := by omega
      have h3 : (k + 2).choose (k + 1) = k + 2 := Nat.choose_succ_self_right (k + 1)
      have h4 : (k + 2).choose k = (k + 2).choose 2 := by
        rw [← Nat.choose_symm (show 2 ≤ k + 2 by omega)]
        rfl
      have h5 : 2 ≤ (k + 2).choose 2 := by
        rw [Nat.choose_succ_succ', Nat.choose_one_right]
        have : 0 < (k + 1).choose 2 := Nat.choose_pos (by omega)
        omega
      rw [h4, h3]
      omega

/-- With at most one glob, an answer is right exactly when the bells named are distinct and in the stage and,
without a glob, at most one bell is not named (and every place left open is a wildcard), or, with a glob, there
is at most one wildcard or all bells not named but one are on wildcards.  (With several globs it is right only
by accident, as in the last example below.) -/
theorem C45_right_iff (max : Nat) (hmax : 0 < max) (re : Regex) (hn : re.Normal) (s : Stage) (hs : s.Valid)
    (v : Nat) (hv : re.numMatchingRows max s = .ok (some v)) (hg : re.elems.count .glob ≤ 1) :
    let w := re.elems.count .any
    let u := s.numBells - (bellsNamed re.elems).length
    v = numRowsMatching re s.numBells ↔
      (bellsNamed re.elems).Nodup ∧ (∀ b ∈ bellsNamed re.elems, b.index < s.numBells) ∧
        (if re.elems.count .glob = 0 then w = u ∧ u ≤ 1 else w ≤ 1 ∨ w + 1 = u) := by
  intro w u
  rw [C45_computed_exact max hmax re s] at hv
  split at hv
  · cases hv
  rename_i hroom
  split at hv
  · cases hv
  split at hv
  swap
  · cases hv
  have hwu : w ≤ u := by
    show re.elems.count .any ≤ s.numBells - _
    omega
  have hval : v = u.choose w * (u - w + (w - 1)).factorial := by
    injection hv with hv
    injection hv with hv
    rw [← hv]
    have : re.elems.count .glob - 1 = 0 := by omega
    rw [this]
    simp [u, w]
  have hpos : 0 < v := by
    rw [hval]
    exact Nat.mul_pos (Nat.choose_pos hwu) (Nat.factorial_pos _)
  obtain ⟨hc1, hc2⟩ := C45_count re hn s.numBells hs
  by_cases hok : (bellsNamed re.elems).Nodup ∧ ∀ b ∈ bellsNamed re.elems, b.index < s.numBells
  swap
  · rw [hc2 hok]
    constructor
    · intro h; omega
    · intro h; exact absurd ⟨h.1, h.2.1⟩ hok
  rw [hc1 hok.1 hok.2]
  have hshape : ∀ P : Prop, ((bellsNamed re.elems).Nodup ∧
      (∀ b ∈ bellsNamed re.elems, b.index < s.numBells) ∧ P) ↔ P :=
    fun P => ⟨fun h => h.2.2, fun h => ⟨hok.1, hok.2, h⟩⟩
  rw [hshape]
  change v = expectedCount u w _ ↔ _
  clear_value u w
  have hg' : re.elems.count .glob = 0 ∨ re.elems.count .glob = 1 := by omega
  rcases hg' with h | h <;> rw [h]
  · rw [if_pos rfl]
    simp only [expectedCount]
    split
    · rename_i hwu
      subst hwu
      rw [hval, Nat.choose_self, Nat.one_mul, Nat.sub_self, Nat.zero_add]
      rcases w with _ | w
      · simp
      · rw [Nat.add_sub_cancel, Nat.factorial_succ]
        have := Nat.factorial_pos w
        constructor
        · intro h
          refine ⟨rfl, ?_⟩
          by_contra hc
          have : 1 * w.factorial < (w + 1) * w.factorial := Nat.mul_lt_mul_of_pos_right (by omega) this
          omega
        · rintro ⟨_, h⟩
          obtain rfl : w = 0 := by omega
          rfl
    · constructor
      · intro h; omega
      · intro h; exact absurd h.1 (by assumption)
  · rw [if_neg (by decide)]
    simp only [expectedCount, if_pos hwu, Nat.choose_zero_right, Nat.mul_one]
    rcases w with _ | w
    · simp [hval]
    · obtain ⟨u, rfl⟩ : ∃ k, u = k + 1 := ⟨u - 1, by omega⟩
      rw [hval, show u + 1 - (w + 1) + (w + 1 - 1) = u by omega, Nat.factorial_succ]
      have hp := Nat.factorial_pos u
      rw [Nat.mul_left_inj (by omega)]
      constructor
      · intro h
        by_contra hc
        by_cases h2 : w + 1 + 2 ≤ u + 1
        · have := lt_choose_of_mid (show 2 ≤ w + 1 by omega) h2
          omega
        · obtain rfl : w = u := by omega
          rw [Nat.choose_self] at h
          omega
      · rintro (h | h)
        · obtain rfl : w = 0 := by omega
          simp
        · obtain rfl : u = w + 1 := by omega
          exact Nat.choose_succ_self_right (w + 1)
/-- `x*56` and `xxx*56` on six bells are counted rightly, `xx*56` and `xxxx*56` are not. -/
example : ([1, 2, 3, 4].map fun k =>
      (⟨List.replicate k .any ++ [.glob, .bell ⟨4⟩, .bell ⟨5⟩]⟩ : Regex).numMatchingRows (2 ^ 64 - 1) ⟨6⟩) =
    [.ok (some 24), .ok (some 36), .ok (some 24), .ok (some 6)] ∧ ∀ k ≤ 4, expectedCount 4 k 1 = 24 := by
  decide +kernel

/-- `xxxxx*1*` on eight bells is counted rightly, by accident. -/
example : (⟨List.replicate 5 .any ++ [.glob, .bell ⟨0⟩, .glob]⟩ : Regex).numMatchingRows (2 ^ 64 - 1) ⟨8⟩ =
    .ok (some (expectedCount 7 5 2)) := by decide +kernel

/-! ## C46 -/

/-- A mask converted to a regex matches exactly the rows matched by the mask; the conversion does not
panic. -/
theorem C46_mask_regex (m : Mask) :
    ∃ re, Regex.ofMask m = .ok re ∧ re.Normal ∧ (∀ r : Row, Lang re.elems r.bells ↔ m.Matches r) ∧
      ∀ r : Row, r.Valid → ∃ v, re.matches_ r = .ok v ∧ (v = true ↔ m.Matches r) := by
  have hng : RegexElem.glob ∉ m.bells.map elemOfMask := by
    intro h
    obtain ⟨x, _, hx⟩ := List.mem_map.1 h
    cases x <;> simp [elemOfMask] at hx
  have hn : (⟨m.bells.map elemOfMask⟩ : Regex).Normal := by
    have := normal_prepend hng normal_nil
    rwa [List.append_nil] at this
  have hl : ∀ r : Row, Lang (m.bells.map elemOfMask) r.bells ↔ m.Matches r := by
    intro r
    rw [lang_no_glob hng, List.map_map]
    have : (maskOfElem ∘ elemOfMask) = id := by
      funext x
      cases x <;> rfl
    rw [this, List.map_id]
  refine ⟨_, C42_normal_unchanged _ hn, hn, hl, fun r hr => ?_⟩
  obtain ⟨v, h1, h2⟩ := C41_normal _ hn r hr
  exact ⟨v, h1, h2.trans (hl r)⟩

example : Regex.ofMask ⟨[none, some ⟨1⟩, none]⟩ = .ok ⟨[.any, .bell ⟨1⟩, .any]⟩ := by decide

/-! ## C59: text of regexes -/

/-- Writing a normal regex and parsing the text gives the regex back, if all its bells have
one-character names. -/
theorem C59_text_round_trip (re : Regex) (hn : re.Normal)
    (h : ∀ b ∈ bellsNamed re.elems, b.index < 33) : Regex.parse re.display = .ok re := by
  have hname : ∀ i < 33, (Bell.name ⟨i⟩).filterMap Regex.parseChar = [.bell ⟨i⟩] := by decide
  have key : ∀ es : List RegexElem, (∀ b ∈ bellsNamed es, b.index < 33) →
      (es.flatMap displayElem).filterMap Regex.parseChar = es := by
    intro es
    induction es with
    | nil => intro _; rfl
    | cons e es ih =>
      intro h
      rw [List.flatMap_cons, List.filterMap_append]
      cases e with
      | bell b =>
        simp only [bellsNamed, List.mem_cons, forall_eq_or_imp] at h
        rw [ih h.2, displayElem, hname b.index h.1]
        rfl
      | any => rw [ih h]; rfl
      | glob => rw [ih h]; rfl
  unfold Regex.parse Regex.display Regex.fromVec
  rw [key re.elems h]
  exact C42_normal_unchanged re hn

example : (⟨exampleElems⟩ : Regex).display = "*1x".toList ∧
    Regex.parse "*1x".toList = .ok ⟨exampleElems⟩ := by decide

/-! ## C60: counting the rows of a mask -/

/-- A well-formed mask with `k` open places is matched by exactly `k!` rows of its stage. -/
theorem C60_mask_count (m : Mask) (hm : m.WellFormed) :
    Nat.card {σ : Equiv.Perm (Fin m.bells.length) // m.Matches (Row.ofPerm σ)} =
      m.unspecifiedPlaces.length.factorial := by
  rw [Mask.card_matches hm rfl]
  congr 1
  unfold Mask.unspecifiedPlaces
  rw [List.length_map]
  have : ∀ (l : List (Option Bell)) (k : Nat),
      l.count none = ((l.zipIdx k).filter (fun p => p.1.isNone)).length := by
    intro l
    induction l with
    | nil => intro k; rfl
    | cons x l ih =>
      intro k
      rw [List.zipIdx_cons]
      cases x with
      | none => simp [ih (k + 1)]
      | some b => simp [ih (k + 1)]
  exact this _ 0

example : (Mask.empty ⟨3⟩).WellFormed ∧ (Mask.empty ⟨3⟩).unspecifiedPlaces.length = 3 :=
  ⟨(Mask.wellFormed_iff_given _).2 (by decide), by decide⟩

end Bellframe.Props
