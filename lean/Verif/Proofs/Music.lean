import Verif.Spec.Music
import Verif.Proofs.Mask

/-! # Lemmas about music regexes -/

namespace Bellframe

namespace Regex

/-! ### The language -/

theorem lang_cons_congr (e : RegexElem) {es fs : List RegexElem} (h : ∀ bs, Lang es bs ↔ Lang fs bs)
    (bs : List Bell) : Lang (e :: es) bs ↔ Lang (e :: fs) bs := by
  cases e <;> simp only [Lang, h]

theorem lang_append_congr (ps : List RegexElem) {es fs : List RegexElem}
    (h : ∀ bs, Lang es bs ↔ Lang fs bs) : ∀ bs, Lang (ps ++ es) bs ↔ Lang (ps ++ fs) bs := by
  induction ps with
  | nil => exact h
  | cons p ps ih => exact fun bs => lang_cons_congr p ih bs

theorem lang_glob_any (es : List RegexElem) (bs : List Bell) :
    Lang (.glob :: .any :: es) bs ↔ Lang (.any :: .glob :: es) bs := by
  simp only [Lang]
  constructor
  · rintro ⟨sk, rest, rfl, x, rest', rfl, h⟩
    cases sk with
    | nil => exact ⟨x, rest', rfl, [], rest', rfl, h⟩
    | cons y sk => exact ⟨y, sk ++ x :: rest', rfl, sk ++ [x], rest', by simp, h⟩
  · rintro ⟨x, rest, rfl, sk, rest', rfl, h⟩
    rcases List.eq_nil_or_concat sk with rfl | ⟨sk', y, rfl⟩
    · exact ⟨[], x :: rest', rfl, x, rest', rfl, h⟩
    · exact ⟨x :: sk', y :: rest', by simp, y, rest', rfl, h⟩

theorem lang_glob_glob (es : List RegexElem) (bs : List Bell) :
    Lang (.glob :: .glob :: es) bs ↔ Lang (.glob :: es) bs := by
  simp only [Lang]
  constructor
  · rintro ⟨sk, rest, rfl, sk', rest', rfl, h⟩
    exact ⟨sk ++ sk', rest', by simp, h⟩
  · rintro ⟨sk, rest, rfl, h⟩
    exact ⟨sk, rest, rfl, [], rest, rfl, h⟩

theorem lang_mem {es : List RegexElem} : ∀ {bs : List Bell}, Lang es bs → ∀ {b : Bell},
    RegexElem.bell b ∈ es → b ∈ bs := by
  induction es with
  | nil => intro bs _ b hb; simp at hb
  | cons e es ih =>
    intro bs h b hb
    cases e with
    | bell c =>
      obtain ⟨rest, rfl, h⟩ := h
      rcases List.mem_cons.1 hb with hb | hb
      · simp only [RegexElem.bell.injEq] at hb
        simp [hb]
      · exact List.mem_cons_of_mem _ (ih h hb)
    | any =>
      obtain ⟨x, rest, rfl, h⟩ := h
      exact List.mem_cons_of_mem _ (ih h (by simpa using hb))
    | glob =>
      obtain ⟨sk, rest, rfl, h⟩ := h
      exact List.mem_append_right _ (ih h (by simpa using hb))

/-! ### Normalisation -/

/-- What normalisation gives, when `k` wildcards and a glob (if `g`) are pending. -/
def normAux : Nat → Bool → List RegexElem → List RegexElem
  | k, g, [] => List.replicate k .any ++ if g then [.glob] else []
  | k, g, .bell b :: es => List.replicate k .any ++ (if g then [.glob] else []) ++
      .bell b :: normAux 0 false es
  | k, g, .any :: es => normAux (k + 1) g es
  | k, _, .glob :: es => normAux k true es

/-- The pending wildcards and glob. -/
def pending (k : Nat) (g : Bool) : List RegexElem :=
  List.replicate k .any ++ if g then [.glob] else []

theorem normaliseSlice_eq (ws : List RegexElem) (b : Bell) :
    normaliseSlice (ws ++ [.bell b]) =
      .ok (pending (ws.filter isAny).length (ws.contains .glob) ++ [.bell b]) := by
  unfold normaliseSlice pending
  have h1 : (ws ++ [RegexElem.bell b]).length - 1 = ws.length := by simp
  have h2 : (ws ++ [RegexElem.bell b]).isEmpty = false := by cases ws <;> rfl
  rw [h1, h2]
  simp

theorem normaliseLoop_append : ∀ (ss : List (List RegexElem)) (out : List RegexElem),
    normaliseLoop ss out = (normaliseLoop ss []).map (out ++ ·)
  | [], out => by simp [normaliseLoop, Except.map]
  | s :: ss, out => by
    simp only [normaliseLoop]
    cases normaliseSlice s with
    | error e => rfl
    | ok p =>
      simp only [Res.ok_bind]
      rw [normaliseLoop_append ss (out ++ p), normaliseLoop_append ss ([] ++ p)]
      cases normaliseLoop ss [] <;> simp [Except.map]

theorem splitInclusive_bell : ∀ (ws : List RegexElem) (b : Bell) (es : List RegexElem),
    (∀ w ∈ ws, isBell w = false) →
    splitInclusive isBell (ws ++ .bell b :: es) = (ws ++ [.bell b]) :: splitInclusive isBell es
  | [], b, es, _ => by simp [splitInclusive, isBell]
  | w :: ws, b, es, h => by
    rw [List.cons_append, splitInclusive, if_neg (by simp [h w (by simp)]),
      splitInclusive_bell ws b es fun x hx => h x (by simp [hx])]
    simp

theorem normAux_pending : ∀ (ws : List RegexElem) (k : Nat) (g : Bool) (es : List RegexElem),
    (∀ w ∈ ws, isBell w = false) →
    normAux k g (ws ++ es) = normAux (k + (ws.filter isAny).length) (g || ws.contains .glob) es
  | [], k, g, es, _ => by simp
  | w :: ws, k, g, es, h => by
    have ih := fun k g => normAux_pending ws k g es fun x hx => h x (by simp [hx])
    cases w with
    | bell b => simpa [isBell] using h (.bell b) (by simp)
    | any =>
      rw [List.cons_append, normAux, ih]
      have : (List.filter isAny (.any :: ws)).length = (List.filter isAny ws).length + 1 := by
        rw [List.filter_cons_of_pos (by rfl)]
        rfl
      rw [this, show k + ((List.filter isAny ws).length + 1) = k + 1 + (List.filter isAny ws).length
        from by omega]
      simp
    | glob =>
      rw [List.cons_append, normAux, ih]
      simp [isAny]

/-- Every list of elements is wildcards and globs, then nothing or a bell and more elements. -/
theorem split_first_bell (es : List RegexElem) :
    (∀ w ∈ es, isBell w = false) ∨
    ∃ ws b rest, es = ws ++ .bell b :: rest ∧ (∀ w ∈ ws, isBell w = false) ∧
      rest.length < es.length := by
  induction es with
  | nil => left; simp
  | cons e es ih =>
    cases e with
    | bell b => right; exact ⟨[], b, es, by simp, by simp, by simp⟩
    | any =>
      rcases ih with h | ⟨ws, b, rest, rfl, h, hl⟩
      · left; simpa [isBell] using h
      · right
        exact ⟨.any :: ws, b, rest, by simp, by simpa [isBell] using h, by simp; omega⟩
    | glob =>
      rcases ih with h | ⟨ws, b, rest, rfl, h, hl⟩
      · left; simpa [isBell] using h
      · right
        exact ⟨.glob :: ws, b, rest, by simp, by simpa [isBell] using h, by simp; omega⟩

theorem normaliseLoop_eq (n : Nat) : ∀ es : List RegexElem, es.length ≤ n →
    normaliseLoop (splitInclusive isBell (es ++ [.bell .treble])) [] =
      .ok (normAux 0 false es ++ [.bell .treble]) := by
  induction n with
  | zero =>
    intro es h
    have : es = [] := by simpa using h
    subst this
    rw [show ([] : List RegexElem) ++ [.bell .treble] = [] ++ .bell .treble :: [] from rfl,
      splitInclusive_bell [] _ _ (by simp)]
    have := normaliseSlice_eq [] Bell.treble
    simp only [normaliseLoop, this, splitInclusive, normAux]
    simp [pending]
  | succ n ih =>
    intro es h
    rcases split_first_bell es with hw | ⟨ws, b, rest, rfl, hw, hl⟩
    · rw [splitInclusive_bell es _ _ hw]
      have h2 := normAux_pending es 0 false [] hw
      simp only [List.append_nil] at h2
      rw [h2]
      simp only [normaliseLoop, splitInclusive, normaliseSlice_eq, Res.ok_bind]
      simp [normAux, pending]
    · rw [List.append_assoc, List.cons_append, splitInclusive_bell ws _ _ hw,
        normAux_pending ws 0 false _ hw]
      simp only [normaliseLoop, normaliseSlice_eq, Res.ok_bind]
      rw [normaliseLoop_append, ih rest (by omega)]
      simp [normAux, pending, Except.map]

theorem normalise_eq (re : Regex) : re.normalise = .ok ⟨normAux 0 false re.elems⟩ := by
  unfold normalise
  simp only
  rw [normaliseLoop_eq _ re.elems (le_refl _)]
  simp

theorem lang_replicate_any_glob (k : Nat) (es : List RegexElem) (bs : List Bell) :
    Lang (.glob :: (List.replicate k .any ++ es)) bs ↔ Lang (List.replicate k .any ++ .glob :: es) bs := by
  induction k generalizing bs with
  | zero => rfl
  | succ k ih =>
    rw [List.replicate_succ, List.cons_append, lang_glob_any]
    exact lang_cons_congr .any ih bs

theorem lang_normAux : ∀ (es : List RegexElem) (k : Nat) (g : Bool) (bs : List Bell),
    Lang (normAux k g es) bs ↔ Lang (pending k g ++ es) bs
  | [], k, g, bs => by simp [normAux, pending]
  | .bell b :: es, k, g, bs => by
    rw [normAux]
    have ih := lang_normAux es 0 false
    refine lang_append_congr (pending k g) (fun bs => lang_cons_congr (.bell b) (fun bs => ?_) bs) bs
    rw [ih]
    simp [pending]
  | .any :: es, k, g, bs => by
    rw [normAux, lang_normAux es (k + 1) g]
    unfold pending
    cases g with
    | false =>
      simp only [Bool.false_eq_true, if_false, List.append_nil]
      rw [List.replicate_succ', List.append_assoc]
      rfl
    | true =>
      simp only [if_true]
      rw [List.replicate_succ', List.append_assoc, List.append_assoc, List.append_assoc]
      exact lang_append_congr _ (fun bs => (lang_glob_any es bs).symm) bs
  | .glob :: es, k, g, bs => by
    rw [normAux, lang_normAux es k true]
    unfold pending
    cases g with
    | false => simp
    | true =>
      simp only [if_true]
      rw [List.append_assoc, List.append_assoc]
      exact lang_append_congr _ (fun bs => (lang_glob_glob es bs).symm) bs

/-! ### Normal form -/

theorem normal_tail {e : RegexElem} {es : List RegexElem} (h : (⟨e :: es⟩ : Regex).Normal) :
    (⟨es⟩ : Regex).Normal := by
  intro i hi
  simpa using h (i + 1) (by simpa using hi)

theorem normal_cons_of_ne {e : RegexElem} {es : List RegexElem} (he : e ≠ .glob)
    (h : (⟨es⟩ : Regex).Normal) : (⟨e :: es⟩ : Regex).Normal := by
  intro i hi
  cases i with
  | zero => simp at hi; exact absurd hi he
  | succ i => simpa using h i (by simpa using hi)

theorem normal_any_append (k : Nat) {es : List RegexElem} (h : (⟨es⟩ : Regex).Normal) :
    (⟨List.replicate k .any ++ es⟩ : Regex).Normal := by
  induction k with
  | zero => exact h
  | succ k ih => exact normal_cons_of_ne (by simp) ih

theorem normal_nil : (⟨[]⟩ : Regex).Normal := by intro i hi; simp at hi

theorem normal_glob_nil : (⟨[.glob]⟩ : Regex).Normal := by
  intro i hi
  left
  simp

theorem normal_glob_bell {b : Bell} {es : List RegexElem} (h : (⟨es⟩ : Regex).Normal) :
    (⟨.glob :: .bell b :: es⟩ : Regex).Normal := by
  intro i hi
  cases i with
  | zero => right; exact ⟨b, by simp⟩
  | succ i => simpa using normal_cons_of_ne (e := .bell b) (by simp) h i (by simpa using hi)

theorem normal_normAux : ∀ (es : List RegexElem) (k : Nat) (g : Bool),
    (⟨normAux k g es⟩ : Regex).Normal
  | [], k, g => by
    rw [normAux]
    apply normal_any_append
    cases g
    · exact normal_nil
    · exact normal_glob_nil
  | .bell b :: es, k, g => by
    rw [normAux, List.append_assoc]
    apply normal_any_append
    have ih := normal_normAux es 0 false
    cases g
    · exact normal_cons_of_ne (by simp) ih
    · exact normal_glob_bell ih
  | .any :: es, k, g => normal_normAux es (k + 1) g
  | .glob :: es, k, g => normal_normAux es k true

theorem normAux_of_normal : ∀ (es : List RegexElem) (k : Nat), (⟨es⟩ : Regex).Normal →
    normAux k false es = List.replicate k .any ++ es
  | [], k, _ => by simp [normAux]
  | .bell b :: es, k, h => by
    rw [normAux, normAux_of_normal es 0 (normal_tail h)]
    simp
  | .any :: es, k, h => by
    rw [normAux, normAux_of_normal es (k + 1) (normal_tail h), List.replicate_succ', List.append_assoc]
    rfl
  | .glob :: [], k, _ => by simp [normAux]
  | .glob :: .bell b :: es, k, h => by
    rw [normAux, normAux, normAux_of_normal es 0 (normal_tail (normal_tail h))]
    simp
  | .glob :: .any :: es, k, h => by
    rcases h 0 rfl with h | ⟨b, h⟩ <;> simp at h
  | .glob :: .glob :: es, k, h => by
    rcases h 0 rfl with h | ⟨b, h⟩ <;> simp at h

/-! ### Matching -/

theorem seekBell_spec (b : Bell) : ∀ ps : List (Bell × Nat),
    (∃ pre i post, ps = pre ++ (b, i) :: post ∧ (∀ p ∈ pre, p.1 ≠ b) ∧ seekBell b ps = some (i, post)) ∨
    ((∀ p ∈ ps, p.1 ≠ b) ∧ seekBell b ps = none)
  | [] => .inr ⟨by simp, rfl⟩
  | (x, i) :: rest => by
    by_cases hx : x = b
    · subst hx
      exact .inl ⟨[], i, rest, rfl, by simp, by simp [seekBell]⟩
    · rcases seekBell_spec b rest with ⟨pre, j, post, rfl, h1, h2⟩ | ⟨h1, h2⟩
      · refine .inl ⟨(x, i) :: pre, j, post, rfl, ?_, by simp [seekBell, hx, h2]⟩
        intro p hp
        rcases List.mem_cons.1 hp with rfl | hp
        · exact hx
        · exact h1 p hp
      · refine .inr ⟨?_, by simp [seekBell, hx, h2]⟩
        intro p hp
        rcases List.mem_cons.1 hp with rfl | hp
        · exact hx
        · exact h1 p hp

/-- The places of the bells named by the elements. -/
def named (es : List RegexElem) (ps : List (Bell × Nat)) : List Nat :=
  (ps.filter fun p => decide (RegexElem.bell p.1 ∈ es)).map Prod.snd

theorem named_skip {es : List RegexElem} {ps : List (Bell × Nat)} {pre : List (Bell × Nat)}
    (h : ∀ p ∈ pre, RegexElem.bell p.1 ∉ es) : named es (pre ++ ps) = named es ps := by
  unfold named
  rw [List.filter_append]
  have : pre.filter (fun p => decide (RegexElem.bell p.1 ∈ es)) = [] := by
    rw [List.filter_eq_nil_iff]
    intro p hp
    simpa using h p hp
  rw [this, List.nil_append]

theorem named_congr {es fs : List RegexElem} {ps : List (Bell × Nat)}
    (h : ∀ p ∈ ps, (RegexElem.bell p.1 ∈ es ↔ RegexElem.bell p.1 ∈ fs)) :
    named es ps = named fs ps := by
  unfold named
  congr 1
  apply List.filter_congr
  intro p hp
  rw [decide_eq_decide]
  exact h p hp

theorem named_bell {es : List RegexElem} {ps : List (Bell × Nat)} {b : Bell} {i : Nat}
    (hnd : ((b, i) :: ps |>.map Prod.fst).Nodup) :
    named (.bell b :: es) ((b, i) :: ps) = i :: named es ps := by
  have h1 : named (.bell b :: es) ps = named es ps := by
    apply named_congr
    intro p hp
    have : p.1 ≠ b := by
      rintro rfl
      simp only [List.map_cons, List.nodup_cons, List.mem_map, not_exists, not_and] at hnd
      exact hnd.1 p hp rfl
    simp [this]
  rw [← h1]
  simp [named]

theorem runMatchLoop_spec : ∀ (es : List RegexElem) (ps : List (Bell × Nat)) (acc : List Nat),
    (⟨es⟩ : Regex).Normal → (ps.map Prod.fst).Nodup →
    ∃ v out, runMatchLoop es ps acc = .ok (v, acc ++ out) ∧ (v = true ↔ Lang es (ps.map Prod.fst)) ∧
      (v = true → out = named es ps)
  | [], ps, acc, _, _ => by
    refine ⟨ps.isEmpty, [], by simp [runMatchLoop], ?_, fun _ => by simp [named]⟩
    cases ps <;> simp [Lang]
  | .bell b :: es, [], acc, _, _ => ⟨false, [], by simp [runMatchLoop], by simp [Lang], by simp⟩
  | .bell b :: es, (x, i) :: ps, acc, hn, hnd => by
    by_cases hx : x = b
    · subst hx
      obtain ⟨v, out, h1, h2, h3⟩ := runMatchLoop_spec es ps (acc ++ [i]) (normal_tail hn)
        (by simp at hnd; exact hnd.2)
      refine ⟨v, i :: out, by simp [runMatchLoop, h1], ?_, fun hv => ?_⟩
      · rw [h2]
        simp only [Lang, List.map_cons, List.cons.injEq, true_and]
        exact ⟨fun h => ⟨_, rfl, h⟩, fun ⟨r, e, h⟩ => e ▸ h⟩
      · rw [h3 hv, named_bell hnd]
    · refine ⟨false, [], by simp [runMatchLoop, hx], ?_, by simp⟩
      simp [Lang, hx]
  | .any :: es, [], acc, _, _ => ⟨false, [], by simp [runMatchLoop], by simp [Lang], by simp⟩
  | .any :: es, (x, i) :: ps, acc, hn, hnd => by
    have hnd' : x ∉ ps.map Prod.fst ∧ (ps.map Prod.fst).Nodup := by
      rw [List.map_cons, List.nodup_cons] at hnd
      exact hnd
    obtain ⟨v, out, h1, h2, h3⟩ := runMatchLoop_spec es ps acc (normal_tail hn) hnd'.2
    refine ⟨v, out, by simp [runMatchLoop, h1], ?_, fun hv => ?_⟩
    · rw [h2]
      simp only [Lang, List.map_cons, List.cons.injEq]
      exact ⟨fun h => ⟨_, _, ⟨rfl, rfl⟩, h⟩, fun ⟨y, r, ⟨_, e⟩, h⟩ => e ▸ h⟩
    · rw [h3 hv]
      have hl := h2.1 hv
      have hx : RegexElem.bell x ∉ es := fun h => hnd'.1 (lang_mem hl h)
      have e1 : named (.any :: es) ((x, i) :: ps) = named es ((x, i) :: ps) :=
        named_congr (by simp)
      rw [e1]
      exact (named_skip (pre := [(x, i)]) (by simpa using hx)).symm
  | .glob :: [], ps, acc, _, _ => by
    refine ⟨true, [], by simp [runMatchLoop], ?_, fun _ => by simp [named]⟩
    simp only [Lang, true_iff]
    exact ⟨ps.map Prod.fst, [], by simp, rfl⟩
  | .glob :: .bell b :: es, ps, acc, hn, hnd => by
    rcases seekBell_spec b ps with ⟨pre, i, post, rfl, hpre, hs⟩ | ⟨hno, hs⟩
    · have hnd2 : ((b, i) :: post |>.map Prod.fst).Nodup := by
        rw [List.map_append] at hnd
        exact hnd.of_append_right
      have hnd3 : (post.map Prod.fst).Nodup := by
        rw [List.map_cons, List.nodup_cons] at hnd2
        exact hnd2.2
      have hb3 : b ∉ post.map Prod.fst := by
        rw [List.map_cons, List.nodup_cons] at hnd2
        exact hnd2.1
      obtain ⟨v, out, h1, h2, h3⟩ := runMatchLoop_spec es post (acc ++ [i])
        (normal_tail (normal_tail hn)) hnd3
      have hlang : Lang (.glob :: .bell b :: es) ((pre ++ (b, i) :: post).map Prod.fst) ↔
          Lang es (post.map Prod.fst) := by
        simp only [Lang, List.map_append, List.map_cons]
        constructor
        · rintro ⟨sk, rest, he, rest', rfl, h⟩
          have hbpre : b ∉ pre.map Prod.fst := by
            intro hb
            obtain ⟨p, hp, hpb⟩ := List.mem_map.1 hb
            exact hpre p hp hpb
          have hbp : b ∉ pre.map Prod.fst ++ b :: post.map Prod.fst → False := by simp
          rcases List.append_eq_append_iff.1 he with ⟨a', ha1, ha2⟩ | ⟨c', hc1, hc2⟩
          · -- `sk = pre ++ a'`
            cases a' with
            | nil =>
              simp only [List.nil_append, List.cons.injEq, true_and] at ha2
              rwa [ha2]
            | cons y a' =>
              simp only [List.cons_append, List.cons.injEq] at ha2
              obtain ⟨rfl, ha2⟩ := ha2
              exact absurd (ha2 ▸ (by simp)) hb3
          · cases c' with
            | nil =>
              simp only [List.nil_append, List.cons.injEq, true_and] at hc2
              rwa [← hc2]
            | cons y c' =>
              simp only [List.cons_append, List.cons.injEq] at hc2
              obtain ⟨rfl, hc2⟩ := hc2
              exact absurd (hc1 ▸ (by simp)) hbpre
        · intro h
          exact ⟨_, _, rfl, _, rfl, h⟩
      refine ⟨v, i :: out, by simp [runMatchLoop, hs, h1], ?_, fun hv => ?_⟩
      · rw [h2, hlang]
      · rw [h3 hv, ← named_bell (es := es) hnd2]
        have e1 : named (.glob :: .bell b :: es) (pre ++ (b, i) :: post) =
            named (.bell b :: es) (pre ++ (b, i) :: post) := named_congr (by simp)
        rw [e1, named_skip]
        intro p hp hmem
        rcases List.mem_cons.1 hmem with hmem | hmem
        · simp only [RegexElem.bell.injEq] at hmem
          exact hpre p hp hmem
        · have hpost := lang_mem (h2.1 hv) hmem
          rw [List.map_append] at hnd
          exact (List.disjoint_of_nodup_append hnd) (List.mem_map_of_mem hp)
            (by rw [List.map_cons]; exact List.mem_cons_of_mem _ hpost)
    · refine ⟨false, [], by simp [runMatchLoop, hs], ?_, by simp⟩
      simp only [Bool.false_eq_true, false_iff]
      intro h
      have := lang_mem h (b := b) (by simp)
      obtain ⟨p, hp, hpb⟩ := List.mem_map.1 this
      exact hno p hp hpb
  | .glob :: .any :: es, _, _, h, _ => by
    rcases h 0 rfl with h | ⟨b, h⟩ <;> simp at h
  | .glob :: .glob :: es, _, _, h, _ => by
    rcases h 0 rfl with h | ⟨b, h⟩ <;> simp at h

theorem runMatch_spec (re : Regex) (hn : re.Normal) (r : Row) (hr : r.bells.Nodup) :
    ∃ v out, re.runMatch r = .ok (v, out) ∧ (v = true ↔ Lang re.elems r.bells) ∧
      (v = true → out = named re.elems r.bells.zipIdx) := by
  have hfst : r.bells.zipIdx.map Prod.fst = r.bells := by simp
  obtain ⟨v, out, h1, h2, h3⟩ := runMatchLoop_spec re.elems r.bells.zipIdx [] hn (by rw [hfst]; exact hr)
  rw [hfst] at h2
  exact ⟨v, out, by simpa [runMatch] using h1, h2, h3⟩

end Regex

end Bellframe
