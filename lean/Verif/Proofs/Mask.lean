import Verif.Spec.Mask
import Verif.Proofs.RowAlgebra
import Verif.Proofs.Block
import Mathlib.Data.Fintype.Card
import Mathlib.Data.Fintype.EquivFin
import Mathlib.Logic.Equiv.Fintype

/-! # Lemmas about masks -/

namespace Bellframe

namespace Mask

theorem gives_lt {m : Mask} {i : Nat} {b : Bell} (h : m.Gives i b) : i < m.bells.length := by
  unfold Gives at h
  by_contra hc
  rw [List.getElem?_eq_none (by omega)] at h
  simp at h

theorem open_lt {m : Mask} {i : Nat} (h : m.Open i) : i < m.bells.length := by
  unfold Open at h
  by_contra hc
  rw [List.getElem?_eq_none (by omega)] at h
  simp at h

theorem gives_or_open {m : Mask} {i : Nat} (h : i < m.bells.length) :
    (∃ b, m.Gives i b) ∨ m.Open i := by
  unfold Gives Open
  rw [List.getElem?_eq_getElem h]
  cases m.bells[i] <;> simp

theorem gives_unique {m : Mask} {i : Nat} {b c : Bell} (h : m.Gives i b) (h' : m.Gives i c) :
    b = c := by
  unfold Gives at *
  rw [h] at h'
  simpa using h'

theorem not_open_of_gives {m : Mask} {i : Nat} {b : Bell} (h : m.Gives i b) : ¬ m.Open i := by
  unfold Gives Open at *
  rw [h]
  simp

theorem gives_cons_zero (x : Option Bell) (xs : List (Option Bell)) (b : Bell) :
    (⟨x :: xs⟩ : Mask).Gives 0 b ↔ x = some b := by
  simp [Gives]

theorem gives_cons_succ (x : Option Bell) (xs : List (Option Bell)) (i : Nat) (b : Bell) :
    (⟨x :: xs⟩ : Mask).Gives (i + 1) b ↔ (⟨xs⟩ : Mask).Gives i b := by
  simp [Gives]

theorem matches_cons (x : Option Bell) (xs : List (Option Bell)) (b : Bell) (bs : List Bell) :
    (⟨x :: xs⟩ : Mask).Matches ⟨b :: bs⟩ ↔
      (∀ c, x = some c → c = b) ∧ (⟨xs⟩ : Mask).Matches ⟨bs⟩ := by
  unfold Matches
  constructor
  · rintro ⟨hl, h⟩
    refine ⟨fun c hc => ?_, by simpa using hl, fun i c hc => ?_⟩
    · have := h 0 c ((gives_cons_zero x xs c).2 hc)
      simpa using this.symm
    · simpa using h (i + 1) c ((gives_cons_succ x xs i c).2 hc)
  · rintro ⟨h0, hl, h⟩
    refine ⟨by simpa using hl, fun i c hc => ?_⟩
    cases i with
    | zero => simp [h0 c ((gives_cons_zero x xs c).1 hc)]
    | succ i => simpa using h i c ((gives_cons_succ x xs i c).1 hc)

theorem stage_of_ne {m : Mask} (h : m.bells ≠ []) : m.stage = .ok ⟨m.bells.length⟩ := by
  unfold stage Stage.new Stage.tryFrom
  rw [if_neg (by simpa using h)]
  rfl

theorem stage_of_nil {m : Mask} (h : m.bells = []) : m.stage = .error .unwrap := by
  unfold stage Stage.new Stage.tryFrom
  simp [h]

theorem matchesLoop_zip : ∀ (xs : List (Option Bell)) (bs : List Bell), xs.length = bs.length →
    (matchesLoop (xs.zip bs) = true ↔ (⟨xs⟩ : Mask).Matches ⟨bs⟩)
  | [], [], _ => by simp [matchesLoop, Matches, Gives]
  | [], _ :: _, h => by simp at h
  | _ :: _, [], h => by simp at h
  | x :: xs, b :: bs, h => by
    have ih := matchesLoop_zip xs bs (by simpa using h)
    rw [matches_cons, ← ih]
    cases x with
    | none => simp [matchesLoop]
    | some c =>
      by_cases hc : c = b <;> simp [matchesLoop, hc]

theorem matches_eq {m : Mask} {r : Row} (hm : m.bells ≠ []) (hr : r.bells ≠ []) :
    ∃ v, m.matches_ r = .ok v ∧ (v = true ↔ m.Matches r) := by
  unfold matches_
  rw [stage_of_ne hm, Row.stage_of_ne hr]
  simp only [Res.ok_bind]
  by_cases hl : m.bells.length = r.bells.length
  · rw [if_neg (by simp [hl]), zipEq_eq_zip _ _ hl]
    exact ⟨_, rfl, matchesLoop_zip _ _ hl⟩
  · rw [if_pos (by simpa using hl)]
    refine ⟨false, rfl, ?_⟩
    simp only [Bool.false_eq_true, false_iff]
    exact fun h => hl h.1

/-! ### Masks and permutations -/

theorem matches_ofPerm {m : Mask} {n : Nat} (hl : m.bells.length = n) (σ : Equiv.Perm (Fin n)) :
    m.Matches (Row.ofPerm σ) ↔ ∀ (i : Fin n) b, m.Gives i.val b → (σ i).val = b.index := by
  unfold Matches
  constructor
  · rintro ⟨_, h⟩ i b hb
    have := h i b hb
    rw [Row.ofPerm_getElem? σ i.val i.isLt] at this
    have := Option.some.inj this
    rw [← this]
  · intro h
    refine ⟨by simpa using hl, fun i b hb => ?_⟩
    have hi : i < n := hl ▸ gives_lt hb
    rw [Row.ofPerm_getElem? σ i hi]
    have := h ⟨i, hi⟩ b hb
    simp [this]

theorem WellFormed.exists_row {m : Mask} (h : m.WellFormed) : ∃ r : Row, r.Valid ∧ m.Matches r := by
  obtain ⟨hne, hinj, hlt⟩ := h
  generalize hn : m.bells.length = n at *
  have hn0 : 0 < n := by rw [← hn]; exact List.length_pos_of_ne_nil hne
  classical
  let s : Finset (Fin n) := Finset.univ.filter fun i => ∃ b, m.Gives i.val b
  have hex : ∀ i : Fin n, ∃ j : Fin n, ∀ b, m.Gives i.val b → j.val = b.index := by
    intro i
    by_cases hi : ∃ b, m.Gives i.val b
    · obtain ⟨b, hb⟩ := hi
      exact ⟨⟨b.index, hlt _ _ hb⟩, fun c hc => by rw [gives_unique hc hb]⟩
    · exact ⟨i, fun b hb => absurd ⟨b, hb⟩ hi⟩
  choose f hf using hex
  have hfi : Set.InjOn f (s : Set (Fin n)) := by
    intro i hi j hj hij
    simp only [s, Finset.coe_filter, Finset.mem_univ, true_and, Set.mem_setOf_eq] at hi hj
    obtain ⟨b, hb⟩ := hi
    obtain ⟨c, hc⟩ := hj
    have e1 := hf i b hb
    have e2 := hf j c hc
    have : b = c := by
      apply Bell.ext'
      rw [← e1, ← e2, hij]
    subst this
    exact Fin.ext (hinj _ _ _ hb hc)
  obtain ⟨g, hg⟩ := Finset.exists_equiv_extend_of_card_eq (t := (Finset.univ : Finset (Fin n)))
    (by simp) (Finset.subset_univ _) hfi
  let σ : Equiv.Perm (Fin n) := g.trans (Equiv.subtypeUnivEquiv (by simp))
  refine ⟨Row.ofPerm σ, Row.ofPerm_valid hn0 σ, (matches_ofPerm hn σ).2 fun i b hb => ?_⟩
  have : (σ i) = f i := hg i (by simp only [s, Finset.mem_filter, Finset.mem_univ, true_and]; exact ⟨b, hb⟩)
  rw [this]
  exact hf i b hb

theorem wellFormed_of_row {m : Mask} {r : Row} (hr : r.Valid) (h : m.Matches r) : m.WellFormed := by
  obtain ⟨hl, h⟩ := h
  refine ⟨?_, fun i j b hi hj => ?_, fun i b hb => ?_⟩
  · have := hr.length_pos
    intro hc
    rw [hc] at hl
    simp at hl
    omega
  · have h1 := h i b hi
    have h2 := h j b hj
    have hi' : i < r.bells.length := hl ▸ gives_lt hi
    exact (List.getElem?_inj hi' hr.nodup).1 (h1.trans h2.symm)
  · rw [hl]
    exact (hr.mem_iff b).1 (List.mem_of_getElem? (h i b hb))

theorem wellFormed_iff {m : Mask} : m.WellFormed ↔ ∃ r : Row, r.Valid ∧ m.Matches r :=
  ⟨fun h => h.exists_row, fun ⟨_, hr, h⟩ => wellFormed_of_row hr h⟩

/-! ### Subsets -/

theorem subsetLoop_zip : ∀ (xs ys : List (Option Bell)), xs.length = ys.length →
    (subsetLoop (xs.zip ys) = true ↔ ∀ i b, (⟨ys⟩ : Mask).Gives i b → (⟨xs⟩ : Mask).Gives i b)
  | [], [], _ => by simp [subsetLoop]
  | [], _ :: _, h => by simp at h
  | _ :: _, [], h => by simp at h
  | x :: xs, y :: ys, h => by
    have ih := subsetLoop_zip xs ys (by simpa using h)
    have key : (∀ i b, (⟨y :: ys⟩ : Mask).Gives i b → (⟨x :: xs⟩ : Mask).Gives i b) ↔
        (∀ b, y = some b → x = some b) ∧
        ∀ i b, (⟨ys⟩ : Mask).Gives i b → (⟨xs⟩ : Mask).Gives i b := by
      constructor
      · intro H
        refine ⟨fun b hb => ?_, fun i b hb => ?_⟩
        · exact (gives_cons_zero x xs b).1 (H 0 b ((gives_cons_zero y ys b).2 hb))
        · exact (gives_cons_succ x xs i b).1 (H (i + 1) b ((gives_cons_succ y ys i b).2 hb))
      · rintro ⟨H0, H⟩ i b hb
        cases i with
        | zero => exact (gives_cons_zero x xs b).2 (H0 b ((gives_cons_zero y ys b).1 hb))
        | succ i => exact (gives_cons_succ x xs i b).2 (H i b ((gives_cons_succ y ys i b).1 hb))
    rw [key, ← ih]
    cases x with
    | none => cases y <;> simp [subsetLoop]
    | some c =>
      cases y with
      | none => simp [subsetLoop]
      | some d => by_cases hc : c = d <;> simp [subsetLoop, hc]

theorem isSubsetOf_eq {a b : Mask} (ha : a.bells ≠ []) (hb : b.bells ≠ []) :
    ∃ v, a.isSubsetOf b = .ok v ∧
      (v = true ↔ a.bells.length = b.bells.length ∧ ∀ i c, b.Gives i c → a.Gives i c) := by
  unfold isSubsetOf
  rw [stage_of_ne ha, stage_of_ne hb]
  simp only [Res.ok_bind]
  by_cases hl : a.bells.length = b.bells.length
  · rw [if_neg (by simp [hl]), zipEq_eq_zip _ _ hl]
    refine ⟨_, rfl, ?_⟩
    rw [subsetLoop_zip _ _ hl]
    simp [hl]
  · rw [if_pos (by simpa using hl)]
    exact ⟨false, rfl, by simp [hl]⟩

/-! ### Compatibility and combination -/

theorem findIdx?_gives {m : Mask} {b : Bell} {p : Nat}
    (h : m.bells.findIdx? (fun x => x == some b) = some p) : m.Gives p b := by
  rw [List.findIdx?_eq_some_iff_getElem] at h
  obtain ⟨hp, he, _⟩ := h
  unfold Gives
  rw [List.getElem?_eq_getElem hp]
  simpa using he

theorem findIdx?_none {m : Mask} {b : Bell}
    (h : m.bells.findIdx? (fun x => x == some b) = none) (p : Nat) : ¬ m.Gives p b := by
  rw [List.findIdx?_eq_none_iff] at h
  intro hp
  have := h (some b) (List.mem_of_getElem? hp)
  simp at this

/-- What `is_compatible_with` tests at a place where the other mask gives a bell. -/
def CompatAt (self : Mask) (x : Option Bell) (b : Bell) (i : Nat) : Prop :=
  (∀ c, x = some c → c = b) ∧
    ∀ j, self.bells.findIdx? (fun x => x == some b) = some j → i = j

theorem compatibleLoop_zip (self : Mask) : ∀ (os ss : List (Option Bell)) (i : Nat),
    os.length = ss.length →
    (compatibleLoop self (os.zip ss) i = true ↔
      ∀ k b x, os[k]? = some (some b) → ss[k]? = some x → CompatAt self x b (i + k))
  | [], [], i, _ => by simp [compatibleLoop]
  | [], _ :: _, _, h => by simp at h
  | _ :: _, [], _, h => by simp at h
  | o :: os, s :: ss, i, h => by
    have ih := compatibleLoop_zip self os ss (i + 1) (by simpa using h)
    have key : (∀ k b x, (o :: os)[k]? = some (some b) → (s :: ss)[k]? = some x →
          CompatAt self x b (i + k)) ↔
        (∀ b, o = some b → CompatAt self s b i) ∧
        ∀ k b x, os[k]? = some (some b) → ss[k]? = some x → CompatAt self x b (i + 1 + k) := by
      constructor
      · intro H
        refine ⟨fun b hb => by simpa using H 0 b s (by simp [hb]) (by simp), fun k b x h1 h2 => ?_⟩
        have := H (k + 1) b x (by simpa using h1) (by simpa using h2)
        rwa [show i + (k + 1) = i + 1 + k from by omega] at this
      · rintro ⟨H0, H⟩ k b x h1 h2
        cases k with
        | zero =>
          simp only [List.getElem?_cons_zero, Option.some.injEq] at h1 h2
          subst h2
          exact H0 b h1
        | succ k =>
          simp only [List.getElem?_cons_succ] at h1 h2
          rw [show i + (k + 1) = i + 1 + k from by omega]
          exact H k b x h1 h2
    rw [key, ← ih]
    cases o with
    | none => simp [compatibleLoop]
    | some b =>
      simp only [List.zip_cons_cons, compatibleLoop]
      have e1 : (s.elim true (fun bSelf => bSelf == b)) = true ↔ ∀ c, s = some c → c = b := by
        cases s <;> simp
      have e2 : ((self.bells.findIdx? (fun x => x == some b)).elim true (fun j => i == j)) = true ↔
          ∀ j, self.bells.findIdx? (fun x => x == some b) = some j → i = j := by
        cases self.bells.findIdx? (fun x => x == some b) <;> simp
      have e3 : (∀ b', some b = some b' → CompatAt self s b' i) ↔ CompatAt self s b i :=
        ⟨fun H => H b rfl, fun H b' hb' => by cases hb'; exact H⟩
      rw [e3]
      unfold CompatAt
      rw [← e1, ← e2]
      cases s.elim true (fun bSelf => bSelf == b) <;>
        cases (self.bells.findIdx? (fun x => x == some b)).elim true (fun j => i == j) <;> simp

/-- The test in terms of what the masks give. -/
def Agree (a b : Mask) : Prop :=
  (∀ i c d, a.Gives i c → b.Gives i d → c = d) ∧ ∀ i j c, a.Gives i c → b.Gives j c → i = j

theorem isCompatibleWith_eq {a b : Mask} (ha : a.WellFormed) (hb : b.bells ≠ []) :
    ∃ v, a.isCompatibleWith b = .ok v ∧
      (v = true ↔ a.bells.length = b.bells.length ∧ Agree a b) := by
  unfold isCompatibleWith
  rw [stage_of_ne ha.1, stage_of_ne hb]
  simp only [Res.ok_bind]
  by_cases hl : a.bells.length = b.bells.length
  · rw [if_neg (by simp [hl]), zipEq_eq_zip _ _ hl.symm]
    refine ⟨_, rfl, ?_⟩
    rw [compatibleLoop_zip _ _ _ _ hl.symm]
    constructor
    · intro H
      refine ⟨hl, fun i c d h1 h2 => ?_, fun i j c h1 h2 => ?_⟩
      · exact (H i d (some c) h2 h1).1 c rfl
      · have hj : j < a.bells.length := hl ▸ gives_lt h2
        have H' := (H j c _ h2 (List.getElem?_eq_getElem hj)).2
        cases hf : a.bells.findIdx? (fun x => x == some c) with
        | none => exact absurd h1 (findIdx?_none hf i)
        | some p =>
          have := H' p hf
          rw [Nat.zero_add] at this
          subst this
          exact ha.2.1 _ _ _ h1 (findIdx?_gives hf)
    · rintro ⟨_, H1, H2⟩ k d x h1 h2
      refine ⟨fun c hc => ?_, fun j hj => ?_⟩
      · subst hc
        exact H1 k c d h2 h1
      · rw [Nat.zero_add]
        exact (H2 j k d (findIdx?_gives hj) h1).symm
  · rw [if_pos (by simpa using hl)]
    exact ⟨false, rfl, by simp [hl]⟩

/-- Merging two places. -/
def merge (x y : Option Bell) : Option Bell := x.or y

theorem combinePlace_eq {x y : Option Bell} (h : ∀ c d, x = some c → y = some d → c = d) :
    combinePlace (x, y) = .ok (merge x y) := by
  cases x with
  | none => simp [combinePlace, merge]
  | some c =>
    cases y with
    | none => rfl
    | some d =>
      have := h c d rfl rfl
      subst this
      simp [combinePlace, merge]

theorem combine_mapM : ∀ (xs ys : List (Option Bell)),
    (∀ (i : Nat) (c d : Bell), xs[i]? = some (some c) → ys[i]? = some (some d) → c = d) →
    (xs.zip ys).mapM combinePlace = .ok (List.zipWith merge xs ys)
  | [], _, _ => by simp
  | _ :: _, [], _ => by simp
  | x :: xs, y :: ys, h => by
    have ih := combine_mapM xs ys (fun i c d h1 h2 =>
      h (i + 1) c d (by simpa using h1) (by simpa using h2))
    rw [List.zip_cons_cons, List.mapM_cons,
      combinePlace_eq (fun c d h1 h2 => h 0 c d (by simp [h1]) (by simp [h2])), Res.ok_bind, ih]
    simp

theorem gives_merge {a b : Mask} (hl : a.bells.length = b.bells.length) (h : Agree a b) (i : Nat)
    (c : Bell) : (⟨List.zipWith merge a.bells b.bells⟩ : Mask).Gives i c ↔
      a.Gives i c ∨ b.Gives i c := by
  unfold Gives
  by_cases hi : i < a.bells.length
  · have hi' : i < b.bells.length := hl ▸ hi
    have e1 := List.getElem?_eq_getElem hi
    have e2 := List.getElem?_eq_getElem hi'
    rw [List.getElem?_zipWith, e1, e2]
    simp only [Option.some.injEq]
    generalize hx : a.bells[i] = x at *
    generalize hy : b.bells[i] = y at *
    cases x with
    | none => simp [merge]
    | some c' =>
      cases y with
      | none => simp [merge]
      | some d =>
        have : c' = d := h.1 i c' d e1 e2
        simp [merge, this]
  · rw [List.getElem?_eq_none (by simp; omega), List.getElem?_eq_none (by omega),
      List.getElem?_eq_none (by omega)]
    simp

theorem combine_eq {a b : Mask} (ha : a.WellFormed) (hb : b.WellFormed) :
    (¬ (a.bells.length = b.bells.length ∧ Agree a b) ∧ a.combine b = .ok none) ∨
    (a.bells.length = b.bells.length ∧ Agree a b ∧
      ∃ m, a.combine b = .ok (some m) ∧ m.WellFormed ∧ m.bells.length = a.bells.length ∧
        ∀ i c, m.Gives i c ↔ a.Gives i c ∨ b.Gives i c) := by
  obtain ⟨v, hv, hiff⟩ := isCompatibleWith_eq ha hb.1
  unfold combine
  rw [hv]
  cases v with
  | false =>
    left
    exact ⟨fun h => by simpa using hiff.2 h, by simp⟩
  | true =>
    right
    obtain ⟨hl, hag⟩ := hiff.1 rfl
    refine ⟨hl, hag, ⟨List.zipWith merge a.bells b.bells⟩, ?_, ⟨?_, ?_, ?_⟩, by simp [hl],
      gives_merge hl hag⟩
    · simp only [Res.ok_bind, Bool.not_true]
      rw [zipEq_eq_zip _ _ hl]
      simp only [Res.ok_bind]
      rw [combine_mapM _ _ hag.1]
      rfl
    · simp [ha.1, hb.1]
    · intro i j c h1 h2
      rw [gives_merge hl hag] at h1 h2
      rcases h1 with h1 | h1 <;> rcases h2 with h2 | h2
      · exact ha.2.1 _ _ _ h1 h2
      · exact hag.2 _ _ _ h1 h2
      · exact (hag.2 _ _ _ h2 h1).symm
      · exact hb.2.1 _ _ _ h1 h2
    · intro i c h1
      rw [gives_merge hl hag] at h1
      simp only [List.length_zipWith]
      rcases h1 with h1 | h1
      · have := ha.2.2 _ _ h1
        omega
      · have := hb.2.2 _ _ h1
        omega

theorem matches_and {a b m : Mask} (hl : a.bells.length = b.bells.length)
    (hm : m.bells.length = a.bells.length) (h : ∀ i c, m.Gives i c ↔ a.Gives i c ∨ b.Gives i c)
    (r : Row) : m.Matches r ↔ a.Matches r ∧ b.Matches r := by
  unfold Matches
  constructor
  · rintro ⟨h1, h2⟩
    exact ⟨⟨by omega, fun i c hc => h2 i c ((h i c).2 (.inl hc))⟩,
      ⟨by omega, fun i c hc => h2 i c ((h i c).2 (.inr hc))⟩⟩
  · rintro ⟨⟨h1, h2⟩, ⟨h3, h4⟩⟩
    refine ⟨by omega, fun i c hc => ?_⟩
    rcases (h i c).1 hc with hc | hc
    · exact h2 i c hc
    · exact h4 i c hc

/-! ### Setting bells -/

theorem setIdx_gives {m : Mask} {b : Bell} {p : Nat} (hp : p < m.bells.length) (i : Nat) (c : Bell) :
    (⟨m.bells.set p (some b)⟩ : Mask).Gives i c ↔ (i = p ∧ c = b) ∨ (i ≠ p ∧ m.Gives i c) := by
  unfold Gives
  simp only [List.getElem?_set]
  by_cases hi : p = i
  · subst hi
    simp [hp, eq_comm]
  · rw [if_neg hi]
    simp [Ne.symm hi, eq_comm]

/-! ### Products -/

theorem mulRow_eq {m : Mask} {n : Nat} (hn : 0 < n) (hl : m.bells.length = n)
    (τ : Equiv.Perm (Fin n)) :
    ∃ m', m.mulRow (Row.ofPerm τ) = .ok m' ∧ m'.bells.length = n ∧
      ∀ (i : Fin n) b, m'.Gives i b ↔ m.Gives (τ i) b := by
  have hne : m.bells ≠ [] := by
    intro h; rw [h] at hl; simp at hl; omega
  unfold mulRow
  rw [stage_of_ne hne, Row.ofPerm_stage hn, hl]
  simp only [Res.ok_bind, BEq.rfl, assertThat_true]
  rw [mapM_res_eq_ok (g := fun b => m.bells[b.index]?.getD none)]
  · refine ⟨_, rfl, by simp, fun i b => ?_⟩
    unfold Gives
    have hlt : (τ i).val < m.bells.length := hl ▸ (τ i).isLt
    simp [List.getElem?_map, Row.ofPerm_getElem? τ i.val i.isLt, List.getElem?_eq_getElem hlt]
  · intro b hb
    rw [Row.mem_ofPerm] at hb
    have hlt : b.index < m.bells.length := hl ▸ hb
    simp [hlt]

theorem rowMul_eq {m : Mask} {n : Nat} (hn : 0 < n) (hl : m.bells.length = n)
    (hb : ∀ i b, m.Gives i b → b.index < n) (τ : Equiv.Perm (Fin n)) :
    ∃ m', rowMul (Row.ofPerm τ) m = .ok m' ∧ m'.bells.length = n ∧
      ∀ i b, m'.Gives i b ↔ ∃ c : Fin n, m.Gives i ⟨c.val⟩ ∧ b = ⟨(τ c).val⟩ := by
  have hne : m.bells ≠ [] := by
    intro h; rw [h] at hl; simp at hl; omega
  unfold rowMul
  rw [stage_of_ne hne, Row.ofPerm_stage hn, hl]
  simp only [Res.ok_bind, BEq.rfl, assertThat_true]
  rw [mapM_res_eq_ok (g := fun x => x.map fun b => (Row.ofPerm τ).bells[b.index]?.getD b)]
  · refine ⟨_, rfl, by simpa using hl, fun i b => ?_⟩
    unfold Gives
    rw [List.getElem?_map]
    constructor
    · intro h
      cases hx : m.bells[i]? with
      | none => rw [hx] at h; simp at h
      | some x =>
        rw [hx] at h
        cases x with
        | none => simp at h
        | some c =>
          have hc := hb i c hx
          refine ⟨⟨c.index, hc⟩, rfl, ?_⟩
          simp [Row.ofPerm_getElem? τ c.index hc] at h
          exact h.symm
    · rintro ⟨c, hc, rfl⟩
      rw [hc]
      simp [Row.ofPerm_getElem? τ c.val c.isLt]
  · intro x hx
    cases x with
    | none => rfl
    | some c =>
      obtain ⟨i, hi⟩ := List.getElem?_of_mem hx
      have hc := hb i c hi
      simp [transfigureBell, hc, getIdx_of_lt]

/-! ### Well-formedness in terms of the list of bells given -/

theorem ext_iff' {a b : Mask} : a = b ↔ a.bells = b.bells := by
  cases a; cases b; simp

theorem wellFormed_iff_given (m : Mask) :
    m.WellFormed ↔ m.bells ≠ [] ∧ (m.bells.filterMap id).Nodup ∧
      ∀ b ∈ m.bells.filterMap id, b.index < m.bells.length := by
  obtain ⟨xs⟩ := m
  have hmem : ∀ b : Bell, b ∈ xs.filterMap id ↔ ∃ i, (⟨xs⟩ : Mask).Gives i b := by
    intro b
    unfold Gives
    rw [List.mem_filterMap]
    constructor
    · rintro ⟨x, hx, hxb⟩
      obtain ⟨i, hi⟩ := List.getElem?_of_mem hx
      refine ⟨i, ?_⟩
      rw [hi]
      simpa using hxb
    · rintro ⟨i, hi⟩
      exact ⟨some b, List.mem_of_getElem? hi, rfl⟩
  have hnd : (xs.filterMap id).Nodup ↔
      ∀ i j b, (⟨xs⟩ : Mask).Gives i b → (⟨xs⟩ : Mask).Gives j b → i = j := by
    clear hmem
    induction xs with
    | nil => simp [Gives]
    | cons x xs ih =>
      have key : (∀ i j b, (⟨x :: xs⟩ : Mask).Gives i b → (⟨x :: xs⟩ : Mask).Gives j b → i = j) ↔
          (∀ b, x = some b → ∀ j, ¬ (⟨xs⟩ : Mask).Gives j b) ∧
          ∀ i j b, (⟨xs⟩ : Mask).Gives i b → (⟨xs⟩ : Mask).Gives j b → i = j := by
        constructor
        · intro H
          refine ⟨fun b hb j hj => ?_, fun i j b h1 h2 => ?_⟩
          · have := H 0 (j + 1) b ((gives_cons_zero x xs b).2 hb) ((gives_cons_succ x xs j b).2 hj)
            omega
          · have := H (i + 1) (j + 1) b ((gives_cons_succ x xs i b).2 h1)
              ((gives_cons_succ x xs j b).2 h2)
            omega
        · rintro ⟨H0, H⟩ i j b h1 h2
          cases i with
          | zero =>
            cases j with
            | zero => rfl
            | succ j =>
              exact absurd ((gives_cons_succ x xs j b).1 h2) (H0 b ((gives_cons_zero x xs b).1 h1) j)
          | succ i =>
            cases j with
            | zero =>
              exact absurd ((gives_cons_succ x xs i b).1 h1) (H0 b ((gives_cons_zero x xs b).1 h2) i)
            | succ j =>
              rw [H i j b ((gives_cons_succ x xs i b).1 h1) ((gives_cons_succ x xs j b).1 h2)]
      rw [key, ← ih]
      cases x with
      | none => simp
      | some b =>
        have : (∀ c, some b = some c → ∀ j, ¬ (⟨xs⟩ : Mask).Gives j c) ↔ b ∉ xs.filterMap id := by
          rw [List.mem_filterMap]
          constructor
          · rintro H ⟨y, hy, hyb⟩
            obtain ⟨i, hi⟩ := List.getElem?_of_mem hy
            refine H b rfl i ?_
            unfold Gives
            rw [hi]
            simpa using hyb
          · rintro H c hc j hj
            cases hc
            exact H ⟨some b, List.mem_of_getElem? hj, rfl⟩
        rw [this, List.filterMap_cons]
        simp
  unfold Mask.WellFormed
  rw [hnd]
  refine and_congr_right fun _ => and_congr_right fun _ => ?_
  constructor
  · intro h b hb
    obtain ⟨i, hi⟩ := (hmem b).1 hb
    exact h i b hi
  · intro h i b hb
    exact h b ((hmem b).2 ⟨i, hb⟩)

end Mask

end Bellframe
