import Verif.Spec.Block
import Verif.Proofs.SameStageVec
import Verif.Proofs.RowSets

/-! # Lemmas about blocks -/

namespace Bellframe

theorem zipEq_eq_zip {α β : Type} : ∀ (as : List α) (bs : List β), as.length = bs.length →
    zipEq as bs = .ok (as.zip bs)
  | [], [], _ => rfl
  | a :: as, b :: bs, h => by
    rw [zipEq, zipEq_eq_zip as bs (by simpa using h)]; rfl
  | [], _ :: _, h => by simp at h
  | _ :: _, [], h => by simp at h

theorem zipEq_ne {α β : Type} : ∀ (as : List α) (bs : List β), as.length ≠ bs.length →
    zipEq as bs = .error .zipEq
  | [], [], h => absurd rfl h
  | a :: as, b :: bs, h => by
    rw [zipEq, zipEq_ne as bs (by simpa using h)]; rfl
  | [], _ :: _, _ => rfl
  | _ :: _, [], _ => rfl

theorem Row.solveXa_ofPerm {n : Nat} (hn : 0 < n) (σ τ : Equiv.Perm (Fin n)) :
    Row.solveXaEqualsB (Row.ofPerm σ) (Row.ofPerm τ) = .ok (.ok (Row.ofPerm (τ * σ⁻¹))) := by
  simp [Row.solveXaEqualsB, Row.inv_ofPerm hn, Row.mulResult_ofPerm hn]

theorem Row.solveXa_mismatch {a b : Row} (ha : a.Valid) (hb : b.Valid)
    (h : a.bells.length ≠ b.bells.length) :
    Row.solveXaEqualsB a b = .ok (.error ⟨⟨b.bells.length⟩, ⟨a.bells.length⟩⟩) := by
  obtain ⟨n, hn, σ, rfl⟩ := Row.valid_iff_exists_perm.1 ha
  simp only [Row.solveXaEqualsB, Row.inv_ofPerm hn, Res.ok_bind]
  rw [Row.mulResult_mismatch hb (Row.ofPerm_valid hn _) (by simpa using h.symm)]
  simp

theorem RowsOf.perms {n : Nat} (hn : 0 < n) (S : List (Equiv.Perm (Fin n))) :
    RowsOf ⟨n⟩ (S.map Row.ofPerm) := by
  refine ⟨hn, fun r hr => ?_⟩
  obtain ⟨σ, -, rfl⟩ := List.mem_map.1 hr
  exact ⟨Row.ofPerm_valid hn σ, by simp⟩

theorem map_comp_ofPerm {n : Nat} (t : Equiv.Perm (Fin n)) (S : List (Equiv.Perm (Fin n))) :
    (S.map Row.ofPerm).map (Row.comp (Row.ofPerm t)) = (S.map (t * ·)).map Row.ofPerm := by
  simp [Row.comp_ofPerm]

namespace AnnotBlock

variable {A : Type} {n : Nat}

theorem wellFormed_iff (b : AnnotBlock A) : b.WellFormed ↔
    ∃ n, 0 < n ∧ ∃ (σs : List (Equiv.Perm (Fin n))) (l : Equiv.Perm (Fin n)),
      σs.length = b.annots.length ∧ b = ofPerms σs l b.annots := by
  constructor
  · rintro ⟨rows, h1, h2, h3⟩
    obtain ⟨S, rfl⟩ := Row.exists_perms (n := b.rows.stage.numBells) h1.2
    rcases List.eq_nil_or_concat S with rfl | ⟨σs, l, rfl⟩
    · simp at h3
    · refine ⟨_, h1.1, σs, l, by simpa using h3, ?_⟩
      cases b
      simp only [ofPerms, mk.injEq, and_true]
      exact h2.trans (by simp)
  · rintro ⟨n, hn, σs, l, h, he⟩
    rw [he]
    exact ⟨(σs ++ [l]).map Row.ofPerm, RowsOf.perms hn _, rfl, by simp [ofPerms, h]⟩

theorem ofPerms_wellFormed (hn : 0 < n) {σs : List (Equiv.Perm (Fin n))} {l : Equiv.Perm (Fin n)}
    {annots : List A} (h : σs.length = annots.length) : (ofPerms σs l annots).WellFormed :=
  ⟨(σs ++ [l]).map Row.ofPerm, RowsOf.perms hn _, rfl, by simp [ofPerms, h]⟩

/-- A well-formed block stores its rows as in `SameStageVec.ofRows`. -/
theorem WellFormed.cases {b : AnnotBlock A} (h : b.WellFormed) :
    ∃ n, 0 < n ∧ ∃ (σs : List (Equiv.Perm (Fin n))) (l : Equiv.Perm (Fin n)) (annots : List A),
      σs.length = annots.length ∧ b = ofPerms σs l annots := by
  obtain ⟨n, hn, σs, l, h1, h2⟩ := (wellFormed_iff b).1 h
  exact ⟨n, hn, σs, l, _, h1, h2⟩

section

variable (hn : 0 < n) (σs : List (Equiv.Perm (Fin n))) (l : Equiv.Perm (Fin n)) (annots : List A)

include hn

theorem leftover_ofPerms : (ofPerms σs l annots).leftoverRow = .ok (Row.ofPerm l) := by
  simp only [leftoverRow, ofPerms, SameStageVec.ofRows_last (RowsOf.perms hn _), Res.ok_bind]
  simp

theorem getRow_ofPerms (i : Nat) :
    (ofPerms σs l annots).getRow i = ((σs ++ [l])[i]?).map Row.ofPerm := by
  rw [getRow, ofPerms, SameStageVec.ofRows_get (RowsOf.perms hn _), List.getElem?_map]

theorem firstRow_ofPerms : (ofPerms σs l annots).firstRow =
    .ok (Row.ofPerm ((σs.head?).getD l)) := by
  simp only [firstRow, ofPerms, SameStageVec.ofRows_first (RowsOf.perms hn _)]
  cases σs <;> rfl

theorem rowsIter_ofPerms : (ofPerms σs l annots).rowsIter =
    .ok (SameStageVec.ofRows ⟨n⟩ (σs.map Row.ofPerm)).iter := by
  simp only [rowsIter, allRows, ofPerms, SameStageVec.nextBack_ofRows (RowsOf.perms hn _),
    Res.ok_bind]
  simp

theorem annotRows_ofPerms (h : σs.length = annots.length) :
    (ofPerms σs l annots).annotRows = .ok ((σs.map Row.ofPerm).zip annots) := by
  simp only [annotRows, rowsIter_ofPerms hn, Res.ok_bind,
    SameStageVec.collect_ofRows _ (RowsOf.perms hn _)]
  exact zipEq_eq_zip _ _ (by simpa [ofPerms] using h)

theorem preMultiply_ofPerms (t : Equiv.Perm (Fin n)) :
    (ofPerms σs l annots).preMultiply (Row.ofPerm t) =
      .ok (ofPerms (σs.map (t * ·)) (t * l) annots, .ok ()) := by
  simp only [preMultiply, ofPerms,
    SameStageVec.ofRows_preMultiply (RowsOf.perms hn _) _ (Row.ofPerm_valid hn t),
    Row.ofPerm_length, if_true, Res.ok_bind, map_comp_ofPerm]
  simp

theorem preMultiply_mismatch (t : Row) (ht : t.Valid) (h : t.bells.length ≠ n) :
    (ofPerms σs l annots).preMultiply t =
      .ok (ofPerms σs l annots, .error ⟨⟨t.bells.length⟩, ⟨n⟩⟩) := by
  simp only [preMultiply, ofPerms,
    SameStageVec.ofRows_preMultiply (RowsOf.perms hn _) _ ht, if_neg h, Res.ok_bind]
  rfl

/-- `extend_range` with a range inside the other block. -/
theorem extendRange_ofPerms (τs : List (Equiv.Perm (Fin n))) (m : Equiv.Perm (Fin n))
    (bnnots : List A) (a b : Utils.Bound) (lo hi : Nat)
    (hr : Utils.clampRange a b bnnots.length = (lo, hi))
    (f : Equiv.Perm (Fin n)) (hf : (τs ++ [m])[lo]? = some f) (hlo : lo ≤ hi + 1)
    (hhi : hi ≤ τs.length) :
    (ofPerms σs l annots).extendRange (ofPerms τs m bnnots) a b =
      .ok (⟨.ofRows ⟨n⟩ ((σs ++ (((τs ++ [m]).take (hi + 1)).drop lo).map (l * f⁻¹ * ·)).map Row.ofPerm),
        annots ++ bnnots⟩, .ok ()) := by
  have hlen : (ofPerms τs m bnnots).len = bnnots.length := rfl
  have hpop : (ofPerms σs l annots).rows.pop =
      .ok (SameStageVec.ofRows ⟨n⟩ (σs.map Row.ofPerm), some (Row.ofPerm l)) := by
    rw [ofPerms, SameStageVec.ofRows_pop (RowsOf.perms hn _)]
    simp
  have hext := SameStageVec.ofRows_extendRangeTransposed (s := ⟨n⟩) (rows := σs.map Row.ofPerm)
    (Row.ofPerm (l * f⁻¹)) (Row.ofPerm_valid hn _) ⟨n⟩ ((τs ++ [m]).map Row.ofPerm)
    (RowsOf.perms hn _) (fun _ => rfl) (.included lo) (.excluded (hi + 1))
  simp only [Row.ofPerm_length, if_true] at hext
  have hc : Utils.clampRange (.included lo) (.excluded (hi + 1))
    ((τs ++ [m]).map Row.ofPerm).length = (lo, hi + 1) := rfl
  rw [hc] at hext
  have hcond : lo ≤ hi + 1 ∧ hi + 1 ≤ ((τs ++ [m]).map Row.ofPerm).length := by simp; omega
  rw [if_pos hcond] at hext
  simp only [extendRange, hlen, hr, getRow_ofPerms hn, hf, Option.map_some, unwrap_some, Res.ok_bind,
    leftover_ofPerms hn, Row.solveXa_ofPerm hn, hpop]
  rw [show (ofPerms τs m bnnots).rows = SameStageVec.ofRows ⟨n⟩ ((τs ++ [m]).map Row.ofPerm) from rfl,
    hext]
  simp only [Res.ok_bind, unwrapResult_ok, Res.pure_eq]
  rw [← List.map_take, ← List.map_drop, map_comp_ofPerm, ← List.map_append]
  rfl

theorem extend_ofPerms (τs : List (Equiv.Perm (Fin n))) (m : Equiv.Perm (Fin n))
    (bnnots : List A) (h : τs.length = bnnots.length) (f : Equiv.Perm (Fin n))
    (hf : f = (τs ++ [m]).head (by simp)) :
    (ofPerms σs l annots).extend (ofPerms τs m bnnots) =
      .ok (ofPerms (σs ++ τs.map (l * f⁻¹ * ·)) (l * f⁻¹ * m) (annots ++ bnnots), .ok ()) := by
  have hf0 : (τs ++ [m])[0]? = some f := by
    rw [← List.head?_eq_getElem?, hf, List.head?_eq_some_head]
  rw [extend, extendRange_ofPerms hn σs l annots τs m bnnots .unbounded .unbounded 0 bnnots.length rfl
    f hf0 (by omega) (by omega)]
  rw [List.drop_zero, List.take_of_length_le (by simp; omega)]
  simp [ofPerms]

theorem extend_mismatch {k : Nat} (hk : 0 < k) (hnk : n ≠ k) (τs : List (Equiv.Perm (Fin k)))
    (m : Equiv.Perm (Fin k)) (bnnots : List A) :
    (ofPerms σs l annots).extend (ofPerms τs m bnnots) =
      .ok (ofPerms σs l annots, .error ⟨⟨n⟩, ⟨k⟩⟩) := by
  have hlen : (ofPerms τs m bnnots).len = bnnots.length := rfl
  obtain ⟨f, hf⟩ : ∃ f, (τs ++ [m])[0]? = some f := by
    cases τs <;> simp
  simp only [extend, extendRange, Utils.clampRange, getRow_ofPerms hk, hf, Option.map_some,
    unwrap_some, Res.ok_bind, leftover_ofPerms hn]
  rw [Row.solveXa_mismatch (Row.ofPerm_valid hk f) (Row.ofPerm_valid hn l)
    (by simpa using Ne.symm hnk)]
  simp

/-- `extend_from_within` with a valid range. -/
theorem extendFromWithin_ofPerms (h : σs.length = annots.length) (a b : Utils.Bound) (lo hi : Nat)
    (hr : Utils.clampRange a b annots.length = (lo, hi))
    (f : Equiv.Perm (Fin n)) (hf : (σs ++ [l])[lo]? = some f) (hlo : lo ≤ hi)
    (hhi : hi ≤ annots.length) :
    (ofPerms σs l annots).extendFromWithin a b =
      .ok ⟨.ofRows ⟨n⟩ ((σs ++ [l] ++ (((σs ++ [l]).take (hi + 1)).drop (lo + 1)).map
          (l * f⁻¹ * ·)).map Row.ofPerm),
        annots ++ (annots.take hi).drop lo⟩ := by
  have hlen : (ofPerms σs l annots).len = annots.length := rfl
  have hext := SameStageVec.ofRows_extendTransposedFromWithin
    (RowsOf.perms hn (σs ++ [l])) (Row.ofPerm (l * f⁻¹)) (Row.ofPerm_valid hn _)
    (.included (lo + 1)) (.excluded (hi + 1))
  simp only [Row.ofPerm_length, if_true] at hext
  have hc : Utils.clampRange (.included (lo + 1)) (.excluded (hi + 1))
    ((σs ++ [l]).map Row.ofPerm).length = (lo + 1, hi + 1) := rfl
  rw [hc] at hext
  simp only at hext
  rw [SameStageVec.copyRows_in_range _ _ _ _ (by simp; omega)] at hext
  have hs : sliceIdx annots lo hi = .ok ((annots.take hi).drop lo) := by
    simp [sliceIdx, sliceGet, hlo, hhi]
  simp only [extendFromWithin, hlen, hr, getRow_ofPerms hn, hf, Option.map_some, unwrap_some,
    Res.ok_bind, leftover_ofPerms hn, Row.solveXa_ofPerm hn, unwrapResult_ok]
  rw [show (ofPerms σs l annots).rows = SameStageVec.ofRows ⟨n⟩ ((σs ++ [l]).map Row.ofPerm) from rfl,
    hext, show (ofPerms σs l annots).annots = annots from rfl, hs]
  simp only [Except.map, Res.ok_bind, unwrapResult_ok, Res.pure_eq]
  rw [← List.map_drop, ← List.map_take, map_comp_ofPerm, ← List.map_append, ← List.drop_take]

/-- Any other range makes `extend_from_within` panic. -/
theorem extendFromWithin_panics (h : σs.length = annots.length) (a b : Utils.Bound) (lo hi : Nat)
    (hr : Utils.clampRange a b annots.length = (lo, hi)) (hbad : hi < lo ∨ annots.length < hi) :
    ∃ e, (ofPerms σs l annots).extendFromWithin a b = .error e := by
  have hlen : (ofPerms σs l annots).len = annots.length := rfl
  have hs : sliceIdx annots lo hi = .error .index := by
    have : ¬ (lo ≤ hi ∧ hi ≤ annots.length) := by omega
    simp [sliceIdx, sliceGet, this]
  simp only [extendFromWithin, hlen, hr, getRow_ofPerms hn]
  cases hf : (σs ++ [l])[lo]? with
  | none => exact ⟨_, rfl⟩
  | some f =>
    have hext := SameStageVec.ofRows_extendTransposedFromWithin
      (RowsOf.perms hn (σs ++ [l])) (Row.ofPerm (l * f⁻¹)) (Row.ofPerm_valid hn _)
      (.included (lo + 1)) (.excluded (hi + 1))
    simp only [Row.ofPerm_length, if_true] at hext
    simp only [Option.map_some, unwrap_some, Res.ok_bind, leftover_ofPerms hn,
      Row.solveXa_ofPerm hn, unwrapResult_ok]
    rw [show (ofPerms σs l annots).rows = SameStageVec.ofRows ⟨n⟩ ((σs ++ [l]).map Row.ofPerm)
        from rfl, hext, show (ofPerms σs l annots).annots = annots from rfl, hs]
    generalize SameStageVec.copyRows _ _ _ = x
    cases x with
    | error e => exact ⟨_, rfl⟩
    | ok v => exact ⟨_, rfl⟩

theorem split_ofPerms (h : σs.length = annots.length) (i : Nat) :
    (ofPerms σs l annots).split i =
      if i ≤ annots.length then
        .ok (some (ofPerms (σs.take i) (((σs ++ [l])[i]?).getD l) (annots.take i),
          ofPerms (σs.drop i) l (annots.drop i)))
      else .ok none := by
  by_cases hi : i ≤ annots.length
  · have hrows := RowsOf.perms hn (σs ++ [l])
    have hdrop := hrows.drop i
    obtain ⟨f, hf⟩ : ∃ f, (σs ++ [l])[i]? = some f :=
      ⟨_, List.getElem?_eq_getElem (by simp; omega)⟩
    have hfirst : (((σs ++ [l]).map Row.ofPerm).drop i).head? = some (Row.ofPerm f) := by
      rw [List.head?_drop, List.getElem?_map, hf]; rfl
    have hgt : ¬ i > annots.length := by omega
    simp only [split, ofPerms, Utils.splitVec, hgt, if_false,
      SameStageVec.ofRows_split hrows]
    rw [if_pos (show i ≤ ((σs ++ [l]).map Row.ofPerm).length by simp; omega)]
    simp only [SameStageVec.ofRows_first hdrop, hfirst, unwrap_some, Res.ok_bind,
      SameStageVec.ofRows_push _ (Row.ofPerm_valid hn f), Row.ofPerm_length, if_true, unwrapResult_ok,
      if_pos hi, hf, Option.getD_some, Res.pure_eq]
    rw [← List.map_take, ← List.map_drop, List.take_append_of_le_length (by omega), List.drop_append_of_le_length (by omega)]
    simp
  · have hgt : i > annots.length := by omega
    simp only [split, ofPerms, Utils.splitVec, hgt, if_true, if_neg hi]
    rfl

theorem pathOf_ofPerms_len : (ofPerms σs l annots).rows.len = .ok (σs.length + 1) := by
  rw [ofPerms, SameStageVec.ofRows_len (RowsOf.perms hn _)]; simp

end

end AnnotBlock

variable {n : Nat}

theorem placeOf_ofPerm (σ : Equiv.Perm (Fin n)) (b : Fin n) :
    (Row.ofPerm σ).placeOf ⟨b.val⟩ = some (σ⁻¹ b).val := by
  unfold Row.placeOf
  rw [List.findIdx?_eq_some_iff_getElem]
  refine ⟨by simp, ?_, ?_⟩
  · simp [Row.ofPerm]
  · intro j hj
    simp only [Row.ofPerm, List.getElem_ofFn, Bell.mk.injEq, beq_iff_eq, Bool.not_eq_true,
      beq_eq_false_iff_ne, ne_eq]
    intro h
    have : σ ⟨j, by omega⟩ = b := Fin.ext h
    rw [← this] at hj
    simp at hj

theorem fullPathOf_ofPerms {A : Type} (hn : 0 < n) (lead : List (Equiv.Perm (Fin n)))
    (τ : Equiv.Perm (Fin n)) (annots : List A) (b : Fin n) :
    (AnnotBlock.ofPerms lead τ annots).fullPathOf ⟨b.val⟩ =
      .ok (some ((lead ++ [τ]).map fun σ => (σ⁻¹ b).val)) := by
  rcases SameStageVec.ofRows_pathOf (RowsOf.perms hn (lead ++ [τ])) ⟨b.val⟩ with
    ⟨path, h1, h2, h3, h4⟩ | ⟨h1, _⟩
  · refine h1.trans ?_
    congr 2
    apply List.ext_getElem
    · simpa using h3
    · intro i hi hi'
      have h5 := (h4 i path[i]).1 (List.getElem?_eq_getElem hi)
      obtain ⟨r, hr, hp⟩ := h5
      rw [List.getElem?_map] at hr
      obtain ⟨σ, hσ, rfl⟩ := Option.map_eq_some_iff.1 hr
      rw [placeOf_ofPerm] at hp
      have h6 : (lead ++ [τ])[i]'(by simpa using hi') = σ := by
        rw [List.getElem?_eq_some_iff] at hσ
        exact hσ.2
      rw [List.getElem_map, h6]
      exact (Option.some.inj hp).symm
  · have := b.isLt
    simp at h1
    omega

end Bellframe
