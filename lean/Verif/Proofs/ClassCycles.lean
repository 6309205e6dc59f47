import Verif.Spec.Class
import Verif.Model.Class
import Verif.Proofs.Method
import Mathlib.GroupTheory.Perm.Cycle.Basic
import Mathlib.Data.List.OfFn

/-! # Lemmas about the cycles found by the classification -/

namespace Bellframe

open Equiv

variable {n : Nat} {A : Type}

/-! ## Orbits -/

theorem perm_iterate (f : Perm (Fin n)) (k : Nat) (x : Fin n) : (⇑f)^[k] x = (f ^ k) x := by
  rw [← Equiv.Perm.iterate_eq_pow]

theorem isPeriodicPt_iff (f : Perm (Fin n)) (k : Nat) (x : Fin n) :
    Function.IsPeriodicPt f k x ↔ (f ^ k) x = x := by
  unfold Function.IsPeriodicPt Function.IsFixedPt
  rw [perm_iterate]

theorem minimalPeriod_inv (f : Perm (Fin n)) (x : Fin n) :
    Function.minimalPeriod (f⁻¹ : Perm (Fin n)) x = Function.minimalPeriod f x := by
  have h : ∀ k, ((f⁻¹ : Perm (Fin n)) ^ k) x = x ↔ (f ^ k) x = x := by
    intro k
    rw [inv_pow, Equiv.Perm.inv_eq_iff_eq]
    exact eq_comm
  apply Nat.dvd_antisymm
  · rw [← Function.isPeriodicPt_iff_minimalPeriod_dvd, isPeriodicPt_iff, h, ← isPeriodicPt_iff]
    exact Function.isPeriodicPt_minimalPeriod _ _
  · rw [← Function.isPeriodicPt_iff_minimalPeriod_dvd, isPeriodicPt_iff, ← h, ← isPeriodicPt_iff]
    exact Function.isPeriodicPt_minimalPeriod _ _

theorem minimalPeriod_pos (f : Perm (Fin n)) (x : Fin n) : 0 < Function.minimalPeriod f x := by
  apply Function.IsPeriodicPt.minimalPeriod_pos (orderOf_pos f)
  rw [isPeriodicPt_iff, pow_orderOf_eq_one]
  rfl

theorem pow_minimalPeriod (f : Perm (Fin n)) (x : Fin n) :
    (f ^ Function.minimalPeriod f x) x = x := by
  rw [← isPeriodicPt_iff]
  exact Function.isPeriodicPt_minimalPeriod _ _

theorem pow_ne_of_lt (f : Perm (Fin n)) (x : Fin n) {k : Nat} (h0 : 0 < k)
    (hk : k < Function.minimalPeriod f x) : (f ^ k) x ≠ x := by
  rw [Ne, ← isPeriodicPt_iff]
  exact Function.not_isPeriodicPt_of_pos_of_lt_minimalPeriod (by omega) hk

theorem sameCycle_iff (f : Perm (Fin n)) (x y : Fin n) :
    f.SameCycle x y ↔ ∃ k < Function.minimalPeriod f x, (f ^ k) x = y := by
  constructor
  · intro h
    obtain ⟨k, rfl⟩ := h.exists_nat_pow_eq
    refine ⟨k % Function.minimalPeriod f x, Nat.mod_lt _ (minimalPeriod_pos f x), ?_⟩
    rw [← perm_iterate, ← perm_iterate, Function.iterate_mod_minimalPeriod_eq]
  · rintro ⟨k, _, rfl⟩
    exact ⟨k, by simp⟩

theorem sameCycle_minimalPeriod {f : Perm (Fin n)} {x y : Fin n} (h : f.SameCycle x y) :
    Function.minimalPeriod f x = Function.minimalPeriod f y := by
  obtain ⟨k, _, rfl⟩ := (sameCycle_iff f x y).1 h
  rw [← perm_iterate]
  exact (Function.minimalPeriod_apply_iterate
    (Function.mk_mem_periodicPts (minimalPeriod_pos f x) (Function.isPeriodicPt_minimalPeriod _ _)) k).symm

/-! ## Places in the plain course -/

theorem placeOfBell_add (lead : List (Perm (Fin n))) (τ : Perm (Fin n)) (hne : lead ≠ [])
    (b : Fin n) (k t : Nat) :
    placeOfBell lead τ b (k * lead.length + t) = placeOfBell lead τ ((τ⁻¹ ^ k) b) t := by
  unfold placeOfBell
  rw [courseRow_add lead τ hne, mul_inv_rev, Equiv.Perm.mul_apply, inv_pow]

theorem pathOf_ofPerms (hn : 0 < n) (lead : List (Perm (Fin n))) (τ : Perm (Fin n))
    (annots : List A) (b : Fin n) :
    (AnnotBlock.ofPerms lead τ annots).pathOf ⟨b.val⟩ =
      .ok (some ((List.range lead.length).map fun t => (placeOfBell lead τ b t).val, (τ⁻¹ b).val)) := by
  unfold AnnotBlock.pathOf
  rw [fullPathOf_ofPerms hn]
  simp only [Res.ok_bind, List.map_append, List.map_cons, List.map_nil, List.getLast?_append,
    List.getLast?_singleton, Option.some_or, unwrap_some, List.dropLast_concat, Res.pure_eq]
  congr 3
  apply List.ext_getElem
  · simp
  · intro i h1 h2
    simp only [List.getElem_map, List.getElem_range]
    unfold placeOfBell
    rw [courseRow_lead τ (by simpa using h1)]

/-! ## Following one cycle -/

/-- The cycle found from the bell `s`. -/
noncomputable def cycleFrom (lead : List (Perm (Fin n))) (τ : Perm (Fin n)) (s : Fin n) : Cycle :=
  ⟨(List.range (Function.minimalPeriod τ s)).map fun j => ⟨((τ⁻¹ ^ j) s).val⟩,
    (List.range (Function.minimalPeriod τ s * lead.length)).map fun t => (placeOfBell lead τ s t).val⟩

theorem setIdx_ofFn {α : Type} (f : Fin n → α) (i : Fin n) (a : α) :
    setIdx (List.ofFn f) i.val a = .ok (List.ofFn fun j => if j = i then a else f j) := by
  rw [setIdx, if_pos (by simp)]
  congr 1
  apply List.ext_getElem
  · simp
  · intro j h1 h2
    rw [List.getElem_set, List.getElem_ofFn]
    by_cases h : i.val = j
    · have h' : (⟨j, by simpa using h2⟩ : Fin n) = i := Fin.ext h.symm
      simp only [List.getElem_ofFn, h', if_true, h]
    · have h' : (⟨j, by simpa using h2⟩ : Fin n) ≠ i := fun h' => h (by rw [← h'])
      simp only [List.getElem_ofFn, if_neg h', if_neg h]

theorem followLoop_returns (hn : 0 < n) (lead : List (Perm (Fin n))) (τ : Perm (Fin n))
    (annots : List A) (hne : lead ≠ []) (s : Fin n) (d : Nat) :
    ∀ (k : Nat) (f : Fin n → Bool) (bells : List Bell) (path : List Nat),
      k + d + 1 = Function.minimalPeriod τ s →
      ∃ g : Fin n → Bool,
        (∀ b, g b = true ↔ f b = true ∧ ∀ j, k ≤ j → j < Function.minimalPeriod τ s → b ≠ (τ⁻¹ ^ j) s) ∧
        (Cycle.followLoop (.ofPerms lead τ annots) ⟨s.val⟩ ⟨((τ⁻¹ ^ k) s).val⟩ (List.ofFn f) bells path).Returns
          (List.ofFn g, ⟨bells ++ (List.range' k (d + 1)).map (fun j => ⟨((τ⁻¹ ^ j) s).val⟩),
            path ++ (List.range' (k * lead.length) ((d + 1) * lead.length)).map
              fun t => (placeOfBell lead τ s t).val⟩) := by
  induction d with
  | zero =>
    intro k f bells path hk
    refine ⟨fun j => if j = (τ⁻¹ ^ k) s then false else f j, ?_, ?_⟩
    · intro b
      by_cases h : b = (τ⁻¹ ^ k) s
      · simp only [h, if_true, Bool.false_eq_true, ne_eq, false_iff, not_and, not_forall]
        intro _
        exact ⟨k, le_refl _, by omega, fun h' => h' rfl⟩
      · simp only [if_neg h, ne_eq, iff_self_and]
        intro _ j h1 h2
        have : j = k := by omega
        rwa [this]
    · rw [Cycle.followLoop]
      have hback : (τ⁻¹ ((τ⁻¹ ^ k) s)) = s := by
        rw [← Equiv.Perm.mul_apply, ← pow_succ', show k + 1 = Function.minimalPeriod τ s from by omega,
          ← minimalPeriod_inv]
        exact pow_minimalPeriod _ _
      simp only [setIdx_ofFn, Run.lift_eq, Run.ofRes_ok_bind, pathOf_ofPerms hn, unwrap_some, hback,
        Bell.fromIndex, if_true, Run.pure_eq, Run.returns_ofRes, Except.ok.injEq, Prod.mk.injEq,
        true_and, Cycle.mk.injEq, List.append_cancel_left_eq]
      refine ⟨by simp, ?_⟩
      rw [Nat.zero_add, Nat.one_mul, List.range'_eq_map_range, List.map_map]
      apply List.map_congr_left
      intro t _
      simp only [Function.comp_apply]
      rw [placeOfBell_add lead τ hne]
  | succ d ih =>
    intro k f bells path hk
    obtain ⟨g, hg1, hg2⟩ := ih (k + 1) (fun j => if j = (τ⁻¹ ^ k) s then false else f j)
      (bells ++ [⟨((τ⁻¹ ^ k) s).val⟩])
      (path ++ (List.range lead.length).map fun t => (placeOfBell lead τ ((τ⁻¹ ^ k) s) t).val) (by omega)
    refine ⟨g, ?_, ?_⟩
    · intro b
      rw [hg1]
      by_cases h : b = (τ⁻¹ ^ k) s
      · simp only [h, if_true, Bool.false_eq_true, false_and, ne_eq, false_iff, not_and, not_forall]
        intro _
        exact ⟨k, le_refl _, by omega, fun h' => h' rfl⟩
      · simp only [if_neg h]
        refine and_congr_right fun _ => ?_
        constructor
        · intro H j h1 h2
          by_cases hj : j = k
          · rwa [hj]
          · exact H j (by omega) h2
        · intro H j h1 h2
          exact H j (by omega) h2
    · rw [Cycle.followLoop]
      have hgo : (⟨(τ⁻¹ ((τ⁻¹ ^ k) s)).val⟩ : Bell) ≠ ⟨s.val⟩ := by
        intro h
        have h' : (τ⁻¹ ((τ⁻¹ ^ k) s)) = s := Fin.ext (by simpa using h)
        rw [← Equiv.Perm.mul_apply, ← pow_succ'] at h'
        refine pow_ne_of_lt τ⁻¹ s (by omega) ?_ h'
        rw [minimalPeriod_inv]
        omega
      simp only [setIdx_ofFn, Run.lift_eq, Run.ofRes_ok_bind, pathOf_ofPerms hn, unwrap_some,
        Bell.fromIndex]
      have hstep : ∀ {α : Type} (x y : α) (d : Decidable ((⟨(τ⁻¹ ((τ⁻¹ ^ k) s)).val⟩ : Bell) = ⟨s.val⟩)),
          @ite α _ d x y = y := fun x y d => if_neg hgo
      refine cast (congrArg (Run.Returns · _) (hstep _ _ _).symm) ?_
      rw [← Equiv.Perm.mul_apply, ← pow_succ']
      convert hg2 using 3
      · rw [List.range'_succ, List.map_cons, List.append_assoc, List.singleton_append]
      · rw [List.append_assoc, List.append_cancel_left_eq]
        have h1 : (d + 1 + 1) * lead.length = lead.length + (d + 1) * lead.length := by ring
        have h2 : (k + 1) * lead.length = k * lead.length + lead.length := by ring
        rw [h1, h2, ← List.range'_append_1, List.map_append]
        congr 1
        rw [List.range'_eq_map_range, List.map_map]
        apply List.map_congr_left
        intro t _
        simp only [Function.comp_apply]
        rw [placeOfBell_add lead τ hne]

theorem followLoop_start (hn : 0 < n) (lead : List (Perm (Fin n))) (τ : Perm (Fin n))
    (annots : List A) (hne : lead ≠ []) (s : Fin n) (f : Fin n → Bool) :
    ∃ g : Fin n → Bool, (∀ b, g b = true ↔ f b = true ∧ ¬ τ.SameCycle s b) ∧
      (Cycle.followLoop (.ofPerms lead τ annots) ⟨s.val⟩ ⟨s.val⟩ (List.ofFn f) [] []).Returns
        (List.ofFn g, cycleFrom lead τ s) := by
  have hpos := minimalPeriod_pos τ s
  obtain ⟨g, h1, h2⟩ := followLoop_returns hn lead τ annots hne s (Function.minimalPeriod τ s - 1) 0 f []
    [] (by omega)
  refine ⟨g, ?_, ?_⟩
  · intro b
    rw [h1, ← Equiv.Perm.sameCycle_inv, sameCycle_iff, minimalPeriod_inv]
    refine and_congr_right fun _ => ?_
    constructor
    · rintro H ⟨j, hj, rfl⟩
      exact H j (by omega) hj rfl
    · intro H j _ hj he
      exact H ⟨j, hj, he.symm⟩
  · have h3 : Function.minimalPeriod τ s - 1 + 1 = Function.minimalPeriod τ s := by omega
    simp only [pow_zero, Equiv.Perm.one_apply, h3, List.nil_append, Nat.zero_mul] at h2
    rw [← List.range_eq_range', ← List.range_eq_range'] at h2
    exact h2

/-! ## All cycles -/

theorem cyclesLoop_returns (hn : 0 < n) (lead : List (Perm (Fin n))) (τ : Perm (Fin n))
    (annots : List A) (hne : lead ≠ []) (c : Nat) :
    ∀ (f : Fin n → Bool) (acc : List Cycle), (List.ofFn f).count true = c →
      (∀ a b, τ.SameCycle a b → f a = f b) →
      ∃ starts : List (Fin n),
        (Cycle.cyclesLoop (.ofPerms lead τ annots) (List.ofFn f) acc).Returns
          (acc ++ starts.map (cycleFrom lead τ)) ∧
        (∀ b, f b = true → ∃ s ∈ starts, τ.SameCycle s b) ∧ (∀ s ∈ starts, f s = true) ∧
        starts.Pairwise fun a b => ¬ τ.SameCycle a b := by
  induction c using Nat.strong_induction_on with
  | _ c ih =>
    intro f acc hc hf
    rw [Cycle.cyclesLoop]
    cases hfind : (List.ofFn f).findIdx? (fun v => v) with
    | none =>
      refine ⟨[], by simp, ?_, by simp, .nil⟩
      intro b hb
      rw [List.findIdx?_eq_none_iff] at hfind
      have := hfind (f b) (by simp)
      rw [hb] at this
      simp at this
    | some i =>
      rw [List.findIdx?_eq_some_iff_getElem] at hfind
      obtain ⟨hi, hfi, _⟩ := hfind
      have hin : i < n := by simpa using hi
      rw [List.getElem_ofFn] at hfi
      obtain ⟨g, hg1, hg2⟩ := followLoop_start hn lead τ annots hne ⟨i, hin⟩ f
      have hlt : (List.ofFn g).count true < c := by
        rw [← hc]
        have hfin : ∀ f : Fin n → Bool, (List.ofFn f).count true = (Finset.univ.filter (fun b => f b = true)).card := by
          intro f
          rw [List.ofFn_eq_map, List.count, List.countP_map, Finset.card_def]
          simp only [Finset.filter_val, ← Multiset.countP_eq_card_filter]
          rw [Finset.univ, Fin.fintype]
          simp only [Multiset.coe_countP]
          congr 1
        rw [hfin, hfin]
        apply Finset.card_lt_card
        rw [Finset.ssubset_iff_of_subset]
        · exact ⟨⟨i, hin⟩, by simpa using hfi, by simp [hg1, Equiv.Perm.SameCycle.refl]⟩
        · intro b hb
          simp only [Finset.mem_filter, Finset.mem_univ, true_and] at hb ⊢
          exact ((hg1 b).1 hb).1
      obtain ⟨starts, h1, h2, h3, h4⟩ := ih _ hlt g (acc ++ [cycleFrom lead τ ⟨i, hin⟩]) rfl (by
        intro a b hab
        have : g a = true ↔ g b = true := by
          rw [hg1, hg1, hf a b hab]
          refine and_congr_right fun _ => not_congr ?_
          exact ⟨fun h => h.trans hab, fun h => h.trans hab.symm⟩
        exact Bool.eq_iff_iff.2 this)
      refine ⟨⟨i, hin⟩ :: starts, ?_, ?_, ?_, ?_⟩
      · simp only [Bell.fromIndex]
        rw [Run.Returns.eq hg2]
        simp only [Run.ofRes_ok_bind]
        simpa using h1
      · intro b hb
        by_cases hs : τ.SameCycle ⟨i, hin⟩ b
        · exact ⟨_, by simp, hs⟩
        · obtain ⟨s, hs1, hs2⟩ := h2 b ((hg1 b).2 ⟨hb, hs⟩)
          exact ⟨s, by simp [hs1], hs2⟩
      · intro s hs
        rcases List.mem_cons.1 hs with rfl | hs
        · exact hfi
        · exact ((hg1 s).1 (h3 s hs)).1
      · exact .cons (fun s hs => ((hg1 s).1 (h3 s hs)).2) h4

theorem firstAnnotRow_ofPerms (hn : 0 < n) (lead : List (Perm (Fin n))) (τ : Perm (Fin n))
    (annots : List A) : (AnnotBlock.ofPerms lead τ annots).firstAnnotRow =
      match annots.head? with
      | none => none
      | some a => some (Row.ofPerm (lead.head?.getD τ), a) := by
  unfold AnnotBlock.firstAnnotRow AnnotBlock.getAnnotRow
  rw [AnnotBlock.getRow_ofPerms hn]
  have h1 : (lead ++ [τ])[0]? = some (lead.head?.getD τ) := by cases lead <;> rfl
  have h2 : (AnnotBlock.ofPerms lead τ annots).getAnnot 0 = annots.head? := by
    cases annots <;> rfl
  rw [h1, h2]
  cases annots <;> rfl

theorem cyclesFromLead_returns (hn : 0 < n) (lead : List (Perm (Fin n))) (τ : Perm (Fin n))
    (annots : List A) (h0 : lead.head? = some 1) (hlen : lead.length = annots.length) :
    ∃ starts : List (Fin n),
      (Cycle.cyclesFromLead (.ofPerms lead τ annots)).Returns (starts.map (cycleFrom lead τ)) ∧
      (∀ b, ∃ s ∈ starts, τ.SameCycle s b) ∧ starts.Pairwise fun a b => ¬ τ.SameCycle a b := by
  have hne : lead ≠ [] := by rintro rfl; simp at h0
  obtain ⟨starts, h1, h2, _, h4⟩ := cyclesLoop_returns hn lead τ annots hne _ (fun _ => true) [] rfl
    (fun _ _ _ => rfl)
  refine ⟨starts, ?_, fun b => h2 b rfl, h4⟩
  obtain ⟨a, as, rfl⟩ : ∃ a as, annots = a :: as := by
    cases annots with
    | nil => simp at hlen; exact absurd hlen hne
    | cons a as => exact ⟨a, as, rfl⟩
  unfold Cycle.cyclesFromLead
  rw [firstAnnotRow_ofPerms hn, h0]
  simp only [List.head?_cons, unwrap_some, Run.lift_eq, Run.ofRes_ok_bind, Option.getD_some,
    (Row.ofPerm_isRounds (1 : Perm (Fin n))).2 rfl, assertThat, if_true]
  have hrep : List.replicate (AnnotBlock.ofPerms lead τ (a :: as)).stage.numBells true =
      List.ofFn (fun _ : Fin n => true) := by
    rw [List.ofFn_const]
    rfl
  rw [hrep]
  simpa using h1

end Bellframe
