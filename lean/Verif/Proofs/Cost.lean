import Verif.Model.Cost
import Verif.Proofs.RowAlgebra
import Verif.Proofs.RowSets
import Mathlib.Tactic.Ring

/-! # Lemmas about the counters of the documented running times -/

namespace Bellframe

namespace Regex

theorem seekBellCounted_spec (b : Bell) : ∀ (bells : List (Bell × Nat)) (m : Nat),
    (seekBellCounted b bells m).1 = seekBell b bells ∧
    (seekBell b bells = none → (seekBellCounted b bells m).2 = m + bells.length + 1) ∧
    ∀ i rest, seekBell b bells = some (i, rest) →
      (seekBellCounted b bells m).2 + rest.length = m + bells.length
  | [], m => by simp [seekBellCounted, seekBell]
  | (x, i) :: bells, m => by
    obtain ⟨h1, h2, h3⟩ := seekBellCounted_spec b bells (m + 1)
    unfold seekBellCounted seekBell
    split
    · refine ⟨rfl, by simp, ?_⟩
      intro j rest h
      simp only [Option.some.injEq, Prod.mk.injEq] at h
      rw [← h.2]
      simp only [List.length_cons]
      omega
    · refine ⟨h1, ?_, ?_⟩
      · intro h
        rw [h2 h, List.length_cons]
        omega
      · intro j rest h
        rw [h3 j rest h, List.length_cons]
        omega

theorem runMatchLoopCounted_spec : ∀ (es : List RegexElem) (bells : List (Bell × Nat)) (acc : List Nat)
    (n m : Nat), (runMatchLoopCounted es bells acc n m).1 = runMatchLoop es bells acc ∧
      (runMatchLoopCounted es bells acc n m).2.1 ≤ n + es.length + 1 ∧
      (runMatchLoopCounted es bells acc n m).2.2 ≤ m + bells.length + 1
  | [], bells, acc, n, m => by simp [runMatchLoopCounted, runMatchLoop]
  | .bell _ :: _, [], acc, n, m => by simp [runMatchLoopCounted, runMatchLoop]
  | .bell b :: es, (x, i) :: bells, acc, n, m => by
    have := runMatchLoopCounted_spec es bells (acc ++ [i]) (n + 1) (m + 1)
    simp only [runMatchLoopCounted, runMatchLoop, List.length_cons]
    split
    · refine ⟨this.1, ?_, ?_⟩ <;> omega
    · refine ⟨rfl, ?_, ?_⟩ <;> simp only <;> omega
  | .any :: _, [], acc, n, m => by simp [runMatchLoopCounted, runMatchLoop]
  | .any :: es, _ :: bells, acc, n, m => by
    have := runMatchLoopCounted_spec es bells acc (n + 1) (m + 1)
    simp only [runMatchLoopCounted, runMatchLoop, List.length_cons]
    refine ⟨this.1, ?_, ?_⟩ <;> omega
  | .glob :: [], _, acc, n, m => by
    simp only [runMatchLoopCounted, runMatchLoop, List.length_cons, List.length_nil]
    refine ⟨trivial, ?_, ?_⟩ <;> omega
  | .glob :: .bell b :: es, bells, acc, n, m => by
    obtain ⟨h1, h2, h3⟩ := seekBellCounted_spec b bells m
    simp only [runMatchLoopCounted, runMatchLoop, List.length_cons]
    rcases hs : seekBell b bells with _ | ⟨i, rest⟩
    · have e : seekBellCounted b bells m = (none, m + bells.length + 1) :=
        Prod.ext (h1.trans hs) (h2 hs)
      rw [e]
      refine ⟨rfl, ?_, ?_⟩ <;> simp only <;> omega
    · have e : seekBellCounted b bells m = (some (i, rest), (seekBellCounted b bells m).2) :=
        Prod.ext (h1.trans hs) rfl
      have h4 := h3 i rest hs
      have := runMatchLoopCounted_spec es rest (acc ++ [i]) (n + 2) (seekBellCounted b bells m).2
      rw [e]
      refine ⟨this.1, ?_, ?_⟩ <;> simp only <;> omega
  | .glob :: .any :: _, _, _, n, m => by
    simp only [runMatchLoopCounted, runMatchLoop, List.length_cons]
    refine ⟨trivial, ?_, ?_⟩ <;> omega
  | .glob :: .glob :: _, _, _, n, m => by
    simp only [runMatchLoopCounted, runMatchLoop, List.length_cons]
    refine ⟨trivial, ?_, ?_⟩ <;> omega

end Regex

namespace Row

variable {n : Nat}

theorem parityLoopCounted_ofPerm (hn : 0 < n) : ∀ (m : Nat) (σ : Equiv.Perm (Fin n)) (first k c : Nat),
    σ.support.card + (n - first) ≤ m → first ≤ n →
    (∀ i : Fin n, i.val < first → σ i = i) →
    ∃ s, (parityLoop (ofPerm σ) k first).Returns (rounds ⟨n⟩, k + s) ∧
      (parityLoopCounted (ofPerm σ) k first c).Returns (rounds ⟨n⟩, k + s, c + (n - first) + s) ∧
      s ≤ σ.support.card - 1
  | m, σ, first, k, c, hm, hf, hfix => by
    rw [parityLoop, parityLoopCounted]
    simp only [ofPerm_stage hn, Run.lift_eq, Run.ofRes_ok_bind]
    by_cases hlt : first < n
    · rw [if_pos hlt, if_pos hlt]
      have hget : (ofPerm σ).get first = .ok ⟨(σ ⟨first, hlt⟩).val⟩ :=
        getIdx_of_getElem? (ofPerm_getElem? σ first hlt)
      simp only [hget, Run.ofRes_ok_bind]
      by_cases hcur : σ ⟨first, hlt⟩ = ⟨first, hlt⟩
      · have hb : (⟨(σ ⟨first, hlt⟩).val⟩ : Bell) = Bell.fromIndex first := by rw [hcur]; rfl
        rw [if_pos hb, if_pos hb]
        match m, hm with
        | 0, hm => omega
        | m + 1, hm =>
          obtain ⟨s, h1, h2, h3⟩ := parityLoopCounted_ofPerm hn m σ (first + 1) k (c + 1) (by omega)
            (by omega) (by
              intro i hi
              by_cases h : i.val < first
              · exact hfix i h
              · have : i = ⟨first, hlt⟩ := Fin.ext (by simp; omega)
                rw [this]; exact hcur)
          refine ⟨s, h1, ?_, h3⟩
          have : c + 1 + (n - (first + 1)) + s = c + (n - first) + s := by omega
          rwa [this] at h2
      · have hb : ¬ (⟨(σ ⟨first, hlt⟩).val⟩ : Bell) = Bell.fromIndex first := by
          intro h
          apply hcur
          have := congrArg Bell.index h
          exact Fin.ext (by simpa using this)
        rw [if_neg hb, if_neg hb]
        have hsw := swap_ofPerm σ ⟨first, hlt⟩ (σ ⟨first, hlt⟩)
        simp only at hsw
        simp only [hsw, Run.ofRes_ok_bind]
        set x : Fin n := ⟨first, hlt⟩ with hx
        have heq : σ * Equiv.swap x (σ x) = Equiv.swap (σ x) (σ (σ x)) * σ := by
          rw [Equiv.mul_swap_eq_swap_mul]
        have hcard : (σ * Equiv.swap x (σ x)).support.card < σ.support.card := by
          rw [heq]
          apply Equiv.Perm.card_support_swap_mul
          intro h
          exact hcur (σ.injective h)
        have h2 : 2 ≤ σ.support.card := by
          apply Equiv.Perm.two_le_card_support_of_ne_one
          rintro rfl
          exact hcur rfl
        match m, hm with
        | 0, hm => omega
        | m + 1, hm =>
          obtain ⟨s, h1, h3, h4⟩ := parityLoopCounted_ofPerm hn m (σ * Equiv.swap x (σ x)) first (k + 1)
            (c + 1) (by omega) hf (by
              intro i hi
              have hix : i ≠ x := by intro h; rw [h] at hi; simp [hx] at hi
              have hisx : i ≠ σ x := by
                intro h
                have h1 := hfix i hi
                rw [h] at h1
                have h2 := σ.injective h1
                rw [h2] at h
                exact hix h
              simp only [Equiv.Perm.coe_mul, Function.comp]
              rw [Equiv.swap_apply_of_ne_of_ne hix hisx]
              exact hfix i hi)
          have e1 : k + 1 + s = k + (s + 1) := by omega
          have e2 : c + 1 + (n - first) + s = c + (n - first) + (s + 1) := by omega
          rw [e1] at h1
          rw [e1, e2] at h3
          exact ⟨s + 1, h1, h3, by omega⟩
    · rw [if_neg hlt, if_neg hlt]
      have h1 : σ = 1 := by
        ext i
        rw [hfix i (by have := i.isLt; omega)]
        rfl
      have h2 : n - first = 0 := by omega
      refine ⟨0, ?_, ?_, by simp⟩
      · rw [h1, ← rounds_eq_ofPerm]
        simp
      · rw [h1, ← rounds_eq_ofPerm, h2]
        simp

theorem isGroupInnerCounted_spec (set : List Row) (bInv : Row) : ∀ (as : List Row) (buf : Row) (muls : Nat),
    (∀ e, isGroupInner set bInv as buf = .error e → isGroupInnerCounted set bInv as buf muls = .error e) ∧
    ∀ ok buf', isGroupInner set bInv as buf = .ok (ok, buf') →
      ∃ c, isGroupInnerCounted set bInv as buf muls = .ok (ok, buf', c) ∧ c ≤ muls + as.length ∧
        (ok = true → c = muls + as.length)
  | [], buf, muls => by
    refine ⟨fun e h => by simp [isGroupInner] at h, fun ok buf' h => ?_⟩
    simp only [isGroupInner, Except.ok.injEq, Prod.mk.injEq] at h
    exact ⟨muls, by simp [isGroupInnerCounted, h.1, h.2], by simp, by simp⟩
  | a :: as, buf, muls => by
    unfold isGroupInner isGroupInnerCounted
    rcases a.mulIntoUnchecked bInv buf with e | x
    · exact ⟨fun e' h => by simpa using h, fun ok buf' h => by simp at h⟩
    · simp only [Res.ok_bind]
      obtain ⟨h1, h2⟩ := isGroupInnerCounted_spec set bInv as x (muls + 1)
      split
      · refine ⟨h1, fun ok buf' h => ?_⟩
        obtain ⟨c, g1, g2, g3⟩ := h2 ok buf' h
        refine ⟨c, g1, ?_, fun h => ?_⟩
        · rw [List.length_cons]; omega
        · rw [g3 h, List.length_cons]; omega
      · refine ⟨fun e h => by simp at h, fun ok buf' h => ?_⟩
        simp only [Res.pure_eq, Except.ok.injEq, Prod.mk.injEq] at h
        refine ⟨muls + 1, by simp [h.1, h.2], ?_, fun h' => ?_⟩
        · rw [List.length_cons]; omega
        · rw [h'] at h; simp at h

theorem isGroupOuterCounted_spec (set : List Row) : ∀ (bs : List Row) (bInv buf : Row) (invs muls : Nat),
    (∀ e, isGroupOuter set bs bInv buf = .error e →
      isGroupOuterCounted set bs bInv buf invs muls = .error e) ∧
    ∀ ok, isGroupOuter set bs bInv buf = .ok ok →
      ∃ i c, isGroupOuterCounted set bs bInv buf invs muls = .ok (ok, i, c) ∧ i ≤ invs + bs.length ∧
        c ≤ muls + bs.length * set.length ∧
        (ok = true → i = invs + bs.length ∧ c = muls + bs.length * set.length)
  | [], bInv, buf, invs, muls => by
    refine ⟨fun e h => by simp [isGroupOuter] at h, fun ok h => ?_⟩
    simp only [isGroupOuter, Except.ok.injEq] at h
    exact ⟨invs, muls, by simp [isGroupOuterCounted, h], by simp, by simp, by simp⟩
  | b :: bs, bInv, buf, invs, muls => by
    unfold isGroupOuter isGroupOuterCounted
    have hlen : (b :: bs).length * set.length = set.length + bs.length * set.length := by
      rw [List.length_cons]; ring
    rcases b.invIntoBuf bInv with e | x
    · exact ⟨fun e' h => by simpa using h, fun ok h => by simp at h⟩
    · simp only [Res.ok_bind]
      obtain ⟨h1, h2⟩ := isGroupInnerCounted_spec set x set buf muls
      rcases hi : isGroupInner set x set buf with e | ⟨ok, buf'⟩
      · rw [h1 e hi]
        exact ⟨fun e' h => by simpa using h, fun ok h => by simp at h⟩
      · obtain ⟨c, g1, g2, g3⟩ := h2 ok buf' hi
        rw [g1]
        simp only [Res.ok_bind]
        cases ok with
        | true =>
          obtain ⟨k1, k2⟩ := isGroupOuterCounted_spec set bs x buf' (invs + 1) c
          simp only [if_true]
          refine ⟨k1, fun ok h => ?_⟩
          obtain ⟨i, d, l1, l2, l3, l4⟩ := k2 ok h
          have := g3 rfl
          refine ⟨i, d, l1, ?_, ?_, fun h => ?_⟩
          · rw [List.length_cons]; omega
          · rw [hlen]; omega
          · obtain ⟨m1, m2⟩ := l4 h
            rw [hlen, List.length_cons]
            omega
        | false =>
          refine ⟨fun e h => by simp at h, fun ok h => ?_⟩
          simp only [Bool.false_eq_true, if_false, Res.pure_eq, Except.ok.injEq] at h
          subst h
          refine ⟨invs + 1, c, by simp, ?_, ?_, by simp⟩
          · rw [List.length_cons]; omega
          · rw [hlen]; omega

theorem lgcExpandCounted_eq (r : Row) : ∀ (rows set fr : List Row) (k : Nat) (set' fr' : List Row),
    lgcExpand r rows set fr = .ok (set', fr') →
    lgcExpandCounted r rows set fr k = .ok (set', fr', k + rows.length)
  | [], set, fr, k, set', fr', h => by
    simp only [lgcExpand, Except.ok.injEq, Prod.mk.injEq] at h
    simp [lgcExpandCounted, h.1, h.2]
  | r2 :: rows, set, fr, k, set', fr', h => by
    unfold lgcExpand at h
    unfold lgcExpandCounted
    rcases hx : r.mulUnchecked r2 with e | x
    · rw [hx] at h; simp at h
    · rw [hx] at h
      simp only [Res.ok_bind] at h ⊢
      have e : k + (r2 :: rows).length = k + 1 + rows.length := by rw [List.length_cons]; omega
      rw [e]
      split
      · rw [if_pos (by assumption)] at h
        exact lgcExpandCounted_eq r rows set fr (k + 1) set' fr' h
      · rw [if_neg (by assumption)] at h
        exact lgcExpandCounted_eq r rows _ _ (k + 1) set' fr' h

theorem lgcLoopCounted_ofPerm (S : List (Equiv.Perm (Fin n))) :
    ∀ (m : Nat) (set fr : List (Equiv.Perm (Fin n))) (k : Nat),
    2 * (Fintype.card (Equiv.Perm (Fin n)) - set.length) + fr.length ≤ m → set.Nodup →
    ∃ out : List (Equiv.Perm (Fin n)), (lgcLoop (S.map ofPerm) (set.map ofPerm)
        (fr.map ofPerm)).Returns (out.map ofPerm) ∧ set.length ≤ out.length ∧
      (lgcLoopCounted (S.map ofPerm) (set.map ofPerm) (fr.map ofPerm) k).Returns
        (out.map ofPerm, k + (out.length - set.length + fr.length) * S.length)
  | m, set, [], k, _, hnd => by
    refine ⟨set, ?_, le_refl _, ?_⟩
    · rw [List.map_nil, lgcLoop]; simp
    · rw [List.map_nil, lgcLoopCounted]; simp
  | 0, set, ρ :: fr, k, hm, _ => by simp at hm
  | m + 1, set, ρ :: fr, k, hm, hnd => by
    obtain ⟨new, a, b, c, d⟩ := lgcExpand_ofPerm ρ S set fr hnd
    have hle : (set ++ new).length ≤ Fintype.card (Equiv.Perm (Fin n)) := a.length_le_card
    obtain ⟨out, h1, h2, h3⟩ := lgcLoopCounted_ofPerm S m (set ++ new) (fr ++ new) (k + S.length)
      (by simp only [List.length_append, List.length_cons] at hle hm ⊢; omega) a
    refine ⟨out, ?_, ?_, ?_⟩
    · rw [List.map_cons, lgcLoop]
      simp only [d, Run.lift_eq, Run.ofRes_ok_bind]
      exact h1
    · rw [List.length_append] at h2; omega
    · rw [List.map_cons, lgcLoopCounted]
      simp only [lgcExpandCounted_eq _ _ _ _ k _ _ d, Run.lift_eq, Run.ofRes_ok_bind, List.length_map]
      rw [List.length_append] at h2
      have e : out.length - set.length + (ρ :: fr).length =
          out.length - (set ++ new).length + (fr ++ new).length + 1 := by
        simp only [List.length_append, List.length_cons]
        omega
      rw [e, show k + (out.length - (set ++ new).length + (fr ++ new).length + 1) * S.length =
        k + S.length + (out.length - (set ++ new).length + (fr ++ new).length) * S.length by ring]
      exact h3

end Row

namespace Classify

theorem allEqualCounted_spec : ∀ (l : List (Nat × Nat)) (k : Nat),
    (allEqualCounted l k).1 = l.all (fun p => p.1 == p.2) ∧ (allEqualCounted l k).2 ≤ k + l.length
  | [], k => by simp [allEqualCounted]
  | p :: l, k => by
    obtain ⟨h1, h2⟩ := allEqualCounted_spec l (k + 1)
    unfold allEqualCounted
    rw [List.all_cons, List.length_cons]
    split
    · rename_i h
      exact ⟨by rw [h1, h, Bool.true_and], by omega⟩
    · rename_i h
      refine ⟨?_, by simp only; omega⟩
      rw [Bool.not_eq_true] at h
      rw [h, Bool.false_and]

theorem isPalindromicLoop_spec (path : List Nat) : ∀ (is : List Nat) (k : Nat),
    (isPalindromicLoop path is k).1 =
      is.any (fun i => ((path.reverse.rotate i).zip path).all fun p => p.1 == p.2) ∧
    (isPalindromicLoop path is k).2 ≤ k + is.length * path.length
  | [], k => by simp [isPalindromicLoop]
  | i :: is, k => by
    obtain ⟨h1, h2⟩ := allEqualCounted_spec ((path.reverse.rotate i).zip path) k
    have hlen : ((path.reverse.rotate i).zip path).length = path.length := by simp
    have hm : (i :: is).length * path.length = path.length + is.length * path.length := by
      rw [List.length_cons]; ring
    rw [hlen] at h2
    unfold isPalindromicLoop
    rw [List.any_cons, ← h1, hm]
    rcases he : allEqualCounted ((path.reverse.rotate i).zip path) k with ⟨ok, k'⟩
    rw [he] at h2
    simp only at h2
    cases ok with
    | true => exact ⟨rfl, by simp only; omega⟩
    | false =>
      obtain ⟨g1, g2⟩ := isPalindromicLoop_spec path is k'
      exact ⟨by simp only [Bool.false_or]; exact g1, by simp only; omega⟩

end Classify

end Bellframe
