import Verif.Proofs.RowBuild
import Verif.Model.Row
import Mathlib.GroupTheory.Perm.Sign
import Mathlib.GroupTheory.Perm.Support
import Mathlib.GroupTheory.OrderOfElement

/-! # Lemmas about powers, parity, closures and the accumulator -/

namespace Bellframe

namespace Row

variable {n : Nat}

/-! ## composition -/

theorem comp_ofPerm (σ τ : Equiv.Perm (Fin n)) : comp (ofPerm σ) (ofPerm τ) = ofPerm (σ * τ) := by
  ext1
  apply List.ext_getElem
  · simp [comp]
  · intro i h1 h2
    simp [comp]

theorem Valid.comp {a b : Row} (ha : a.Valid) (hb : b.Valid)
    (h : a.bells.length = b.bells.length) :
    (Row.comp a b).Valid := by
  obtain ⟨σ, hσ⟩ := ha.exists_perm' h
  obtain ⟨τ, hτ⟩ := hb.exists_perm' (n := b.bells.length) rfl
  have hpos := hb.length_pos
  generalize b.bells.length = m at *
  subst hσ hτ
  rw [comp_ofPerm]
  exact ofPerm_valid hpos _

@[simp] theorem comp_length (a b : Row) : (Row.comp a b).bells.length = b.bells.length := by
  simp [Row.comp]

theorem mulUnchecked_eq_comp {a b : Row} (ha : a.Valid) (hb : b.Valid)
    (h : a.bells.length = b.bells.length) : a.mulUnchecked b = .ok (Row.comp a b) := by
  obtain ⟨σ, hσ⟩ := ha.exists_perm' h
  obtain ⟨τ, hτ⟩ := hb.exists_perm' (n := b.bells.length) rfl
  generalize b.bells.length = m at *
  subst hσ hτ
  rw [mulUnchecked_ofPerm, comp_ofPerm]

theorem mul_eq_comp {a b : Row} (ha : a.Valid) (hb : b.Valid)
    (h : a.bells.length = b.bells.length) : a.mul b = .ok (Row.comp a b) := by
  have := mulUnchecked_eq_comp ha hb h
  simp [mul, mulResult, ha.stage_eq, hb.stage_eq, h, this]

theorem mulResult_eq_comp {a b : Row} (ha : a.Valid) (hb : b.Valid)
    (h : a.bells.length = b.bells.length) : a.mulResult b = .ok (.ok (Row.comp a b)) := by
  have := mulUnchecked_eq_comp ha hb h
  simp [mulResult, ha.stage_eq, hb.stage_eq, h, this]

theorem mulInto_eq_comp {a b : Row} (out : Row) (ha : a.Valid) (hb : b.Valid)
    (h : a.bells.length = b.bells.length) : a.mulInto b out = .ok (.ok (Row.comp a b)) := by
  have := mulUnchecked_eq_comp ha hb h
  unfold mulUnchecked at this
  simp only [mulInto, ha.stage_eq, hb.stage_eq, h, Res.ok_bind, testErr_self, mulIntoUnchecked,
    List.nil_append]
  simp only [Res.pure_eq] at this ⊢
  rw [this]; rfl

theorem testErr_ne {s t : Stage} (h : s ≠ t) :
    IncompatibleStages.testErr s t = .error ⟨s, t⟩ := by
  simp [IncompatibleStages.testErr, h]

theorem mulInto_mismatch {a b : Row} (out : Row) (ha : a.Valid) (hb : b.Valid)
    (h : a.bells.length ≠ b.bells.length) :
    a.mulInto b out = .ok (.error ⟨⟨a.bells.length⟩, ⟨b.bells.length⟩⟩) := by
  have : (⟨a.bells.length⟩ : Stage) ≠ ⟨b.bells.length⟩ := by simpa using h
  simp [mulInto, ha.stage_eq, hb.stage_eq, testErr_ne this]

theorem mulResult_mismatch {a b : Row} (ha : a.Valid) (hb : b.Valid)
    (h : a.bells.length ≠ b.bells.length) :
    a.mulResult b = .ok (.error ⟨⟨a.bells.length⟩, ⟨b.bells.length⟩⟩) := by
  have : (⟨a.bells.length⟩ : Stage) ≠ ⟨b.bells.length⟩ := by simpa using h
  simp [mulResult, ha.stage_eq, hb.stage_eq, testErr_ne this]

/-! ## swap and parity -/

theorem swap_ofPerm (σ : Equiv.Perm (Fin n)) (a b : Fin n) :
    (ofPerm σ).swap a b = .ok (ofPerm (σ * Equiv.swap a b)) := by
  have ha : getIdx (ofPerm σ).bells a = .ok ⟨(σ a).val⟩ :=
    getIdx_of_getElem? (ofPerm_getElem? σ a a.isLt)
  have hb : getIdx (ofPerm σ).bells b = .ok ⟨(σ b).val⟩ :=
    getIdx_of_getElem? (ofPerm_getElem? σ b b.isLt)
  simp only [swap, ha, hb, Res.ok_bind, Res.pure_eq]
  congr 1
  ext1
  apply List.ext_getElem
  · simp
  · intro i h1 h2
    have hi : i < n := by simpa using h2
    simp only [List.getElem_set, ofPerm_getElem, Equiv.Perm.coe_mul, Function.comp]
    by_cases hib : (b : Nat) = i
    · subst hib
      simp
    · by_cases hia : (a : Nat) = i
      · subst hia
        simp [hib]
      · rw [if_neg hib, if_neg hia, Equiv.swap_apply_of_ne_of_ne]
        · exact fun h => hia (by rw [← h])
        · exact fun h => hib (by rw [← h])

theorem swap_oob {r : Row} {a b : Nat} (h : r.bells.length ≤ a ∨ r.bells.length ≤ b) :
    r.swap a b = .error .index := by
  unfold swap
  rcases Nat.lt_or_ge a r.bells.length with ha | ha
  · have hb : r.bells.length ≤ b := by omega
    simp [getIdx_of_lt _ _ ha, getIdx_of_le hb]
  · simp [getIdx_of_le ha]

theorem parityLoop_ofPerm (hn : 0 < n) : ∀ (m : Nat) (σ : Equiv.Perm (Fin n)) (first k : Nat),
    σ.support.card + (n - first) ≤ m → first ≤ n →
    (∀ i : Fin n, i.val < first → σ i = i) →
    ∃ s, (parityLoop (ofPerm σ) k first).Returns (rounds ⟨n⟩, k + s) ∧
      ((-1 : ℤˣ) ^ s = Equiv.Perm.sign σ)
  | m, σ, first, k, hm, hf, hfix => by
    rw [parityLoop]
    simp only [ofPerm_stage hn, Run.lift_eq, Run.ofRes_ok_bind]
    by_cases hlt : first < n
    · rw [if_pos hlt]
      have hget : (ofPerm σ).get first = .ok ⟨(σ ⟨first, hlt⟩).val⟩ :=
        getIdx_of_getElem? (ofPerm_getElem? σ first hlt)
      simp only [hget, Run.ofRes_ok_bind]
      by_cases hcur : σ ⟨first, hlt⟩ = ⟨first, hlt⟩
      · rw [if_pos (by rw [hcur]; rfl)]
        match m, hm with
        | 0, hm => omega
        | m + 1, hm =>
          apply parityLoop_ofPerm hn m σ (first + 1) k (by omega) (by omega)
          intro i hi
          by_cases h : i.val < first
          · exact hfix i h
          · have : i = ⟨first, hlt⟩ := Fin.ext (by simp; omega)
            rw [this]; exact hcur
      · rw [if_neg (by
          intro h
          apply hcur
          have := congrArg Bell.index h
          exact Fin.ext (by simpa using this))]
        have hsw := swap_ofPerm σ ⟨first, hlt⟩ (σ ⟨first, hlt⟩)
        simp only at hsw
        simp only [hsw, Run.ofRes_ok_bind]
        set x : Fin n := ⟨first, hlt⟩ with hx
        have heq : σ * Equiv.swap x (σ x) = Equiv.swap (σ x) (σ (σ x)) * σ := by
          rw [Equiv.mul_swap_eq_swap_mul]
        have hcard : (σ * Equiv.swap x (σ x)).support.card < σ.support.card := by
          rw [heq]
          apply Equiv.Perm.card_support_swap_mul
          intro h
          exact hcur (σ.injective h)
        match m, hm with
        | 0, hm => omega
        | m + 1, hm =>
          obtain ⟨s, hs, hsign⟩ := parityLoop_ofPerm hn m (σ * Equiv.swap x (σ x)) first (k + 1)
            (by omega) hf (by
              intro i hi
              have hix : i ≠ x := by intro h; rw [h] at hi; simp [hx] at hi
              have hisx : i ≠ σ x := by
                intro h
                have h1 := hfix i hi
                rw [h] at h1
                have h2 := σ.injective h1
                rw [h2] at h
                exact hix h
              simp only [Equiv.Perm.coe_mul, Function.comp]
              rw [Equiv.swap_apply_of_ne_of_ne hix hisx]
              exact hfix i hi)
          refine ⟨s + 1, ?_, ?_⟩
          · have : k + 1 + s = k + (s + 1) := by omega
            rwa [this] at hs
          · rw [pow_succ, hsign, Equiv.Perm.sign_mul, Equiv.Perm.sign_swap (Ne.symm hcur)]
            simp
    · rw [if_neg hlt]
      have h1 : σ = 1 := by
        ext i
        rw [hfix i (by have := i.isLt; omega)]
        rfl
      refine ⟨0, ?_, by simp [h1]⟩
      rw [h1, ← rounds_eq_ofPerm]
      simp

/-- `parity` always terminates, leaves rounds behind, and computes the sign. -/
theorem parity_ofPerm (hn : 0 < n) (σ : Equiv.Perm (Fin n)) :
    ∃ p, (parity (ofPerm σ)).Returns (rounds ⟨n⟩, p) ∧
      (p = .even ↔ Equiv.Perm.sign σ = 1) ∧ (p = .odd ↔ Equiv.Perm.sign σ = -1) := by
  obtain ⟨s, hs, hsign⟩ := parityLoop_ofPerm hn _ σ 0 0 (le_refl _) (by omega)
    (fun i hi => absurd hi (by omega))
  refine ⟨Parity.fromNumber (0 + s), ?_, ?_, ?_⟩
  · unfold parity
    rw [Run.returns_bind hs]
    simp
  · rw [← hsign, Nat.zero_add, Parity.fromNumber]
    rcases Nat.even_or_odd s with h | h
    · simp [h.neg_one_pow, Nat.even_iff.1 h, Parity.fromIsOdd]
    · simp [h.neg_one_pow, Nat.odd_iff.1 h, Parity.fromIsOdd]
  · rw [← hsign, Nat.zero_add, Parity.fromNumber]
    rcases Nat.even_or_odd s with h | h
    · simp [h.neg_one_pow, Nat.even_iff.1 h, Parity.fromIsOdd]
    · simp [h.neg_one_pow, Nat.odd_iff.1 h, Parity.fromIsOdd]

/-! ## powers -/

theorem powLoop_ofPerm (hn : 0 < n) (σ : Equiv.Perm (Fin n)) : ∀ (k : Nat) (τ : Equiv.Perm (Fin n))
    (temp : Row), ∃ temp', powLoop (ofPerm σ) k { total := ofPerm τ, tempRow := temp } =
      .ok { total := ofPerm (τ * σ ^ k), tempRow := temp' }
  | 0, τ, temp => ⟨temp, by simp [powLoop]⟩
  | k + 1, τ, temp => by
    obtain ⟨temp', h⟩ := powLoop_ofPerm hn σ k (τ * σ) (ofPerm τ)
    refine ⟨temp', ?_⟩
    rw [powLoop]
    simp only [RowAccumulator.accumulate, mulInto_ofPerm hn, Res.ok_bind, Res.pure_eq,
      unwrapResult_ok, h]
    rw [mul_assoc, ← pow_succ']

theorem powU_ofPerm (hn : 0 < n) (σ : Equiv.Perm (Fin n)) (k : Nat) :
    (ofPerm σ).powU k = .ok (ofPerm (σ ^ k)) := by
  obtain ⟨temp', h⟩ := powLoop_ofPerm hn σ k 1 (rounds ⟨n⟩)
  rw [one_mul] at h
  simp [powU, ofPerm_stage hn, RowAccumulator.rounds, RowAccumulator.new, rounds_eq_ofPerm]
  rw [rounds_eq_ofPerm] at h
  simp [h]

theorem powI_ofPerm (hn : 0 < n) (σ : Equiv.Perm (Fin n)) (k : Int) :
    (ofPerm σ).powI k = .ok (ofPerm (σ ^ k)) := by
  unfold powI
  split
  · rename_i h
    simp only [inv_ofPerm hn, Res.ok_bind, powU_ofPerm hn]
    congr 2
    obtain ⟨m, hm⟩ : ∃ m : Nat, k = -(m : Int) := ⟨(-k).toNat, by omega⟩
    subst hm
    simp
  · rename_i h
    rw [powU_ofPerm hn]
    congr 2
    obtain ⟨m, hm⟩ : ∃ m : Nat, k = (m : Int) := ⟨k.toNat, by omega⟩
    subst hm
    simp

/-! ## closures -/

theorem closureLoop_ofPerm (σ : Equiv.Perm (Fin n)) : ∀ (m k : Nat), 0 < k → k + m = orderOf σ →
    (closureLoop (ofPerm σ) ((List.range k).map fun i => ofPerm (σ ^ (i + 1)))).Returns
      ((List.range (orderOf σ)).map fun i => ofPerm (σ ^ (i + 1)))
  | m, k, hk, hm => by
    rw [closureLoop]
    have hlast : ((List.range k).map fun i => ofPerm (σ ^ (i + 1))).getLast? =
        some (ofPerm (σ ^ k)) := by
      obtain ⟨j, rfl⟩ : ∃ j, k = j + 1 := ⟨k - 1, by omega⟩
      simp [List.range_succ]
    simp only [hlast, unwrap_some, Run.lift_eq, Run.ofRes_ok_bind]
    match m, hm with
    | 0, hm =>
      have : k = orderOf σ := by omega
      subst this
      rw [if_pos (by rw [ofPerm_isRounds]; exact pow_orderOf_eq_one σ)]
      simp
    | m + 1, hm =>
      rw [if_neg (by
        rw [ofPerm_isRounds]
        exact pow_ne_one_of_lt_orderOf (by omega) (by omega))]
      simp only [mulUnchecked_ofPerm, Run.ofRes_ok_bind]
      have := closureLoop_ofPerm σ m (k + 1) (by omega) (by omega)
      rw [List.range_succ, List.map_append] at this
      simpa [pow_succ] using this

theorem closure_ofPerm (σ : Equiv.Perm (Fin n)) :
    (closure (ofPerm σ)).Returns ((List.range (orderOf σ)).map fun i => ofPerm (σ ^ (i + 1))) := by
  have hpos : 0 < orderOf σ := orderOf_pos σ
  have := closureLoop_ofPerm σ (orderOf σ - 1) 1 (by omega) (by omega)
  simpa [closure] using this

theorem closureFromRoundsLoop_ofPerm (σ : Equiv.Perm (Fin n)) : ∀ (m k : Nat), 0 < k →
    k + m = orderOf σ →
    (closureFromRoundsLoop (ofPerm σ) ((List.range k).map fun i => ofPerm (σ ^ i))).Returns
      ((List.range (orderOf σ)).map fun i => ofPerm (σ ^ i))
  | m, k, hk, hm => by
    rw [closureFromRoundsLoop]
    have hlast : ((List.range k).map fun i => ofPerm (σ ^ i)).getLast? =
        some (ofPerm (σ ^ (k - 1))) := by
      obtain ⟨j, rfl⟩ : ∃ j, k = j + 1 := ⟨k - 1, by omega⟩
      simp [List.range_succ]
    have hpow : σ ^ (k - 1) * σ = σ ^ k := by
      rw [← pow_succ]; congr 1; omega
    simp only [hlast, unwrap_some, Run.lift_eq, Run.ofRes_ok_bind,
      mulUnchecked_ofPerm, hpow]
    match m, hm with
    | 0, hm =>
      have : k = orderOf σ := by omega
      subst this
      rw [if_pos (by rw [ofPerm_isRounds]; exact pow_orderOf_eq_one σ)]
      simp
    | m + 1, hm =>
      rw [if_neg (by
        rw [ofPerm_isRounds]
        exact pow_ne_one_of_lt_orderOf (by omega) (by omega))]
      have := closureFromRoundsLoop_ofPerm σ m (k + 1) (by omega) (by omega)
      rw [List.range_succ, List.map_append] at this
      simpa using this

theorem closureFromRounds_ofPerm (hn : 0 < n) (σ : Equiv.Perm (Fin n)) :
    (closureFromRounds (ofPerm σ)).Returns
      ((List.range (orderOf σ)).map fun i => ofPerm (σ ^ i)) := by
  have hpos : 0 < orderOf σ := orderOf_pos σ
  have := closureFromRoundsLoop_ofPerm σ (orderOf σ - 1) 1 (by omega) (by omega)
  simpa [closureFromRounds, ofPerm_stage hn, rounds_eq_ofPerm] using this

end Row

end Bellframe
