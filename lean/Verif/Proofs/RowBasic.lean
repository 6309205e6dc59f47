import Verif.Spec
import Verif.Proofs.Basic
import Mathlib.Data.List.Perm.Subperm
import Mathlib.Data.List.FinRange
import Mathlib.Data.Fintype.EquivFin
import Mathlib.Data.Fintype.Card

/-! # Valid rows are permutations; row algebra is the algebra of `Equiv.Perm (Fin n)` -/

namespace Bellframe

namespace Bell

@[ext] theorem ext' {a b : Bell} (h : a.index = b.index) : a = b := by
  cases a; cases b; simp_all

theorem mk_injective : Function.Injective Bell.mk := fun _ _ h => by simpa using h

@[simp] theorem fromIndex_index (i : Nat) : (fromIndex i).index = i := rfl

theorem fromIndex_eq (i : Nat) : fromIndex i = ⟨i⟩ := rfl

end Bell

namespace Row

@[ext] theorem ext' {a b : Row} (h : a.bells = b.bells) : a = b := by
  cases a; cases b; simp_all

variable {n : Nat}

@[simp] theorem ofPerm_length (σ : Equiv.Perm (Fin n)) : (ofPerm σ).bells.length = n := by
  simp [ofPerm]

@[simp] theorem ofPerm_getElem (σ : Equiv.Perm (Fin n)) (i : Nat) (h : i < (ofPerm σ).bells.length) :
    (ofPerm σ).bells[i] = ⟨(σ ⟨i, by simpa using h⟩).val⟩ := by
  simp [ofPerm]

theorem ofPerm_getElem? (σ : Equiv.Perm (Fin n)) (i : Nat) (h : i < n) :
    (ofPerm σ).bells[i]? = some ⟨(σ ⟨i, h⟩).val⟩ := by
  rw [List.getElem?_eq_getElem (by simpa using h)]
  simp

theorem ofPerm_injective : Function.Injective (ofPerm (n := n)) := by
  intro σ τ h
  ext i
  have := congrArg (fun r => r.bells[i.val]?) h
  simpa [ofPerm_getElem?] using this

@[simp] theorem ofPerm_inj {σ τ : Equiv.Perm (Fin n)} : ofPerm σ = ofPerm τ ↔ σ = τ :=
  ofPerm_injective.eq_iff

theorem mem_ofPerm (σ : Equiv.Perm (Fin n)) (b : Bell) : b ∈ (ofPerm σ).bells ↔ b.index < n := by
  constructor
  · intro h
    simp only [ofPerm, List.mem_ofFn] at h
    obtain ⟨i, rfl⟩ := h
    exact (σ i).isLt
  · intro h
    simp only [ofPerm, List.mem_ofFn]
    exact ⟨σ.symm ⟨b.index, h⟩, by ext; simp⟩

theorem ofPerm_nodup (σ : Equiv.Perm (Fin n)) : (ofPerm σ).bells.Nodup := by
  simp only [ofPerm, List.nodup_ofFn]
  intro i j h
  have : (σ i).val = (σ j).val := by simpa using h
  exact σ.injective (Fin.ext this)

theorem ofPerm_valid (hn : 0 < n) (σ : Equiv.Perm (Fin n)) : (ofPerm σ).Valid := by
  constructor
  · intro h
    have := congrArg List.length h
    simp at this
    omega
  · intro i hi
    rw [ofPerm_length] at hi
    exact List.count_eq_one_of_mem (ofPerm_nodup σ) ((mem_ofPerm σ _).2 hi)

theorem Valid.length_pos {r : Row} (h : r.Valid) : 0 < r.bells.length :=
  List.length_pos_iff.2 h.1

theorem Valid.perm_range {r : Row} (h : r.Valid) :
    ((List.range r.bells.length).map Bell.mk).Perm r.bells := by
  have hnd : ((List.range r.bells.length).map Bell.mk).Nodup :=
    List.nodup_range.map Bell.mk_injective
  have hsub : (List.range r.bells.length).map Bell.mk ⊆ r.bells := by
    intro b hb
    simp only [List.mem_map, List.mem_range] at hb
    obtain ⟨i, hi, rfl⟩ := hb
    have := h.2 i hi
    exact List.count_pos_iff.1 (by omega)
  exact (List.subperm_of_subset hnd hsub).perm_of_length_le (by simp)

theorem Valid.nodup {r : Row} (h : r.Valid) : r.bells.Nodup :=
  (h.perm_range.nodup_iff).1 (List.nodup_range.map Bell.mk_injective)

theorem Valid.mem_iff {r : Row} (h : r.Valid) (b : Bell) :
    b ∈ r.bells ↔ b.index < r.bells.length := by
  rw [← h.perm_range.mem_iff]
  simp only [List.mem_map, List.mem_range]
  exact ⟨fun ⟨i, hi, e⟩ => e ▸ hi, fun hb => ⟨b.index, hb, rfl⟩⟩

theorem valid_of_perm_range {r : Row} {k : Nat} (hk : 0 < k)
    (h : ((List.range k).map Bell.mk).Perm r.bells) : r.Valid := by
  have hl : r.bells.length = k := by simpa using h.length_eq.symm
  constructor
  · intro h0; simp [h0] at hl; omega
  · intro i hi
    rw [← h.count_eq]
    apply List.count_eq_one_of_mem (List.nodup_range.map Bell.mk_injective)
    simp; omega

/-- A list of `n` different bells below `n` is a valid row. -/
theorem valid_of_nodup_lt {bs : List Bell} (hne : bs ≠ []) (hnd : bs.Nodup)
    (hlt : ∀ b ∈ bs, b.index < bs.length) : (Row.mk bs).Valid := by
  have hsub : bs ⊆ (List.range bs.length).map Bell.mk := by
    intro b hb
    simp only [List.mem_map, List.mem_range]
    exact ⟨b.index, hlt b hb, rfl⟩
  have := (List.subperm_of_subset hnd hsub).perm_of_length_le (by simp)
  exact valid_of_perm_range (List.length_pos_iff.2 hne) this.symm

/-- Every valid row is the row of a permutation. -/
theorem Valid.exists_perm {r : Row} (h : r.Valid) :
    ∃ σ : Equiv.Perm (Fin r.bells.length), r = ofPerm σ := by
  let f : Fin r.bells.length → Fin r.bells.length := fun i =>
    ⟨r.bells[i].index, (h.mem_iff _).1 (List.getElem_mem _)⟩
  have hinj : Function.Injective f := by
    intro i j hij
    have h1 : r.bells[i] = r.bells[j] := by
      ext; simpa [f] using hij
    exact Fin.ext ((h.nodup.getElem_inj_iff).1 h1)
  refine ⟨Equiv.ofBijective f (Finite.injective_iff_bijective.1 hinj), ?_⟩
  ext1
  apply List.ext_getElem
  · simp
  · intro i h1 h2
    simp [f]

theorem valid_iff_exists_perm {r : Row} :
    r.Valid ↔ ∃ n, 0 < n ∧ ∃ σ : Equiv.Perm (Fin n), r = ofPerm σ := by
  constructor
  · intro h
    exact ⟨_, h.length_pos, h.exists_perm⟩
  · rintro ⟨n, hn, σ, rfl⟩
    exact ofPerm_valid hn σ

theorem Valid.exists_perm' {r : Row} (h : r.Valid) {n : Nat} (hn : r.bells.length = n) :
    ∃ σ : Equiv.Perm (Fin n), r = ofPerm σ := by
  subst hn; exact h.exists_perm

/-! ## stage -/

theorem stage_of_ne {r : Row} (h : r.bells ≠ []) : r.stage = .ok ⟨r.bells.length⟩ := by
  have : r.bells.length ≠ 0 := by simpa using h
  simp [stage, Stage.new, Stage.tryFrom, this]

theorem Valid.stage_eq {r : Row} (h : r.Valid) : r.stage = .ok ⟨r.bells.length⟩ :=
  stage_of_ne h.1

theorem ofPerm_stage (hn : 0 < n) (σ : Equiv.Perm (Fin n)) : (ofPerm σ).stage = .ok ⟨n⟩ := by
  rw [(ofPerm_valid hn σ).stage_eq, ofPerm_length]

/-! ## rounds -/

theorem rounds_eq_ofPerm (n : Nat) : rounds ⟨n⟩ = ofPerm (1 : Equiv.Perm (Fin n)) := by
  ext1
  apply List.ext_getElem
  · simp [rounds]
  · intro i h1 h2
    simp [rounds, Bell.fromIndex]

theorem isRounds_iff (r : Row) :
    r.isRounds = true ↔ ∀ i (h : i < r.bells.length), (r.bells[i]).index = i := by
  simp only [isRounds, List.all_eq_true]
  constructor
  · intro H i h
    have := H (r.bells[i], i) (by
      rw [List.mem_iff_getElem?]
      exact ⟨i, by simp [h]⟩)
    simpa using this
  · rintro H ⟨b, i⟩ hb
    rw [List.mem_iff_getElem?] at hb
    obtain ⟨j, hj⟩ := hb
    rw [List.getElem?_zipIdx] at hj
    simp only [Nat.zero_add, Option.map_eq_some_iff, Prod.mk.injEq] at hj
    obtain ⟨a, ha, rfl, rfl⟩ := hj
    obtain ⟨hlt, rfl⟩ := List.getElem?_eq_some_iff.1 ha
    simpa using H j hlt

theorem isRounds_iff_eq (r : Row) : r.isRounds = true ↔ r = rounds ⟨r.bells.length⟩ := by
  rw [isRounds_iff]
  constructor
  · intro H
    ext1
    apply List.ext_getElem
    · simp [rounds]
    · intro i h1 h2
      ext
      simp [rounds, H i h1]
  · intro H i h
    have : r.bells[i]? = (rounds ⟨r.bells.length⟩).bells[i]? := by rw [← H]
    simp [rounds, h] at this
    simp [this]

theorem ofPerm_isRounds (σ : Equiv.Perm (Fin n)) : (ofPerm σ).isRounds = true ↔ σ = 1 := by
  rw [isRounds_iff_eq, ofPerm_length, rounds_eq_ofPerm, ofPerm_inj]

/-! ## multiplication -/

theorem mulBells_ofPerm (σ τ : Equiv.Perm (Fin n)) :
    mulBells (ofPerm σ).bells (ofPerm τ).bells = .ok (ofPerm (σ * τ)).bells := by
  unfold mulBells
  rw [mapM_res_eq_ok (g := fun b => if h : b.index < n then ⟨(σ ⟨b.index, h⟩).val⟩ else b)]
  · congr 1
    apply List.ext_getElem
    · simp
    · intro i h1 h2
      simp
  · intro b hb
    have hb' : b.index < n := (mem_ofPerm τ b).1 hb
    simp [getIdx, hb']

theorem mulUnchecked_ofPerm (σ τ : Equiv.Perm (Fin n)) :
    (ofPerm σ).mulUnchecked (ofPerm τ) = .ok (ofPerm (σ * τ)) := by
  simp [mulUnchecked, mulBells_ofPerm]

@[simp] theorem testErr_self (s : Stage) : IncompatibleStages.testErr s s = .ok () := by
  simp [IncompatibleStages.testErr]

theorem mulResult_ofPerm (hn : 0 < n) (σ τ : Equiv.Perm (Fin n)) :
    (ofPerm σ).mulResult (ofPerm τ) = .ok (.ok (ofPerm (σ * τ))) := by
  simp [mulResult, ofPerm_stage hn, mulUnchecked_ofPerm]

theorem mul_ofPerm (hn : 0 < n) (σ τ : Equiv.Perm (Fin n)) :
    (ofPerm σ).mul (ofPerm τ) = .ok (ofPerm (σ * τ)) := by
  simp [mul, mulResult_ofPerm hn]

theorem mulIntoUnchecked_ofPerm (σ τ : Equiv.Perm (Fin n)) (out : Row) :
    (ofPerm σ).mulIntoUnchecked (ofPerm τ) out = .ok (ofPerm (σ * τ)) := by
  simp [mulIntoUnchecked, mulBells_ofPerm]

theorem mulInto_ofPerm (hn : 0 < n) (σ τ : Equiv.Perm (Fin n)) (out : Row) :
    (ofPerm σ).mulInto (ofPerm τ) out = .ok (.ok (ofPerm (σ * τ))) := by
  simp [mulInto, ofPerm_stage hn, mulIntoUnchecked_ofPerm]

theorem mulIntoRowUnchecked_eq (self : Row) : ∀ (rhs out : List Bell), rhs.length = out.length →
    mulIntoRowUnchecked self rhs out = mulBells self.bells rhs
  | [], [], _ => rfl
  | b :: rhs, _ :: out, h => by
    rw [mulIntoRowUnchecked, mulBells, List.mapM_cons]
    have ih := mulIntoRowUnchecked_eq self rhs out (by simpa using h)
    rw [ih]; rfl
  | [], _ :: _, h => by simp at h
  | _ :: _, [], h => by simp at h

theorem mulIntoRow_ofPerm (hn : 0 < n) (σ τ : Equiv.Perm (Fin n)) (out : Row)
    (hout : out.bells.length = n) :
    (ofPerm σ).mulIntoRow (ofPerm τ) out = .ok (.ok (ofPerm (σ * τ))) := by
  have ho : out.stage = .ok ⟨n⟩ := by
    rw [stage_of_ne (by intro h; simp [h] at hout; omega), hout]
  simp [mulIntoRow, ofPerm_stage hn, ho,
    mulIntoRowUnchecked_eq _ (ofPerm τ).bells out.bells (by simp [hout]), mulBells_ofPerm]

/-! ## inverse -/

/-- Loop invariant of the inversion loop: places before `i` have been entered. -/
theorem invLoop_ofPerm_aux (σ : Equiv.Perm (Fin n)) : ∀ (k : Nat) (i : Nat) (out : List Bell),
    i + k = n → out.length = n →
    (∀ j (hj : j < n), (σ.symm ⟨j, hj⟩).val < i → out[j]? = some ⟨(σ.symm ⟨j, hj⟩).val⟩) →
    invLoop ((ofPerm σ).bells.drop i) i out = .ok (ofPerm σ⁻¹).bells
  | 0, i, out, hik, hlen, hinv => by
    have hi : i = n := by omega
    subst hi
    rw [List.drop_eq_nil_of_le (by simp), invLoop]
    congr 1
    apply List.ext_getElem?
    intro j
    by_cases hj : j < i
    · rw [hinv j hj (Fin.isLt _), ofPerm_getElem? _ _ hj]
      rfl
    · rw [List.getElem?_eq_none (by omega), List.getElem?_eq_none (by simp; omega)]
  | k + 1, i, out, hik, hlen, hinv => by
    have hi : i < n := by omega
    have hd : (ofPerm σ).bells.drop i = ⟨(σ ⟨i, hi⟩).val⟩ :: (ofPerm σ).bells.drop (i + 1) := by
      rw [List.drop_eq_getElem_cons (by simpa using hi)]
      simp
    rw [hd, invLoop, setIdx_of_lt _ _ _ (by rw [hlen]; exact (σ ⟨i, hi⟩).isLt)]
    simp only [Res.ok_bind]
    apply invLoop_ofPerm_aux σ k (i + 1) _ (by omega) (by simpa using hlen)
    intro j hj hlt
    rw [List.getElem?_set]
    by_cases hji : (σ ⟨i, hi⟩).val = j
    · have he : σ.symm ⟨j, hj⟩ = ⟨i, hi⟩ := by
        rw [Equiv.symm_apply_eq]
        exact Fin.ext hji.symm
      rw [if_pos hji, he]
      have : (σ ⟨i, hi⟩).val < out.length := by rw [hlen]; exact Fin.isLt _
      rw [if_pos (by omega)]
      rfl
    · rw [if_neg hji]
      apply hinv j hj
      have : (σ.symm ⟨j, hj⟩).val ≠ i := by
        intro he
        apply hji
        have h1 : σ.symm ⟨j, hj⟩ = ⟨i, hi⟩ := Fin.ext he
        rw [Equiv.symm_apply_eq] at h1
        rw [← h1]
      omega

theorem invLoop_ofPerm (σ : Equiv.Perm (Fin n)) (out : List Bell) (h : out.length = n) :
    invLoop (ofPerm σ).bells 0 out = .ok (ofPerm σ⁻¹).bells := by
  have := invLoop_ofPerm_aux σ n 0 out (by omega) h (fun j hj hlt => absurd hlt (by omega))
  simpa using this

theorem inv_ofPerm (hn : 0 < n) (σ : Equiv.Perm (Fin n)) :
    (ofPerm σ).inv = .ok (ofPerm σ⁻¹) := by
  simp [inv, ofPerm_stage hn, invLoop_ofPerm σ (List.replicate n Bell.treble) (by simp)]

theorem invInto_ofPerm (hn : 0 < n) (σ : Equiv.Perm (Fin n)) (out : Row)
    (hout : out.bells.length = n) :
    (ofPerm σ).invInto out = .ok (.ok (ofPerm σ⁻¹)) := by
  have ho : out.stage = .ok ⟨n⟩ := by
    rw [stage_of_ne (by intro h; simp [h] at hout; omega), hout]
  simp [invInto, ofPerm_stage hn, ho, invLoop_ofPerm σ _ hout]

theorem invIntoBuf_ofPerm (hn : 0 < n) (σ : Equiv.Perm (Fin n)) (out : Row)
    (hout : out.bells ≠ []) :
    (ofPerm σ).invIntoBuf out = .ok (ofPerm σ⁻¹) := by
  unfold invIntoBuf
  simp only [stage_of_ne hout, ofPerm_stage hn, Res.ok_bind, ofPerm_length]
  generalize hb : (if out.bells.length < n then
      out.bells ++ List.replicate (n - out.bells.length) Bell.treble
    else if n < out.bells.length then List.take n out.bells else out.bells) = buf
  have hbl : buf.length = n := by
    rw [← hb]
    split
    · simp; omega
    · split
      · simp; omega
      · omega
  have hbne : buf ≠ [] := by intro h; simp [h] at hbl; omega
  rw [stage_of_ne (r := ⟨buf⟩) hbne]
  simp [hbl, invLoop_ofPerm σ buf hbl]

end Row

end Bellframe
