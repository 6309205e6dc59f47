import Verif.Proofs.RowAlgebra

/-! # C10–C16: the algebra of rows

Everything is stated for rows that are `Valid`; by C06 those are exactly the rows `Row.ofPerm σ`
for a permutation `σ` of `n > 0` places. -/

namespace Bellframe.Props

/-! ## C10: multiplication -/

/-- `a * b` is a valid row of the same stage whose place `i` holds `a[b[i]]`. -/
theorem C10_mul_spec (a b : Row) (ha : a.Valid) (hb : b.Valid)
    (h : a.bells.length = b.bells.length) :
    ∃ c, a.mul b = .ok c ∧ c.Valid ∧ c.bells.length = a.bells.length ∧
      ∀ (i : Nat) (x : Bell), b.bells[i]? = some x →
        ∃ y, a.bells[x.index]? = some y ∧ c.bells[i]? = some y := by
  refine ⟨_, Row.mul_eq_comp ha hb h, ha.comp hb h, by simp [h], ?_⟩
  intro i x hx
  have hmem : x ∈ b.bells := List.mem_of_getElem? hx
  rw [hb.mem_iff, ← h] at hmem
  refine ⟨_, List.getElem?_eq_getElem hmem, ?_⟩
  simp [Row.comp, hx, hmem]

example := C10_mul_spec ⟨[⟨1⟩, ⟨2⟩, ⟨0⟩, ⟨3⟩]⟩ ⟨[⟨0⟩, ⟨2⟩, ⟨1⟩, ⟨3⟩]⟩ (by decide) (by decide) rfl

/-- In terms of permutations, the product of the rows of `σ` and `τ` is the row of `σ ∘ τ`. -/
theorem C10_mul_perm {n : Nat} (hn : 0 < n) (σ τ : Equiv.Perm (Fin n)) :
    (Row.ofPerm σ).mul (Row.ofPerm τ) = .ok (Row.ofPerm (τ.trans σ)) :=
  Row.mul_ofPerm hn σ τ

/-- Multiplication is associative. -/
theorem C10_mul_assoc (a b c : Row) (ha : a.Valid) (hb : b.Valid) (hc : c.Valid)
    (hab : a.bells.length = b.bells.length) (hbc : b.bells.length = c.bells.length) :
    ∃ ab bc abc, a.mul b = .ok ab ∧ b.mul c = .ok bc ∧ ab.mul c = .ok abc ∧ a.mul bc = .ok abc := by
  obtain ⟨n, hn, σ, rfl⟩ := Row.valid_iff_exists_perm.1 ha
  obtain ⟨τ, rfl⟩ := hb.exists_perm' (n := n) (by simpa using hab.symm)
  obtain ⟨υ, rfl⟩ := hc.exists_perm' (n := n) (by simpa using hbc.symm)
  exact ⟨_, _, _, Row.mul_ofPerm hn _ _, Row.mul_ofPerm hn _ _, Row.mul_ofPerm hn _ _, by
    rw [Row.mul_ofPerm hn, mul_assoc]⟩

example := C10_mul_assoc ⟨[⟨1⟩, ⟨2⟩, ⟨0⟩, ⟨3⟩]⟩ ⟨[⟨0⟩, ⟨2⟩, ⟨1⟩, ⟨3⟩]⟩ ⟨[⟨3⟩, ⟨1⟩, ⟨2⟩, ⟨0⟩]⟩ (by decide) (by decide) (by decide) rfl rfl

/-- Rounds is a two-sided identity. -/
theorem C10_rounds_identity (r : Row) (h : r.Valid) :
    r.mul (Row.rounds ⟨r.bells.length⟩) = .ok r ∧ (Row.rounds ⟨r.bells.length⟩).mul r = .ok r := by
  obtain ⟨n, hn, σ, rfl⟩ := Row.valid_iff_exists_perm.1 h
  simp [Row.rounds_eq_ofPerm, Row.mul_ofPerm hn]

example := C10_rounds_identity ⟨[⟨1⟩, ⟨2⟩, ⟨0⟩, ⟨3⟩]⟩ (by decide)

/-- The checked products fail exactly when the stages differ, and report both stages; the operator
panics in exactly that case. -/
theorem C10_mul_mismatch (a b out : Row) (ha : a.Valid) (hb : b.Valid) :
    (a.bells.length ≠ b.bells.length →
      a.mulResult b = .ok (.error ⟨⟨a.bells.length⟩, ⟨b.bells.length⟩⟩) ∧
      a.mulInto b out = .ok (.error ⟨⟨a.bells.length⟩, ⟨b.bells.length⟩⟩) ∧
      a.mulIntoRow b out = .ok (.error (.rhsStage ⟨⟨a.bells.length⟩, ⟨b.bells.length⟩⟩)) ∧
      a.mul b = .error .unwrap) ∧
    (a.bells.length = b.bells.length →
      (∃ c, a.mulResult b = .ok (.ok c)) ∧ (∃ c, a.mulInto b out = .ok (.ok c)) ∧
      (out.Valid → ((∃ c, a.mulIntoRow b out = .ok (.ok c)) ↔
        out.bells.length = a.bells.length) ∧
        (out.bells.length ≠ a.bells.length → a.mulIntoRow b out =
          .ok (.error (.intoStage ⟨⟨a.bells.length⟩, ⟨out.bells.length⟩⟩))))) := by
  constructor
  · intro h
    have hs : (⟨a.bells.length⟩ : Stage) ≠ ⟨b.bells.length⟩ := by simpa using h
    refine ⟨Row.mulResult_mismatch ha hb h, Row.mulInto_mismatch out ha hb h, ?_, ?_⟩
    · simp [Row.mulIntoRow, ha.stage_eq, hb.stage_eq, Row.testErr_ne hs]
    · simp [Row.mul, Row.mulResult_mismatch ha hb h]
  · intro h
    refine ⟨⟨_, Row.mulResult_eq_comp ha hb h⟩, ⟨_, Row.mulInto_eq_comp out ha hb h⟩, ?_⟩
    intro hout
    have hne : out.bells.length ≠ a.bells.length → a.mulIntoRow b out =
          .ok (.error (.intoStage ⟨⟨a.bells.length⟩, ⟨out.bells.length⟩⟩)) := by
      intro h'
      have hs : (⟨a.bells.length⟩ : Stage) ≠ ⟨out.bells.length⟩ := by simpa using Ne.symm h'
      simp [Row.mulIntoRow, ha.stage_eq, hb.stage_eq, hout.stage_eq, h, Row.testErr_self]
      rw [← h, Row.testErr_ne hs]
    refine ⟨⟨?_, ?_⟩, hne⟩
    · rintro ⟨c, hc⟩
      by_contra h'
      rw [hne h'] at hc
      cases hc
    · intro h'
      obtain ⟨n, hn, σ, rfl⟩ := Row.valid_iff_exists_perm.1 ha
      obtain ⟨τ, rfl⟩ := hb.exists_perm' (n := n) (by simpa using h.symm)
      exact ⟨_, Row.mulIntoRow_ofPerm hn σ τ out (by simpa using h')⟩

example := C10_mul_mismatch ⟨[⟨1⟩, ⟨2⟩, ⟨0⟩, ⟨3⟩]⟩ ⟨[⟨1⟩, ⟨0⟩]⟩ ⟨[⟨0⟩, ⟨2⟩, ⟨1⟩, ⟨3⟩]⟩ (by decide) (by decide)

/-- All entry points agree, whatever the output buffer held. -/
theorem C10_entry_points_agree (a b out : Row) (ha : a.Valid) (hb : b.Valid)
    (h : a.bells.length = b.bells.length) :
    ∃ c, a.mul b = .ok c ∧ a.mulResult b = .ok (.ok c) ∧ a.mulUnchecked b = .ok c ∧
      a.mulInto b out = .ok (.ok c) ∧ a.mulIntoUnchecked b out = .ok c ∧
      (out.bells.length = a.bells.length → a.mulIntoRow b out = .ok (.ok c)) := by
  obtain ⟨n, hn, σ, rfl⟩ := Row.valid_iff_exists_perm.1 ha
  obtain ⟨τ, rfl⟩ := hb.exists_perm' (n := n) (by simpa using h.symm)
  refine ⟨_, Row.mul_ofPerm hn σ τ, Row.mulResult_ofPerm hn σ τ, Row.mulUnchecked_ofPerm σ τ,
    Row.mulInto_ofPerm hn σ τ out, Row.mulIntoUnchecked_ofPerm σ τ out, ?_⟩
  intro h'
  exact Row.mulIntoRow_ofPerm hn σ τ out (by simpa using h')

/-- 2314 * 1324 = 2134 — the two rows meet the hypotheses. -/
example : let a : Row := ⟨[⟨1⟩, ⟨2⟩, ⟨0⟩, ⟨3⟩]⟩; let b : Row := ⟨[⟨0⟩, ⟨2⟩, ⟨1⟩, ⟨3⟩]⟩
    a.Valid ∧ b.Valid ∧ a.bells.length = b.bells.length ∧
    a.mul b = .ok ⟨[⟨1⟩, ⟨0⟩, ⟨2⟩, ⟨3⟩]⟩ ∧ b.mul a ≠ a.mul b := by decide

/-! ## C11: inverse -/

/-- `!r` is a valid row with `r * !r = !r * r = rounds`, and `!!r = r`. -/
theorem C11_inverse (r : Row) (h : r.Valid) :
    ∃ ri, r.inv = .ok ri ∧ ri.Valid ∧ ri.bells.length = r.bells.length ∧
      r.mul ri = .ok (Row.rounds ⟨r.bells.length⟩) ∧
      ri.mul r = .ok (Row.rounds ⟨r.bells.length⟩) ∧ ri.inv = .ok r := by
  obtain ⟨n, hn, σ, rfl⟩ := Row.valid_iff_exists_perm.1 h
  refine ⟨_, Row.inv_ofPerm hn σ, Row.ofPerm_valid hn _, by simp, ?_, ?_, ?_⟩
  · simp [Row.mul_ofPerm hn, Row.rounds_eq_ofPerm]
  · simp [Row.mul_ofPerm hn, Row.rounds_eq_ofPerm]
  · simp [Row.inv_ofPerm hn]

example := C11_inverse ⟨[⟨1⟩, ⟨2⟩, ⟨0⟩, ⟨3⟩]⟩ (by decide)

/-- `!(a*b) = !b * !a`. -/
theorem C11_inverse_of_product (a b : Row) (ha : a.Valid) (hb : b.Valid)
    (h : a.bells.length = b.bells.length) :
    ∃ ab ai bi c, a.mul b = .ok ab ∧ a.inv = .ok ai ∧ b.inv = .ok bi ∧ ab.inv = .ok c ∧
      bi.mul ai = .ok c := by
  obtain ⟨n, hn, σ, rfl⟩ := Row.valid_iff_exists_perm.1 ha
  obtain ⟨τ, rfl⟩ := hb.exists_perm' (n := n) (by simpa using h.symm)
  exact ⟨_, _, _, _, Row.mul_ofPerm hn σ τ, Row.inv_ofPerm hn σ, Row.inv_ofPerm hn τ,
    Row.inv_ofPerm hn _, by rw [Row.mul_ofPerm hn, mul_inv_rev]⟩

example := C11_inverse_of_product ⟨[⟨1⟩, ⟨2⟩, ⟨0⟩, ⟨3⟩]⟩ ⟨[⟨0⟩, ⟨2⟩, ⟨1⟩, ⟨3⟩]⟩ (by decide) (by decide) rfl

/-- `place_of(b)` is the only place holding bell `b`, and it is the bell at place `b` of the
inverse; a bell outside the stage has no place. -/
theorem C11_place_of (r : Row) (h : r.Valid) (b : Bell) :
    (∀ p, r.placeOf b = some p ↔ r.bells[p]? = some b) ∧
    (r.placeOf b = none ↔ r.bells.length ≤ b.index) ∧
    ∃ ri, r.inv = .ok ri ∧ r.placeOf b = (ri.bells[b.index]?).map Bell.index := by
  obtain ⟨n, hn, σ, rfl⟩ := Row.valid_iff_exists_perm.1 h
  have hkey : ∀ p, (Row.ofPerm σ).placeOf b = some p ↔ (Row.ofPerm σ).bells[p]? = some b := by
    intro p
    unfold Row.placeOf
    constructor
    · intro hp
      rw [List.findIdx?_eq_some_iff_getElem] at hp
      obtain ⟨hlt, hp, -⟩ := hp
      rw [List.getElem?_eq_getElem hlt]
      simpa using hp
    · intro hp
      obtain ⟨hlt, hp⟩ := List.getElem?_eq_some_iff.1 hp
      rw [List.findIdx?_eq_some_iff_getElem]
      refine ⟨hlt, by simp [hp], ?_⟩
      intro j hj
      have hnd := Row.ofPerm_nodup σ
      have := hnd.getElem_inj_iff (hi := by omega) (hj := hlt) (i := j) (j := p)
      rw [hp] at this
      have hne : (Row.ofPerm σ).bells[j] ≠ b := fun hh => by
        have := this.1 hh; omega
      simpa only [beq_iff_eq] using hne
  refine ⟨hkey, ?_, _, Row.inv_ofPerm hn σ, ?_⟩
  · unfold Row.placeOf
    rw [List.findIdx?_eq_none_iff]
    constructor
    · intro hall
      by_contra hlt
      have : b ∈ (Row.ofPerm σ).bells := by rw [h.mem_iff]; omega
      simpa using hall b this
    · intro hle x hx
      rw [h.mem_iff] at hx
      have : x ≠ b := by rintro rfl; omega
      simpa using this
  · rcases Nat.lt_or_ge b.index n with hlt | hge
    · have : (Row.ofPerm σ).placeOf b = some (σ⁻¹ ⟨b.index, hlt⟩).val := by
        rw [hkey, Row.ofPerm_getElem? _ _ (σ⁻¹ ⟨b.index, hlt⟩).isLt]
        simp
      rw [this, Row.ofPerm_getElem? _ _ hlt]
      rfl
    · have h1 : (Row.ofPerm σ).placeOf b = none := by
        unfold Row.placeOf
        rw [List.findIdx?_eq_none_iff]
        intro x hx
        rw [h.mem_iff] at hx
        simp at hx
        have : x ≠ b := by rintro rfl; omega
        simpa using this
      rw [h1, List.getElem?_eq_none (by simpa using hge)]
      rfl

example := C11_place_of ⟨[⟨1⟩, ⟨2⟩, ⟨0⟩, ⟨3⟩]⟩ (by decide) ⟨2⟩

/-- `inv`, `inv_into` and `inv_into_buf` agree whatever the buffers held before. `inv_into` insists
on a buffer of the right stage; `inv_into_buf` accepts any (non-empty) buffer. -/
theorem C11_entry_points_agree (r out : Row) (h : r.Valid) (hout : out.bells ≠ []) :
    ∃ ri, r.inv = .ok ri ∧ r.invIntoBuf out = .ok ri ∧
      r.invInto out = .ok (if out.bells.length = r.bells.length then .ok ri
        else .error ⟨⟨r.bells.length⟩, ⟨out.bells.length⟩⟩) := by
  obtain ⟨n, hn, σ, rfl⟩ := Row.valid_iff_exists_perm.1 h
  refine ⟨_, Row.inv_ofPerm hn σ, Row.invIntoBuf_ofPerm hn σ out hout, ?_⟩
  split
  · rename_i heq
    exact Row.invInto_ofPerm hn σ out (by simpa using heq)
  · rename_i hne
    have hs : (⟨(Row.ofPerm σ).bells.length⟩ : Stage) ≠ ⟨out.bells.length⟩ := by
      simpa using Ne.symm (by simpa using hne : ¬ out.bells.length = n)
    simp only [Row.invInto, h.stage_eq, Row.stage_of_ne hout, Res.ok_bind, Row.testErr_ne hs,
      Res.pure_eq]

example : let r : Row := ⟨[⟨1⟩, ⟨2⟩, ⟨0⟩, ⟨3⟩]⟩
    r.Valid ∧ r.inv = .ok ⟨[⟨2⟩, ⟨0⟩, ⟨1⟩, ⟨3⟩]⟩ ∧
    r.invIntoBuf ⟨[⟨7⟩, ⟨7⟩]⟩ = .ok ⟨[⟨2⟩, ⟨0⟩, ⟨1⟩, ⟨3⟩]⟩ := by decide

/-! ## C12: equations -/

/-- `solve_ax_equals_b(a, b)` is the one and only solution of `a * x = b`. -/
theorem C12_solve_ax (a b x : Row) (ha : a.Valid) (hb : b.Valid) (hx : x.Valid)
    (h : a.bells.length = b.bells.length) (h' : a.bells.length = x.bells.length) :
    a.solveAxEqualsB b = .ok (.ok x) ↔ a.mul x = .ok b := by
  obtain ⟨n, hn, σ, rfl⟩ := Row.valid_iff_exists_perm.1 ha
  obtain ⟨τ, rfl⟩ := hb.exists_perm' (n := n) (by simpa using h.symm)
  obtain ⟨υ, rfl⟩ := hx.exists_perm' (n := n) (by simpa using h'.symm)
  simp only [Row.solveAxEqualsB, Row.inv_ofPerm hn, Res.ok_bind, Row.mulResult_ofPerm hn,
    Row.mul_ofPerm hn, Except.ok.injEq, Row.ofPerm_inj]
  constructor
  · rintro rfl; simp
  · rintro rfl; simp

example := C12_solve_ax ⟨[⟨1⟩, ⟨2⟩, ⟨0⟩, ⟨3⟩]⟩ ⟨[⟨0⟩, ⟨2⟩, ⟨1⟩, ⟨3⟩]⟩ ⟨[⟨3⟩, ⟨1⟩, ⟨2⟩, ⟨0⟩]⟩ (by decide) (by decide) (by decide) rfl rfl

/-- `solve_xa_equals_b(a, b)` is the one and only solution of `x * a = b`. -/
theorem C12_solve_xa (a b x : Row) (ha : a.Valid) (hb : b.Valid) (hx : x.Valid)
    (h : a.bells.length = b.bells.length) (h' : a.bells.length = x.bells.length) :
    a.solveXaEqualsB b = .ok (.ok x) ↔ x.mul a = .ok b := by
  obtain ⟨n, hn, σ, rfl⟩ := Row.valid_iff_exists_perm.1 ha
  obtain ⟨τ, rfl⟩ := hb.exists_perm' (n := n) (by simpa using h.symm)
  obtain ⟨υ, rfl⟩ := hx.exists_perm' (n := n) (by simpa using h'.symm)
  simp only [Row.solveXaEqualsB, Row.inv_ofPerm hn, Res.ok_bind, Row.mulResult_ofPerm hn,
    Row.mul_ofPerm hn, Except.ok.injEq, Row.ofPerm_inj]
  constructor
  · rintro rfl; simp
  · rintro rfl; simp

example := C12_solve_xa ⟨[⟨1⟩, ⟨2⟩, ⟨0⟩, ⟨3⟩]⟩ ⟨[⟨0⟩, ⟨2⟩, ⟨1⟩, ⟨3⟩]⟩ ⟨[⟨3⟩, ⟨1⟩, ⟨2⟩, ⟨0⟩]⟩ (by decide) (by decide) (by decide) rfl rfl

/-- Both solutions exist when the stages agree, and both calls report the mismatch otherwise. -/
theorem C12_solutions_exist (a b : Row) (ha : a.Valid) (hb : b.Valid) :
    (a.bells.length = b.bells.length →
      (∃ x, x.Valid ∧ x.bells.length = a.bells.length ∧ a.solveAxEqualsB b = .ok (.ok x)) ∧
      (∃ x, x.Valid ∧ x.bells.length = a.bells.length ∧ a.solveXaEqualsB b = .ok (.ok x))) ∧
    (a.bells.length ≠ b.bells.length →
      a.solveAxEqualsB b = .ok (.error ⟨⟨a.bells.length⟩, ⟨b.bells.length⟩⟩) ∧
      a.solveXaEqualsB b = .ok (.error ⟨⟨b.bells.length⟩, ⟨a.bells.length⟩⟩)) := by
  obtain ⟨n, hn, σ, rfl⟩ := Row.valid_iff_exists_perm.1 ha
  constructor
  · intro h
    obtain ⟨τ, rfl⟩ := hb.exists_perm' (n := n) (by simpa using h.symm)
    exact ⟨⟨Row.ofPerm (σ⁻¹ * τ), Row.ofPerm_valid hn _, by simp, by
        simp [Row.solveAxEqualsB, Row.inv_ofPerm hn, Row.mulResult_ofPerm hn]⟩,
      ⟨Row.ofPerm (τ * σ⁻¹), Row.ofPerm_valid hn _, by simp, by
        simp [Row.solveXaEqualsB, Row.inv_ofPerm hn, Row.mulResult_ofPerm hn]⟩⟩
  · intro h
    simp only [Row.solveAxEqualsB, Row.solveXaEqualsB, Row.inv_ofPerm hn, Res.ok_bind]
    have h1 := Row.mulResult_mismatch (Row.ofPerm_valid hn σ⁻¹) hb (by simpa using h)
    have h2 := Row.mulResult_mismatch hb (Row.ofPerm_valid hn σ⁻¹)
      (by simpa using Ne.symm (by simpa using h : ¬ n = b.bells.length))
    simpa using And.intro h1 h2

example : let a : Row := ⟨[⟨1⟩, ⟨2⟩, ⟨0⟩]⟩; let b : Row := ⟨[⟨0⟩, ⟨2⟩, ⟨1⟩]⟩
    a.Valid ∧ b.Valid ∧ a.solveAxEqualsB b = .ok (.ok ⟨[⟨2⟩, ⟨1⟩, ⟨0⟩]⟩) ∧
    a.solveXaEqualsB b = .ok (.ok ⟨[⟨1⟩, ⟨0⟩, ⟨2⟩]⟩) := by decide

/-! ## C13: powers -/

/-- `pow_u` is repeated multiplication: `r^0` is rounds and `r^(n+1) = r^n * r`. -/
theorem C13_pow_u_product (r : Row) (h : r.Valid) (n : Nat) :
    r.powU 0 = .ok (Row.rounds ⟨r.bells.length⟩) ∧
    ∃ p q, r.powU n = .ok p ∧ p.Valid ∧ p.bells.length = r.bells.length ∧
      r.powU (n + 1) = .ok q ∧ p.mul r = .ok q ∧ r.mul p = .ok q := by
  obtain ⟨m, hm, σ, rfl⟩ := Row.valid_iff_exists_perm.1 h
  refine ⟨by simp [Row.powU_ofPerm hm, Row.rounds_eq_ofPerm], _, _, Row.powU_ofPerm hm σ n,
    Row.ofPerm_valid hm _, by simp, Row.powU_ofPerm hm σ (n + 1), ?_, ?_⟩
  · rw [Row.mul_ofPerm hm, pow_succ]
  · rw [Row.mul_ofPerm hm, pow_succ']

example := C13_pow_u_product ⟨[⟨1⟩, ⟨2⟩, ⟨0⟩, ⟨3⟩]⟩ (by decide) 5

/-- `pow_i` agrees with `pow_u` on non-negative exponents and with powers of the inverse on negative
ones. -/
theorem C13_pow_i_cases (r : Row) (h : r.Valid) (n : Nat) :
    r.powI n = r.powU n ∧
    ∃ ri, r.inv = .ok ri ∧ r.powI (-n) = ri.powU n ∧
      ∃ p, r.powU n = .ok p ∧ r.powI (-n) = p.inv := by
  obtain ⟨m, hm, σ, rfl⟩ := Row.valid_iff_exists_perm.1 h
  exact ⟨by simp [Row.powI_ofPerm hm, Row.powU_ofPerm hm], _, Row.inv_ofPerm hm σ,
    by simp [Row.powI_ofPerm hm, Row.powU_ofPerm hm], _, Row.powU_ofPerm hm σ n,
    by simp [Row.powI_ofPerm hm, Row.inv_ofPerm hm]⟩

example := C13_pow_i_cases ⟨[⟨1⟩, ⟨2⟩, ⟨0⟩, ⟨3⟩]⟩ (by decide) 5

/-- The exponent laws `r^(m+n) = r^m * r^n` and `r^(m*n) = (r^m)^n` for all integers. -/
theorem C13_pow_i_laws (r : Row) (h : r.Valid) (m n : Int) :
    ∃ a b c d, r.powI m = .ok a ∧ r.powI n = .ok b ∧ r.powI (m + n) = .ok c ∧ a.mul b = .ok c ∧
      r.powI (m * n) = .ok d ∧ a.powI n = .ok d := by
  obtain ⟨k, hk, σ, rfl⟩ := Row.valid_iff_exists_perm.1 h
  exact ⟨_, _, _, _, Row.powI_ofPerm hk σ m, Row.powI_ofPerm hk σ n, Row.powI_ofPerm hk σ (m + n),
    by rw [Row.mul_ofPerm hk, zpow_add], Row.powI_ofPerm hk σ (m * n),
    by rw [Row.powI_ofPerm hk, zpow_mul]⟩

example : let r : Row := ⟨[⟨1⟩, ⟨2⟩, ⟨0⟩, ⟨3⟩]⟩
    r.Valid ∧ r.powI (-4) = .ok ⟨[⟨2⟩, ⟨0⟩, ⟨1⟩, ⟨3⟩]⟩ := by decide

/-! ## C14: parity -/

/-- `parity` terminates on every valid row, and is even exactly when the permutation is (its sign,
as defined by Mathlib, is `1`). -/
theorem C14_parity_is_sign {n : Nat} (hn : 0 < n) (σ : Equiv.Perm (Fin n)) :
    ∃ r' p, (Row.ofPerm σ).parity.Returns (r', p) ∧
      (p = .even ↔ Equiv.Perm.sign σ = 1) ∧ (p = .odd ↔ Equiv.Perm.sign σ = -1) := by
  obtain ⟨p, h1, h2, h3⟩ := Row.parity_ofPerm hn σ
  exact ⟨_, p, h1, h2, h3⟩

/-- `parity` borrows the row mutably and leaves rounds in it. -/
theorem C14_parity_leaves_rounds (r : Row) (h : r.Valid) :
    ∃ p, r.parity.Returns (Row.rounds ⟨r.bells.length⟩, p) := by
  obtain ⟨n, hn, σ, rfl⟩ := Row.valid_iff_exists_perm.1 h
  obtain ⟨p, h1, -⟩ := Row.parity_ofPerm hn σ
  exact ⟨p, by simpa using h1⟩

example := C14_parity_leaves_rounds ⟨[⟨1⟩, ⟨2⟩, ⟨0⟩, ⟨3⟩]⟩ (by decide)

/-- The parity of a product is the sum of the parities; inverting preserves parity; rounds is even;
swapping two different places flips the parity. -/
theorem C14_parity_laws (a b : Row) (ha : a.Valid) (hb : b.Valid)
    (h : a.bells.length = b.bells.length) (i j : Nat) (hi : i < a.bells.length)
    (hj : j < a.bells.length) (hij : i ≠ j) :
    ∃ ab ai asw pa pb pab pai psw r1 r2 r3 r4 r5,
      a.mul b = .ok ab ∧ a.inv = .ok ai ∧ a.swap i j = .ok asw ∧
      a.parity.Returns (r1, pa) ∧ b.parity.Returns (r2, pb) ∧ ab.parity.Returns (r3, pab) ∧
      ai.parity.Returns (r4, pai) ∧ asw.parity.Returns (r5, psw) ∧
      (pab = .even ↔ pa = pb) ∧ pai = pa ∧ psw ≠ pa := by
  obtain ⟨n, hn, σ, rfl⟩ := Row.valid_iff_exists_perm.1 ha
  obtain ⟨τ, rfl⟩ := hb.exists_perm' (n := n) (by simpa using h.symm)
  simp only [Row.ofPerm_length] at hi hj
  obtain ⟨pa, ha1, ha2, ha3⟩ := Row.parity_ofPerm hn σ
  obtain ⟨pb, hb1, hb2, hb3⟩ := Row.parity_ofPerm hn τ
  obtain ⟨pab, hab1, hab2, hab3⟩ := Row.parity_ofPerm hn (σ * τ)
  obtain ⟨pai, hai1, hai2, hai3⟩ := Row.parity_ofPerm hn σ⁻¹
  obtain ⟨psw, hsw1, hsw2, hsw3⟩ := Row.parity_ofPerm hn (σ * Equiv.swap ⟨i, hi⟩ ⟨j, hj⟩)
  refine ⟨_, _, _, pa, pb, pab, pai, psw, _, _, _, _, _, Row.mul_ofPerm hn σ τ, Row.inv_ofPerm hn σ,
    Row.swap_ofPerm σ ⟨i, hi⟩ ⟨j, hj⟩, ha1, hb1, hab1, hai1, hsw1, ?_, ?_, ?_⟩
  · rw [hab2, Equiv.Perm.sign_mul]
    rcases Int.units_eq_one_or (Equiv.Perm.sign σ) with h1 | h1 <;>
    rcases Int.units_eq_one_or (Equiv.Perm.sign τ) with h2 | h2 <;>
    simp_all
  · rw [Equiv.Perm.sign_inv] at hai2 hai3
    rcases Int.units_eq_one_or (Equiv.Perm.sign σ) with h1 | h1 <;> simp_all
  · rw [Equiv.Perm.sign_mul, Equiv.Perm.sign_swap (by simpa using hij)] at hsw2 hsw3
    rcases Int.units_eq_one_or (Equiv.Perm.sign σ) with h1 | h1 <;> simp_all

example : let a : Row := ⟨[⟨1⟩, ⟨2⟩, ⟨0⟩, ⟨3⟩]⟩; let b : Row := ⟨[⟨0⟩, ⟨2⟩, ⟨1⟩, ⟨3⟩]⟩
    a.Valid ∧ b.Valid ∧ a.bells.length = b.bells.length ∧ 1 < a.bells.length ∧
      3 < a.bells.length := by decide

/-- The documented meaning of parity: however a row is turned into rounds by swapping two different
places at a time, the number of swaps is even if the parity is even and odd if it is odd. -/
theorem C14_swaps (r : Row) (h : r.Valid) (swaps : List (Nat × Nat)) (hne : ∀ s ∈ swaps, s.1 ≠ s.2)
    (hr : swaps.foldlM (fun row s => row.swap s.1 s.2) r = .ok (Row.rounds ⟨r.bells.length⟩)) :
    ∃ r' p, r.parity.Returns (r', p) ∧ (p = .even ↔ swaps.length % 2 = 0) ∧
      (p = .odd ↔ swaps.length % 2 = 1) := by
  obtain ⟨n, hn, σ, rfl⟩ := Row.valid_iff_exists_perm.1 h
  obtain ⟨p, h1, h2, h3⟩ := Row.parity_ofPerm hn σ
  refine ⟨_, p, h1, ?_⟩
  have key : ∀ (swaps : List (Nat × Nat)) (σ : Equiv.Perm (Fin n)), (∀ s ∈ swaps, s.1 ≠ s.2) →
      swaps.foldlM (fun row s => row.swap s.1 s.2) (Row.ofPerm σ) = .ok (Row.rounds ⟨n⟩) →
      Equiv.Perm.sign σ = (-1) ^ swaps.length := by
    intro swaps
    induction swaps with
    | nil =>
      intro σ _ hσ
      have : Row.ofPerm σ = Row.rounds ⟨n⟩ := Except.ok.inj hσ
      rw [Row.rounds_eq_ofPerm, Row.ofPerm_inj] at this
      simp [this]
    | cons s swaps ih =>
      intro σ hne hσ
      rw [List.foldlM_cons] at hσ
      by_cases hoob : (Row.ofPerm σ).bells.length ≤ s.1 ∨ (Row.ofPerm σ).bells.length ≤ s.2
      · obtain ⟨e, he⟩ : ∃ e, (Row.ofPerm σ).swap s.1 s.2 = .error e := ⟨_, Row.swap_oob hoob⟩
        rw [he] at hσ
        cases hσ
      · rw [Row.ofPerm_length] at hoob
        have hi : s.1 < n := by omega
        have hj : s.2 < n := by omega
        have hsw := Row.swap_ofPerm σ ⟨s.1, hi⟩ ⟨s.2, hj⟩
        simp only at hsw
        rw [hsw] at hσ
        have := ih _ (fun t ht => hne t (List.mem_cons_of_mem _ ht)) hσ
        rw [Equiv.Perm.sign_mul, Equiv.Perm.sign_swap (by simpa using hne s List.mem_cons_self)] at this
        rw [List.length_cons, pow_succ, ← this]
        simp
  have hs := key swaps σ hne (by simpa using hr)
  rcases Nat.even_or_odd swaps.length with he | ho
  · rw [he.neg_one_pow] at hs
    rw [h2, h3, hs]
    have := Nat.even_iff.1 he
    exact ⟨by simp [this], by rw [this]; decide⟩
  · rw [ho.neg_one_pow] at hs
    rw [h2, h3, hs]
    have := Nat.odd_iff.1 ho
    exact ⟨by rw [this]; decide, by simp [this]⟩

example : ([(0, 1), (1, 2)] : List (Nat × Nat)).foldlM (fun row s => row.swap s.1 s.2)
    (⟨[⟨2⟩, ⟨0⟩, ⟨1⟩]⟩ : Row) = .ok (Row.rounds ⟨3⟩) := by decide +kernel

/-! ## C15: effective stage and fixed bells -/

/-- `effective_stage` is the least `n ≥ 1` such that every place from `n` on holds its own bell (for
any non-empty row, and in fact for any list of bells). -/
theorem C15_effective_stage (r : Row) :
    ∃ s, r.effectiveStage = .ok s ∧
      IsLeast {n | 1 ≤ n ∧ ∀ i x, n ≤ i → r.bells[i]? = some x → x = ⟨i⟩} s.numBells := by
  unfold Row.effectiveStage
  split
  · rename_i p hp
    refine ⟨⟨p.2 + 1⟩, rfl, ⟨⟨by simp, ?_⟩, ?_⟩⟩
    · intro i x hi hx
      rw [List.find?_eq_some_iff_append] at hp
      obtain ⟨-, as, bs, heq, hall⟩ := hp
      have hz : r.bells.zipIdx = bs.reverse ++ p :: as.reverse := by
        have := congrArg List.reverse heq
        simpa using this
      have hget : r.bells.zipIdx[i]? = some (x, i) := by simp [hx]
      have hmem : (x, i) ∈ r.bells.zipIdx := List.mem_of_getElem? hget
      have hlen : p.2 = bs.length := by
        have h1 : r.bells.zipIdx[bs.length]? = some p := by
          rw [hz, List.getElem?_append_right (by simp)]; simp
        rw [List.getElem?_zipIdx] at h1
        cases h2 : r.bells[bs.length]? with
        | none => rw [h2] at h1; simp at h1
        | some y => rw [h2] at h1; simp at h1; rw [← h1]
      simp only at hi
      have hin : (x, i) ∈ as := by
        rw [hz, List.getElem?_append_right (by simp; omega)] at hget
        rw [List.getElem?_cons, if_neg (by simp; omega)] at hget
        exact List.mem_reverse.1 (List.mem_of_getElem? hget)
      have := hall _ hin
      simp at this
      cases x; simp at this; rw [this]
    · rintro n ⟨hn, hall⟩
      by_contra hlt
      have hne := List.find?_some hp
      have hmem := List.mem_reverse.1 (List.mem_of_find?_eq_some hp)
      rw [List.mem_zipIdx_iff_getElem?] at hmem
      simp only [not_le] at hlt
      have := hall p.2 p.1 (by omega) hmem
      rw [this] at hne
      simp at hne
  · rename_i hnone
    rw [List.find?_eq_none] at hnone
    refine ⟨Stage.one, rfl, ⟨⟨by simp [Stage.one], ?_⟩, ?_⟩⟩
    · intro i x hi hx
      have := hnone (x, i) (by
        rw [List.mem_reverse, List.mem_zipIdx_iff_getElem?]; exact hx)
      simp at this
      cases x; simp at this; rw [this]
    · rintro n ⟨hn, -⟩
      simpa [Stage.one] using hn

/-- For a valid row the effective stage is at most its stage, and cutting the row off there leaves a
valid row, from which `extend_to_stage` recovers the row. -/
theorem C15_effective_prefix (r : Row) (h : r.Valid) :
    ∃ s, r.effectiveStage = .ok s ∧ s.numBells ≤ r.bells.length ∧
      (Row.mk (r.bells.take s.numBells)).Valid ∧
      (Row.mk (r.bells.take s.numBells)).extendToStage ⟨r.bells.length⟩ = .ok r := by
  obtain ⟨s, hs, ⟨h1, h2⟩, hleast⟩ := C15_effective_stage r
  have hle : s.numBells ≤ r.bells.length :=
    hleast ⟨h.length_pos, fun i x hi hx => by
      rw [List.getElem?_eq_none hi] at hx; cases hx⟩
  have htake : (r.bells.take s.numBells).length = s.numBells := by simp; omega
  have hv : (Row.mk (r.bells.take s.numBells)).Valid := by
    apply Row.valid_of_nodup_lt
    · intro he
      have := congrArg List.length he
      simp only [htake, List.length_nil] at this
      omega
    · exact h.nodup.sublist (List.take_sublist _ _)
    · intro b hb
      simp only [htake]
      by_contra hge
      have hb' : b ∈ r.bells := List.mem_of_mem_take hb
      rw [h.mem_iff] at hb'
      have := h2 b.index _ (by omega) (List.getElem?_eq_getElem hb')
      -- `b` is at its home place beyond `s`, and also among the first `s` places
      obtain ⟨i, hi, hib⟩ := List.getElem_of_mem hb
      rw [List.getElem_take] at hib
      have hi' : i < s.numBells := by simpa [htake] using hi
      have hbb : r.bells[i] = r.bells[b.index] := by
        rw [hib, this]
      have := (h.nodup.getElem_inj_iff (hi := by omega) (hj := hb')).1 hbb
      omega
  refine ⟨s, hs, hle, hv, ?_⟩
  simp only [Row.extendToStage, hv.stage_eq, Res.ok_bind, htake]
  rw [decide_eq_true (by simpa using hle)]
  simp only [assertThat_true, Res.ok_bind, Res.pure_eq, Except.ok.injEq]
  ext1
  apply List.ext_getElem?
  intro i
  rcases Nat.lt_or_ge i s.numBells with hi | hi
  · rw [List.getElem?_append_left (by omega)]
    simp [hi]
  · rw [List.getElem?_append_right (by omega), htake]
    rcases Nat.lt_or_ge i r.bells.length with hi' | hi'
    · have hx := h2 i _ hi (List.getElem?_eq_getElem hi')
      rw [List.getElem?_eq_getElem hi', hx, List.getElem?_eq_getElem (by simp; omega)]
      simp [Bell.fromIndex]
      omega
    · rw [List.getElem?_eq_none (by simp; omega), List.getElem?_eq_none hi']

example := C15_effective_prefix ⟨[⟨1⟩, ⟨2⟩, ⟨0⟩, ⟨3⟩]⟩ (by decide)

/-- The documentation's "shortest prefix that is a valid `Row`" is not what is computed: in 2143 the
prefix 21 is already a valid row, but the effective stage is 4. -/
theorem C15_doc_shortest_prefix_false :
    ¬ ∀ r : Row, r.Valid → ∀ s, r.effectiveStage = .ok s →
      ∀ n, 0 < n → n ≤ r.bells.length → (Row.mk (r.bells.take n)).Valid → s.numBells ≤ n := by
  intro h
  have := h ⟨[⟨1⟩, ⟨0⟩, ⟨3⟩, ⟨2⟩]⟩ (by decide) ⟨4⟩ (by decide) 2 (by decide) (by decide) (by decide)
  exact absurd this (by decide)

/-- `fixed_bells` is exactly the set of bells in their home place, in strictly ascending order. -/
theorem C15_fixed_bells (r : Row) :
    (∀ b, b ∈ r.fixedBells ↔ r.bells[b.index]? = some b) ∧
    (r.fixedBells.map Bell.index).Pairwise (· < ·) := by
  unfold Row.fixedBells
  constructor
  · intro b
    simp only [List.mem_map, List.mem_filter, Prod.exists, List.mem_zipIdx_iff_getElem?]
    constructor
    · rintro ⟨x, i, ⟨h1, h2⟩, rfl⟩
      simp at h2
      rwa [← h2]
    · intro h
      exact ⟨b, b.index, ⟨h, by simp⟩, rfl⟩
  · have hsort : (r.bells.zipIdx.map Prod.snd).Pairwise (· < ·) := by
      rw [List.zipIdx_map_snd]
      exact List.pairwise_lt_range'
    have heq : ((r.bells.zipIdx.filter fun p => p.2 == p.1.index).map Prod.fst).map Bell.index =
        (r.bells.zipIdx.filter fun p => p.2 == p.1.index).map Prod.snd := by
      rw [List.map_map]
      apply List.map_congr_left
      intro p hp
      have := (List.mem_filter.1 hp).2
      simp at this
      simp [this]
    rw [heq]
    exact hsort.sublist (List.filter_sublist.map _)

example : Row.effectiveStage ⟨[⟨0⟩, ⟨2⟩, ⟨1⟩, ⟨3⟩, ⟨4⟩]⟩ = .ok ⟨3⟩ ∧
    Row.fixedBells ⟨[⟨0⟩, ⟨2⟩, ⟨1⟩, ⟨3⟩, ⟨4⟩]⟩ = [⟨0⟩, ⟨3⟩, ⟨4⟩] ∧
    Row.Valid ⟨[⟨0⟩, ⟨2⟩, ⟨1⟩, ⟨3⟩, ⟨4⟩]⟩ := by decide

/-! ## C16: closures -/

/-- `closure` terminates and lists the powers `r, r², …`, without repetition, ending in rounds, as
many as the order of the permutation. -/
theorem C16_closure {n : Nat} (σ : Equiv.Perm (Fin n)) :
    ∃ l, (Row.ofPerm σ).closure.Returns l ∧ l.length = orderOf σ ∧ l.Nodup ∧
      (∀ i < l.length, l[i]? = some (Row.ofPerm (σ ^ (i + 1)))) ∧
      l.getLast? = some (Row.rounds ⟨n⟩) := by
  refine ⟨_, Row.closure_ofPerm σ, by simp, ?_, ?_, ?_⟩
  · refine List.Nodup.map_on ?_ List.nodup_range
    intro x hx y hy hxy
    rw [Row.ofPerm_inj] at hxy
    simp only [List.mem_range] at hx hy
    rw [pow_succ, pow_succ, mul_left_inj] at hxy
    exact pow_injOn_Iio_orderOf hx hy hxy
  · intro i hi
    have : i < orderOf σ := by simpa using hi
    simp [this]
  · have hpos : 0 < orderOf σ := orderOf_pos σ
    obtain ⟨k, hk⟩ : ∃ k, orderOf σ = k + 1 := ⟨orderOf σ - 1, by omega⟩
    have h1 : σ ^ (k + 1) = 1 := by rw [← hk]; exact pow_orderOf_eq_one σ
    simp [hk, List.range_succ, h1, Row.rounds_eq_ofPerm]

/-- `closure_from_rounds` terminates and lists `rounds, r, r², …` without repetition, as many as the
order of the permutation. -/
theorem C16_closure_from_rounds {n : Nat} (hn : 0 < n) (σ : Equiv.Perm (Fin n)) :
    ∃ l, (Row.ofPerm σ).closureFromRounds.Returns l ∧ l.length = orderOf σ ∧ l.Nodup ∧
      (∀ i < l.length, l[i]? = some (Row.ofPerm (σ ^ i))) ∧
      l.head? = some (Row.rounds ⟨n⟩) := by
  refine ⟨_, Row.closureFromRounds_ofPerm hn σ, by simp, ?_, ?_, ?_⟩
  · refine List.Nodup.map_on ?_ List.nodup_range
    intro x hx y hy hxy
    rw [Row.ofPerm_inj] at hxy
    exact pow_injOn_Iio_orderOf (by simpa using hx) (by simpa using hy) hxy
  · intro i hi
    have : i < orderOf σ := by simpa using hi
    simp [this]
  · have hpos : 0 < orderOf σ := orderOf_pos σ
    obtain ⟨k, hk⟩ : ∃ k, orderOf σ = k + 1 := ⟨orderOf σ - 1, by omega⟩
    simp [hk, List.range_succ_eq_map, Row.rounds_eq_ofPerm]

/-- Every valid row is the row of a permutation of some positive number of places, so C14 and C16
cover every valid row. -/
theorem C16_covers_valid_rows (r : Row) (h : r.Valid) :
    ∃ n, 0 < n ∧ ∃ σ : Equiv.Perm (Fin n), r = Row.ofPerm σ :=
  Row.valid_iff_exists_perm.1 h

example := C16_covers_valid_rows ⟨[⟨1⟩, ⟨2⟩, ⟨0⟩, ⟨3⟩]⟩ (by decide)

end Bellframe.Props
