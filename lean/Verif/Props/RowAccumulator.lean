import Verif.Proofs.RowAlgebra

/-! # C21: the row accumulator computes running products -/

namespace Bellframe.Props

/-- One call on a `RowAccumulator`. -/
inductive AccOp where
  | accumulate (r : Row)
  | preAccumulate (r : Row)
  | set (r : Row)

/-- The row passed to the call. -/
def AccOp.row : AccOp → Row
  | .accumulate r => r
  | .preAccumulate r => r
  | .set r => r

/-- Running the code: a list of calls, collecting what each of them returned. -/
def AccOp.run : List AccOp → RowAccumulator →
    Res (RowAccumulator × List (Except IncompatibleStages Unit))
  | [], a => .ok (a, [])
  | op :: ops, a => do
    let (a', res) ← match op with
      | .accumulate r => a.accumulate r
      | .preAccumulate r => a.preAccumulate r
      | .set r => .ok (a.set r, .ok ())
    let (a'', rest) ← AccOp.run ops a'
    return (a'', res :: rest)

/-- The specification: what one call should do to the total, and what it should return.
`Row.comp` is composition of rows. -/
def AccOp.spec (total : Row) : AccOp → Row × Except IncompatibleStages Unit
  | .accumulate r =>
    if total.bells.length = r.bells.length then (Row.comp total r, .ok ())
    else (total, .error ⟨⟨total.bells.length⟩, ⟨r.bells.length⟩⟩)
  | .preAccumulate r =>
    if r.bells.length = total.bells.length then (Row.comp r total, .ok ())
    else (total, .error ⟨⟨r.bells.length⟩, ⟨total.bells.length⟩⟩)
  | .set r => (r, .ok ())

/-- The specification for a list of calls. -/
def AccOp.specs : List AccOp → Row → Row × List (Except IncompatibleStages Unit)
  | [], total => (total, [])
  | op :: ops, total =>
    let (t', res) := AccOp.spec total op
    let (t'', rest) := AccOp.specs ops t'
    (t'', res :: rest)

/-- Any sequence of calls with valid rows of any stages, on an accumulator whose total is valid and
whose hidden buffer holds anything, never panics, leaves exactly the specified total (which is
valid), and returns exactly the specified results.  A rejected call changes nothing. -/
theorem C21_accumulator (ops : List AccOp) (hops : ∀ op ∈ ops, op.row.Valid) (total temp : Row)
    (ht : total.Valid) :
    (∃ temp', AccOp.run ops ⟨total, temp⟩ =
      .ok (⟨(AccOp.specs ops total).1, temp'⟩, (AccOp.specs ops total).2)) ∧
    (AccOp.specs ops total).1.Valid := by
  induction ops generalizing total temp with
  | nil => exact ⟨⟨temp, rfl⟩, ht⟩
  | cons op ops ih =>
    have ih := ih (fun op' h => hops op' (by simp [h]))
    have hr := hops op (by simp)
    cases op with
    | accumulate r =>
      simp only [AccOp.row] at hr
      by_cases h : total.bells.length = r.bells.length
      · obtain ⟨⟨temp', h1⟩, h2⟩ := ih (Row.comp total r) total (ht.comp hr h)
        refine ⟨⟨temp', ?_⟩, ?_⟩
        · simp only [AccOp.run, RowAccumulator.accumulate, Row.mulInto_eq_comp temp ht hr h,
            Res.ok_bind, Res.pure_eq, h1, AccOp.specs, AccOp.spec, if_pos h]
        · simpa only [AccOp.specs, AccOp.spec, if_pos h] using h2
      · obtain ⟨⟨temp', h1⟩, h2⟩ := ih total temp ht
        refine ⟨⟨temp', ?_⟩, ?_⟩
        · simp only [AccOp.run, RowAccumulator.accumulate, Row.mulInto_mismatch temp ht hr h,
            Res.ok_bind, Res.pure_eq, h1, AccOp.specs, AccOp.spec, if_neg h]
        · simpa only [AccOp.specs, AccOp.spec, if_neg h] using h2
    | preAccumulate r =>
      simp only [AccOp.row] at hr
      by_cases h : r.bells.length = total.bells.length
      · obtain ⟨⟨temp', h1⟩, h2⟩ := ih (Row.comp r total) total (hr.comp ht h)
        refine ⟨⟨temp', ?_⟩, ?_⟩
        · simp only [AccOp.run, RowAccumulator.preAccumulate, Row.mulInto_eq_comp temp hr ht h,
            Res.ok_bind, Res.pure_eq, h1, AccOp.specs, AccOp.spec, if_pos h]
        · simpa only [AccOp.specs, AccOp.spec, if_pos h] using h2
      · obtain ⟨⟨temp', h1⟩, h2⟩ := ih total temp ht
        refine ⟨⟨temp', ?_⟩, ?_⟩
        · simp only [AccOp.run, RowAccumulator.preAccumulate, Row.mulInto_mismatch temp hr ht h,
            Res.ok_bind, Res.pure_eq, h1, AccOp.specs, AccOp.spec, if_neg h]
        · simpa only [AccOp.specs, AccOp.spec, if_neg h] using h2
    | set r =>
      simp only [AccOp.row] at hr
      obtain ⟨⟨temp', h1⟩, h2⟩ := ih r temp hr
      refine ⟨⟨temp', ?_⟩, ?_⟩
      · have : (⟨total, temp⟩ : RowAccumulator).set r = ⟨r, temp⟩ := by
          simp [RowAccumulator.set, Row.overwriteFrom]
        simp only [AccOp.run, this, Res.ok_bind, h1, Res.pure_eq, AccOp.specs, AccOp.spec]
      · simpa only [AccOp.specs, AccOp.spec] using h2

/-- In terms of permutations: accumulating `σ₁, …, σₖ` on top of `σ` gives `σ * σ₁ * … * σₖ`. -/
theorem C21_accumulate_product {n : Nat} (hn : 0 < n) (σ : Equiv.Perm (Fin n))
    (τs : List (Equiv.Perm (Fin n))) (temp : Row) :
    ∃ temp' res, AccOp.run (τs.map fun τ => .accumulate (Row.ofPerm τ)) ⟨Row.ofPerm σ, temp⟩ =
      .ok (⟨Row.ofPerm (σ * τs.prod), temp'⟩, res) := by
  obtain ⟨⟨temp', h⟩, -⟩ := C21_accumulator (τs.map fun τ => .accumulate (Row.ofPerm τ))
    (by
      intro op hop
      obtain ⟨τ, -, rfl⟩ := List.mem_map.1 hop
      exact Row.ofPerm_valid hn τ) (Row.ofPerm σ) temp (Row.ofPerm_valid hn σ)
  have key : (AccOp.specs (τs.map fun τ => .accumulate (Row.ofPerm τ)) (Row.ofPerm σ)).1 =
      Row.ofPerm (σ * τs.prod) := by
    clear h temp'
    induction τs generalizing σ with
    | nil => simp [AccOp.specs]
    | cons τ τs ih =>
      simp only [List.map_cons, AccOp.specs, AccOp.spec, Row.ofPerm_length, if_true,
        Row.comp_ofPerm, List.prod_cons, ih, mul_assoc]
  rw [key] at h
  exact ⟨temp', _, h⟩

/-- A new accumulator holds the given row; `rounds` starts from rounds; `*=` is `accumulate` with a
panic in place of the error. -/
theorem C21_constructors (r : Row) (hr : r.Valid) (s : Stage) (hs : s.Valid) (a : RowAccumulator)
    (ha : a.total.Valid) :
    (∃ temp, RowAccumulator.new r = .ok ⟨r, temp⟩) ∧
    (∃ temp, RowAccumulator.rounds s = .ok ⟨Row.rounds s, temp⟩) ∧
    (a.total.bells.length = r.bells.length →
      ∃ temp, a.mulAssign r = .ok ⟨Row.comp a.total r, temp⟩) ∧
    (a.total.bells.length ≠ r.bells.length → a.mulAssign r = .error .unwrap) := by
  refine ⟨⟨_, by simp only [RowAccumulator.new, hr.stage_eq, Res.ok_bind]; rfl⟩,
    ⟨_, by
      simp only [RowAccumulator.rounds, RowAccumulator.new, (Row.rounds_valid hs).stage_eq,
        Res.ok_bind]
      rfl⟩, ?_, ?_⟩
  · intro h
    refine ⟨a.total, ?_⟩
    simp [RowAccumulator.mulAssign, RowAccumulator.accumulate, Row.mulInto_eq_comp _ ha hr h]
  · intro h
    simp [RowAccumulator.mulAssign, RowAccumulator.accumulate, Row.mulInto_mismatch _ ha hr h]

/-- A non-trivial history: one rejected call, one `set` and two products. -/
example : let r3 : Row := ⟨[⟨1⟩, ⟨2⟩, ⟨0⟩]⟩; let r2 : Row := ⟨[⟨1⟩, ⟨0⟩]⟩
    r3.Valid ∧ r2.Valid ∧
    (AccOp.specs [.accumulate r3, .accumulate r2, .set r2, .preAccumulate r2] r3).1 =
      ⟨[⟨0⟩, ⟨1⟩]⟩ := by decide

end Bellframe.Props
