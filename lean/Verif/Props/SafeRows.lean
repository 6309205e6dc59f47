import Verif.Props.PnBlock
import Verif.Props.RowAlgebra
import Verif.Props.RowSets
import Verif.Props.RowAccumulator

/-! # C22: every row reachable through the safe row API is valid -/

namespace Bellframe.Props

/-- Multiply an accumulator by one row after another, on the right (`true`) or on the left. Errors
leave it unchanged. -/
def accumulateAll : RowAccumulator → List (Bool × Row) → Res RowAccumulator
  | acc, [] => .ok acc
  | acc, (right, r) :: rows => do
    let (acc', _) ← if right then acc.accumulate r else acc.preAccumulate r
    accumulateAll acc' rows

/-- `RowStep rows r`: some operation of the safe row API, called on `rows` (and other arguments), makes
or leaves behind the row `r`. One constructor for each such operation; operations that panic or
return an error make no row. -/
inductive RowStep : List Row → Row → Prop
  | fromVec {bells r} : Row.fromVec bells = .ok r → RowStep [] r
  | parse {s r} : Row.parse s = .ok r → RowStep [] r
  | fromVecWithStage {bells} {stage : Stage} {r} : stage.Valid →
      Row.fromVecWithStage bells stage = .ok (.ok r) → RowStep [] r
  | parseWithStage {s} {stage : Stage} {r} : stage.Valid →
      Row.parseWithStage s stage = .ok (.ok r) → RowStep [] r
  | rounds {stage : Stage} : stage.Valid → RowStep [] (Row.rounds stage)
  | backrounds {stage : Stage} : stage.Valid → RowStep [] (Row.backrounds stage)
  | queens {stage : Stage} : stage.Valid → RowStep [] (Row.queens stage)
  | extendToStage {a stage r} : a.extendToStage stage = .ok r → RowStep [a] r
  | overwriteFrom {a b} : RowStep [a, b] (a.overwriteFrom b)
  | swap {a i j r} : a.swap i j = .ok r → RowStep [a] r
  | parity {a r p} : a.parity.Returns (r, p) → RowStep [a] r
  | mul {a b r} : a.mul b = .ok r → RowStep [a, b] r
  | mulResult {a b r} : a.mulResult b = .ok (.ok r) → RowStep [a, b] r
  | mulInto {a b out r} : a.mulInto b out = .ok (.ok r) → RowStep [a, b, out] r
  | mulIntoRow {a b out r} : a.mulIntoRow b out = .ok (.ok r) → RowStep [a, b, out] r
  | inv {a r} : a.inv = .ok r → RowStep [a] r
  | invInto {a out r} : a.invInto out = .ok (.ok r) → RowStep [a, out] r
  | invIntoBuf {a out r} : a.invIntoBuf out = .ok r → RowStep [a, out] r
  | powU {a k r} : a.powU k = .ok r → RowStep [a] r
  | powI {a k r} : a.powI k = .ok r → RowStep [a] r
  | solveAx {a b r} : a.solveAxEqualsB b = .ok (.ok r) → RowStep [a, b] r
  | solveXa {a b r} : a.solveXaEqualsB b = .ok (.ok r) → RowStep [a, b] r
  | closure {a l r} : a.closure.Returns l → r ∈ l → RowStep [a] r
  | closureFromRounds {a l r} : a.closureFromRounds.Returns l → r ∈ l → RowStep [a] r
  | cartesian {sets : List (List Row)} {l r} :
      Row.multiCartesianProduct sets = .ok (.ok l) → r ∈ l → RowStep sets.flatten r
  | leastGroup {rows : List Row} {l r} :
      (Row.leastGroupContaining rows).Returns (.ok l) → r ∈ l → RowStep rows r
  | permute {a r} {pn : PlaceNot} {res} : pn.WellFormed → pn.permute a = .ok (r, res) → RowStep [a] r
  | permuteNew {a r} {pn : PlaceNot} : pn.WellFormed → pn.permuteNew a = .ok (.ok r) → RowStep [a] r
  | transposition {pn : PlaceNot} {r} : pn.WellFormed → pn.transposition = .ok r → RowStep [] r
  | pnBlockRow {a r} {b : PnBlock} {v : SameStageVec} {i} : b.WellFormed →
      b.toRows a = .ok (.ok v) → v.get i = some r → RowStep [a] r
  /-- The total of an accumulator that has multiplied by `rows` on either side. -/
  | accumulator {a} {rows : List (Bool × Row)} {acc acc' : RowAccumulator} :
      RowAccumulator.new a = .ok acc → accumulateAll acc rows = .ok acc' →
      RowStep (a :: rows.map Prod.snd) acc'.total

/-- Rows that a program can get hold of through the safe row API, starting from nothing. -/
inductive Reachable : Row → Prop
  | step {rows r} : (∀ x ∈ rows, Reachable x) → RowStep rows r → Reachable r

theorem mcpFirst_valid : ∀ (set : List Row) (stage : Option Stage) (out : List Row)
    (stage' : Option Stage) (out' : List Row), (∀ r ∈ set, r.Valid) → (∀ r ∈ out, r.Valid) →
    (∀ r ∈ out, stage = some ⟨r.bells.length⟩) →
    Row.mcpFirst set stage out = .ok (.ok (stage', out')) →
    (∀ r ∈ out', r.Valid) ∧ ∀ r ∈ out', stage' = some ⟨r.bells.length⟩ := by
  intro set
  induction set with
  | nil =>
    intro stage out stage' out' _ h1 h2 h
    cases h
    exact ⟨h1, h2⟩
  | cons r rs ih =>
    intro stage out stage' out' hv h1 h2 h
    have hr := hv r (by simp)
    simp only [Row.mcpFirst, hr.stage_eq, Res.ok_bind] at h
    have key : ∀ st, IncompatibleStages.testErrOpt stage ⟨r.bells.length⟩ = .ok st →
        st = some ⟨r.bells.length⟩ ∧ (stage = none ∨ stage = some ⟨r.bells.length⟩) := by
      intro st hst
      unfold IncompatibleStages.testErrOpt at hst
      cases stage with
      | none => cases hst; exact ⟨rfl, .inl rfl⟩
      | some s0 =>
        by_cases hs : s0 = ⟨r.bells.length⟩
        · subst hs
          simp only [Row.testErr_self] at hst
          cases hst
          exact ⟨rfl, .inr rfl⟩
        · simp only [Row.testErr_ne hs] at hst
          cases hst
    cases ht : IncompatibleStages.testErrOpt stage ⟨r.bells.length⟩ with
    | error e => rw [ht] at h; cases h
    | ok st =>
      rw [ht] at h
      obtain ⟨h3, h4⟩ := key st ht
      refine ih st (out ++ [r]) stage' out' (fun x hx => hv x (by simp [hx])) ?_ ?_ h
      · intro x hx
        rcases List.mem_append.1 hx with hx | hx
        · exact h1 x hx
        · simp at hx; subst hx; exact hr
      · intro x hx
        rcases List.mem_append.1 hx with hx | hx
        · rcases h4 with h4 | h4
          · have := h2 x hx; rw [h4] at this; cases this
          · rw [h3, ← h4]; exact h2 x hx
        · simp at hx; subst hx; exact h3

theorem mcpSet_valid (s : Stage) (from_ : List Row)
    (hf : ∀ r ∈ from_, r.Valid ∧ r.bells.length = s.numBells) : ∀ (set dst dst' : List Row),
    (∀ r ∈ set, r.Valid) → (∀ r ∈ dst, r.Valid ∧ r.bells.length = s.numBells) →
    Row.mcpSet s from_ set dst = .ok (.ok dst') →
    ∀ r ∈ dst', r.Valid ∧ r.bells.length = s.numBells := by
  intro set
  induction set with
  | nil => intro dst dst' _ h1 h; cases h; exact h1
  | cons r2 rs ih =>
    intro dst dst' hv h1 h
    have hr := hv r2 (by simp)
    simp only [Row.mcpSet, hr.stage_eq, Res.ok_bind] at h
    by_cases hs : s = ⟨r2.bells.length⟩
    · have hs' : s.numBells = r2.bells.length := by rw [hs]
      rw [hs, Row.testErr_self] at h
      simp only at h
      cases hp : from_.mapM (fun r1 => r1.mulUnchecked r2) with
      | error e => rw [hp] at h; cases h
      | ok prods =>
        rw [hp] at h
        simp only [Res.ok_bind] at h
        rw [← hs] at h
        refine ih _ dst' (fun x hx => hv x (by simp [hx])) ?_ h
        intro x hx
        rcases List.mem_append.1 hx with hx | hx
        · exact h1 x hx
        · have : ∀ (l prods : List Row), (∀ r ∈ l, r.Valid ∧ r.bells.length = s.numBells) →
              l.mapM (fun r1 => r1.mulUnchecked r2) = (.ok prods : Res _) →
              ∀ x ∈ prods, x.Valid ∧ x.bells.length = s.numBells := by
            intro l
            induction l with
            | nil => intro prods _ hp x hx; cases hp; cases hx
            | cons a l ihl =>
              intro prods hl hp x hx
              obtain ⟨ha, hal⟩ := hl a (by simp)
              obtain ⟨c, hc, hcv, hcl, -⟩ := C10_mul_spec a r2 ha hr (by omega)
              obtain ⟨c', hc', -, hc'', -⟩ := C10_entry_points_agree a r2 a ha hr (by omega)
              rw [hc] at hc'
              cases hc'
              rw [List.mapM_cons, hc''] at hp
              simp only [Res.ok_bind] at hp
              cases hp' : l.mapM (fun r1 => r1.mulUnchecked r2) with
              | error e => rw [hp'] at hp; cases hp
              | ok ps =>
                rw [hp'] at hp
                cases hp
                rcases List.mem_cons.1 hx with rfl | hx
                · exact ⟨hcv, by omega⟩
                · exact ihl ps (fun r hr => hl r (by simp [hr])) hp' x hx
          exact this from_ prods hf hp x hx
    · rw [Row.testErr_ne hs] at h
      cases h

theorem mcp_valid (sets : List (List Row)) (hv : ∀ s ∈ sets, ∀ r ∈ s, r.Valid) (l : List Row)
    (h : Row.multiCartesianProduct sets = .ok (.ok l)) : ∀ r ∈ l, r.Valid := by
  have hrest : ∀ (sets : List (List Row)) (stage : Option Stage) (from_ l : List Row),
      (∀ s ∈ sets, ∀ r ∈ s, r.Valid) → (∀ r ∈ from_, r.Valid) →
      (∀ r ∈ from_, stage = some ⟨r.bells.length⟩) →
      Row.mcpRest stage sets from_ = .ok (.ok l) → ∀ r ∈ l, r.Valid := by
    intro sets
    induction sets with
    | nil => intro stage from_ l _ h1 _ h; cases h; exact h1
    | cons set sets ih =>
      intro stage from_ l hv h1 h2 h
      simp only [Row.mcpRest] at h
      split at h
      · cases h; simp
      · cases stage with
        | none => cases h
        | some s =>
          simp only [unwrap, Res.ok_bind] at h
          cases hm : Row.mcpSet s from_ set [] with
          | error e => rw [hm] at h; cases h
          | ok res =>
            rw [hm] at h
            cases res with
            | error e => cases h
            | ok dst =>
              simp only [Res.ok_bind] at h
              have := mcpSet_valid s from_ (fun r hr => ⟨h1 r hr, by
                have := Option.some.inj (h2 r hr); rw [this]⟩) set [] dst (hv set (by simp))
                (by simp) hm
              exact ih (some s) dst l (fun s hs => hv s (by simp [hs])) (fun r hr => (this r hr).1)
                (fun r hr => by rw [(this r hr).2]) h
  cases sets with
  | nil => cases h; simp
  | cons set sets =>
    simp only [Row.multiCartesianProduct] at h
    cases hm : Row.mcpFirst set none [] with
    | error e => rw [hm] at h; cases h
    | ok res =>
      rw [hm] at h
      cases res with
      | error e => cases h
      | ok p =>
        obtain ⟨stage, from_⟩ := p
        simp only [Res.ok_bind] at h
        obtain ⟨h1, h2⟩ := mcpFirst_valid set none [] stage from_ (hv set (by simp)) (by simp) (by simp) hm
        exact hrest sets stage from_ l (fun s hs => hv s (by simp [hs])) h1 h2 h

/-- Operations of the safe row API make valid rows from valid rows. -/
theorem rowStep_valid {rows : List Row} {r : Row} (h : RowStep rows r)
    (hv : ∀ x ∈ rows, x.Valid) : r.Valid := by
  cases h with
  | fromVec h => exact ((C06_from_vec_ok _ _).1 h).2
  | parse h => exact ((C06_from_vec_ok _ _).1 h).2
  | fromVecWithStage hs h => exact (C07_with_stage_valid _ _ _ hs h).1
  | parseWithStage hs h => exact (C07_with_stage_valid _ _ _ hs h).1
  | rounds hs => exact (C09_named_rows _ hs).1
  | backrounds hs => exact (C09_named_rows _ hs).2.1
  | queens hs => exact (C09_named_rows _ hs).2.2.1
  | @extendToStage a stage r h =>
    have ih : a.Valid := hv a (by simp)
    simp only [Row.extendToStage, ih.stage_eq, Res.ok_bind, assertThat] at h
    split at h
    · rename_i hle
      cases h
      simp only [decide_eq_true_eq] at hle
      refine Row.valid_of_perm_range (k := stage.numBells) ?_ ?_
      · have := ih.length_pos; omega
      · have h1 := ih.perm_range
        have h2 : List.range stage.numBells = List.range a.bells.length ++
            List.range' a.bells.length (stage.numBells - a.bells.length) := by
          rw [List.range_eq_range', List.range_eq_range']
          have := List.range'_append (s := 0) (m := a.bells.length)
            (n := stage.numBells - a.bells.length) (step := 1)
          simp only [Nat.zero_add, Nat.one_mul] at this
          rw [this]
          congr 1
          omega
        rw [h2, List.map_append]
        exact h1.append (.refl _)
    · cases h
  | @overwriteFrom a b =>
    have ihb : b.Valid := hv b (by simp)
    simpa [Row.overwriteFrom] using ihb
  | @swap a i j r h =>
    have ih : a.Valid := hv a (by simp)
    by_cases hij : a.bells.length ≤ i ∨ a.bells.length ≤ j
    · rw [Row.swap_oob hij] at h; cases h
    · obtain ⟨n, hn, σ, rfl⟩ := Row.valid_iff_exists_perm.1 ih
      simp only [Row.ofPerm_length, not_or, Nat.not_le] at hij
      have := Row.swap_ofPerm σ ⟨i, hij.1⟩ ⟨j, hij.2⟩
      rw [this] at h
      cases h
      exact Row.ofPerm_valid hn _
  | @parity a r p h =>
    have ih : a.Valid := hv a (by simp)
    obtain ⟨p', hp⟩ := C14_parity_leaves_rounds a ih
    have := h.unique hp
    cases this
    exact Row.rounds_valid ih.length_pos
  | @mul a b r h =>
    have iha : a.Valid := hv a (by simp)
    have ihb : b.Valid := hv b (by simp)
    by_cases hl : a.bells.length = b.bells.length
    · obtain ⟨c, hc, hv, -⟩ := C10_mul_spec a b iha ihb hl
      rw [hc] at h; cases h; exact hv
    · have := ((C10_mul_mismatch a b a iha ihb).1 hl)
      rw [Row.mul, this.1] at h
      cases h
  | @mulResult a b r h =>
    have iha : a.Valid := hv a (by simp)
    have ihb : b.Valid := hv b (by simp)
    by_cases hl : a.bells.length = b.bells.length
    · obtain ⟨c, hc, hv, -⟩ := C10_mul_spec a b iha ihb hl
      obtain ⟨c', hc', h2, -⟩ := C10_entry_points_agree a b a iha ihb hl
      rw [hc] at hc'; cases hc'
      rw [h2] at h; cases h; exact hv
    · rw [((C10_mul_mismatch a b a iha ihb).1 hl).1] at h; cases h
  | @mulInto a b out r h =>
    have iha : a.Valid := hv a (by simp)
    have ihb : b.Valid := hv b (by simp)
    by_cases hl : a.bells.length = b.bells.length
    · obtain ⟨c, hc, hv, -⟩ := C10_mul_spec a b iha ihb hl
      obtain ⟨c', hc', -, -, h2, -⟩ := C10_entry_points_agree a b out iha ihb hl
      rw [hc] at hc'; cases hc'
      rw [h2] at h; cases h; exact hv
    · rw [((C10_mul_mismatch a b out iha ihb).1 hl).2.1] at h; cases h
  | @mulIntoRow a b out r h =>
    have iha : a.Valid := hv a (by simp)
    have ihb : b.Valid := hv b (by simp)
    have iho : out.Valid := hv out (by simp)
    by_cases hl : a.bells.length = b.bells.length
    · obtain ⟨c, hc, hv, -⟩ := C10_mul_spec a b iha ihb hl
      obtain ⟨c', hc', -, -, -, -, h2⟩ := C10_entry_points_agree a b out iha ihb hl
      rw [hc] at hc'; cases hc'
      by_cases ho : out.bells.length = a.bells.length
      · rw [h2 ho] at h; cases h; exact hv
      · exfalso
        simp only [Row.mulIntoRow, iha.stage_eq, ihb.stage_eq, iho.stage_eq, Res.ok_bind] at h
        rw [hl, Row.testErr_self] at h
        simp only at h
        rw [Row.testErr_ne (by simp; omega)] at h
        cases h
    · rw [((C10_mul_mismatch a b out iha ihb).1 hl).2.2.1] at h; cases h
  | @inv a r h =>
    have ih : a.Valid := hv a (by simp)
    obtain ⟨c, hc, hv, -⟩ := C11_inverse a ih
    rw [hc] at h; cases h; exact hv
  | @invInto a out r h =>
    have ih : a.Valid := hv a (by simp)
    have iho : out.Valid := hv out (by simp)
    obtain ⟨c, hc, hv, -⟩ := C11_inverse a ih
    obtain ⟨c', hc', -, h2⟩ := C11_entry_points_agree a out ih iho.1
    rw [hc] at hc'; cases hc'
    rw [h2] at h
    split at h <;> cases h
    exact hv
  | @invIntoBuf a out r h =>
    have ih : a.Valid := hv a (by simp)
    have iho : out.Valid := hv out (by simp)
    obtain ⟨c, hc, hv, -⟩ := C11_inverse a ih
    obtain ⟨c', hc', h2, -⟩ := C11_entry_points_agree a out ih iho.1
    rw [hc] at hc'; cases hc'
    rw [h2] at h; cases h
    exact hv
  | @powU a k r h =>
    have ih : a.Valid := hv a (by simp)
    obtain ⟨-, p, q, hp, hv, -⟩ := C13_pow_u_product a ih k
    rw [hp] at h; cases h; exact hv
  | @powI a k r h =>
    have ih : a.Valid := hv a (by simp)
    obtain ⟨m, hm, σ, rfl⟩ := Row.valid_iff_exists_perm.1 ih
    rw [Row.powI_ofPerm hm] at h
    cases h
    exact Row.ofPerm_valid hm _
  | @solveAx a b r h =>
    have iha : a.Valid := hv a (by simp)
    have ihb : b.Valid := hv b (by simp)
    by_cases hl : a.bells.length = b.bells.length
    · obtain ⟨⟨x, hx, -, he⟩, -⟩ := (C12_solutions_exist a b iha ihb).1 hl
      rw [he] at h; cases h; exact hx
    · rw [((C12_solutions_exist a b iha ihb).2 hl).1] at h; cases h
  | @solveXa a b r h =>
    have iha : a.Valid := hv a (by simp)
    have ihb : b.Valid := hv b (by simp)
    by_cases hl : a.bells.length = b.bells.length
    · obtain ⟨-, ⟨x, hx, -, he⟩⟩ := (C12_solutions_exist a b iha ihb).1 hl
      rw [he] at h; cases h; exact hx
    · rw [((C12_solutions_exist a b iha ihb).2 hl).2] at h; cases h
  | @closure a l r h hm =>
    have ih : a.Valid := hv a (by simp)
    obtain ⟨n, hn, σ, rfl⟩ := Row.valid_iff_exists_perm.1 ih
    obtain ⟨l', h1, -, -, h2, -⟩ := C16_closure σ
    have := h.unique h1
    subst this
    obtain ⟨i, hi, rfl⟩ := List.getElem_of_mem hm
    have := h2 i hi
    rw [List.getElem?_eq_getElem hi] at this
    rw [Option.some.inj this]
    exact Row.ofPerm_valid hn _
  | @closureFromRounds a l r h hm =>
    have ih : a.Valid := hv a (by simp)
    obtain ⟨n, hn, σ, rfl⟩ := Row.valid_iff_exists_perm.1 ih
    obtain ⟨l', h1, -, -, h2, -⟩ := C16_closure_from_rounds hn σ
    have := h.unique h1
    subst this
    obtain ⟨i, hi, rfl⟩ := List.getElem_of_mem hm
    have := h2 i hi
    rw [List.getElem?_eq_getElem hi] at this
    rw [Option.some.inj this]
    exact Row.ofPerm_valid hn _
  | @cartesian sets l r h hm =>
    have ih : ∀ s ∈ sets, ∀ x ∈ s, x.Valid := fun s hs x hx => hv x (List.mem_flatten.2 ⟨s, hs, hx⟩)
    exact mcp_valid sets ih l h r hm
  | @leastGroup rows l r h hm =>
    have ih : ∀ x ∈ rows, x.Valid := hv
    by_cases hmix : ∃ n, ∀ r ∈ rows, r.bells.length = n
    · obtain ⟨n, hn⟩ := hmix
      by_cases hne : rows = []
      · subst hne
        have := h.unique C18_empty
        cases this
        cases hm
      · have hpos : 0 < n := by
          obtain ⟨x, hx⟩ := List.exists_mem_of_ne_nil rows hne
          rw [← hn x hx]
          exact (ih x hx).length_pos
        obtain ⟨T, rfl⟩ := Row.exists_perms (n := n) (rows := rows) (fun x hx => ⟨ih x hx, hn x hx⟩)
        obtain ⟨out, h1, -, h2⟩ := C18_least_group hpos T (by simpa using hne)
        have := h.unique h1
        cases this
        obtain ⟨σ, -, rfl⟩ := (h2 r).1 hm
        exact Row.ofPerm_valid hpos _
    · obtain ⟨_, _, _, _, _, -, -, -, -, h1⟩ := C18_mixed_stages rows ih hmix
      have := h.unique h1
      cases this
  | @permute a r pn res hw h =>
    have ih : a.Valid := hv a (by simp)
    obtain ⟨m, hm, τ, hc, rfl⟩ := hw
    by_cases hl : a.bells.length = m
    · obtain ⟨σ, rfl⟩ := ih.exists_perm' hl
      rw [(C31_permute hm τ σ hc).1] at h
      cases h
      exact Row.ofPerm_valid hm _
    · rw [(C31_mismatch _ _ ih (by simp [PlaceNot.ofChange, hl])).1] at h
      cases h
      exact ih
  | @permuteNew a r pn hw h =>
    have ih : a.Valid := hv a (by simp)
    obtain ⟨m, hm, τ, hc, rfl⟩ := hw
    by_cases hl : a.bells.length = m
    · obtain ⟨σ, rfl⟩ := ih.exists_perm' hl
      rw [(C31_permute hm τ σ hc).2.1] at h
      cases h
      exact Row.ofPerm_valid hm _
    · rw [(C31_mismatch _ _ ih (by simp [PlaceNot.ofChange, hl])).2] at h
      cases h
  | @transposition pn r hw h =>
    obtain ⟨m, hm, τ, hc, rfl⟩ := hw
    rw [(C31_permute hm τ 1 hc).2.2.1] at h
    cases h
    exact Row.ofPerm_valid hm _
  | @pnBlockRow a r b v i hw h hg =>
    have ih : a.Valid := hv a (by simp)
    obtain ⟨hne, m, hm, τs, hc, hb⟩ := hw
    have hne' : τs ≠ [] := by rintro rfl; exact hne (by simpa using hb)
    obtain rfl : b = ⟨τs.map PlaceNot.ofChange⟩ := by cases b; simpa using hb
    by_cases hl : a.bells.length = m
    · obtain ⟨σ, rfl⟩ := ih.exists_perm' hl
      obtain ⟨⟨ρs, -, h2⟩, -⟩ := C36_rows () hm σ τs hne' hc
      rw [h2] at h
      cases h
      rw [SameStageVec.ofRows_get (RowsOf.perms hm ρs)] at hg
      have := List.mem_of_getElem? hg
      obtain ⟨ρ, -, rfl⟩ := List.mem_map.1 this
      exact Row.ofPerm_valid hm _
    · rw [(C36_mismatch () a ih hl τs hne').1] at h
      cases h
  | @accumulator a rows acc accf hnew h =>
    have ih : a.Valid := hv a (by simp)
    have ihr : ∀ x ∈ rows, x.2.Valid := fun x hx => hv x.2 (List.mem_cons_of_mem _ (List.mem_map_of_mem hx))
    have hacc : acc.total.Valid := by
      simp only [RowAccumulator.new, ih.stage_eq, Res.ok_bind] at hnew
      cases hnew
      exact ih
    have mulInto_valid : ∀ {x y out z : Row}, x.Valid → y.Valid → x.mulInto y out = .ok (.ok z) → z.Valid := by
      intro x y out z hx hy hz
      by_cases hl : x.bells.length = y.bells.length
      · obtain ⟨c, hc, hv, -⟩ := C10_mul_spec x y hx hy hl
        obtain ⟨c', hc', -, -, h2, -⟩ := C10_entry_points_agree x y out hx hy hl
        rw [hc] at hc'; cases hc'
        rw [h2] at hz; cases hz; exact hv
      · rw [((C10_mul_mismatch x y out hx hy).1 hl).2.1] at hz; cases hz
    clear hnew hv
    induction rows generalizing acc with
    | nil => cases h; exact hacc
    | cons x rows ihl =>
      have hx := ihr x (by simp)
      obtain ⟨left, x⟩ := x
      unfold accumulateAll at h
      have step : ∀ r : Res (RowAccumulator × Except IncompatibleStages Unit),
          (r = acc.accumulate x ∨ r = acc.preAccumulate x) → ∀ acc' res, r = .ok (acc', res) →
          acc'.total.Valid := by
        rintro r (rfl | rfl) acc' res hr
        · unfold RowAccumulator.accumulate at hr
          cases hm : acc.total.mulInto x acc.tempRow with
          | error e => rw [hm] at hr; cases hr
          | ok y =>
            rw [hm] at hr
            cases y with
            | error e => cases hr; exact hacc
            | ok z => cases hr; exact mulInto_valid hacc hx hm
        · unfold RowAccumulator.preAccumulate at hr
          cases hm : x.mulInto acc.total acc.tempRow with
          | error e => rw [hm] at hr; cases hr
          | ok y =>
            rw [hm] at hr
            cases y with
            | error e => cases hr; exact hacc
            | ok z => cases hr; exact mulInto_valid hx hacc hm
      cases left with
      | true =>
        simp only [if_true] at h
        cases hr : acc.accumulate x with
        | error e => rw [hr] at h; cases h
        | ok p =>
          rw [hr] at h
          exact ihl h (fun y hy => ihr y (by simp [hy])) (step _ (.inl rfl) p.1 p.2 hr)
      | false =>
        simp only [Bool.false_eq_true, if_false] at h
        cases hr : acc.preAccumulate x with
        | error e => rw [hr] at h; cases h
        | ok p =>
          rw [hr] at h
          exact ihl h (fun y hy => ihr y (by simp [hy])) (step _ (.inr rfl) p.1 p.2 hr)

/-- Every reachable row is valid: each of the bells up to its stage occurs exactly once. -/
theorem C22_reachable_valid (r : Row) (h : Reachable r) : r.Valid := by
  induction h with
  | step _ h ih => exact rowStep_valid h ih

/-- Conversely every valid row is reachable, so the invariant is exact. -/
theorem C22_exact (r : Row) : Reachable r ↔ r.Valid :=
  ⟨C22_reachable_valid r, fun h => .step (by simp) (.fromVec ((C06_from_vec_ok r.bells r).2 ⟨rfl, h⟩))⟩

/-- A program: backrounds on four, changed by `x`, extended to six bells and squared. -/
example : ∃ r, Reachable r ∧ r.bells.length = 6 := by
  have h : Reachable (Row.backrounds ⟨4⟩) := .step (by simp) (.backrounds (by decide))
  have h' : Reachable _ := .step (by simpa using h) (.extendToStage (stage := ⟨6⟩) rfl)
  exact ⟨_, .step (by simpa using h') (.powU (k := 2) rfl), rfl⟩

end Bellframe.Props
