import Verif.Model.Alloc
import Verif.Proofs.SameStageVec
import Verif.Proofs.MachineVec
import Verif.Props.RowAccumulator
import Verif.Props.Block

/-! # C95: allocations are reused as documented -/

namespace Bellframe.Props

/-- A vector whose buffer is large enough for its contents, as every vector's is. -/
def _root_.Bellframe.BellVec.Ok (v : BellVec) : Prop := v.bells.length ≤ v.capacity

/-- A buffer `v` has been overwritten by `bells`, giving `v'`, and the number of allocations has gone
from `h` to `h'`. If the bells fit into the buffer then it is the same buffer and nothing has been
allocated; otherwise there has been one allocation, of a buffer into which they fit. -/
def _root_.Bellframe.BellVec.Overwritten (v v' : BellVec) (bells : List Bell) (h h' : Nat) : Prop :=
  v'.bells = bells ∧ v'.Ok ∧
  (bells.length ≤ v.capacity → v'.addr = v.addr ∧ v'.capacity = v.capacity ∧ h' = h) ∧
  (v.capacity < bells.length → v'.addr = h ∧ h' = h + 1)

theorem extend_overwritten (spare : Spare) (v : BellVec) (bs : List Bell) (h : Nat) :
    v.Overwritten (v.extend spare bs h).1 (v.bells ++ bs) h (v.extend spare bs h).2 := by
  unfold BellVec.extend BellVec.Overwritten BellVec.Ok
  split
  · next hc => exact ⟨rfl, by simpa using hc, fun _ => ⟨rfl, rfl, rfl⟩, fun hlt => by
      simp only [List.length_append] at hlt; omega⟩
  · next hc => exact ⟨rfl, by simp, fun hle => by
      simp only [List.length_append] at hle; omega, fun _ => ⟨rfl, rfl⟩⟩

theorem overwriteFrom_overwritten (spare : Spare) (v : BellVec) (r : Row) (h : Nat) :
    v.Overwritten (v.overwriteFrom spare r h).1 r.bells h (v.overwriteFrom spare r h).2 := by
  have := extend_overwritten spare v.clear r.bells h
  simpa [BellVec.Overwritten, BellVec.overwriteFrom, BellVec.clear] using this

theorem mulInto_bufs (spare : Spare) (a b : Row) (out : BellVec) (h : Nat) (ha : a.Valid) (hb : b.Valid) :
    BellVec.mulInto spare a b out h =
      if a.bells.length = b.bells.length then
        .ok (.ok (), out.overwriteFrom spare (Row.comp a b) h)
      else .ok (.error ⟨⟨a.bells.length⟩, ⟨b.bells.length⟩⟩, out, h) := by
  unfold BellVec.mulInto
  simp only [ha.stage_eq, hb.stage_eq, Res.ok_bind]
  by_cases hl : a.bells.length = b.bells.length
  · rw [if_pos hl, hl, Row.testErr_self]
    have := Row.mulUnchecked_eq_comp ha hb hl
    unfold Row.mulUnchecked at this
    cases hm : Row.mulBells a.bells b.bells with
    | error e => rw [hm] at this; cases this
    | ok bs =>
      rw [hm] at this
      simp only [Res.ok_bind, Res.pure_eq, Except.ok.injEq] at this ⊢
      rw [← this]
      rfl
  · rw [if_neg hl, Row.testErr_ne (by simpa using hl)]
    rfl

theorem row_bells (v : BellVec) : v.row.bells = v.bells := rfl

theorem invInto_finish {bells : List Bell} {s : Stage} {r : Row} {buf : BellVec} (h : Nat)
    (key : (do
      let sb ← (Row.mk buf.bells).stage
      assertThat (sb = s)
      let bs ← Row.invLoop bells 0 buf.bells
      return (⟨bs⟩ : Row)) = (.ok r : Res Row)) :
    (do
      let sb ← buf.row.stage
      assertThat (sb = s)
      let bs ← Row.invLoop bells 0 buf.bells
      return ({ buf with bells := bs }, h)) = (.ok ({ buf with bells := r.bells }, h) : Res (BellVec × Nat)) := by
  unfold BellVec.row
  cases h1 : (Row.mk buf.bells).stage with
  | error e => rw [h1] at key; cases key
  | ok sb =>
    rw [h1] at key
    simp only [Res.ok_bind] at key ⊢
    cases h2 : assertThat (sb = s) with
    | error e => rw [h2] at key; cases key
    | ok u =>
      rw [h2] at key
      simp only [Res.ok_bind] at key ⊢
      cases h3 : Row.invLoop bells 0 buf.bells with
      | error e => rw [h3] at key; cases key
      | ok bs =>
        rw [h3] at key
        cases key
        rfl

/-- `overwrite_from` and `copy_into`, `mul_into` and `inv_into_buf` overwrite the buffer they are
given: without any allocation if the result fits into it, and with one otherwise. -/
theorem C95_overwrite {n : Nat} (hn : 0 < n) (spare : Spare) (σ τ : Equiv.Perm (Fin n)) (out : BellVec)
    (hout : out.Ok) (hne : out.bells ≠ []) (h : Nat) :
    (∃ out' h', out.overwriteFrom spare (.ofPerm σ) h = (out', h') ∧
      out.Overwritten out' (Row.ofPerm σ).bells h h') ∧
    (∃ out' h', BellVec.mulInto spare (.ofPerm σ) (.ofPerm τ) out h = .ok (.ok (), out', h') ∧
      out.Overwritten out' (Row.ofPerm (σ * τ)).bells h h') ∧
    (∃ out' h', BellVec.invIntoBuf spare (.ofPerm σ) out h = .ok (out', h') ∧
      out.Overwritten out' (Row.ofPerm σ⁻¹).bells h h') := by
  refine ⟨⟨_, _, rfl, overwriteFrom_overwritten spare out _ h⟩, ?_, ?_⟩
  · rw [mulInto_bufs spare _ _ out h (Row.ofPerm_valid hn σ) (Row.ofPerm_valid hn τ)]
    simp only [Row.ofPerm_length, if_true, Row.comp_ofPerm]
    exact ⟨_, _, rfl, overwriteFrom_overwritten spare out _ h⟩
  · have key := Row.invIntoBuf_ofPerm hn σ out.row hne
    have hst : out.row.stage = .ok ⟨out.bells.length⟩ := Row.stage_of_ne hne
    unfold Row.invIntoBuf at key
    unfold BellVec.invIntoBuf
    simp only [hst, Row.ofPerm_stage hn, Res.ok_bind, Row.ofPerm_length, row_bells] at key ⊢
    unfold BellVec.Ok at hout
    have hlen : (Row.ofPerm σ⁻¹).bells.length = n := Row.ofPerm_length _
    by_cases h1 : out.bells.length < n
    · simp only [h1, if_true] at key ⊢
      have hb := extend_overwritten spare out (List.replicate (n - out.bells.length) Bell.treble) h
      revert hb
      generalize out.extend spare (List.replicate (n - out.bells.length) Bell.treble) h = p
      obtain ⟨buf, h'⟩ := p
      rintro ⟨hb1, hb2, hb3, hb4⟩
      simp only at hb1 hb2 hb3 hb4 ⊢
      have hbl : (out.bells ++ List.replicate (n - out.bells.length) Bell.treble).length = n := by
        simp; omega
      unfold BellVec.Ok at hb2
      rw [← hb1] at key hbl hb3 hb4
      rw [invInto_finish h' key]
      refine ⟨_, _, rfl, rfl, ?_, ?_, ?_⟩
      · unfold BellVec.Ok; simp only; omega
      · intro hc; exact hb3 (by omega)
      · intro hc; exact hb4 (by omega)
    · simp only [h1, if_false] at key ⊢
      by_cases h2 : n < out.bells.length
      · simp only [h2, if_true] at key ⊢
        have := invInto_finish (buf := out.truncate n) h key
        rw [this]
        refine ⟨_, _, rfl, rfl, ?_, ?_, ?_⟩
        · unfold BellVec.Ok; simp only [BellVec.truncate]; omega
        · intro _; exact ⟨rfl, rfl, rfl⟩
        · intro hc; omega
      · simp only [h2, if_false] at key ⊢
        rw [invInto_finish h key]
        refine ⟨_, _, rfl, rfl, ?_, ?_, ?_⟩
        · unfold BellVec.Ok; simp only; omega
        · intro _; exact ⟨rfl, rfl, rfl⟩
        · intro hc; omega

/-! ## The accumulator -/

/-- Running one call on an accumulator with its buffers. -/
def AccOp.runOne (spare : Spare) (a : AccBufs) (h : Nat) :
    AccOp → Res (Except IncompatibleStages Unit × AccBufs × Nat)
  | .accumulate r => a.accumulate spare r h
  | .preAccumulate r => a.preAccumulate spare r h
  | .set r => .ok (.ok (), a.set spare r h)

/-- Running a list of calls. -/
def AccOp.runBufs (spare : Spare) : List AccOp → AccBufs → (h : Nat) →
    Res (List (Except IncompatibleStages Unit) × AccBufs × Nat)
  | [], a, h => .ok ([], a, h)
  | op :: ops, a, h => do
    let (res, a, h) ← AccOp.runOne spare a h op
    let (rest, a, h) ← AccOp.runBufs spare ops a h
    return (res :: rest, a, h)

/-- The two buffers of `a'` are those of `a`, perhaps exchanged. -/
def SameBuffers (a a' : AccBufs) : Prop :=
  (a'.total.addr, a'.total.capacity, a'.temp.addr, a'.temp.capacity) =
    (a.total.addr, a.total.capacity, a.temp.addr, a.temp.capacity) ∨
  (a'.total.addr, a'.total.capacity, a'.temp.addr, a'.temp.capacity) =
    (a.temp.addr, a.temp.capacity, a.total.addr, a.total.capacity)

theorem SameBuffers.trans {a b c : AccBufs} (h1 : SameBuffers a b) (h2 : SameBuffers b c) :
    SameBuffers a c := by
  simp only [SameBuffers, Prod.mk.injEq] at h1 h2 ⊢
  omega

theorem overwriteFrom_fits (spare : Spare) (v : BellVec) (r : Row) (h : Nat)
    (hf : r.bells.length ≤ v.capacity) :
    v.overwriteFrom spare r h = ({ v with bells := r.bells }, h) := by
  simp [BellVec.overwriteFrom, BellVec.extend, BellVec.clear, hf]

theorem acc_step (spare : Spare) (a : AccBufs) (h : Nat) (hv : a.total.row.Valid) (op : AccOp)
    (hr : op.row.Valid) (hc1 : op.row.bells.length ≤ a.total.capacity)
    (hc2 : op.row.bells.length ≤ a.temp.capacity) :
    ∃ a', AccOp.runOne spare a h op = .ok ((AccOp.spec a.total.row op).2, a', h) ∧
      a'.total.row = (AccOp.spec a.total.row op).1 ∧ SameBuffers a a' ∧ a'.total.row.Valid := by
  cases op with
  | accumulate r =>
    simp only [AccOp.row] at hr hc1 hc2
    simp only [AccOp.runOne, AccBufs.accumulate, mulInto_bufs spare _ _ _ h hv hr, AccOp.spec]
    by_cases hl : a.total.row.bells.length = r.bells.length
    · rw [if_pos hl, if_pos hl, overwriteFrom_fits spare _ _ h (by simp [Row.comp]; omega)]
      exact ⟨⟨_, _⟩, rfl, rfl, Or.inr rfl, hv.comp hr hl⟩
    · rw [if_neg hl, if_neg hl]
      exact ⟨a, rfl, rfl, Or.inl rfl, hv⟩
  | preAccumulate r =>
    simp only [AccOp.row] at hr hc1 hc2
    simp only [AccOp.runOne, AccBufs.preAccumulate, mulInto_bufs spare _ _ _ h hr hv, AccOp.spec]
    by_cases hl : r.bells.length = a.total.row.bells.length
    · rw [if_pos hl, if_pos hl, overwriteFrom_fits spare _ _ h (by simp [Row.comp]; omega)]
      exact ⟨⟨_, _⟩, rfl, rfl, Or.inr rfl, hr.comp hv hl⟩
    · rw [if_neg hl, if_neg hl]
      exact ⟨a, rfl, rfl, Or.inl rfl, hv⟩
  | set r =>
    simp only [AccOp.row] at hr hc1 hc2
    simp only [AccOp.runOne, AccBufs.set, overwriteFrom_fits spare _ _ h hc1, AccOp.spec]
    exact ⟨_, rfl, rfl, Or.inl rfl, hr⟩

/-- Any sequence of calls with rows that fit into both buffers allocates nothing: the accumulator goes
on using its two buffers, and has the total and returns the results that C21 specifies. A new
accumulator has been given one buffer and allocates the other. -/
theorem C95_accumulator (spare : Spare) :
    (∀ (total : BellVec) (h : Nat), total.row.Valid → total.Ok →
      ∃ a, AccBufs.new spare total h = .ok (a, h + 1) ∧ a.total = total ∧ a.temp.addr = h ∧
        total.bells.length ≤ a.temp.capacity) ∧
    (∀ (ops : List AccOp) (a : AccBufs) (h : Nat), a.total.row.Valid →
      (∀ op ∈ ops, op.row.Valid ∧ op.row.bells.length ≤ a.total.capacity ∧
        op.row.bells.length ≤ a.temp.capacity) →
      ∃ a', AccOp.runBufs spare ops a h = .ok ((AccOp.specs ops a.total.row).2, a', h) ∧
        a'.total.row = (AccOp.specs ops a.total.row).1 ∧ SameBuffers a a') := by
  refine ⟨?_, ?_⟩
  · intro total h hv hok
    simp only [AccBufs.new, hv.stage_eq, Res.ok_bind]
    have hpos : 0 < total.bells.length := hv.length_pos
    have hl : (Row.rounds ⟨total.row.bells.length⟩).bells.length = total.bells.length := by
      simp [Row.rounds, row_bells]
    have := extend_overwritten spare ⟨[], 0, h⟩ (Row.rounds ⟨total.row.bells.length⟩).bells h
    unfold BellVec.collect
    revert this
    generalize BellVec.extend spare ⟨[], 0, h⟩ (Row.rounds ⟨total.row.bells.length⟩).bells h = p
    obtain ⟨t, h'⟩ := p
    rintro ⟨h1, h2, -, h4⟩
    simp only [List.nil_append] at h1 h2 h4
    obtain ⟨h5, h6⟩ := h4 (by omega)
    unfold BellVec.Ok at h2
    refine ⟨⟨total, t⟩, ?_, rfl, h5, ?_⟩
    · subst h6; rfl
    · rw [h1] at h2; simp only; omega
  · intro ops
    induction ops with
    | nil => intro a h _ _; exact ⟨a, rfl, rfl, Or.inl rfl⟩
    | cons op ops ih =>
      intro a h hv hops
      obtain ⟨hr, hc1, hc2⟩ := hops op (by simp)
      have hops' : ∀ o ∈ ops, o.row.Valid ∧ o.row.bells.length ≤ a.total.capacity ∧
        o.row.bells.length ≤ a.temp.capacity := fun o ho => hops o (by simp [ho])
      obtain ⟨a1, h1, h2, h3, h4⟩ := acc_step spare a h hv op hr hc1 hc2
      have hcap : ∀ k, k ≤ a.total.capacity → k ≤ a.temp.capacity →
          k ≤ a1.total.capacity ∧ k ≤ a1.temp.capacity := by
        intro k hk1 hk2
        simp only [SameBuffers, Prod.mk.injEq] at h3
        omega
      obtain ⟨a2, h5, h6, h7⟩ := ih a1 h h4 (fun o ho =>
        ⟨(hops' o ho).1, hcap _ (hops' o ho).2.1 (hops' o ho).2.2⟩)
      refine ⟨a2, ?_, ?_, h3.trans h7⟩
      · rw [AccOp.runBufs, h1, Res.ok_bind]
        simp only [h5, Res.ok_bind, AccOp.specs, h2]
        rfl
      · simp only [AccOp.specs, h6, h2]

theorem powLoop_bufs {n : Nat} (hn : 0 < n) (spare : Spare) (σ : Equiv.Perm (Fin n)) (e : Nat) :
    ∀ (τ : Equiv.Perm (Fin n)) (a : AccBufs) (h : Nat), a.total.row = .ofPerm τ →
      n ≤ a.total.capacity → n ≤ a.temp.capacity →
      ∃ a', a.powLoop spare (.ofPerm σ) e h = .ok (a', h) ∧ a'.total.row = .ofPerm (τ * σ ^ e) ∧
        SameBuffers a a' := by
  induction e with
  | zero => intro τ a h ha _ _; exact ⟨a, rfl, by simpa using ha, Or.inl rfl⟩
  | succ e ih =>
    intro τ a h ha h1 h2
    have hv : a.total.row.Valid := by rw [ha]; exact Row.ofPerm_valid hn τ
    obtain ⟨a1, h3, h4, h5, -⟩ := acc_step spare a h hv (.accumulate (.ofPerm σ))
      (Row.ofPerm_valid hn σ) (by simpa [AccOp.row] using h1) (by simpa [AccOp.row] using h2)
    simp only [AccOp.runOne, AccOp.spec, ha, Row.ofPerm_length, if_true, Row.comp_ofPerm] at h3 h4
    have hcap : n ≤ a1.total.capacity ∧ n ≤ a1.temp.capacity := by
      simp only [SameBuffers, Prod.mk.injEq] at h5
      omega
    obtain ⟨a2, h6, h7, h8⟩ := ih (τ * σ) a1 h h4 hcap.1 hcap.2
    refine ⟨a2, ?_, ?_, h5.trans h8⟩
    · simp only [AccBufs.powLoop, h3, Res.ok_bind]
      exact h6
    · rw [h7, pow_succ', mul_assoc]

theorem collect_nonempty (spare : Spare) (bs : List Bell) (h : Nat) (hb : bs ≠ []) :
    ∃ v : BellVec, BellVec.collect spare bs h = (v, h + 1) ∧ v.bells = bs ∧ v.addr = h ∧
      bs.length ≤ v.capacity := by
  have hpos := List.length_pos_iff.2 hb
  have : ¬ bs.length ≤ 0 := by omega
  refine ⟨⟨bs, bs.length + spare 0 bs.length, h⟩, ?_, rfl, rfl, by simp⟩
  simp only [BellVec.collect, BellVec.extend, List.length_nil, Nat.zero_add, this, if_false,
    List.nil_append]

/-- Raising a row to a power makes two allocations, whatever the exponent. -/
theorem C95_pow {n : Nat} (hn : 0 < n) (spare : Spare) (σ : Equiv.Perm (Fin n)) (e h : Nat) :
    ∃ r, BellVec.powU spare (.ofPerm σ) e h = .ok (r, h + 2) ∧ r.row = .ofPerm (σ ^ e) ∧
      (r.addr = h ∨ r.addr = h + 1) := by
  have hr : (Row.rounds ⟨n⟩).bells.length = n := by simp [Row.rounds]
  have hne : (Row.rounds ⟨n⟩).bells ≠ [] := by
    intro h0; rw [h0] at hr; simp at hr; omega
  obtain ⟨v, h1, h2, h3, h4⟩ := collect_nonempty spare _ h hne
  have hvr : v.row = Row.ofPerm (1 : Equiv.Perm (Fin n)) := by
    rw [← Row.rounds_eq_ofPerm]
    unfold BellVec.row; rw [h2]
  have hvl : v.bells.length = n := by rw [h2, hr]
  obtain ⟨a, h5, h6, h7, h8⟩ := (C95_accumulator spare).1 v (h + 1)
    (by rw [hvr]; exact Row.ofPerm_valid hn 1) (by unfold BellVec.Ok; rw [h2]; exact h4)
  obtain ⟨a', h9, h10, h11⟩ := powLoop_bufs hn spare σ e 1 a (h + 1 + 1) (by rw [h6, hvr])
    (by rw [h6]; omega) (by omega)
  refine ⟨a'.total, ?_, by rw [h10, one_mul], ?_⟩
  · simp only [BellVec.powU, Row.ofPerm_stage hn, Res.ok_bind, AccBufs.rounds, h1, h5, h9]
    rfl
  · simp only [SameBuffers, Prod.mk.injEq] at h11
    rw [h6] at h11
    omega

/-! ## Repeating a block -/

/-- The items returned by a number of calls of `next`, and the number of allocations after them. -/
def takeNext {A : Type} (spare : Spare) : Nat → RepeatBuf A → (h : Nat) →
    Res (List (Option (Row × Nat × A)) × Nat)
  | 0, _, h => .ok ([], h)
  | k + 1, it, h => do
    let (item, it, h) ← it.next spare h
    let (items, h) ← takeNext spare k it h
    return (item.map (fun (r, i, a) => (r.row, i, a)) :: items, h)

/-- The items returned by a number of calls of `next_into` that are all given the same row to write
into, that row, and the number of allocations after them. -/
def takeNextInto {A : Type} (spare : Spare) : Nat → RepeatBuf A → (out : BellVec) → (h : Nat) →
    Res (List (Option (Row × Nat × A)) × BellVec × Nat)
  | 0, _, out, h => .ok ([], out, h)
  | k + 1, it, out, h => do
    let (item, out, it, h) ← it.nextInto spare out h
    let (items, last, h) ← takeNextInto spare k it out h
    return (item.map (fun (i, a) => (out.row, i, a)) :: items, last, h)

/-- The iterator `j` rows into the block, after some whole blocks. -/
def bufAt {A : Type} {n : Nat} (σs : List (Equiv.Perm (Fin n))) (l : Equiv.Perm (Fin n))
    (annots : List A) (head : BellVec) (j : Nat) : RepeatBuf A :=
  ⟨head, ⟨(SameStageVec.ofRows ⟨n⟩ ((σs.drop j).map Row.ofPerm)).iter, annots.drop j, j⟩,
    .ofPerms σs l annots⟩

theorem mul_bufs {n : Nat} (hn : 0 < n) (spare : Spare) (σ τ : Equiv.Perm (Fin n)) (h : Nat) :
    ∃ v : BellVec, BellVec.mul spare (.ofPerm σ) (.ofPerm τ) h = .ok (v, h + 1) ∧
      v.row = .ofPerm (σ * τ) := by
  have hne : (Row.ofPerm (σ * τ)).bells ≠ [] := by
    intro h0
    have := Row.ofPerm_length (σ * τ)
    rw [h0] at this; simp at this; omega
  obtain ⟨v, h1, h2, -, -⟩ := collect_nonempty spare _ h hne
  refine ⟨v, ?_, by unfold BellVec.row; rw [h2]⟩
  simp only [BellVec.mul, Row.mul_ofPerm hn, Res.ok_bind, h1]
  rfl

theorem next_bufAt {A : Type} {n : Nat} (hn : 0 < n) (spare : Spare) (σs : List (Equiv.Perm (Fin n)))
    (l : Equiv.Perm (Fin n)) (annots : List A) (hlen : σs.length = annots.length)
    (head : BellVec) (τ : Equiv.Perm (Fin n)) (hhead : head.row = .ofPerm τ) (j h : Nat) :
    (∀ σ a, σs[j]? = some σ → annots[j]? = some a →
      (bufAt σs l annots head j).nextUntransposedRow spare h =
        .ok (some (j, .ofPerm σ, a), bufAt σs l annots head (j + 1), h)) ∧
    (σs.length ≤ j → ∀ σ a, σs[0]? = some σ → annots[0]? = some a →
      ∃ head', head'.row = .ofPerm (τ * l) ∧
      (bufAt σs l annots head j).nextUntransposedRow spare h =
        .ok (some (0, .ofPerm σ, a), bufAt σs l annots head' 1, h + 1)) := by
  constructor
  · intro σ a hσ ha
    simp only [RepeatBuf.nextUntransposedRow, bufAt, (inner_next hn σs annots j).1 σ a hσ ha,
      Res.ok_bind]
    rfl
  · intro hj σ a hσ ha
    obtain ⟨it, hit⟩ := (inner_next hn σs annots j).2 hj (by omega)
    have h0 := (inner_next hn σs annots 0).1 σ a hσ ha
    simp only [List.drop_zero] at h0
    obtain ⟨v, hv1, hv2⟩ := mul_bufs hn spare τ l h
    refine ⟨v, hv2, ?_⟩
    simp only [RepeatBuf.nextUntransposedRow, bufAt, hit, Res.ok_bind, hhead,
      AnnotBlock.leftover_ofPerms hn, hv1, RepeatIter.getIter,
      AnnotBlock.rowsIter_ofPerms hn, Res.pure_eq]
    rw [show (AnnotBlock.ofPerms σs l annots).annots = annots from rfl, h0]
    rfl

theorem step_bufAt {A : Type} {n : Nat} (hn : 0 < n) (spare : Spare) (σs : List (Equiv.Perm (Fin n)))
    (l : Equiv.Perm (Fin n)) (annots : List A) (hlen : σs.length = annots.length)
    (hpos : 0 < σs.length) (start : Equiv.Perm (Fin n)) (e j h : Nat) (hj : j ≤ σs.length)
    (head : BellVec) (hhead : head.row = .ofPerm (start * l ^ e)) :
    ∃ e' j' d head', head'.row = .ofPerm (start * l ^ e') ∧ j' ≤ σs.length ∧
      e' * σs.length + j' = e * σs.length + j + 1 ∧ e' = (e * σs.length + j) / σs.length ∧
      (d = 0 ∧ j < σs.length ∧ j' = j + 1 ∨ d = 1 ∧ j = σs.length ∧ j' = 1) ∧
      (bufAt σs l annots head j).nextUntransposedRow spare h =
        .ok (some ((e * σs.length + j) % σs.length,
          .ofPerm (σs[(e * σs.length + j) % σs.length]'(Nat.mod_lt _ hpos)),
          annots[(e * σs.length + j) % σs.length]'(hlen ▸ Nat.mod_lt _ hpos)),
          bufAt σs l annots head' j', h + d) := by
  by_cases hlt : j < σs.length
  · have hm : (e * σs.length + j) % σs.length = j := by
      rw [Nat.mul_comm, Nat.mul_add_mod, Nat.mod_eq_of_lt hlt]
    have hd : (e * σs.length + j) / σs.length = e := by
      rw [Nat.mul_comm, Nat.mul_add_div hpos, Nat.div_eq_of_lt hlt, Nat.add_zero]
    refine ⟨e, j + 1, 0, head, hhead, by omega, by omega, hd.symm, by omega, ?_⟩
    rw [(next_bufAt hn spare σs l annots hlen head _ hhead j h).1 _ _
      (List.getElem?_eq_getElem hlt) (List.getElem?_eq_getElem (by omega))]
    simp only [hm]
    rfl
  · have hj' : j = σs.length := by omega
    have ht : e * σs.length + j = (e + 1) * σs.length := by rw [hj', Nat.add_mul]; omega
    have hm : (e * σs.length + j) % σs.length = 0 := by rw [ht]; simp
    have hd : (e * σs.length + j) / σs.length = e + 1 := by rw [ht]; exact Nat.mul_div_cancel _ hpos
    obtain ⟨head', h1, h2⟩ := (next_bufAt hn spare σs l annots hlen head _ hhead j h).2 (by omega) _ _
      (List.getElem?_eq_getElem hpos) (List.getElem?_eq_getElem (by omega))
    refine ⟨e + 1, 1, 1, head', by rw [h1, pow_succ, mul_assoc], hpos, by omega, hd.symm, by omega, ?_⟩
    rw [h2]
    simp only [hm]

/-- The item number `q` (from 0) of the iterator, as C29 has it. -/
def repeatItem {A : Type} {n : Nat} (σs : List (Equiv.Perm (Fin n))) (l : Equiv.Perm (Fin n))
    (annots : List A) (hlen : σs.length = annots.length) (hpos : 0 < σs.length)
    (start : Equiv.Perm (Fin n)) (q : Nat) : Option (Row × Nat × A) :=
  some (.ofPerm (start * l ^ (q / σs.length) * σs[q % σs.length]'(Nat.mod_lt _ hpos)),
    q % σs.length, annots[q % σs.length]'(hlen ▸ Nat.mod_lt _ hpos))

theorem restarts {L j k j' d : Nat} (hL : 0 < L)
    (hd : d = 0 ∧ j < L ∧ j' = j + 1 ∨ d = 1 ∧ j = L ∧ j' = 1) :
    d + (j' + k - 1) / L = (j + (k + 1) - 1) / L := by
  rcases hd with ⟨rfl, -, rfl⟩ | ⟨rfl, rfl, rfl⟩
  · rw [Nat.zero_add]; congr 1; omega
  · rw [show j + (k + 1) - 1 = j + k by omega, show 1 + k - 1 = k by omega, Nat.add_div_left _ hL]
    omega

theorem takeNext_bufAt {A : Type} {n : Nat} (hn : 0 < n) (spare : Spare)
    (σs : List (Equiv.Perm (Fin n))) (l : Equiv.Perm (Fin n)) (annots : List A)
    (hlen : σs.length = annots.length) (hpos : 0 < σs.length) (start : Equiv.Perm (Fin n)) (k : Nat) :
    ∀ (e j h : Nat) (head : BellVec), j ≤ σs.length → head.row = .ofPerm (start * l ^ e) →
    takeNext spare k (bufAt σs l annots head j) h =
      .ok ((List.range' (e * σs.length + j) k).map (repeatItem σs l annots hlen hpos start),
        h + k + (j + k - 1) / σs.length) := by
  induction k with
  | zero =>
    intro e j h head hj _
    have : (j + 0 - 1) / σs.length = 0 := Nat.div_eq_of_lt (by omega)
    rw [this]
    rfl
  | succ k ih =>
    intro e j h head hj hhead
    obtain ⟨e', j', d, head', h1, h2, h3, h4, h5, h6⟩ :=
      step_bufAt hn spare σs l annots hlen hpos start e j h hj head hhead
    obtain ⟨v, h7, h8⟩ := mul_bufs hn spare (start * l ^ e')
      (σs[(e * σs.length + j) % σs.length]'(Nat.mod_lt _ hpos)) (h + d)
    have h9 : (bufAt σs l annots head' j').head.row = .ofPerm (start * l ^ e') := h1
    simp only [takeNext, RepeatBuf.next, h6, Res.ok_bind, h9, h7, Res.pure_eq,
      ih e' j' (h + d + 1) head' h2 h1]
    rw [List.range'_succ, List.map_cons, h3, ← restarts hpos h5 (k := k)]
    simp only [Option.map_some, h8]
    congr 2
    · congr 1
      unfold repeatItem
      rw [← h4]
    · omega

theorem takeNextInto_bufAt {A : Type} {n : Nat} (hn : 0 < n) (spare : Spare)
    (σs : List (Equiv.Perm (Fin n))) (l : Equiv.Perm (Fin n)) (annots : List A)
    (hlen : σs.length = annots.length) (hpos : 0 < σs.length) (start : Equiv.Perm (Fin n)) (k : Nat) :
    ∀ (e j h : Nat) (head out : BellVec), j ≤ σs.length → head.row = .ofPerm (start * l ^ e) →
    n ≤ out.capacity →
    ∃ last : BellVec, last.addr = out.addr ∧ last.capacity = out.capacity ∧
    takeNextInto spare k (bufAt σs l annots head j) out h =
      .ok ((List.range' (e * σs.length + j) k).map (repeatItem σs l annots hlen hpos start), last,
        h + (j + k - 1) / σs.length) := by
  induction k with
  | zero =>
    intro e j h head out hj _ _
    have : (j + 0 - 1) / σs.length = 0 := Nat.div_eq_of_lt (by omega)
    rw [this]
    exact ⟨out, rfl, rfl, rfl⟩
  | succ k ih =>
    intro e j h head out hj hhead hout
    obtain ⟨e', j', d, head', h1, h2, h3, h4, h5, h6⟩ :=
      step_bufAt hn spare σs l annots hlen hpos start e j h hj head hhead
    have h9 : (bufAt σs l annots head' j').head.row = .ofPerm (start * l ^ e') := h1
    have h7 := mulInto_bufs spare (.ofPerm (start * l ^ e'))
      (.ofPerm (σs[(e * σs.length + j) % σs.length]'(Nat.mod_lt _ hpos))) out (h + d)
      (Row.ofPerm_valid hn _) (Row.ofPerm_valid hn _)
    simp only [Row.ofPerm_length, if_true, Row.comp_ofPerm] at h7
    rw [overwriteFrom_fits spare _ _ _ (by simpa using hout)] at h7
    obtain ⟨last, h10, h11, h12⟩ := ih e' j' (h + d) head' { out with bells :=
      (Row.ofPerm (start * l ^ e' * (σs[(e * σs.length + j) % σs.length]'(Nat.mod_lt _ hpos)))).bells }
      h2 h1 hout
    refine ⟨last, h10, h11, ?_⟩
    simp only [takeNextInto, RepeatBuf.nextInto, h6, Res.ok_bind, h9, h7, Res.pure_eq, unwrapResult, h12]
    rw [List.range'_succ, List.map_cons, h3, ← restarts hpos h5 (k := k)]
    simp only [Option.map_some]
    congr 2
    · congr 1
      unfold repeatItem
      rw [← h4]
      rfl
    · congr 1
      omega

/-- Repeating a block of `len > 0` rows: the first `k` calls of `next` allocate one row each, and one
more every time the block starts again, which is `(k - 1) / len` times; with `next_into`, into a row
with enough room, only the latter are allocated, and the row stays where it is. Both yield the same
rows, which are those of C29. -/
theorem C95_repeat {A : Type} {n : Nat} (hn : 0 < n) (spare : Spare) (σs : List (Equiv.Perm (Fin n)))
    (l : Equiv.Perm (Fin n)) (annots : List A) (hlen : σs.length = annots.length)
    (hpos : 0 < σs.length) (start : Equiv.Perm (Fin n)) (head : BellVec)
    (hhead : head.row = .ofPerm start) :
    ∃ it, RepeatBuf.new head (.ofPerms σs l annots) = .ok (.ok it) ∧ ∀ k h,
      takeNext spare k it h =
        .ok ((List.range k).map (repeatItem σs l annots hlen hpos start),
          h + k + (k - 1) / σs.length) ∧
      ∀ out : BellVec, n ≤ out.capacity → ∃ last : BellVec,
        takeNextInto spare k it out h =
          .ok ((List.range k).map (repeatItem σs l annots hlen hpos start), last,
            h + (k - 1) / σs.length) ∧
        last.addr = out.addr ∧ last.capacity = out.capacity := by
  refine ⟨bufAt σs l annots head 0, ?_, ?_⟩
  · have : RepeatIter.new (.ofPerm start) (.ofPerms σs l annots) =
        .ok (.ok (iterAt σs l annots start 0)) := by
      simp only [RepeatIter.new, Row.ofPerm_stage hn, Res.ok_bind, AnnotBlock.stage, AnnotBlock.ofPerms,
        SameStageVec.ofRows_stage, Row.testErr_self]
      have := AnnotBlock.rowsIter_ofPerms hn σs l annots
      simp only [AnnotBlock.ofPerms] at this
      simp only [RepeatIter.getIter, this, Res.ok_bind]
      rfl
    simp only [RepeatBuf.new, hhead, this, Res.ok_bind]
    rfl
  · intro k h
    have hh : head.row = .ofPerm (start * l ^ 0) := by rw [hhead, pow_zero, mul_one]
    have h0 := takeNext_bufAt hn spare σs l annots hlen hpos start k 0 0 h head (Nat.zero_le _) hh
    simp only [Nat.zero_mul, Nat.zero_add, ← List.range_eq_range'] at h0
    refine ⟨h0, ?_⟩
    intro out hout
    obtain ⟨last, h1, h2, h3⟩ := takeNextInto_bufAt hn spare σs l annots hlen hpos start k 0 0 h head
      out (Nat.zero_le _) hh hout
    simp only [Nat.zero_mul, Nat.zero_add, ← List.range_eq_range'] at h3
    exact ⟨last, h3, h1, h2⟩

/-! ## Vectors of rows -/

/-- A call that changes the number of rows of a vector. -/
inductive GrowOp where
  | push (r : Row)
  | pop
  | extend (rs : List Row)
  | extendFromBuf (s : Stage) (rs : List Row)

/-- Running a call, and forgetting what it returned (which is C23's business). -/
def GrowOp.run (spare : Spare) (v : VecBuf) (h : Nat) : GrowOp → Res (VecBuf × Nat)
  | .push r => do let (_, v, h) ← v.push spare r h; return (v, h)
  | .pop => do let (_, v, h) ← v.pop spare h; return (v, h)
  | .extend rs => do let (_, v, h) ← v.extend spare rs h; return (v, h)
  | .extendFromBuf s rs => let (_, v, h) := v.extendFromBuf spare (.ofRows s rs) h; .ok (v, h)

/-- Running a list of calls. -/
def GrowOp.runAll (spare : Spare) : List GrowOp → VecBuf → (h : Nat) → Res (VecBuf × Nat)
  | [], v, h => .ok (v, h)
  | op :: ops, v, h => do
    let (v, h) ← op.run spare v h
    GrowOp.runAll spare ops v h

/-- Specification: the rows of a vector of stage `s` after a call; rows of other stages are
rejected. -/
def GrowOp.after (s : Stage) (rows : List Row) : GrowOp → List Row
  | .push r => if r.bells.length = s.numBells then rows ++ [r] else rows
  | .pop => rows.dropLast
  | .extend rs => if ∀ r ∈ rs, r.bells.length = s.numBells then rows ++ rs else rows
  | .extendFromBuf s2 rs => if s = s2 then rows ++ rs else rows

/-- The rows of a vector after a list of calls. -/
def GrowOp.afterAll (s : Stage) (rows : List Row) (ops : List GrowOp) : List Row :=
  ops.foldl (GrowOp.after s) rows

/-- How many rows a call is given. -/
def GrowOp.given : GrowOp → Nat
  | .push _ => 1
  | .pop => 0
  | .extend rs => rs.length
  | .extendFromBuf _ rs => rs.length

/-- How many rows a call returns. -/
def GrowOp.popped (rows : List Row) : GrowOp → Nat
  | .pop => if rows = [] then 0 else 1
  | _ => 0

/-- How many rows a list of calls returns. -/
def GrowOp.poppedAll (s : Stage) : List Row → List GrowOp → Nat
  | _, [] => 0
  | rows, op :: ops => op.popped rows + GrowOp.poppedAll s (op.after s rows) ops

/-- The vector never has to hold more than `k` rows. -/
def GrowOp.AtMost (k : Nat) (s : Stage) : List Row → List GrowOp → Prop
  | rows, [] => rows.length ≤ k
  | rows, op :: ops => rows.length + op.given ≤ k ∧ GrowOp.AtMost k s (op.after s rows) ops

/-- The rows given to a call are rows, and those given as a vector are of its stage. -/
def GrowOp.Ok : GrowOp → Prop
  | .push r => r.Valid
  | .pop => True
  | .extend rs => ∀ r ∈ rs, r.Valid
  | .extendFromBuf s rs => RowsOf s rs

/-- The vector of the given rows, in the given buffer. -/
def bufOf (s : Stage) (rows : List Row) (cap addr : Nat) : VecBuf :=
  ⟨⟨rows.flatMap Row.bells, cap, addr⟩, s⟩

theorem flatMap_length {s : Stage} {rows : List Row} (h : RowsOf s rows) :
    (rows.flatMap Row.bells).length = rows.length * s.numBells := by
  have := SameStageVec.ofRows_length h
  simpa [SameStageVec.ofRows] using this

theorem extendLoop_bufs (spare : Spare) {s : Stage} (before cap addr : Nat) : ∀ (ext rows : List Row) (h : Nat),
    RowsOf s rows → (∀ r ∈ ext, r.Valid) → (rows.length + ext.length) * s.numBells ≤ cap →
    before ≤ rows.length * s.numBells →
    ∃ res, VecBuf.extendLoop spare before (bufOf s rows cap addr) ext h =
      .ok (res, if ∀ r ∈ ext, r.bells.length = s.numBells then bufOf s (rows ++ ext) cap addr
        else ⟨⟨(rows.flatMap Row.bells).take before, cap, addr⟩, s⟩, h)
  | [], rows, h, _, _, _, _ => ⟨.ok (), by simp [VecBuf.extendLoop]⟩
  | e :: ext, rows, h, hrows, hext, hcap, hbef => by
    have he := hext e (by simp)
    simp only [VecBuf.extendLoop, he.stage_eq, Res.ok_bind]
    have hlen := flatMap_length hrows
    simp only [List.length_cons, Nat.add_mul, Nat.one_mul] at hcap
    by_cases hl : e.bells.length = s.numBells
    · have hs : (⟨e.bells.length⟩ : Stage) = s := by cases s; simp_all
      have hstage : (bufOf s rows cap addr).stage = s := rfl
      rw [hs, hstage, Row.testErr_self]
      have hx : (bufOf s rows cap addr).bells.extend spare e.bells h =
          (⟨(rows ++ [e]).flatMap Row.bells, cap, addr⟩, h) := by
        unfold BellVec.extend bufOf
        simp only [hlen, hl]
        rw [if_pos (by omega)]
        simp
      have hrows' := hrows.append (RowsOf.single he hl)
      obtain ⟨res, ih⟩ := extendLoop_bufs spare before cap addr ext (rows ++ [e]) h hrows'
        (fun r hr => hext r (by simp [hr])) (by simp [Nat.add_mul]; omega)
        (by simp [Nat.add_mul]; omega)
      refine ⟨res, ?_⟩
      simp only [hx]
      have htake : ((rows ++ [e]).flatMap Row.bells).take before =
          (rows.flatMap Row.bells).take before := by
        rw [List.flatMap_append, List.take_append_of_le_length (by omega)]
      rw [htake] at ih
      rw [show (⟨⟨(rows ++ [e]).flatMap Row.bells, cap, addr⟩, s⟩ : VecBuf) =
        bufOf s (rows ++ [e]) cap addr from rfl, ih]
      simp [hl]
    · have hne : s ≠ ⟨e.bells.length⟩ := by intro h; apply hl; rw [h]
      have hstage : (bufOf s rows cap addr).stage = s := rfl
      rw [hstage, Row.testErr_ne hne]
      exact ⟨_, by simp [hl, bufOf, BellVec.truncate]; rfl⟩

theorem grow_step (spare : Spare) {s : Stage} (rows : List Row) (hrows : RowsOf s rows)
    (op : GrowOp) (hop : op.Ok) (cap addr h : Nat)
    (hcap : (rows.length + op.given) * s.numBells ≤ cap) :
    op.run spare (bufOf s rows cap addr) h =
      .ok (bufOf s (op.after s rows) cap addr, h + op.popped rows) ∧ RowsOf s (op.after s rows) := by
  have hlen := flatMap_length hrows
  cases op with
  | push r =>
    simp only [GrowOp.Ok] at hop
    simp only [GrowOp.given, Nat.add_mul, Nat.one_mul] at hcap
    simp only [GrowOp.run, VecBuf.push, hop.stage_eq, Res.ok_bind, GrowOp.after, GrowOp.popped]
    have hstage : (bufOf s rows cap addr).stage = s := rfl
    by_cases hl : r.bells.length = s.numBells
    · have hs : (⟨r.bells.length⟩ : Stage) = s := by cases s; simp_all
      rw [hs, hstage, Row.testErr_self, if_pos hl]
      refine ⟨?_, hrows.append (RowsOf.single hop hl)⟩
      have hx : (bufOf s rows cap addr).bells.extend spare r.bells h =
          (⟨(rows ++ [r]).flatMap Row.bells, cap, addr⟩, h) := by
        unfold BellVec.extend bufOf
        simp only [hlen, hl]
        rw [if_pos (by omega)]
        simp
      simp only [hx]
      rfl
    · have hne : s ≠ ⟨r.bells.length⟩ := by intro h; apply hl; rw [h]
      rw [hstage, Row.testErr_ne hne, if_neg hl]
      exact ⟨rfl, hrows⟩
  | pop =>
    simp only [GrowOp.after, GrowOp.popped]
    refine ⟨?_, hrows.of_subset fun r hr => List.mem_of_mem_dropLast hr⟩
    rcases List.eq_nil_or_concat rows with rfl | ⟨init, last, rfl⟩
    · have : 0 < s.numBells := hrows.pos
      simp [GrowOp.run, VecBuf.pop, bufOf, this]
    · have hr := hrows.2 last (by simp)
      have h0 : s.numBells ≠ 0 := by have := hrows.pos; omega
      have hl : RowsOf s init := hrows.of_subset (by simp +contextual)
      have hli := flatMap_length hl
      have hb : (bufOf s (init.concat last) cap addr).bells.bells =
          init.flatMap Row.bells ++ last.bells := by
        simp [bufOf]
      have hstage : (bufOf s (init.concat last) cap addr).stage = s := rfl
      simp only [GrowOp.run, VecBuf.pop, hb, hstage]
      have hk : (init.flatMap Row.bells ++ last.bells).length - s.numBells =
          init.length * s.numBells := by
        rw [List.length_append, hli, hr.2]; omega
      have hd : (init.flatMap Row.bells ++ last.bells).drop (init.length * s.numBells) = last.bells := by
        rw [← hli, List.drop_left]
      obtain ⟨v, hv, -, -, -⟩ := collect_nonempty spare last.bells h hr.1.1
      rw [if_neg (by rw [List.length_append, hr.2]; omega), if_neg h0, hk, hd, hv]
      have ht : (bufOf s (init.concat last) cap addr).bells.truncate (init.length * s.numBells) =
          ⟨init.flatMap Row.bells, cap, addr⟩ := by
        unfold BellVec.truncate
        rw [hb, ← hli, List.take_left]
        rfl
      rw [ht]
      simp [assertThat, bufOf]
  | extend rs =>
    simp only [GrowOp.Ok] at hop
    simp only [GrowOp.given] at hcap
    simp only [GrowOp.after, GrowOp.popped]
    obtain ⟨res, hx⟩ := extendLoop_bufs spare (rows.length * s.numBells) cap addr rs rows h hrows hop hcap
      (Nat.le_refl _)
    have hb : (bufOf s rows cap addr).bells.bells.length = rows.length * s.numBells := hlen
    simp only [GrowOp.run, VecBuf.extend, hb, hx, Res.ok_bind]
    split
    · next hall => exact ⟨rfl, hrows.append ⟨hrows.1, fun r hr => ⟨hop r hr, hall r hr⟩⟩⟩
    · refine ⟨?_, hrows⟩
      rw [List.take_of_length_le (by omega)]
      rfl
  | extendFromBuf s2 rs =>
    simp only [GrowOp.Ok] at hop
    simp only [GrowOp.given, Nat.add_mul] at hcap
    simp only [GrowOp.after, GrowOp.popped, GrowOp.run, VecBuf.extendFromBuf]
    have hstage : (bufOf s rows cap addr).stage = s := rfl
    rw [hstage, SameStageVec.ofRows_stage]
    by_cases hs : s = s2
    · subst hs
      rw [Row.testErr_self, if_pos rfl]
      have hlen2 := flatMap_length hop
      have hx : (bufOf s rows cap addr).bells.extend spare (SameStageVec.ofRows s rs).bells h =
          (⟨(rows ++ rs).flatMap Row.bells, cap, addr⟩, h) := by
        unfold BellVec.extend bufOf SameStageVec.ofRows
        simp only [hlen, hlen2]
        rw [if_pos (by omega)]
        simp
      simp only [hx]
      exact ⟨rfl, hrows.append hop⟩
    · rw [Row.testErr_ne hs, if_neg hs]
      exact ⟨rfl, hrows⟩

theorem grow_all (spare : Spare) {s : Stage} (k cap addr : Nat) (hk : k * s.numBells ≤ cap)
    (ops : List GrowOp) : ∀ (rows : List Row) (h : Nat), RowsOf s rows → (∀ op ∈ ops, op.Ok) →
    GrowOp.AtMost k s rows ops →
    GrowOp.runAll spare ops (bufOf s rows cap addr) h =
      .ok (bufOf s (GrowOp.afterAll s rows ops) cap addr, h + GrowOp.poppedAll s rows ops) := by
  induction ops with
  | nil => intro rows h _ _ _; rfl
  | cons op ops ih =>
    intro rows h hrows hops hat
    obtain ⟨h1, h2⟩ := grow_step spare rows hrows op (hops op (by simp)) cap addr h
      (le_trans (Nat.mul_le_mul_right _ hat.1) hk)
    rw [GrowOp.runAll, h1, Res.ok_bind]
    simp only
    rw [ih _ _ h2 (fun o ho => hops o (by simp [ho])) hat.2]
    simp only [GrowOp.afterAll, List.foldl_cons, GrowOp.poppedAll, Nat.add_assoc]

/-- The memory for `k` rows of stage `s` has a size (no allocation is larger than `isize::MAX`
bytes, and a bell takes a word). -/
def RowsFit (m : Build) (s : Stage) (k : Nat) : Prop :=
  k * s.numBells * (m.bits / 8) < 2 ^ (m.bits - 1)

theorem withCapacity_ok (m : Build) (spare : Spare) (n h : Nat)
    (hf : n * (m.bits / 8) < 2 ^ (m.bits - 1)) :
    BellVec.withCapacityOn m spare n h =
      .ok (⟨[], n + spare 0 n, h⟩, if n = 0 then h else h + 1) := by
  rw [BellVec.withCapacityOn, if_pos hf]

theorem fits_word {m : Build} (hm : 8 ≤ m.bits) {n : Nat} (hf : n * (m.bits / 8) < 2 ^ (m.bits - 1)) :
    n < 2 ^ m.bits := by
  have h1 : 1 ≤ m.bits / 8 := (Nat.one_le_div_iff (by omega)).2 hm
  have h2 : n * 1 ≤ n * (m.bits / 8) := Nat.mul_le_mul_left _ h1
  have h3 : 2 ^ (m.bits - 1) ≤ 2 ^ m.bits := Nat.pow_le_pow_right (by omega) (by omega)
  omega

theorem arith_mul_fits (m : Build) {a b : Nat} (h : a * b < 2 ^ m.bits) : m.arith.mul a b = .ok (a * b) := by
  unfold Build.arith
  split
  · simp [Arith.checked, h]
  · simp [Arith.wrapping, Nat.mod_eq_of_lt h]

/-- If the memory for `k` rows has a size then `with_capacity` gives an empty vector, and any sequence
of calls during which the vector does not have to hold more than `k` rows leaves it in the same
buffer: nothing is allocated but the rows that `pop` returns. `from_row_buf` keeps the buffer of the
row. -/
theorem C95_capacity_partial (m : Build) (hm : 8 ≤ m.bits) (spare : Spare) (s : Stage) (hs : s.Valid)
    (k h : Nat) :
    (RowsFit m s k → ∃ v, VecBuf.withCapacityOn m spare s k h = .ok (v, if k = 0 then h else h + 1) ∧
      v.vec = SameStageVec.new s ∧
      ∀ (ops : List GrowOp) (h : Nat), (∀ op ∈ ops, op.Ok) → GrowOp.AtMost k s [] ops →
        ∃ v', GrowOp.runAll spare ops v h = .ok (v', h + GrowOp.poppedAll s [] ops) ∧
          v'.vec = SameStageVec.ofRows s (GrowOp.afterAll s [] ops) ∧
          v'.bells.addr = v.bells.addr ∧ v'.bells.capacity = v.bells.capacity) ∧
    (∀ row : BellVec, row.row.Valid → row.bells.length = s.numBells →
      ∃ v, VecBuf.fromRowBuf row = .ok v ∧ v.bells = row ∧ v.vec = SameStageVec.ofRows s [row.row]) := by
  refine ⟨?_, ?_⟩
  · intro hf
    unfold RowsFit at hf
    have hz : (k * s.numBells = 0) ↔ k = 0 := by
      have : 0 < s.numBells := hs
      rw [Nat.mul_eq_zero]; omega
    refine ⟨bufOf s [] (k * s.numBells + spare 0 (k * s.numBells)) h, ?_, rfl, ?_⟩
    · rw [VecBuf.withCapacityOn, arith_mul_fits m (fits_word hm hf)]
      simp only [Res.ok_bind, withCapacity_ok m spare _ h hf, hz]
      rfl
    · intro ops h2 hok hat
      exact ⟨_, grow_all spare k _ h (Nat.le_add_right _ _) ops [] h2 (RowsOf.nil hs) hok hat, rfl, rfl, rfl⟩
  · intro row hv hl
    refine ⟨⟨row, s⟩, ?_, rfl, ?_⟩
    · simp only [VecBuf.fromRowBuf, hv.stage_eq, Res.ok_bind, row_bells, hl]
      rfl
    · simp [VecBuf.vec, SameStageVec.ofRows, row_bells]

/-- What `with_capacity` does if the memory for `k` rows has no size: a build with overflow checks
panics; one without takes the number of bells modulo the size of a word, and makes a vector with
capacity for so many bells if this has a size, or panics. -/
theorem C95_capacity_exact (m : Build) (hm : 8 ≤ m.bits) (spare : Spare) (s : Stage) (k h : Nat)
    (hf : ¬ RowsFit m s k) :
    (m.overflowChecks = true → ∃ p, VecBuf.withCapacityOn m spare s k h = .error p) ∧
    (m.overflowChecks = false →
      let n := k * s.numBells % 2 ^ m.bits
      (n * (m.bits / 8) < 2 ^ (m.bits - 1) →
        VecBuf.withCapacityOn m spare s k h =
          .ok (⟨⟨[], n + spare 0 n, h⟩, s⟩, if n = 0 then h else h + 1)) ∧
      (¬ n * (m.bits / 8) < 2 ^ (m.bits - 1) → VecBuf.withCapacityOn m spare s k h = .error .explicit)) := by
  unfold RowsFit at hf
  refine ⟨?_, ?_⟩
  · intro hc
    unfold VecBuf.withCapacityOn Build.arith
    rw [if_pos hc]
    simp only [Arith.checked]
    by_cases hw : k * s.numBells < 2 ^ m.bits
    · rw [if_pos hw]
      simp only [Res.ok_bind, BellVec.withCapacityOn, if_neg hf]
      exact ⟨_, rfl⟩
    · rw [if_neg hw]
      exact ⟨_, rfl⟩
  · intro hc
    unfold VecBuf.withCapacityOn Build.arith
    rw [hc, if_neg (by decide)]
    simp only [Arith.wrapping, Res.ok_bind, BellVec.withCapacityOn]
    refine ⟨fun hn => ?_, fun hn => ?_⟩
    · rw [if_pos hn]; rfl
    · rw [if_neg hn]; rfl

example := C95_capacity_exact ⟨64, false⟩ (by decide) (fun _ _ => 0) ⟨8⟩ (2 ^ 61 + 1) 0 (by unfold RowsFit; decide)

/-- The documented promise is false of release builds: on a 64-bit machine, a vector with "capacity"
for 2^63 rows on two bells has no memory at all, and the first row pushed makes it allocate. -/
theorem C95_capacity_false (spare : Spare) (hspare : spare 0 0 = 0) (h : Nat) :
    ∃ v v' : VecBuf, VecBuf.withCapacityOn ⟨64, false⟩ spare ⟨2⟩ (2 ^ 63) h = .ok (v, h) ∧
      v.push spare (Row.rounds ⟨2⟩) h = .ok (.ok (), v', h + 1) := by
  refine ⟨⟨⟨[], 0, h⟩, ⟨2⟩⟩, _, ?_, rfl⟩
  have h1 : ¬ RowsFit ⟨64, false⟩ ⟨2⟩ (2 ^ 63) := by unfold RowsFit; decide
  have := ((C95_capacity_exact ⟨64, false⟩ (by decide) spare ⟨2⟩ (2 ^ 63) h h1).2 rfl).1 (by decide)
  rw [this]
  simp [hspare]

/-- Rounds on six bells, inverted and multiplied into a buffer with room for eight bells: nothing is
allocated. -/
example : ∃ out' h', BellVec.mulInto (fun _ _ => 0) (.ofPerm (n := 6) (Equiv.swap 0 1)) (.ofPerm (n := 6) 1)
      ⟨[⟨0⟩], 8, 3⟩ 5 = .ok (.ok (), out', h') ∧ out'.addr = 3 ∧ h' = 5 := by
  obtain ⟨out', h', h1, -, -, h2, -⟩ := (C95_overwrite (n := 6) (by omega) (fun _ _ => 0) (Equiv.swap 0 1) 1
    ⟨[⟨0⟩], 8, 3⟩ (by unfold BellVec.Ok; decide) (by decide) 5).2.1
  obtain ⟨h3, -, h4⟩ := h2 (by simp)
  exact ⟨out', h', h1, h3, h4⟩

/-- A new accumulator on three bells, multiplied by a row and by its inverse: one allocation. -/
example : ∃ a a' res, AccBufs.new (fun _ _ => 0) ⟨[⟨1⟩, ⟨2⟩, ⟨0⟩], 3, 0⟩ 1 = .ok (a, 2) ∧
    AccOp.runBufs (fun _ _ => 0) [.accumulate ⟨[⟨1⟩, ⟨0⟩, ⟨2⟩]⟩, .preAccumulate ⟨[⟨1⟩, ⟨0⟩, ⟨2⟩]⟩] a 2 =
      .ok (res, a', 2) ∧ a'.total.bells = [⟨2⟩, ⟨0⟩, ⟨1⟩] ∧ SameBuffers a a' := by
  obtain ⟨a, h1, h2, h3, h4⟩ := (C95_accumulator (fun _ _ => 0)).1 ⟨[⟨1⟩, ⟨2⟩, ⟨0⟩], 3, 0⟩ 1 (by decide)
    (by unfold BellVec.Ok; decide)
  obtain ⟨a', h5, h6, h7⟩ := (C95_accumulator (fun _ _ => 0)).2
    [.accumulate ⟨[⟨1⟩, ⟨0⟩, ⟨2⟩]⟩, .preAccumulate ⟨[⟨1⟩, ⟨0⟩, ⟨2⟩]⟩] a 2 (by rw [h2]; decide)
    (by
      intro op hop
      have h4' : 3 ≤ a.temp.capacity := h4
      simp only [List.mem_cons, List.not_mem_nil, or_false] at hop
      rw [h2]
      rcases hop with rfl | rfl <;> exact ⟨by decide, by decide, h4'⟩)
  refine ⟨a, a', _, h1, h5, ?_, h7⟩
  rw [h2] at h6
  have := congrArg Row.bells h6
  rw [row_bells] at this
  rw [this]
  decide

/-- Room for two rows on four bells: a row pushed, popped, and two rows added without reallocating. -/
example : ∃ v v' : VecBuf, VecBuf.withCapacityOn ⟨64, true⟩ (fun _ _ => 0) ⟨4⟩ 2 0 = .ok (v, 1) ∧
    GrowOp.runAll (fun _ _ => 0) [.push (Row.rounds ⟨4⟩), .pop, .extend [Row.rounds ⟨4⟩, Row.rounds ⟨4⟩]]
      v 1 = .ok (v', 2) ∧ v'.bells.addr = v.bells.addr := by
  obtain ⟨v, h1, -, h2⟩ := (C95_capacity_partial ⟨64, true⟩ (by decide) (fun _ _ => 0) ⟨4⟩ (by decide) 2 0).1
    (by unfold RowsFit; decide)
  obtain ⟨v', h3, -, h4, -⟩ := h2 [.push (Row.rounds ⟨4⟩), .pop, .extend [Row.rounds ⟨4⟩, Row.rounds ⟨4⟩]] 1
    (by
      intro op hop
      simp only [List.mem_cons, List.not_mem_nil, or_false] at hop
      rcases hop with rfl | rfl | rfl
      · show Row.Valid _; decide
      · trivial
      · intro r hr
        simp only [List.mem_cons, List.not_mem_nil, or_false, or_self] at hr
        subst hr; decide)
    (by simp [GrowOp.AtMost, GrowOp.given, GrowOp.after]; decide)
  exact ⟨v, v', h1, h3, h4⟩

/-- Seven rows of a block of two rows on two bells: `next` allocates ten rows, `next_into` three. -/
example : ∃ it items last, RepeatBuf.new ⟨[⟨0⟩, ⟨1⟩], 2, 0⟩
      (.ofPerms (n := 2) [1, Equiv.swap 0 1] (Equiv.swap 0 1) ['a', 'b']) = .ok (.ok it) ∧
    takeNext (fun _ _ => 0) 7 it 1 = .ok (items, 11) ∧
    takeNextInto (fun _ _ => 0) 7 it ⟨[⟨0⟩], 2, 5⟩ 1 = .ok (items, last, 4) ∧ last.addr = 5 := by
  obtain ⟨it, h1, h2⟩ := C95_repeat (n := 2) (by omega) (fun _ _ => 0) [1, Equiv.swap 0 1]
    (Equiv.swap 0 1) ['a', 'b'] rfl (by decide) 1 ⟨[⟨0⟩, ⟨1⟩], 2, 0⟩ (by decide)
  obtain ⟨h3, h4⟩ := h2 7 1
  obtain ⟨last, h5, h6, -⟩ := h4 ⟨[⟨0⟩], 2, 5⟩ (by decide)
  exact ⟨it, _, last, h1, h3, h5, h6⟩

end Bellframe.Props
