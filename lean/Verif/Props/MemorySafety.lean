import Verif.Props.SafeRows
import Verif.Props.SameStageVec
import Verif.Props.Block
import Verif.Props.Mask
import Verif.Props.Method
import Verif.Proofs.Unwind

/-! # C64: undefined behaviour

The crate's only operation with undefined behaviour is the unchecked access of
`SameStageVec::pre_multiply` (`Row::get_bell_unchecked`); all other `unsafe` blocks only skip
validity checks.  It is out of bounds when the vector holds a bell outside its stage. -/

namespace Bellframe.Props

open Utils (Bound)

/-! ## Safe programs with undefined behaviour -/

/-- A safe program with undefined behaviour: the text `99` is a mask on two bells with every place
given, so `as_row` makes a row of it; a vector made from that row has stage 2 and holds bell 9. -/
theorem C64_mask_witness : ∃ r v, (Mask.parse ['9', '9']).asRow = some r ∧
    SameStageVec.fromRowBuf r = .ok v ∧
    v.preMultiply (Row.rounds ⟨2⟩) = .error .undefined :=
  ⟨⟨[⟨8⟩, ⟨8⟩]⟩, ⟨[⟨8⟩, ⟨8⟩], ⟨2⟩⟩, by decide, by decide, by decide⟩

/-- A safe program with undefined behaviour and without masks: `extend_transposed` does not check the
stage of the other vector, so a vector of stage 2 can be made to hold the row 22 out of two rows of
stage 1; inverting that row into a longer buffer leaves a bell of the buffer behind. -/
theorem C64_vec_witness : ∃ one two r r' v v',
    SameStageVec.parse ['1', '\n', '1'] = .ok (.ok one) ∧
    (SameStageVec.new ⟨2⟩).extendTransposed (Row.backrounds ⟨2⟩) one = .ok (two, .ok ()) ∧
    two.get 0 = some r ∧ r.invIntoBuf (Row.backrounds ⟨3⟩) = .ok r' ∧
    SameStageVec.fromRowBuf r' = .ok v ∧ v.preMultiply (Row.rounds ⟨2⟩) = .error .undefined ∧
    AnnotBlock.withDefaultAnnots () v = .ok v' ∧
    v'.preMultiply (Row.rounds ⟨2⟩) = .error .undefined :=
  ⟨⟨[⟨0⟩, ⟨0⟩], ⟨1⟩⟩, ⟨[⟨1⟩, ⟨1⟩], ⟨2⟩⟩, ⟨[⟨1⟩, ⟨1⟩]⟩, ⟨[⟨2⟩, ⟨1⟩]⟩, ⟨[⟨2⟩, ⟨1⟩], ⟨2⟩⟩,
    ⟨⟨[⟨2⟩, ⟨1⟩], ⟨2⟩⟩, []⟩, by decide, by decide, by decide, by decide, by decide, by decide, rfl,
    by decide⟩

/-! ## Everything else -/

/-- The values that hold bells. -/
inductive Obj : Type 1 where
  | row (r : Row)
  | vec (v : SameStageVec)
  | block {A : Type} (b : AnnotBlock A)

/-- What a safe program can get hold of, starting from nothing, if it
* only calls `as_row` on masks that are part of a row (`maskRow`), and
* only passes vectors of the same stage to `extend_transposed` and `extend_range_transposed`
  (`vecExtendRange`).
There is one constructor for each function making or changing a row, vector or block.  The program may
also catch panics, and go on with the objects they leave behind (the constructors `…Unwind`); the
iterators and `Clone` implementations that it supplies may panic as well. -/
inductive Built : Obj → Prop
  | rowOp {rows r} : (∀ x ∈ rows, Built (.row x)) → RowStep rows r → Built (.row r)
  | maskRow {m : Mask} {r} : m.WellFormed → m.asRow = some r → Built (.row r)
  -- vectors
  | vecNew {s : Stage} : s.Valid → Built (.vec (.new s))
  | vecFromRow {r v} : Built (.row r) → SameStageVec.fromRowBuf r = .ok v → Built (.vec v)
  | vecParse {text v} : SameStageVec.parse text = .ok (.ok v) → Built (.vec v)
  | vecPush {v r v' res} : Built (.vec v) → Built (.row r) → v.push r = .ok (v', res) →
      Built (.vec v')
  | vecPop {v v' o} : Built (.vec v) → v.pop = .ok (v', o) → Built (.vec v')
  | vecPopped {v v' r} : Built (.vec v) → v.pop = .ok (v', some r) → Built (.row r)
  | vecExtend {v} {rs : List Row} {v' res} : Built (.vec v) → (∀ r ∈ rs, Built (.row r)) →
      v.extend rs = .ok (v', res) → Built (.vec v')
  | vecExtendFromBuf {v w v' res} : Built (.vec v) → Built (.vec w) →
      v.extendFromBuf w = (v', res) → Built (.vec v')
  | vecExtendRange {v t w lo hi v' res} : Built (.vec v) → Built (.row t) → Built (.vec w) →
      w.stage = v.stage → v.extendRangeTransposed t w lo hi = .ok (v', res) → Built (.vec v')
  | vecExtendFromWithin {v t lo hi v' res} : Built (.vec v) → Built (.row t) →
      v.extendTransposedFromWithin lo hi t = .ok (v', res) → Built (.vec v')
  | vecExtendUnwind {v} {items : List (Res Row)} {v' res} : Built (.vec v) →
      (∀ r, .ok r ∈ items → Built (.row r)) → v.extendUnwind items = (v', res) → Built (.vec v')
  | vecExtendRangeUnwind {v t w lo hi v' res} : Built (.vec v) → Built (.row t) → Built (.vec w) →
      w.stage = v.stage → v.extendRangeTransposedUnwind t w lo hi = (v', res) → Built (.vec v')
  | vecExtendFromWithinUnwind {v t lo hi v' res} : Built (.vec v) → Built (.row t) →
      v.extendTransposedFromWithinUnwind lo hi t = (v', res) → Built (.vec v')
  | vecPreMultiply {v t v' res} : Built (.vec v) → Built (.row t) →
      v.preMultiply t = .ok (v', res) → Built (.vec v')
  | vecPreMultiplied {v t v'} : Built (.vec v) → Built (.row t) →
      v.preMultiplied t = .ok (.ok v') → Built (.vec v')
  | vecSplitL {v i a b} : Built (.vec v) → v.split i = some (a, b) → Built (.vec a)
  | vecSplitR {v i a b} : Built (.vec v) → v.split i = some (a, b) → Built (.vec b)
  /-- Changing a row in place through `get_mut`, `first_mut` or `last_mut`: by a row operation that
  may also use other rows, and that keeps the length, since a `&mut Row` cannot grow. -/
  | vecSetRow {v i f v'} {others : List Row} : Built (.vec v) → (∀ x ∈ others, Built (.row x)) →
      (∀ r r', f r = .ok r' → r'.bells.length = r.bells.length ∧
        ∃ ins, (∀ x ∈ ins, x = r ∨ x ∈ others) ∧ RowStep ins r') →
      v.setRow i f = .ok (some v') → Built (.vec v')
  | vecGet {v i r} : Built (.vec v) → v.get i = some r → Built (.row r)
  | vecIndex {v i r} : Built (.vec v) → v.index i = .ok r → Built (.row r)
  | vecLast {v r} : Built (.vec v) → v.last = .ok (some r) → Built (.row r)
  | vecIter {v ops outs it r} : Built (.vec v) → IterOp.runs v.iter ops = .ok (outs, it) →
      .row (some r) ∈ outs → Built (.row r)
  | pnRows {b : PnBlock} {r v} : b.WellFormed → Built (.row r) → b.toRows r = .ok (.ok v) →
      Built (.vec v)
  -- blocks
  | blockParse {A : Type} {dflt : A} {text b} : AnnotBlock.parse dflt text = .ok (.ok b) →
      Built (.block b)
  | blockEmpty {A : Type} {s : Stage} {b : AnnotBlock A} : s.Valid → AnnotBlock.empty s = .ok b →
      Built (.block b)
  | blockDefault {A : Type} {dflt : A} {v b} : Built (.vec v) →
      AnnotBlock.withDefaultAnnots dflt v = .ok b → Built (.block b)
  | blockIndices {A : Type} {f : Nat → A} {v b} : Built (.vec v) →
      AnnotBlock.withAnnotsFromIndices v f = .ok (some b) → Built (.block b)
  | blockPn {A : Type} {dflt : A} {b : PnBlock} {r b'} : b.WellFormed → Built (.row r) →
      b.toBlock dflt r = .ok (.ok b') → Built (.block b')
  | blockRowVec {A : Type} {b : AnnotBlock A} : Built (.block b) → Built (.vec b.rowVec)
  | blockFirst {A : Type} {b : AnnotBlock A} {r} : Built (.block b) → b.firstRow = .ok r →
      Built (.row r)
  | blockLeftover {A : Type} {b : AnnotBlock A} {r} : Built (.block b) → b.leftoverRow = .ok r →
      Built (.row r)
  | blockAnnotRow {A : Type} {b : AnnotBlock A} {l r a} : Built (.block b) → b.annotRows = .ok l →
      (r, a) ∈ l → Built (.row r)
  | blockSetAnnot {A : Type} {b : AnnotBlock A} {i a b'} : Built (.block b) →
      b.setAnnot i a = some b' → Built (.block b')
  | blockMapAnnots {A B : Type} {b : AnnotBlock A} {f : Nat → A → B} : Built (.block b) →
      Built (.block (b.mapAnnotsWithIndex f))
  | blockPreMultiply {A : Type} {b : AnnotBlock A} {t b' res} : Built (.block b) → Built (.row t) →
      b.preMultiply t = .ok (b', res) → Built (.block b')
  | blockExtendRange {A : Type} {b c : AnnotBlock A} {lo hi b' res} : Built (.block b) →
      Built (.block c) → b.extendRange c lo hi = .ok (b', res) → Built (.block b')
  | blockExtendFromWithin {A : Type} {b : AnnotBlock A} {lo hi b'} : Built (.block b) →
      b.extendFromWithin lo hi = .ok b' → Built (.block b')
  | blockExtendRangeUnwind {A : Type} {b c : AnnotBlock A} {clone lo hi b' res} : Built (.block b) →
      Built (.block c) → b.extendRangeUnwind clone c lo hi = (b', res) → Built (.block b')
  | blockExtendFromWithinUnwind {A : Type} {b : AnnotBlock A} {clone lo hi b' res} :
      Built (.block b) → b.extendFromWithinUnwind clone lo hi = (b', res) → Built (.block b')
  | blockSplitL {A : Type} {b : AnnotBlock A} {i c d} : Built (.block b) →
      b.split i = .ok (some (c, d)) → Built (.block c)
  | blockSplitR {A : Type} {b : AnnotBlock A} {i c d} : Built (.block b) →
      b.split i = .ok (some (c, d)) → Built (.block d)
  | blockRepeat {A : Type} {b : AnnotBlock A} {start it k r i a} : Built (.block b) →
      Built (.row start) → RepeatIter.new start b = .ok (.ok it) →
      nthItem it k = .ok (some (r, i, a)) → Built (.row r)
  | plainCourse {m : Method} {b} : Built (.block m.firstLead) → m.plainCourse.Returns b →
      Built (.block b)

/-- What holds of everything that is `Built`: rows are valid, vectors and blocks hold a whole number
of valid rows of their stage. -/
def Obj.Good : Obj → Prop
  | .row r => r.Valid
  | .vec v => ∃ rows, RowsOf v.stage rows ∧ v = .ofRows v.stage rows
  | .block b => ∃ rows, RowsOf b.rows.stage rows ∧ b.rows = .ofRows b.rows.stage rows

/-- `Obj.Good` of a vector. -/
def VecGood (v : SameStageVec) : Prop := ∃ rows, RowsOf v.stage rows ∧ v = .ofRows v.stage rows

theorem VecGood.mk {s : Stage} {rows : List Row} (h : RowsOf s rows) : VecGood (.ofRows s rows) :=
  ⟨rows, h, rfl⟩

theorem VecGood.elim {v : SameStageVec} (h : VecGood v) :
    ∃ s rows, RowsOf s rows ∧ v = .ofRows s rows :=
  let ⟨rows, h1, h2⟩ := h
  ⟨_, rows, h1, h2⟩

/-- Any call allowed by `VecOp.Ok` keeps a vector good. -/
theorem VecGood.step {v v' : SameStageVec} {out : VecOut} (h : VecGood v) (op : VecOp)
    (hop : op.Ok v.stage) (hr : op.run v = .ok (v', out)) : VecGood v' := by
  obtain ⟨s, rows, h1, rfl⟩ := h.elim
  obtain ⟨h2, h3⟩ := C23_step s rows h1 op hop
  rw [h2] at hr
  cases hsp : op.spec s rows with
  | error e => rw [hsp] at hr; cases hr
  | ok p =>
    rw [hsp] at hr
    cases hr
    exact .mk (h3 p hsp)

theorem VecGood.get {v : SameStageVec} (h : VecGood v) {i : Nat} {r : Row} (hr : v.get i = some r) :
    r.Valid ∧ r.bells.length = v.stage.numBells := by
  obtain ⟨s, rows, h1, rfl⟩ := h.elim
  rw [SameStageVec.ofRows_get h1] at hr
  exact h1.2 r (List.mem_of_getElem? hr)

theorem VecGood.last {v : SameStageVec} (h : VecGood v) {r : Row} (hr : v.last = .ok (some r)) :
    r.Valid ∧ r.bells.length = v.stage.numBells := by
  obtain ⟨s, rows, h1, rfl⟩ := h.elim
  rw [SameStageVec.ofRows_last h1] at hr
  exact h1.2 r (List.mem_of_getLast? (Except.ok.inj hr))

theorem VecGood.iter {v : SameStageVec} (h : VecGood v) {ops : List IterOp} {outs : List VecOut}
    {it : SameStageVec.Iter} (hr : IterOp.runs v.iter ops = .ok (outs, it)) {r : Row}
    (hm : .row (some r) ∈ outs) : r.Valid := by
  obtain ⟨s, rows, h1, rfl⟩ := h.elim
  obtain ⟨it', h2, -⟩ := C23_iterator_history s rows h1 ops
  rw [h2] at hr
  cases hr
  clear h2
  induction ops generalizing rows with
  | nil => cases hm
  | cons op ops ih =>
    cases op with
    | next =>
      rcases List.mem_cons.1 hm with hm | hm
      · have : rows.head? = some r := (VecOut.row.inj hm).symm
        exact (h1.2 r (List.mem_of_head? this)).1
      · have h' := h1.of_subset fun r hr => List.mem_of_mem_tail hr
        exact ih rows.tail h' (.mk h') hm
    | nextBack =>
      rcases List.mem_cons.1 hm with hm | hm
      · have : rows.getLast? = some r := (VecOut.row.inj hm).symm
        exact (h1.2 r (List.mem_of_getLast? this)).1
      · have h' := h1.of_subset fun r hr => List.mem_of_mem_dropLast hr
        exact ih rows.dropLast h' (.mk h') hm
    | len =>
      rcases List.mem_cons.1 hm with hm | hm
      · cases hm
      · exact ih rows h1 h hm

theorem VecGood.push {v v' : SameStageVec} {r : Row} {res} (h : VecGood v) (hr : r.Valid)
    (hp : v.push r = .ok (v', res)) : VecGood v' :=
  h.step (.push r) hr (out := .result res) (by simp only [VecOp.run, hp]; rfl)

theorem VecGood.pop {v v' : SameStageVec} {o} (h : VecGood v) (hp : v.pop = .ok (v', o)) :
    VecGood v' ∧ v'.stage = v.stage ∧ ∀ r, o = some r → r.Valid := by
  obtain ⟨s, rows, h1, rfl⟩ := h.elim
  rw [SameStageVec.ofRows_pop h1] at hp
  cases hp
  exact ⟨.mk (h1.of_subset fun r hr => List.mem_of_mem_dropLast hr), rfl,
    fun r hr => (h1.2 r (List.mem_of_getLast? hr)).1⟩

theorem VecGood.extendRange {v v' w : SameStageVec} {t : Row} {lo hi res} (h : VecGood v)
    (hw : VecGood w) (ht : t.Valid) (hs : t.bells.length = v.stage.numBells → w.stage = v.stage)
    (hp : v.extendRangeTransposed t w lo hi = .ok (v', res)) : VecGood v' := by
  obtain ⟨rows, h1, h2⟩ := hw
  rw [h2] at hp
  exact h.step (.extendRangeTransposed t w.stage rows lo hi) ⟨ht, h1, hs⟩ (out := .result res)
    (by simp only [VecOp.run, hp]; rfl)

theorem VecGood.fromWithin {v v' : SameStageVec} {t : Row} {lo hi res} (h : VecGood v)
    (ht : t.Valid) (hp : v.extendTransposedFromWithin lo hi t = .ok (v', res)) : VecGood v' :=
  h.step (.extendTransposedFromWithin lo hi t) ht (out := .result res)
    (by simp only [VecOp.run, hp]; rfl)

theorem VecGood.preMultiply {v v' : SameStageVec} {t : Row} {res} (h : VecGood v)
    (ht : t.Valid) (hp : v.preMultiply t = .ok (v', res)) : VecGood v' :=
  h.step (.preMultiply t) ht (out := .result res) (by simp only [VecOp.run, hp]; rfl)

theorem VecGood.split {v a b : SameStageVec} {i} (h : VecGood v) (hp : v.split i = some (a, b)) :
    VecGood a ∧ VecGood b :=
  ⟨h.step (.keepLeft i) trivial (out := .done true) (by simp only [VecOp.run, hp]),
    h.step (.keepRight i) trivial (out := .done true) (by simp only [VecOp.run, hp])⟩

theorem VecGood.parse {text : List Char} {v : SameStageVec}
    (h : SameStageVec.parse text = .ok (.ok v)) : VecGood v := by
  by_cases hne : text = []
  · subst hne; rw [C25_empty_panics] at h; cases h
  · obtain ⟨ls, hls, -⟩ := C25_lines_unique text
    rcases C25_parse_partial text ls hls hne with ⟨st, rows, -, h1, -, h2⟩ | ⟨_, _, _, _, e, -, -, -, h2, -⟩
    · rw [h2] at h; cases h; exact .mk h1
    · rw [h2] at h; cases h

theorem VecGood.toRows {b : PnBlock} {r : Row} {v : SameStageVec} (hb : b.WellFormed) (hr : r.Valid)
    (h : b.toRows r = .ok (.ok v)) : VecGood v := by
  obtain ⟨hne, m, hm, τs, hc, hb⟩ := hb
  have hne' : τs ≠ [] := by rintro rfl; exact hne (by simpa using hb)
  obtain rfl : b = ⟨τs.map PlaceNot.ofChange⟩ := by cases b; simpa using hb
  by_cases hl : r.bells.length = m
  · obtain ⟨σ, rfl⟩ := hr.exists_perm' hl
    obtain ⟨⟨ρs, -, h2⟩, -⟩ := C36_rows () hm σ τs hne' hc
    rw [h2] at h
    cases h
    exact .mk (RowsOf.perms hm ρs)
  · rw [(C36_mismatch () r hr hl τs hne').1] at h
    cases h

theorem solveXa_valid {a b x : Row} (ha : a.Valid) (hb : b.Valid)
    (h : a.solveXaEqualsB b = .ok (.ok x)) :
    x.Valid ∧ a.bells.length = b.bells.length ∧ x.bells.length = a.bells.length := by
  by_cases hl : a.bells.length = b.bells.length
  · obtain ⟨-, x', h1, h2, h3⟩ := (C12_solutions_exist a b ha hb).1 hl
    rw [h3] at h; cases h
    exact ⟨h1, hl, h2⟩
  · rw [((C12_solutions_exist a b ha hb).2 hl).2] at h; cases h

theorem VecGood.extendFromWithinBlock {A : Type} {b b' : AnnotBlock A} {lo hi} (h : VecGood b.rows)
    (hp : b.extendFromWithin lo hi = .ok b') : VecGood b'.rows := by
  unfold AnnotBlock.extendFromWithin at hp
  generalize Utils.clampRange lo hi b.len = p at hp
  obtain ⟨lo, hi⟩ := p
  simp only at hp
  cases hf : b.getRow lo with
  | none => rw [hf] at hp; cases hp
  | some first =>
    rw [hf] at hp
    simp only [unwrap_some, Res.ok_bind] at hp
    cases hl : b.rows.last with
    | error e => simp only [AnnotBlock.leftoverRow, hl] at hp; cases hp
    | ok l =>
      cases l with
      | none => simp only [AnnotBlock.leftoverRow, hl] at hp; cases hp
      | some l =>
        simp only [AnnotBlock.leftoverRow, hl, unwrap_some, Res.ok_bind] at hp
        cases hs : first.solveXaEqualsB l with
        | error e => rw [hs] at hp; cases hp
        | ok x =>
          cases x with
          | error e => rw [hs] at hp; cases hp
          | ok x =>
            rw [hs] at hp
            simp only [unwrapResult, Res.ok_bind] at hp
            have hx := solveXa_valid (h.get hf).1 (h.last hl).1 hs
            cases he : b.rows.extendTransposedFromWithin (.included (lo + 1)) (.excluded (hi + 1)) x with
            | error e => rw [he] at hp; cases hp
            | ok q =>
              obtain ⟨rows, res⟩ := q
              rw [he] at hp
              cases res with
              | error e => cases hp
              | ok u =>
                simp only [Res.ok_bind] at hp
                cases hc : sliceIdx b.annots lo hi with
                | error e => rw [hc] at hp; cases hp
                | ok c =>
                  rw [hc] at hp
                  cases hp
                  exact h.fromWithin hx.1 he

theorem VecGood.extendRangeBlock {A : Type} {b c b' : AnnotBlock A} {lo hi res} (h : VecGood b.rows)
    (h2 : VecGood c.rows) (hp : b.extendRange c lo hi = .ok (b', res)) : VecGood b'.rows := by
  unfold AnnotBlock.extendRange at hp
  generalize Utils.clampRange lo hi c.len = p at hp
  obtain ⟨lo, hi⟩ := p
  simp only at hp
  cases hf : c.getRow lo with
  | none => rw [hf] at hp; cases hp
  | some first =>
    rw [hf] at hp
    simp only [unwrap_some, Res.ok_bind] at hp
    cases hl : b.rows.last with
    | error e => simp only [AnnotBlock.leftoverRow, hl] at hp; cases hp
    | ok l =>
      cases l with
      | none => simp only [AnnotBlock.leftoverRow, hl] at hp; cases hp
      | some l =>
        simp only [AnnotBlock.leftoverRow, hl, unwrap_some, Res.ok_bind] at hp
        cases hs : first.solveXaEqualsB l with
        | error e => rw [hs] at hp; cases hp
        | ok x =>
          cases x with
          | error e => rw [hs] at hp; cases hp; exact h
          | ok x =>
            rw [hs] at hp
            simp only [Res.ok_bind] at hp
            have hx := solveXa_valid (h2.get hf).1 (h.last hl).1 hs
            have hst : c.rows.stage = b.rows.stage := by
              have h3 := (h2.get hf).2
              have h4 := (h.last hl).2
              rw [hx.2.1, h4] at h3
              exact congrArg Stage.mk h3.symm
            cases hpop : b.rows.pop with
            | error e => rw [hpop] at hp; cases hp
            | ok pp =>
              obtain ⟨popped, o⟩ := pp
              obtain ⟨h5, h6, -⟩ := h.pop hpop
              rw [hpop] at hp
              simp only [Res.ok_bind] at hp
              cases he : popped.extendRangeTransposed x c.rows (.included lo) (.excluded (hi + 1)) with
              | error e => rw [he] at hp; cases hp
              | ok q =>
                obtain ⟨rows, res'⟩ := q
                rw [he] at hp
                cases res' with
                | error e => cases hp
                | ok u =>
                  cases hp
                  exact h5.extendRange h2 hx.1 (fun _ => by rw [hst, h6]) he

theorem VecGood.extendUnwind {v : SameStageVec} {items : List (Res Row)} (h : VecGood v)
    (hi : ∀ r, .ok r ∈ items → r.Valid) : VecGood (v.extendUnwind items).1 := by
  obtain ⟨s, rows0, h1, rfl⟩ := h.elim
  suffices hs : ∀ rows, RowsOf s (rows0 ++ rows) →
      VecGood ((SameStageVec.ofRows s (rows0 ++ rows)).extendUnwindLoop
        (SameStageVec.ofRows s rows0).bells.length items).1 by
    simpa [SameStageVec.extendUnwind] using hs [] (by simpa using h1)
  induction items with
  | nil => intro rows hr; exact .mk hr
  | cons x items ih =>
    intro rows hr
    cases x with
    | error p => exact .mk hr
    | ok r =>
      have hrv := hi r (by simp)
      rw [SameStageVec.extendUnwindLoop]
      simp only [hrv.stage_eq, SameStageVec.ofRows_stage]
      by_cases hl : r.bells.length = s.numBells
      · have hst : s = ⟨r.bells.length⟩ := by cases s; simp_all
        have := ih (fun r hr => hi r (by simp [hr])) (rows ++ [r])
          (by rw [← List.append_assoc]; exact hr.append (RowsOf.single hrv hl))
        have hb : (⟨(SameStageVec.ofRows s (rows0 ++ rows)).bells ++ r.bells, s⟩ : SameStageVec) =
            .ofRows s (rows0 ++ (rows ++ [r])) := by simp [SameStageVec.ofRows]
        rw [← hst, Row.testErr_self]
        simp only [hb]
        exact this
      · have hst : s ≠ ⟨r.bells.length⟩ := by intro h; apply hl; rw [h]
        rw [Row.testErr_ne hst]
        simp only [SameStageVec.ofRows_append, List.take_left]
        exact .mk h1

theorem VecGood.extendRangeUnwind {v w : SameStageVec} {t : Row} {lo hi} (h : VecGood v)
    (hw : VecGood w) (ht : t.Valid) (hs : t.bells.length = v.stage.numBells → w.stage = v.stage) :
    VecGood (v.extendRangeTransposedUnwind t w lo hi).1 := by
  have hok := fun v' res => VecGood.extendRange (v' := v') (lo := lo) (hi := hi) (res := res) h hw ht hs
  obtain ⟨s, rows, h1, rfl⟩ := h.elim
  obtain ⟨s2, rows2, h2, rfl⟩ := hw.elim
  rw [← SameStageVec.extendRangeTransposedUnwind_agrees] at hok
  have hx := SameStageVec.ofRows_extendRangeTransposedUnwind (s := s) (rows := rows) t ht s2 rows2 h2
    hs lo hi
  by_cases hl : t.bells.length = s.numBells
  · rw [if_pos hl] at hx
    simp only at hx
    split at hx
    · exact hok _ (.ok ()) (by rw [hx]; rfl)
    · rw [hx]; exact .mk h1
  · rw [hx, if_neg hl]; exact .mk h1

theorem VecGood.fromWithinUnwind {v : SameStageVec} {t : Row} {lo hi} (h : VecGood v)
    (ht : t.Valid) : VecGood (v.extendTransposedFromWithinUnwind lo hi t).1 := by
  obtain ⟨s, rows, h1, rfl⟩ := h.elim
  by_cases hl : t.bells.length = s.numBells
  · obtain ⟨h3, h4, h5⟩ := SameStageVec.ofRows_extendTransposedFromWithinUnwind h1 t ht hl lo hi
      (Utils.clampRange lo hi rows.length).1 (Utils.clampRange lo hi rows.length).2 rfl
    by_cases h6 : (Utils.clampRange lo hi rows.length).2 ≤ (Utils.clampRange lo hi rows.length).1
    · rw [h3 h6]; exact .mk h1
    · by_cases h7 : (Utils.clampRange lo hi rows.length).1 < rows.length
      · obtain ⟨more, h9, -, -, h8⟩ := h5 (by omega) h7
        rw [h8]; exact .mk h9
      · rw [h4 (by omega) (by omega)]; exact .mk h1
  · have hg := SameStageVec.extendTransposedFromWithinUnwind_agrees (.ofRows s rows) t lo hi
    rw [SameStageVec.ofRows_extendTransposedFromWithin h1 t ht, if_neg hl] at hg
    rw [SameStageVec.eq_of_onReturn hg]
    exact .mk h1

theorem VecGood.leftover {A : Type} {b : AnnotBlock A} (h : VecGood b.rows) {l : Row}
    (hl : b.leftoverRow = .ok l) : l.Valid ∧ l.bells.length = b.rows.stage.numBells := by
  unfold AnnotBlock.leftoverRow at hl
  cases hla : b.rows.last with
  | error e => rw [hla] at hl; cases hl
  | ok o =>
    rw [hla] at hl
    cases o with
    | none => cases hl
    | some o => cases hl; exact h.last hla

theorem VecGood.extendRangeUnwindBlock {A : Type} {clone : A → Res A} {b c : AnnotBlock A} {lo hi}
    (h : VecGood b.rows) (h2 : VecGood c.rows) :
    VecGood (b.extendRangeUnwind clone c lo hi).1.rows := by
  unfold AnnotBlock.extendRangeUnwind
  generalize Utils.clampRange lo hi c.len = p
  simp only
  cases hf : c.getRow p.1 with
  | none => exact h
  | some first =>
    simp only
    cases hl : b.leftoverRow with
    | error e => exact h
    | ok l =>
      simp only
      cases hs : first.solveXaEqualsB l with
      | error e => exact h
      | ok x =>
        cases x with
        | error e => exact h
        | ok x =>
          have hx := solveXa_valid (h2.get hf).1 (h.leftover hl).1 hs
          have hst : c.rows.stage = b.rows.stage := by
            have h3 := (h2.get hf).2
            have h4 := (h.leftover hl).2
            rw [hx.2.1, h4] at h3
            exact congrArg Stage.mk h3.symm
          cases hpop : b.rows.pop with
          | error e => exact h
          | ok pp =>
            obtain ⟨popped, o⟩ := pp
            obtain ⟨h5, h6, -⟩ := h.pop hpop
            have h7 := h5.extendRangeUnwind h2 hx.1 (fun _ => by rw [hst, h6]) (lo := .included p.1)
              (hi := .excluded (p.2 + 1))
            simp only
            split <;> exact h7

theorem VecGood.extendFromWithinUnwindBlock {A : Type} {clone : A → Res A} {b : AnnotBlock A} {lo hi}
    (h : VecGood b.rows) : VecGood (b.extendFromWithinUnwind clone lo hi).1.rows := by
  unfold AnnotBlock.extendFromWithinUnwind
  generalize Utils.clampRange lo hi b.len = p
  simp only
  cases hf : b.getRow p.1 with
  | none => exact h
  | some first =>
    simp only
    cases hl : b.leftoverRow with
    | error e => exact h
    | ok l =>
      simp only
      cases hs : first.solveXaEqualsB l with
      | error e => exact h
      | ok x =>
        cases x with
        | error e => exact h
        | ok x =>
          have hx := solveXa_valid (h.get hf).1 (h.leftover hl).1 hs
          have h7 := h.fromWithinUnwind hx.1 (lo := .included (p.1 + 1)) (hi := .excluded (p.2 + 1))
          simp only
          split
          · exact h7
          · exact h7
          · split <;> exact h7

theorem VecGood.splitBlock {A : Type} {b c d : AnnotBlock A} {i} (h : VecGood b.rows)
    (hp : b.split i = .ok (some (c, d))) : VecGood c.rows ∧ VecGood d.rows := by
  unfold AnnotBlock.split at hp
  cases hs : Utils.splitVec b.annots i with
  | none => rw [hs] at hp; cases hp
  | some p =>
    rw [hs] at hp
    cases hs2 : b.rows.split i with
    | none => simp only [hs2] at hp; cases hp
    | some q =>
      obtain ⟨ra, rb⟩ := q
      simp only [hs2] at hp
      obtain ⟨ha, hb⟩ := h.split hs2
      cases hf : rb.first with
      | none => rw [hf] at hp; cases hp
      | some r =>
        rw [hf] at hp
        simp only [unwrap_some, Res.ok_bind] at hp
        cases hpu : ra.push r with
        | error e => rw [hpu] at hp; cases hp
        | ok x =>
          obtain ⟨ra', res⟩ := x
          rw [hpu] at hp
          cases res with
          | error e => cases hp
          | ok u =>
            cases hp
            exact ⟨ha.push (hb.get hf).1 hpu, hb⟩

theorem VecGood.default {A : Type} {dflt : A} {v : SameStageVec} {b : AnnotBlock A} (h : VecGood v)
    (hp : AnnotBlock.withDefaultAnnots dflt v = .ok b) : VecGood b.rows := by
  unfold AnnotBlock.withDefaultAnnots at hp
  cases h1 : assertThat (!v.isEmpty) with
  | error e => rw [h1] at hp; cases hp
  | ok u =>
    rw [h1] at hp
    cases h2 : v.len with
    | error e => rw [h2] at hp; cases hp
    | ok n =>
      rw [h2] at hp
      cases h3 : checkedSub n 1 with
      | error e => simp only [Res.ok_bind, h3] at hp; cases hp
      | ok k =>
        simp only [Res.ok_bind, h3] at hp
        cases hp
        exact h

/-- The rows still to come of an iterator over good rows. -/
theorem VecGood.innerNext {A : Type} {s : Stage} {rows : List Row} (h : RowsOf s rows) {annots : List A}
    {j : Nat} {x it'} (hp : InnerIter.next ⟨(SameStageVec.ofRows s rows).iter, annots, j⟩ = .ok (x, it')) :
    (∃ rows', RowsOf s rows' ∧ it'.rowsLeft = (SameStageVec.ofRows s rows').iter) ∧
    ∀ i r a, x = some (i, r, a) → r.Valid := by
  unfold InnerIter.next at hp
  simp only [SameStageVec.next_ofRows h, Res.ok_bind] at hp
  have ht : RowsOf s rows.tail := h.of_subset fun r hr => List.mem_of_mem_tail hr
  cases hh : rows.head? with
  | none =>
    rw [hh] at hp
    cases annots with
    | nil => cases hp; exact ⟨⟨_, ht, rfl⟩, by simp⟩
    | cons a as => cases hp
  | some r =>
    rw [hh] at hp
    cases annots with
    | nil => cases hp
    | cons a as =>
      cases hp
      refine ⟨⟨_, ht, rfl⟩, ?_⟩
      rintro i r' a' ⟨⟩
      exact (h.2 r (List.mem_of_head? hh)).1

/-- The invariant of a repeating iterator. -/
def RepeatGood {A : Type} (it : RepeatIter A) : Prop :=
  VecGood it.block.rows ∧ it.currentBlockHead.Valid ∧
    ∃ s rows, RowsOf s rows ∧ it.iter.rowsLeft = (SameStageVec.ofRows s rows).iter

theorem RepeatGood.getIter {A : Type} {b : AnnotBlock A} (h : VecGood b.rows) {it}
    (hp : RepeatIter.getIter b = .ok it) :
    ∃ s rows, RowsOf s rows ∧ it.rowsLeft = (SameStageVec.ofRows s rows).iter := by
  obtain ⟨s, rows, h1, h2⟩ := h.elim
  unfold RepeatIter.getIter AnnotBlock.rowsIter AnnotBlock.allRows at hp
  rw [h2, SameStageVec.nextBack_ofRows h1] at hp
  cases hp
  exact ⟨s, rows.dropLast, h1.of_subset fun r hr => List.mem_of_mem_dropLast hr, rfl⟩

theorem RepeatGood.new {A : Type} {b : AnnotBlock A} (h : VecGood b.rows) {start : Row}
    (hs : start.Valid) {it} (hp : RepeatIter.new start b = .ok (.ok it)) : RepeatGood it := by
  unfold RepeatIter.new at hp
  simp only [hs.stage_eq, Res.ok_bind] at hp
  cases ht : IncompatibleStages.testErr ⟨start.bells.length⟩ b.stage with
  | error e => rw [ht] at hp; cases hp
  | ok u =>
    rw [ht] at hp
    cases hg : RepeatIter.getIter b with
    | error e => rw [hg] at hp; cases hp
    | ok i =>
      rw [hg] at hp
      cases hp
      exact ⟨h, hs, RepeatGood.getIter h hg⟩

theorem RepeatGood.untransposed {A : Type} {it it' : RepeatIter A} (h : RepeatGood it) {x}
    (hp : it.nextUntransposedRow = .ok (x, it')) :
    RepeatGood it' ∧ ∀ i r a, x = some (i, r, a) → r.Valid := by
  obtain ⟨hb, hh, s, rows, h1, h2⟩ := h
  unfold RepeatIter.nextUntransposedRow at hp
  have hi : it.iter = ⟨(SameStageVec.ofRows s rows).iter, it.iter.annotsLeft, it.iter.count⟩ := by
    rw [← h2]
  cases hn : it.iter.next with
  | error e => rw [hn] at hp; cases hp
  | ok p =>
    obtain ⟨y, inner⟩ := p
    have h3 := VecGood.innerNext h1 (hi ▸ hn)
    rw [hn] at hp
    cases y with
    | some y =>
      cases hp
      exact ⟨⟨hb, hh, s, h3.1⟩, h3.2⟩
    | none =>
      simp only [Res.ok_bind] at hp
      cases hl : it.block.leftoverRow with
      | error e => rw [hl] at hp; cases hp
      | ok l =>
        have hlv : l.Valid := by
          unfold AnnotBlock.leftoverRow at hl
          cases hla : it.block.rows.last with
          | error e => rw [hla] at hl; cases hl
          | ok o =>
            rw [hla] at hl
            cases o with
            | none => cases hl
            | some o => cases hl; exact (hb.last hla).1
        rw [hl] at hp
        simp only [Res.ok_bind] at hp
        cases hm : it.currentBlockHead.mul l with
        | error e => rw [hm] at hp; cases hp
        | ok head =>
          have hv : head.Valid := rowStep_valid (.mul hm) (by simp [hh, hlv])
          rw [hm] at hp
          simp only [Res.ok_bind] at hp
          cases hg : RepeatIter.getIter it.block with
          | error e => rw [hg] at hp; cases hp
          | ok i =>
            obtain ⟨s', rows', h4, h5⟩ := RepeatGood.getIter hb hg
            rw [hg] at hp
            simp only [Res.ok_bind] at hp
            cases hn2 : i.next with
            | error e => rw [hn2] at hp; cases hp
            | ok q =>
              obtain ⟨z, inner2⟩ := q
              have hi' : i = ⟨(SameStageVec.ofRows s' rows').iter, i.annotsLeft, i.count⟩ := by
                rw [← h5]
              have h6 := VecGood.innerNext h4 (hi' ▸ hn2)
              rw [hn2] at hp
              cases hp
              exact ⟨⟨hb, hv, s', h6.1⟩, h6.2⟩

theorem RepeatGood.next {A : Type} {it it' : RepeatIter A} (h : RepeatGood it) {x}
    (hp : it.next = .ok (x, it')) :
    RepeatGood it' ∧ ∀ r i a, x = some (r, i, a) → r.Valid := by
  unfold RepeatIter.next at hp
  cases hn : it.nextUntransposedRow with
  | error e => rw [hn] at hp; cases hp
  | ok p =>
    obtain ⟨y, it2⟩ := p
    obtain ⟨h1, h2⟩ := h.untransposed hn
    rw [hn] at hp
    cases y with
    | none => cases hp; exact ⟨h1, by simp⟩
    | some y =>
      obtain ⟨i, r, a⟩ := y
      simp only [Res.ok_bind] at hp
      cases hm : it2.currentBlockHead.mul r with
      | error e => rw [hm] at hp; cases hp
      | ok r' =>
        rw [hm] at hp
        cases hp
        refine ⟨h1, ?_⟩
        rintro _ _ _ ⟨⟩
        exact rowStep_valid (.mul hm) (by simp [h1.2.1, h2 i r a rfl])

theorem RepeatGood.nth {A : Type} {it : RepeatIter A} (h : RepeatGood it) {k r i a}
    (hp : nthItem it k = .ok (some (r, i, a))) : r.Valid := by
  induction k generalizing it with
  | zero =>
    unfold nthItem at hp
    cases hn : it.next with
    | error e => rw [hn] at hp; cases hp
    | ok p =>
      obtain ⟨x, it'⟩ := p
      rw [hn] at hp
      cases hp
      exact (h.next hn).2 _ _ _ rfl
  | succ k ih =>
    unfold nthItem at hp
    cases hn : it.next with
    | error e => rw [hn] at hp; cases hp
    | ok p =>
      rw [hn] at hp
      exact ih (h.next hn).1 hp

theorem VecGood.course {A : Type} (n : Nat) {b b' : AnnotBlock A} (h : VecGood b.rows)
    (hp : (Method.plainCourseLoop n b).Returns b') : VecGood b'.rows := by
  revert b b'
  suffices hs : ∀ b : AnnotBlock A, VecGood b.rows → ∀ b', Method.plainCourseLoop n b = some (.ok b') →
      VecGood b'.rows from fun b b' h hp => hs b h b' hp
  refine Method.plainCourseLoop.fixpoint_induct (A := A) n
    (fun f => ∀ b : AnnotBlock A, VecGood b.rows → ∀ b', f b = some (.ok b') → VecGood b'.rows) ?_ ?_
  · apply Lean.Order.admissible_pi
    intro b
    apply Lean.Order.admissible_pi
    intro _
    apply Lean.Order.admissible_apply (P := fun _ (y : Run (AnnotBlock A)) => ∀ b',
      y = (some (.ok b') : Option (Except Panic (AnnotBlock A))) → VecGood b'.rows)
    exact Lean.Order.admissible_flatOrder _ (by intro b' hb; cases hb)
  · intro f ih b h b' hp
    beta_reduce at hp
    cases hl : b.leftoverRow with
    | error e => rw [hl] at hp; cases hp
    | ok l =>
      simp only [hl, Run.lift_eq, Run.ofRes_ok_bind] at hp
      split at hp
      · cases hp; exact h
      · cases he : b.extendFromWithin (.included 0) (.excluded n) with
        | error e => rw [he] at hp; cases hp
        | ok c =>
          rw [he] at hp
          exact ih c (h.extendFromWithinBlock he) b' hp

/-- Everything that is `Built` is good. -/
theorem built_good {o : Obj} (h : Built o) : o.Good := by
  induction h with
  | rowOp _ h ih => exact rowStep_valid h ih
  | maskRow hm h => exact (C37_as_row_valid _ hm _ h).1
  | vecNew hs => exact ⟨[], ⟨hs, by simp⟩, rfl⟩
  | @vecFromRow r v _ h ih =>
    have ih : r.Valid := ih
    rw [SameStageVec.ofRows_fromRowBuf ih] at h
    cases h
    exact ⟨[r], RowsOf.single ih rfl, rfl⟩
  | vecParse h => exact VecGood.parse h
  | vecPush _ _ h ih ihr => exact VecGood.push ih ihr h
  | vecPop _ h ih => exact (VecGood.pop ih h).1
  | vecPopped _ h ih => exact (VecGood.pop ih h).2.2 _ rfl
  | @vecExtend v rs v' res _ _ h ih ihr =>
    exact VecGood.step ih (.extend rs) ihr (out := .result res) (by simp only [VecOp.run, h]; rfl)
  | @vecExtendFromBuf v w v' res _ _ h ih ihw =>
    obtain ⟨rows, h1, h2⟩ := (ihw : VecGood w)
    rw [h2] at h
    exact VecGood.step ih (.extendFromBuf w.stage rows) h1 (out := .result res)
      (by simp only [VecOp.run, h])
  | vecExtendRange _ _ _ hs h ih iht ihw => exact VecGood.extendRange ih ihw iht (fun _ => hs) h
  | vecExtendFromWithin _ _ h ih iht => exact VecGood.fromWithin ih iht h
  | vecExtendUnwind _ _ h ih ihr =>
    have := VecGood.extendUnwind ih ihr
    rw [h] at this
    exact this
  | @vecExtendRangeUnwind v t w lo hi _ _ _ _ _ hs h ih iht ihw =>
    have := VecGood.extendRangeUnwind (lo := lo) (hi := hi) ih ihw iht (fun _ => hs)
    rw [h] at this
    exact this
  | @vecExtendFromWithinUnwind v t lo hi _ _ _ _ h ih iht =>
    have := VecGood.fromWithinUnwind (lo := lo) (hi := hi) ih iht
    rw [h] at this
    exact this
  | vecPreMultiply _ _ h ih iht => exact VecGood.preMultiply ih iht h
  | @vecPreMultiplied v t v' _ _ h ih iht =>
    unfold SameStageVec.preMultiplied SameStageVec.extendTransposed at h
    cases he : (SameStageVec.new v.stage).extendRangeTransposed t v .unbounded .unbounded with
    | error e => rw [he] at h; cases h
    | ok p =>
      obtain ⟨w, res⟩ := p
      rw [he] at h
      cases res with
      | error e => cases h
      | ok u =>
        cases h
        have ih : VecGood v := ih
        have hn : VecGood (SameStageVec.new v.stage) :=
          ⟨[], ⟨ih.choose_spec.1.1, by simp⟩, rfl⟩
        exact hn.extendRange ih iht (fun _ => rfl) he
  | vecSplitL _ h ih => exact (VecGood.split ih h).1
  | vecSplitR _ h ih => exact (VecGood.split ih h).2
  | @vecSetRow v i f v' others _ _ hf h ih iho =>
    obtain ⟨s, rows, h1, rfl⟩ := VecGood.elim ih
    rw [SameStageVec.ofRows_setRow h1] at h
    cases hr : rows[i]? with
    | none => rw [hr] at h; cases h
    | some r =>
      rw [hr] at h
      simp only at h
      cases hfr : f r with
      | error e => rw [hfr] at h; cases h
      | ok r' =>
        rw [hfr] at h
        cases h
        obtain ⟨hl, ins, hi, hst⟩ := hf r r' hfr
        have hrv := h1.2 r (List.mem_of_getElem? hr)
        refine VecGood.mk ⟨h1.1, fun x hx => ?_⟩
        rcases List.mem_or_eq_of_mem_set hx with hx | rfl
        · exact h1.2 x hx
        · refine ⟨rowStep_valid hst ?_, hl.trans hrv.2⟩
          intro y hy
          rcases hi y hy with rfl | hy
          · exact hrv.1
          · exact iho y hy
  | vecGet _ h ih => exact (VecGood.get ih h).1
  | @vecIndex v i r _ h ih =>
    obtain ⟨s, rows, h1, rfl⟩ := VecGood.elim ih
    rw [SameStageVec.ofRows_index h1, getIdx] at h
    cases hr : rows[i]? with
    | none => rw [hr] at h; cases h
    | some r' => rw [hr] at h; cases h; exact (h1.2 r (List.mem_of_getElem? hr)).1
  | vecLast _ h ih => exact (VecGood.last ih h).1
  | vecIter _ h hm ih => exact VecGood.iter ih h hm
  | pnRows hb _ h ih => exact VecGood.toRows hb ih h
  | @blockParse A dflt text b h =>
    unfold AnnotBlock.parse at h
    cases hp : SameStageVec.parse text with
    | error e => rw [hp] at h; cases h
    | ok x =>
      rw [hp] at h
      cases x with
      | error e => cases h
      | ok v =>
        simp only [Res.ok_bind] at h
        split at h
        · cases h
        · cases hd : AnnotBlock.withDefaultAnnots dflt v with
          | error e => rw [hd] at h; cases h
          | ok c =>
            rw [hd] at h
            cases h
            exact VecGood.default (VecGood.parse hp) hd
  | @blockEmpty A s b hs h =>
    unfold AnnotBlock.empty at h
    rw [SameStageVec.ofRows_fromRowBuf (C09_named_rows s hs).1] at h
    cases h
    exact VecGood.mk (RowsOf.single (C09_named_rows s hs).1 rfl)
  | blockDefault _ h ih => exact VecGood.default ih h
  | @blockIndices A f v b _ h ih =>
    unfold AnnotBlock.withAnnotsFromIndices at h
    cases hl : v.len with
    | error e => rw [hl] at h; cases h
    | ok n =>
      rw [hl] at h
      simp only [Res.ok_bind] at h
      split at h
      · cases h
      · cases h; exact ih
  | @blockPn A dflt b r b' hb _ h ih =>
    unfold PnBlock.toBlock at h
    cases hr : b.toRows r with
    | error e => rw [hr] at h; cases h
    | ok x =>
      rw [hr] at h
      cases x with
      | error e => cases h
      | ok v =>
        simp only [Res.ok_bind] at h
        cases hd : AnnotBlock.withDefaultAnnots dflt v with
        | error e => rw [hd] at h; cases h
        | ok c =>
          rw [hd] at h
          cases h
          exact VecGood.default (VecGood.toRows hb ih hr) hd
  | blockRowVec _ ih => exact ih
  | @blockFirst A b r _ h ih =>
    unfold AnnotBlock.firstRow at h
    cases hf : b.rows.first with
    | none => rw [hf] at h; cases h
    | some r' => rw [hf] at h; cases h; exact (VecGood.get ih hf).1
  | @blockLeftover A b r _ h ih =>
    unfold AnnotBlock.leftoverRow at h
    cases hla : b.rows.last with
    | error e => rw [hla] at h; cases h
    | ok o =>
      rw [hla] at h
      cases o with
      | none => cases h
      | some o => cases h; exact (VecGood.last ih hla).1
  | @blockAnnotRow A b l r a _ h hm ih =>
    obtain ⟨s, rows, h1, h2⟩ := VecGood.elim ih
    have h3 : RowsOf s rows.dropLast := h1.of_subset fun r hr => List.mem_of_mem_dropLast hr
    unfold AnnotBlock.annotRows AnnotBlock.rowsIter AnnotBlock.allRows at h
    rw [h2, SameStageVec.nextBack_ofRows h1] at h
    simp only [Res.ok_bind, Res.pure_eq, SameStageVec.collect_ofRows _ h3] at h
    have hz : ∀ (xs : List Row) (ys : List A) (l), zipEq xs ys = .ok l → ∀ p ∈ l, p.1 ∈ xs := by
      intro xs
      induction xs with
      | nil => intro ys l hl; cases ys <;> cases hl; simp
      | cons x xs ihx =>
        intro ys l hl
        cases ys with
        | nil => cases hl
        | cons y ys =>
          unfold zipEq at hl
          cases hz : zipEq xs ys with
          | error e => rw [hz] at hl; cases hl
          | ok l' =>
            rw [hz] at hl
            cases hl
            intro p hp
            rcases List.mem_cons.1 hp with rfl | hp
            · simp
            · exact List.mem_cons_of_mem _ (ihx ys l' hz p hp)
    exact (h3.2 r (hz _ _ _ h _ hm)).1
  | @blockSetAnnot A b i a b' _ h ih =>
    unfold AnnotBlock.setAnnot at h
    split at h
    · cases h; exact ih
    · cases h
  | blockMapAnnots _ ih => exact ih
  | @blockPreMultiply A b t b' res _ _ h ih iht =>
    unfold AnnotBlock.preMultiply at h
    cases hp : b.rows.preMultiply t with
    | error e => rw [hp] at h; cases h
    | ok p => rw [hp] at h; cases h; exact VecGood.preMultiply ih iht hp
  | blockExtendRange _ _ h ih ihc => exact VecGood.extendRangeBlock ih ihc h
  | blockExtendFromWithin _ h ih => exact VecGood.extendFromWithinBlock ih h
  | @blockExtendRangeUnwind A b c clone lo hi _ _ _ _ h ih ihc =>
    have := VecGood.extendRangeUnwindBlock (clone := clone) (lo := lo) (hi := hi) ih ihc
    rw [h] at this
    exact this
  | @blockExtendFromWithinUnwind A b clone lo hi _ _ _ h ih =>
    have := VecGood.extendFromWithinUnwindBlock (clone := clone) (lo := lo) (hi := hi) ih
    rw [h] at this
    exact this
  | blockSplitL _ h ih => exact (VecGood.splitBlock ih h).1
  | blockSplitR _ h ih => exact (VecGood.splitBlock ih h).2
  | blockRepeat _ _ h hn ih ihs => exact RepeatGood.nth (RepeatGood.new ih ihs h) hn
  | @plainCourse m b _ h ih =>
    exact VecGood.course _ (b := m.firstLead.mapAnnotsWithIndex fun i label => (⟨i, label⟩ : RowAnnot)) ih h

/-- Programs that do neither of the two things of the witnesses have no undefined behaviour, even if
they catch panics and go on with the objects the panics leave behind: all
their rows are valid, all their vectors and blocks hold whole valid rows, and pre-multiplying any of
them by any row is in bounds (in fact it does not panic either).
Missing: programs which call `as_row` on a mask that is not part of a row, or transpose a vector of
another stage into a vector (see `C64_mask_witness`, `C64_vec_witness`). -/
theorem C64_memory_safety_partial :
    (∀ v t, Built (.vec v) → Built (.row t) → ∃ p, v.preMultiply t = .ok p) ∧
    (∀ (A : Type) (b : AnnotBlock A) t, Built (.block b) → Built (.row t) →
      ∃ p, b.preMultiply t = .ok p) ∧
    (∀ r, Built (.row r) → r.Valid) ∧
    (∀ v, Built (.vec v) → ∃ rows, RowsOf v.stage rows ∧ v.iter.collect = .ok rows) ∧
    (∀ (A : Type) (b : AnnotBlock A), Built (.block b) →
      ∃ rows, RowsOf b.stage rows ∧ b.allRows.collect = .ok rows) := by
  have hv : ∀ v t, VecGood v → t.Valid → ∃ p, v.preMultiply t = .ok p := by
    intro v t h ht
    obtain ⟨s, rows, h1, rfl⟩ := h.elim
    rw [SameStageVec.ofRows_preMultiply h1 t ht]
    split <;> exact ⟨_, rfl⟩
  have hc : ∀ v, VecGood v → ∃ rows, RowsOf v.stage rows ∧ v.iter.collect = .ok rows := by
    intro v h
    obtain ⟨s, rows, h1, rfl⟩ := h.elim
    exact ⟨rows, h1, SameStageVec.collect_ofRows _ h1⟩
  refine ⟨fun v t h ht => hv v t (built_good h) (built_good ht), fun A b t h ht => ?_,
    fun r h => built_good h, fun v h => hc v (built_good h), fun A b h => hc b.rows (built_good h)⟩
  obtain ⟨p, hp⟩ := hv b.rows t (built_good h) (built_good ht)
  exact ⟨(⟨p.1, b.annots⟩, p.2), by simp only [AnnotBlock.preMultiply, hp]; rfl⟩

/-- A vector of three rows on four bells. -/
example : ∃ (v : SameStageVec) (t : Row), Built (.vec v) ∧ Built (.row t) ∧ v.stage = ⟨4⟩ ∧
    v.len = .ok 3 := by
  have ht : Built (.row (Row.backrounds ⟨4⟩)) := .rowOp (by simp) (.backrounds (by decide))
  have h1 := Built.vecFromRow ht (v := ⟨[⟨3⟩, ⟨2⟩, ⟨1⟩, ⟨0⟩], ⟨4⟩⟩) (by decide)
  have h2 := Built.vecPush h1 ht (v' := ⟨[⟨3⟩, ⟨2⟩, ⟨1⟩, ⟨0⟩, ⟨3⟩, ⟨2⟩, ⟨1⟩, ⟨0⟩], ⟨4⟩⟩) (by rfl)
  have h3 := Built.vecExtendFromWithin h2 ht (lo := .included 1) (hi := .excluded 2)
    (v' := ⟨[⟨3⟩, ⟨2⟩, ⟨1⟩, ⟨0⟩, ⟨3⟩, ⟨2⟩, ⟨1⟩, ⟨0⟩, ⟨0⟩, ⟨1⟩, ⟨2⟩, ⟨3⟩], ⟨4⟩⟩) (by rfl)
  exact ⟨_, _, h3, ht, rfl, by decide⟩

end Bellframe.Props
