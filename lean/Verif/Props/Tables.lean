import Verif.Props.Block
import Verif.Props.SameStageVec
import Verif.Props.Text

/-! # C78: tables of rows can be read back -/

namespace Bellframe.Props

variable {A : Type}

/-- A table of rows, each on a line of its own: all lines end with `eol`, the last one only if `final`. -/
def tableText (eol : List Char) (final : Bool) : List Row → List Char
  | [] => []
  | [r] => r.display ++ (if final then eol else [])
  | r :: rows => r.display ++ eol ++ tableText eol final rows

theorem name_chars (b : Bell) (h : b.index < 33) (c : Char) (hc : c ∈ b.name) : c ≠ '\n' ∧ c ≠ '\r' := by
  obtain ⟨i⟩ := b
  have key : ∀ i < 33, ∀ c ∈ (⟨i⟩ : Bell).name, c ≠ '\n' ∧ c ≠ '\r' := by decide +kernel
  exact key i h c hc

theorem display_chars (r : Row) (hv : r.Valid) (h33 : r.bells.length ≤ 33) (c : Char) (hc : c ∈ r.display) :
    c ≠ '\n' ∧ c ≠ '\r' := by
  obtain ⟨b, hb, hc⟩ := List.mem_flatMap.1 hc
  exact name_chars b (lt_of_lt_of_le ((hv.mem_iff b).1 hb) h33) c hc

theorem display_ne_nil (r : Row) (h0 : 0 < r.bells.length) : r.display ≠ [] := by
  intro h
  have h1 : r.display = (⟨[]⟩ : Row).display := h
  rw [(C69_rows r ⟨[]⟩).1 h1] at h0
  simp at h0

theorem forall₂_fun_unique {α β ε : Type} {f : α → Except ε β} {l : List α} {m m' : List β}
    (h : List.Forall₂ (fun a b => f a = .ok b) l m) (h' : List.Forall₂ (fun a b => f a = .ok b) l m') :
    m = m' := by
  induction h generalizing m' with
  | nil => cases h'; rfl
  | cons h _ ih =>
    cases h' with
    | cons h1 h2 => rw [ih h2, Except.ok.inj (h.symm.trans h1)]

theorem forall₂_append_left {α β : Type} {R : α → β → Prop} {l l' : List α} {m : List β}
    (h : List.Forall₂ R (l ++ l') m) :
    ∃ m1 m2, List.Forall₂ R l m1 ∧ List.Forall₂ R l' m2 ∧ m = m1 ++ m2 := by
  induction l generalizing m with
  | nil => exact ⟨[], m, .nil, h, rfl⟩
  | cons a l ih =>
    cases h with
    | cons h1 h2 =>
      obtain ⟨m1, m2, h3, h4, rfl⟩ := ih h2
      exact ⟨_ :: m1, m2, .cons h1 h3, h4, rfl⟩

/-- Its lines are the rows. -/
theorem tableText_lines (s : Stage) (h33 : s.numBells ≤ 33) (rows : List Row) (h : RowsOf s rows)
    (eol : List Char) (he : eol = ['\n'] ∨ eol = ['\r', '\n']) (final : Bool) :
    LinesOf (tableText eol final rows) (rows.map Row.display) := by
  have hline : ∀ r ∈ rows, ∀ t ls, LinesOf t ls → LinesOf (r.display ++ eol ++ t) (r.display :: ls) := by
    intro r hr t ls ht
    obtain ⟨hv, hlen⟩ := h.2 r hr
    have hc := display_chars r hv (by omega)
    have hn : '\n' ∉ r.display := fun hm => (hc _ hm).1 rfl
    rcases he with rfl | rfl
    · rw [List.append_assoc]
      exact .lf _ _ _ hn (fun hl => (hc _ (List.mem_of_getLast? hl)).2 rfl) ht
    · rw [List.append_assoc]
      exact .crlf _ _ _ hn ht
  induction rows with
  | nil => exact .nil
  | cons r rows ih =>
    have h' : RowsOf s rows := ⟨h.1, fun r' hr' => h.2 r' (List.mem_cons_of_mem _ hr')⟩
    have ih' := ih h' (fun r' hr' => hline r' (List.mem_cons_of_mem _ hr'))
    cases rows with
    | nil =>
      obtain ⟨hv, hlen⟩ := h.2 r List.mem_cons_self
      cases final with
      | true =>
        have := hline r List.mem_cons_self [] [] .nil
        simpa [tableText] using this
      | false =>
        have hc := display_chars r hv (by omega)
        simp only [tableText, Bool.false_eq_true, if_false, List.append_nil, List.map_cons, List.map_nil]
        exact .last _ (display_ne_nil r (by have := h.1; rw [hlen]; exact this)) fun hm => (hc _ hm).1 rfl
    | cons r' rows => exact hline r List.mem_cons_self _ _ ih'

/-- If the lines of a text show the rows of a list, apart from characters that are not names of bells, then
`parse` gives that list. -/
theorem C78_table (s : Stage) (h33 : s.numBells ≤ 33) (rows : List Row) (h : RowsOf s rows) (hne : rows ≠ [])
    (text : List Char) (ls : List (List Char)) (hls : LinesOf text ls)
    (hrows : List.Forall₂ (fun l r => l.filter (fun c => decide (c ∈ validBellNames)) = r.display) ls rows) :
    SameStageVec.parse text = .ok (.ok (.ofRows s rows)) := by
  have hparse : List.Forall₂ (fun l r => Row.parse l = .ok r) ls rows := by
    have hgood : ∀ r ∈ rows, r.Valid ∧ r.bells.length ≤ 33 :=
      fun r hr => ⟨(h.2 r hr).1, by rw [(h.2 r hr).2]; exact h33⟩
    clear hls h hne
    induction hrows with
    | nil => exact .nil
    | @cons l r ls rows hl _ ih =>
      refine .cons ?_ (ih fun r' hr' => hgood r' (List.mem_cons_of_mem _ hr'))
      rw [(C08_parse_ignores_other_chars l s).1, hl]
      exact C08_display_parse r (hgood r List.mem_cons_self).1 (hgood r List.mem_cons_self).2
  have htext : text ≠ [] := by
    rintro rfl
    obtain ⟨_, _, huniq⟩ := C25_lines_unique []
    rw [(huniq _ hls).trans (huniq _ .nil).symm] at hparse
    cases hparse
    exact hne rfl
  rcases C25_parse_partial text ls hls htext with ⟨st, rows', -, h', hp', hres⟩ |
    ⟨good, l, rest, rows', e, rfl, hp', -, -, hres⟩
  · have heq : rows' = rows := forall₂_fun_unique hp' hparse
    subst heq
    obtain ⟨r, hr⟩ := List.exists_mem_of_ne_nil _ hne
    have : st = s := by
      have h1 := (h'.2 r hr).2
      have h2 := (h.2 r hr).2
      cases st; cases s
      simp_all
    rw [hres, this]
  · exfalso
    obtain ⟨good', rest', hg, hr, rfl⟩ := forall₂_append_left hparse
    obtain ⟨r, rest'', hl, hrest, rfl⟩ := List.forall₂_cons_left_iff.1 hr
    rcases hres with ⟨err, he, -⟩ | ⟨r', first, h1, h2, h3, -⟩
    · rw [he] at hl
      cases hl
    · rw [forall₂_fun_unique hp' hg] at h2
      rw [hl] at h1
      obtain rfl := Except.ok.inj h1
      refine h3 ?_
      rw [(h.2 r (by simp)).2, (h.2 first (List.mem_append_left _ (List.mem_of_head? h2))).2]

example := C78_table ⟨3⟩ (by decide) [⟨[⟨0⟩, ⟨1⟩, ⟨2⟩]⟩, ⟨[⟨1⟩, ⟨0⟩, ⟨2⟩]⟩] (by decide) (by decide)
  " 1-2 3\n(213)".toList _
  (.lf " 1-2 3".toList _ _ (by decide) (by decide) (.last "(213)".toList (by decide) (by decide)))
  (.cons (by decide) (.cons (by decide) .nil))

/-- Rows written one per line are read back, whatever the line ends. -/
theorem C78_round_trip (s : Stage) (h33 : s.numBells ≤ 33) (rows : List Row) (h : RowsOf s rows)
    (hne : rows ≠ []) (eol : List Char) (he : eol = ['\n'] ∨ eol = ['\r', '\n']) (final : Bool) :
    SameStageVec.parse (tableText eol final rows) = .ok (.ok (.ofRows s rows)) := by
  refine C78_table s h33 rows h hne _ _ (tableText_lines s h33 rows h eol he final) ?_
  rw [List.forall₂_map_left_iff, List.forall₂_same]
  intro r hr
  refine List.filter_eq_self.2 fun c hc => ?_
  obtain ⟨b, hb, hc⟩ := List.mem_flatMap.1 hc
  have hlt : b.index < 33 := by
    have := ((h.2 r hr).1.mem_iff b).1 hb
    have := (h.2 r hr).2
    omega
  obtain ⟨i⟩ := b
  have key : ∀ i < 33, ∀ c ∈ (⟨i⟩ : Bell).name, decide (c ∈ validBellNames) = true := by decide +kernel
  exact key i hlt c hc

example := C78_round_trip ⟨3⟩ (by decide) [⟨[⟨0⟩, ⟨1⟩, ⟨2⟩]⟩, ⟨[⟨1⟩, ⟨0⟩, ⟨2⟩]⟩] (by decide) (by decide)
  ['\r', '\n'] (.inr rfl) true

/-- A text is read as a block in the same way: all rows but the last one get default annotations. There is
never a `ZeroLengthBlock` error. -/
theorem C78_blocks (dflt : A) (text : List Char) (hne : text ≠ []) :
    (∃ st rows, rows ≠ [] ∧ RowsOf st rows ∧ SameStageVec.parse text = .ok (.ok (.ofRows st rows)) ∧
      AnnotBlock.parse dflt text = .ok (.ok ⟨.ofRows st rows, List.replicate (rows.length - 1) dflt⟩)) ∨
    (∃ e, SameStageVec.parse text = .ok (.error e) ∧
      AnnotBlock.parse dflt text = .ok (.error (.other e))) := by
  obtain ⟨ls, hls, -⟩ := C25_lines_unique text
  rcases C25_parse_partial text ls hls hne with ⟨st, rows, hrows, h, -, hres⟩ |
    ⟨good, l, rest, rows, e, -, -, -, hres, -⟩
  · refine .inl ⟨st, rows, hrows, h, hres, ?_⟩
    have hl : 1 ≤ rows.length := List.length_pos_iff.2 hrows
    have hemp : rows.isEmpty = false := by cases rows <;> simp_all
    simp [AnnotBlock.parse, hres, AnnotBlock.withDefaultAnnots, SameStageVec.ofRows_isEmpty h, hemp,
      assertThat, SameStageVec.ofRows_len h, checkedSub, hl]
  · refine .inr ⟨e, hres, ?_⟩
    rw [AnnotBlock.parse, hres]
    rfl

example := C78_blocks (A := Nat) 0 "123\n213".toList (by decide)

/-- The law fails from 34 bells on: even one row alone is not read back. -/
theorem C78_false_at_34 : SameStageVec.parse (tableText ['\n'] false [Row.rounds ⟨34⟩]) ≠
    .ok (.ok (.ofRows ⟨34⟩ [Row.rounds ⟨34⟩])) := by
  decide +kernel

example : let rows : List Row := [⟨[⟨0⟩, ⟨1⟩, ⟨2⟩]⟩, ⟨[⟨1⟩, ⟨0⟩, ⟨2⟩]⟩]
    RowsOf ⟨3⟩ rows ∧ tableText ['\r', '\n'] true rows = "123\r\n213\r\n".toList ∧
    tableText ['\n'] false rows = "123\n213".toList := by decide

example : LinesOf " 1-2 3\n(213)".toList [" 1-2 3".toList, "(213)".toList] ∧
    List.Forall₂ (fun l r => l.filter (fun c => decide (c ∈ validBellNames)) = Row.display r)
      [" 1-2 3".toList, "(213)".toList] [⟨[⟨0⟩, ⟨1⟩, ⟨2⟩]⟩, ⟨[⟨1⟩, ⟨0⟩, ⟨2⟩]⟩] :=
  ⟨.lf " 1-2 3".toList _ _ (by decide) (by decide) (.last _ (by decide) (by decide)),
    .cons (by decide) (.cons (by decide) .nil)⟩

end Bellframe.Props
