import Verif.Spec.Suggestions
import Verif.Spec.MethodLib
import Mathlib.Order.Bounds.Basic
import Mathlib.Data.List.Basic

/-! # Edit distance and shortlists -/

namespace Bellframe

namespace EditDistance

/-- The distance by recursion on the first characters. -/
def lev : List Char → List Char → Nat
  | [], b => b.length
  | a, [] => a.length
  | x :: a, y :: b => min (lev a (y :: b) + 1) (min (lev (x :: a) b + 1) (lev a b + if x = y then 0 else 1))
termination_by a b => a.length + b.length

theorem lev_nil_left (b : List Char) : lev [] b = b.length := by rw [lev]

theorem lev_nil_right (a : List Char) : lev a [] = a.length := by
  cases a with
  | nil => rw [lev]
  | cons x a => rw [lev]; simp

theorem lev_cons (x y : Char) (a b : List Char) : lev (x :: a) (y :: b) =
    min (lev a (y :: b) + 1) (min (lev (x :: a) b + 1) (lev a b + if x = y then 0 else 1)) := by
  rw [lev]

theorem lev_comm : ∀ a b : List Char, lev a b = lev b a
  | [], b => by rw [lev_nil_left, lev_nil_right]
  | x :: a, [] => by rw [lev_nil_left, lev_nil_right]
  | x :: a, y :: b => by
    rw [lev_cons, lev_cons, lev_comm a (y :: b), lev_comm (x :: a) b, lev_comm a b]
    by_cases h : x = y
    · subst h; simp only [if_true]; omega
    · rw [if_neg h, if_neg (fun h' => h h'.symm)]; omega
termination_by a b => a.length + b.length

theorem lev_cons_le (c : Char) (s t : List Char) : lev (c :: s) t ≤ lev s t + 1 := by
  cases t with
  | nil => simp [lev_nil_right]
  | cons y t => rw [lev_cons]; omega

theorem lev_le_cons (c : Char) (s t : List Char) : lev s (c :: t) ≤ lev s t + 1 := by
  rw [lev_comm s, lev_comm s]
  exact lev_cons_le c t s

theorem le_lev_cons (c : Char) (s : List Char) : ∀ t, lev s t ≤ lev (c :: s) t + 1
  | [] => by simp [lev_nil_right]; omega
  | y :: t => by
    have h1 := le_lev_cons c s t
    have h2 := lev_le_cons y s t
    rw [lev_cons]
    split <;> omega

theorem lev_replace (c d : Char) (s : List Char) : ∀ t, lev (c :: s) t ≤ lev (d :: s) t + 1
  | [] => by simp [lev_nil_right]
  | y :: t => by
    have h1 := lev_replace c d s t
    rw [lev_cons, lev_cons]
    split <;> split <;> omega

theorem lev_congr {s s' : List Char} (c : Char) (h : ∀ t, lev s t ≤ lev s' t + 1) :
    ∀ t, lev (c :: s) t ≤ lev (c :: s') t + 1
  | [] => by
    have := h []
    simp [lev_nil_right] at this ⊢
    omega
  | y :: t => by
    have h1 := lev_congr c h t
    have h2 := h t
    have h3 := h (y :: t)
    rw [lev_cons, lev_cons]
    omega

theorem lev_edit {s s' : List Char} (h : Edit s s') (t : List Char) : lev s t ≤ lev s' t + 1 := by
  have key : ∀ (p a b : List Char), (∀ t, lev a t ≤ lev b t + 1) → ∀ t, lev (p ++ a) t ≤ lev (p ++ b) t + 1 := by
    intro p
    induction p with
    | nil => intro a b h; exact h
    | cons c p ih => intro a b h; exact lev_congr c (ih a b h)
  cases h with
  | insert p s c => exact key _ _ _ (le_lev_cons c s) t
  | remove p s c => exact key _ _ _ (lev_cons_le c s) t
  | replace p s c d => exact key _ _ _ (lev_replace c d s) t

theorem lev_self : ∀ s, lev s s = 0
  | [] => by simp [lev_nil_left]
  | c :: s => by
    rw [lev_cons, lev_self s]
    simp

theorem lev_le_edits {k : Nat} {s t : List Char} (h : Edits k s t) : lev s t ≤ k := by
  induction h with
  | none s => rw [lev_self]
  | step he _ ih =>
    have := lev_edit he ‹_›
    omega

theorem edits_cons {k : Nat} {s t : List Char} (c : Char) (h : Edits k s t) : Edits k (c :: s) (c :: t) := by
  induction h with
  | none s => exact .none _
  | step he _ ih =>
    refine .step ?_ ih
    cases he with
    | insert p s d => exact .insert (c :: p) s d
    | remove p s d => exact .remove (c :: p) s d
    | replace p s d e => exact .replace (c :: p) s d e

theorem edits_lev : ∀ s t : List Char, Edits (lev s t) s t
  | [], [] => by rw [lev_nil_left]; exact .none _
  | [], y :: t => by
    have := edits_lev [] t
    rw [lev_nil_left] at this ⊢
    exact .step (.insert [] [] y) (edits_cons y this)
  | x :: s, [] => by
    have := edits_lev s []
    rw [lev_nil_right] at this ⊢
    exact .step (.remove [] s x) this
  | x :: s, y :: t => by
    rw [lev_cons]
    have h1 := Edits.step (.remove [] s x) (edits_lev s (y :: t))
    have h2 := Edits.step (.insert [] (x :: s) y) (edits_cons y (edits_lev (x :: s) t))
    have h3 : Edits (lev s t + if x = y then 0 else 1) (x :: s) (y :: t) := by
      split
      · rename_i h
        subst h
        exact edits_cons x (edits_lev s t)
      · exact .step (.replace [] s x y) (edits_cons y (edits_lev s t))
    rcases Nat.le_total (lev s (y :: t) + 1)
      (min (lev (x :: s) t + 1) (lev s t + if x = y then 0 else 1)) with h | h
    · rw [Nat.min_eq_left h]; exact h1
    · rw [Nat.min_eq_right h]
      rcases Nat.le_total (lev (x :: s) t + 1) (lev s t + if x = y then 0 else 1) with h | h
      · rw [Nat.min_eq_left h]; exact h2
      · rw [Nat.min_eq_right h]; exact h3
termination_by s t => s.length + t.length

/-- Edits of the texts read backwards. -/
theorem edits_reverse {k : Nat} {s t : List Char} (h : Edits k s t) : Edits k s.reverse t.reverse := by
  induction h with
  | none s => exact .none _
  | step he _ ih =>
    refine .step ?_ ih
    cases he with
    | insert p s d => simpa using Edit.insert s.reverse p.reverse d
    | remove p s d => simpa using Edit.remove s.reverse p.reverse d
    | replace p s d e => simpa using Edit.replace s.reverse p.reverse d e

theorem lev_reverse (s t : List Char) : lev s.reverse t.reverse = lev s t := by
  have h1 := lev_le_edits (edits_reverse (edits_lev s t))
  have h2 := lev_le_edits (edits_reverse (edits_lev s.reverse t.reverse))
  simp only [List.reverse_reverse] at h2
  omega

/-! ## The loops -/

/-- The inner loop: `p` has been read of `b`; both texts are kept backwards. -/
theorem innerLoop_eq (ca : Char) (a : List Char) : ∀ (b p : List Char),
    innerLoop ca (lev a p) (lev (ca :: a) p)
      ((List.range b.length).map fun j => lev a ((b.take (j + 1)).reverse ++ p)) b =
    (List.range b.length).map fun j => lev (ca :: a) ((b.take (j + 1)).reverse ++ p)
  | [], p => by simp [innerLoop]
  | cb :: b, p => by
    have ih := innerLoop_eq ca a b (cb :: p)
    have hm : ∀ (x : List Char), (List.range (cb :: b).length).map
        (fun j => lev x (((cb :: b).take (j + 1)).reverse ++ p)) =
        lev x (cb :: p) :: (List.range b.length).map fun j => lev x ((b.take (j + 1)).reverse ++ cb :: p) := by
      intro x
      rw [List.length_cons, List.range_succ_eq_map, List.map_cons, List.map_map]
      congr 1
      apply List.map_congr_left
      intro j _
      simp
    rw [hm, hm, innerLoop]
    have hnew : min (lev a (cb :: p) + 1) (min (lev (ca :: a) p + 1) (lev a p + if ca = cb then 0 else 1)) =
        lev (ca :: a) (cb :: p) := (lev_cons ..).symm
    simp only [hnew]
    rw [ih]

/-- The row of distances between a text (kept backwards) and the starts of another. -/
def row (a b : List Char) : List Nat := (List.range (b.length + 1)).map fun j => lev a (b.take j).reverse

theorem row_eq (a b : List Char) :
    row a b = a.length :: (List.range b.length).map fun j => lev a ((b.take (j + 1)).reverse ++ []) := by
  rw [row, List.range_succ_eq_map, List.map_cons, List.map_map]
  simp [lev_nil_right, Function.comp_def]

theorem outerStep_eq (a b : List Char) (ca : Char) : outerStep b (row a b) a.length ca = row (ca :: a) b := by
  rw [row_eq, row_eq, outerStep]
  have h := innerLoop_eq ca a b []
  rw [lev_nil_right, lev_nil_right] at h
  simp only [List.headD_cons, List.tail_cons, List.length_cons] at h ⊢
  rw [h]

theorem outerLoop_eq (b : List Char) : ∀ (a p : List Char),
    outerLoop b (row p b) p.length a = row (a.reverse ++ p) b
  | [], p => by simp [outerLoop]
  | c :: a, p => by
    have ih := outerLoop_eq b a (c :: p)
    rw [outerLoop, outerStep_eq]
    simpa using ih

theorem ordered_eq (a b : List Char) : ordered a b = lev a b := by
  rw [ordered]
  split
  · rename_i h
    rw [List.length_eq_zero_iff.1 h, lev_nil_left]
  split
  · rename_i h
    rw [List.length_eq_zero_iff.1 h, lev_nil_right]
  · have h0 : row [] b = List.range (b.length + 1) := by
      rw [row]
      conv_rhs => rw [← List.map_id (List.range (b.length + 1))]
      apply List.map_congr_left
      intro j hj
      have := List.mem_range.1 hj
      simp [lev_nil_left]
      omega
    have h1 := outerLoop_eq b a []
    rw [h0] at h1
    simp only [List.length_nil, List.append_nil] at h1
    rw [h1, row, List.range_succ, List.map_append, List.map_singleton, List.getLastD_concat, List.take_length,
      lev_reverse]

end EditDistance

open EditDistance in
theorem editDistance_eq (a b : String) : editDistance a b = lev a.toList b.toList := by
  rw [editDistance]
  split
  · rw [ordered_eq, lev_comm]
  · rw [ordered_eq]

theorem editDistance_isLevenshtein (a b : String) : IsLevenshtein a b (editDistance a b) := by
  rw [editDistance_eq]
  exact ⟨EditDistance.edits_lev _ _, fun k hk => EditDistance.lev_le_edits hk⟩

/-! ## Shortlists -/

namespace Heap

variable {heap : Heap} {cmp : String × Nat → String × Nat → Ordering} {f : String × Nat → Int} {cap : Nat}

/-- What a shortlist keeps of the items pushed so far. -/
structure Keeps (f : String × Nat → Int) (cap : Nat) (pushed kept : List (String × Nat)) : Prop where
  length : kept.length = min cap pushed.length
  rest : ∃ dropped, (kept ++ dropped).Perm pushed ∧ ∀ x ∈ dropped, ∀ y ∈ kept, f x ≤ f y

theorem perm_set {α : Type} [DecidableEq α] {l : List α} {i : Nat} {m : α} (h : l[i]? = some m) (x : α) :
    (m :: l.set i x).Perm (x :: l) := by
  obtain ⟨hi, rfl⟩ := List.getElem?_eq_some_iff.1 h
  have h1 : l.set i x = l.take i ++ x :: l.drop (i + 1) := List.set_eq_take_append_cons_drop .. |>.trans (by rw [if_pos hi])
  have h2 : l = l.take i ++ l[i] :: l.drop (i + 1) := by
    rw [List.getElem_cons_drop, List.take_append_drop]
  rw [h1]
  conv_rhs => rw [h2]
  have h3 : (l.take i ++ x :: l.drop (i + 1)).Perm (x :: (l.take i ++ l.drop (i + 1))) := List.perm_middle
  have h4 : (l.take i ++ l[i] :: l.drop (i + 1)).Perm (l[i] :: (l.take i ++ l.drop (i + 1))) := List.perm_middle
  exact ((h3.cons _).trans (List.Perm.swap ..)).trans ((h4.cons _).symm)

theorem keeps_push (hh : heap.Lawful) (hf : ∀ a b, cmp a b = compare (f a) (f b)) (hc : 0 < cap)
    {pushed kept : List (String × Nat)} (h : Keeps f cap pushed kept) (x : String × Nat) :
    Keeps f cap (pushed ++ [x]) (heap.push cmp cap kept x) := by
  obtain ⟨hl, dropped, hp, hd⟩ := h
  rw [push]
  split
  · rename_i hlt
    have hlen := hp.length_eq
    have hpl : pushed.length = kept.length := by omega
    have hd0 : dropped = [] := by
      rw [List.length_append] at hlen
      exact List.length_eq_zero_iff.1 (by omega)
    subst hd0
    refine ⟨by simp; omega, [], ?_, by simp⟩
    rw [List.append_nil] at hp ⊢
    exact hp.append_right [x]
  · rename_i hlt
    have hne : kept ≠ [] := by
      rintro rfl
      simp at hlt
      omega
    obtain ⟨m, hm, hmin⟩ := hh.peek cmp f hf kept hne
    have hmem : m ∈ kept := List.mem_of_getElem? hm
    rw [hm]
    dsimp only
    split
    · rename_i hgt
      rw [hf, compare_gt_iff_gt] at hgt
      refine ⟨by simp; omega, m :: dropped, ?_, ?_⟩
      · have h1 := perm_set hm x
        have h2 : (kept.set (heap.peek cmp kept) x ++ m :: dropped).Perm
            (m :: kept.set (heap.peek cmp kept) x ++ dropped) := by
          rw [List.cons_append]
          exact List.perm_middle
        refine h2.trans ((h1.append_right dropped).trans ?_)
        rw [List.cons_append]
        exact (hp.cons x).trans (List.perm_append_singleton ..).symm
      · intro y hy z hz
        have hz' : z = x ∨ z ∈ kept := (List.mem_or_eq_of_mem_set hz).symm
        rcases List.mem_cons.1 hy with rfl | hy
        · rcases hz' with rfl | hz'
          · omega
          · exact hmin z hz'
        · rcases hz' with rfl | hz'
          · have := hd y hy m hmem
            omega
          · exact hd y hy z hz'
    · rename_i hgt
      rw [hf, compare_gt_iff_gt] at hgt
      refine ⟨by simp; omega, dropped ++ [x], ?_, ?_⟩
      · rw [← List.append_assoc]
        exact hp.append_right [x]
      · intro y hy z hz
        rcases List.mem_append.1 hy with hy | hy
        · exact hd y hy z hz
        · rw [List.mem_singleton.1 hy]
          have := hmin z hz
          omega

theorem keeps_foldl (hh : heap.Lawful) (hf : ∀ a b, cmp a b = compare (f a) (f b)) (hc : 0 < cap) :
    ∀ (items pushed kept : List (String × Nat)), Keeps f cap pushed kept →
      Keeps f cap (pushed ++ items) (items.foldl (heap.push cmp cap) kept)
  | [], pushed, kept, h => by simpa using h
  | x :: items, pushed, kept, h => by
    have := keeps_foldl hh hf hc items _ _ (keeps_push hh hf hc h x)
    simpa using this

theorem shortlist_isShortlist (hh : heap.Lawful) (hc : 0 < cap) : IsShortlist cap heap.shortlist := by
  intro cmp f hf items
  obtain ⟨hl, dropped, hp, hd⟩ := keeps_foldl (cap := cap) hh hf hc items [] [] ⟨by simp, [], by simp, by simp⟩
  obtain ⟨h1, h2⟩ := hh.intoSorted cmp f hf (items.foldl (heap.push cmp cap) [])
  refine ⟨?_, h2, dropped, ?_, ?_⟩
  · rw [shortlist, h1.length_eq, hl]; simp
  · exact (h1.append_right dropped).trans (by simpa using hp)
  · intro x hx y hy
    exact hd x hx y (h1.mem_iff.1 hy)

end Heap

end Bellframe
