import Verif.Proofs.Suggestions
import Verif.Props.MethodLib

/-! # Suggestions by edit distance (C91) -/

namespace Bellframe.Props

variable {lower : String → String}

/-! ## C91: suggestions are the titles that are fewest edits away -/

/-- The distance is the least number of characters inserted, removed and replaced. -/
theorem C91_distance (a b : String) (k : Nat) : editDistance a b = k ↔ IsLevenshtein a b k := by
  constructor
  · rintro rfl
    exact editDistance_isLevenshtein a b
  · intro h
    exact (editDistance_isLevenshtein a b).unique h

/-- It is a metric: zero exactly for equal texts, the same both ways, and no way round is shorter. It is at least the
difference of the lengths and at most the greater length. -/
theorem C91_metric (a b c : String) :
    (editDistance a b = 0 ↔ a = b) ∧ editDistance a b = editDistance b a ∧
    editDistance a c ≤ editDistance a b + editDistance b c ∧
    a.toList.length ≤ b.toList.length + editDistance a b ∧
    editDistance a b ≤ max a.toList.length b.toList.length := by
  have hch : ∀ {k : Nat} {s t : List Char}, Edits k s t → ∀ {l : Nat} {u : List Char}, Edits l t u →
      Edits (k + l) s u := by
    intro k s t h
    induction h with
    | none s => intro l u h; simpa using h
    | step he _ ih =>
      intro l u h'
      rw [Nat.add_right_comm]
      exact .step he (ih h')
  have hlen : ∀ {k : Nat} {s t : List Char}, Edits k s t → s.length ≤ t.length + k := by
    intro k s t h
    induction h with
    | none s => simp
    | step he _ ih =>
      cases he <;> simp only [List.length_append, List.length_cons] at ih ⊢ <;> omega
  have hmax : ∀ s t : List Char, EditDistance.lev s t ≤ max s.length t.length := by
    intro s
    induction s with
    | nil => intro t; rw [EditDistance.lev_nil_left]; omega
    | cons x s ih =>
      intro t
      cases t with
      | nil => rw [EditDistance.lev_nil_right]; omega
      | cons y t =>
        have := ih t
        rw [EditDistance.lev_cons]
        simp only [List.length_cons]
        split <;> omega
  have hab := (editDistance_isLevenshtein a b).1
  have hbc := (editDistance_isLevenshtein b c).1
  refine ⟨⟨?_, ?_⟩, ?_, ?_, hlen hab, ?_⟩
  · intro h
    rw [h] at hab
    have key : ∀ {k : Nat} {s t : List Char}, Edits k s t → k = 0 → s = t := by
      intro k s t h h0
      cases h with
      | none => rfl
      | step => omega
    exact String.toList_inj.1 (key hab rfl)
  · rintro rfl
    rw [editDistance_eq, EditDistance.lev_self]
  · rw [editDistance_eq, editDistance_eq, EditDistance.lev_comm]
  · exact (editDistance_isLevenshtein a c).2 (hch hab hbc)
  · rw [editDistance_eq]
    exact hmax _ _

/-- A shortlist on top of any heap keeps the greatest items, as many as asked for, whichever of several least items
the heap finds. -/
theorem C91_shortlist (heap : Heap) (hh : heap.Lawful) (cap : Nat) (hc : 0 < cap) : IsShortlist cap heap.shortlist :=
  Heap.shortlist_isShortlist hh hc

/-- So the suggestions for a title that is not found are, the closest first, titles of the library with the least
number of edits between the two titles in lower case; as many as asked for, or all there are; and no title left
out is fewer edits away than one of them. -/
theorem C91_suggestions (hl : LowerCase lower) (heap : Heap) (hh : heap.Lawful) (lib : MethodLib)
    (hk : lib.Keyed lower) (title : String) (num : Nat) (hn : 0 < num)
    (h : lib.getByTitle lower title = .ok (.error (.notFound ()))) :
    ∃ out left, lib.getByTitleWithSuggestions lower editDistance heap.shortlist title num =
        .ok (.error (.notFound out)) ∧
      out.length = min num lib.all.length ∧ out.Pairwise (fun a b => a.2 ≤ b.2) ∧
      (out.map Prod.fst ++ left).Perm (lib.all.map fun e => e.2.2.title) ∧
      (∀ x ∈ out, IsLevenshtein (lower title) (lower x.1) x.2) ∧
      ∀ t ∈ left, ∀ k, IsLevenshtein (lower title) (lower t) k → ∀ x ∈ out, x.2 ≤ k := by
  obtain ⟨out, left, h1, h2, h3, h4, h5⟩ :=
    (C54_suggestions hl editDistance heap.shortlist num (C91_shortlist heap hh num hn) lib hk title).2.2 h
  have hmem : ∀ x ∈ out ++ left, x.2 = editDistance (lower title) (lower x.1) := by
    intro x hx
    obtain ⟨e, -, rfl⟩ := List.mem_map.1 (h4.mem_iff.1 hx)
    rfl
  refine ⟨out, left.map Prod.fst, h1, h2, h3, ?_, ?_, ?_⟩
  · rw [← List.map_append]
    have := h4.map Prod.fst
    rwa [List.map_map] at this
  · intro x hx
    exact (C91_distance _ _ _).1 (hmem x (by simp [hx])).symm
  · intro t ht k hk' x hx
    obtain ⟨y, hy, rfl⟩ := List.mem_map.1 ht
    have := h5 y hy x hx
    rw [hmem y (by simp [hy]), (C91_distance _ _ _).2 hk'] at this
    exact this

/-! ## Examples -/

example : editDistance "kitten" "sitting" = 3 ∧ editDistance "" "bob" = 3 ∧
    editDistance "bristol surprise major" "bristol surprise maximus" = 5 := by decide +kernel

/-- Finding the least item by looking at all of them, sorting by merging. -/
def listHeap : Heap where
  peek cmp items := items.findIdx fun x => items.all fun y => cmp x y != .gt
  intoSorted cmp items := items.mergeSort fun a b => cmp a b != .gt

/-- There is a lawful heap. -/
theorem listHeap_lawful : listHeap.Lawful where
  peek := by
    intro cmp f hf items hne
    have hle : ∀ a b, (cmp a b != .gt) = true ↔ f a ≤ f b := by
      intro a b
      rw [hf, bne_iff_ne, ne_eq, compare_gt_iff_gt, not_lt]
    obtain ⟨m, hm, hmin⟩ : ∃ m ∈ items, ∀ x ∈ items, f m ≤ f x := by
      clear hf hle
      induction items with
      | nil => exact absurd rfl hne
      | cons a items ih =>
        by_cases h0 : items = []
        · subst h0
          exact ⟨a, by simp, by simp⟩
        · obtain ⟨m, hm, hmin⟩ := ih h0
          by_cases hlt : f a ≤ f m
          · refine ⟨a, by simp, fun x hx => ?_⟩
            rcases List.mem_cons.1 hx with rfl | hx
            · exact le_refl _
            · exact hlt.trans (hmin x hx)
          · refine ⟨m, by simp [hm], fun x hx => ?_⟩
            rcases List.mem_cons.1 hx with rfl | hx
            · omega
            · exact hmin x hx
    have hex : ∃ x ∈ items, (items.all fun y => cmp x y != .gt) = true :=
      ⟨m, hm, List.all_eq_true.2 fun y hy => (hle m y).2 (hmin y hy)⟩
    have hlt := List.findIdx_lt_length_of_exists hex
    refine ⟨items[items.findIdx fun x => items.all fun y => cmp x y != .gt], ?_, ?_⟩
    · exact List.getElem?_eq_getElem hlt
    · intro x hx
      have := List.findIdx_getElem (w := hlt)
      exact (hle _ _).1 (List.all_eq_true.1 this x hx)
  intoSorted := by
    intro cmp f hf items
    have hle : ∀ a b, (cmp a b != .gt) = true ↔ f a ≤ f b := by
      intro a b
      rw [hf, bne_iff_ne, ne_eq, compare_gt_iff_gt, not_lt]
    refine ⟨List.mergeSort_perm .., (List.pairwise_mergeSort ?_ ?_ items).imp fun h => (hle _ _).1 h⟩
    · intro a b c h1 h2
      rw [hle] at *
      omega
    · intro a b
      rw [Bool.or_eq_true, hle, hle]
      omega

/-- A library in which a title is not found. -/
example : LowerCase asciiLower ∧ ∃ lib : MethodLib, lib.Keyed asciiLower ∧ lib.all.length = 1 ∧
    lib.getByTitle asciiLower "Fo Bob Minimus" = .ok (.error (.notFound ())) := by
  obtain ⟨lib, h1, h2⟩ := fromJson_jsonWithTitle asciiLower "Foo Bob Minimus"
  obtain ⟨hk, -⟩ := C53_from_json asciiLower_lowerCase _ lib h1
  refine ⟨asciiLower_lowerCase, lib, hk, ?_⟩
  have h3 : MethodLib.fromJson asciiLower (jsonWithTitle "Foo Bob Minimus") = .ok (some ⟨⟨[(⟨4⟩,
      ⟨[(asciiLower "Foo Bob Minimus", ⟨"Foo", "Foo Bob Minimus", ⟨false, false, false, .bob⟩, "x14"⟩)],
        by simp⟩)], by simp⟩⟩) := rfl
  rw [h3] at h1
  obtain rfl := Option.some.inj (Except.ok.inj h1)
  exact ⟨rfl, by decide +kernel⟩

end Bellframe.Props
