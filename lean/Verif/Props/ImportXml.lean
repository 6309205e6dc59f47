import Verif.Proofs.ImportXml
import Verif.Props.MethodLib

/-! # C87: importing the Central Council's XML file -/

namespace Bellframe.Props

open ImportXml

/-- Importing a file of the documented form gives the library of exactly the methods of the file, with
their titles, names, classes and place notation, each stored under its title. Of methods with the same
stage and title the last one counts. -/
theorem C87_import (bits : Nat) (sets : List CcSet) (root : Element) (h : FileXml bits sets root) :
    ∃ lib, parseCcLib bits (some root) = .ok lib ∧
      ∀ stage key c, lib.Holds stage key c ↔ key = c.title ∧ LastOfTitle sets stage c :=
  ⟨_, (parseCcLib_eq_ok bits root _).2 ⟨sets, h, rfl⟩, holds_import sets⟩

/-- Importing panics if the text is not XML or not of the documented form, and only then. -/
theorem C87_panics (bits : Nat) :
    (∃ p, parseCcLib bits none = .error p) ∧
    ∀ root, (∃ p, parseCcLib bits (some root) = .error p) ↔ ∀ sets, ¬ FileXml bits sets root := by
  refine ⟨⟨_, rfl⟩, fun root => ⟨?_, ?_⟩⟩
  · rintro ⟨p, hp⟩ sets h
    rw [(parseCcLib_eq_ok bits root _).2 ⟨sets, h, rfl⟩] at hp
    cases hp
  · intro h
    cases hr : parseCcLib bits (some root) with
    | error p => exact ⟨p, rfl⟩
    | ok lib =>
      obtain ⟨sets, hs, -⟩ := (parseCcLib_eq_ok bits root lib).1 hr
      exact absurd hs (h sets)

/-- Every method of the file is in the library, or replaced by a later one of the same stage and title. -/
theorem C87_nothing_lost (sets : List CcSet) (stage : Stage) (c : CompactMethod)
    (h : (stage, c) ∈ fileEntries sets) : ∃ c', c'.title = c.title ∧ LastOfTitle sets stage c' := by
  unfold LastOfTitle
  generalize fileEntries sets = es at h
  induction es using List.reverseRecOn with
  | nil => cases h
  | append_singleton es x ih =>
    by_cases hx : x.1 = stage ∧ x.2.title = c.title
    · refine ⟨x.2, hx.2, es, [], ?_, by simp⟩
      rw [← hx.1]
    · have hes : (stage, c) ∈ es := by
        rcases List.mem_append.1 h with h | h
        · exact h
        · exact absurd (by rw [← List.mem_singleton.1 h]; exact ⟨rfl, rfl⟩) hx
      obtain ⟨c', ht, before, after, h1, h2⟩ := ih hes
      refine ⟨c', ht, before, after ++ [x], by rw [h1]; simp, ?_⟩
      intro y hy
      rcases List.mem_append.1 hy with hy | hy
      · exact h2 y hy
      · rw [List.mem_singleton.1 hy, ht]
        exact hx

/-- The workflow for which the importer is made: import the file, write the library as JSON, read that. If
no two titles of a stage are the same up to case, every method of the file whose title ends in the name of
its stage is found by its title, in any case. -/
theorem C87_workflow {lower : String → String} (hl : LowerCase lower)
    (order : List ((Stage × FullClass) × List CompactMethod) → List ((Stage × FullClass) × List CompactMethod))
    (ho : ∀ l, (order l).Perm l) (bits : Nat) (sets : List CcSet) (root : Element)
    (h : FileXml bits sets root) (hstage : ∀ x ∈ fileEntries sets, x.1.numBells ≤ 22)
    (hdistinct : ∀ x ∈ fileEntries sets, ∀ y ∈ fileEntries sets, x.1 = y.1 →
      lower x.2.title = lower y.2.title → x.2 = y.2) :
    ∃ lib json lib', parseCcLib bits (some root) = .ok lib ∧ lib.toJson order = .ok json ∧
      MethodLib.fromJson lower json = .ok (some lib') ∧
      (∀ stage key c, lib'.Holds stage key c ↔ key = lower c.title ∧ (stage, c) ∈ fileEntries sets) ∧
      ∀ stage c title, (stage, c) ∈ fileEntries sets → TitledFor lower stage c.title →
        lower title = lower c.title →
        (∃ m, IsEntry stage c m ∧ lib'.getByTitle lower title = .ok (.ok m)) ∨
        (∃ e, PnBlock.parse c.placeNotation.toList stage = .ok (.error e) ∧
          lib'.getByTitle lower title = .ok (.error (.pnParseErr c.placeNotation e))) := by
  obtain ⟨lib, hlib, hholds⟩ := C87_import bits sets root h
  have hmem : ∀ stage c, LastOfTitle sets stage c → (stage, c) ∈ fileEntries sets := by
    rintro stage c ⟨before, after, h1, -⟩
    rw [h1]
    simp
  have hpos : ∀ x ∈ fileEntries sets, 1 ≤ x.1.numBells := by
    intro x hx
    obtain ⟨s, hs, hx⟩ := List.mem_flatMap.1 hx
    obtain ⟨m, -, rfl⟩ := List.mem_map.1 hx
    obtain ⟨i, hi, rfl⟩ := List.getElem_of_mem hs
    obtain ⟨hlen, hall⟩ := List.forall₂_iff_get.1 h.2
    obtain ⟨p, -, -, h0, -⟩ := hall i hi (hlen ▸ hi)
    exact h0
  obtain ⟨json, lib', h1, h2, h3, h4⟩ := MethodLib.json_back lower order ho lib (by
    intro stage key c hc
    have := hmem _ _ ((hholds _ _ _).1 hc).2
    exact ⟨hpos _ this, hstage _ this⟩)
  have h5 : ∀ stage key c, lib'.Holds stage key c ↔ key = lower c.title ∧ (stage, c) ∈ fileEntries sets := by
    intro stage key c
    constructor
    · intro hc
      obtain ⟨hk, k, hc⟩ := h3 _ _ _ hc
      exact ⟨hk, hmem _ _ ((hholds _ _ _).1 hc).2⟩
    · rintro ⟨rfl, hc⟩
      obtain ⟨c', ht, hlast⟩ := C87_nothing_lost sets stage c hc
      obtain ⟨c'', hc''⟩ := h4 stage c'.title c' ((hholds _ _ _).2 ⟨rfl, hlast⟩)
      obtain ⟨hk, k, hk2⟩ := h3 _ _ _ hc''
      have hc2 := hmem _ _ ((hholds _ _ _).1 hk2).2
      have e := hdistinct _ hc2 _ hc rfl (by rw [← ht]; exact hk.symm)
      simp only at e
      rw [e, ht] at hc''
      exact hc''
  refine ⟨lib, json, lib', hlib, h1, h2, h5, ?_⟩
  intro stage c title hc ht htitle
  exact (C53_lookup hl lib' (fun s k c hc => ((h5 s k c).1 hc).1) title).1 stage (lower c.title) c
    ((h5 _ _ _).2 ⟨rfl, hc⟩) htitle.symm ht

/-- Looking up a title in the imported library itself: a method is found only if its title has no capital
letters, because the library was not stored under titles in lower case. -/
theorem C87_direct_partial {lower : String → String} (hl : LowerCase lower) (bits : Nat) (sets : List CcSet)
    (root : Element) (h : FileXml bits sets root) :
    ∃ lib, parseCcLib bits (some root) = .ok lib ∧ ∀ title,
      (∀ stage c, LastOfTitle sets stage c → c.title = lower title → TitledFor lower stage c.title →
        (∃ m, IsEntry stage c m ∧ lib.getByTitle lower title = .ok (.ok m)) ∨
        (∃ e, PnBlock.parse c.placeNotation.toList stage = .ok (.error e) ∧
          lib.getByTitle lower title = .ok (.error (.pnParseErr c.placeNotation e)))) ∧
      ((∀ stage c, (stage, c) ∈ fileEntries sets → TitledFor lower stage c.title → c.title ≠ lower title) →
        lib.getByTitle lower title = .ok (.error (.notFound ()))) := by
  obtain ⟨lib, hlib, hholds⟩ := C87_import bits sets root h
  refine ⟨lib, hlib, fun title => ⟨?_, ?_⟩⟩
  · intro stage c hc ht hst
    have hst' := hst
    rw [titledFor_iff hl, ht, hl.idem] at hst'
    have hc' := (MethodLib.find_eq_some _ _ _ _).2 ((hholds stage c.title c).2 ⟨rfl, hc⟩)
    rw [ht] at hc'
    unfold MethodLib.getByTitle
    rw [MethodLib.getByTitleOption_eq]
    simp only [hst', hc']
    rcases c.toMethod_total stage hst.stage_pos with ⟨e, h1, h2⟩ | ⟨m, h1, h2⟩
    · right
      exact ⟨e, h1, by rw [h2]; rfl⟩
    · left
      exact ⟨m, h1, by rw [h2]; rfl⟩
  · intro hno
    unfold MethodLib.getByTitle
    rw [MethodLib.getByTitleOption_eq]
    cases hs : Stage.fromLowerCaseName (lastWord (lower title)) with
    | none => rfl
    | some stage =>
      simp only
      cases hf : lib.find stage (lower title) with
      | none => rfl
      | some c =>
        rw [MethodLib.find_eq_some] at hf
        obtain ⟨ht, before, after, h1, -⟩ := (hholds _ _ _).1 hf
        refine absurd ht.symm (hno stage c (by rw [h1]; simp) ?_)
        rw [titledFor_iff hl, ← ht, hl.idem, hs]

/-! ## A file -/

/-- An element in the namespace of the file. -/
def ccElem (name : String) (attrs : List (String × String)) (children : List Element) (text : String) :
    Element := .mk name "http://www.cccbr.org.uk/methods/schemas/2007/05/methods" attrs children text

/-- A file with one set of methods, which has one method. -/
def ccExample : Element :=
  ccElem "collection" [("date", "2021-01-01")] [
    ccElem "methodSet" [] [
      ccElem "notes" [] [] "Plain methods",
      ccElem "properties" [] [
        ccElem "stage" [] [] "6",
        ccElem "classification" [("little", "false"), ("differential", "false")] [] "Bob"] "",
      ccElem "method" [("id", "m1")] [
        ccElem "title" [] [] "Plain Bob Minor",
        ccElem "name" [] [] "Plain",
        ccElem "notation" [] [] "x16x16x16,12"] ""] ""] ""

/-- What the file says. -/
def ccExampleSets : List CcSet :=
  [⟨6, false, false, .bob, [⟨"Plain Bob Minor", "Plain", "x16x16x16,12"⟩]⟩]

theorem ccExample_file (bits : Nat) (hb : 3 ≤ bits) : FileXml bits ccExampleSets ccExample := by
  have h8 : 2 ^ 3 ≤ 2 ^ bits := Nat.pow_le_pow_right (by decide) hb
  have hmethods : (ccExample.children.filter fun x => x.name = "methodSet") = ccExample.children := rfl
  refine ⟨⟨"2021-01-01", [], [], rfl, by simp⟩, ?_⟩
  rw [hmethods]
  refine .cons ⟨ccElem "properties" [] [
        ccElem "stage" [] [] "6",
        ccElem "classification" [("little", "false"), ("differential", "false")] [] "Bob"] "",
      ⟨[ccElem "notes" [] [] "Plain methods"], _, rfl, ⟨rfl, rfl⟩, ?_⟩,
      ⟨"6", ⟨_, ⟨[], _, rfl, ⟨rfl, rfl⟩, by simp⟩, rfl⟩, .inl (.one 6 (by decide))⟩, by decide, ?_,
      ⟨_, ⟨[ccElem "stage" [] [] "6"], [], rfl, ⟨rfl, rfl⟩, ?_⟩, rfl, ?_, ?_⟩, ?_⟩ .nil
  · intro x hx hc
    rw [List.mem_singleton.1 hx] at hc
    exact absurd hc.1 (by decide)
  · change 6 < 2 ^ bits
    omega
  · intro x hx hc
    rw [List.mem_singleton.1 hx] at hc
    exact absurd hc.1 (by decide)
  · rw [← Element.attr_eq_some]
    decide
  · rw [← Element.attr_eq_some]
    decide
  · have : ∀ e : Element, (e.children.filter fun x => x.name = "method") =
        [ccElem "method" [("id", "m1")] [
        ccElem "title" [] [] "Plain Bob Minor",
        ccElem "name" [] [] "Plain",
        ccElem "notation" [] [] "x16x16x16,12"] ""] → List.Forall₂ MethodXml
        [⟨"Plain Bob Minor", "Plain", "x16x16x16,12"⟩] (e.children.filter fun x => x.name = "method") := by
      intro e he
      rw [he]
      refine .cons ⟨⟨_, ⟨[], _, rfl, ⟨rfl, rfl⟩, by simp⟩, rfl⟩,
        ⟨_, ⟨[ccElem "title" [] [] "Plain Bob Minor"], _, rfl, ⟨rfl, rfl⟩, ?_⟩, rfl⟩,
        ⟨_, ⟨[ccElem "title" [] [] "Plain Bob Minor", ccElem "name" [] [] "Plain"], [], rfl, ⟨rfl, rfl⟩, ?_⟩,
          rfl⟩⟩ .nil
      · intro x hx hc
        rw [List.mem_singleton.1 hx] at hc
        exact absurd hc.1 (by decide)
      · intro x hx hc
        rcases List.mem_cons.1 hx with rfl | hx
        · exact absurd hc.1 (by decide)
        · rw [List.mem_singleton.1 hx] at hc
          exact absurd hc.1 (by decide)
    exact this _ rfl

/-- The hypotheses of `C87_workflow` hold of the file. -/
example (lower : String → String) : FileXml 64 ccExampleSets ccExample ∧
    (∀ x ∈ fileEntries ccExampleSets, x.1.numBells ≤ 22) ∧
    ∀ x ∈ fileEntries ccExampleSets, ∀ y ∈ fileEntries ccExampleSets, x.1 = y.1 →
      lower x.2.title = lower y.2.title → x.2 = y.2 := by
  refine ⟨ccExample_file 64 (by decide), by decide, ?_⟩
  intro x hx y hy _ _
  rw [show fileEntries ccExampleSets = [(⟨6⟩, ⟨"Plain", "Plain Bob Minor", ⟨false, false, false, .bob⟩,
    "x16x16x16,12"⟩)] from rfl] at hx hy
  rw [List.mem_singleton.1 hx, List.mem_singleton.1 hy]

/-- `Plain Bob Minor` is in the file, but cannot be found in the imported library. -/
theorem C87_direct_false {lower : String → String} (hl : LowerCase lower) :
    ∃ lib, parseCcLib 64 (some ccExample) = .ok lib ∧
      (∃ c, (⟨6⟩, c) ∈ fileEntries ccExampleSets ∧ c.title = "Plain Bob Minor" ∧
        TitledFor lower ⟨6⟩ c.title ∧ lib.Holds ⟨6⟩ c.title c) ∧
      lib.getByTitle lower "Plain Bob Minor" = .ok (.error (.notFound ())) := by
  have hfile := ccExample_file 64 (by decide)
  obtain ⟨lib, hlib, hd⟩ := C87_direct_partial hl 64 _ _ hfile
  obtain ⟨lib', hlib', hh⟩ := C87_import 64 _ _ hfile
  cases hlib.symm.trans hlib'
  have hlow : lower "Plain Bob Minor" = "plain bob minor" := by
    rw [hl.ascii _ (by decide)]
    decide
  refine ⟨lib, hlib, ⟨⟨"Plain", "Plain Bob Minor", ⟨false, false, false, .bob⟩, "x16x16x16,12"⟩,
    List.mem_singleton.2 rfl, rfl, ?_, (hh _ _ _).2 ⟨rfl, [], [], rfl, by simp⟩⟩, (hd _).2 ?_⟩
  · rw [titledFor_iff hl]
    change Stage.fromLowerCaseName (lastWord (lower "Plain Bob Minor")) = _
    rw [hlow]
    decide
  · intro stage c hc _
    obtain ⟨-, rfl⟩ := Prod.mk.inj (List.mem_singleton.1 hc)
    rw [hlow]
    decide

end Bellframe.Props
