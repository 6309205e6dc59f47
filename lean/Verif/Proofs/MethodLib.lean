import Verif.Spec.MethodLib
import Verif.Proofs.Basic
import Verif.Props.Method
import Mathlib.Data.List.Perm.Basic
import Mathlib.Data.List.Nodup
import Mathlib.Tactic.SplitIfs

/-! # Lemmas about method libraries -/

namespace Bellframe

namespace HashMap

variable {K V : Type} [DecidableEq K]

theorem get_eq_some (m : HashMap K V) (k : K) (v : V) : m.get k = some v ↔ (k, v) ∈ m.entries := by
  unfold get
  obtain ⟨es, hnd⟩ := m
  simp only
  induction es with
  | nil => simp
  | cons e es ih =>
    rw [List.map_cons, List.nodup_cons] at hnd
    by_cases h : e.1 = k
    · rw [List.find?_cons_of_pos (by simpa using h), Option.map_some, Option.some.injEq, List.mem_cons]
      constructor
      · rintro rfl
        left
        rw [← h]
      · rintro (h' | h')
        · rw [← h']
        · refine absurd ?_ hnd.1
          rw [h]
          exact List.mem_map.2 ⟨_, h', rfl⟩
    · rw [List.find?_cons_of_neg (by simpa using h), ih hnd.2, List.mem_cons]
      constructor
      · exact .inr
      · rintro (h' | h')
        · exact absurd (by rw [← h']) h
        · exact h'

theorem get_eq_none (m : HashMap K V) (k : K) : m.get k = none ↔ ∀ v, (k, v) ∉ m.entries := by
  rw [Option.eq_none_iff_forall_ne_some]
  exact forall_congr' fun v => not_congr (get_eq_some m k v)

@[simp] theorem get_empty (k : K) : (empty : HashMap K V).get k = none := rfl

theorem get_update (m : HashMap K V) (k : K) (d : V) (f : V → V) (k' : K) :
    (m.update k d f).get k' = if k' = k then some (f ((m.get k).getD d)) else m.get k' := by
  unfold update get
  obtain ⟨es, hnd⟩ := m
  simp only
  clear hnd
  induction es with
  | nil =>
    by_cases h : k' = k
    · simp [updateEntries, h]
    · simp [updateEntries, h, Ne.symm h]
  | cons e es ih =>
    rw [updateEntries]
    by_cases he : e.1 = k
    · rw [if_pos he]
      by_cases h : k' = k
      · simp [he, h]
      · have : e.1 ≠ k' := fun h' => h (h'.symm.trans he)
        simp [this, h]
    · rw [if_neg he]
      by_cases h : e.1 = k'
      · have : k' ≠ k := fun h' => he (h.trans h')
        simp [h, this]
      · have e1 : ∀ l : List (K × V), (e :: l).find? (fun e => decide (e.1 = k')) =
            l.find? (fun e => decide (e.1 = k')) :=
          fun l => List.find?_cons_of_neg (by simpa using h)
        have e2 : (e :: es).find? (fun e => decide (e.1 = k)) = es.find? (fun e => decide (e.1 = k)) :=
          List.find?_cons_of_neg (by simpa using he)
        rw [e1, e1, e2, ih]

theorem get_insert (m : HashMap K V) (k : K) (v : V) (k' : K) :
    (m.insert k v).get k' = if k' = k then some v else m.get k' := get_update m k v _ k'

end HashMap

namespace MethodLib

/-- The method under a key at a stage. -/
def find (lib : MethodLib) (stage : Stage) (key : String) : Option CompactMethod :=
  (lib.methodMap.get stage).bind fun methods => methods.get key

theorem find_eq_some (lib : MethodLib) (stage : Stage) (key : String) (c : CompactMethod) :
    lib.find stage key = some c ↔ lib.Holds stage key c := by
  unfold find Holds
  rw [Option.bind_eq_some_iff]
  exact exists_congr fun ms => and_congr (HashMap.get_eq_some _ _ _) (HashMap.get_eq_some _ _ _)

theorem Holds.unique {lib : MethodLib} {stage : Stage} {key : String} {c c' : CompactMethod}
    (h : lib.Holds stage key c) (h' : lib.Holds stage key c') : c = c' := by
  rw [← find_eq_some] at h h'
  exact Option.some.inj (h.symm.trans h')

theorem getByTitleOption_eq (lib : MethodLib) (t : String) :
    lib.getByTitleOption t = match Stage.fromLowerCaseName (lastWord t) with
      | none => .ok none
      | some stage => match lib.find stage t with
        | none => .ok none
        | some c => do
          let m ← c.toMethod stage
          return some m := by
  unfold getByTitleOption find
  cases Stage.fromLowerCaseName (lastWord t) with
  | none => rfl
  | some stage =>
    simp only
    cases lib.methodMap.get stage with
    | none => rfl
    | some ms => rfl

end MethodLib

/-! ## The last word -/

theorem lastWord_append (a b : String) (hb : ' ' ∉ b.toList) : lastWord (a ++ " " ++ b) = b := by
  unfold lastWord
  rw [String.toList_append, String.toList_append, List.reverse_append, List.reverse_append]
  have h1 : (b.toList.reverse ++ (" ".toList.reverse ++ a.toList.reverse)).takeWhile (fun c => c != ' ') =
      b.toList.reverse := by
    rw [List.takeWhile_append_of_pos (by
      intro c hc
      rw [List.mem_reverse] at hc
      simp only [bne_iff_ne, ne_eq]
      rintro rfl
      exact hb hc)]
    have : " ".toList.reverse ++ a.toList.reverse = ' ' :: a.toList.reverse := rfl
    rw [this, List.takeWhile_cons_of_neg (by simp), List.append_nil]
  rw [h1, List.reverse_reverse, String.ofList_toList]

theorem lastWord_self (b : String) (hb : ' ' ∉ b.toList) : lastWord b = b := by
  unfold lastWord
  have h : b.toList.reverse.takeWhile (fun c => c != ' ') = b.toList.reverse := by
    rw [← List.append_nil b.toList.reverse, List.takeWhile_append_of_pos ?_]
    · simp
    intro c hc
    rw [List.mem_reverse] at hc
    simp only [bne_iff_ne, ne_eq]
    rintro rfl
    exact hb hc
  rw [h, List.reverse_reverse, String.ofList_toList]

theorem lastWord_cases (s : String) : s = lastWord s ∨ ∃ a, s = a ++ " " ++ lastWord s := by
  unfold lastWord
  have h := List.takeWhile_append_dropWhile (p := fun c => c != ' ') (l := s.toList.reverse)
  have h2 : s.toList = (s.toList.reverse.dropWhile (fun c => c != ' ')).reverse ++
      (s.toList.reverse.takeWhile (fun c => c != ' ')).reverse := by
    rw [← List.reverse_append, h, List.reverse_reverse]
  cases hd : s.toList.reverse.dropWhile (fun c => c != ' ') with
  | nil =>
    left
    rw [hd, List.reverse_nil, List.nil_append] at h2
    rw [← h2, String.ofList_toList]
  | cons x xs =>
    right
    have hx : x = ' ' := by
      have := List.head?_dropWhile_not (fun c => c != ' ') s.toList.reverse
      rw [hd] at this
      simpa using this
    refine ⟨String.ofList xs.reverse, ?_⟩
    rw [hd, hx, List.reverse_cons] at h2
    apply String.toList_inj.1
    simp only [String.toList_append, String.toList_ofList]
    exact h2

/-- Names of stages in lower case. -/
theorem lower_stage_name {lower : String → String} (hl : LowerCase lower) {stage : Stage} {w : String}
    (h : stage.name = some w) :
    Stage.fromLowerCaseName (lower w) = some stage ∧ ' ' ∉ (lower w).toList := by
  obtain ⟨n⟩ := stage
  have h22 : n ≤ 22 := by
    by_contra hc
    obtain ⟨k, rfl⟩ : ∃ k, n = k + 23 := ⟨n - 23, by omega⟩
    simp [Stage.name] at h
  have key : ∀ v : String, (∀ c ∈ v.toList, c.toNat < 128) →
      Stage.fromLowerCaseName (String.ofList (v.toList.map Char.toLower)) = some ⟨n⟩ →
      ' ' ∉ v.toList.map Char.toLower → v = w →
      Stage.fromLowerCaseName (lower w) = some ⟨n⟩ ∧ ' ' ∉ (lower w).toList := by
    rintro v h1 h2 h3 rfl
    rw [hl.ascii v h1]
    exact ⟨h2, by rw [String.toList_ofList]; exact h3⟩
  interval_cases n
  · simp [Stage.name] at h
  all_goals exact key _ (by decide) (by decide) (by decide) (Option.some.inj h)

theorem fromLowerCaseName_name {lower : String → String} (hl : LowerCase lower) {s : String} {stage : Stage}
    (h : Stage.fromLowerCaseName s = some stage) : ∃ w, stage.name = some w ∧ lower w = s := by
  obtain ⟨w, h1, h2⟩ : ∃ w : String, stage.name = some w ∧
      ((∀ c ∈ w.toList, c.toNat < 128) ∧ String.ofList (w.toList.map Char.toLower) = s) := by
    unfold Stage.fromLowerCaseName at h
    split at h <;> first | cases h; exact ⟨_, rfl, by decide, by decide⟩ | cases h
  exact ⟨w, h1, by rw [hl.ascii w h2.1, h2.2]⟩

theorem titledFor_iff {lower : String → String} (hl : LowerCase lower) (stage : Stage) (title : String) :
    TitledFor lower stage title ↔ Stage.fromLowerCaseName (lastWord (lower title)) = some stage := by
  constructor
  · rintro ⟨w, hw, h⟩
    obtain ⟨h1, h2⟩ := lower_stage_name hl hw
    rcases h with h | ⟨a, h⟩
    · rw [h, lastWord_self _ h2, h1]
    · rw [h, lastWord_append _ _ h2, h1]
  · intro h
    obtain ⟨w, hw, h1⟩ := fromLowerCaseName_name hl h
    refine ⟨w, hw, ?_⟩
    rw [h1]
    exact lastWord_cases _

theorem TitledFor.unique {lower : String → String} (hl : LowerCase lower) {stage stage' : Stage}
    {t t' : String} (h : TitledFor lower stage t) (h' : TitledFor lower stage' t')
    (ht : lower t = lower t') : stage = stage' := by
  rw [titledFor_iff hl] at h h'
  rw [ht] at h
  exact Option.some.inj (h.symm.trans h')

theorem TitledFor.stage_pos {lower : String → String} {stage : Stage} {t : String}
    (h : TitledFor lower stage t) : 0 < stage.numBells := by
  obtain ⟨w, hw, -⟩ := h
  obtain ⟨n⟩ := stage
  cases n with
  | zero => simp [Stage.name] at hw
  | succ n => exact Nat.succ_pos n

/-- Reading the place notation of an entry never panics. -/
theorem CompactMethod.toMethod_total (c : CompactMethod) (stage : Stage) (hs : 0 < stage.numBells) :
    (∃ e, PnBlock.parse c.placeNotation.toList stage = .ok (.error e) ∧
      c.toMethod stage = .ok (.error (c.placeNotation, e))) ∨
    ∃ m, IsEntry stage c m ∧ c.toMethod stage = .ok (.ok m) := by
  obtain ⟨r, hr⟩ := Props.C34_total c.placeNotation.toList stage
  unfold toMethod
  rw [hr]
  cases r with
  | error e => exact .inl ⟨e, rfl, rfl⟩
  | ok pn =>
    right
    obtain ⟨h1, h2⟩ := Props.C34_well_formed _ stage hs pn hr
    obtain ⟨-, k, hk, τs, hc, hpn⟩ := (Props.C36_well_formed [] (by simp) _ stage hs pn).2 hr
    have hne : τs ≠ [] := by
      rintro rfl
      exact h1 (by simpa using hpn)
    obtain ⟨-, -, ⟨lead, τ, h5, h6⟩, -⟩ := Props.C36_rows (none : Option String) hk 1 τs hne hc
    have hpn' : pn = ⟨τs.map PlaceNot.ofChange⟩ := by
      cases pn
      rw [PnBlock.mk.injEq]
      exact hpn
    rw [← hpn'] at h6
    refine ⟨⟨c.title, c.name, c.fullClass, _⟩, ⟨rfl, rfl, rfl, pn, hr, h6⟩, ?_⟩
    simp only [Res.ok_bind, h6, Res.pure_eq]
    rfl

/-! ## Grouping -/

namespace MethodLib

theorem mem_grouped (lib : MethodLib) (s : Stage) (fc : FullClass) (c : CompactMethod) :
    (∃ l, ((s, fc), l) ∈ lib.grouped.entries ∧ c ∈ l) ↔ c.fullClass = fc ∧ ∃ key, lib.Holds s key c := by
  have inner : ∀ (st : Stage) (es : List (String × CompactMethod))
      (g : HashMap (Stage × FullClass) (List CompactMethod)) (s : Stage) (fc : FullClass),
      (∃ l, (es.foldl (fun groups e => groups.update (st, e.2.fullClass) [] (fun l => l ++ [e.2])) g).get
        (s, fc) = some l ∧ c ∈ l) ↔
      (∃ l, g.get (s, fc) = some l ∧ c ∈ l) ∨ (s = st ∧ c.fullClass = fc ∧ ∃ key, (key, c) ∈ es) := by
    intro st es
    induction es with
    | nil => intro g s fc; simp
    | cons e es ih =>
      intro g s fc
      rw [List.foldl_cons, ih, HashMap.get_update]
      by_cases h : (s, fc) = (st, e.2.fullClass)
      · rw [if_pos h, Prod.mk.injEq] at *
        obtain ⟨rfl, rfl⟩ := h
        simp only [Option.some.injEq, exists_eq_left', List.mem_append, true_and,
          List.mem_cons, List.not_mem_nil, or_false]
        cases hg : g.get (s, e.2.fullClass) with
        | none =>
          simp only [Option.getD_none, List.not_mem_nil, false_or, reduceCtorEq, false_and, exists_false]
          constructor
          · rintro (rfl | ⟨h1, key, h2⟩)
            · exact ⟨rfl, e.1, .inl rfl⟩
            · exact ⟨h1, key, .inr h2⟩
          · rintro ⟨h1, key, rfl | h2⟩
            · exact .inl rfl
            · exact .inr ⟨h1, key, h2⟩
        | some l =>
          simp only [Option.getD_some, Option.some.injEq, exists_eq_left']
          constructor
          · rintro ((h | rfl) | ⟨h1, key, h2⟩)
            · exact .inl h
            · exact .inr ⟨rfl, e.1, .inl rfl⟩
            · exact .inr ⟨h1, key, .inr h2⟩
          · rintro (h | ⟨h1, key, rfl | h2⟩)
            · exact .inl (.inl h)
            · exact .inl (.inr rfl)
            · exact .inr ⟨h1, key, h2⟩
      · rw [if_neg h]
        refine or_congr_right ?_
        constructor
        · rintro ⟨h1, h2, key, h3⟩
          exact ⟨h1, h2, key, List.mem_cons.2 (.inr h3)⟩
        · rintro ⟨rfl, rfl, key, h3⟩
          rcases List.mem_cons.1 h3 with rfl | h3
          · exact absurd rfl h
          · exact ⟨rfl, rfl, key, h3⟩
  have outer : ∀ (ms : List (Stage × HashMap String CompactMethod))
      (g : HashMap (Stage × FullClass) (List CompactMethod)),
      (∃ l, (ms.foldl (fun groups methods => methods.2.entries.foldl (fun groups e =>
        groups.update (methods.1, e.2.fullClass) [] (fun l => l ++ [e.2])) groups) g).get
        (s, fc) = some l ∧ c ∈ l) ↔
      (∃ l, g.get (s, fc) = some l ∧ c ∈ l) ∨
        (c.fullClass = fc ∧ ∃ key methods, (s, methods) ∈ ms ∧ (key, c) ∈ methods.entries) := by
    intro ms
    induction ms with
    | nil => intro g; simp
    | cons m ms ih =>
      intro g
      rw [List.foldl_cons, ih, inner, or_assoc]
      refine or_congr_right ?_
      constructor
      · rintro (⟨rfl, h1, key, h2⟩ | ⟨h1, key, methods, h2, h3⟩)
        · exact ⟨h1, key, m.2, List.mem_cons.2 (.inl rfl), h2⟩
        · exact ⟨h1, key, methods, List.mem_cons.2 (.inr h2), h3⟩
      · rintro ⟨h1, key, methods, h2, h3⟩
        rcases List.mem_cons.1 h2 with rfl | h2
        · exact .inl ⟨rfl, h1, key, h3⟩
        · exact .inr ⟨h1, key, methods, h2, h3⟩
  have := outer lib.methodMap.entries HashMap.empty
  simp only [HashMap.get_eq_some] at this
  unfold grouped
  rw [this]
  simp [HashMap.empty, Holds]

/-! ## Reading groups -/

/-- Adding methods that have been read to the library. -/
def addMethods (lower : String → String) (lib : MethodLib) (stage : Stage) (methods : List CompactMethod) :
    MethodLib :=
  ⟨lib.methodMap.update stage HashMap.empty fun old =>
    methods.foldl (fun m c => m.insert (lower c.title) c) old⟩

theorem get_foldl_insert (lower : String → String) (methods : List CompactMethod)
    (m : HashMap String CompactMethod) (key : String) :
    (∀ c, (methods.foldl (fun m c => m.insert (lower c.title) c) m).get key = some c →
      m.get key = some c ∨ (c ∈ methods ∧ lower c.title = key)) ∧
    ((∃ c, m.get key = some c) ∨ (∃ c ∈ methods, lower c.title = key) →
      ∃ c, (methods.foldl (fun m c => m.insert (lower c.title) c) m).get key = some c) := by
  induction methods generalizing m with
  | nil => simp
  | cons d ds ih =>
    rw [List.foldl_cons]
    obtain ⟨h1, h2⟩ := ih (m.insert (lower d.title) d)
    rw [HashMap.get_insert] at h1 h2
    constructor
    · intro c hc
      rcases h1 c hc with h | ⟨h3, h4⟩
      · split_ifs at h with hk
        · cases h
          exact .inr ⟨List.mem_cons.2 (.inl rfl), hk.symm⟩
        · exact .inl h
      · exact .inr ⟨List.mem_cons.2 (.inr h3), h4⟩
    · intro h
      apply h2
      by_cases hk : key = lower d.title
      · left
        rw [if_pos hk]
        exact ⟨d, rfl⟩
      · rw [if_neg hk]
        rcases h with h | ⟨c, hc, h⟩
        · exact .inl h
        · rcases List.mem_cons.1 hc with rfl | hc
          · exact absurd h.symm hk
          · exact .inr ⟨c, hc, h⟩

theorem find_addMethods (lower : String → String) (lib : MethodLib) (stage : Stage)
    (methods : List CompactMethod) (s : Stage) (key : String) :
    (∀ c, (lib.addMethods lower stage methods).find s key = some c →
      lib.find s key = some c ∨ (s = stage ∧ c ∈ methods ∧ lower c.title = key)) ∧
    ((∃ c, lib.find s key = some c) ∨ (s = stage ∧ ∃ c ∈ methods, lower c.title = key) →
      ∃ c, (lib.addMethods lower stage methods).find s key = some c) := by
  unfold addMethods find
  rw [HashMap.get_update]
  by_cases hs : s = stage
  · subst hs
    rw [if_pos rfl]
    simp only [Option.bind_some, true_and]
    obtain ⟨h1, h2⟩ := get_foldl_insert lower methods ((lib.methodMap.get s).getD HashMap.empty) key
    have hg : ((lib.methodMap.get s).getD HashMap.empty).get key =
        (lib.methodMap.get s).bind fun ms => ms.get key := by
      cases lib.methodMap.get s with
      | none => rfl
      | some ms => rfl
    rw [hg] at h1 h2
    exact ⟨h1, h2⟩
  · rw [if_neg hs]
    refine ⟨fun c hc => .inl hc, ?_⟩
    rintro (h | ⟨h, -⟩)
    · exact h
    · exact absurd h hs

/-- A group, read. -/
structure ReadGroup where
  stage : Stage
  methods : List CompactMethod

/-- How a group is read. -/
def readGroup (g : MethodGroup) : Res ReadGroup := do
  let stage ← Stage.new g.stage
  let cls ← unwrap (← fromClassId g.classId)
  let fullClass : FullClass := ⟨g.isJump, g.isLittle, g.isDifferential, cls⟩
  let methods ← g.methods.mapM (fromCompactSerde stage fullClass)
  return ⟨stage, methods⟩

theorem addGroup_eq (lower : String → String) (lib : MethodLib) (g : MethodGroup) :
    addGroup lower lib g = readGroup g >>= fun r => .ok (lib.addMethods lower r.stage r.methods) := by
  unfold addGroup readGroup
  simp only [bind_assoc, Res.pure_eq, Res.ok_bind]
  rfl

theorem foldlM_addGroup (lower : String → String) (gs : List MethodGroup) (lib : MethodLib) :
    gs.foldlM (addGroup lower) lib = gs.mapM readGroup >>= fun rs =>
      .ok (rs.foldl (fun lib r => lib.addMethods lower r.stage r.methods) lib) := by
  induction gs generalizing lib with
  | nil => rfl
  | cons g gs ih =>
    rw [List.foldlM_cons, List.mapM_cons, addGroup_eq]
    cases hr : readGroup g with
    | error e => rfl
    | ok r =>
      simp only [Res.ok_bind, ih]
      cases gs.mapM readGroup with
      | error e => rfl
      | ok rs => rfl

theorem find_foldl (lower : String → String) (rs : List ReadGroup) (lib : MethodLib) (s : Stage)
    (key : String) :
    (∀ c, (rs.foldl (fun lib r => lib.addMethods lower r.stage r.methods) lib).find s key = some c →
      lib.find s key = some c ∨ ∃ r ∈ rs, s = r.stage ∧ c ∈ r.methods ∧ lower c.title = key) ∧
    ((∃ c, lib.find s key = some c) ∨ (∃ r ∈ rs, s = r.stage ∧ ∃ c ∈ r.methods, lower c.title = key) →
      ∃ c, (rs.foldl (fun lib r => lib.addMethods lower r.stage r.methods) lib).find s key = some c) := by
  induction rs generalizing lib with
  | nil => simp
  | cons r rs ih =>
    rw [List.foldl_cons]
    obtain ⟨h1, h2⟩ := ih (lib.addMethods lower r.stage r.methods)
    obtain ⟨h3, h4⟩ := find_addMethods lower lib r.stage r.methods s key
    constructor
    · intro c hc
      rcases h1 c hc with h | ⟨r', hr', h⟩
      · rcases h3 c h with h | h
        · exact .inl h
        · exact .inr ⟨r, List.mem_cons.2 (.inl rfl), h⟩
      · exact .inr ⟨r', List.mem_cons.2 (.inr hr'), h⟩
    · rintro (h | ⟨r', hr', h⟩)
      · exact h2 (.inl (h4 (.inl h)))
      · rcases List.mem_cons.1 hr' with rfl | hr'
        · exact h2 (.inl (h4 (.inr h)))
        · exact h2 (.inr ⟨r', hr', h⟩)

theorem mapM_ok_mem {α β : Type} {f : α → Res β} {l : List α} {bs : List β} (h : l.mapM f = .ok bs) :
    (∀ b ∈ bs, ∃ a ∈ l, f a = .ok b) ∧ ∀ a ∈ l, ∃ b ∈ bs, f a = .ok b := by
  induction l generalizing bs with
  | nil =>
    cases h
    simp
  | cons a l ih =>
    rw [List.mapM_cons] at h
    cases ha : f a with
    | error e => rw [ha] at h; cases h
    | ok b =>
      cases hl : l.mapM f with
      | error e => rw [ha, hl] at h; cases h
      | ok bs' =>
        rw [ha, hl] at h
        cases h
        obtain ⟨h1, h2⟩ := ih hl
        constructor
        · intro b' hb'
          rcases List.mem_cons.1 hb' with rfl | hb'
          · exact ⟨a, List.mem_cons.2 (.inl rfl), ha⟩
          · obtain ⟨a', ha', h⟩ := h1 b' hb'
            exact ⟨a', List.mem_cons.2 (.inr ha'), h⟩
        · intro a' ha'
          rcases List.mem_cons.1 ha' with rfl | ha'
          · exact ⟨b, List.mem_cons.2 (.inl rfl), ha⟩
          · obtain ⟨b', hb', h⟩ := h2 a' ha'
            exact ⟨b', List.mem_cons.2 (.inr hb'), h⟩

/-- `mapM` succeeds exactly when all elements do. -/
theorem mapM_ok_of_forall {α β : Type} {f : α → Res β} {l : List α} (h : ∀ a ∈ l, ∃ b, f a = .ok b) :
    ∃ bs, l.mapM f = .ok bs := by
  induction l with
  | nil => exact ⟨[], rfl⟩
  | cons a l ih =>
    obtain ⟨b, hb⟩ := h a (List.mem_cons.2 (.inl rfl))
    obtain ⟨bs, hbs⟩ := ih fun a' ha' => h a' (List.mem_cons.2 (.inr ha'))
    exact ⟨b :: bs, by rw [List.mapM_cons, hb, hbs]; rfl⟩

theorem mapM_error_of_exists {α β : Type} {f : α → Res β} {l : List α} (h : ∃ a ∈ l, ∃ e, f a = .error e) :
    ∃ e, l.mapM f = .error e := by
  cases hm : l.mapM f with
  | error e => exact ⟨e, rfl⟩
  | ok bs =>
    obtain ⟨a, ha, e, he⟩ := h
    obtain ⟨b, -, hb⟩ := (mapM_ok_mem hm).2 a ha
    rw [he] at hb
    cases hb

end MethodLib

/-! ## JSON -/

theorem CompactMethodSerde.asCompactMethod_toJson (m : CompactMethodSerde) :
    m.toJson.asCompactMethod = some m := by
  obtain ⟨t, n, p⟩ := m
  cases t <;> rfl

theorem Json.asMethods_toJson (ms : List CompactMethodSerde) :
    (Json.arr (ms.map CompactMethodSerde.toJson)).asMethods = some ms := by
  change (ms.map CompactMethodSerde.toJson).mapM asCompactMethod = some ms
  induction ms with
  | nil => rfl
  | cons m ms ih =>
    rw [List.map_cons, List.mapM_cons, m.asCompactMethod_toJson, ih]
    rfl

theorem Json.asUnsigned_num (bits n : Nat) (h : n < 2 ^ bits) : (Json.num n).asUnsigned bits = some n := by
  change (if 0 ≤ (n : Int) ∧ (n : Int) < 2 ^ bits then some (n : Int).toNat else none) = some n
  rw [if_pos ⟨by omega, by exact_mod_cast h⟩]
  rfl

theorem Json.asUnsigned_small (bits n : Nat) (hb : 8 ≤ bits) (h : n < 256) :
    (Json.num n).asUnsigned bits = some n := by
  apply asUnsigned_num
  calc n < 2 ^ 8 := h
    _ ≤ 2 ^ bits := Nat.pow_le_pow_right (by decide) hb

theorem Json.asGroup_obj (fs fc : Json → Option Nat) (fields : List (String × Json)) (js jc jm : Json)
    (j l d : Bool) (s c : Nat) (ms : List CompactMethodSerde) (e1 : fs js = some s) (e2 : fc jc = some c)
    (e3 : jm.asMethods = some ms) (h1 : Json.requiredField fields "s" = some js)
    (h2 : Json.requiredField fields "c" = some jc) (h3 : Json.requiredField fields "m" = some jm)
    (h4 : Json.boolFieldOrFalse fields "j" = some j) (h5 : Json.boolFieldOrFalse fields "l" = some l)
    (h6 : Json.boolFieldOrFalse fields "d" = some d) :
    (do
      let stage ← fs (← Json.requiredField fields "s")
      let isJump ← Json.boolFieldOrFalse fields "j"
      let isLittle ← Json.boolFieldOrFalse fields "l"
      let isDifferential ← Json.boolFieldOrFalse fields "d"
      let classId ← fc (← Json.requiredField fields "c")
      let methods ← (← Json.requiredField fields "m").asMethods
      return (⟨stage, isJump, isLittle, isDifferential, classId, methods⟩ : MethodGroup) :
        Option MethodGroup) = some ⟨s, j, l, d, c, ms⟩ := by
  simp [h1, h2, h3, h4, h5, h6, e1, e2, e3]

theorem MethodGroup.asGroup_toJson (g : MethodGroup) (e1 : (Json.num g.stage).asUnsigned 64 = some g.stage)
    (e2 : (Json.num g.classId).asUnsigned 8 = some g.classId) : g.toJson.asGroup = some g := by
  obtain ⟨s, j, l, d, c, ms⟩ := g
  refine Json.asGroup_obj (Json.asUnsigned 64) (Json.asUnsigned 8) _ _ _ _ j l d s c ms e1 e2
    (Json.asMethods_toJson ms) ?_ ?_ ?_ ?_ ?_ ?_ <;> cases j <;> cases l <;> cases d <;> rfl

theorem Json.asLibSerde_groups (gs : List MethodGroup)
    (h : ∀ g ∈ gs, (Json.num g.stage).asUnsigned 64 = some g.stage ∧
      (Json.num g.classId).asUnsigned 8 = some g.classId) :
    (Json.obj [("groups", .arr (gs.map MethodGroup.toJson))]).asLibSerde = some gs := by
  have : (Json.arr (gs.map MethodGroup.toJson)).asGroups = some gs := by
    change (gs.map MethodGroup.toJson).mapM asGroup = some gs
    induction gs with
    | nil => rfl
    | cons g gs ih =>
      obtain ⟨h1, h2⟩ := h g (List.mem_cons.2 (.inl rfl))
      rw [List.map_cons, List.mapM_cons, g.asGroup_toJson h1 h2,
        ih fun g' hg' => h g' (List.mem_cons.2 (.inr hg'))]
      rfl
  simpa [asLibSerde, requiredField, field] using this

theorem fromClassId_toClassId (c : MethodClass) : fromClassId (toClassId c) = .ok (some c) := by
  cases c <;> rfl

theorem toClassId_lt (c : MethodClass) : toClassId c < 256 := by
  cases c <;> decide

theorem MethodLib.mem_all (lib : MethodLib) (s : Stage) (k : String) (c : CompactMethod) :
    (s, k, c) ∈ lib.all ↔ lib.Holds s k c := by
  unfold MethodLib.all MethodLib.Holds
  simp only [List.mem_flatMap, List.mem_map, Prod.mk.injEq]
  constructor
  · rintro ⟨ms, h1, e, h2, rfl, rfl, rfl⟩
    exact ⟨ms.2, h1, h2⟩
  · rintro ⟨ms, h1, h2⟩
    exact ⟨(s, ms), h1, (k, c), h2, rfl, rfl, rfl⟩

theorem MethodLib.nodup_all (lib : MethodLib) : lib.all.Nodup := by
  unfold MethodLib.all
  rw [List.nodup_flatMap]
  constructor
  · intro ms _
    refine List.Nodup.map ?_ (List.Nodup.of_map _ ms.2.nodup)
    rintro ⟨a, b⟩ ⟨a', b'⟩ h
    simpa using h
  · have := lib.methodMap.nodup
    rw [List.Nodup, List.pairwise_map] at this
    refine this.imp ?_
    intro a b hab x hx hy
    simp only [List.mem_map] at hx hy
    obtain ⟨e, -, rfl⟩ := hx
    obtain ⟨e', -, he'⟩ := hy
    simp only [Prod.mk.injEq] at he'
    exact hab he'.1.symm

namespace MethodLib

theorem grouped_ne_nil (lib : MethodLib) : ∀ g ∈ lib.grouped.entries, g.2 ≠ [] := by
  have upd : ∀ (g : HashMap (Stage × FullClass) (List CompactMethod)) (k : Stage × FullClass)
      (c : CompactMethod), (∀ e ∈ g.entries, e.2 ≠ []) →
      ∀ e ∈ (g.update k [] (fun l => l ++ [c])).entries, e.2 ≠ [] := by
    intro g k c h e he
    have h1 := (HashMap.get_eq_some _ e.1 e.2).2 he
    rw [HashMap.get_update] at h1
    split_ifs at h1 with hk
    · rw [← Option.some.inj h1]
      simp
    · exact h e ((HashMap.get_eq_some _ e.1 e.2).1 h1)
  have inner : ∀ (st : Stage) (es : List (String × CompactMethod))
      (g : HashMap (Stage × FullClass) (List CompactMethod)), (∀ e ∈ g.entries, e.2 ≠ []) →
      ∀ e ∈ (es.foldl (fun groups e => groups.update (st, e.2.fullClass) [] (fun l => l ++ [e.2])) g).entries,
        e.2 ≠ [] := by
    intro st es
    induction es with
    | nil => intro g h; exact h
    | cons e es ih =>
      intro g h
      rw [List.foldl_cons]
      exact ih _ (upd g _ _ h)
  unfold grouped
  have outer : ∀ (ms : List (Stage × HashMap String CompactMethod))
      (g : HashMap (Stage × FullClass) (List CompactMethod)), (∀ e ∈ g.entries, e.2 ≠ []) →
      ∀ e ∈ (ms.foldl (fun groups methods => methods.2.entries.foldl (fun groups e =>
        groups.update (methods.1, e.2.fullClass) [] (fun l => l ++ [e.2])) groups) g).entries, e.2 ≠ [] := by
    intro ms
    induction ms with
    | nil => intro g h; exact h
    | cons m ms ih =>
      intro g h
      rw [List.foldl_cons]
      exact ih _ (inner _ _ g h)
  exact outer _ _ (by simp [HashMap.empty])

theorem fromCompactSerde_toCompactSerde (stage : Stage) (hs : 1 ≤ stage.numBells ∧ stage.numBells ≤ 22)
    (c : CompactMethod) : ∃ m, toCompactSerde stage c.fullClass c = .ok m ∧
      fromCompactSerde stage c.fullClass m = .ok c := by
  obtain ⟨t, ht⟩ := Props.C52_title_exists c.name c.fullClass stage hs
  unfold toCompactSerde fromCompactSerde
  rw [ht]
  simp only [Res.ok_bind, Res.pure_eq]
  refine ⟨_, rfl, ?_⟩
  by_cases h : t = c.title
  · rw [if_pos h]
    simp only [ht, Res.ok_bind, h]
  · rw [if_neg h]

theorem readGroup_toGroup (g : (Stage × FullClass) × List CompactMethod)
    (hs : 1 ≤ g.1.1.numBells ∧ g.1.1.numBells ≤ 22) (hc : ∀ c ∈ g.2, c.fullClass = g.1.2) :
    ∃ g', toGroup g = .ok g' ∧ readGroup g' = .ok ⟨g.1.1, g.2⟩ ∧ g'.stage ≤ 22 ∧ g'.classId < 256 := by
  obtain ⟨⟨stage, fc⟩, cs⟩ := g
  simp only at hs hc ⊢
  obtain ⟨ms, h1, h2⟩ : ∃ ms, cs.mapM (toCompactSerde stage fc) = .ok ms ∧
      ms.mapM (fromCompactSerde stage fc) = .ok cs := by
    induction cs with
    | nil => exact ⟨[], rfl, rfl⟩
    | cons c cs ih =>
      obtain ⟨ms, h1, h2⟩ := ih fun c hc' => hc c (List.mem_cons.2 (.inr hc'))
      obtain ⟨m, h3, h4⟩ := fromCompactSerde_toCompactSerde stage hs c
      rw [hc c (List.mem_cons.2 (.inl rfl))] at h3 h4
      exact ⟨m :: ms, by rw [List.mapM_cons, h3, h1]; rfl, by rw [List.mapM_cons, h4, h2]; rfl⟩
  refine ⟨⟨stage.numBells, fc.isJump, fc.isLittle, fc.isDifferential, toClassId fc.cls, ms⟩, ?_, ?_, hs.2,
    toClassId_lt _⟩
  · unfold toGroup
    simp only [h1, Res.ok_bind, Res.pure_eq]
  · unfold readGroup
    have : Stage.new stage.numBells = .ok stage := by
      unfold Stage.new Stage.tryFrom
      rw [if_neg (by omega)]
      rfl
    simp only [this, Res.ok_bind, fromClassId_toClassId, unwrap_some, h2, Res.pure_eq]

theorem fromClassId_ok (v : Nat) (h : v ≤ 8) : ∃ c, fromClassId v = .ok (some c) := by
  interval_cases v <;> exact ⟨_, rfl⟩

theorem fromClassId_error (v : Nat) (h : 8 < v) : fromClassId v = .error .explicit := by
  obtain ⟨k, rfl⟩ : ∃ k, v = k + 9 := ⟨v - 9, by omega⟩
  rfl

theorem readGroup_ok (g : MethodGroup) (h : ¬ BadGroup g) : ∃ r, readGroup g = .ok r := by
  unfold BadGroup at h
  push Not at h
  obtain ⟨h1, h2, h3⟩ := h
  have hs : Stage.new g.stage = .ok ⟨g.stage⟩ := by
    unfold Stage.new Stage.tryFrom
    rw [if_neg h1]
    rfl
  obtain ⟨c, hc⟩ := fromClassId_ok g.classId h2
  obtain ⟨ms, hms⟩ := mapM_ok_of_forall (l := g.methods)
    (f := fromCompactSerde ⟨g.stage⟩ ⟨g.isJump, g.isLittle, g.isDifferential, c⟩) (by
      intro m hm
      unfold fromCompactSerde
      cases ht : m.title with
      | some t => exact ⟨_, rfl⟩
      | none =>
        have h22 : g.stage ≤ 22 := by
          by_contra hc
          exact h3 (by omega) m hm ht
        obtain ⟨t, h⟩ := Props.C52_title_exists m.name ⟨g.isJump, g.isLittle, g.isDifferential, c⟩
          ⟨g.stage⟩ ⟨by simp only; omega, h22⟩
        simp only [h]
        exact ⟨_, rfl⟩)
  unfold readGroup
  simp only [hs, Res.ok_bind, hc, unwrap_some, hms]
  exact ⟨_, rfl⟩

theorem readGroup_error (g : MethodGroup) (h : BadGroup g) : ∃ e, readGroup g = .error e := by
  unfold readGroup
  by_cases h1 : g.stage = 0
  · refine ⟨.unwrap, ?_⟩
    have hs : Stage.new g.stage = .error .unwrap := by
      rw [h1]
      rfl
    rw [hs]
    rfl
  have hs : Stage.new g.stage = .ok ⟨g.stage⟩ := by
    unfold Stage.new Stage.tryFrom
    rw [if_neg h1]
    rfl
  simp only [hs, Res.ok_bind]
  by_cases h2 : 8 < g.classId
  · rw [fromClassId_error _ h2]
    exact ⟨_, rfl⟩
  obtain ⟨c, hc⟩ := fromClassId_ok g.classId (by omega)
  simp only [hc, Res.ok_bind, unwrap_some]
  rcases h with h | h | ⟨h22, m, hm, ht⟩
  · exact absurd h h1
  · exact absurd h h2
  · obtain ⟨e, he⟩ := mapM_error_of_exists (l := g.methods)
      (f := fromCompactSerde ⟨g.stage⟩ ⟨g.isJump, g.isLittle, g.isDifferential, c⟩) ⟨m, hm, .unwrap, by
        unfold fromCompactSerde
        simp only [ht, Props.C52_title_panics _ _ ⟨g.stage⟩ h22, Res.error_bind]⟩
    rw [he]
    exact ⟨e, rfl⟩

end MethodLib

/-- What is read back of any library: methods of the library under their titles in lower case, and one
method for each title up to case. -/
theorem MethodLib.json_back (lower : String → String)
    (order : List ((Stage × FullClass) × List CompactMethod) → List ((Stage × FullClass) × List CompactMethod))
    (ho : ∀ l, (order l).Perm l) (lib : MethodLib)
    (hs : ∀ stage key c, lib.Holds stage key c → 1 ≤ stage.numBells ∧ stage.numBells ≤ 22) :
    ∃ json lib', lib.toJson order = .ok json ∧ MethodLib.fromJson lower json = .ok (some lib') ∧
      (∀ stage key c, lib'.Holds stage key c → key = lower c.title ∧ ∃ k, lib.Holds stage k c) ∧
      ∀ stage k c, lib.Holds stage k c → ∃ c', lib'.Holds stage (lower c.title) c' := by
  -- groups have members
  have hmem : ∀ g ∈ order lib.grouped.entries, ∀ c ∈ g.2, c.fullClass = g.1.2 ∧
      ∃ key, lib.Holds g.1.1 key c := by
    intro g hg c hc
    exact (MethodLib.mem_grouped lib g.1.1 g.1.2 c).1 ⟨g.2, (ho _).mem_iff.1 hg, hc⟩
  have hne : ∀ g ∈ order lib.grouped.entries, g.2 ≠ [] := by
    intro g hg
    exact MethodLib.grouped_ne_nil lib g ((ho _).mem_iff.1 hg)
  have hstage : ∀ g ∈ order lib.grouped.entries, 1 ≤ g.1.1.numBells ∧ g.1.1.numBells ≤ 22 := by
    intro g hg
    obtain ⟨c, hc⟩ := List.exists_mem_of_ne_nil _ (hne g hg)
    obtain ⟨-, key, h⟩ := hmem g hg c hc
    exact hs _ _ _ h
  have hgroup : ∀ g ∈ order lib.grouped.entries, ∃ g', MethodLib.toGroup g = .ok g' ∧
      MethodLib.readGroup g' = .ok ⟨g.1.1, g.2⟩ ∧ g'.stage ≤ 22 ∧ g'.classId < 256 := by
    intro g hg
    exact MethodLib.readGroup_toGroup g (hstage g hg) fun c hc => (hmem g hg c hc).1
  obtain ⟨gs, h1, h2, h3⟩ : ∃ gs, (order lib.grouped.entries).mapM MethodLib.toGroup = .ok gs ∧
      gs.mapM MethodLib.readGroup = .ok ((order lib.grouped.entries).map fun g => ⟨g.1.1, g.2⟩) ∧
      ∀ g ∈ gs, g.stage ≤ 22 ∧ g.classId < 256 := by
    generalize order lib.grouped.entries = L at hgroup
    induction L with
    | nil => exact ⟨[], rfl, rfl, by simp⟩
    | cons g L ih =>
      obtain ⟨g', e1, e2, e3⟩ := hgroup g (List.mem_cons.2 (.inl rfl))
      obtain ⟨gs, e4, e5, e6⟩ := ih fun g hg => hgroup g (List.mem_cons.2 (.inr hg))
      refine ⟨g' :: gs, ?_, ?_, ?_⟩
      · rw [List.mapM_cons, e1, e4]
        rfl
      · rw [List.mapM_cons, e2, e5]
        rfl
      · intro x hx
        rcases List.mem_cons.1 hx with rfl | hx
        · exact e3
        · exact e6 x hx
  have hjson : (Json.obj [("groups", .arr (gs.map MethodGroup.toJson))]).asLibSerde = some gs := by
    apply Json.asLibSerde_groups
    intro g hg
    obtain ⟨h4, h5⟩ := h3 g hg
    exact ⟨Json.asUnsigned_small 64 _ (by decide) (by omega), Json.asUnsigned_small 8 _ (by decide) h5⟩
  refine ⟨.obj [("groups", .arr (gs.map MethodGroup.toJson))],
    ((order lib.grouped.entries).map fun g => (⟨g.1.1, g.2⟩ : MethodLib.ReadGroup)).foldl
      (fun lib r => lib.addMethods lower r.stage r.methods) ⟨HashMap.empty⟩, ?_, ?_, ?_⟩
  · unfold MethodLib.toJson MethodLib.toSerde
    rw [h1]
    rfl
  · unfold MethodLib.fromJson
    rw [hjson]
    simp only [MethodLib.fromSerde, MethodLib.foldlM_addGroup, h2, Res.ok_bind, Res.pure_eq]
  · generalize hrs : ((order lib.grouped.entries).map
        fun g => (⟨g.1.1, g.2⟩ : MethodLib.ReadGroup)) = rs
    constructor
    · intro s key c hc
      rw [← MethodLib.find_eq_some] at hc
      rcases (MethodLib.find_foldl lower rs ⟨HashMap.empty⟩ s key).1 c hc with h | ⟨r, hr, rfl, hcr, ht⟩
      · simp [MethodLib.find] at h
      · rw [← hrs] at hr
        obtain ⟨g, hg, rfl⟩ := List.mem_map.1 hr
        exact ⟨ht.symm, (hmem g hg c hcr).2⟩
    · intro s key c hc
      obtain ⟨l, hl, hcl⟩ := (MethodLib.mem_grouped lib s c.fullClass c).2 ⟨rfl, key, hc⟩
      obtain ⟨c', hc'⟩ := (MethodLib.find_foldl lower rs ⟨HashMap.empty⟩ s (lower c.title)).2
        (.inr ⟨⟨s, l⟩, hrs ▸ List.mem_map.2 ⟨_, (ho _).mem_iff.2 hl, rfl⟩, rfl, c, hcl, rfl⟩)
      exact ⟨c', (MethodLib.find_eq_some _ _ _ _).1 hc'⟩

/-! ## The JSON format -/

namespace Json

theorem field_eq_some_some (fields : List (String × Json)) (name : String) (v : Json) :
    field fields name = some (some v) ↔ HasField fields name v := by
  induction fields with
  | nil =>
    refine ⟨by simp [field], ?_⟩
    rintro ⟨a, b, h, -⟩
    simp at h
  | cons f fs ih =>
    by_cases hf : f.1 = name
    · have hfilter : (f :: fs).filter (fun f => f.1 = name) = f :: fs.filter (fun f => f.1 = name) := by
        simp [hf]
      constructor
      · intro h
        unfold field at h
        rw [hfilter] at h
        cases hfs : fs.filter (fun f => f.1 = name) with
        | nil =>
          rw [hfs] at h
          simp only [Option.some.injEq] at h
          refine ⟨[], fs, by simp [← h, ← hf], ?_⟩
          intro g hg he
          have : g ∈ fs.filter (fun f => f.1 = name) := List.mem_filter.2 ⟨by simpa using hg, by simpa using he⟩
          rw [hfs] at this
          cases this
        | cons g gs =>
          rw [hfs] at h
          simp at h
      · rintro ⟨a, b, h, hne⟩
        cases a with
        | nil =>
          simp only [List.nil_append, List.cons.injEq] at h
          obtain ⟨rfl, rfl⟩ := h
          have : fs.filter (fun f => f.1 = name) = [] := by
            rw [List.filter_eq_nil_iff]
            intro g hg
            simpa using hne g (by simpa using hg)
          unfold field
          rw [hfilter, this]
        | cons g a =>
          simp only [List.cons_append, List.cons.injEq] at h
          exact absurd (h.1 ▸ hf) (hne g (by simp))
    · have hfield : field (f :: fs) name = field fs name := by simp [field, hf]
      rw [hfield, ih]
      constructor
      · rintro ⟨a, b, rfl, hne⟩
        refine ⟨f :: a, b, rfl, ?_⟩
        intro g hg
        rcases List.mem_cons.1 (by simpa using hg : g ∈ f :: (a ++ b)) with rfl | hg
        · exact hf
        · exact hne g hg
      · rintro ⟨a, b, h, hne⟩
        cases a with
        | nil =>
          simp only [List.nil_append, List.cons.injEq] at h
          exact absurd (by rw [h.1]) hf
        | cons g a =>
          simp only [List.cons_append, List.cons.injEq] at h
          obtain ⟨rfl, rfl⟩ := h
          exact ⟨a, b, rfl, fun g hg => hne g (by simpa using .inr (by simpa using hg))⟩

theorem field_eq_some_none (fields : List (String × Json)) (name : String) :
    field fields name = some none ↔ LacksField fields name := by
  unfold field LacksField
  split
  · rename_i h
    rw [List.filter_eq_nil_iff] at h
    simpa using h
  · rename_i f h
    simp only [Option.some.injEq, reduceCtorEq, false_iff]
    intro hno
    have hm : f ∈ fields.filter (fun f => f.1 = name) := by rw [h]; simp
    rw [List.mem_filter] at hm
    exact hno f hm.1 (by simpa using hm.2)
  · rename_i h1 h2
    simp only [reduceCtorEq, false_iff]
    intro hno
    exact h1 (List.filter_eq_nil_iff.2 (by simpa using hno))

theorem requiredField_eq_some (fields : List (String × Json)) (name : String) (v : Json) :
    requiredField fields name = some v ↔ HasField fields name v := by
  rw [← field_eq_some_some]
  unfold requiredField
  split
  · rename_i w h
    rw [h]
    simp
  · rename_i h
    exact ⟨nofun, fun h' => absurd h' (h v)⟩

theorem asString_eq_some (j : Json) (s : String) : j.asString = some s ↔ j = .str s := by
  cases j <;> simp [asString]

theorem asBool_eq_some (j : Json) (b : Bool) : j.asBool = some b ↔ j = .bool b := by
  cases j <;> simp [asBool]

theorem asOptString_eq_some (j : Json) (t : Option String) : j.asOptString = some t ↔ TitleIs j t := by
  cases j <;> simp [asOptString, TitleIs, eq_comm]

theorem asUnsigned_eq_some (bits : Nat) (j : Json) (k : Nat) :
    j.asUnsigned bits = some k ↔ j = .num k ∧ k < 2 ^ bits := by
  cases j with
  | num n =>
    simp only [asUnsigned, num.injEq]
    constructor
    · intro h
      split at h
      · rename_i hn
        obtain rfl := Option.some.inj h
        refine ⟨by omega, ?_⟩
        have h2 := hn.2
        have h3 : ((n.toNat : Nat) : Int) < ((2 ^ bits : Nat) : Int) := by
          rw [Int.toNat_of_nonneg hn.1]
          exact_mod_cast h2
        exact_mod_cast h3
      · cases h
    · rintro ⟨rfl, hk⟩
      have : (0 : Int) ≤ k ∧ (k : Int) < 2 ^ bits := ⟨by omega, by exact_mod_cast hk⟩
      rw [if_pos this]
      simp
  | _ => simp [asUnsigned]

theorem boolFieldOrFalse_eq_some (fields : List (String × Json)) (name : String) (b : Bool) :
    boolFieldOrFalse fields name = some b ↔ FlagIs fields name b := by
  unfold boolFieldOrFalse FlagIs
  rw [← field_eq_some_some, ← field_eq_some_none]
  split
  · rename_i v h
    rw [h, asBool_eq_some]
    simp
  · rename_i h
    rw [h]
    simp [eq_comm]
  · rename_i h
    rw [h]
    simp

theorem mapM_eq_some_iff {α β : Type} (f : α → Option β) (xs : List α) (ys : List β) :
    xs.mapM f = some ys ↔ List.Forall₂ (fun y x => f x = some y) ys xs := by
  induction xs generalizing ys with
  | nil =>
    rw [List.mapM_nil]
    cases ys <;> simp [pure]
  | cons x xs ih =>
    rw [List.mapM_cons]
    cases ys with
    | nil =>
      simp only [List.forall₂_nil_left_iff, reduceCtorEq, iff_false]
      cases f x with
      | none => simp
      | some z =>
        cases xs.mapM f with
        | none => simp
        | some zs => simp
    | cons y ys =>
      rw [List.forall₂_cons, ← ih]
      cases f x with
      | none => simp
      | some z =>
        cases xs.mapM f with
        | none => simp
        | some zs => simp

theorem asCompactMethod_eq_some (j : Json) (m : CompactMethodSerde) :
    j.asCompactMethod = some m ↔ MethodJson m j := by
  obtain ⟨title, name, pn⟩ := m
  unfold MethodJson
  cases j with
  | obj fields =>
    simp only [obj.injEq, reduceCtorEq, false_and, exists_false, or_false]
    have hrest : ∀ t : Option String, ((requiredField fields "n").bind fun n => n.asString.bind fun n =>
        (requiredField fields "p").bind fun p => p.asString.bind fun p =>
          some (⟨t, n, p⟩ : CompactMethodSerde)) = some ⟨title, name, pn⟩ ↔
        t = title ∧ HasField fields "n" (.str name) ∧ HasField fields "p" (.str pn) := by
      intro t
      simp only [Option.bind_eq_some_iff, Option.some.injEq, CompactMethodSerde.mk.injEq,
        requiredField_eq_some, asString_eq_some]
      constructor
      · rintro ⟨_, h2, _, rfl, _, h3, _, rfl, rfl, rfl, rfl⟩
        exact ⟨rfl, h2, h3⟩
      · rintro ⟨rfl, h2, h3⟩
        exact ⟨_, h2, _, rfl, _, h3, _, rfl, rfl, rfl, rfl⟩
    have hex : (∃ fields', fields = fields' ∧
        ((∃ t, HasField fields' "t" t ∧ TitleIs t title) ∨ LacksField fields' "t" ∧ title = none) ∧
        HasField fields' "n" (.str name) ∧ HasField fields' "p" (.str pn)) ↔
        ((∃ t, HasField fields "t" t ∧ TitleIs t title) ∨ LacksField fields "t" ∧ title = none) ∧
        HasField fields "n" (.str name) ∧ HasField fields "p" (.str pn) :=
      ⟨fun ⟨_, e, h⟩ => e ▸ h, fun h => ⟨fields, rfl, h⟩⟩
    rw [hex]
    simp only [← field_eq_some_some _ "t", ← field_eq_some_none, ← asOptString_eq_some]
    rw [asCompactMethod]
    cases hf : field fields "t" with
    | none => simp
    | some o =>
      cases o with
      | none =>
        refine (hrest none).trans ?_
        simp [eq_comm]
      | some v =>
        cases hv : v.asOptString with
        | none => simp [hv]
        | some t =>
          have := hrest t
          simp only [hv, Option.bind_eq_bind, Option.pure_def, Option.bind_some, this]
          simp [hv]
  | arr xs =>
    simp only [reduceCtorEq, false_and, exists_false, false_or, arr.injEq]
    constructor
    · intro h
      unfold asCompactMethod at h
      split at h
      · rename_i h'
        cases h'
      · rename_i t n p h'
        obtain rfl := arr.inj h'
        simp only [Option.bind_eq_bind, Option.bind_eq_some_iff, Option.pure_def,
          Option.some.injEq, CompactMethodSerde.mk.injEq, asString_eq_some, asOptString_eq_some] at h
        obtain ⟨_, h1, _, rfl, _, rfl, rfl, rfl, rfl⟩ := h
        exact ⟨t, rfl, h1⟩
      · cases h
    · rintro ⟨t, rfl, h⟩
      rw [← asOptString_eq_some] at h
      simp [asCompactMethod, h, asString]
  | _ => simp [asCompactMethod]

theorem asMethods_eq_some (j : Json) (ms : List CompactMethodSerde) :
    j.asMethods = some ms ↔ ∃ xs, j = .arr xs ∧ List.Forall₂ MethodJson ms xs := by
  cases j with
  | arr xs =>
    simp only [asMethods, mapM_eq_some_iff, asCompactMethod_eq_some, arr.injEq]
    constructor
    · intro h
      exact ⟨xs, rfl, h⟩
    · rintro ⟨_, rfl, h⟩
      exact h
  | _ => simp [asMethods]

theorem asGroup_eq_some (j : Json) (g : MethodGroup) : j.asGroup = some g ↔ GroupJson g j := by
  obtain ⟨s, jump, little, diff, c, ms⟩ := g
  unfold GroupJson
  cases j with
  | obj fields =>
    simp only [asGroup, Option.bind_eq_bind, Option.bind_eq_some_iff, Option.pure_def,
      Option.some.injEq, MethodGroup.mk.injEq, requiredField_eq_some, asUnsigned_eq_some, obj.injEq,
      boolFieldOrFalse_eq_some, asMethods_eq_some, reduceCtorEq, or_false]
    constructor
    · rintro ⟨_, h1, _, ⟨rfl, h2⟩, _, h3, _, h4, _, h5, _, h6, _, ⟨rfl, h7⟩, _, h8, _, ⟨xs, rfl, h9⟩,
        rfl, rfl, rfl, rfl, rfl, rfl⟩
      exact ⟨h2, h7, xs, h9, fields, rfl, h1, h3, h4, h5, h6, h8⟩
    · rintro ⟨h2, h7, xs, h9, _, rfl, h1, h3, h4, h5, h6, h8⟩
      exact ⟨_, h1, _, ⟨rfl, h2⟩, _, h3, _, h4, _, h5, _, h6, _, ⟨rfl, h7⟩, _, h8, _, ⟨xs, rfl, h9⟩,
        rfl, rfl, rfl, rfl, rfl, rfl⟩
  | arr xs =>
    simp only [reduceCtorEq, false_and, exists_false, false_or, arr.injEq]
    constructor
    · intro h
      unfold asGroup at h
      split at h
      · rename_i h'
        cases h'
      · rename_i a1 a2 a3 a4 a5 a6 h'
        obtain rfl := arr.inj h'
        simp only [Option.bind_eq_bind, Option.bind_eq_some_iff, Option.pure_def,
          Option.some.injEq, MethodGroup.mk.injEq, asUnsigned_eq_some, asBool_eq_some,
          asMethods_eq_some] at h
        obtain ⟨_, ⟨rfl, h2⟩, _, rfl, _, rfl, _, rfl, _, ⟨rfl, h7⟩, _, ⟨xs, rfl, h9⟩,
          rfl, rfl, rfl, rfl, rfl, rfl⟩ := h
        exact ⟨h2, h7, xs, h9, rfl⟩
      · cases h
    · rintro ⟨h2, h7, ys, h9, rfl⟩
      have e1 := (asUnsigned_eq_some 64 (.num s) s).2 ⟨rfl, h2⟩
      have e2 := (asUnsigned_eq_some 8 (.num c) c).2 ⟨rfl, h7⟩
      have e3 := (asMethods_eq_some (.arr ys) ms).2 ⟨ys, rfl, h9⟩
      simp only [asGroup, e1, e2, e3, asBool]
      rfl
  | _ => simp [asGroup]

theorem asLibSerde_eq_some (j : Json) (gs : List MethodGroup) :
    j.asLibSerde = some gs ↔ LibJson gs j := by
  have hgroups : ∀ j : Json, j.asGroups = some gs ↔ ∃ xs, j = .arr xs ∧ List.Forall₂ GroupJson gs xs := by
    intro j
    cases j with
    | arr xs =>
      simp only [asGroups, mapM_eq_some_iff, asGroup_eq_some, arr.injEq]
      constructor
      · intro h
        exact ⟨xs, rfl, h⟩
      · rintro ⟨_, rfl, h⟩
        exact h
    | _ => simp [asGroups]
  unfold LibJson
  cases j with
  | obj fields =>
    simp only [asLibSerde, Option.bind_eq_bind, Option.bind_eq_some_iff, requiredField_eq_some, hgroups,
      obj.injEq, reduceCtorEq, or_false]
    constructor
    · rintro ⟨_, h1, xs, rfl, h2⟩
      exact ⟨xs, h2, fields, rfl, h1⟩
    · rintro ⟨xs, h2, _, rfl, h1⟩
      exact ⟨_, h1, xs, rfl, h2⟩
  | arr ys =>
    simp only [reduceCtorEq, false_and, exists_false, false_or, arr.injEq]
    constructor
    · intro h
      unfold asLibSerde at h
      split at h
      · rename_i h'
        cases h'
      · rename_i a h'
        obtain rfl := arr.inj h'
        obtain ⟨xs, rfl, h2⟩ := (hgroups _).1 h
        exact ⟨xs, h2, rfl⟩
      · cases h
    · rintro ⟨xs, h2, rfl⟩
      exact (hgroups _).2 ⟨xs, rfl, h2⟩
  | _ => simp [asLibSerde]

end Json

end Bellframe
