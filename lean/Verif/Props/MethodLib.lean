import Verif.Proofs.MethodLib

/-! # C53, C54, C55, C63: method libraries -/

namespace Bellframe.Props

variable {lower : String → String}

/-! ## C53: lookup -/

/-- Lookup in any library whose keys are lower case titles (as those of all libraries read from JSON
are): a method of the same title up to case is found if its title ends in the name of its stage, and
then either returned or reported to have wrong place notation; nothing else is found. -/
theorem C53_lookup (hl : LowerCase lower) (lib : MethodLib) (hk : lib.Keyed lower) (title : String) :
    (∀ stage key c, lib.Holds stage key c → lower c.title = lower title → TitledFor lower stage c.title →
      (∃ m, IsEntry stage c m ∧ lib.getByTitle lower title = .ok (.ok m)) ∨
      (∃ e, PnBlock.parse c.placeNotation.toList stage = .ok (.error e) ∧
        lib.getByTitle lower title = .ok (.error (.pnParseErr c.placeNotation e)))) ∧
    ((∀ stage key c, lib.Holds stage key c → lower c.title = lower title →
        ¬ TitledFor lower stage c.title) →
      lib.getByTitle lower title = .ok (.error (.notFound ()))) := by
  constructor
  · intro stage key c hc ht hst
    have hkey := hk stage key c hc
    rw [ht] at hkey
    have hst' := hst
    rw [titledFor_iff hl, ht] at hst'
    rw [hkey, ← MethodLib.find_eq_some] at hc
    unfold MethodLib.getByTitle
    rw [MethodLib.getByTitleOption_eq]
    simp only [hst', hc]
    rcases c.toMethod_total stage hst.stage_pos with ⟨e, h1, h2⟩ | ⟨m, h1, h2⟩
    · right
      exact ⟨e, h1, by rw [h2]; rfl⟩
    · left
      exact ⟨m, h1, by rw [h2]; rfl⟩
  · intro h
    unfold MethodLib.getByTitle
    rw [MethodLib.getByTitleOption_eq]
    cases hs : Stage.fromLowerCaseName (lastWord (lower title)) with
    | none => rfl
    | some stage =>
      simp only
      cases hf : lib.find stage (lower title) with
      | none => rfl
      | some c =>
        rw [MethodLib.find_eq_some] at hf
        have hkey := hk _ _ _ hf
        refine absurd ?_ (h _ _ _ hf hkey.symm)
        rw [titledFor_iff hl, ← hkey, hs]

/-- If all titles end in the name of their stage, lookup finds exactly the titles of the library, up to
case. -/
theorem C53_lookup_partial (hl : LowerCase lower) (lib : MethodLib) (hk : lib.Keyed lower)
    (ht : ∀ stage key c, lib.Holds stage key c → TitledFor lower stage c.title) (title : String) :
    lib.getByTitle lower title ≠ .ok (.error (.notFound ())) ↔
      ∃ stage key c, lib.Holds stage key c ∧ lower c.title = lower title := by
  obtain ⟨h1, h2⟩ := C53_lookup hl lib hk title
  constructor
  · intro h
    by_contra hno
    exact h (h2 fun stage key c h3 h4 _ => hno ⟨stage, key, c, h3, h4⟩)
  · rintro ⟨stage, key, c, h3, h4⟩
    rcases h1 stage key c h3 h4 (ht stage key c h3) with ⟨m, -, h⟩ | ⟨e, -, h⟩ <;> rw [h] <;> simp

/-- No two methods that lookup can find have the same title up to case. -/
theorem C53_unique (hl : LowerCase lower) (lib : MethodLib) (hk : lib.Keyed lower) (s s' : Stage)
    (k k' : String) (c c' : CompactMethod) (h : lib.Holds s k c) (h' : lib.Holds s' k' c')
    (hs : TitledFor lower s c.title) (hs' : TitledFor lower s' c'.title)
    (ht : lower c.title = lower c'.title) : s = s' ∧ c = c' := by
  have h1 := hs.unique hl hs' ht
  subst h1
  rw [hk _ _ _ h, ht] at h
  rw [hk _ _ _ h'] at h'
  exact ⟨rfl, h.unique h'⟩

/-- Case does not matter. -/
theorem C53_case (lib : MethodLib) (t t' : String) (h : lower t = lower t') :
    lib.getByTitle lower t = lib.getByTitle lower t' := by
  unfold MethodLib.getByTitle
  rw [h]

theorem generateTitle_titledFor (hl : LowerCase lower) {name : String} {c : FullClass} {stage : Stage}
    {t : String} (h : generateTitle name c stage = .ok t) : TitledFor lower stage t := by
  unfold generateTitle at h
  cases hs : stage.name with
  | none => rw [hs] at h; simp at h
  | some w =>
    rw [hs] at h
    simp only [unwrap_some, Res.ok_bind, Res.pure_eq, Except.ok.injEq] at h
    refine ⟨w, hs, ?_⟩
    by_cases hf : c.fmtName true = ""
    · rw [hf] at h
      simp only [String.append_empty, lt_irrefl, gt_iff_lt, if_false] at h
      by_cases hn : name.isEmpty
      · left
        have : name = "" := by simpa using hn
        rw [← h, this]
        simp
      · right
        rw [if_pos (by simpa using hn)] at h
        refine ⟨lower name, ?_⟩
        rw [← h, ← hl.words]
        simp
    · right
      rw [if_pos (by
        rw [gt_iff_lt, String.utf8ByteSize_append]
        have : (c.fmtName true).utf8ByteSize ≠ 0 := by
          intro h0
          exact hf (String.utf8ByteSize_eq_zero_iff.1 h0)
        omega)] at h
      rw [← h, hl.words]
      exact ⟨_, rfl⟩

/-- Libraries read from JSON have lower case titles as keys. If the titles given explicitly end in the
name of the stage, so do all titles. -/
theorem C53_from_json (hl : LowerCase lower) (json : Json) (lib : MethodLib)
    (h : MethodLib.fromJson lower json = .ok (some lib)) :
    lib.Keyed lower ∧ ∃ groups, json.asLibSerde = some groups ∧
      ((∀ g ∈ groups, ∀ m ∈ g.methods, ∀ t, m.title = some t → TitledFor lower ⟨g.stage⟩ t) →
        ∀ stage key c, lib.Holds stage key c → TitledFor lower stage c.title) := by
  unfold MethodLib.fromJson at h
  cases hj : json.asLibSerde with
  | none => rw [hj] at h; simp at h
  | some groups =>
    rw [hj] at h
    simp only [MethodLib.fromSerde, MethodLib.foldlM_addGroup] at h
    cases hm : groups.mapM MethodLib.readGroup with
    | error e => rw [hm] at h; simp at h
    | ok rs =>
      rw [hm] at h
      simp only [Res.ok_bind, Res.pure_eq, Except.ok.injEq, Option.some.injEq] at h
      have hfind : ∀ s key c, lib.Holds s key c →
          ∃ r ∈ rs, s = r.stage ∧ c ∈ r.methods ∧ lower c.title = key := by
        intro s key c hc
        rw [← MethodLib.find_eq_some, ← h] at hc
        rcases (MethodLib.find_foldl lower rs ⟨HashMap.empty⟩ s key).1 c hc with h' | h'
        · simp [MethodLib.find] at h'
        · exact h'
      constructor
      · intro s key c hc
        obtain ⟨r, -, -, -, h1⟩ := hfind s key c hc
        exact h1.symm
      · refine ⟨groups, rfl, ?_⟩
        intro ht s key c hc
        obtain ⟨r, hr, rfl, hcr, -⟩ := hfind s key c hc
        obtain ⟨g, hg, hrg⟩ := (MethodLib.mapM_ok_mem hm).1 r hr
        have htg := ht g hg
        unfold MethodLib.readGroup at hrg
        cases hs : Stage.new g.stage with
        | error e => rw [hs] at hrg; simp at hrg
        | ok stage =>
          have hstage : stage = ⟨g.stage⟩ := by
            unfold Stage.new Stage.tryFrom at hs
            split_ifs at hs
            · cases hs
            · exact (Except.ok.inj hs).symm
          rw [hs] at hrg
          simp only [Res.ok_bind] at hrg
          cases hcl : fromClassId g.classId with
          | error e => rw [hcl] at hrg; simp at hrg
          | ok o =>
            rw [hcl] at hrg
            simp only [Res.ok_bind] at hrg
            cases o with
            | none => simp at hrg
            | some cl =>
              simp only [unwrap_some, Res.ok_bind] at hrg
              cases hms : g.methods.mapM (MethodLib.fromCompactSerde stage
                  ⟨g.isJump, g.isLittle, g.isDifferential, cl⟩) with
              | error e => rw [hms] at hrg; simp at hrg
              | ok ms =>
                rw [hms] at hrg
                simp only [Res.ok_bind, Res.pure_eq, Except.ok.injEq] at hrg
                subst hrg
                obtain ⟨m, hmm, hmc⟩ := (MethodLib.mapM_ok_mem hms).1 c hcr
                unfold MethodLib.fromCompactSerde at hmc
                cases hmt : m.title with
                | some t =>
                  rw [hmt] at hmc
                  simp only [Res.ok_bind, Res.pure_eq, Except.ok.injEq] at hmc
                  subst hmc
                  simp only
                  rw [hstage]
                  exact htg m hmm t hmt
                | none =>
                  rw [hmt] at hmc
                  simp only at hmc
                  cases hgt : generateTitle m.name ⟨g.isJump, g.isLittle, g.isDifferential, cl⟩ stage with
                  | error e => rw [hgt] at hmc; simp at hmc
                  | ok t =>
                    rw [hgt] at hmc
                    simp only [Res.ok_bind, Res.pure_eq, Except.ok.injEq] at hmc
                    subst hmc
                    exact generateTitle_titledFor hl hgt

/-- The JSON of a library with one method of four bells, of the given title. -/
def jsonWithTitle (title : String) : Json :=
  .obj [("groups", .arr [.obj [("s", .num 4), ("c", .num 2), ("m", .arr [.obj [("t", .str title),
    ("n", .str "Foo"), ("p", .str "x14")]])]])]

theorem fromJson_jsonWithTitle (lower : String → String) (title : String) :
    ∃ lib, MethodLib.fromJson lower (jsonWithTitle title) = .ok (some lib) ∧
      lib.Holds ⟨4⟩ (lower title) ⟨"Foo", title, ⟨false, false, false, .bob⟩, "x14"⟩ := by
  refine ⟨⟨⟨[(⟨4⟩, ⟨[(lower title, ⟨"Foo", title, ⟨false, false, false, .bob⟩, "x14"⟩)], by simp⟩)],
    by simp⟩⟩, rfl, ?_⟩
  exact ⟨_, List.mem_singleton.2 rfl, List.mem_singleton.2 rfl⟩

/-- A method whose title does not end in the name of its stage is in the library but never found. -/
theorem C53_untitled_false (hl : LowerCase lower) :
    ∃ json lib stage key c, MethodLib.fromJson lower json = .ok (some lib) ∧ lib.Holds stage key c ∧
      lib.getByTitle lower c.title = .ok (.error (.notFound ())) := by
  obtain ⟨lib, h1, h2⟩ := fromJson_jsonWithTitle lower "Foo"
  refine ⟨_, lib, _, _, _, h1, h2, ?_⟩
  simp only [MethodLib.getByTitle, MethodLib.getByTitleOption, hl.ascii "Foo" (by decide)]
  have : Stage.fromLowerCaseName (lastWord (String.ofList (("Foo" : String).toList.map Char.toLower))) = none := by
    decide +kernel
  rw [this]
  rfl

/-! ## C54: suggestions -/

/-- Looking up with suggestions agrees with plain lookup; if the title is not found, the suggestions are
titles of the library with their distances from the title (in lower case), the closest first, as many as
asked for (or all), and no title left out is closer than one of them. -/
theorem C54_suggestions (hl : LowerCase lower) (dist : String → String → Nat) (shortlist : ShortlistFn)
    (num : Nat) (hs : IsShortlist num shortlist) (lib : MethodLib) (hk : lib.Keyed lower) (title : String) :
    (∀ m, lib.getByTitle lower title = .ok (.ok m) →
      lib.getByTitleWithSuggestions lower dist shortlist title num = .ok (.ok m)) ∧
    (∀ pn e, lib.getByTitle lower title = .ok (.error (.pnParseErr pn e)) →
      lib.getByTitleWithSuggestions lower dist shortlist title num = .ok (.error (.pnParseErr pn e))) ∧
    (lib.getByTitle lower title = .ok (.error (.notFound ())) →
      ∃ out left, lib.getByTitleWithSuggestions lower dist shortlist title num =
          .ok (.error (.notFound out)) ∧
        out.length = min num lib.all.length ∧ out.Pairwise (fun a b => a.2 ≤ b.2) ∧
        (out ++ left).Perm
          (lib.all.map fun e => (e.2.2.title, dist (lower title) (lower e.2.2.title))) ∧
        ∀ x ∈ left, ∀ y ∈ out, y.2 ≤ x.2) := by
  have hlow : lib.getByTitle lower (lower title) = lib.getByTitle lower title :=
    C53_case lib _ _ (hl.idem title)
  unfold MethodLib.getByTitleWithSuggestions
  simp only [hlow]
  refine ⟨?_, ?_, ?_⟩
  · intro m h
    rw [h]
    rfl
  · intro pn e h
    rw [h]
    rfl
  · intro h
    rw [h]
    set pushed := lib.methodMap.entries.flatMap fun methods =>
      methods.2.entries.map fun e => (e.2.title, dist (lower title) e.1) with hp
    have hpush : pushed =
        lib.all.map fun e => (e.2.2.title, dist (lower title) (lower e.2.2.title)) := by
      rw [hp]
      unfold MethodLib.all
      rw [List.map_flatMap]
      apply List.flatMap_congr
      intro ms hms
      rw [List.map_map]
      apply List.map_congr_left
      intro e he
      have := hk ms.1 e.1 e.2 ⟨ms.2, hms, he⟩
      simp only [Function.comp_apply]
      rw [← this]
    obtain ⟨h1, h2, left, h3, h4⟩ := hs compareSuggestions (fun x => -(x.2 : Int)) (by
      intro a b
      unfold compareSuggestions
      rcases lt_trichotomy a.2 b.2 with h | h | h
      · rw [compare_lt_iff_lt.2 h, compare_gt_iff_gt.2 (by omega)]
        rfl
      · rw [compare_eq_iff_eq.2 h, compare_eq_iff_eq.2 (by omega)]
        rfl
      · rw [compare_gt_iff_gt.2 h, compare_lt_iff_lt.2 (by omega)]
        rfl) pushed
    refine ⟨_, left, rfl, ?_, ?_, ?_, ?_⟩
    · unfold MethodLib.generateSuggestions
      rw [List.length_reverse, ← hp, h1, hpush, List.length_map]
    · unfold MethodLib.generateSuggestions
      rw [List.pairwise_reverse]
      exact h2.imp fun h => by omega
    · rw [← hpush]
      exact ((List.reverse_perm _).append_right _).trans h3
    · intro x hx y hy
      unfold MethodLib.generateSuggestions at hy
      rw [List.mem_reverse] at hy
      have := h4 x hx y hy
      omega

/-! ## C55: JSON round trip -/

/-- Writing a library as JSON and reading it back gives a library with the same methods, in whatever order
maps are iterated. -/
theorem C55_round_trip (lower : String → String)
    (order : List ((Stage × FullClass) × List CompactMethod) → List ((Stage × FullClass) × List CompactMethod))
    (ho : ∀ l, (order l).Perm l) (lib : MethodLib) (hk : lib.Keyed lower)
    (hs : ∀ stage key c, lib.Holds stage key c → 1 ≤ stage.numBells ∧ stage.numBells ≤ 22) :
    ∃ json lib', lib.toJson order = .ok json ∧ MethodLib.fromJson lower json = .ok (some lib') ∧
      (∀ stage key c, lib'.Holds stage key c ↔ lib.Holds stage key c) ∧ lib'.all.Perm lib.all := by
  obtain ⟨json, lib', h1, h2, h3, h4⟩ := MethodLib.json_back lower order ho lib hs
  refine ⟨json, lib', h1, h2, ?_⟩
  have hback : ∀ s key c, lib'.Holds s key c → lib.Holds s key c := by
    intro s key c hc
    obtain ⟨rfl, k, h⟩ := h3 s key c hc
    rw [← hk _ _ _ h]
    exact h
  have h : ∀ s key c, lib'.Holds s key c ↔ lib.Holds s key c := by
    intro s key c
    refine ⟨hback s key c, fun hc => ?_⟩
    obtain ⟨c', hc'⟩ := h4 s key c hc
    rw [← hk _ _ _ hc] at hc'
    rw [(hback _ _ _ hc').unique hc] at hc'
    exact hc'
  refine ⟨h, ?_⟩
  rw [List.perm_ext_iff_of_nodup (MethodLib.nodup_all _) (MethodLib.nodup_all _)]
  rintro ⟨s, k, c⟩
  rw [MethodLib.mem_all, MethodLib.mem_all]
  exact h s k c

/-- Any library, whatever its keys: what is read back are methods of the library, under their titles in
lower case. Of methods of one stage whose titles are the same up to case, one is read back. -/
theorem C55_any_keys (lower : String → String)
    (order : List ((Stage × FullClass) × List CompactMethod) → List ((Stage × FullClass) × List CompactMethod))
    (ho : ∀ l, (order l).Perm l) (lib : MethodLib)
    (hs : ∀ stage key c, lib.Holds stage key c → 1 ≤ stage.numBells ∧ stage.numBells ≤ 22) :
    ∃ json lib', lib.toJson order = .ok json ∧ MethodLib.fromJson lower json = .ok (some lib') ∧
      (∀ stage key c, lib'.Holds stage key c → key = lower c.title ∧ ∃ k, lib.Holds stage k c) ∧
      ∀ stage k c, lib.Holds stage k c → ∃ c', lib'.Holds stage (lower c.title) c' :=
  MethodLib.json_back lower order ho lib hs

/-- Lookups in a library read back give the same results. -/
theorem C55_same_lookups (lib lib' : MethodLib)
    (h : ∀ stage key c, lib'.Holds stage key c ↔ lib.Holds stage key c) (title : String) :
    lib'.getByTitle lower title = lib.getByTitle lower title := by
  have hf : lib'.find = lib.find := by
    funext s k
    apply Option.ext
    intro c
    rw [MethodLib.find_eq_some, MethodLib.find_eq_some, h]
  unfold MethodLib.getByTitle
  rw [MethodLib.getByTitleOption_eq, MethodLib.getByTitleOption_eq, hf]

/-- Libraries with a method of more than 22 bells cannot be written: `to_json` panics. -/
theorem C55_large_stage (order : List ((Stage × FullClass) × List CompactMethod) →
      List ((Stage × FullClass) × List CompactMethod)) (ho : ∀ l, (order l).Perm l) (lib : MethodLib)
    (h : ∃ stage key c, lib.Holds stage key c ∧ 22 < stage.numBells) :
    ∃ p, lib.toJson order = .error p := by
  obtain ⟨s, key, c, hc, hs⟩ := h
  obtain ⟨l, hl, hcl⟩ := (MethodLib.mem_grouped lib s c.fullClass c).2 ⟨rfl, key, hc⟩
  obtain ⟨e, he⟩ : ∃ e, (order lib.grouped.entries).mapM MethodLib.toGroup = .error e := by
    apply MethodLib.mapM_error_of_exists
    refine ⟨_, (ho _).mem_iff.2 hl, ?_⟩
    obtain ⟨e, he⟩ := MethodLib.mapM_error_of_exists (l := l)
      (f := MethodLib.toCompactSerde s c.fullClass) ⟨c, hcl, .unwrap, by
        unfold MethodLib.toCompactSerde
        rw [C52_title_panics _ _ _ hs]
        rfl⟩
    refine ⟨e, ?_⟩
    unfold MethodLib.toGroup
    simp only [he, Res.error_bind]
  refine ⟨e, ?_⟩
  unfold MethodLib.toJson MethodLib.toSerde
  rw [he]
  rfl

/-- Such libraries can be read from JSON. -/
theorem C55_large_stage_witness (lower : String → String) :
    ∃ json lib, MethodLib.fromJson lower json = .ok (some lib) ∧
      ∃ stage key c, lib.Holds stage key c ∧ 22 < stage.numBells :=
  ⟨.obj [("groups", .arr [.obj [("s", .num 23), ("c", .num 2), ("m", .arr [.obj [("t", .str "Foo"),
    ("n", .str "Foo"), ("p", .str "x")]])]])],
    ⟨⟨[(⟨23⟩, ⟨[(lower "Foo", ⟨"Foo", "Foo", ⟨false, false, false, .bob⟩, "x"⟩)], by simp⟩)], by simp⟩⟩,
    rfl, ⟨23⟩, lower "Foo", _, ⟨_, List.mem_singleton.2 rfl, List.mem_singleton.2 rfl⟩, by decide⟩

/-! ## C63: reading JSON -/

/-- `from_json` of JSON with the right structure: exactly when it panics. -/
theorem C63_from_json_partial (lower : String → String) (json : Json) :
    (json.asLibSerde = none → MethodLib.fromJson lower json = .ok none) ∧
    ∀ groups, json.asLibSerde = some groups →
      ((∀ g ∈ groups, ¬ BadGroup g) → ∃ lib, MethodLib.fromJson lower json = .ok (some lib)) ∧
      ((∃ g ∈ groups, BadGroup g) → ∃ p, MethodLib.fromJson lower json = .error p) := by
  constructor
  · intro h
    unfold MethodLib.fromJson
    rw [h]
  · intro groups h
    unfold MethodLib.fromJson
    rw [h]
    simp only [MethodLib.fromSerde, MethodLib.foldlM_addGroup]
    constructor
    · intro hg
      obtain ⟨rs, hrs⟩ := MethodLib.mapM_ok_of_forall (f := MethodLib.readGroup) (l := groups)
        fun g hgm => MethodLib.readGroup_ok g fun hb => hg g hgm hb
      rw [hrs]
      exact ⟨_, rfl⟩
    · rintro ⟨g, hgm, hb⟩
      obtain ⟨e, he⟩ := MethodLib.mapM_error_of_exists (f := MethodLib.readGroup) (l := groups)
        ⟨g, hgm, MethodLib.readGroup_error g hb⟩
      rw [he]
      exact ⟨e, rfl⟩

/-- `from_json` panics on some JSON of the right structure: an unknown class, no bells, or the title of a
method of many bells missing. -/
theorem C63_false (lower : String → String) :
    (∃ json, MethodLib.fromJson lower json = .error .explicit) ∧
    (∃ json, MethodLib.fromJson lower json = .error .unwrap) :=
  ⟨⟨.obj [("groups", .arr [.obj [("s", .num 4), ("c", .num 9), ("m", .arr [])]])], rfl⟩,
    ⟨.obj [("groups", .arr [.obj [("s", .num 0), ("c", .num 1), ("m", .arr [])]])], rfl⟩⟩

/-! ## C67: the JSON format -/

/-- `from_json` reads exactly the JSON of the format, in which fields come in any order, other fields are
ignored, flags that are not set and titles may be left out and objects may be written as arrays. All
JSON for the same groups of methods is read as the same library; all other JSON is an error. -/
theorem C67_format (lower : String → String) (json : Json) :
    (∀ groups, LibJson groups json →
      (∀ groups', LibJson groups' json → groups' = groups) ∧
      MethodLib.fromJson lower json = (MethodLib.fromSerde lower groups).map some) ∧
    ((¬ ∃ groups, LibJson groups json) → MethodLib.fromJson lower json = .ok none) := by
  simp only [← Json.asLibSerde_eq_some]
  constructor
  · intro groups h
    constructor
    · intro groups' h'
      exact Option.some.inj (h'.symm.trans h)
    · simp only [MethodLib.fromJson, h]
      cases MethodLib.fromSerde lower groups <;> rfl
  · intro h
    cases hs : json.asLibSerde with
    | none => rw [MethodLib.fromJson, hs]
    | some groups => exact absurd ⟨groups, hs⟩ h

/-- The order of the fields of the top object, and other fields in it, do not matter. -/
theorem C67_fields (lower : String → String) (fields fields' : List (String × Json)) (v : Json)
    (h : HasField fields "groups" v) (h' : HasField fields' "groups" v) :
    MethodLib.fromJson lower (.obj fields) = MethodLib.fromJson lower (.obj fields') := by
  rw [← Json.requiredField_eq_some] at h h'
  simp only [MethodLib.fromJson, Json.asLibSerde, h, h']

/-- An example: a group written as an object, with another field, is read as when it is written as an
array. -/
example : ∃ groups, LibJson groups (.obj [("version", .float), ("groups", .arr [.obj [("m", .arr []),
    ("l", .bool true), ("c", .num 2), ("s", .num 6)]])]) ∧
    LibJson groups (.arr [.arr [.arr [.num 6, .bool false, .bool true, .bool false, .num 2, .arr []]]]) := by
  refine ⟨[⟨6, false, true, false, 2, []⟩], ?_⟩
  simp only [← Json.asLibSerde_eq_some]
  exact ⟨rfl, rfl⟩

/-! ## Examples -/

/-- Lower case for ASCII. -/
def asciiLower (s : String) : String := String.ofList (s.toList.map Char.toLower)

theorem toLower_toLower (c : Char) : c.toLower.toLower = c.toLower := by
  by_cases h : c.val ≥ 'A'.val ∧ c.val ≤ 'Z'.val
  · have h1 : c.toLower.val = c.val + ('a'.val - 'A'.val) := by
      unfold Char.toLower
      rw [dif_pos h]
    have h2 : ¬ (c.toLower.val ≥ 'A'.val ∧ c.toLower.val ≤ 'Z'.val) := by
      rw [h1]
      rintro ⟨-, h3⟩
      obtain ⟨h4, h5⟩ := h
      simp only [ge_iff_le, UInt32.le_iff_toNat_le, UInt32.toNat_add] at h3 h4 h5
      have e1 : 'A'.val.toNat = 65 := rfl
      have e2 : 'Z'.val.toNat = 90 := rfl
      have e3 : ('a'.val - 'A'.val).toNat = 32 := rfl
      omega
    generalize c.toLower = d at h2
    unfold Char.toLower
    rw [dif_neg h2]
  · have h1 : c.toLower = c := by
      unfold Char.toLower
      rw [dif_neg h]
    rw [h1, h1]

theorem asciiLower_lowerCase : LowerCase asciiLower where
  idem s := by
    unfold asciiLower
    rw [String.toList_ofList, List.map_map]
    congr 1
    apply List.map_congr_left
    intro c _
    exact toLower_toLower c
  words a b := by
    unfold asciiLower
    rw [String.toList_append, String.toList_append, List.map_append, List.map_append,
      String.ofList_append, String.ofList_append]
    rfl
  ascii s _ := rfl

/-- Keeping the greatest by sorting. -/
def sortShortlist : ShortlistFn := fun cmp cap items =>
  (items.mergeSort fun a b => cmp a b != .gt).drop (items.length - cap)

theorem sortShortlist_isShortlist (cap : Nat) : IsShortlist cap sortShortlist := by
  intro cmp f hf items
  have hle : ∀ a b, (cmp a b != .gt) = true ↔ f a ≤ f b := by
    intro a b
    rw [hf, bne_iff_ne, ne_eq, compare_gt_iff_gt, not_lt]
  have hsort : (items.mergeSort fun a b => cmp a b != .gt).Pairwise (fun a b => f a ≤ f b) := by
    refine (List.pairwise_mergeSort ?_ ?_ items).imp fun h => (hle _ _).1 h
    · intro a b c h1 h2
      rw [hle] at *
      omega
    · intro a b
      rw [Bool.or_eq_true, hle, hle]
      omega
  have hperm := List.mergeSort_perm items fun a b => cmp a b != .gt
  unfold sortShortlist
  generalize (items.mergeSort fun a b => cmp a b != .gt) = L at hsort hperm
  have hlen := hperm.length_eq
  refine ⟨by rw [List.length_drop]; omega, hsort.sublist (List.drop_sublist _ _),
    L.take (items.length - cap), ?_, ?_⟩
  · refine List.perm_append_comm.trans ?_
    rw [List.take_append_drop]
    exact hperm
  · intro x hx y hy
    rw [← List.take_append_drop (items.length - cap) L, List.pairwise_append] at hsort
    exact hsort.2.2 x hx y hy

/-- A library with a method that can be found. -/
example : ∃ lib : MethodLib, lib.Keyed asciiLower ∧
    (∀ stage key c, lib.Holds stage key c → TitledFor asciiLower stage c.title ∧ 1 ≤ stage.numBells ∧
      stage.numBells ≤ 22) ∧ ∃ stage key c, lib.Holds stage key c := by
  obtain ⟨lib, h1, h2⟩ := fromJson_jsonWithTitle asciiLower "Foo Bob Minimus"
  obtain ⟨hk, groups, h3, h4⟩ := C53_from_json asciiLower_lowerCase _ lib h1
  have ht := h4 (by
    have : (jsonWithTitle "Foo Bob Minimus").asLibSerde =
        some [⟨4, false, false, false, 2, [⟨some "Foo Bob Minimus", "Foo", "x14"⟩]⟩] := rfl
    rw [this] at h3
    cases h3
    intro g hg m hm t ht
    rw [List.mem_singleton] at hg
    subst hg
    rw [List.mem_singleton] at hm
    subst hm
    cases ht
    exact ⟨"Minimus", rfl, .inr ⟨"foo bob", by decide⟩⟩)
  refine ⟨lib, hk, ?_, _, _, _, h2⟩
  intro stage key c hc
  refine ⟨ht stage key c hc, ?_⟩
  obtain ⟨w, hw, -⟩ := ht stage key c hc
  exact (C03_named_stages stage).1 ⟨w, hw⟩

end Bellframe.Props
