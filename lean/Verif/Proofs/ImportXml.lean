import Verif.Spec.ImportXml
import Verif.Proofs.MethodLib

/-! # Lemmas about the importer -/

namespace Bellframe

theorem Element.getChild_eq_some (e : Element) (name : String) (c : Element) :
    e.getChild name ImportXml.ccNamespace = some c ↔ e.FirstChild name c := by
  have general : ∀ ns, e.getChild name ns = some c ↔ ∃ before after, e.children = before ++ c :: after ∧
      (c.name = name ∧ c.ns = ns) ∧ ∀ x ∈ before, ¬ (x.name = name ∧ x.ns = ns) := by
    intro ns
    unfold Element.getChild
    rw [List.find?_eq_some_iff_append]
    constructor
    · rintro ⟨h1, before, after, h2, h3⟩
      refine ⟨before, after, h2, by simpa using h1, fun x hx hc => ?_⟩
      have := h3 x hx
      simp [hc.1, hc.2] at this
    · rintro ⟨before, after, h2, h1, h3⟩
      refine ⟨by simpa using h1, before, after, h2, fun x hx => ?_⟩
      have := h3 x hx
      simpa [imp_iff_not_or] using this
  exact general _

theorem Element.attr_eq_some (e : Element) (name value : String) :
    e.attr name = some value ↔ e.HasAttr name value := by
  unfold Element.attr Element.HasAttr
  rw [Option.map_eq_some_iff]
  constructor
  · rintro ⟨⟨n, v⟩, h, rfl⟩
    obtain ⟨h1, before, after, h2, h3⟩ := List.find?_eq_some_iff_append.1 h
    obtain rfl : n = name := by simpa using h1
    exact ⟨before, after, h2, fun x hx => by simpa using h3 x hx⟩
  · rintro ⟨before, after, h2, h3⟩
    exact ⟨(name, value), List.find?_eq_some_iff_append.2 ⟨by simp, before, after, h2,
      fun x hx => by simpa using h3 x hx⟩, rfl⟩

namespace ImportXml

theorem digitValue_eq_some (c : Char) (d : Nat) :
    digitValue c = some d ↔ d < 10 ∧ c = Char.ofNat ('0'.toNat + d) := by
  have h0 : '0'.toNat = 48 := rfl
  have h9 : '9'.toNat = 57 := rfl
  unfold digitValue
  rw [h0, h9]
  constructor
  · intro h
    split at h
    · rename_i hc
      have hd : c.toNat - 48 = d := Option.some.inj h
      refine ⟨by omega, ?_⟩
      have : 48 + d = c.toNat := by omega
      rw [this, Char.ofNat_toNat]
    · cases h
  · rintro ⟨hd, rfl⟩
    interval_cases d <;> rfl

/-- The number read from digits, after some others. -/
def digitsFrom : List Char → Nat → Option Nat
  | [], acc => some acc
  | c :: cs, acc => (digitValue c).bind fun d => digitsFrom cs (acc * 10 + d)

theorem digitsFrom_ge (cs : List Char) (acc n : Nat) (h : digitsFrom cs acc = some n) : acc ≤ n := by
  induction cs generalizing acc with
  | nil => exact (Option.some.inj h).le
  | cons c cs ih =>
    rw [digitsFrom, Option.bind_eq_some_iff] at h
    obtain ⟨d, -, h⟩ := h
    have := ih _ h
    omega

theorem parseDigits_eq_some (bits : Nat) (cs : List Char) (acc n : Nat) (hacc : acc < 2 ^ bits) :
    parseDigits bits cs acc = some n ↔ digitsFrom cs acc = some n ∧ n < 2 ^ bits := by
  induction cs generalizing acc with
  | nil =>
    constructor
    · intro h
      cases Option.some.inj h
      exact ⟨rfl, hacc⟩
    · exact fun h => h.1
  | cons c cs ih =>
    rw [parseDigits, digitsFrom]
    cases hd : digitValue c with
    | none => simp
    | some d =>
      simp only [Option.bind_some]
      split
      · rename_i hlt
        exact ih _ hlt
      · rename_i hge
        constructor
        · intro h
          cases h
        · rintro ⟨h, hn⟩
          have := digitsFrom_ge _ _ _ h
          omega

theorem digitsFrom_snoc (s : List Char) (c : Char) (acc : Nat) :
    digitsFrom (s ++ [c]) acc = (digitsFrom s acc).bind fun m => (digitValue c).bind fun d => some (m * 10 + d) := by
  induction s generalizing acc with
  | nil => rfl
  | cons x s ih =>
    rw [List.cons_append, digitsFrom, digitsFrom, Option.bind_assoc]
    congr 1
    funext d
    exact ih _

theorem decimal_iff (s : List Char) (n : Nat) : Decimal s n ↔ s ≠ [] ∧ digitsFrom s 0 = some n := by
  constructor
  · intro h
    induction h with
    | one d h =>
      refine ⟨by simp, ?_⟩
      rw [digitsFrom, (digitValue_eq_some _ d).2 ⟨h, rfl⟩]
      simp [digitsFrom]
    | more s n d hs h ih =>
      refine ⟨by simp, ?_⟩
      rw [digitsFrom_snoc, ih.2, (digitValue_eq_some _ d).2 ⟨h, rfl⟩]
      simp only [Option.bind_some, Option.some.injEq]
      omega
  · rintro ⟨hne, h⟩
    induction s using List.reverseRecOn generalizing n with
    | nil => exact absurd rfl hne
    | append_singleton s c ih =>
      rw [digitsFrom_snoc, Option.bind_eq_some_iff] at h
      obtain ⟨m, hm, h⟩ := h
      rw [Option.bind_eq_some_iff] at h
      obtain ⟨d, hd, h⟩ := h
      obtain ⟨hlt, rfl⟩ := (digitValue_eq_some _ _).1 hd
      have hn : m * 10 + d = n := Option.some.inj h
      by_cases hs : s = []
      · subst hs
        cases Option.some.inj hm
        obtain rfl : d = n := by omega
        exact .one d hlt
      · obtain rfl : n = 10 * m + d := by omega
        exact .more s m d (ih m hs hm) hlt

theorem not_decimal_plus (t : List Char) (n : Nat) : ¬ Decimal ('+' :: t) n := by
  rw [decimal_iff, digitsFrom]
  rintro ⟨-, h⟩
  have : digitValue '+' = none := rfl
  rw [this] at h
  cases h

theorem parseUsize_eq_some (bits : Nat) (s : List Char) (n : Nat) :
    parseUsize bits s = some n ↔ (Decimal s n ∨ ∃ t, s = '+' :: t ∧ Decimal t n) ∧ n < 2 ^ bits := by
  have hpos : 0 < 2 ^ bits := Nat.two_pow_pos bits
  cases s with
  | nil =>
    constructor
    · intro h
      cases h
    · rintro ⟨h | ⟨t, h, -⟩, -⟩
      · exact absurd rfl ((decimal_iff _ _).1 h).1
      · cases h
  | cons c cs =>
    rw [parseUsize]
    split
    · rename_i hc
      subst hc
      cases cs with
      | nil =>
        constructor
        · intro h
          cases h
        · rintro ⟨h | ⟨t, h, h2⟩, -⟩
          · exact absurd h (not_decimal_plus _ _)
          · cases h
            exact absurd rfl ((decimal_iff _ _).1 h2).1
      | cons x xs =>
        rw [List.isEmpty_cons, if_neg (by simp), parseDigits_eq_some bits _ _ _ hpos]
        constructor
        · rintro ⟨h, hn⟩
          exact ⟨.inr ⟨_, rfl, (decimal_iff _ _).2 ⟨by simp, h⟩⟩, hn⟩
        · rintro ⟨h | ⟨t, h, h2⟩, hn⟩
          · exact absurd h (not_decimal_plus _ _)
          · cases h
            exact ⟨((decimal_iff _ _).1 h2).2, hn⟩
    · rename_i hc
      rw [parseDigits_eq_some bits _ _ _ hpos]
      constructor
      · rintro ⟨h, hn⟩
        exact ⟨.inl ((decimal_iff _ _).2 ⟨by simp, h⟩), hn⟩
      · rintro ⟨h | ⟨t, h, h2⟩, hn⟩
        · exact ⟨((decimal_iff _ _).1 h).2, hn⟩
        · cases h
          exact absurd rfl hc

theorem parseClass_eq_ok (t : String) (c : MethodClass) : parseClass t = .ok c ↔ t = classText c := by
  constructor
  · unfold parseClass
    intro h
    repeat' split at h
    all_goals first | cases h; assumption | cases h
  · rintro rfl
    cases c <;> decide

theorem parseClass_exists (t : String) : (∃ c, parseClass t = .ok c) ∨ ∃ p, parseClass t = .error p := by
  cases h : parseClass t with
  | ok c => exact .inl ⟨c, rfl⟩
  | error p => exact .inr ⟨p, rfl⟩

theorem unwrap_eq_ok {α : Type} (o : Option α) (a : α) : unwrap o = .ok a ↔ o = some a := by
  cases o with
  | none => simp [unwrap]
  | some x => simp [unwrap]

theorem res_bind_eq_ok {α β : Type} (x : Res α) (f : α → Res β) (b : β) :
    (x >>= f) = .ok b ↔ ∃ a, x = .ok a ∧ f a = .ok b := by
  cases x with
  | error e =>
    constructor
    · intro h
      cases h
    · rintro ⟨a, h, -⟩
      cases h
  | ok a => simp

theorem stageNew_eq_ok (n : Nat) (s : Stage) : Stage.new n = .ok s ↔ 0 < n ∧ s = ⟨n⟩ := by
  unfold Stage.new Stage.tryFrom
  rw [unwrap_eq_ok]
  by_cases h : n = 0
  · simp [h]
  · rw [if_neg h]
    constructor
    · intro h'
      exact ⟨by omega, (Option.some.inj h').symm⟩
    · rintro ⟨-, rfl⟩
      rfl

theorem readMethod_eq_ok (fc : FullClass) (e : Element) (c : CompactMethod) :
    readMethod fc e = .ok c ↔ ∃ m : CcMethod, MethodXml m e ∧ c = ⟨m.name, m.title, fc, m.notation_⟩ := by
  unfold readMethod MethodXml Element.ChildText
  simp only [res_bind_eq_ok, unwrap_eq_ok, Element.getChild_eq_some, Res.pure_eq, Except.ok.injEq]
  constructor
  · rintro ⟨t, ht, n, hn, p, hp, rfl⟩
    exact ⟨⟨t.text, n.text, p.text⟩, ⟨⟨t, ht, rfl⟩, ⟨n, hn, rfl⟩, ⟨p, hp, rfl⟩⟩, rfl⟩
  · rintro ⟨⟨t', n', p'⟩, ⟨⟨t, ht, rfl⟩, ⟨n, hn, rfl⟩, ⟨p, hp, rfl⟩⟩, rfl⟩
    exact ⟨t, ht, n, hn, p, hp, rfl⟩

theorem readSetMethods_eq (fc : FullClass) (es : List Element) (m : HashMap String CompactMethod) :
    readSetMethods fc es m = es.mapM (readMethod fc) >>= fun cs =>
      .ok (cs.foldl (fun m c => m.insert c.title c) m) := by
  induction es generalizing m with
  | nil => rfl
  | cons e es ih =>
    rw [readSetMethods, List.mapM_cons]
    cases h : readMethod fc e with
    | error p => rfl
    | ok c =>
      simp only [Res.ok_bind, ih, bind_assoc, Res.pure_eq, List.foldl_cons]

theorem mapM_readMethod (fc : FullClass) (es : List Element) (cs : List CompactMethod) :
    es.mapM (readMethod fc) = .ok cs ↔ ∃ ms : List CcMethod, List.Forall₂ MethodXml ms es ∧
      cs = ms.map fun m => ⟨m.name, m.title, fc, m.notation_⟩ := by
  induction es generalizing cs with
  | nil =>
    constructor
    · intro h
      cases h
      exact ⟨[], .nil, rfl⟩
    · rintro ⟨ms, h, rfl⟩
      cases h
      rfl
  | cons e es ih =>
    rw [List.mapM_cons]
    simp only [res_bind_eq_ok, readMethod_eq_ok, ih, Res.pure_eq, Except.ok.injEq]
    constructor
    · rintro ⟨c, ⟨m, hm, rfl⟩, cs', ⟨ms, hms, rfl⟩, rfl⟩
      exact ⟨m :: ms, .cons hm hms, rfl⟩
    · rintro ⟨ms, h, rfl⟩
      cases h with
      | cons hm hms => exact ⟨_, ⟨_, hm, rfl⟩, _, ⟨_, hms, rfl⟩, rfl⟩

theorem attr_true_iff (e : Element) (name : String) :
    (e.attr name == some "true") = true ↔ e.HasAttr name "true" := by
  rw [beq_iff_eq, Element.attr_eq_some]

/-- What is read of a set. -/
theorem readSet_eq_ok (bits : Nat) (m m' : HashMap Stage (HashMap String CompactMethod)) (e : Element) :
    readSet bits m e = .ok m' ↔ ∃ s : CcSet, SetXml bits s e ∧
      m' = m.insert ⟨s.stage⟩ ((s.methods.map s.entry).foldl (fun m c => m.insert c.title c)
        ((m.get ⟨s.stage⟩).getD HashMap.empty)) := by
  unfold readSet readProperties SetXml Element.ChildText
  simp only [res_bind_eq_ok, unwrap_eq_ok, Element.getChild_eq_some, Res.pure_eq, Except.ok.injEq,
    readSetMethods_eq, mapM_readMethod, stageNew_eq_ok, parseUsize_eq_some, parseClass_eq_ok]
  constructor
  · rintro ⟨p, hp, ⟨st, fc⟩, ⟨se, hse, n, ⟨hn, hlt⟩, st', ⟨hpos, rfl⟩, ce, hce, cls, hcls, heq⟩, mm, ⟨cs,
      ⟨ms, hms, rfl⟩, rfl⟩, rfl⟩
    obtain ⟨rfl, rfl⟩ := Prod.mk.inj heq
    refine ⟨⟨n, ce.attr "little" == some "true", ce.attr "differential" == some "true", cls, ms⟩,
      ⟨p, hp, ⟨_, ⟨se, hse, rfl⟩, hn⟩, hpos, hlt, ⟨ce, hce, hcls, attr_true_iff _ _, attr_true_iff _ _⟩, ?_⟩,
      rfl⟩
    simpa only [beq_eq_decide] using hms
  · rintro ⟨⟨n, l, d, cls, ms⟩, ⟨p, hp, ⟨_, ⟨se, hse, rfl⟩, hn⟩, hpos, hlt, ⟨ce, hce, hcls, hl, hd⟩, hms⟩, rfl⟩
    simp only at hn hpos hlt hcls hl hd hms
    refine ⟨p, hp, (⟨n⟩, ⟨false, l, d, cls⟩), ⟨se, hse, n, ⟨hn, hlt⟩, ⟨n⟩, ⟨hpos, rfl⟩, ce, hce, cls, hcls, ?_⟩,
      _, ⟨_, ⟨ms, by simpa only [beq_eq_decide] using hms, rfl⟩, rfl⟩, rfl⟩
    have e1 : (ce.attr "little" == some "true") = l := Bool.eq_iff_iff.2 ((attr_true_iff _ _).trans hl.symm)
    have e2 : (ce.attr "differential" == some "true") = d :=
      Bool.eq_iff_iff.2 ((attr_true_iff _ _).trans hd.symm)
    rw [e1, e2]

/-- Adding the methods of a set. -/
def addSet (m : HashMap Stage (HashMap String CompactMethod)) (s : CcSet) :
    HashMap Stage (HashMap String CompactMethod) :=
  m.insert ⟨s.stage⟩ ((s.methods.map s.entry).foldl (fun m c => m.insert c.title c)
    ((m.get ⟨s.stage⟩).getD HashMap.empty))

theorem foldlM_readSet (bits : Nat) (es : List Element) (m m' : HashMap Stage (HashMap String CompactMethod)) :
    es.foldlM (readSet bits) m = .ok m' ↔ ∃ sets, List.Forall₂ (SetXml bits) sets es ∧
      m' = sets.foldl addSet m := by
  induction es generalizing m with
  | nil =>
    constructor
    · intro h
      cases h
      exact ⟨[], .nil, rfl⟩
    · rintro ⟨ms, h, rfl⟩
      cases h
      rfl
  | cons e es ih =>
    rw [List.foldlM_cons]
    simp only [res_bind_eq_ok, readSet_eq_ok, ih]
    constructor
    · rintro ⟨m1, ⟨s, hs, rfl⟩, sets, hsets, rfl⟩
      exact ⟨s :: sets, .cons hs hsets, rfl⟩
    · rintro ⟨sets, h, rfl⟩
      cases h with
      | cons hm hms => exact ⟨_, ⟨_, hm, rfl⟩, _, hms, rfl⟩

theorem parseCcLib_eq_ok (bits : Nat) (root : Element) (lib : MethodLib) :
    parseCcLib bits (some root) = .ok lib ↔ ∃ sets, FileXml bits sets root ∧
      lib = ⟨sets.foldl addSet HashMap.empty⟩ := by
  unfold parseCcLib readMethods FileXml
  simp only [res_bind_eq_ok, unwrap_eq_ok, foldlM_readSet, Res.pure_eq, Except.ok.injEq,
    Element.attr_eq_some, Option.some.injEq]
  constructor
  · rintro ⟨r, rfl, date, hd, m, ⟨sets, hs, rfl⟩, rfl⟩
    exact ⟨sets, ⟨⟨date, hd⟩, by simpa only [beq_eq_decide] using hs⟩, rfl⟩
  · rintro ⟨sets, ⟨⟨date, hd⟩, hs⟩, rfl⟩
    exact ⟨root, rfl, date, hd, _, ⟨sets, by simpa only [beq_eq_decide] using hs, rfl⟩, rfl⟩

/-! ## What the library holds -/

/-- The last of the methods with this stage and title. -/
def lastOf (es : List (Stage × CompactMethod)) (s : Stage) (key : String) : Option CompactMethod :=
  (es.reverse.find? fun x => x.1 = s && x.2.title = key).map Prod.snd

theorem lastOf_append (as bs : List (Stage × CompactMethod)) (s : Stage) (key : String) :
    lastOf (as ++ bs) s key = (lastOf bs s key).or (lastOf as s key) := by
  unfold lastOf
  rw [List.reverse_append, List.find?_append]
  cases (bs.reverse.find? fun x => x.1 = s && x.2.title = key) <;> rfl

theorem lastOfTitle_iff (sets : List CcSet) (s : Stage) (c : CompactMethod) :
    LastOfTitle sets s c ↔ lastOf (fileEntries sets) s c.title = some c := by
  unfold LastOfTitle lastOf
  rw [Option.map_eq_some_iff]
  constructor
  · rintro ⟨before, after, h, hlast⟩
    refine ⟨(s, c), List.find?_eq_some_iff_append.2 ⟨by simp, after.reverse, before.reverse, ?_, ?_⟩, rfl⟩
    · rw [h]
      simp
    · intro x hx
      have := hlast x (List.mem_reverse.1 hx)
      simpa [imp_iff_not_or] using this
  · rintro ⟨⟨s', c'⟩, h, rfl⟩
    obtain ⟨h1, before, after, h2, h3⟩ := List.find?_eq_some_iff_append.1 h
    obtain rfl : s' = s := by
      have := h1
      simp at this
      exact this
    refine ⟨after.reverse, before.reverse, ?_, ?_⟩
    · rw [← List.reverse_inj, h2]
      simp
    · intro x hx
      have := h3 x (List.mem_reverse.1 hx)
      simpa [imp_iff_not_or] using this

theorem get_foldl_title (cs : List CompactMethod) (m : HashMap String CompactMethod) (s : Stage)
    (key : String) :
    (cs.foldl (fun m c => m.insert c.title c) m).get key =
      (lastOf (cs.map fun c => (s, c)) s key).or (m.get key) := by
  induction cs generalizing m with
  | nil => rfl
  | cons c cs ih =>
    rw [List.foldl_cons, ih, HashMap.get_insert, List.map_cons, ← List.singleton_append, lastOf_append]
    cases lastOf (cs.map fun c => (s, c)) s key with
    | some x => rfl
    | none =>
      by_cases hk : key = c.title
      · simp [lastOf, hk]
      · have hk' : ¬ c.title = key := fun h => hk h.symm
        simp [lastOf, hk, hk']

theorem lastOf_other (cs : List CompactMethod) (s s' : Stage) (key : String) (h : s' ≠ s) :
    lastOf (cs.map fun c => (s', c)) s key = none := by
  unfold lastOf
  rw [Option.map_eq_none_iff, List.find?_eq_none]
  intro x hx
  rw [List.mem_reverse, List.mem_map] at hx
  obtain ⟨c, -, rfl⟩ := hx
  simp [h]

theorem find_addSet (m : HashMap Stage (HashMap String CompactMethod)) (set : CcSet) (s : Stage)
    (key : String) : MethodLib.find ⟨addSet m set⟩ s key =
      (lastOf (set.methods.map fun x => (⟨set.stage⟩, set.entry x)) s key).or (MethodLib.find ⟨m⟩ s key) := by
  have hmap : (set.methods.map fun x => ((⟨set.stage⟩ : Stage), set.entry x)) =
      (set.methods.map set.entry).map fun c => (⟨set.stage⟩, c) := by
    rw [List.map_map]
    rfl
  unfold MethodLib.find addSet
  simp only [HashMap.get_insert, hmap]
  by_cases hs : s = ⟨set.stage⟩
  · subst hs
    rw [if_pos rfl]
    simp only [Option.bind_some]
    rw [get_foldl_title _ _ ⟨set.stage⟩]
    cases m.get ⟨set.stage⟩ <;> rfl
  · rw [if_neg hs, lastOf_other _ _ _ _ (fun h => hs h.symm)]
    rfl

theorem find_foldl_addSet (sets : List CcSet) (m : HashMap Stage (HashMap String CompactMethod)) (s : Stage)
    (key : String) : MethodLib.find ⟨sets.foldl addSet m⟩ s key =
      (lastOf (fileEntries sets) s key).or (MethodLib.find ⟨m⟩ s key) := by
  induction sets generalizing m with
  | nil => rfl
  | cons set sets ih =>
    rw [List.foldl_cons, ih, find_addSet]
    change _ = (lastOf ((set.methods.map fun x => ((⟨set.stage⟩ : Stage), set.entry x)) ++ fileEntries sets) s
      key).or _
    rw [lastOf_append, Option.or_assoc]

theorem lastOf_title {es : List (Stage × CompactMethod)} {s : Stage} {key : String} {c : CompactMethod}
    (h : lastOf es s key = some c) : c.title = key := by
  unfold lastOf at h
  rw [Option.map_eq_some_iff] at h
  obtain ⟨x, hx, rfl⟩ := h
  have := List.find?_some hx
  simp at this
  exact this.2

theorem holds_import (sets : List CcSet) (s : Stage) (key : String) (c : CompactMethod) :
    MethodLib.Holds ⟨sets.foldl addSet HashMap.empty⟩ s key c ↔ key = c.title ∧ LastOfTitle sets s c := by
  rw [← MethodLib.find_eq_some, find_foldl_addSet, lastOfTitle_iff]
  have : MethodLib.find ⟨HashMap.empty⟩ s key = none := rfl
  rw [this, Option.or_none]
  constructor
  · intro h
    have ht := lastOf_title h
    exact ⟨ht.symm, ht ▸ h⟩
  · rintro ⟨rfl, h⟩
    exact h

end ImportXml

end Bellframe
