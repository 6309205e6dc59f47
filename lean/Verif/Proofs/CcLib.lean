import Verif.Spec.CcLib
import Verif.Proofs.MethodLib

/-! # Lemmas on the cache of `cc_lib` -/

namespace Bellframe

namespace CcLib

variable {lower : String → String} {parse : Bytes → Option Json}

theorem container_of_asLibSerde (json : Json) (h : json.asLibSerde ≠ none) :
    (∃ fields, json = .obj fields) ∨ ∃ items, json = .arr items := by
  cases json with
  | obj fields => exact .inl ⟨_, rfl⟩
  | arr items => exact .inr ⟨_, rfl⟩
  | _ => exact absurd rfl h

/-- A text that gives a library gives the same one or none when it is cut short. -/
theorem fromText_cut (hs : JsonSyntax parse) (text front : Bytes) (lib : MethodLib)
    (h : fromText lower parse text = .ok (some lib)) (hf : front <+: text) :
    fromText lower parse front = .ok none ∨ fromText lower parse front = .ok (some lib) := by
  cases hp : parse text with
  | none =>
    rw [fromText, hp] at h
    cases h
  | some json =>
    have h' : MethodLib.fromJson lower json = .ok (some lib) := by
      rw [fromText, hp] at h
      exact h
    have hc : json.asLibSerde ≠ none := by
      intro hn
      rw [MethodLib.fromJson, hn] at h'
      cases h'
    rcases hs.cut text json hp (container_of_asLibSerde json hc) front hf with h1 | h1
    · exact .inl (by rw [fromText, h1])
    · exact .inr (by rw [fromText, h1]; exact h')

theorem writeAt_take (text : Bytes) (off n : Nat) (h : off ≤ text.length) :
    writeAt (text.take off) off ((text.drop off).take n) =
      text.take (off + ((text.drop off).take n).length) := by
  have hl : (text.take off).length = off := by simp [h]
  rw [writeAt, hl, Nat.sub_self]
  simp only [List.replicate_zero, List.append_nil]
  rw [List.take_take, Nat.min_self, List.drop_eq_nil_of_le (as := text.take off) (by omega),
    List.append_nil]
  rw [List.take_add]
  congr 1
  rw [List.length_take]
  by_cases hn : n ≤ (text.drop off).length
  · rw [Nat.min_eq_left hn]
  · rw [Nat.min_eq_right (by omega), List.take_of_length_le (by omega), List.take_length]

/-- Where a process that runs alone stands. -/
def Alone (lower : String → String) (parse : Bytes → Option Json) (reply : Option Bytes) (disk0 : Disk) :
    Disk × Proc → Prop
  | (disk, .start) => disk = disk0
  | (disk, .fetch) => disk = disk0 ∧ ∃ read, (read = disk0 ∨ read = none) ∧
      loadFromCache lower parse read = .ok none
  | (disk, .save text lib) => disk = disk0 ∧ reply = some text ∧ fromText lower parse text = .ok (some lib) ∧
      ∃ read, (read = disk0 ∨ read = none) ∧ loadFromCache lower parse read = .ok none
  | (disk, .writing text off lib) => off ≤ text.length ∧ disk = some (text.take off) ∧
      reply = some text ∧ fromText lower parse text = .ok (some lib) ∧
      ∃ read, (read = disk0 ∨ read = none) ∧ loadFromCache lower parse read = .ok none
  | (disk, .done result) =>
      ∃ read, (read = disk0 ∨ read = none) ∧ result = expected lower parse read reply ∧
      (disk = disk0 ∨ loadFromCache lower parse read = .ok none ∧
        ∃ text k lib, reply = some text ∧ fromText lower parse text = .ok (some lib) ∧
          disk = some (text.take k))

theorem loadFromCache_eq (content : Disk) :
    loadFromCache lower parse content = content.elim (.ok none) (fromText lower parse) := by
  cases content <;> rfl

theorem expected_of_load_none (read : Disk) (reply : Option Bytes)
    (h : loadFromCache lower parse read = .ok none) :
    expected lower parse read reply = reply.elim (.ok none) (fromText lower parse) := by
  rw [expected, ← loadFromCache_eq, h]

theorem expected_of_load_error (read : Disk) (reply : Option Bytes) (e : Panic)
    (h : loadFromCache lower parse read = .error e) :
    expected lower parse read reply = .error e := by
  rw [expected, ← loadFromCache_eq, h]

theorem expected_of_load_some (read : Disk) (reply : Option Bytes) (lib : MethodLib)
    (h : loadFromCache lower parse read = .ok (some lib)) :
    expected lower parse read reply = .ok (some lib) := by
  rw [expected, ← loadFromCache_eq, h]

theorem alone_step (reply : Option Bytes) (disk0 : Disk) (c : Choice) (s : Disk × Proc)
    (h : Alone lower parse reply disk0 s) :
    Alone lower parse reply disk0 (step lower parse reply c s.1 s.2) := by
  obtain ⟨disk, p⟩ := s
  cases p with
  | start =>
    have hd : disk = disk0 := h
    subst hd
    have hr : (if c.access then disk else none) = disk ∨ (if c.access then disk else none) = none := by
      split
      · exact .inl rfl
      · exact .inr rfl
    generalize hread : (if c.access then disk else none) = read at hr
    cases hl : loadFromCache lower parse read with
    | error e =>
      simp only [step, hread, hl]
      exact ⟨read, hr, (expected_of_load_error _ _ _ hl).symm, .inl rfl⟩
    | ok o =>
      cases o with
      | none =>
        simp only [step, hread, hl]
        exact ⟨rfl, read, hr, hl⟩
      | some lib =>
        simp only [step, hread, hl]
        exact ⟨read, hr, (expected_of_load_some _ _ _ hl).symm, .inl rfl⟩
  | fetch =>
    obtain ⟨hd, read, hr, hl⟩ := h
    subst hd
    cases reply with
    | none => exact ⟨read, hr, (expected_of_load_none _ none hl).symm, .inl rfl⟩
    | some text =>
      have he : expected lower parse read (some text) = fromText lower parse text :=
        expected_of_load_none _ _ hl
      cases ht : fromText lower parse text with
      | error e =>
        simp only [step, ht]
        exact ⟨read, hr, (he.trans ht).symm, .inl rfl⟩
      | ok o =>
        cases o with
        | none =>
          simp only [step, ht]
          exact ⟨read, hr, (he.trans ht).symm, .inl rfl⟩
        | some lib =>
          simp only [step, ht]
          exact ⟨rfl, rfl, ht, read, hr, hl⟩
  | save text lib =>
    obtain ⟨hd, hrep, ht, read, hr, hl⟩ := h
    subst hd hrep
    cases ha : c.access with
    | true =>
      simp only [step, ha, if_true]
      exact ⟨Nat.zero_le _, rfl, rfl, ht, read, hr, hl⟩
    | false =>
      simp only [step, ha, Bool.false_eq_true, if_false]
      exact ⟨read, hr, ((expected_of_load_none _ (some text) hl).trans ht).symm, .inl rfl⟩
  | writing text off lib =>
    obtain ⟨ho, hd, hrep, ht, read, hr, hl⟩ := h
    subst hd hrep
    have hdone : Alone lower parse (some text) disk0 (some (text.take off), .done (.ok (some lib))) :=
      ⟨read, hr, ((expected_of_load_none _ (some text) hl).trans ht).symm, .inr ⟨hl, text, off, lib, rfl, ht, rfl⟩⟩
    simp only [step]
    split
    · split
      · refine ⟨?_, ?_, rfl, ht, read, hr, hl⟩
        · simp only [List.length_take, List.length_drop]
          omega
        · rw [Option.map_some, writeAt_take text off c.chunk ho]
      · exact hdone
    · exact hdone
  | done result => exact h

theorem alone_run (reply : Option Bytes) (disk0 : Disk) (cs : List Choice) (s : Disk × Proc)
    (h : Alone lower parse reply disk0 s) :
    Alone lower parse reply disk0 (run lower parse reply cs s) := by
  induction cs generalizing s with
  | nil => exact h
  | cons c cs ih => exact ih _ (alone_step reply disk0 c s h)

/-- How many steps are left at most. -/
def left (reply : Option Bytes) : Proc → Nat
  | .start => (reply.elim 0 List.length) + 4
  | .fetch => (reply.elim 0 List.length) + 3
  | .save text _ => text.length + 2
  | .writing text off _ => text.length - off + 1
  | .done _ => 0

theorem left_step (reply : Option Bytes) (c : Choice) (disk : Disk) (p : Proc) :
    left reply (step lower parse reply c disk p).2 ≤ left reply p - 1 := by
  cases p with
  | start =>
    simp only [step]
    split <;> simp [left]
  | fetch =>
    cases reply with
    | none => simp [step, left]
    | some text =>
      simp only [step]
      split <;> simp [left]
  | save text lib =>
    simp only [step]
    split <;> simp [left]
  | writing text off lib =>
    simp only [step]
    split
    · split
      · simp only [left, List.length_take, List.length_drop]
        omega
      · simp [left]
    · simp [left]
  | done r => simp [step, left]

theorem left_run (reply : Option Bytes) (cs : List Choice) (s : Disk × Proc) :
    left reply (run lower parse reply cs s).2 ≤ left reply s.2 - cs.length := by
  induction cs generalizing s with
  | nil => exact Nat.le_refl _
  | cons c cs ih =>
    have h1 := ih (step lower parse reply c s.1 s.2)
    have h2 := left_step (lower := lower) (parse := parse) reply c s.1 s.2
    rw [run, List.length_cons]
    omega

theorem done_of_left (reply : Option Bytes) (p : Proc) (h : left reply p = 0) : ∃ r, p = .done r := by
  cases p with
  | done r => exact ⟨r, rfl⟩
  | _ => simp [left] at h

/-- What a process that runs alone writes, if all its system calls succeed. -/
def Saved (text : Bytes) (lib : MethodLib) : Disk × Proc → Prop
  | (_, .fetch) => True
  | (_, .save t l) => t = text ∧ l = lib
  | (disk, .writing t off l) => t = text ∧ l = lib ∧ off ≤ text.length ∧ disk = some (text.take off)
  | (disk, .done r) => disk = some text ∧ r = .ok (some lib)
  | (_, .start) => False

theorem saved_step (text : Bytes) (lib : MethodLib) (ht : fromText lower parse text = .ok (some lib))
    (c : Choice) (hc : c.access = true ∧ 0 < c.chunk) (s : Disk × Proc) (h : Saved text lib s) :
    Saved text lib (step lower parse (some text) c s.1 s.2) := by
  obtain ⟨disk, p⟩ := s
  cases p with
  | start => exact h.elim
  | fetch =>
    simp only [step, ht]
    exact ⟨rfl, rfl⟩
  | save t l =>
    obtain ⟨rfl, rfl⟩ := h
    simp only [step, hc.1, if_true]
    exact ⟨rfl, rfl, Nat.zero_le _, rfl⟩
  | writing t off l =>
    obtain ⟨rfl, rfl, ho, hd⟩ := h
    subst hd
    simp only [step]
    split
    · refine ⟨rfl, rfl, ?_, ?_⟩
      · simp only [List.length_take, List.length_drop]
        omega
      · rw [Option.map_some, writeAt_take _ off c.chunk ho]
    · exact ⟨by rw [List.take_of_length_le (by omega)], rfl⟩
  | done r => exact h

theorem saved_run (text : Bytes) (lib : MethodLib) (ht : fromText lower parse text = .ok (some lib))
    (cs : List Choice) (hc : ∀ c ∈ cs, c.access = true ∧ 0 < c.chunk) (s : Disk × Proc)
    (h : Saved text lib s) : Saved text lib (run lower parse (some text) cs s) := by
  induction cs generalizing s with
  | nil => exact h
  | cons c cs ih =>
    exact ih (fun c' hc' => hc c' (List.mem_cons_of_mem _ hc')) _
      (saved_step text lib ht c (hc c List.mem_cons_self) s h)

/-! ## Processes at the same time -/

/-- A file made of bytes of `text`, and zeros. -/
def Holey (text file : Bytes) : Prop :=
  file.length ≤ text.length ∧ ∀ (i : Nat) (b : UInt8), file[i]? = some b → text[i]? = some b ∨ b = 0

theorem prefix_of_holey (text file : Bytes) (h : Holey text file) (h0 : (0 : UInt8) ∉ file) :
    file <+: text := by
  rw [List.prefix_iff_getElem?]
  intro i hi
  rcases h.2 i _ (List.getElem?_eq_getElem hi) with h1 | h1
  · exact h1
  · exact absurd (List.getElem_mem hi) (h1 ▸ h0)

theorem holey_writeAt (text file : Bytes) (off n : Nat) (h : Holey text file) (ho : off ≤ text.length) :
    Holey text (writeAt file off ((text.drop off).take n)) := by
  obtain ⟨hl, hb⟩ := h
  generalize hc : (text.drop off).take n = chunk
  have hcl : chunk.length ≤ text.length - off := by
    rw [← hc, List.length_take, List.length_drop]
    omega
  have hpl : ((file ++ List.replicate (off - file.length) 0).take off).length = off := by
    rw [List.length_take, List.length_append, List.length_replicate]
    omega
  constructor
  · rw [writeAt, List.length_append, List.length_append, hpl, List.length_drop]
    omega
  · intro i b hi
    rw [writeAt, List.append_assoc] at hi
    by_cases h1 : i < off
    · rw [List.getElem?_append_left (by rw [hpl]; exact h1), List.getElem?_take_of_lt h1] at hi
      by_cases h2 : i < file.length
      · rw [List.getElem?_append_left h2] at hi
        exact hb i b hi
      · rw [List.getElem?_append_right (by omega)] at hi
        exact .inr (List.eq_of_mem_replicate (List.mem_of_getElem? hi))
    · rw [List.getElem?_append_right (by rw [hpl]; omega), hpl] at hi
      by_cases h2 : i - off < chunk.length
      · rw [List.getElem?_append_left h2, ← hc, List.getElem?_take, List.getElem?_drop] at hi
        split at hi
        · left
          rw [← hi]
          congr 1
          omega
        · cases hi
      · rw [List.getElem?_append_right (by omega), List.getElem?_drop] at hi
        have : off + chunk.length + (i - off - chunk.length) = i := by omega
        rw [this] at hi
        exact hb i b hi

theorem fromText_holey (hs : JsonSyntax parse) (text file : Bytes) (lib : MethodLib)
    (h : fromText lower parse text = .ok (some lib)) (hf : Holey text file) :
    fromText lower parse file = .ok none ∨ fromText lower parse file = .ok (some lib) := by
  by_cases h0 : (0 : UInt8) ∈ file
  · left
    cases hp : parse file with
    | none => rw [fromText, hp]
    | some json => exact absurd h0 (hs.noNul _ _ hp)
  · exact fromText_cut hs text file lib h (prefix_of_holey text file hf h0)

/-- Where processes that all fetch the same text stand. -/
def Together (text : Bytes) (lib : MethodLib) (reply : Option Bytes) : Proc → Prop
  | .start => True
  | .fetch => True
  | .save t l => t = text ∧ l = lib
  | .writing t off l => t = text ∧ l = lib ∧ off ≤ text.length
  | .done r => r = .ok (some lib) ∨ r = .ok none ∧ reply = none

theorem together_step (hs : JsonSyntax parse) (text : Bytes) (lib : MethodLib)
    (ht : fromText lower parse text = .ok (some lib)) (reply : Option Bytes)
    (hr : reply = none ∨ reply = some text) (c : Choice) (disk : Disk) (p : Proc)
    (hd : ∀ f, disk = some f → Holey text f) (hp : Together text lib reply p) :
    (∀ f, (step lower parse reply c disk p).1 = some f → Holey text f) ∧
      Together text lib reply (step lower parse reply c disk p).2 := by
  cases p with
  | start =>
    have hl : loadFromCache lower parse (if c.access then disk else none) = .ok none ∨
        loadFromCache lower parse (if c.access then disk else none) = .ok (some lib) := by
      split
      · cases disk with
        | none => exact .inl rfl
        | some f => exact fromText_holey hs text f lib ht (hd f rfl)
      · exact .inl rfl
    rcases hl with hl | hl
    · simp only [step, hl]
      exact ⟨hd, trivial⟩
    · simp only [step, hl]
      exact ⟨hd, .inl rfl⟩
  | fetch =>
    rcases hr with rfl | rfl
    · exact ⟨hd, .inr ⟨rfl, rfl⟩⟩
    · simp only [step, ht]
      exact ⟨hd, rfl, rfl⟩
  | save t l =>
    obtain ⟨rfl, rfl⟩ := hp
    cases ha : c.access with
    | true =>
      simp only [step, ha, if_true]
      refine ⟨?_, rfl, rfl, Nat.zero_le _⟩
      intro f hf
      obtain rfl := Option.some.inj hf
      exact ⟨Nat.zero_le _, fun i b hb => by simp at hb⟩
    | false =>
      simp only [step, ha, Bool.false_eq_true, if_false]
      exact ⟨hd, .inl rfl⟩
  | writing t off l =>
    obtain ⟨rfl, rfl, ho⟩ := hp
    simp only [step]
    split
    · split
      · refine ⟨?_, rfl, rfl, ?_⟩
        · intro f hf
          simp only at hf
          cases disk with
          | none => cases hf
          | some f0 =>
            obtain rfl := Option.some.inj hf
            exact holey_writeAt _ _ _ _ (hd f0 rfl) ho
        · simp only [List.length_take, List.length_drop]
          omega
      · exact ⟨hd, .inl rfl⟩
    · exact ⟨hd, .inl rfl⟩
  | done r => exact ⟨hd, hp⟩

/-! ## Different texts -/

/-- A file made of bytes of accepted texts, and zeros. -/
def Mixed (lower : String → String) (parse : Bytes → Option Json) (reply : Nat → Option Bytes)
    (file : Bytes) : Prop :=
  ∀ (j : Nat) (b : UInt8), file[j]? = some b → b ≠ 0 → ∃ k text lib,
    reply k = some text ∧ fromText lower parse text = .ok (some lib) ∧ text[j]? = some b

theorem writeAt_getElem? (file chunk : Bytes) (off i : Nat) (b : UInt8)
    (hi : (writeAt file off chunk)[i]? = some b) :
    file[i]? = some b ∨ b = 0 ∨ ∃ j, i = off + j ∧ chunk[j]? = some b := by
  have hpl : ((file ++ List.replicate (off - file.length) 0).take off).length = off := by
    rw [List.length_take, List.length_append, List.length_replicate]
    omega
  rw [writeAt, List.append_assoc] at hi
  by_cases h1 : i < off
  · rw [List.getElem?_append_left (by rw [hpl]; exact h1), List.getElem?_take_of_lt h1] at hi
    by_cases h2 : i < file.length
    · rw [List.getElem?_append_left h2] at hi
      exact .inl hi
    · rw [List.getElem?_append_right (by omega)] at hi
      exact .inr (.inl (List.eq_of_mem_replicate (List.mem_of_getElem? hi)))
  · rw [List.getElem?_append_right (by rw [hpl]; omega), hpl] at hi
    by_cases h2 : i - off < chunk.length
    · rw [List.getElem?_append_left h2] at hi
      exact .inr (.inr ⟨i - off, by omega, hi⟩)
    · rw [List.getElem?_append_right (by omega), List.getElem?_drop] at hi
      have : off + chunk.length + (i - off - chunk.length) = i := by omega
      rw [this] at hi
      exact .inl hi

/-- Where the process `i` stands if processes may be sent different texts. -/
def Apart (lower : String → String) (parse : Bytes → Option Json) (reply : Nat → Option Bytes) (i : Nat) :
    Proc → Prop
  | .start => True
  | .fetch => True
  | .save t l => reply i = some t ∧ fromText lower parse t = .ok (some l)
  | .writing t _ l => reply i = some t ∧ fromText lower parse t = .ok (some l)
  | .done r => (∃ text, reply i = some text ∧ r = fromText lower parse text) ∨
      (reply i = none ∧ r = .ok none) ∨
      ∃ f, r = fromText lower parse f ∧ r ≠ .ok none ∧ Mixed lower parse reply f

theorem apart_step (reply : Nat → Option Bytes) (i : Nat) (c : Choice) (disk : Disk) (p : Proc)
    (hd : ∀ f, disk = some f → Mixed lower parse reply f) (hp : Apart lower parse reply i p) :
    (∀ f, (step lower parse (reply i) c disk p).1 = some f → Mixed lower parse reply f) ∧
      Apart lower parse reply i (step lower parse (reply i) c disk p).2 := by
  cases p with
  | start =>
    have hl : loadFromCache lower parse (if c.access then disk else none) = .ok none ∨
        ∃ f, loadFromCache lower parse (if c.access then disk else none) = fromText lower parse f ∧
          Mixed lower parse reply f := by
      split
      · cases disk with
        | none => exact .inl rfl
        | some f => exact .inr ⟨f, rfl, hd f rfl⟩
      · exact .inl rfl
    cases hr : loadFromCache lower parse (if c.access then disk else none) with
    | error e =>
      simp only [step, hr]
      rcases hl with hl | ⟨f, hf, hm⟩
      · rw [hl] at hr
        cases hr
      · exact ⟨hd, .inr (.inr ⟨f, hr.symm.trans hf, by simp, hm⟩)⟩
    | ok o =>
      cases o with
      | none =>
        simp only [step, hr]
        exact ⟨hd, trivial⟩
      | some lib =>
        simp only [step, hr]
        rcases hl with hl | ⟨f, hf, hm⟩
        · rw [hl] at hr
          cases hr
        · exact ⟨hd, .inr (.inr ⟨f, hr.symm.trans hf, by simp, hm⟩)⟩
  | fetch =>
    cases hr : reply i with
    | none => exact ⟨hd, .inr (.inl ⟨hr, rfl⟩)⟩
    | some text =>
      cases ht : fromText lower parse text with
      | error e =>
        simp only [step, ht]
        exact ⟨hd, .inl ⟨text, hr, ht.symm⟩⟩
      | ok o =>
        cases o with
        | none =>
          simp only [step, ht]
          exact ⟨hd, .inl ⟨text, hr, ht.symm⟩⟩
        | some lib =>
          simp only [step, ht]
          exact ⟨hd, hr, ht⟩
  | save t l =>
    cases ha : c.access with
    | true =>
      simp only [step, ha, if_true]
      refine ⟨?_, hp⟩
      intro f hf
      obtain rfl := Option.some.inj hf
      intro j b hb
      simp at hb
    | false =>
      simp only [step, ha, Bool.false_eq_true, if_false]
      exact ⟨hd, .inl ⟨t, hp.1, hp.2.symm⟩⟩
  | writing t off l =>
    have hdone : Apart lower parse reply i (.done (.ok (some l))) := .inl ⟨t, hp.1, hp.2.symm⟩
    simp only [step]
    split
    · split
      · refine ⟨?_, hp⟩
        intro f hf j b hb h0
        cases disk with
        | none => cases hf
        | some f0 =>
          obtain rfl := Option.some.inj hf
          rcases writeAt_getElem? _ _ _ _ _ hb with h1 | h1 | ⟨j', rfl, h1⟩
          · exact hd f0 rfl j b h1 h0
          · exact absurd h1 h0
          · refine ⟨i, t, l, hp.1, hp.2, ?_⟩
            rw [List.getElem?_take] at h1
            split at h1
            · rw [← h1, List.getElem?_drop]
            · cases h1
      · exact ⟨hd, hdone⟩
    · exact ⟨hd, hdone⟩
  | done r => exact ⟨hd, hp⟩

theorem apart_exec (reply : Nat → Option Bytes) (schedule : List (Nat × Choice)) (s : System)
    (hd : ∀ f, s.disk = some f → Mixed lower parse reply f)
    (hp : ∀ i, Apart lower parse reply i (s.procs i)) :
    (∀ f, (s.exec lower parse reply schedule).disk = some f → Mixed lower parse reply f) ∧
      ∀ i, Apart lower parse reply i ((s.exec lower parse reply schedule).procs i) := by
  induction schedule generalizing s with
  | nil => exact ⟨hd, hp⟩
  | cons ic rest ih =>
    obtain ⟨i, c⟩ := ic
    have h := apart_step reply i c s.disk (s.procs i) hd (hp i)
    refine ih (s.step lower parse reply i c) h.1 fun j => ?_
    simp only [System.step]
    split
    · rename_i hj
      subst hj
      exact h.2
    · exact hp j

theorem exec_append (reply : Nat → Option Bytes) (a b : List (Nat × Choice)) (s : System) :
    s.exec lower parse reply (a ++ b) = (s.exec lower parse reply a).exec lower parse reply b := by
  induction a generalizing s with
  | nil => rfl
  | cons ic a ih => exact ih _

/-- All processes of a list make one step that does not look at the file. -/
theorem exec_each (reply : Nat → Option Bytes) (c : Choice) (ks : List Nat) (hnd : ks.Nodup) (s : System)
    (P : Nat → Proc → Prop) (Q : Nat → Proc → Prop) (D : Disk → Prop) (hD : D s.disk)
    (hP : ∀ k ∈ ks, P k (s.procs k))
    (hstep : ∀ k ∈ ks, ∀ disk p, D disk → P k p → D (step lower parse (reply k) c disk p).1 ∧
      Q k (step lower parse (reply k) c disk p).2) :
    D (s.exec lower parse reply (ks.map fun k => (k, c))).disk ∧
      (∀ k ∈ ks, Q k ((s.exec lower parse reply (ks.map fun k => (k, c))).procs k)) ∧
      ∀ k ∉ ks, (s.exec lower parse reply (ks.map fun k => (k, c))).procs k = s.procs k := by
  induction ks generalizing s with
  | nil => exact ⟨hD, by simp, fun _ _ => rfl⟩
  | cons k ks ih =>
    obtain ⟨hk, hnd⟩ := List.nodup_cons.1 hnd
    have h1 := hstep k List.mem_cons_self s.disk (s.procs k) hD (hP k List.mem_cons_self)
    have hne : ∀ j ∈ ks, j ≠ k := fun j hj h => hk (h ▸ hj)
    obtain ⟨h2, h3, h4⟩ := ih hnd (s.step lower parse reply k c) h1.1 (fun j hj => by
      simp only [System.step, if_neg (hne j hj)]
      exact hP j (List.mem_cons_of_mem _ hj)) (fun j hj => hstep j (List.mem_cons_of_mem _ hj))
    refine ⟨h2, fun j hj => ?_, fun j hj => ?_⟩
    · rcases List.mem_cons.1 hj with rfl | hj
      · show Q j ((System.exec lower parse reply _ _).procs j)
        rw [List.map_cons, System.exec, h4 j hk]
        simp only [System.step, if_true]
        exact h1.2
      · exact h3 j hj
    · rw [List.map_cons, System.exec, h4 j (fun h => hj (List.mem_cons_of_mem _ h))]
      simp only [System.step]
      rw [if_neg]
      rintro rfl
      exact hj List.mem_cons_self

/-- A process that writes its text has got to place `j`, or is beyond its end. -/
def At (reply : Nat → Option Bytes) (j k : Nat) (p : Proc) : Prop :=
  ∃ text, reply k = some text ∧
    ((j ≤ text.length ∧ ∃ lib, p = .writing text j lib) ∨ (text.length < j ∧ ∃ r, p = .done r))

theorem at_step (reply : Nat → Option Bytes) (front : Bytes) (k : Nat) (disk : Disk) (p : Proc)
    (hd : disk = some front ∨ ∃ b, disk = some (front ++ [b])) (hp : At reply front.length k p) :
    ((step lower parse (reply k) ⟨true, 1⟩ disk p).1 = some front ∨
      ∃ b, (step lower parse (reply k) ⟨true, 1⟩ disk p).1 = some (front ++ [b])) ∧
    (∀ text b, reply k = some text → text[front.length]? = some b →
      (step lower parse (reply k) ⟨true, 1⟩ disk p).1 = some (front ++ [b])) ∧
    At reply (front.length + 1) k (step lower parse (reply k) ⟨true, 1⟩ disk p).2 := by
  obtain ⟨text, hr, ⟨hlen, lib, rfl⟩ | ⟨hlen, r, rfl⟩⟩ := hp
  · by_cases hlt : front.length < text.length
    · have hc : (text.drop front.length).take 1 = [text[front.length]] := by
        rw [List.drop_eq_getElem_cons hlt]; rfl
      have hw : (disk.map fun file => writeAt file front.length [text[front.length]]) =
          some (front ++ [text[front.length]]) := by
        rcases hd with rfl | ⟨b, rfl⟩ <;> simp [writeAt]
      have hstep : step lower parse (reply k) ⟨true, 1⟩ disk (.writing text front.length lib) =
          (some (front ++ [text[front.length]]), .writing text (front.length + 1) lib) := by
        simp only [step, if_pos hlt, hc, hw]
        rfl
      rw [hstep]
      refine ⟨.inr ⟨_, rfl⟩, fun t b ht hb => ?_, text, hr, .inl ⟨hlt, lib, rfl⟩⟩
      obtain rfl := Option.some.inj (hr.symm.trans ht)
      rw [List.getElem?_eq_getElem hlt] at hb
      rw [Option.some.inj hb]
    · have hstep : step lower parse (reply k) ⟨true, 1⟩ disk (.writing text front.length lib) =
          (disk, .done (.ok (some lib))) := by
        simp only [step, if_neg hlt]
      rw [hstep]
      refine ⟨hd, fun t b ht hb => ?_, text, hr, .inr ⟨by omega, _, rfl⟩⟩
      obtain rfl := Option.some.inj (hr.symm.trans ht)
      rw [List.getElem?_eq_none (by omega)] at hb
      cases hb
  · refine ⟨hd, fun t b ht hb => ?_, text, hr, .inr ⟨by omega, r, rfl⟩⟩
    obtain rfl := Option.some.inj (hr.symm.trans ht)
    rw [List.getElem?_eq_none (by omega)] at hb
    cases hb

/-- One more byte of the file: all processes write theirs, the one whose byte is wanted last. -/
theorem exec_round (reply : Nat → Option Bytes) (ks : List Nat) (hnd : ks.Nodup) (front : Bytes)
    (b : UInt8) (k : Nat) (hk : k ∈ ks) (text : Bytes) (hr : reply k = some text)
    (hb : text[front.length]? = some b) (s : System) (hd : s.disk = some front)
    (hp : ∀ k ∈ ks, At reply front.length k (s.procs k)) :
    ∃ schedule, (s.exec lower parse reply schedule).disk = some (front ++ [b]) ∧
      ∀ k ∈ ks, At reply (front.length + 1) k ((s.exec lower parse reply schedule).procs k) := by
  obtain ⟨h1, h2, h3⟩ := exec_each (lower := lower) (parse := parse) reply ⟨true, 1⟩ (ks.erase k)
    (hnd.erase k) s (At reply front.length) (At reply (front.length + 1))
    (fun disk => disk = some front ∨ ∃ b, disk = some (front ++ [b])) (.inl hd)
    (fun j hj => hp j (List.mem_of_mem_erase hj)) (fun j _ disk p hd hp =>
      ⟨(at_step reply front j disk p hd hp).1, (at_step reply front j disk p hd hp).2.2⟩)
  generalize hs : s.exec lower parse reply ((ks.erase k).map fun k => (k, ⟨true, 1⟩)) = s' at h1 h2 h3
  have hkn : k ∉ ks.erase k := fun h => hnd.not_mem_erase h
  have h4 := at_step (lower := lower) (parse := parse) reply front k s'.disk (s'.procs k) h1
    (by rw [h3 k hkn]; exact hp k hk)
  refine ⟨(ks.erase k).map (fun k => (k, ⟨true, 1⟩)) ++ [(k, ⟨true, 1⟩)], ?_, fun j hj => ?_⟩
  · rw [exec_append, hs]
    exact h4.2.1 text b hr hb
  · rw [exec_append, hs]
    simp only [System.exec, System.step]
    by_cases hjk : j = k
    · subst hjk
      simp only [if_true]
      exact h4.2.2
    · rw [if_neg hjk]
      exact h2 j ((List.mem_erase_of_ne hjk).2 hj)

theorem exec_rounds (reply : Nat → Option Bytes) (ks : List Nat) (hnd : ks.Nodup) (back front : Bytes)
    (hback : ∀ (j : Nat) (b : UInt8), back[j]? = some b → ∃ k ∈ ks, ∃ text, reply k = some text ∧
      text[front.length + j]? = some b) (s : System) (hd : s.disk = some front)
    (hp : ∀ k ∈ ks, At reply front.length k (s.procs k)) :
    ∃ schedule, (s.exec lower parse reply schedule).disk = some (front ++ back) := by
  induction back generalizing front s with
  | nil => exact ⟨[], by rw [List.append_nil]; exact hd⟩
  | cons b back ih =>
    obtain ⟨k, hk, text, hr, hb⟩ := hback 0 b rfl
    obtain ⟨sch, h1, h2⟩ := exec_round (lower := lower) (parse := parse) reply ks hnd front b k hk text hr hb
      s hd hp
    obtain ⟨sch', h3⟩ := ih (front ++ [b]) (fun j b' hj => by
      obtain ⟨k, hk, text, hr, hb⟩ := hback (j + 1) b' hj
      refine ⟨k, hk, text, hr, ?_⟩
      rw [← hb, List.length_append, List.length_singleton, Nat.add_assoc, Nat.add_comm 1 j]) _ h1
      (by rw [List.length_append]; exact h2)
    refine ⟨sch ++ sch', ?_⟩
    rw [exec_append, h3, List.append_assoc, List.singleton_append]

/-- Processes in a list get ready to write. -/
theorem exec_open (reply : Nat → Option Bytes) (ks : List Nat) (hnd : ks.Nodup) (hne : ks ≠ [])
    (hr : ∀ k ∈ ks, ∃ text lib, reply k = some text ∧ fromText lower parse text = .ok (some lib)) :
    ∃ schedule, (System.exec lower parse reply schedule ⟨none, fun _ => .start⟩).disk = some [] ∧
      ∀ k ∈ ks, At reply 0 k ((System.exec lower parse reply schedule ⟨none, fun _ => .start⟩).procs k) := by
  obtain ⟨a1, a2, -⟩ := exec_each (lower := lower) (parse := parse) reply ⟨true, 0⟩ ks hnd
    ⟨none, fun _ => .start⟩ (fun _ p => p = .start) (fun _ p => p = .fetch) (fun d => d = none) rfl
    (fun _ _ => rfl) (by rintro k - disk p rfl rfl; exact ⟨rfl, rfl⟩)
  generalize hs1 : System.exec lower parse reply (ks.map fun k => (k, ⟨true, 0⟩)) ⟨none, fun _ => .start⟩ = s1
    at a1 a2
  obtain ⟨b1, b2, -⟩ := exec_each (lower := lower) (parse := parse) reply ⟨true, 0⟩ ks hnd s1
    (fun _ p => p = .fetch) (fun k p => ∃ text lib, reply k = some text ∧ p = .save text lib)
    (fun d => d = none) a1 a2 (by
      rintro k hk disk p rfl rfl
      obtain ⟨text, lib, h1, h2⟩ := hr k hk
      simp only [step, h1, h2]
      exact ⟨trivial, text, lib, rfl, rfl⟩)
  generalize hs2 : s1.exec lower parse reply (ks.map fun k => (k, ⟨true, 0⟩)) = s2 at b1 b2
  cases ks with
  | nil => exact absurd rfl hne
  | cons k ks =>
    obtain ⟨hk, hnd⟩ := List.nodup_cons.1 hnd
    obtain ⟨text, lib, h1, h2⟩ := b2 k List.mem_cons_self
    have hne' : ∀ j ∈ ks, j ≠ k := fun j hj h => hk (h ▸ hj)
    obtain ⟨c1, c2, c3⟩ := exec_each (lower := lower) (parse := parse) reply ⟨true, 0⟩ ks hnd
      (s2.step lower parse reply k ⟨true, 0⟩)
      (fun k p => ∃ text lib, reply k = some text ∧ p = .save text lib) (At reply 0)
      (fun d => d = some []) (by simp only [System.step, h2]; rfl) (fun j hj => by
        simp only [System.step, if_neg (hne' j hj)]
        exact b2 j (List.mem_cons_of_mem _ hj)) (by
      rintro j hj disk p rfl ⟨text, lib, h1, rfl⟩
      exact ⟨rfl, text, h1, .inl ⟨Nat.zero_le _, lib, rfl⟩⟩)
    refine ⟨((k :: ks).map fun k => (k, ⟨true, 0⟩)) ++ ((k :: ks).map fun k => (k, ⟨true, 0⟩)) ++
      (k, ⟨true, 0⟩) :: (ks.map fun k => (k, ⟨true, 0⟩)), ?_⟩
    rw [exec_append, exec_append, hs1, hs2]
    refine ⟨c1, fun j hj => ?_⟩
    rcases List.mem_cons.1 hj with rfl | hj
    · rw [System.exec, c3 j hk]
      simp only [System.step, if_true, h2]
      exact ⟨text, h1, .inl ⟨Nat.zero_le _, lib, rfl⟩⟩
    · exact c2 j hj

end CcLib

end Bellframe
