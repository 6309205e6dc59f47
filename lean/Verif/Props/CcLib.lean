import Verif.Proofs.CcLib

/-! # The cache of the Central Council library (C65, C66) -/

namespace Bellframe.Props

open CcLib

variable {lower : String → String} {parse : Bytes → Option Json}

/-! ## C65: calls one after the other, crashing anywhere -/

/-- A call that runs alone ends after a bounded number of steps. It returns the library in the cache; if
there is none, or it cannot be read, that in the reply. It leaves the cache as it was or, if it got a
library from the server and not from the cache, as the start of what the server sent. -/
theorem C65_call (disk : Disk) (reply : Option Bytes) (steps : List Choice) :
    ((reply.elim 0 List.length) + 4 ≤ steps.length →
      ∃ result, (run lower parse reply steps (disk, .start)).2 = .done result) ∧
    ∀ result, (run lower parse reply steps (disk, .start)).2 = .done result →
      ∃ read, (read = disk ∨ read = none) ∧ result = expected lower parse read reply ∧
        ((run lower parse reply steps (disk, .start)).1 = disk ∨
          read.elim (.ok none) (fromText lower parse) = .ok none ∧
          ∃ text k lib, reply = some text ∧ fromText lower parse text = .ok (some lib) ∧
            (run lower parse reply steps (disk, .start)).1 = some (text.take k)) := by
  constructor
  · intro h
    have h1 := left_run (lower := lower) (parse := parse) reply steps (disk, .start)
    refine done_of_left reply _ ?_
    have h2 : left reply (disk, Proc.start).2 = (reply.elim 0 List.length) + 4 := rfl
    omega
  · intro result hr
    have h1 := alone_run (lower := lower) (parse := parse) reply disk steps (disk, .start) rfl
    generalize run lower parse reply steps (disk, .start) = s at h1 hr
    obtain ⟨d, p⟩ := s
    simp only at hr
    subst hr
    obtain ⟨read, hread, hres, hd⟩ := h1
    exact ⟨read, hread, hres, by rwa [loadFromCache_eq] at hd⟩

/-- Wherever a call crashes, the cache is as it was or the start of a text in which the server sent a
library. -/
theorem C65_crash (disk : Disk) (reply : Option Bytes) (steps : List Choice) :
    (run lower parse reply steps (disk, .start)).1 = disk ∨
    ∃ text k lib, reply = some text ∧ fromText lower parse text = .ok (some lib) ∧
      (run lower parse reply steps (disk, .start)).1 = some (text.take k) := by
  have h1 := alone_run (lower := lower) (parse := parse) reply disk steps (disk, .start) rfl
  generalize run lower parse reply steps (disk, .start) = s at h1
  obtain ⟨d, p⟩ := s
  cases p with
  | start => exact .inl h1
  | fetch => exact .inl h1.1
  | save text lib => exact .inl h1.1
  | writing text off lib =>
    obtain ⟨-, hd, hr, ht, -⟩ := h1
    exact .inr ⟨text, off, lib, hr, ht, hd⟩
  | done r =>
    obtain ⟨read, -, -, hd | ⟨-, hd⟩⟩ := h1
    · exact .inl hd
    · exact .inr hd

/-- The cache after any history of calls, each of which ended or crashed anywhere. -/
theorem C65_cache (disk : Disk) (history : List (Option Bytes × List Choice)) :
    runs lower parse history disk = disk ∨
    ∃ text k lib, (∃ r ∈ history, r.1 = some text) ∧ fromText lower parse text = .ok (some lib) ∧
      runs lower parse history disk = some (text.take k) := by
  induction history generalizing disk with
  | nil => exact .inl rfl
  | cons r rs ih =>
    rw [runs]
    rcases ih (run lower parse r.1 r.2 (disk, .start)).1 with h | ⟨text, k, lib, ⟨r', hr', ht⟩, hl, hd⟩
    · rw [h]
      rcases C65_crash (lower := lower) (parse := parse) disk r.1 r.2 with h | ⟨text, k, lib, hr, hl, hd⟩
      · exact .inl h
      · exact .inr ⟨text, k, lib, ⟨r, List.mem_cons_self, hr⟩, hl, hd⟩
    · exact .inr ⟨text, k, lib, ⟨r', List.mem_cons_of_mem _ hr', ht⟩, hl, hd⟩

/-- After any history of calls that started without a cache file, each of which ended or crashed anywhere:
a call returns a library only if the server sent it, now or before, in full; it panics only on what the
server sends now; and it returns `None` only if the server sends no library now. -/
theorem C65_history (hs : JsonSyntax parse) (history : List (Option Bytes × List Choice))
    (reply : Option Bytes) (steps : List Choice) (result : Res (Option MethodLib))
    (h : (run lower parse reply steps (runs lower parse history none, .start)).2 = .done result) :
    (∀ lib, result = .ok (some lib) → ∃ text, fromText lower parse text = .ok (some lib) ∧
      (reply = some text ∨ ∃ r ∈ history, r.1 = some text)) ∧
    (∀ e, result = .error e → ∃ text, reply = some text ∧ fromText lower parse text = .error e) ∧
    (result = .ok none → reply = none ∨ ∃ text, reply = some text ∧
      fromText lower parse text = .ok none) := by
  obtain ⟨read, hread, hres, -⟩ := (C65_call _ reply steps).2 result h
  have hload : loadFromCache lower parse read = .ok none ∨
      ∃ text lib, (∃ r ∈ history, r.1 = some text) ∧ fromText lower parse text = .ok (some lib) ∧
        loadFromCache lower parse read = .ok (some lib) := by
    rcases hread with rfl | rfl
    · rcases C65_cache (lower := lower) (parse := parse) none history with h | ⟨text, k, lib, hr, ht, hd⟩
      · rw [h]
        exact .inl rfl
      · rw [hd]
        rcases fromText_cut hs text (text.take k) lib ht (List.take_prefix _ _) with h1 | h1
        · exact .inl h1
        · exact .inr ⟨text, lib, hr, ht, h1⟩
    · exact .inl rfl
  rcases hload with hl | ⟨text, lib, hr, ht, hl⟩
  · rw [expected_of_load_none _ _ hl] at hres
    cases reply with
    | none =>
      subst hres
      exact ⟨nofun, nofun, fun _ => .inl rfl⟩
    | some text =>
      have hres : result = fromText lower parse text := hres
      exact ⟨fun lib h => ⟨text, hres ▸ h, .inl rfl⟩, fun e h => ⟨text, rfl, hres ▸ h⟩,
        fun h => .inr ⟨text, rfl, hres ▸ h⟩⟩
  · rw [expected_of_load_some _ _ _ hl] at hres
    subst hres
    exact ⟨fun lib' h => ⟨text, by rwa [← h], .inr hr⟩, nofun, nofun⟩

/-- A crash is repaired: whatever the cache holds from which no library can be loaded, a call whose system
calls succeed returns the library the server sends and saves it in full. From then on every call that can
read the cache returns the same library, whether or not the server can be reached, and changes nothing. -/
theorem C65_saved (disk : Disk) (hd : disk.elim (.ok none) (fromText lower parse) = .ok none)
    (text : Bytes) (lib : MethodLib) (ht : fromText lower parse text = .ok (some lib))
    (steps : List Choice) (hok : ∀ c ∈ steps, c.access = true ∧ 0 < c.chunk)
    (hlen : text.length + 4 ≤ steps.length) :
    run lower parse (some text) steps (disk, .start) = (some text, .done (.ok (some lib))) ∧
    ∀ (reply : Option Bytes) (c : Choice) (steps' : List Choice), c.access = true →
      run lower parse reply (c :: steps') (some text, .start) =
        (some text, .done (.ok (some lib))) := by
  constructor
  · obtain ⟨r, hr⟩ := (C65_call (lower := lower) (parse := parse) disk (some text) steps).1 hlen
    cases steps with
    | nil => simp at hlen
    | cons c cs =>
      have hstep : step lower parse (some text) c disk .start = (disk, .fetch) := by
        rw [← loadFromCache_eq] at hd
        simp only [step, (hok c List.mem_cons_self).1, if_true, hd]
      have h1 := saved_run text lib ht cs (fun c' hc' => hok c' (List.mem_cons_of_mem _ hc')) (disk, .fetch)
        trivial
      rw [run, hstep] at hr ⊢
      generalize run lower parse (some text) cs (disk, .fetch) = s at h1 hr ⊢
      obtain ⟨d, p⟩ := s
      simp only at hr
      subst hr
      obtain ⟨rfl, rfl⟩ := h1
      rfl
  · intro reply c steps' hc
    have hstep : step lower parse reply c (some text) .start = (some text, .done (.ok (some lib))) := by
      simp only [step, hc, if_true, loadFromCache, ht]
    rw [run, hstep]
    clear hc hstep hlen hok
    induction steps' with
    | nil => rfl
    | cons c' cs ih => exact ih

/-- A cache on which `from_json` panics (see C63) is never repaired: every call that reads it panics, even
if the server would send a library, and leaves it as it is. (By `C65_history` no history of calls
produces one.) -/
theorem C65_poisoned (text : Bytes) (e : Panic) (h : fromText lower parse text = .error e)
    (reply : Option Bytes) (c : Choice) (hc : c.access = true) (steps : List Choice) :
    run lower parse reply (c :: steps) (some text, .start) = (some text, .done (.error e)) := by
  have hstep : step lower parse reply c (some text) .start = (some text, .done (.error e)) := by
    simp only [step, hc, if_true, loadFromCache, h]
  rw [run, hstep]
  induction steps with
  | nil => rfl
  | cons c' cs ih => exact ih

/-! ## C66: calls at the same time -/

theorem together_exec (hs : JsonSyntax parse) (text : Bytes) (lib : MethodLib)
    (ht : fromText lower parse text = .ok (some lib)) (reply : Nat → Option Bytes)
    (hr : ∀ i, reply i = none ∨ reply i = some text) (schedule : List (Nat × Choice)) (s : System)
    (hd : ∀ f, s.disk = some f → Holey text f) (hp : ∀ i, Together text lib (reply i) (s.procs i)) :
    (∀ f, (s.exec lower parse reply schedule).disk = some f → Holey text f) ∧
      ∀ i, Together text lib (reply i) ((s.exec lower parse reply schedule).procs i) := by
  induction schedule generalizing s with
  | nil => exact ⟨hd, hp⟩
  | cons ic rest ih =>
    obtain ⟨i, c⟩ := ic
    have h := together_step hs text lib ht (reply i) (hr i) c s.disk (s.procs i) hd (hp i)
    refine ih (s.step lower parse reply i c) h.1 fun j => ?_
    simp only [System.step]
    split
    · rename_i hj
      subst hj
      exact h.2
    · exact hp j

/-- Any number of calls at the same time, in any schedule, with crashes and failures anywhere, as long as
the server sends them all the same text: a call that ends returns the library in that text, or `None` if
it could not reach the server. It never panics. The file may be missing or cut short at first. -/
theorem C66_same_text_partial (hs : JsonSyntax parse) (text : Bytes) (lib : MethodLib)
    (ht : fromText lower parse text = .ok (some lib)) (reply : Nat → Option Bytes)
    (hr : ∀ i, reply i = none ∨ reply i = some text) (schedule : List (Nat × Choice)) (disk : Disk)
    (hd : disk = none ∨ ∃ k, disk = some (text.take k)) (i : Nat) (result : Res (Option MethodLib))
    (h : (System.exec lower parse reply schedule ⟨disk, fun _ => .start⟩).procs i = .done result) :
    result = .ok (some lib) ∨ result = .ok none ∧ reply i = none := by
  have h1 := (together_exec hs text lib ht reply hr schedule ⟨disk, fun _ => .start⟩ (by
    intro f hf
    rcases hd with rfl | ⟨k, rfl⟩
    · cases hf
    · obtain rfl := Option.some.inj hf
      refine ⟨by simp, fun i b hb => .inl ?_⟩
      rw [List.getElem?_take] at hb
      split at hb
      · exact hb
      · cases hb) fun _ => trivial).2 i
  rw [h] at h1
  exact h1

/-- What the cache can contain when calls run at the same time and are sent any texts: apart from contents
with NUL characters (which are not JSON), and from nothing at all, exactly the mixtures of the texts, in
which each byte comes from any text that has it in the same place. -/
theorem C66_contents (reply : Nat → Option Bytes) (file : Bytes) (hne : file ≠ [])
    (h0 : (0 : UInt8) ∉ file) :
    (∃ schedule, (System.exec lower parse reply schedule ⟨none, fun _ => .start⟩).disk = some file) ↔
      Mixture lower parse reply file := by
  constructor
  · rintro ⟨schedule, h⟩ j b hb
    exact (apart_exec reply schedule ⟨none, fun _ => .start⟩ (by simp) (fun _ => trivial)).1 file h j b hb
      (fun h => h0 (h ▸ List.mem_of_getElem? hb))
  · intro h
    have h' : ∀ j : Fin file.length, ∃ k text lib, reply k = some text ∧
        fromText lower parse text = .ok (some lib) ∧ text[j.1]? = some file[j.1] :=
      fun j => h j.1 _ (List.getElem?_eq_getElem j.2)
    choose k text lib h1 h2 h3 using h'
    have hmem : ∀ x, x ∈ ((List.finRange file.length).map k).dedup ↔ ∃ j, k j = x := by
      intro x
      rw [List.mem_dedup, List.mem_map]
      exact ⟨fun ⟨j, _, hj⟩ => ⟨j, hj⟩, fun ⟨j, hj⟩ => ⟨j, List.mem_finRange j, hj⟩⟩
    obtain ⟨sch, h4, h5⟩ := exec_open (lower := lower) (parse := parse) reply
      ((List.finRange file.length).map k).dedup (List.nodup_dedup _) (by
        intro hnil
        have := (hmem (k ⟨0, List.length_pos_of_ne_nil hne⟩)).2 ⟨_, rfl⟩
        rw [hnil] at this
        cases this) (by
        intro x hx
        obtain ⟨j, rfl⟩ := (hmem x).1 hx
        exact ⟨text j, lib j, h1 j, h2 j⟩)
    obtain ⟨sch', h6⟩ := exec_rounds (lower := lower) (parse := parse) reply
      ((List.finRange file.length).map k).dedup (List.nodup_dedup _) file [] (by
        intro j b hb
        obtain ⟨hj, rfl⟩ := List.getElem?_eq_some_iff.1 hb
        refine ⟨k ⟨j, hj⟩, (hmem _).2 ⟨_, rfl⟩, text ⟨j, hj⟩, h1 _, ?_⟩
        rw [List.length_nil, Nat.zero_add]
        exact h3 ⟨j, hj⟩) _ h4 h5
    exact ⟨sch ++ sch', by rw [exec_append, h6]; rfl⟩

/-- What a call can return when calls run at the same time and are sent any texts: what its own text gives,
`None` if it gets no text, or what a mixture of the texts gives. -/
theorem C66_results (hs : JsonSyntax parse) (reply : Nat → Option Bytes) (schedule : List (Nat × Choice))
    (i : Nat) (result : Res (Option MethodLib))
    (h : (System.exec lower parse reply schedule ⟨none, fun _ => .start⟩).procs i = .done result) :
    result = (reply i).elim (.ok none) (fromText lower parse) ∨
    ∃ file, Mixture lower parse reply file ∧ result = fromText lower parse file ∧ result ≠ .ok none := by
  have h1 := (apart_exec (lower := lower) (parse := parse) reply schedule ⟨none, fun _ => .start⟩ (by simp)
    (fun _ => trivial)).2 i
  rw [h] at h1
  rcases h1 with ⟨text, h1, h2⟩ | ⟨h1, h2⟩ | ⟨f, h1, h2, h3⟩
  · exact .inl (by rw [h1, h2]; rfl)
  · exact .inl (by rw [h1, h2]; rfl)
  · refine .inr ⟨f, fun j b hb => h3 j b hb ?_, h1, h2⟩
    rintro rfl
    cases hp : parse f with
    | none =>
      rw [fromText, hp] at h1
      exact h2 h1
    | some json => exact hs.noNul _ _ hp (List.mem_of_getElem? hb)

/-- The bytes of a text in ASCII. -/
def ascii (s : String) : Bytes := s.toList.map fun c => UInt8.ofNat c.toNat

/-- A library with one method, as JSON. -/
def oneMethod (title pn : String) : Json :=
  .obj [("groups", .arr [.obj [("s", .num 4), ("c", .num 2),
    ("m", .arr [.obj [("t", .str title), ("n", .str ""), ("p", .str pn)]])]])]

/-- The same as text, in two parts. -/
def frontOf (title : String) : Bytes :=
  ascii "{\"groups\":[{\"s\":4,\"c\":2,\"m\":[{\"t\":\"" ++ ascii title

def backOf (pn : String) : Bytes := ascii "\",\"n\":\"\",\"p\":\"" ++ ascii pn ++ ascii "\"}]}]}"

/-- Two texts can get mixed up: while one call saves the first, another one that was sent the second
overwrites its start. -/
theorem mixed_up (front front' back back' : Bytes) (hlen : front.length = front'.length)
    (h0 : 0 < front.length) (h1 : 0 < back'.length) (l l' mix : MethodLib)
    (hl : fromText lower parse (front ++ back) = .ok (some l))
    (hl' : fromText lower parse (front' ++ back') = .ok (some l'))
    (hm : fromText lower parse (front' ++ back) = .ok (some mix)) (reply : Nat → Option Bytes)
    (hr : reply 0 = some (front ++ back)) (hr' : reply 1 = some (front' ++ back')) :
    ∃ schedule, (System.exec lower parse reply schedule ⟨none, fun _ => .start⟩).procs 2 =
      .done (.ok (some mix)) := by
  refine ⟨[(0, ⟨true, 0⟩), (0, ⟨true, 0⟩), (1, ⟨true, 0⟩), (1, ⟨true, 0⟩), (0, ⟨true, 0⟩),
    (1, ⟨true, 0⟩), (0, ⟨true, (front ++ back).length⟩), (1, ⟨true, front'.length⟩), (2, ⟨true, 0⟩)], ?_⟩
  have hf : 0 < front'.length := hlen ▸ h0
  have e0 : (front ++ back).take (front.length + back.length) = front ++ back :=
    List.take_of_length_le (by simp)
  have e1 : writeAt [] 0 (front ++ back) = front ++ back := by simp [writeAt]
  have e2 : writeAt (front ++ back) 0 front' = front' ++ back := by
    simp [writeAt, ← hlen]
  simp [System.exec, System.step, step, loadFromCache, hr, hr', hl, hl', h0, hf, e0, e1, e2, hm]

/-- If the server changes its text between calls at the same time, a call can return a library that the
server never sent: here the title of one method with the place notation of another. -/
theorem C66_false (parse : Bytes → Option Json)
    (hp : ∀ title ∈ ["A", "B"], ∀ pn ∈ ["x14", "x12"],
      parse (frontOf title ++ backOf pn) = some (oneMethod title pn)) :
    ∃ (reply : Nat → Option Bytes) (schedule : List (Nat × Choice)) (lib : MethodLib),
      (System.exec lower parse reply schedule ⟨none, fun _ => .start⟩).procs 2 =
        .done (.ok (some lib)) ∧
      ∀ i text, reply i = some text → fromText lower parse text ≠ .ok (some lib) := by
  have hlib : ∀ title pn, parse (frontOf title ++ backOf pn) = some (oneMethod title pn) →
      fromText lower parse (frontOf title ++ backOf pn) = .ok (some ⟨⟨[(⟨4⟩,
        ⟨[(lower title, ⟨"", title, ⟨false, false, false, .bob⟩, pn⟩)],
          by simp⟩)], by simp⟩⟩) := by
    intro title pn h
    rw [fromText, h]
    rfl
  have hA := hlib "A" "x14" (hp _ (by simp) _ (by simp))
  have hB := hlib "B" "x12" (hp _ (by simp) _ (by simp))
  have hM := hlib "B" "x14" (hp _ (by simp) _ (by simp))
  refine ⟨fun i => if i = 0 then some (frontOf "A" ++ backOf "x14")
    else if i = 1 then some (frontOf "B" ++ backOf "x12") else none, ?_⟩
  obtain ⟨schedule, h⟩ := mixed_up (frontOf "A") (frontOf "B") (backOf "x14") (backOf "x12") (by
    simp [frontOf, ascii]) (by simp [frontOf, ascii]) (by simp [backOf, ascii]) _ _ _ hA hB hM
    (fun i => if i = 0 then some (frontOf "A" ++ backOf "x14")
      else if i = 1 then some (frontOf "B" ++ backOf "x12") else none) rfl rfl
  refine ⟨schedule, _, h, ?_⟩
  intro i text ht hlib'
  simp only at ht
  split at ht
  · obtain rfl := Option.some.inj ht
    rw [hA] at hlib'
    simp at hlib'
  · split at ht
    · obtain rfl := Option.some.inj ht
      rw [hB] at hlib'
      simp at hlib'
    · cases ht

/-! ## Examples -/

/-- A reader of JSON that knows only libraries of one method out of a few. -/
def smallParse (text : Bytes) : Option Json :=
  if text = frontOf "A" ++ backOf "x14" then some (oneMethod "A" "x14")
  else if text = frontOf "B" ++ backOf "x12" then some (oneMethod "B" "x12")
  else if text = frontOf "A" ++ backOf "x12" then some (oneMethod "A" "x12")
  else if text = frontOf "B" ++ backOf "x14" then some (oneMethod "B" "x14")
  else none

theorem smallParse_cases (text : Bytes) (json : Json) (h : smallParse text = some json) :
    ∃ title ∈ ["A", "B"], ∃ pn ∈ ["x14", "x12"], text = frontOf title ++ backOf pn := by
  unfold smallParse at h
  split at h
  · exact ⟨"A", by simp, "x14", by simp, by assumption⟩
  split at h
  · exact ⟨"B", by simp, "x12", by simp, by assumption⟩
  split at h
  · exact ⟨"A", by simp, "x12", by simp, by assumption⟩
  split at h
  · exact ⟨"B", by simp, "x14", by simp, by assumption⟩
  · cases h

theorem smallParse_bytes : ∀ title ∈ ["A", "B"], ∀ pn ∈ ["x14", "x12"],
    (0 : UInt8) ∉ frontOf title ++ backOf pn ∧ (frontOf title ++ backOf pn).length = 59 ∧
    ∀ title' ∈ ["A", "B"], ∀ pn' ∈ ["x14", "x12"],
      frontOf title ++ backOf pn = frontOf title' ++ backOf pn' → title = title' ∧ pn = pn' := by
  decide +kernel

theorem smallParse_text : ∀ title ∈ ["A", "B"], ∀ pn ∈ ["x14", "x12"],
    smallParse (frontOf title ++ backOf pn) = some (oneMethod title pn) := by
  intro title ht pn hp
  have h := (smallParse_bytes title ht pn hp).2.2
  have hA : "A" ∈ ["A", "B"] := by simp
  have hB : "B" ∈ ["A", "B"] := by simp
  have hx : "x14" ∈ ["x14", "x12"] := by simp
  have hy : "x12" ∈ ["x14", "x12"] := by simp
  have hne : smallParse (frontOf title ++ backOf pn) ≠ none := by
    simp only [List.mem_cons, List.not_mem_nil, or_false] at ht hp
    unfold smallParse
    rcases ht with rfl | rfl <;> rcases hp with rfl | rfl <;> (repeat' split) <;> simp_all
  unfold smallParse at hne ⊢
  split
  · rename_i e
    obtain ⟨rfl, rfl⟩ := h _ hA _ hx e
    rfl
  split
  · rename_i e
    obtain ⟨rfl, rfl⟩ := h _ hB _ hy e
    rfl
  split
  · rename_i e
    obtain ⟨rfl, rfl⟩ := h _ hA _ hy e
    rfl
  split
  · rename_i e
    obtain ⟨rfl, rfl⟩ := h _ hB _ hx e
    rfl
  · simp_all

theorem smallParse_syntax : JsonSyntax smallParse := by
  constructor
  · intro text json h
    obtain ⟨title, hn, pn, hp, rfl⟩ := smallParse_cases text json h
    exact (smallParse_bytes title hn pn hp).1
  · intro text json h _ front hf
    cases h' : smallParse front with
    | none => exact .inl rfl
    | some json' =>
      obtain ⟨title, hn, pn, hp, rfl⟩ := smallParse_cases text json h
      obtain ⟨title', hn', pn', hp', rfl⟩ := smallParse_cases front json' h'
      have := hf.eq_of_length ((smallParse_bytes title' hn' pn' hp').2.1.trans
        (smallParse_bytes title hn pn hp).2.1.symm)
      rw [this] at h'
      exact .inr (h'.symm.trans h)

/-- The hypotheses of C65 and C66 can be met. -/
example : JsonSyntax smallParse ∧ (∀ title ∈ ["A", "B"], ∀ pn ∈ ["x14", "x12"],
    smallParse (frontOf title ++ backOf pn) = some (oneMethod title pn)) ∧
    ∃ lib, fromText lower smallParse (frontOf "A" ++ backOf "x14") = .ok (some lib) := by
  refine ⟨smallParse_syntax, smallParse_text, ?_⟩
  rw [fromText, smallParse_text "A" (by simp) "x14" (by simp)]
  exact ⟨_, rfl⟩

end Bellframe.Props
