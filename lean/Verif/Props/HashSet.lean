import Verif.Proofs.HashSet
import Verif.Props.RowSets

/-!
# C89: rows and other values as keys of hash sets
-/

namespace Bellframe.Props

theorem hashIdentifies_bell : HashIdentifies Bell.hashWrites := by
  rintro ⟨a⟩ ⟨b⟩ s t h
  simpa [Bell.hashWrites] using h

theorem hashIdentifies_stage : HashIdentifies Stage.hashWrites := by
  rintro ⟨a⟩ ⟨b⟩ s t h
  simpa [Stage.hashWrites] using h

theorem hashIdentifies_ssv : HashIdentifies SameStageVec.hashWrites :=
  (hashIdentifies_bell.slice.pair hashIdentifies_stage).comap
    (fun v : SameStageVec => (v.bells, v.stage)) (by
      rintro ⟨a, b⟩ ⟨c, d⟩ h
      simpa using h)

theorem hashIdentifies_placeNot : HashIdentifies PlaceNot.hashWrites :=
  (HashIdentifies.words.pair hashIdentifies_stage).comap
    (fun v : PlaceNot => (v.places, v.stage)) (by
      rintro ⟨a, b⟩ ⟨c, d⟩ h
      simpa using h)

theorem hashIdentifies_class : HashIdentifies MethodClass.hashWrites := by
  intro a b s t h
  cases a <;> cases b <;> simp [MethodClass.hashWrites] at h ⊢ <;> exact h

/-- What a value writes to the hasher identifies it, even if more is written afterwards (as when it is part of a
larger key): two different bells, stages, parities, rows, vectors of rows, blocks, place notations, blocks of
place notation, masks, regexes or classes never look the same to a hasher. -/
theorem C89_hash :
    HashIdentifies Bell.hashWrites ∧ HashIdentifies Stage.hashWrites ∧ HashIdentifies Parity.hashWrites ∧
    HashIdentifies Row.hashWrites ∧ HashIdentifies RowBuf.hashWrites ∧
    HashIdentifies SameStageVec.hashWrites ∧
    (∀ (A : Type) (f : A → List HashWrite), HashIdentifies f → HashIdentifies (AnnotBlock.hashWrites f)) ∧
    HashIdentifies PlaceNot.hashWrites ∧ HashIdentifies PnBlock.hashWrites ∧
    HashIdentifies Mask.hashWrites ∧ HashIdentifies Regex.hashWrites ∧
    HashIdentifies FullClass.hashWrites := by
  refine ⟨hashIdentifies_bell, hashIdentifies_stage, ?_, ?_, ?_, hashIdentifies_ssv, ?_,
    hashIdentifies_placeNot, ?_, ?_, ?_, ?_⟩
  · intro a b s t h
    cases a <;> cases b <;> simp [Parity.hashWrites] at h ⊢ <;> exact h
  · exact hashIdentifies_bell.slice.comap Row.bells (by rintro ⟨a⟩ ⟨b⟩ h; simpa using h)
  · exact hashIdentifies_bell.slice.comap RowBuf.bellVec (by rintro ⟨a⟩ ⟨b⟩ h; simpa using h)
  · intro A f hf
    exact (hashIdentifies_ssv.pair hf.slice).comap (fun b : AnnotBlock A => (b.rows, b.annots)) (by
      rintro ⟨a, b⟩ ⟨c, d⟩ h
      simpa using h)
  · exact hashIdentifies_placeNot.slice.comap PnBlock.pns (by rintro ⟨a⟩ ⟨b⟩ h; simpa using h)
  · exact hashIdentifies_bell.option.slice.comap Mask.bells (by rintro ⟨a⟩ ⟨b⟩ h; simpa using h)
  · have he : HashIdentifies RegexElem.hashWrites := by
      intro a b s t h
      cases a <;> cases b <;> simp [RegexElem.hashWrites] at h ⊢
      · exact hashIdentifies_bell _ _ _ _ h
      · exact h
      · exact h
    exact he.slice.comap Regex.elems (by rintro ⟨a⟩ ⟨b⟩ h; simpa using h)
  · have := ((HashIdentifies.bool.pair HashIdentifies.bool).pair HashIdentifies.bool).pair
      hashIdentifies_class
    exact this.comap (fun c : FullClass => (((c.isJump, c.isLittle), c.isDifferential), c.cls)) (by
      rintro ⟨a, b, c, d⟩ ⟨a', b', c', d'⟩ h
      simpa [and_assoc] using h)

/-- Without the number of bells in front, `12` and `1`, `2` would write the same. -/
example : ¬ HashIdentifies fun r : Row => r.bells.flatMap Bell.hashWrites := by
  intro h
  have := (h ⟨[⟨0⟩, ⟨1⟩]⟩ ⟨[⟨0⟩]⟩ [] [.usize 1] rfl).1
  simp at this

/-- Owned and borrowed rows are interchangeable as keys: borrowing does not change what is written to the hasher,
nor which rows are equal; borrowing and making owned are inverse to each other. -/
theorem C89_borrow :
    (∀ a : RowBuf, a.borrow.hashWrites = a.hashWrites) ∧
    (∀ a b : RowBuf, Row.beq a.borrow b.borrow = RowBuf.beq a b) ∧
    (∀ a b : RowBuf, RowBuf.beq a b = true ↔ a = b) ∧
    (∀ a b : Row, Row.beq a b = true ↔ a = b) ∧
    (∀ r : Row, r.toOwned.borrow = r) ∧ (∀ r : RowBuf, r.borrow.toOwned = r) :=
  ⟨fun _ => rfl, fun _ _ => rfl, RowBuf.beq_iff, Row.beq_iff, fun _ => rfl, fun _ => rfl⟩

example : (Row.mk [⟨1⟩, ⟨0⟩]).hashWrites = [.usize 2, .usize 1, .usize 0] := rfl

/-- A hash set of owned rows, with any hasher and any number of buckets, is the set of the rows put in: it can be
asked for owned and for borrowed rows, yields each row once, and `insert` tells whether the row is new. -/
theorem C89_sets (H : Hasher) (size : HashTable RowBuf → Nat) (rows : List Row) :
    let t := HashTable.collect H size RowBuf.hashWrites RowBuf.beq (rows.map Row.toOwned)
    (∀ r : Row, t.contains H RowBuf.borrow Row.hashWrites Row.beq r = true ↔ r ∈ rows) ∧
    (∀ r : Row, t.contains H id RowBuf.hashWrites RowBuf.beq r.toOwned = true ↔ r ∈ rows) ∧
    t.elems.Nodup ∧ (∀ r : Row, r.toOwned ∈ t.elems ↔ r ∈ rows) ∧
    (∀ r : Row, (t.insert H size RowBuf.hashWrites RowBuf.beq r.toOwned).2 = true ↔ r ∉ rows) := by
  intro t
  obtain ⟨hw, hm⟩ := HashTable.collect_spec (H := H) (hash := RowBuf.hashWrites) size RowBuf.beq
    RowBuf.beq_iff (rows.map Row.toOwned)
  have hm' : ∀ r : Row, r.toOwned ∈ t.elems ↔ r ∈ rows := by
    intro r
    rw [hm, List.mem_map]
    constructor
    · rintro ⟨x, hx, he⟩; rw [Row.toOwned_inj] at he; exact he ▸ hx
    · intro hr; exact ⟨r, hr, rfl⟩
  refine ⟨fun r => ?_, fun r => ?_, hw.1, hm', fun r => ?_⟩
  · rw [HashTable.contains_iff hw RowBuf.borrow Row.hashWrites Row.beq (fun _ => rfl) Row.beq_iff, ← hm']
    constructor
    · rintro ⟨k, hk, rfl⟩; exact hk
    · intro h; exact ⟨r.toOwned, h, rfl⟩
  · rw [HashTable.contains_iff hw id RowBuf.hashWrites RowBuf.beq (fun _ => rfl) RowBuf.beq_iff, ← hm']
    simp only [id, exists_eq_right]
    exact Iff.rfl
  · obtain ⟨_, h2, h3⟩ := HashTable.insert_spec size RowBuf.beq RowBuf.beq_iff hw r.toOwned
    rw [← hm']
    by_cases h : r.toOwned ∈ t.elems
    · rw [h2 h]
      simp [h]
    · exact ⟨fun _ => h, fun _ => (h3 h).1⟩

/-- Three rows, one of them twice, with a hasher that adds up what is written, in tables that grow by one
bucket. -/
example : (HashTable.collect (fun ws => (ws.map fun w => match w with | .usize v => v | _ => 0).sum)
      (fun t => t.buckets.length + 1) RowBuf.hashWrites RowBuf.beq
      ([⟨[⟨0⟩, ⟨1⟩, ⟨2⟩]⟩, ⟨[⟨1⟩, ⟨0⟩]⟩, ⟨[⟨0⟩, ⟨1⟩, ⟨2⟩]⟩, ⟨[⟨0⟩]⟩].map Row.toOwned)).buckets =
    [[⟨[⟨0⟩, ⟨1⟩, ⟨2⟩]⟩, ⟨[⟨1⟩, ⟨0⟩]⟩], [⟨[⟨0⟩]⟩], []] := by decide

/-- `least_group_containing`, run on hash tables with any hasher: the set returned, asked for borrowed rows,
contains exactly the rows of the group generated, each once. -/
theorem C89_least_group (H : Hasher) (size : HashTable RowBuf → Nat) {n : Nat} (hn : 0 < n)
    (gens : List (Equiv.Perm (Fin n))) (hne : gens ≠ []) :
    ∃ t, (Row.leastGroupContainingOn H size (gens.map Row.ofPerm)).Returns (.ok t) ∧ t.elems.Nodup ∧
      ∀ r : Row, t.contains H RowBuf.borrow Row.hashWrites Row.beq r = true ↔
        ∃ σ ∈ Subgroup.closure {g | g ∈ gens}, r = Row.ofPerm σ := by
  obtain ⟨out, h1, _, h3⟩ := C18_least_group hn gens hne
  obtain ⟨set, a, b, c⟩ := Row.lgcSeed_ofPerm hn gens none [] (Or.inl rfl) (by simp)
  simp only [List.map_nil] at c
  have hrep : Row.Rep H HashTable.empty [] := ⟨HashTable.wellFormed_empty, List.Perm.nil⟩
  obtain ⟨_, _, hs⟩ := Row.lgcSeedOn_sim (size := size) (gens.map Row.ofPerm) none HashTable.empty [] [] hrep
  obtain ⟨t1, ht1, hr1⟩ := hs _ _ c
  obtain ⟨out', t2, h4, h5, h6⟩ := Row.lgcLoopOn_sim (H := H) (size := size) gens _ set set t1 (le_refl _) a hr1
  have hout : out' = out := by
    have : (Row.leastGroupContaining (gens.map Row.ofPerm)).Returns (.ok out') := by
      simp only [Row.leastGroupContaining, c, Run.lift_eq, Run.ofRes_ok_bind]
      rw [Run.returns_bind h4]
      simp
    have := Run.Returns.unique this h1
    injection this
  subst hout
  refine ⟨t2, ?_, h6.1.1, fun r => ?_⟩
  · simp only [List.map_nil] at ht1
    simp only [Row.leastGroupContainingOn, ht1, Run.lift_eq, Run.ofRes_ok_bind]
    rw [Run.returns_bind h5]
    simp
  · rw [← h3, ← h6.mem, HashTable.contains_iff h6.1 RowBuf.borrow Row.hashWrites Row.beq (fun _ => rfl)
      Row.beq_iff]
    constructor
    · rintro ⟨k, hk, rfl⟩; exact hk
    · intro h; exact ⟨r.toOwned, h, rfl⟩

example : (3 : Nat) > 0 ∧ [Equiv.swap (0 : Fin 3) 1, Equiv.swap (1 : Fin 3) 2] ≠ [] := by simp

/-- With valid rows of several stages, `least_group_containing` run on hash tables returns the error for the first
row whose stage differs from the first row's, whatever the hasher. -/
theorem C89_least_group_mixed (H : Hasher) (size : HashTable RowBuf → Nat) (rows : List Row)
    (hv : ∀ r ∈ rows, r.Valid) (hmix : ¬ ∃ n, ∀ r ∈ rows, r.bells.length = n) :
    ∃ r0 tl pre r post, rows = r0 :: tl ∧ rows = pre ++ r :: post ∧
      (∀ r' ∈ pre, r'.bells.length = r0.bells.length) ∧ r.bells.length ≠ r0.bells.length ∧
      (Row.leastGroupContainingOn H size rows).Returns
        (.error ⟨⟨r0.bells.length⟩, ⟨r.bells.length⟩⟩) := by
  cases rows with
  | nil => exact absurd ⟨0, by simp⟩ hmix
  | cons r0 tl =>
    obtain ⟨n, hn, σ, rfl⟩ := Row.valid_iff_exists_perm.1 (hv r0 (by simp))
    obtain ⟨pre, r, post, heq, h1, h2⟩ := Row.split_first_mismatch (n := n)
      (fun h => hmix ⟨n, h⟩)
    obtain ⟨T, hT⟩ := Row.exists_perms (n := n) (rows := pre)
      (fun r' hr' => ⟨hv r' (by rw [heq]; simp [hr']), h1 r' hr'⟩)
    have hTne : T ≠ [] := by
      rintro rfl
      rw [hT] at heq
      simp only [List.map_nil, List.nil_append, List.cons.injEq] at heq
      rw [← heq.1] at h2
      simp at h2
    refine ⟨_, tl, pre, r, post, rfl, heq, by simpa using h1, by simpa using h2, ?_⟩
    have := Row.lgcSeed_mismatch hn r (hv r (by rw [heq]; simp)) h2 post T none [] []
      (Or.inr ⟨rfl, hTne⟩)
    rw [← hT, ← heq] at this
    have hrep : Row.Rep H HashTable.empty [] := ⟨HashTable.wellFormed_empty, List.Perm.nil⟩
    have h3 := (Row.lgcSeedOn_sim (size := size) _ none HashTable.empty [] [] hrep).2.1 _ this
    rw [List.map_nil] at h3
    simp [Row.leastGroupContainingOn, h3]

example : (∀ r ∈ [Row.rounds ⟨3⟩, Row.rounds ⟨4⟩], r.Valid) ∧
    ¬ ∃ n, ∀ r ∈ [Row.rounds ⟨3⟩, Row.rounds ⟨4⟩], r.bells.length = n := by
  refine ⟨by decide, ?_⟩
  rintro ⟨n, h⟩
  have h3 := h (Row.rounds ⟨3⟩) (by simp)
  have h4 := h (Row.rounds ⟨4⟩) (by simp)
  rw [← h3] at h4
  exact absurd h4 (by decide)

theorem isGroupInnerOn_eq {H : Hasher} {t : HashTable Row} (hw : t.WellFormed H Row.hashWrites) (bInv : Row) :
    ∀ (as : List Row) (buf : Row), Row.isGroupInnerOn H t bInv as buf = Row.isGroupInner t.elems bInv as buf
  | [], _ => rfl
  | a :: as, buf => by
    rw [Row.isGroupInnerOn, Row.isGroupInner]
    congr 1
    funext buf'
    have hc := HashTable.contains_iff hw id Row.hashWrites Row.beq (fun _ => rfl) Row.beq_iff (q := buf')
    simp only [id, exists_eq_right] at hc
    rw [isGroupInnerOn_eq hw bInv as buf']
    by_cases hm : buf' ∈ t.elems
    · simp [hc.2 hm, hm]
    · have : t.contains H id Row.hashWrites Row.beq buf' = false := by
        rw [Bool.eq_false_iff]; exact fun h => hm (hc.1 h)
      simp [this, hm]

theorem isGroupOuterOn_eq {H : Hasher} {t : HashTable Row} (hw : t.WellFormed H Row.hashWrites) :
    ∀ (bs : List Row) (bInv buf : Row), Row.isGroupOuterOn H t bs bInv buf = Row.isGroupOuter t.elems bs bInv buf
  | [], _, _ => rfl
  | b :: bs, bInv, buf => by
    rw [Row.isGroupOuterOn, Row.isGroupOuter]
    simp only [isGroupInnerOn_eq hw, isGroupOuterOn_eq hw bs]

theorem isGroupOn_eq (H : Hasher) (size : HashTable Row → Nat) (rows : List Row) :
    Row.isGroupOn H size rows =
      Row.isGroup (HashTable.collect H size Row.hashWrites Row.beq rows).elems := by
  obtain ⟨hw, _⟩ := HashTable.collect_spec (H := H) (hash := Row.hashWrites) size Row.beq Row.beq_iff rows
  rw [Row.isGroupOn, Row.isGroup]
  simp only [isGroupOuterOn_eq hw]
  rfl

/-- `is_group`, run on hash tables with any hasher, and given the rows in any order and possibly several times:
it returns whether they are (the rows of) a group of permutations; `false` for no rows; and an error naming the
stages of two of the rows if the stages differ. -/
theorem C89_is_group (H : Hasher) (size : HashTable Row → Nat) :
    (∀ {n : Nat}, 0 < n → ∀ rows : List (Equiv.Perm (Fin n)), rows ≠ [] →
      ∃ b, Row.isGroupOn H size (rows.map Row.ofPerm) = .ok (.ok b) ∧
        (b = true ↔ ∃ G : Subgroup (Equiv.Perm (Fin n)), ∀ σ, σ ∈ rows ↔ σ ∈ G)) ∧
    Row.isGroupOn H size [] = .ok (.ok false) ∧
    ∀ rows : List Row, (∀ r ∈ rows, r.Valid) → (¬ ∃ n, ∀ r ∈ rows, r.bells.length = n) →
      ∃ r1 ∈ rows, ∃ r2 ∈ rows, r1.bells.length ≠ r2.bells.length ∧
        Row.isGroupOn H size rows = .ok (.error ⟨⟨r1.bells.length⟩, ⟨r2.bells.length⟩⟩) := by
  have hm : ∀ (rows : List Row) (r : Row),
      r ∈ (HashTable.collect H size Row.hashWrites Row.beq rows).elems ↔ r ∈ rows := fun rows =>
    (HashTable.collect_spec (H := H) (hash := Row.hashWrites) size Row.beq Row.beq_iff rows).2
  refine ⟨?_, rfl, ?_⟩
  · intro n hn rows hne
    obtain ⟨T, hT⟩ := Row.exists_perms (n := n)
      (rows := (HashTable.collect H size Row.hashWrites Row.beq (rows.map Row.ofPerm)).elems) (by
        intro r hr
        rw [hm, List.mem_map] at hr
        obtain ⟨σ, _, rfl⟩ := hr
        exact ⟨Row.valid_iff_exists_perm.2 ⟨n, hn, σ, rfl⟩, by simp⟩)
    have hmem : ∀ σ, σ ∈ T ↔ σ ∈ rows := by
      intro σ
      have := hm (rows.map Row.ofPerm) (Row.ofPerm σ)
      rw [hT, List.mem_map_of_injective Row.ofPerm_injective,
        List.mem_map_of_injective Row.ofPerm_injective] at this
      exact this
    have hTne : T ≠ [] := by
      obtain ⟨σ, hσ⟩ := List.exists_mem_of_ne_nil rows hne
      exact List.ne_nil_of_mem ((hmem σ).2 hσ)
    obtain ⟨b, h1, h2⟩ := C19_is_group hn T hTne
    refine ⟨b, by rw [isGroupOn_eq, hT, h1], h2.trans ?_⟩
    simp only [hmem]
  · intro rows hv hmix
    rw [isGroupOn_eq]
    have hmr := hm rows
    obtain ⟨r1, h1, r2, h2, h3, h4⟩ := C19_degenerate.2
      (HashTable.collect H size Row.hashWrites Row.beq rows).elems
      (fun r hr => hv r ((hmr r).1 hr))
      (fun ⟨n, h⟩ => hmix ⟨n, fun r hr => h r ((hmr r).2 hr)⟩)
    exact ⟨r1, (hmr r1).1 h1, r2, (hmr r2).1 h2, h3, h4⟩

/-- The three rows `123`, `231` and `312`, given out of order and with a repetition. -/
example : (Row.isGroupOn (fun ws => ws.length) (fun t => t.buckets.length + 1)
    [⟨[⟨0⟩, ⟨1⟩, ⟨2⟩]⟩, ⟨[⟨1⟩, ⟨2⟩, ⟨0⟩]⟩, ⟨[⟨0⟩, ⟨1⟩, ⟨2⟩]⟩, ⟨[⟨2⟩, ⟨0⟩, ⟨1⟩]⟩]) = .ok (.ok true) := by
  decide +kernel

end Bellframe.Props
