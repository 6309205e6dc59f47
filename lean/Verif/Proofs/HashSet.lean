import Verif.Spec.HashSet
import Verif.Proofs.RowSets

/-!
# Lemmas about hash codes and hash tables
-/

namespace Bellframe

/-! ## What is written -/

theorem HashIdentifies.slice {α : Type} {f : α → List HashWrite} (h : HashIdentifies f) :
    HashIdentifies (hashSlice f) := by
  have key : ∀ a b : List α, a.length = b.length → ∀ s t, a.flatMap f ++ s = b.flatMap f ++ t →
      a = b ∧ s = t := by
    intro a
    induction a with
    | nil =>
      intro b hl s t he
      cases b with
      | nil => exact ⟨rfl, he⟩
      | cons => simp at hl
    | cons x a ih =>
      intro b hl s t he
      cases b with
      | nil => simp at hl
      | cons y b =>
        rw [List.flatMap_cons, List.flatMap_cons, List.append_assoc, List.append_assoc] at he
        obtain ⟨rfl, h1⟩ := h _ _ _ _ he
        obtain ⟨rfl, h2⟩ := ih b (by simpa using hl) s t h1
        exact ⟨rfl, h2⟩
  intro a b s t he
  rw [hashSlice, hashSlice, List.cons_append, List.cons_append] at he
  injection he with h1 h2
  injection h1 with h1
  exact key a b h1 s t h2

theorem HashIdentifies.words : HashIdentifies hashWords := by
  intro a b s t he
  simp only [hashWords, List.cons_append, List.nil_append, List.cons.injEq, HashWrite.words.injEq] at he
  exact ⟨he.2.1, he.2.2⟩

theorem HashIdentifies.bool : HashIdentifies hashBool := by
  intro a b s t he
  simp only [hashBool, List.cons_append, List.nil_append, List.cons.injEq, HashWrite.u8.injEq] at he
  exact ⟨by revert he; cases a <;> cases b <;> simp, he.2⟩

theorem HashIdentifies.option {α : Type} {f : α → List HashWrite} (h : HashIdentifies f) :
    HashIdentifies (hashOption f) := by
  intro a b s t he
  cases a <;> cases b <;> simp [hashOption] at he ⊢
  · exact he
  · exact h _ _ _ _ he

theorem HashIdentifies.pair {α β : Type} {f : α → List HashWrite} {g : β → List HashWrite}
    (hf : HashIdentifies f) (hg : HashIdentifies g) :
    HashIdentifies (fun p : α × β => f p.1 ++ g p.2) := by
  rintro ⟨a, b⟩ ⟨a', b'⟩ s t he
  simp only [List.append_assoc] at he
  obtain ⟨rfl, h1⟩ := hf _ _ _ _ he
  obtain ⟨rfl, h2⟩ := hg _ _ _ _ h1
  exact ⟨rfl, h2⟩

theorem HashIdentifies.comap {α β : Type} {f : α → List HashWrite} (hf : HashIdentifies f) (g : β → α)
    (hg : Function.Injective g) : HashIdentifies (f ∘ g) := by
  intro a b s t he
  obtain ⟨h1, h2⟩ := hf _ _ _ _ he
  exact ⟨hg h1, h2⟩

/-! ## Tables -/

namespace HashTable

variable {K Q : Type} {H : Hasher} {hash : K → List HashWrite}

theorem wellFormed_empty : (empty : HashTable K).WellFormed H hash := by
  constructor
  · exact List.Pairwise.nil
  · intro i bucket h
    simp [empty] at h

theorem mem_elems {t : HashTable K} {k : K} :
    k ∈ t.elems ↔ ∃ (i : Nat) (bucket : List K), t.buckets[i]? = some bucket ∧ k ∈ bucket := by
  rw [elems, List.mem_flatten]
  constructor
  · rintro ⟨l, hl, hk⟩
    obtain ⟨i, hi⟩ := List.mem_iff_getElem?.1 hl
    exact ⟨i, l, hi, hk⟩
  · rintro ⟨i, l, hi, hk⟩
    exact ⟨l, List.mem_of_getElem? hi, hk⟩

theorem contains_iff {t : HashTable K} (ht : t.WellFormed H hash) (borrow : K → Q)
    (hashQ : Q → List HashWrite) (eq : Q → Q → Bool) (hb : ∀ k, hashQ (borrow k) = hash k)
    (he : ∀ a b, eq a b = true ↔ a = b) (q : Q) :
    t.contains H borrow hashQ eq q = true ↔ ∃ k ∈ t.elems, borrow k = q := by
  unfold contains
  constructor
  · intro h
    split at h
    · cases h
    · rename_i bucket hbk
      obtain ⟨k, hk, hkq⟩ := List.any_eq_true.1 h
      exact ⟨k, mem_elems.2 ⟨_, bucket, hbk, hk⟩, (he _ _).1 hkq⟩
  · rintro ⟨k, hk, rfl⟩
    obtain ⟨i, bucket, hi, hkb⟩ := mem_elems.1 hk
    have := ht.2 i bucket hi k hkb
    rw [hb, this, hi]
    exact List.any_eq_true.2 ⟨k, hkb, (he _ _).2 rfl⟩

theorem elems_rehash {n : Nat} (hn : 0 < n) {t : HashTable K} (ht : t.elems.Nodup) :
    ((t.rehash H hash n).elems).Perm t.elems := by
  classical
  rw [List.perm_ext_iff_of_nodup _ ht]
  · intro k
    rw [elems, rehash, List.mem_flatten]
    constructor
    · rintro ⟨l, hl, hk⟩
      obtain ⟨i, _, rfl⟩ := List.mem_map.1 hl
      exact (List.mem_filter.1 hk).1
    · intro hk
      exact ⟨_, List.mem_map.2 ⟨H (hash k) % n, List.mem_range.2 (Nat.mod_lt _ hn), rfl⟩,
        List.mem_filter.2 ⟨hk, by simp⟩⟩
  · rw [elems, rehash, List.nodup_flatten]
    refine ⟨?_, ?_⟩
    · intro l hl
      obtain ⟨i, _, rfl⟩ := List.mem_map.1 hl
      exact ht.filter _
    · rw [List.pairwise_map]
      refine List.Pairwise.imp ?_ (List.nodup_range (n := n))
      intro i j hij k h1 h2
      simp only [List.mem_filter, beq_iff_eq] at h1 h2
      exact hij (h1.2.symm.trans h2.2)

theorem length_rehash (n : Nat) (t : HashTable K) : (t.rehash H hash n).buckets.length = n := by
  simp [rehash]

theorem rehash_bucket {n : Nat} {t : HashTable K} {i : Nat} {bucket : List K}
    (h : (t.rehash H hash n).buckets[i]? = some bucket) : ∀ k ∈ bucket, H (hash k) % n = i := by
  simp only [rehash, List.getElem?_map, Option.map_eq_some_iff] at h
  obtain ⟨j, hj, rfl⟩ := h
  have hlt : i < n := by
    have := (List.getElem?_eq_some_iff.1 hj).1
    simpa using this
  rw [List.getElem?_range hlt] at hj
  injection hj with hj
  subst hj
  intro k hk
  simpa using (List.mem_filter.1 hk).2

theorem flatten_modify_perm {α : Type} (k : α) : ∀ (l : List (List α)) (i : Nat), i < l.length →
    ((l.modify i fun b => b ++ [k]).flatten).Perm (l.flatten ++ [k])
  | [], i, h => by simp at h
  | b :: l, 0, _ => by
    simp only [List.modify_zero_cons, List.flatten_cons, List.append_assoc]
    exact List.Perm.append_left _ List.perm_append_comm
  | b :: l, i + 1, h => by
    simp only [List.modify_succ_cons, List.flatten_cons, List.append_assoc]
    exact List.Perm.append_left _ (flatten_modify_perm k l i (by simpa using h))

/-- Inserting: nothing happens if the element is there, otherwise it is added. -/
theorem insert_spec (size : HashTable K → Nat) (eq : K → K → Bool) (he : ∀ a b, eq a b = true ↔ a = b)
    {t : HashTable K} (ht : t.WellFormed H hash) (k : K) :
    (t.insert H size hash eq k).1.WellFormed H hash ∧
    (k ∈ t.elems → t.insert H size hash eq k = (t, false)) ∧
    (k ∉ t.elems → (t.insert H size hash eq k).2 = true ∧
      ((t.insert H size hash eq k).1.elems).Perm (t.elems ++ [k])) := by
  have hc : t.contains H id hash eq k = true ↔ k ∈ t.elems := by
    rw [contains_iff ht id hash eq (fun _ => rfl) he]
    simp
  by_cases hk : k ∈ t.elems
  · have : t.insert H size hash eq k = (t, false) := by rw [insert, if_pos (hc.2 hk)]
    rw [this]
    exact ⟨ht, fun _ => rfl, fun h => absurd hk h⟩
  · have hn : 0 < max 1 (size t) := by omega
    have : t.insert H size hash eq k = (⟨(t.rehash H hash (max 1 (size t))).buckets.modify
        (H (hash k) % max 1 (size t)) fun bucket => bucket ++ [k]⟩, true) := by
      rw [insert, if_neg (fun h => hk (hc.1 h))]
    generalize max 1 (size t) = n at this hn
    rw [this]
    have hperm : (elems ⟨(t.rehash H hash n).buckets.modify (H (hash k) % n) fun bucket =>
        bucket ++ [k]⟩).Perm (t.elems ++ [k]) := by
      refine (flatten_modify_perm k _ _ ?_).trans ((elems_rehash hn ht.1).append_right _)
      rw [length_rehash]
      exact Nat.mod_lt _ hn
    refine ⟨⟨?_, ?_⟩, fun h => absurd h hk, fun _ => ⟨rfl, hperm⟩⟩
    · rw [hperm.nodup_iff, List.nodup_append]
      refine ⟨ht.1, by simp, ?_⟩
      rintro a ha b hb rfl
      rw [List.mem_singleton] at hb
      exact hk (hb ▸ ha)
    · intro i bucket hi x hx
      rw [List.length_modify, length_rehash]
      rw [List.getElem?_modify] at hi
      obtain ⟨b, hb, rfl⟩ := Option.map_eq_some_iff.1 hi
      split at hx
      · rename_i hik
        rcases List.mem_append.1 hx with hx | hx
        · exact rehash_bucket hb x hx
        · rw [List.mem_singleton.1 hx]
          exact hik
      · exact rehash_bucket hb x hx

theorem collect_aux (size : HashTable K → Nat) (eq : K → K → Bool) (he : ∀ a b, eq a b = true ↔ a = b)
    (ks : List K) : ∀ t : HashTable K, t.WellFormed H hash →
      (ks.foldl (fun t k => (t.insert H size hash eq k).1) t).WellFormed H hash ∧
      ∀ k, k ∈ (ks.foldl (fun t k => (t.insert H size hash eq k).1) t).elems ↔ k ∈ t.elems ∨ k ∈ ks := by
  induction ks with
  | nil => intro t ht; exact ⟨ht, by simp⟩
  | cons x ks ih =>
    intro t ht
    obtain ⟨h1, h2, h3⟩ := insert_spec size eq he ht x
    obtain ⟨h4, h5⟩ := ih _ h1
    refine ⟨h4, fun k => ?_⟩
    rw [List.foldl_cons, h5, List.mem_cons]
    by_cases hx : x ∈ t.elems
    · rw [h2 hx]
      constructor
      · tauto
      · rintro (h | rfl | h)
        · exact .inl h
        · exact .inl hx
        · exact .inr h
    · rw [(h3 hx).2.mem_iff, List.mem_append, List.mem_singleton]
      tauto

theorem collect_spec (size : HashTable K → Nat) (eq : K → K → Bool) (he : ∀ a b, eq a b = true ↔ a = b)
    (ks : List K) : (collect H size hash eq ks).WellFormed H hash ∧
      ∀ k, k ∈ (collect H size hash eq ks).elems ↔ k ∈ ks := by
  obtain ⟨h1, h2⟩ := collect_aux (H := H) (hash := hash) size eq he ks empty wellFormed_empty
  exact ⟨h1, fun k => (h2 k).trans (by simp [elems, empty])⟩

end HashTable

/-! ## The functions about groups on tables -/

theorem RowBuf.beq_iff (a b : RowBuf) : a.beq b = true ↔ a = b := by
  cases a; cases b
  simp [RowBuf.beq]

theorem Row.beq_iff (a b : Row) : a.beq b = true ↔ a = b := by
  cases a; cases b
  simp [Row.beq]

theorem Row.toOwned_inj {a b : Row} : a.toOwned = b.toOwned ↔ a = b := by
  cases a; cases b
  simp [Row.toOwned]

namespace Row

/-- The table has the elements of the list. -/
def Rep (H : Hasher) (t : HashTable RowBuf) (set : List Row) : Prop :=
  t.WellFormed H RowBuf.hashWrites ∧ t.elems.Perm (set.map toOwned)

variable {H : Hasher} {size : HashTable RowBuf → Nat}

theorem Rep.mem {t : HashTable RowBuf} {set : List Row} (h : Rep H t set) (r : Row) :
    r.toOwned ∈ t.elems ↔ r ∈ set := by
  rw [h.2.mem_iff, List.mem_map]
  constructor
  · rintro ⟨x, hx, he⟩; rw [toOwned_inj] at he; exact he ▸ hx
  · intro hr; exact ⟨r, hr, rfl⟩

theorem Rep.insert_new {t : HashTable RowBuf} {set : List Row} (h : Rep H t set) {r : Row} (hr : r ∉ set) :
    (t.insert H size RowBuf.hashWrites RowBuf.beq r.toOwned).2 = true ∧
    Rep H (t.insert H size RowBuf.hashWrites RowBuf.beq r.toOwned).1 (set ++ [r]) := by
  obtain ⟨h1, _, h3⟩ := HashTable.insert_spec size RowBuf.beq RowBuf.beq_iff h.1 r.toOwned
  obtain ⟨h4, h5⟩ := h3 (fun hc => hr ((h.mem r).1 hc))
  refine ⟨h4, h1, h5.trans ?_⟩
  rw [List.map_append, List.map_singleton]
  exact h.2.append_right _

theorem Rep.insert_old {t : HashTable RowBuf} {set : List Row} (h : Rep H t set) {r : Row} (hr : r ∈ set) :
    t.insert H size RowBuf.hashWrites RowBuf.beq r.toOwned = (t, false) :=
  (HashTable.insert_spec size RowBuf.beq RowBuf.beq_iff h.1 r.toOwned).2.1 ((h.mem r).2 hr)

theorem Rep.contains {t : HashTable RowBuf} {set : List Row} (h : Rep H t set) (r : Row) :
    t.contains H id RowBuf.hashWrites RowBuf.beq r.toOwned = decide (r ∈ set) := by
  rw [Bool.eq_iff_iff, HashTable.contains_iff h.1 id _ _ (fun _ => rfl) RowBuf.beq_iff, decide_eq_true_iff,
    ← h.mem]
  simp

theorem lgcSeedOn_sim : ∀ (rows : List Row) (stage : Option Stage) (t : HashTable RowBuf)
    (set fr : List Row), Rep H t set →
    (∀ p, lgcSeed rows stage set fr = .error p → lgcSeedOn H size rows stage t (fr.map toOwned) = .error p) ∧
    (∀ e, lgcSeed rows stage set fr = .ok (.error e) →
      lgcSeedOn H size rows stage t (fr.map toOwned) = .ok (.error e)) ∧
    (∀ set' fr', lgcSeed rows stage set fr = .ok (.ok (set', fr')) →
      ∃ t', lgcSeedOn H size rows stage t (fr.map toOwned) = .ok (.ok (t', fr'.map toOwned)) ∧ Rep H t' set')
  | [], stage, t, set, fr, h => by
    simp only [lgcSeed, lgcSeedOn]
    refine ⟨fun p hp => (by cases hp), fun e he => (by cases he), ?_⟩
    intro set' fr' he
    injection he with he
    injection he with he
    injection he with h1 h2
    subst h1 h2
    exact ⟨t, rfl, h⟩
  | r :: rs, stage, t, set, fr, h => by
    rw [lgcSeed, lgcSeedOn]
    cases hs : r.stage with
    | error p =>
      simp only [Res.error_bind]
      refine ⟨fun _ h => (by cases h; rfl), fun e he => (by cases he), fun _ _ he => (by cases he)⟩
    | ok s =>
      simp only [Res.ok_bind]
      cases ht : IncompatibleStages.testErrOpt stage s with
      | error e =>
        exact ⟨fun _ h => (by cases h), fun e he => (by cases he; rfl), fun _ _ he => (by cases he)⟩
      | ok stage' =>
        by_cases hr : r ∈ set
        · simp only [if_pos hr, h.insert_old hr]
          exact lgcSeedOn_sim rs stage' t set fr h
        · obtain ⟨h1, h2⟩ := h.insert_new (size := size) hr
          simp only [if_neg hr, h1, if_true]
          have := lgcSeedOn_sim rs stage' _ (set ++ [r]) (fr ++ [r]) h2
          rw [List.map_append, List.map_singleton] at this
          exact this

theorem lgcExpandOn_sim (r : Row) : ∀ (rows : List Row) (t : HashTable RowBuf) (set fr set' fr' : List Row),
    Rep H t set → lgcExpand r rows set fr = .ok (set', fr') →
    ∃ t', lgcExpandOn H size r.toOwned rows t (fr.map toOwned) = .ok (t', fr'.map toOwned) ∧ Rep H t' set'
  | [], t, set, fr, set', fr', h, he => by
    rw [lgcExpand] at he
    injection he with he
    injection he with h1 h2
    subst h1 h2
    exact ⟨t, rfl, h⟩
  | r2 :: rs, t, set, fr, set', fr', h, he => by
    rw [lgcExpand] at he
    rw [lgcExpandOn]
    have hb : r.toOwned.borrow = r := rfl
    rw [hb]
    cases hm : r.mulUnchecked r2 with
    | error p => rw [hm] at he; cases he
    | ok new =>
      rw [hm] at he
      simp only [Res.ok_bind] at he ⊢
      rw [h.contains]
      by_cases hr : new ∈ set
      · rw [if_pos hr] at he
        simp only [hr, decide_true, Bool.not_true, Bool.false_eq_true, if_false]
        exact lgcExpandOn_sim r rs t set fr set' fr' h he
      · rw [if_neg hr] at he
        simp only [hr, decide_false, Bool.not_false, if_true]
        have := lgcExpandOn_sim r rs _ (set ++ [new]) (fr ++ [new]) set' fr' (h.insert_new (size := size) hr).2 he
        rw [List.map_append, List.map_singleton] at this
        exact this

theorem lgcLoopOn_sim {n : Nat} (S : List (Equiv.Perm (Fin n))) : ∀ (m : Nat)
    (set fr : List (Equiv.Perm (Fin n))) (t : HashTable RowBuf),
    2 * (Fintype.card (Equiv.Perm (Fin n)) - set.length) + fr.length ≤ m →
    set.Nodup → Rep H t (set.map ofPerm) →
    ∃ out t', (lgcLoop (S.map ofPerm) (set.map ofPerm) (fr.map ofPerm)).Returns out ∧
      (lgcLoopOn H size (S.map ofPerm) t ((fr.map ofPerm).map toOwned)).Returns t' ∧ Rep H t' out
  | m, set, [], t, _, _, h => by
    refine ⟨_, t, ?_, ?_, h⟩
    · rw [List.map_nil, lgcLoop]
      simp
    · rw [List.map_nil, List.map_nil, lgcLoopOn]
      simp
  | 0, set, ρ :: fr, t, hm, _, _ => by simp at hm
  | m + 1, set, ρ :: fr, t, hm, hnd, h => by
    obtain ⟨new, a, b, c, d⟩ := lgcExpand_ofPerm ρ S set fr hnd
    have hle : (set ++ new).length ≤ Fintype.card (Equiv.Perm (Fin n)) := a.length_le_card
    obtain ⟨t', e, f⟩ := lgcExpandOn_sim (size := size) (ofPerm ρ) _ t _ _ _ _ h d
    obtain ⟨out, t'', h1, h2, h3⟩ := lgcLoopOn_sim S m (set ++ new) (fr ++ new) t'
      (by simp only [List.length_append, List.length_cons] at hle hm ⊢; omega) a f
    refine ⟨out, t'', ?_, ?_, h3⟩
    · rw [List.map_cons, lgcLoop]
      simp only [d, Run.lift_eq, Run.ofRes_ok_bind]
      exact h1
    · rw [List.map_cons, List.map_cons, lgcLoopOn]
      simp only [e, Run.lift_eq, Run.ofRes_ok_bind]
      exact h2

end Row

end Bellframe
