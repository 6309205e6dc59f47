import Verif.Props.ClassSymmetry
import Verif.Props.RowAlgebra
import Verif.Proofs.ClassRun
import Mathlib.GroupTheory.Perm.Cycle.Type

/-!
# The parity and the symmetry of place notation

**C76.**  The parity of a row after changes.

**C77.**  What place notation written as `A,B` gives.
-/

namespace Bellframe.Props

open Equiv

variable {n : Nat} {A : Type}

/-! ## C76 -/

/-- A change has as many swaps as it has pairs of moving bells. -/
theorem sign_change {τ : Perm (Fin n)} (hc : IsChange τ) :
    2 ∣ n - (PlaceNot.ofChange τ).places.length ∧
    Perm.sign τ = (-1) ^ ((n - (PlaceNot.ofChange τ).places.length) / 2) := by
  have hinv : τ ^ 2 = 1 := by rw [pow_two, hc.involution]
  have htwo : ∀ k ∈ τ.cycleType, k = 2 := by
    intro k hk
    have h1 := Perm.two_le_of_mem_cycleType hk
    have h2 := (Perm.dvd_of_mem_cycleType hk).trans (orderOf_dvd_of_pow_eq_one hinv)
    exact le_antisymm (Nat.le_of_dvd (by decide) h2) h1
  have hrep := Multiset.eq_replicate_card.2 htwo
  have hsum : τ.cycleType.sum = Multiset.card τ.cycleType * 2 := by
    conv_lhs => rw [hrep]
    simp
  have hsupp : n - (PlaceNot.ofChange τ).places.length = τ.support.card := by
    have h1 : (PlaceNot.ofChange τ).places.length = (Finset.univ.filter fun x => τ x = x).card := by
      rw [PlaceNot.ofChange]
      simp only [List.length_map]
      rw [← List.toFinset_card_of_nodup ((List.nodup_finRange n).filter _)]
      congr 1
      ext x
      simp
    have h2 := Finset.card_filter_add_card_filter_not (s := (Finset.univ : Finset (Fin n)))
      (p := fun x => τ x = x)
    rw [h1]
    have h3 : τ.support = Finset.univ.filter fun x => ¬ τ x = x := by
      ext x
      simp
    rw [h3]
    simp only [Finset.card_univ, Fintype.card_fin] at h2
    omega
  rw [hsupp, ← Perm.sum_cycleType, hsum]
  refine ⟨⟨_, Nat.mul_comm _ _⟩, ?_⟩
  rw [Perm.sign_of_cycleType, hsum, Nat.mul_div_cancel _ (by decide), pow_add, pow_mul]
  simp

theorem parity_step {p p' : Parity} {e e' : ℤˣ} {k : Nat} (h : p = .even ↔ e = 1) (h' : p' = .even ↔ e' = 1)
    (he : e' = e * (-1) ^ k) : p' = p.mul (.fromNumber k) := by
  have hk : (-1 : ℤˣ) ^ k = if k % 2 = 0 then 1 else -1 := by
    split
    · rename_i h0
      exact (Nat.even_iff.2 h0).neg_one_pow
    · rename_i h0
      exact (Nat.odd_iff.2 (by omega)).neg_one_pow
  have hf : Parity.fromNumber k = if k % 2 = 0 then .even else .odd := by
    unfold Parity.fromNumber Parity.fromIsOdd
    rcases Nat.mod_two_eq_zero_or_one k with h0 | h0 <;> simp [h0]
  rw [hk] at he
  rw [hf]
  rcases Int.units_eq_one_or e with rfl | rfl <;> rcases Nat.mod_two_eq_zero_or_one k with h0 | h0 <;>
    simp only [h0, if_true, one_ne_zero, if_false, one_mul, mul_one, neg_mul, mul_neg, neg_neg] at he <;>
    subst he <;> cases p <;> cases p' <;> simp_all (decide := true) [Parity.mul, Parity.fromIsOdd]

/-- The number of pairs of bells that a place notation swaps: half of the places that are not made. -/
def swaps (pn : PlaceNot) : Nat := (pn.stage.numBells - pn.places.length) / 2

/-- Permuting a row by a place notation changes its parity by the number of pairs swapped; all places are
either made or swapped. -/
theorem C76_change (pn : PlaceNot) (hw : pn.WellFormed) (r : Row) (hr : r.Valid)
    (hl : r.bells.length = pn.stage.numBells) :
    ∃ r' p p' x x', pn.permute r = .ok (r', .ok ()) ∧ r.parity.Returns (x, p) ∧
      r'.parity.Returns (x', p') ∧ p' = p.mul (.fromNumber (swaps pn)) ∧
      pn.places.length + 2 * swaps pn = pn.stage.numBells := by
  obtain ⟨n, hn, τ, hc, rfl⟩ := hw
  obtain ⟨σ, rfl⟩ := hr.exists_perm' (n := n) hl
  obtain ⟨h1, h2⟩ := sign_change hc
  obtain ⟨p, hp, hp1, -⟩ := Row.parity_ofPerm hn σ
  obtain ⟨p', hp', hp1', -⟩ := Row.parity_ofPerm hn (σ * τ)
  refine ⟨_, p, p', _, _, (C31_permute hn τ σ hc).1, hp, hp', ?_, ?_⟩
  · refine parity_step hp1 hp1' ?_
    rw [map_mul, h2]
    rfl
  · have h3 : (PlaceNot.ofChange τ).places.length ≤ n := by
      simp only [PlaceNot.ofChange, List.length_map]
      exact (List.length_filter_le _ _).trans (by simp)
    obtain ⟨k, hk⟩ := h1
    have : swaps (PlaceNot.ofChange τ) = k := by
      show (n - (PlaceNot.ofChange τ).places.length) / 2 = k
      omega
    rw [this]
    show _ = n
    omega

example := C76_change ⟨[0, 3], ⟨4⟩⟩ ⟨4, by decide, swap 1 2, by decide, rfl⟩ ⟨[⟨3⟩, ⟨1⟩, ⟨2⟩, ⟨0⟩]⟩
  (by decide) rfl

/-- The row after all changes of a block has the parity of the number of pairs swapped on the way from
the row before them. -/
theorem C76_block (dflt : A) (pns : PnBlock) (stage : Stage) (hne : pns.pns ≠ [])
    (hw : ∀ pn ∈ pns.pns, pn.WellFormed ∧ pn.stage = stage) (r : Row) (hr : r.Valid)
    (hl : r.bells.length = stage.numBells) :
    ∃ block l p p' x x', pns.toBlock dflt r = .ok (.ok block) ∧ block.leftoverRow = .ok l ∧
      r.parity.Returns (x, p) ∧ l.parity.Returns (x', p') ∧
      p' = p.mul (.fromNumber (pns.pns.map swaps).sum) := by
  obtain ⟨pns⟩ := pns
  obtain ⟨n, hn, σ, rfl⟩ := Row.valid_iff_exists_perm.1 hr
  rw [Row.ofPerm_length] at hl
  obtain ⟨τs, hc, hp⟩ : ∃ τs : List (Perm (Fin n)), (∀ τ ∈ τs, IsChange τ) ∧
      pns = τs.map PlaceNot.ofChange := by
    clear hne
    induction pns with
    | nil => exact ⟨[], by simp, rfl⟩
    | cons pn pns ih =>
      obtain ⟨τs, h1, h2⟩ := ih (fun x hx => hw x (List.mem_cons_of_mem _ hx))
      obtain ⟨⟨m, hm, τ, h3, rfl⟩, h4⟩ := hw pn (by simp)
      obtain rfl : m = n := by
        have := congrArg Stage.numBells h4
        exact this.trans hl.symm
      refine ⟨τ :: τs, ?_, by simp [h2]⟩
      intro x hx
      rcases List.mem_cons.1 hx with rfl | hx
      · exact h3
      · exact h1 x hx
  subst hp
  have hne' : τs ≠ [] := by simpa using hne
  obtain ⟨-, ⟨ρs, l, h1, h2⟩, -⟩ := C36_rows dflt hn σ τs hne' hc
  obtain ⟨p, hp, hp1, -⟩ := Row.parity_ofPerm hn σ
  obtain ⟨p', hp', hp1', -⟩ := Row.parity_ofPerm hn l
  refine ⟨_, _, p, p', _, _, h2, AnnotBlock.leftover_ofPerms hn _ _ _, hp, hp', parity_step hp1 hp1' ?_⟩
  have hrow : ∀ k ≤ τs.length, ∀ ρ, (ρs ++ [l])[k]? = some ρ →
      Perm.sign ρ = Perm.sign σ * (-1) ^ (((τs.take k).map PlaceNot.ofChange).map swaps).sum := by
    intro k
    induction k with
    | zero =>
      intro _ ρ hρ
      rw [h1.2.1, Option.some.injEq] at hρ
      simp [hρ]
    | succ k ih =>
      intro hk ρ hρ
      have hk' : k < τs.length := by omega
      obtain ⟨ρ', h3, h4⟩ := h1.2.2 k τs[k] (List.getElem?_eq_getElem hk')
      rw [h4, Option.some.injEq] at hρ
      rw [← hρ, map_mul, ih hk'.le ρ' h3, (sign_change (hc _ (List.getElem_mem hk'))).2, mul_assoc, ← pow_add,
        List.take_succ_eq_append_getElem hk', List.map_append, List.map_append, List.sum_append]
      congr 2
  have h5 := hrow τs.length le_rfl l (by
    have := h1.1
    simp only [List.length_append, List.length_cons, List.length_nil, Nat.add_right_cancel_iff] at this
    rw [← this]
    simp)
  rwa [List.take_length] at h5

/-- The change `12` on four bells swaps one pair, and `x` two. -/
example : let x : PlaceNot := .ofChange (swap (0 : Fin 4) 1 * swap 2 3); let y : PlaceNot := .ofChange (swap (2 : Fin 4) 3)
    x.WellFormed ∧ y.WellFormed ∧ swaps x = 2 ∧ swaps y = 1 :=
  ⟨⟨4, by decide, _, by unfold IsChange; decide, rfl⟩, ⟨4, by decide, _, by unfold IsChange; decide, rfl⟩,
    by decide, by decide⟩

/-! ## C77 -/

/-- Two palindromes one after the other: the changes are the same backwards around the middle of the first
(and of the second). -/
theorem changeAt_palindromes (us vs : List (Perm (Fin n))) (hu : us.reverse = us) (hv : vs.reverse = vs)
    (t : ℤ) : changeAt (us ++ vs) (us.length - 1 - t) = changeAt (us ++ vs) t := by
  have h1 := changeAt_reverse (us ++ vs) (t - us.length)
  have h2 := changeAt_rotate (us ++ vs) us.length (t - us.length)
  rw [List.rotate_append_length_eq] at h2
  rw [List.reverse_append, hu, hv, h2] at h1
  rw [show t - (us.length : ℤ) + us.length = t by ring] at h1
  rw [h1]
  congr 1
  ring

/-- The course of such changes backwards is the course with other bells. -/
theorem course_palindromes {us vs lead : List (Perm (Fin n))} {τ : Perm (Fin n)} (hu : us.reverse = us)
    (hv : vs.reverse = vs) (hne : us ++ vs ≠ []) (hc : ∀ τ ∈ us ++ vs, IsChange τ)
    (h : Follows 1 (us ++ vs) (lead ++ [τ])) {Q : ℤ → Perm (Fin n)} (hQ : IsCourse lead τ Q) (t : ℤ) :
    Q (us.length - t) = Q us.length * Q t := by
  obtain ⟨h0, -⟩ := follows_start hne h
  have hQ0 : Q 0 = 1 := by
    have := hQ.row 0
    rw [courseRow_zero τ h0] at this
    simpa using this
  have hs := steps_of_isCourse hne h hQ
  have hstep : ∀ t : ℤ, Q (us.length - t) = Q (us.length - (t + 1)) * changeAt (us ++ vs) t := by
    intro t
    have := hs (us.length - (t + 1))
    rw [show (us.length : ℤ) - (t + 1) + 1 = us.length - t by ring,
      show (us.length : ℤ) - (t + 1) = us.length - 1 - t by ring, changeAt_palindromes us vs hu hv] at this
    rw [this]
    congr 2
    ring
  have hinv := changeAt_involution hc
  induction t using Int.induction_on with
  | zero => rw [sub_zero, hQ0, mul_one]
  | succ t ih =>
    have := hstep t
    rw [ih] at this
    rw [hs, ← mul_assoc, this, mul_assoc, hinv, mul_one]
  | pred t ih =>
    have h1 := hstep (-t - 1)
    have h2 := hs (-t - 1)
    rw [show -(t : ℤ) - 1 + 1 = -t by ring] at h1 h2
    rw [h1, ih, h2, mul_assoc, mul_assoc, hinv, mul_one]

/-- Changes that are the same backwards: the row after them is its own inverse, and the path of every bell,
backwards, is the path of the bell whose place it comes to. -/
theorem C77_palindrome (dflt : A) (hn : 0 < n) (us : List (Perm (Fin n))) (hne : us ≠ [])
    (hc : ∀ τ ∈ us, IsChange τ) (hp : us.reverse = us) :
    ∃ block l, PnBlock.toBlockFromRounds dflt ⟨us.map PlaceNot.ofChange⟩ = .ok block ∧
      block.leftoverRow = .ok l ∧ l.mul l = .ok (Row.rounds ⟨n⟩) ∧
      ∀ b : Fin n, ∃ place path, l.placeOf ⟨b.val⟩ = some place ∧
        block.fullPathOf ⟨b.val⟩ = .ok (some path) ∧ block.fullPathOf ⟨place⟩ = .ok (some path.reverse) := by
  obtain ⟨-, -, ⟨lead, τ, h1, h2⟩, -⟩ := C36_rows dflt hn 1 us hne hc
  obtain ⟨h0, hl⟩ := follows_start hne h1
  have hlne : lead ≠ [] := by rintro rfl; simp at h0
  have hQ := courseZ_isCourse lead τ hlne
  have hsym := course_palindromes (vs := []) hp rfl (by simpa using hne) (by simpa using hc)
    (by simpa using h1) hQ
  rw [← hl] at hsym
  have hQ0 : courseZ lead τ 0 = 1 := by
    have := hQ.row 0
    rw [courseRow_zero τ h0] at this
    simpa using this
  have hend : courseZ lead τ lead.length = τ := by
    have := hQ.lead 0
    rwa [zero_add, hQ0, mul_one] at this
  rw [hend] at hsym
  have hττ : τ * τ = 1 := by
    have := hsym lead.length
    rw [sub_self, hQ0, hend] at this
    exact this.symm
  have hrows : lead ++ [τ] = (List.range (lead.length + 1)).map fun t : ℕ => courseZ lead τ t := by
    apply List.ext_getElem
    · simp
    · intro i hi hi'
      simp only [List.length_append, List.length_cons, List.length_nil, Nat.zero_add] at hi
      rw [List.getElem_map, List.getElem_range, hQ.row]
      rcases Nat.lt_or_eq_of_le (Nat.lt_succ_iff.1 hi) with h | h
      · rw [List.getElem_append_left h, courseRow_lead τ h]
      · subst h
        have := courseRow_mul τ h0 1
        rw [Nat.one_mul, pow_one] at this
        rw [this]
        simp
  refine ⟨_, _, h2, AnnotBlock.leftover_ofPerms hn _ _ _, ?_, fun b => ⟨(τ⁻¹ b).val, _, placeOf_ofPerm τ b,
    fullPathOf_ofPerms hn lead τ _ b, ?_⟩⟩
  · rw [Row.mul_ofPerm hn, hττ, Row.rounds_eq_ofPerm]
  · rw [fullPathOf_ofPerms hn lead τ _ (τ⁻¹ b), hrows]
    congr 2
    apply List.ext_getElem
    · simp
    · intro i hi hi'
      simp only [List.length_map, List.length_range] at hi
      simp only [List.getElem_map, List.getElem_range, List.getElem_reverse, List.length_map,
        List.length_range]
      have := hsym i
      rw [show (lead.length : ℤ) - i = ((lead.length + 1 - 1 - i : ℕ) : ℤ) by omega] at this
      rw [this, mul_inv_rev, Perm.mul_apply]

example := C77_palindrome (A := Nat) 0 (n := 4) (by decide)
  [swap 0 1 * swap 2 3, swap 1 2, swap 0 1 * swap 2 3] (by decide) (by decide) rfl

/-- The row after the first part of the changes. -/
theorem course_part {us vs lead : List (Perm (Fin n))} {τ : Perm (Fin n)} (hne : us ++ vs ≠ [])
    (h : Follows 1 (us ++ vs) (lead ++ [τ])) {Q : ℤ → Perm (Fin n)} (hQ : IsCourse lead τ Q) :
    Q us.length = us.prod ∧ τ = us.prod * vs.prod := by
  obtain ⟨h0, hl⟩ := follows_start hne h
  have hQ0 : Q 0 = 1 := by
    have := hQ.row 0
    rw [courseRow_zero τ h0] at this
    simpa using this
  have hs := steps_of_isCourse hne h hQ
  have hrow : ∀ k : ℕ, k ≤ (us ++ vs).length → Q k = ((us ++ vs).take k).prod := by
    intro k
    induction k with
    | zero => intro _; simpa using hQ0
    | succ k ih =>
      intro hk
      have hk' : k < (us ++ vs).length := by omega
      push_cast
      rw [hs, ih hk'.le, List.take_succ_eq_append_getElem hk', List.prod_append, List.prod_singleton]
      congr 1
      unfold changeAt
      rw [Int.emod_eq_of_lt (by omega) (by exact_mod_cast hk'), Int.toNat_natCast,
        List.getElem?_eq_getElem hk']
      rfl
  constructor
  · rw [hrow us.length (by simp)]
    simp
  · have h1 := hQ.lead 0
    rw [zero_add, hQ0, mul_one, hl, hrow _ le_rfl, List.take_length, List.prod_append] at h1
    exact h1.symm

/-- A method that consists of two parts, each of which is the same backwards and has a change in its middle:
if a bell is in its own place at the end of both, the method has hunt bells, and their paths are symmetric:
the method is neither a principle nor a hybrid. -/
theorem C77_symmetric_hunter (dflt : A) (hn : 0 < n) (us vs : List (Perm (Fin n)))
    (hc : ∀ τ ∈ us ++ vs, IsChange τ) (hu : us.reverse = us) (hv : vs.reverse = vs)
    (hu' : us.length % 2 = 1) (hv' : vs.length % 2 = 1) (h : Fin n) (h1 : us.prod h = h)
    (h2 : vs.prod h = h) :
    ∃ lead c, PnBlock.toBlockFromRounds dflt ⟨(us ++ vs).map PlaceNot.ofChange⟩ = .ok lead ∧
      (FullClass.classify lead).Returns c ∧ c.cls.isSymmetricHunter = true ∧ c.cls ≠ .principle ∧
      c.cls ≠ .hybrid := by
  have hne : us ++ vs ≠ [] := by
    intro h
    rw [List.append_eq_nil_iff] at h
    rw [h.1] at hu'
    simp at hu'
  obtain ⟨lead, τ, c, h3, h4, h5, -, -, -, h6⟩ := C51_place_notation dflt hn (us ++ vs) hne hc
  obtain ⟨h0, hl⟩ := follows_start hne h3
  have hlne : lead ≠ [] := by rintro rfl; simp at h0
  have hQ := courseZ_isCourse lead τ hlne
  obtain ⟨h7, h8⟩ := course_part hne h3 hQ
  have hh : IsHuntBell τ h := by
    unfold IsHuntBell
    rw [h8, Perm.mul_apply, h2, h1]
  have hsym : ∀ t : ℤ, (courseZ lead τ (us.length - t))⁻¹ h = (courseZ lead τ t)⁻¹ h := by
    intro t
    rw [course_palindromes hu hv hne hc h3 hQ, mul_inv_rev, Perm.mul_apply, h7,
      Perm.inv_eq_iff_eq.2 h1.symm]
  have hN : lead.length = us.length + vs.length := by rw [hl, List.length_append]
  have hS : Symmetric lead τ h := by
    rw [hQ.symmetric hlne hh]
    refine ⟨us.length, fun s t hst => ?_⟩
    obtain ⟨j, hj⟩ := Int.modEq_iff_dvd.1 hst
    rw [← hsym t, ← hQ.hunt_leads hh s j]
    congr 3
    rw [mul_comm] at hj
    omega
  have hplaces : 2 ≤ placesMade lead τ h := by
    rw [hQ.placesMade, List.countP_eq_length_filter]
    have hsub : [us.length / 2, us.length + vs.length / 2] ⊆
        (List.range lead.length).filter fun t : ℕ =>
          decide ((courseZ lead τ t)⁻¹ h = (courseZ lead τ (t + 1))⁻¹ h) := by
      intro t ht
      rw [List.mem_filter, List.mem_range, decide_eq_true_eq]
      simp only [List.mem_cons, List.not_mem_nil, or_false] at ht
      rcases ht with rfl | rfl
      · refine ⟨by omega, ?_⟩
        rw [← hsym]
        congr 3
        omega
      · refine ⟨by omega, ?_⟩
        rw [← hsym, ← hQ.hunt hh]
        congr 3
        push_cast
        omega
    have hnd : [us.length / 2, us.length + vs.length / 2].Nodup := by
      simp only [List.nodup_cons, List.mem_singleton, List.not_mem_nil, not_false_eq_true, List.nodup_nil,
        and_true]
      omega
    simpa using (hnd.subperm hsub).length_le
  obtain ⟨k, hk, -⟩ := C51_hunt_path lead τ hlne h hh
  have hk' : k ≠ .hybrid := by
    rintro rfl
    rcases hk.2.2 with h | h
    · exact h hS
    · omega
  obtain ⟨e1, e2, -, -, e3⟩ := C51_hunt_bell_class lead τ c.cls h6
  have hprin : c.cls ≠ .principle := by
    intro e
    rw [e] at h6
    exact h6 h hh
  have hex : ∃ k, c.cls.huntBellClass = some k := by
    cases hcc : c.cls.huntBellClass with
    | some k => exact ⟨k, rfl⟩
    | none => exact absurd hh (e2.1 hcc h)
  obtain ⟨k', hk'1⟩ := hex
  obtain ⟨b, hb⟩ := (e1 k').1 hk'1
  have hle := hb.2.2 h hh k hk
  have hne' : k' ≠ .hybrid := by
    rintro rfl
    revert hle hk'
    cases k <;> decide
  refine ⟨_, c, h4, h5, e3.2 ⟨k', b, hb, hne'⟩, hprin, ?_⟩
  intro e
  rw [e] at hk'1
  exact hne' (Option.some.inj hk'1).symm

example := C77_symmetric_hunter (A := Nat) 0 (n := 4) (by decide)
  [swap 0 1 * swap 2 3, swap 1 2, swap 0 1 * swap 2 3, swap 1 2, swap 0 1 * swap 2 3, swap 1 2,
    swap 0 1 * swap 2 3] [swap 2 3] (by decide) rfl rfl rfl rfl 0 (by decide) (by decide)

/-- A list and all but its last element in reverse: the same backwards, with an element in its middle. -/
theorem palindrome_of_half {α : Type} (l : List α) :
    (l ++ l.dropLast.reverse).reverse = l ++ l.dropLast.reverse ∧
      (l ≠ [] → (l ++ l.dropLast.reverse).length % 2 = 1) := by
  rcases List.eq_nil_or_concat l with rfl | ⟨l, p, rfl⟩
  · simp
  · constructor
    · simp
    · intro _
      simp
      omega

theorem parse_plain {text : List Char} {stage : Stage} {pns : List PlaceNot} (hc : ',' ∉ text) (hp : '+' ∉ text)
    (h : PnBlock.parse text stage = .ok (.ok ⟨pns⟩)) : pns ≠ [] ∧ PartText stage text false pns := by
  obtain ⟨hne, parts, h1, h2, h3, h4⟩ := (C34_syntax text stage pns).1 h
  refine ⟨hne, ?_⟩
  have h5 := splitComma_joinComma (ps := parts.map (·.1)) (by simpa using h2) (by
    intro p hp
    obtain ⟨q, hq, rfl⟩ := List.mem_map.1 hp
    exact (h3 q hq).1)
  rw [← h1, splitComma_no_comma_self hc] at h5
  obtain ⟨q, rfl, h6⟩ := List.map_eq_singleton_iff.1 h5.symm
  obtain ⟨-, h7⟩ := h3 q (by simp)
  obtain ⟨t, asym, l⟩ := q
  simp only at h6 h7
  subst h6
  rw [h4]
  cases h7 with
  | sym h => exact .sym h
  | asym _ _ => simp at hp

/-- Two texts with a comma between them: the changes of each, followed by all but the last of them in
reverse. -/
theorem C77_text (a b : List Char) (hc : ',' ∉ a ∧ ',' ∉ b) (hp : '+' ∉ a ∧ '+' ∉ b) (stage : Stage)
    (as bs : List PlaceNot) (ha : PnBlock.parse a stage = .ok (.ok ⟨as⟩))
    (hb : PnBlock.parse b stage = .ok (.ok ⟨bs⟩)) :
    PnBlock.parse (a ++ ',' :: b) stage =
      .ok (.ok ⟨(as ++ as.dropLast.reverse) ++ (bs ++ bs.dropLast.reverse)⟩) := by
  obtain ⟨h1, h2⟩ := parse_plain hc.1 hp.1 ha
  obtain ⟨-, h3⟩ := parse_plain hc.2 hp.2 hb
  rw [C34_syntax]
  refine ⟨by simp [h1], [(a, false, as), (b, false, bs)], rfl, by simp, ?_, ?_⟩
  · intro p hp
    simp only [List.mem_cons, List.not_mem_nil, or_false] at hp
    rcases hp with rfl | rfl
    · exact ⟨hc.1, h2⟩
    · exact ⟨hc.2, h3⟩
  · simp [assembleParts, unfoldPart]

example := C77_text "x14".toList "12".toList (by decide) (by decide) ⟨4⟩ _ _ rfl rfl

/-- The same for a method from its text. -/
theorem C77_method (dflt : A) (hn : 0 < n) (a b : List Char) (hc : ',' ∉ a ∧ ',' ∉ b) (hp : '+' ∉ a ∧ '+' ∉ b)
    (as bs : List (Perm (Fin n))) (hch : ∀ τ ∈ as ++ bs, IsChange τ)
    (ha : PnBlock.parse a ⟨n⟩ = .ok (.ok ⟨as.map PlaceNot.ofChange⟩))
    (hb : PnBlock.parse b ⟨n⟩ = .ok (.ok ⟨bs.map PlaceNot.ofChange⟩))
    (h : Fin n) (h1 : (as ++ as.dropLast.reverse).prod h = h) (h2 : (bs ++ bs.dropLast.reverse).prod h = h) :
    ∃ block lead c, PnBlock.parse (a ++ ',' :: b) ⟨n⟩ = .ok (.ok block) ∧
      PnBlock.toBlockFromRounds dflt block = .ok lead ∧ (FullClass.classify lead).Returns c ∧
      c.cls.isSymmetricHunter = true ∧ c.cls ≠ .principle ∧ c.cls ≠ .hybrid := by
  have hane : as ≠ [] := by
    rintro rfl
    exact (parse_plain hc.1 hp.1 ha).1 rfl
  have hbne : bs ≠ [] := by
    rintro rfl
    exact (parse_plain hc.2 hp.2 hb).1 rfl
  have hmem : ∀ τ ∈ (as ++ as.dropLast.reverse) ++ (bs ++ bs.dropLast.reverse), IsChange τ := by
    intro τ hτ
    apply hch
    simp only [List.mem_append, List.mem_reverse] at hτ ⊢
    rcases hτ with (h | h) | (h | h)
    · exact .inl h
    · exact .inl (List.mem_of_mem_dropLast h)
    · exact .inr h
    · exact .inr (List.mem_of_mem_dropLast h)
  obtain ⟨lead, c, h3⟩ := C77_symmetric_hunter dflt hn _ _ hmem (palindrome_of_half as).1
    (palindrome_of_half bs).1 ((palindrome_of_half as).2 hane) ((palindrome_of_half bs).2 hbne) h h1 h2
  refine ⟨_, lead, c, C77_text a b hc hp ⟨n⟩ _ _ ha hb, ?_, h3.2⟩
  rw [← h3.1]
  simp [List.map_dropLast, List.map_reverse]

/-! ### Concrete methods -/

/-- Plain Bob Minimus: `x14x14,12`, where the treble is in its own place at the end of both parts. -/
example : ∃ (as bs : List (Perm (Fin 4))), (∀ τ ∈ as ++ bs, IsChange τ) ∧
    PnBlock.parse ['x', '1', '4', 'x', '1', '4'] ⟨4⟩ = .ok (.ok ⟨as.map PlaceNot.ofChange⟩) ∧
    PnBlock.parse ['1', '2'] ⟨4⟩ = .ok (.ok ⟨bs.map PlaceNot.ofChange⟩) ∧
    (as ++ as.dropLast.reverse).prod 0 = 0 ∧ (bs ++ bs.dropLast.reverse).prod 0 = 0 := by
  refine ⟨[swap 0 1 * swap 2 3, swap 1 2, swap 0 1 * swap 2 3, swap 1 2], [swap 2 3], ?_, ?_, ?_, ?_, ?_⟩
  · unfold IsChange
    decide
  all_goals decide +kernel

/-- Without such a bell the method need not be symmetric: `x,x` on four bells is a hybrid. -/
example : classifyText ['x', ',', 'x'] ⟨4⟩ = some (.ok ⟨false, true, false, .hybrid⟩) := by
  decide +kernel

/-- Changes that are the same backwards, as `C77_palindrome` asks: `x14x` on four bells. -/
example : let x : Perm (Fin 4) := swap 0 1 * swap 2 3
    [x, swap 1 2, x].reverse = [x, swap 1 2, x] ∧ ∀ τ ∈ [x, swap 1 2, x], IsChange τ := by
  refine ⟨rfl, ?_⟩
  unfold IsChange
  decide

end Bellframe.Props
