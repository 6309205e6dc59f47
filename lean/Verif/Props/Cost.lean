import Verif.Proofs.Cost
import Verif.Props.Groups

/-!
# C94: the documented running times

`Model/Cost.lean` has the functions with counters of their work.  Each theorem says first that the
counters do not change the result, and then how far they can count.
-/

namespace Bellframe.Props

open Equiv

/-- Matching a regex of `n` elements against a row of `m` bells takes at most `n + 1` reads of elements
and `m + 1` reads of bells: the row is gone through at most once. -/
theorem C94_regex (re : Regex) (r : Row) :
    (re.runMatchCounted r).1 = re.runMatch r ∧
    (re.runMatchCounted r).2.1 ≤ re.elems.length + 1 ∧
    (re.runMatchCounted r).2.2 ≤ r.bells.length + 1 := by
  have := Regex.runMatchLoopCounted_spec re.elems r.bells.zipIdx [] 0 0
  simpa [Regex.runMatchCounted, Regex.runMatch] using this

/-- Both bounds are reached, by a regex with globs. -/
example : (Regex.runMatchCounted ⟨[.glob, .bell ⟨2⟩, .any, .glob, .bell ⟨5⟩]⟩ (Row.rounds ⟨6⟩)) =
    (.ok (true, [2, 5]), 6, 7) := by decide

/-- The parity of a row of `n` bells takes at least `n` and less than `2 * n` iterations. -/
theorem C94_parity (r : Row) (hr : r.Valid) : ∃ p k,
    r.parity.Returns (Row.rounds ⟨r.bells.length⟩, p) ∧
    r.parityCounted.Returns (Row.rounds ⟨r.bells.length⟩, p, k) ∧
    r.bells.length ≤ k ∧ k < 2 * r.bells.length := by
  obtain ⟨n, hn, σ, rfl⟩ := Row.valid_iff_exists_perm.1 hr
  obtain ⟨s, h1, h2, h3⟩ := Row.parityLoopCounted_ofPerm hn _ σ 0 0 0 (le_refl _) (by omega)
    (fun i hi => absurd hi (by omega))
  have hcard : σ.support.card ≤ n := by
    simpa using Finset.card_le_univ σ.support
  rw [Row.ofPerm_length]
  refine ⟨Parity.fromNumber (0 + s), 0 + (n - 0) + s, ?_, ?_, by omega, by omega⟩
  · unfold Row.parity
    rw [Run.returns_bind h1]
    simp
  · unfold Row.parityCounted
    rw [Run.returns_bind h2]
    simp

/-- The hypothesis of `C94_parity`. -/
example : (⟨[⟨1⟩, ⟨2⟩, ⟨0⟩]⟩ : Row).Valid := by decide

/-- `is_group` makes at most one inversion for every row and one transposition for every pair of rows,
and exactly these if the rows are a group.  (The rows of the model are the ones without repetition.) -/
theorem C94_is_group (rows : List Row) (b : Bool) (h : Row.isGroup rows = .ok (.ok b)) :
    ∃ inversions transpositions,
      Row.isGroupCounted rows = .ok (.ok (b, inversions, transpositions)) ∧
      inversions ≤ rows.length ∧ transpositions ≤ rows.length ^ 2 ∧
      (b = true → inversions = rows.length ∧ transpositions = rows.length ^ 2) := by
  unfold Row.isGroup at h
  unfold Row.isGroupCounted
  by_cases he : rows.isEmpty
  · rw [if_pos he] at h
    simp only [Res.pure_eq, Except.ok.injEq] at h
    subst h
    exact ⟨0, 0, by rw [if_pos he]; rfl, Nat.zero_le _, Nat.zero_le _, by simp⟩
  · rw [if_neg he] at h
    rw [if_neg he]
    rcases hs : Row.isGroupStages rows none with e | e | u
    · rw [hs] at h; simp at h
    · rw [hs] at h; simp at h
    · rw [hs] at h
      simp only [Res.ok_bind] at h ⊢
      obtain ⟨_, h2⟩ := Row.isGroupOuterCounted_spec rows rows (Row.rounds Stage.one)
        (Row.rounds Stage.one) 0 0
      rcases ho : Row.isGroupOuter rows rows (Row.rounds Stage.one) (Row.rounds Stage.one) with e | ok
      · rw [ho] at h; simp at h
      · rw [ho] at h
        simp only [Res.ok_bind, Res.pure_eq, Except.ok.injEq] at h
        subst h
        obtain ⟨i, c, g1, g2, g3, g4⟩ := h2 ok ho
        refine ⟨i, c, by rw [g1]; rfl, by omega, by rw [pow_two]; omega, fun ht => ?_⟩
        obtain ⟨l1, l2⟩ := g4 ht
        rw [pow_two]
        omega

/-- The rows that `is_group` says yes to are not few: by `C86_closure`, those of every closure. -/
example (r : Row) (hr : r.Valid) : ∃ rows, r.closure.Returns rows ∧
    Row.isGroup rows = .ok (.ok true) := by
  obtain ⟨l, _, h1, _, _, h2⟩ := C86_closure r hr
  exact ⟨l, h1, h2⟩

/-- Of rows that are not a group, fewer products may have to be made. -/
example : Row.isGroupCounted [⟨[⟨1⟩, ⟨2⟩, ⟨0⟩]⟩, ⟨[⟨0⟩, ⟨1⟩, ⟨2⟩]⟩] = .ok (.ok (false, 1, 2)) := by decide

/-- `least_group_containing` makes exactly one product of every row of the group with every given row
(repetitions included), so it is done after that many. -/
theorem C94_least_group (rows : List Row) (n : Nat) (hne : rows ≠ [])
    (hv : ∀ r ∈ rows, r.Valid ∧ r.bells.length = n) :
    ∃ out, (Row.leastGroupContaining rows).Returns (.ok out) ∧
      (Row.leastGroupContainingCounted rows).Returns (.ok (out, out.length * rows.length)) := by
  have hn : 0 < n := by
    obtain ⟨r, hr⟩ := List.exists_mem_of_ne_nil rows hne
    rw [← (hv r hr).2]
    exact (hv r hr).1.length_pos
  obtain ⟨S, rfl⟩ := Row.exists_perms hv
  obtain ⟨set, a, _, c⟩ := Row.lgcSeed_ofPerm hn S none [] (Or.inl rfl) (by simp)
  obtain ⟨out, h1, h2, h3⟩ := Row.lgcLoopCounted_ofPerm S _ set set 0 (le_refl _) a
  simp only [List.map_nil] at c
  refine ⟨out.map Row.ofPerm, ?_, ?_⟩
  · simp only [Row.leastGroupContaining, c, Run.lift_eq, Run.ofRes_ok_bind]
    rw [Run.returns_bind h1]
    simp
  · simp only [Row.leastGroupContainingCounted, c, Run.lift_eq, Run.ofRes_ok_bind]
    rw [Run.returns_bind h3]
    have : out.length - set.length + set.length = out.length := by omega
    simp [this]

/-- The hypotheses of `C94_least_group`. -/
example : ([⟨[⟨1⟩, ⟨2⟩, ⟨0⟩]⟩, ⟨[⟨1⟩, ⟨0⟩, ⟨2⟩]⟩] : List Row) ≠ [] ∧
    ∀ r ∈ ([⟨[⟨1⟩, ⟨2⟩, ⟨0⟩]⟩, ⟨[⟨1⟩, ⟨0⟩, ⟨2⟩]⟩] : List Row), r.Valid ∧ r.bells.length = 3 := by decide

/-- The search for a symmetry of a path of `N` places compares at most `N ^ 2` times. -/
theorem C94_palindromic (path : List Nat) :
    (Classify.isPalindromicCounted path).1 = Classify.isPalindromic path ∧
    (Classify.isPalindromicCounted path).2 ≤ path.length ^ 2 := by
  have := Classify.isPalindromicLoop_spec path (List.range path.length) 0
  simpa [Classify.isPalindromicCounted, Classify.isPalindromic, pow_two] using this

/-- It does stop at the first symmetry that it finds. -/
example : Classify.isPalindromicCounted [0, 0, 1, 1] = (true, 6) := by decide

end Bellframe.Props
