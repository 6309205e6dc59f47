import Verif.Spec.Stedman
import Verif.Proofs.Grandsire
import Mathlib.Tactic.IntervalCases
import Mathlib.Tactic.Linarith

/-! # Proofs about Stedman -/

namespace Bellframe

open Equiv

variable {n : Nat}

/-! ## One lead -/

/-- Thirds, lead, back: the kind of change `k` of the lead. -/
def stedmanFn (n k x : Nat) : Nat :=
  if k = 2 ∨ k = 8 then huntFn n 0 x
  else if k = 0 ∨ k = 3 ∨ k = 5 ∨ k = 7 ∨ k = 10 then thirdsFn n x
  else huntFn n 1 x

theorem stedmanStep_eq (h3 : 3 ≤ n) (ho : n % 2 = 1) {x : Nat} (h : x < n) (k : Nat) :
    stedmanStep n k x = stedmanFn n k x := by
  unfold stedmanStep stedmanFn thirdsFn huntFn
  split
  · repeat' split
    all_goals omega
  · split
    · repeat' split
      all_goals omega
    · repeat' split
      all_goals omega

theorem stedmanStep_lt (h3 : 3 ≤ n) (ho : n % 2 = 1) {x : Nat} (h : x < n) (k : Nat) :
    stedmanStep n k x < n := by
  unfold stedmanStep
  repeat' split
  all_goals omega

theorem stedmanPlace_lt (h3 : 3 ≤ n) (ho : n % 2 = 1) {b : Nat} (h : b < n) (t : Nat) :
    stedmanPlace n b t < n := by
  induction t with
  | zero => exact h
  | succ t ih => exact stedmanStep_lt h3 ho ih _

theorem stedmanPlace_add (b j t : Nat) :
    stedmanPlace n b (12 * j + t) = stedmanPlace n (stedmanPlace n b (12 * j)) t := by
  induction t with
  | zero => rfl
  | succ t ih => rw [← Nat.add_assoc, stedmanPlace, ih, Nat.mul_add_mod]; rfl

/-- `PlacesAre n x L`: from place `x` a lead leads through the places `L`. -/
def PlacesAre (n x : Nat) (L : List Nat) : Prop := ∀ i y, L[i]? = some y → stedmanPlace n x (i + 1) = y

theorem placesAre_of (x a b c d e f g h i j k l : Nat)
    (h0 : stedmanStep n 0 x = a) (h1 : stedmanStep n 1 a = b) (h2 : stedmanStep n 2 b = c)
    (h3 : stedmanStep n 3 c = d) (h4 : stedmanStep n 4 d = e) (h5 : stedmanStep n 5 e = f)
    (h6 : stedmanStep n 6 f = g) (h7 : stedmanStep n 7 g = h) (h8 : stedmanStep n 8 h = i)
    (h9 : stedmanStep n 9 i = j) (h10 : stedmanStep n 10 j = k) (h11 : stedmanStep n 11 k = l) :
    PlacesAre n x [a, b, c, d, e, f, g, h, i, j, k, l] := by
  subst h0 h1 h2 h3 h4 h5 h6 h7 h8 h9 h10 h11
  intro m y hy
  rcases m with _ | _ | _ | _ | _ | _ | _ | _ | _ | _ | _ | _ | m
  all_goals first
    | (simp at hy; done)
    | (exact Option.some.inj hy)

theorem places0 (h : 7 ≤ n) (ho : n % 2 = 1) : PlacesAre n 0 [1, 2, 3, 4, 3, 4, 3, 4, 5, 6, 5, 6] := by
  apply placesAre_of <;> (unfold stedmanStep; repeat' split) <;> omega
theorem places0' : PlacesAre 5 0 [1, 2, 3, 4, 3, 4, 3, 4, 4, 3, 4, 3] := by
  apply placesAre_of <;> decide
theorem places1 (h : 5 ≤ n) (ho : n % 2 = 1) : PlacesAre n 1 [0, 0, 1, 0, 0, 1, 2, 2, 3, 4, 3, 4] := by
  apply placesAre_of <;> (unfold stedmanStep; repeat' split) <;> omega
theorem places2 (h : 5 ≤ n) (ho : n % 2 = 1) : PlacesAre n 2 [2, 1, 0, 1, 2, 2, 1, 0, 1, 2, 2, 1] := by
  apply placesAre_of <;> (unfold stedmanStep; repeat' split) <;> omega
theorem places3 (h : 5 ≤ n) (ho : n % 2 = 1) : PlacesAre n 3 [4, 3, 2, 2, 1, 0, 0, 1, 0, 0, 1, 2] := by
  apply placesAre_of <;> (unfold stedmanStep; repeat' split) <;> omega
theorem places5 (h : 7 ≤ n) (ho : n % 2 = 1) : PlacesAre n 5 [6, 5, 4, 3, 4, 3, 4, 3, 2, 1, 0, 0] := by
  apply placesAre_of <;> (unfold stedmanStep; repeat' split) <;> omega
theorem places4' : PlacesAre 5 4 [3, 4, 4, 3, 4, 3, 4, 3, 2, 1, 0, 0] := by
  apply placesAre_of <;> decide
theorem placesIn (ho : n % 2 = 1) {p : Nat} (h7 : 7 ≤ p) (hp : p % 2 = 1) (hl : p < n) :
    PlacesAre n p [p + 1, p, p - 1, p - 2, p - 1, p - 2, p - 1, p - 2, p - 3, p - 4, p - 3, p - 4] := by
  apply placesAre_of <;> (unfold stedmanStep; repeat' split) <;> omega
theorem placesOut (ho : n % 2 = 1) {p : Nat} (h4 : 4 ≤ p) (hp : p % 2 = 0) (hl : p + 4 < n) :
    PlacesAre n p [p - 1, p, p + 1, p + 2, p + 1, p + 2, p + 1, p + 2, p + 3, p + 4, p + 3, p + 4] := by
  apply placesAre_of <;> (unfold stedmanStep; repeat' split) <;> omega
theorem placesBack (h : 7 ≤ n) (ho : n % 2 = 1) : PlacesAre n (n - 3)
    [n - 4, n - 3, n - 2, n - 1, n - 2, n - 1, n - 2, n - 1, n - 1, n - 2, n - 1, n - 2] := by
  apply placesAre_of <;> (unfold stedmanStep; repeat' split) <;> omega
theorem placesLast (h : 7 ≤ n) (ho : n % 2 = 1) : PlacesAre n (n - 1)
    [n - 2, n - 1, n - 1, n - 2, n - 1, n - 2, n - 1, n - 2, n - 3, n - 4, n - 3, n - 4] := by
  apply placesAre_of <;> (unfold stedmanStep; repeat' split) <;> omega

/-- The bells of the lead by the places where they start. -/
theorem placeCases (h : 5 ≤ n) (ho : n % 2 = 1) {x : Nat} (hx : x < n) :
    (n = 5 ∧ (x = 0 ∨ x = 4)) ∨ (7 ≤ n ∧ (x = 0 ∨ x = 5)) ∨ x = 1 ∨ x = 2 ∨ x = 3 ∨
    (7 ≤ x ∧ x % 2 = 1) ∨ (4 ≤ x ∧ x % 2 = 0 ∧ x + 4 < n) ∨ (7 ≤ n ∧ x = n - 3) ∨ (7 ≤ n ∧ x = n - 1) := by
  omega

/-! ## The cycle of the lead head -/

/-- The position of a place in the cycle of the lead head. -/
def stedmanPhase (n x : Nat) : Nat :=
  if x = 0 then 0 else if x = 1 then n / 2 + 1 else if x = 2 then n / 2
  else if x % 4 = 2 then (x - 2) / 4
  else if x % 4 = 3 then n / 2 - 1 - (x - 3) / 4
  else if x % 4 = 0 then n / 2 + 1 + x / 4
  else n - 1 - (x - 5) / 4

theorem stedmanPhase_lt (h : 5 ≤ n) (ho : n % 2 = 1) {x : Nat} (hx : x < n) : stedmanPhase n x < n := by
  unfold stedmanPhase
  repeat' split
  all_goals omega

theorem stedmanPhase_inj (h : 5 ≤ n) (ho : n % 2 = 1) {x y : Nat} (hx : x < n) (hy : y < n)
    (he : stedmanPhase n x = stedmanPhase n y) : x = y := by
  unfold stedmanPhase at he
  split at he
  · (repeat' split at he) <;> omega
  · split at he
    · (repeat' split at he) <;> omega
    · split at he
      · (repeat' split at he) <;> omega
      · split at he
        · (repeat' split at he) <;> omega
        · split at he
          · (repeat' split at he) <;> omega
          · split at he
            · (repeat' split at he) <;> omega
            · (repeat' split at he) <;> omega

theorem stedmanPhase_out {x : Nat} (h : 4 ≤ x) (hp : x % 2 = 0) :
    stedmanPhase n x = if x % 4 = 2 then (x - 2) / 4 else n / 2 + 1 + x / 4 := by
  unfold stedmanPhase
  rw [if_neg (by omega), if_neg (by omega), if_neg (by omega)]
  split
  · rfl
  · rw [if_neg (by omega), if_pos (by omega)]

theorem stedmanPhase_in {x : Nat} (h : 3 ≤ x) (hp : x % 2 = 1) :
    stedmanPhase n x = if x % 4 = 3 then n / 2 - 1 - (x - 3) / 4 else n - 1 - (x - 5) / 4 := by
  unfold stedmanPhase
  rw [if_neg (by omega), if_neg (by omega), if_neg (by omega), if_neg (by omega)]
  split
  · rfl
  · rw [if_neg (by omega)]

theorem stedmanPhase_lead (h : 5 ≤ n) (ho : n % 2 = 1) {x : Nat} (hx : x < n) :
    stedmanPhase n (stedmanPlace n x 12) = (stedmanPhase n x + 1) % n := by
  have key : ∀ y, stedmanPlace n x 12 = y →
      (stedmanPhase n y = stedmanPhase n x + 1 ∨ (stedmanPhase n y = 0 ∧ stedmanPhase n x = n - 1)) →
      stedmanPhase n (stedmanPlace n x 12) = (stedmanPhase n x + 1) % n := by
    rintro y rfl hy
    have hl := stedmanPhase_lt h ho (stedmanPlace_lt (by omega) ho hx 12)
    rcases hy with hy | ⟨h1, h2⟩
    · rw [← hy, Nat.mod_eq_of_lt hl]
    · rw [h1, h2, show n - 1 + 1 = n by omega, Nat.mod_self]
  rcases placeCases h ho hx with ⟨rfl, rfl | rfl⟩ | ⟨h7, rfl | rfl⟩ | rfl | rfl | rfl | ⟨h7, hp⟩ |
    ⟨h4, hp, hl⟩ | ⟨h7, rfl⟩ | ⟨h7, rfl⟩
  · exact key _ (places0' 11 3 rfl) (by decide)
  · exact key _ (places4' 11 0 rfl) (by decide)
  · exact key _ (places0 h7 ho 11 6 rfl) (by simp [stedmanPhase])
  · exact key _ (places5 h7 ho 11 0 rfl) (by simp [stedmanPhase])
  · exact key _ (places1 h ho 11 4 rfl) (by simp [stedmanPhase])
  · exact key _ (places2 h ho 11 1 rfl) (by simp [stedmanPhase])
  · exact key _ (places3 h ho 11 2 rfl) (by simp [stedmanPhase]; omega)
  · refine key _ (placesIn ho h7 hp hx 11 _ rfl) ?_
    rw [stedmanPhase_in (x := x - 4) (by omega) (by omega), stedmanPhase_in (x := x) (by omega) (by omega)]
    (repeat' split) <;> omega
  · refine key _ (placesOut ho h4 hp hl 11 _ rfl) ?_
    rw [stedmanPhase_out (x := x + 4) (by omega) (by omega), stedmanPhase_out (x := x) h4 hp]
    (repeat' split) <;> omega
  · refine key _ (placesBack h7 ho 11 _ rfl) ?_
    rw [stedmanPhase_in (x := n - 2) (by omega) (by omega), stedmanPhase_out (by omega) (by omega)]
    (repeat' split) <;> omega
  · refine key _ (placesLast h7 ho 11 _ rfl) ?_
    rw [stedmanPhase_in (x := n - 4) (by omega) (by omega), stedmanPhase_out (by omega) (by omega)]
    (repeat' split) <;> omega

theorem stedmanPhase_leads (h : 5 ≤ n) (ho : n % 2 = 1) {x : Nat} (hx : x < n) (j : Nat) :
    stedmanPhase n (stedmanPlace n x (12 * j)) = (stedmanPhase n x + j) % n := by
  induction j with
  | zero => rw [Nat.mul_zero, stedmanPlace, Nat.add_zero, Nat.mod_eq_of_lt (stedmanPhase_lt h ho hx)]
  | succ j ih =>
    rw [Nat.mul_succ, stedmanPlace_add, stedmanPhase_lead h ho (stedmanPlace_lt (by omega) ho hx _), ih,
      Nat.mod_add_mod, Nat.add_assoc]

theorem stedmanPlace_leads_eq (h : 5 ≤ n) (ho : n % 2 = 1) {x : Nat} (hx : x < n) (j : Nat) :
    stedmanPlace n x (12 * j) = x ↔ n ∣ j := by
  have hl := stedmanPhase_lt h ho hx
  constructor
  · intro he
    have := stedmanPhase_leads h ho hx j
    rw [he] at this
    have h2 : (stedmanPhase n x + 0) % n = (stedmanPhase n x + j) % n := by
      rw [← this, Nat.add_zero, Nat.mod_eq_of_lt hl]
    have h3 : 0 ≡ j [MOD n] := Nat.ModEq.add_left_cancel' (stedmanPhase n x) h2
    exact (Nat.modEq_zero_iff_dvd).1 h3.symm
  · rintro ⟨q, rfl⟩
    apply stedmanPhase_inj h ho (stedmanPlace_lt (by omega) ho hx _) hx
    rw [stedmanPhase_leads h ho hx, Nat.add_mul_mod_self_left, Nat.mod_eq_of_lt hl]

/-- All bells do the same work. -/
theorem stedman_same_work (h : 5 ≤ n) (ho : n % 2 = 1) {a b : Nat} (ha : a < n) (hb : b < n) :
    ∃ j, ∀ t, stedmanPlace n b t = stedmanPlace n a (t + j * 12) := by
  have h1 := stedmanPhase_lt h ho ha
  have h2 := stedmanPhase_lt h ho hb
  refine ⟨stedmanPhase n b + (n - stedmanPhase n a), fun t => ?_⟩
  have he : stedmanPlace n a (12 * (stedmanPhase n b + (n - stedmanPhase n a))) = b := by
    apply stedmanPhase_inj h ho (stedmanPlace_lt (by omega) ho ha _) hb
    rw [stedmanPhase_leads h ho ha, show stedmanPhase n a + (stedmanPhase n b + (n - stedmanPhase n a)) =
      stedmanPhase n b + n by omega, Nat.add_mod_right, Nat.mod_eq_of_lt h2]
  rw [Nat.add_comm t, Nat.mul_comm _ 12, stedmanPlace_add, he]

/-! ## No row comes twice -/

/-- The phases of the bells in the front three places of row `i` of a lead. -/
def FrontPhase (n i v : Nat) : Prop :=
  if i < 3 then v = 0 ∨ v = n / 2 ∨ v = n / 2 + 1
  else if i < 9 then v = n / 2 - 1 ∨ v = n / 2 ∨ v = n / 2 + 1
  else v = n / 2 - 1 ∨ v = n / 2 ∨ v = n - 1

theorem front_of_places {x : Nat} (L : List Nat) (hL : PlacesAre n x L) (hlen : L.length = 12) (i : Nat)
    (hi : i < 12) : ∃ y, (x :: L)[i]? = some y ∧ stedmanPlace n x i = y := by
  rcases i with _ | i
  · exact ⟨x, rfl, rfl⟩
  · have : i < L.length := by omega
    exact ⟨L[i], by simp [this], hL i _ (List.getElem?_eq_getElem this)⟩

theorem front_iff_of_places {x : Nat} (L : List Nat) (hL : PlacesAre n x L) (hlen : L.length = 12) (i : Nat)
    (hi : i < 12) (h : ∀ j y, (x :: L)[j]? = some y → j < 12 → (y < 3 ↔ FrontPhase n j (stedmanPhase n x))) :
    stedmanPlace n x i < 3 ↔ FrontPhase n i (stedmanPhase n x) := by
  obtain ⟨y, h1, h2⟩ := front_of_places L hL hlen i hi
  rw [h2]
  exact h i y h1 hi

theorem stedman_front (h : 5 ≤ n) (ho : n % 2 = 1) {x : Nat} (hx : x < n) (i : Nat) (hi : i < 12) :
    stedmanPlace n x i < 3 ↔ FrontPhase n i (stedmanPhase n x) := by
  have ph0 : stedmanPhase n 0 = 0 := by simp [stedmanPhase]
  have ph1 : stedmanPhase n 1 = n / 2 + 1 := by simp [stedmanPhase]
  have ph2 : stedmanPhase n 2 = n / 2 := by simp [stedmanPhase]
  have ph3 : stedmanPhase n 3 = n / 2 - 1 := by simp [stedmanPhase]
  have ph5 : stedmanPhase n 5 = n - 1 := by simp [stedmanPhase]
  have back : ∀ v, v ≠ 0 → v ≠ n / 2 → v ≠ n / 2 + 1 → v ≠ n / 2 - 1 → v ≠ n - 1 → ∀ j,
      ¬ FrontPhase n j v := by
    intro v _ _ _ _ _ j
    unfold FrontPhase
    repeat' split
    all_goals omega
  have far : ∀ (L : List Nat), PlacesAre n x L → L.length = 12 → (∀ y ∈ x :: L, 3 ≤ y) →
      stedmanPhase n x ≠ 0 → stedmanPhase n x ≠ n / 2 → stedmanPhase n x ≠ n / 2 + 1 →
      stedmanPhase n x ≠ n / 2 - 1 → stedmanPhase n x ≠ n - 1 →
      (stedmanPlace n x i < 3 ↔ FrontPhase n i (stedmanPhase n x)) := by
    intro L h1 h2 h3 a b c d e
    refine front_iff_of_places L h1 h2 i hi ?_
    intro j y hy _
    have := h3 y (List.mem_of_getElem? hy)
    have := back _ a b c d e j
    constructor
    · intro; omega
    · intro; contradiction
  have near : ∀ (L : List Nat) (v : Nat), PlacesAre n x L → L.length = 12 → stedmanPhase n x = v →
      (∀ j y, (x :: L)[j]? = some y → j < 12 → (y < 3 ↔ FrontPhase n j v)) →
      (stedmanPlace n x i < 3 ↔ FrontPhase n i (stedmanPhase n x)) := by
    intro L v h1 h2 h3 h4
    exact front_iff_of_places L h1 h2 i hi (by rw [h3]; exact h4)
  rcases placeCases h ho hx with ⟨rfl, rfl | rfl⟩ | ⟨h7, rfl | rfl⟩ | rfl | rfl | rfl | ⟨h7, hp⟩ |
    ⟨h4, hp, hl⟩ | ⟨h7, rfl⟩ | ⟨h7, rfl⟩
  case inl.inl =>
    refine near _ _ places0' rfl ph0 ?_
    intro j y hy hj
    clear hx far near back ph0 ph1 ph2 ph3 ph5 hi
    interval_cases j <;> simp at hy <;> subst hy <;> simp [FrontPhase]
  case inl.inr =>
    refine near _ 4 places4' rfl (by decide) ?_
    intro j y hy hj
    clear hx far near back ph0 ph1 ph2 ph3 ph5 hi
    interval_cases j <;> simp at hy <;> subst hy <;> simp [FrontPhase]
  case inr.inl.inl =>
    refine near _ _ (places0 h7 ho) rfl ph0 ?_
    intro j y hy hj
    clear hx far near back ph0 ph1 ph2 ph3 ph5 hi
    interval_cases j <;> simp at hy <;> subst hy <;> simp [FrontPhase] <;> omega
  case inr.inl.inr =>
    refine near _ _ (places5 h7 ho) rfl ph5 ?_
    intro j y hy hj
    clear hx far near back ph0 ph1 ph2 ph3 ph5 hi
    interval_cases j <;> simp at hy <;> subst hy <;> simp [FrontPhase] <;> omega
  case inr.inr.inl =>
    refine near _ _ (places1 h ho) rfl ph1 ?_
    intro j y hy hj
    clear hx far near back ph0 ph1 ph2 ph3 ph5 hi
    interval_cases j <;> simp at hy <;> subst hy <;> simp [FrontPhase] <;> omega
  case inr.inr.inr.inl =>
    refine near _ _ (places2 h ho) rfl ph2 ?_
    intro j y hy hj
    clear hx far near back ph0 ph1 ph2 ph3 ph5 hi
    interval_cases j <;> simp at hy <;> subst hy <;> simp [FrontPhase]
  case inr.inr.inr.inr.inl =>
    refine near _ _ (places3 h ho) rfl ph3 ?_
    intro j y hy hj
    clear hx far near back ph0 ph1 ph2 ph3 ph5 hi
    interval_cases j <;> simp at hy <;> subst hy <;> simp [FrontPhase] <;> omega
  case inr.inr.inr.inr.inr.inl =>
    have e := stedmanPhase_in (n := n) (show 3 ≤ x by omega) hp
    refine far _ (placesIn ho h7 hp hx) rfl (by simp; omega) ?_ ?_ ?_ ?_ ?_ <;> rw [e] <;> split <;> omega
  case inr.inr.inr.inr.inr.inr.inl =>
    have e := stedmanPhase_out (n := n) h4 hp
    refine far _ (placesOut ho h4 hp hl) rfl (by simp; omega) ?_ ?_ ?_ ?_ ?_ <;> rw [e] <;> split <;> omega
  case inr.inr.inr.inr.inr.inr.inr.inl =>
    have e := stedmanPhase_out (n := n) (x := n - 3) (by omega) (by omega)
    refine far _ (placesBack h7 ho) rfl (by simp; omega) ?_ ?_ ?_ ?_ ?_ <;> rw [e] <;> split <;> omega
  case inr.inr.inr.inr.inr.inr.inr.inr =>
    have e := stedmanPhase_out (n := n) (x := n - 1) (by omega) (by omega)
    refine far _ (placesLast h7 ho) rfl (by simp; omega) ?_ ?_ ?_ ?_ ?_ <;> rw [e] <;> split <;> omega

/-- Three bells in the front work, by rows of the lead. -/
theorem stedman_table (h : 5 ≤ n) (ho : n % 2 = 1) (i : Nat) (hi : i < 12) :
    [1, 0, 0, 1, 0, 0, 1, 2, 2, 3, 4, 3][i]? = some (stedmanPlace n 1 i) ∧
    [2, 2, 1, 0, 1, 2, 2, 1, 0, 1, 2, 2][i]? = some (stedmanPlace n 2 i) ∧
    [3, 4, 3, 2, 2, 1, 0, 0, 1, 0, 0, 1][i]? = some (stedmanPlace n 3 i) := by
  obtain ⟨y1, a1, b1⟩ := front_of_places _ (places1 h ho) rfl i hi
  obtain ⟨y2, a2, b2⟩ := front_of_places _ (places2 h ho) rfl i hi
  obtain ⟨y3, a3, b3⟩ := front_of_places _ (places3 h ho) rfl i hi
  rw [b1, b2, b3, ← a1, ← a2, ← a3]
  interval_cases i <;> simp

set_option maxHeartbeats 2000000 in
theorem front_shift {G e v0 v1 v2 v3 vz : Nat} (hG : n / 2 = G ∧ n = 2 * G + 1) (h : 5 ≤ n) (hen : e < n) (i i' : Nat)
    (r0 : v0 = 0 + e ∨ v0 + n = 0 + e) (r1 : v1 = n / 2 + 1 + e ∨ v1 + n = n / 2 + 1 + e)
    (r2 : v2 = n / 2 + e ∨ v2 + n = n / 2 + e) (r3 : v3 = n / 2 - 1 + e ∨ v3 + n = n / 2 - 1 + e)
    (rz : vz = n - 1 + e ∨ vz + n = n - 1 + e)
    (l0 : v0 < n) (l1 : v1 < n) (l2 : v2 < n) (l3 : v3 < n) (lz : vz < n)
    (q0 : FrontPhase n i 0 → FrontPhase n i' v0) (q1 : FrontPhase n i (n / 2 + 1) → FrontPhase n i' v1)
    (q2 : FrontPhase n i (n / 2) → FrontPhase n i' v2) (q3 : FrontPhase n i (n / 2 - 1) → FrontPhase n i' v3)
    (qz : FrontPhase n i (n - 1) → FrontPhase n i' vz) :
    (e = 0 ∧ ((i < 3 ∧ i' < 3) ∨ (3 ≤ i ∧ i < 9 ∧ 3 ≤ i' ∧ i' < 9) ∨ (9 ≤ i ∧ 9 ≤ i'))) ∨
      (e = 1 ∧ 9 ≤ i ∧ i' < 3) ∨ (e = n - 1 ∧ i < 3 ∧ 9 ≤ i') := by
  obtain ⟨hG, rfl⟩ := hG
  rw [hG] at r1 r2 r3 q1 q2 q3
  have hF : ∀ j v, FrontPhase (2 * G + 1) j v ↔ (j < 3 ∧ (v = 0 ∨ v = G ∨ v = G + 1)) ∨
      (3 ≤ j ∧ j < 9 ∧ (v = G - 1 ∨ v = G ∨ v = G + 1)) ∨ (9 ≤ j ∧ (v = G - 1 ∨ v = G ∨ v = 2 * G)) := by
    intro j v
    unfold FrontPhase
    rw [hG]
    split
    · omega
    · split <;> omega
  rw [hF, hF] at q0 q1 q2 q3 qz
  clear hF hG
  rcases Nat.lt_or_ge i 3 with a | a
  · replace q0 := q0 (.inl ⟨a, .inl rfl⟩)
    replace q1 := q1 (.inl ⟨a, .inr (.inr rfl)⟩)
    replace q2 := q2 (.inl ⟨a, .inr (.inl rfl)⟩)
    clear q3 qz r3 rz l3 lz
    rcases q0 with ⟨b, q0⟩ | ⟨b, b', q0⟩ | ⟨b, q0⟩
    · replace q1 : v1 = 0 ∨ v1 = G ∨ v1 = G + 1 := by omega
      replace q2 : v2 = 0 ∨ v2 = G ∨ v2 = G + 1 := by omega
      omega
    · replace q1 : v1 = G - 1 ∨ v1 = G ∨ v1 = G + 1 := by omega
      replace q2 : v2 = G - 1 ∨ v2 = G ∨ v2 = G + 1 := by omega
      omega
    · replace q1 : v1 = G - 1 ∨ v1 = G ∨ v1 = 2 * G := by omega
      replace q2 : v2 = G - 1 ∨ v2 = G ∨ v2 = 2 * G := by omega
      omega
  · rcases Nat.lt_or_ge i 9 with a' | a'
    · replace q1 := q1 (.inr (.inl ⟨a, a', .inr (.inr rfl)⟩))
      replace q2 := q2 (.inr (.inl ⟨a, a', .inr (.inl rfl)⟩))
      replace q3 := q3 (.inr (.inl ⟨a, a', .inl rfl⟩))
      clear q0 qz r0 rz l0 lz
      rcases q1 with ⟨b, q1⟩ | ⟨b, b', q1⟩ | ⟨b, q1⟩
      · replace q3 : v3 = 0 ∨ v3 = G ∨ v3 = G + 1 := by omega
        replace q2 : v2 = 0 ∨ v2 = G ∨ v2 = G + 1 := by omega
        omega
      · replace q3 : v3 = G - 1 ∨ v3 = G ∨ v3 = G + 1 := by omega
        replace q2 : v2 = G - 1 ∨ v2 = G ∨ v2 = G + 1 := by omega
        omega
      · replace q3 : v3 = G - 1 ∨ v3 = G ∨ v3 = 2 * G := by omega
        replace q2 : v2 = G - 1 ∨ v2 = G ∨ v2 = 2 * G := by omega
        omega
    · replace qz := qz (.inr (.inr ⟨a', .inr (.inr rfl)⟩))
      replace q2 := q2 (.inr (.inr ⟨a', .inr (.inl rfl)⟩))
      replace q3 := q3 (.inr (.inr ⟨a', .inl rfl⟩))
      clear q0 q1 r0 r1 l0 l1
      rcases qz with ⟨b, qz⟩ | ⟨b, b', qz⟩ | ⟨b, qz⟩
      · replace q3 : v3 = 0 ∨ v3 = G ∨ v3 = G + 1 := by omega
        replace q2 : v2 = 0 ∨ v2 = G ∨ v2 = G + 1 := by omega
        omega
      · replace q3 : v3 = G - 1 ∨ v3 = G ∨ v3 = G + 1 := by omega
        replace q2 : v2 = G - 1 ∨ v2 = G ∨ v2 = G + 1 := by omega
        omega
      · replace q3 : v3 = G - 1 ∨ v3 = G ∨ v3 = 2 * G := by omega
        replace q2 : v2 = G - 1 ∨ v2 = G ∨ v2 = 2 * G := by omega
        omega

theorem stedman_core (h : 5 ≤ n) (ho : n % 2 = 1) {i i' d : Nat} (hi : i < 12) (hi' : i' < 12)
    (he : ∀ x < n, stedmanPlace n x i = stedmanPlace n (stedmanPlace n x (12 * d)) i') : i = i' ∧ n ∣ d := by
  have hlt : ∀ x < n, stedmanPlace n x (12 * d) < n := fun x hx => stedmanPlace_lt (by omega) ho hx _
  set e := d % n with hed
  have hen : e < n := Nat.mod_lt _ (by omega)
  have hph : ∀ x < n, stedmanPhase n (stedmanPlace n x (12 * d)) = stedmanPhase n x + e ∨
      stedmanPhase n (stedmanPlace n x (12 * d)) + n = stedmanPhase n x + e := by
    intro x hx
    have h1 := stedmanPhase_lt h ho hx
    rw [stedmanPhase_leads h ho hx, ← Nat.add_mod_mod, ← hed]
    rcases Nat.lt_or_ge (stedmanPhase n x + e) n with hc | hc
    · left; exact Nat.mod_eq_of_lt hc
    · right
      rw [Nat.mod_eq_sub_mod hc, Nat.mod_eq_of_lt (by omega)]
      omega
  have hfr : ∀ x < n, FrontPhase n i (stedmanPhase n x) →
      FrontPhase n i' (stedmanPhase n (stedmanPlace n x (12 * d))) := by
    intro x hx hf
    rw [← stedman_front h ho (hlt x hx) i' hi', ← he x hx]
    exact (stedman_front h ho hx i hi).2 hf
  have ph0 : stedmanPhase n 0 = 0 := by simp [stedmanPhase]
  have ph1 : stedmanPhase n 1 = n / 2 + 1 := by simp [stedmanPhase]
  have ph2 : stedmanPhase n 2 = n / 2 := by simp [stedmanPhase]
  have ph3 : stedmanPhase n 3 = n / 2 - 1 := by simp [stedmanPhase]
  obtain ⟨z, hz, phz⟩ : ∃ z < n, stedmanPhase n z = n - 1 := by
    by_cases h5 : n = 5
    · subst h5; exact ⟨4, by decide, by decide⟩
    · exact ⟨5, by omega, by simp [stedmanPhase]⟩
  have q0 := hfr 0 (by omega)
  have q1 := hfr 1 (by omega)
  have q2 := hfr 2 (by omega)
  have q3 := hfr 3 (by omega)
  have qz := hfr z hz
  have r0 := hph 0 (by omega)
  have r1 := hph 1 (by omega)
  have r2 := hph 2 (by omega)
  have r3 := hph 3 (by omega)
  have rz := hph z hz
  rw [ph0] at q0 r0
  rw [ph1] at q1 r1
  rw [ph2] at q2 r2
  rw [ph3] at q3 r3
  rw [phz] at qz rz
  have l1 := stedmanPhase_lt h ho (hlt 1 (by omega))
  have l2 := stedmanPhase_lt h ho (hlt 2 (by omega))
  have l3 := stedmanPhase_lt h ho (hlt 3 (by omega))
  have l0 := stedmanPhase_lt h ho (hlt 0 (by omega))
  have lz := stedmanPhase_lt h ho (hlt z hz)
  have cls : (e = 0 ∧ ((i < 3 ∧ i' < 3) ∨ (3 ≤ i ∧ i < 9 ∧ 3 ≤ i' ∧ i' < 9) ∨ (9 ≤ i ∧ 9 ≤ i'))) ∨
      (e = 1 ∧ 9 ≤ i ∧ i' < 3) ∨ (e = n - 1 ∧ i < 3 ∧ 9 ≤ i') := by
    exact front_shift (G := n / 2) ⟨rfl, by omega⟩ h hen i i' r0 r1 r2 r3 rz l0 l1 l2 l3 lz q0 q1 q2 q3 qz
  have t1 := stedman_table h ho i hi
  have t2 := stedman_table h ho i' hi'
  rcases cls with ⟨h0, hc⟩ | ⟨h1, hc, hc'⟩ | ⟨h1, hc, hc'⟩
  · have hd : n ∣ d := Nat.dvd_of_mod_eq_zero h0
    refine ⟨?_, hd⟩
    have e1 := he 1 (by omega)
    have e2 := he 2 (by omega)
    have e3 := he 3 (by omega)
    rw [(stedmanPlace_leads_eq h ho (by omega) d).2 hd] at e1 e2 e3
    rw [← e1, ← e2, ← e3] at t2
    obtain ⟨u1, u2, u3⟩ := t1
    obtain ⟨w1, w2, w3⟩ := t2
    rw [← u1] at w1
    rw [← u2] at w2
    rw [← u3] at w3
    clear u1 u2 u3 e1 e2 e3
    interval_cases i <;> interval_cases i' <;> first | rfl | (exfalso; simp at w1 w2 w3; try omega)
  · exfalso
    have p2 : stedmanPlace n 2 (12 * d) = 1 :=
      stedmanPhase_inj h ho (hlt 2 (by omega)) (by omega) (by rw [ph1]; omega)
    have p3 : stedmanPlace n 3 (12 * d) = 2 :=
      stedmanPhase_inj h ho (hlt 3 (by omega)) (by omega) (by rw [ph2]; omega)
    have e2 := he 2 (by omega)
    have e3 := he 3 (by omega)
    rw [p2] at e2
    rw [p3] at e3
    rw [e2, e3] at t1
    obtain ⟨-, u2, u3⟩ := t1
    obtain ⟨w1, w2, -⟩ := t2
    rw [← w1] at u2
    rw [← w2] at u3
    interval_cases i <;> interval_cases i' <;> simp at u2 u3
  · exfalso
    have p1 : stedmanPlace n 1 (12 * d) = 2 :=
      stedmanPhase_inj h ho (hlt 1 (by omega)) (by omega) (by rw [ph2]; omega)
    have p2 : stedmanPlace n 2 (12 * d) = 3 :=
      stedmanPhase_inj h ho (hlt 2 (by omega)) (by omega) (by rw [ph3]; omega)
    have e1 := he 1 (by omega)
    have e2 := he 2 (by omega)
    rw [p1] at e1
    rw [p2] at e2
    rw [e1, e2] at t1
    obtain ⟨u1, u2, -⟩ := t1
    obtain ⟨-, w2, w3⟩ := t2
    rw [← w2] at u1
    rw [← w3] at u2
    interval_cases i <;> interval_cases i' <;> simp at u1 u2

/-- No two rows of the plain course of Stedman are equal. -/
theorem stedman_distinct (h : 5 ≤ n) (ho : n % 2 = 1) {t t' : Nat} (ht : t < 12 * n) (ht' : t' < 12 * n)
    (he : ∀ b < n, stedmanPlace n b t = stedmanPlace n b t') : t = t' := by
  set j := t / 12 with hj
  set j' := t' / 12 with hj'
  have e1 : t = 12 * j + t % 12 := (Nat.div_add_mod t 12).symm
  have e2 : t' = 12 * j' + t' % 12 := (Nat.div_add_mod t' 12).symm
  have hjn : j ≤ n * j := Nat.le_mul_of_pos_left _ (by omega)
  have key := stedman_core (n := n) h ho (i := t % 12) (i' := t' % 12) (d := n * j - j + j')
    (Nat.mod_lt _ (by omega)) (Nat.mod_lt _ (by omega)) (by
      intro x hx
      have hb := he _ (stedmanPlace_lt (n := n) (by omega) ho hx (12 * (n * j - j)))
      rw [e1, e2, stedmanPlace_add _ j, stedmanPlace_add _ j', ← stedmanPlace_add x, ← stedmanPlace_add x,
        ← Nat.mul_add, ← Nat.mul_add, show n * j - j + j = n * j by omega,
        (stedmanPlace_leads_eq h ho hx _).2 (Nat.dvd_mul_right _ _)] at hb
      exact hb)
  obtain ⟨h1, h2⟩ := key
  have h3 : j = j' := by
    have hja : j < n := by omega
    have hjb : j' < n := by omega
    -- `n ∣ n * j - j + j'`
    obtain ⟨q, hq⟩ := h2
    have hz : (n : ℤ) ∣ (j' : ℤ) - j := by
      refine ⟨(q : ℤ) - j, ?_⟩
      have : ((n * j - j + j' : ℕ) : ℤ) = n * q := by rw [hq]; push_cast; ring
      rw [Nat.cast_add, Nat.cast_sub hjn] at this
      push_cast at this
      linarith
    have := Int.eq_zero_of_abs_lt_dvd hz (by rw [abs_lt]; omega)
    omega
  omega

end Bellframe
