import Verif.Model.MachineMusic
import Verif.Proofs.MachineVec
import Verif.Proofs.MusicRuns
import Verif.Props.Utils

/-! # Lemmas about counting matching rows in machine words -/

namespace Bellframe

namespace Build

variable {m : Build}

theorem add_of_release (hc : m.overflowChecks = false) (a b : Nat) :
    m.add a b = .ok ((a + b) % 2 ^ m.bits) := by
  unfold add
  split
  · rename_i h; rw [Nat.mod_eq_of_lt h]
  · simp [hc]

theorem sub_of_le {a b : Nat} (h : b ≤ a) : m.sub a b = .ok (a - b) := if_pos h

theorem sub_of_checks (hc : m.overflowChecks = true) (a b : Nat) : m.sub a b = checkedSub a b := by
  simp [sub, checkedSub, hc]

theorem sub_of_release (hc : m.overflowChecks = false) {a : Nat} (b : Nat) (ha : a < 2 ^ m.bits) :
    m.sub a b = .ok ((a + 2 ^ m.bits - b) % 2 ^ m.bits) := by
  unfold sub
  split
  · rename_i h
    rw [show a + 2 ^ m.bits - b = (a - b) + 2 ^ m.bits by omega, Nat.add_mod_right,
      Nat.mod_eq_of_lt (by omega)]
  · simp [hc]

theorem pow_pos : 0 < 2 ^ m.bits := Nat.pow_pos (by decide)

end Build

namespace Utils

variable {m : Build}

theorem choiceLoopOn_eq (n k : Nat) (hk : k ≤ n) (hn : n < 2 ^ m.bits) :
    ∀ fuel i num den, i + fuel = k + 1 → den ≤ num →
    choiceLoopOn m n k fuel i num den = choiceLoop (2 ^ m.bits - 1) n k fuel i num den
  | 0, i, num, den, _, _ => rfl
  | fuel + 1, i, num, den, hi, hle => by
    have hM := m.pow_pos
    rw [choiceLoopOn, choiceLoop, Build.sub_of_le hk]
    simp only [Res.ok_bind]
    rw [m.add_of_lt (by omega)]
    simp only [Res.ok_bind]
    have hden : den * i ≤ num * (n - k + i) := Nat.mul_le_mul hle (by omega)
    by_cases hb : num * (n - k + i) < 2 ^ m.bits
    · rw [if_pos hb, if_neg (show ¬ num * (n - k + i) > 2 ^ m.bits - 1 by omega),
        if_neg (show ¬ den * i > 2 ^ m.bits - 1 by omega),
        m.mul_of_lt (by omega)]
      simp only [Res.ok_bind]
      exact choiceLoopOn_eq n k hk hn fuel (i + 1) _ _ (by omega) hden
    · rw [if_neg hb, if_pos (show num * (n - k + i) > 2 ^ m.bits - 1 by omega)]
      rfl

theorem choiceOn_of_le {n k : Nat} (hk : k ≤ n) (hn : n < 2 ^ m.bits) :
    choiceOn m n k = choice (2 ^ m.bits - 1) n k := by
  unfold choiceOn choice
  rw [Build.sub_of_le hk, show checkedSub n k = .ok (n - k) from if_pos hk]
  simp only [Res.ok_bind]
  exact choiceLoopOn_eq n _ (by omega) hn _ _ _ _ (by omega) (Nat.le_refl 1)

/-- Once the numerator is zero it stays so. -/
theorem choiceLoopOn_zero (hc : m.overflowChecks = false) (n k : Nat) (hn : n < 2 ^ m.bits) :
    ∀ fuel i, choiceLoopOn m n k fuel (i + 1) 0 (i.factorial % 2 ^ m.bits) =
      if (i + fuel).factorial % 2 ^ m.bits = 0 then .error .divByZero else .ok (some 0)
  | 0, i => by
    simp only [choiceLoopOn, Nat.zero_div, Nat.add_zero]
  | fuel + 1, i => by
    have hM := m.pow_pos
    rw [choiceLoopOn, Build.sub_of_release hc _ hn]
    simp only [Res.ok_bind, Build.add_of_release hc, Nat.zero_mul, if_pos hM, m.mul_of_release hc]
    rw [show i.factorial % 2 ^ m.bits * (i + 1) % 2 ^ m.bits = (i + 1).factorial % 2 ^ m.bits by
        rw [Nat.mod_mul_mod, Nat.factorial_succ, Nat.mul_comm],
      choiceLoopOn_zero hc n k hn fuel (i + 1), show i + 1 + fuel = i + (fuel + 1) by omega]

/-- Fewer things than are to be chosen, without overflow checks. -/
theorem choiceOn_release_lt (hc : m.overflowChecks = false) {n k : Nat} (hk : n < k)
    (hk2 : 2 * k < 2 ^ m.bits) :
    choiceOn m n k = if n + 3 ≤ k then .ok none
      else if k.factorial % 2 ^ m.bits = 0 then .error .divByZero else .ok (some 0) := by
  have hM := m.pow_pos
  have hn : n < 2 ^ m.bits := by omega
  have hsub : m.sub n k = .ok (2 ^ m.bits - (k - n)) := by
    rw [Build.sub_of_release hc _ hn, show n + 2 ^ m.bits - k = 2 ^ m.bits - (k - n) by omega,
      Nat.mod_eq_of_lt (by omega)]
  unfold choiceOn
  rw [hsub]
  simp only [Res.ok_bind]
  rw [show min k (2 ^ m.bits - (k - n)) = k by omega]
  obtain ⟨fuel, rfl⟩ : ∃ f, k = f + 1 := ⟨k - 1, by omega⟩
  rw [choiceLoopOn, hsub]
  simp only [Res.ok_bind, Build.add_of_release hc, Nat.one_mul, m.mul_of_release hc]
  rw [if_pos (Nat.mod_lt _ hM), show 1 % 2 ^ m.bits = 1 from Nat.mod_eq_of_lt (by omega)]
  by_cases h1 : fuel + 1 - n = 1
  · rw [h1, show 2 ^ m.bits - 1 + 1 = 2 ^ m.bits by omega, Nat.mod_self]
    rw [if_neg (by omega)]
    have h := choiceLoopOn_zero hc n (fuel + 1) hn fuel 1
    rw [Nat.factorial_one, show 1 % 2 ^ m.bits = 1 from Nat.mod_eq_of_lt (by omega)] at h
    rw [h, Nat.add_comm 1 fuel]
  · rw [show (2 ^ m.bits - (fuel + 1 - n) + 1) % 2 ^ m.bits = 2 ^ m.bits - (fuel + 1 - n) + 1 from
      Nat.mod_eq_of_lt (by omega)]
    obtain ⟨fuel, rfl⟩ : ∃ f, fuel = f + 1 := ⟨fuel - 1, by omega⟩
    rw [choiceLoopOn, hsub]
    simp only [Res.ok_bind, Build.add_of_release hc, m.mul_of_release hc]
    by_cases h2 : fuel + 1 + 1 - n = 2
    · rw [h2, show 2 ^ m.bits - 2 + (1 + 1) = 2 ^ m.bits by omega, Nat.mod_self, Nat.mul_zero,
        if_pos hM, if_neg (by omega)]
      have h := choiceLoopOn_zero hc n (fuel + 1 + 1) hn fuel 2
      rw [show (2 : Nat).factorial = 1 * (1 + 1) from rfl] at h
      rw [h, show 2 + fuel = fuel + 1 + 1 by omega]
    · rw [show (2 ^ m.bits - (fuel + 1 + 1 - n) + (1 + 1)) % 2 ^ m.bits =
        2 ^ m.bits - (fuel + 1 + 1 - n) + 2 from Nat.mod_eq_of_lt (by omega)]
      rw [if_neg, if_pos (by omega)]
      · rfl
      · have h3 : 2 * (2 ^ m.bits - (fuel + 1 + 1 - n) + 1) ≤
            (2 ^ m.bits - (fuel + 1 + 1 - n) + 1) * (2 ^ m.bits - (fuel + 1 + 1 - n) + 2) := by
          rw [Nat.mul_comm]
          exact Nat.mul_le_mul_left _ (by omega)
        omega

/-- Far more things than are to be chosen. -/
theorem choiceOn_huge {n k : Nat} (hn : n < 2 ^ m.bits) (hbig : 2 ^ m.bits < 2 * (n - k))
    (h3 : 3 ≤ m.bits) :
    choiceOn m n k = .ok (if k = 0 then some 1 else if k = 1 then some n else none) := by
  have hM := m.pow_pos
  have h8 : 8 ≤ 2 ^ m.bits := by
    calc 8 = 2 ^ 3 := rfl
      _ ≤ 2 ^ m.bits := Nat.pow_le_pow_right (by decide) h3
  rw [choiceOn_of_le (by omega) hn, Props.C47_choice _ _ _ (by omega) (by omega)]
  by_cases h0 : k = 0
  · subst h0; simp; omega
  · by_cases h1 : k = 1
    · subst h1
      rw [show min 1 (n - 1) = 1 by omega]
      simp
      omega
    · rw [if_neg h0, if_neg h1, if_neg]
      have hmin : 2 ≤ min k (n - k) := by omega
      have hd : n.descFactorial 2 ≤ n.descFactorial (min k (n - k)) := by
        obtain ⟨d, hd⟩ : ∃ d, min k (n - k) = 2 + d := ⟨min k (n - k) - 2, by omega⟩
        rw [hd, ← Nat.descFactorial_mul_descFactorial (k := 2) (by omega : 2 ≤ 2 + d)]
        exact Nat.le_mul_of_pos_left _ (Nat.descFactorial_pos.2 (by omega))
      have h2 : n.descFactorial 2 = (n - 1) * n := by
        simp [Nat.descFactorial]
      have : 2 * n ≤ (n - 1) * n := Nat.mul_le_mul_right _ (by omega)
      omega

end Utils

namespace Regex

variable {m : Build}

theorem countElemsOn_checks (hc : m.overflowChecks = true) : ∀ (es : List RegexElem) (u w g : Nat),
    w + es.length < 2 ^ m.bits → g + es.length < 2 ^ m.bits →
    countElemsOn m es u w g = countElems es u w g
  | [], u, w, g, _, _ => rfl
  | .bell b :: es, u, w, g, hw, hg => by
    simp only [List.length_cons] at hw hg
    rw [countElemsOn, countElems, Build.sub_of_checks hc]
    cases checkedSub u 1 with
    | error e => rfl
    | ok u' => exact countElemsOn_checks hc es u' w g (by omega) (by omega)
  | .any :: es, u, w, g, hw, hg => by
    simp only [List.length_cons] at hw hg
    rw [countElemsOn, countElems, m.add_of_lt (by omega)]
    exact countElemsOn_checks hc es u (w + 1) g (by omega) (by omega)
  | .glob :: es, u, w, g, hw, hg => by
    simp only [List.length_cons] at hw hg
    rw [countElemsOn, countElems, m.add_of_lt (by omega)]
    exact countElemsOn_checks hc es u w (g + 1) (by omega) (by omega)

theorem countElemsOn_release (hc : m.overflowChecks = false) :
    ∀ (es : List RegexElem) (u w g : Nat), u < 2 ^ m.bits →
    w + es.length < 2 ^ m.bits → g + es.length < 2 ^ m.bits →
    countElemsOn m es u w g = .ok ((u + 2 ^ m.bits - (bellsNamed es).length) % 2 ^ m.bits,
      w + es.count .any, g + es.count .glob)
  | [], u, w, g, hu, _, _ => by
    simp [countElemsOn, bellsNamed, Nat.mod_eq_of_lt hu]
  | .bell b :: es, u, w, g, hu, hw, hg => by
    simp only [List.length_cons] at hw hg
    have hM := m.pow_pos
    have hl : (bellsNamed es).length ≤ es.length := by
      have := bellsNamed_length es; omega
    rw [countElemsOn, Build.sub_of_release hc _ hu]
    simp only [Res.ok_bind]
    rw [countElemsOn_release hc es _ w g (Nat.mod_lt _ hM) (by omega) (by omega)]
    have hb : (bellsNamed (.bell b :: es)).length = (bellsNamed es).length + 1 := by
      simp [bellsNamed]
    rw [hb]
    simp only [Except.ok.injEq, Prod.mk.injEq]
    refine ⟨?_, by simp, by simp⟩
    by_cases h0 : u = 0
    · subst h0
      rw [show (0 + 2 ^ m.bits - 1) % 2 ^ m.bits = 2 ^ m.bits - 1 from by
        rw [Nat.zero_add]; exact Nat.mod_eq_of_lt (by omega)]
      rw [show 2 ^ m.bits - 1 + 2 ^ m.bits - (bellsNamed es).length =
        (0 + 2 ^ m.bits - ((bellsNamed es).length + 1)) + 2 ^ m.bits by omega, Nat.add_mod_right]
    · rw [show u + 2 ^ m.bits - 1 = (u - 1) + 2 ^ m.bits by omega, Nat.add_mod_right,
        Nat.mod_eq_of_lt (show u - 1 < 2 ^ m.bits by omega)]
      congr 1
      omega
  | .any :: es, u, w, g, hu, hw, hg => by
    simp only [List.length_cons] at hw hg
    rw [countElemsOn, m.add_of_lt (by omega)]
    simp only [Res.ok_bind]
    rw [countElemsOn_release hc es u (w + 1) g hu (by omega) (by omega)]
    simp [bellsNamed]
    omega
  | .glob :: es, u, w, g, hu, hw, hg => by
    simp only [List.length_cons] at hw hg
    rw [countElemsOn, m.add_of_lt (by omega)]
    simp only [Res.ok_bind]
    rw [countElemsOn_release hc es u w (g + 1) hu (by omega) (by omega)]
    simp [bellsNamed]
    omega

end Regex

end Bellframe
