import Verif.Props.Truth

/-! # C113: touches begun at another row -/

namespace Bellframe.Props

open Equiv

variable {n : Nat} {A : Type}

/-- A block that begins with rounds and comes round, split anywhere and joined the other way about.  Nothing fails, and
the new block is the old one begun at the row where it was split: it comes round after as many rows, carries the same
annotations, rung from the row of the split it has the same rows, and it is true exactly when the old one is. -/
theorem C113_elsewhere (b : AnnotBlock A) (hb : b.WellFormed) (h0 : b.getRow 0 = some (.rounds b.stage))
    (h1 : b.leftoverRow = .ok (.rounds b.stage)) (k : Nat) (hk : k ≤ b.len) :
    ∃ before after splitAt touch, b.split k = .ok (some (before, after)) ∧ b.getRow k = some splitAt ∧
      ringTouch b.stage [after, before] = .ok (touch, .ok ()) ∧ touch.WellFormed ∧ touch.stage = b.stage ∧
      touch.len = b.len ∧ touch.leftoverRow = .ok (.rounds b.stage) ∧
      (∀ i < b.len, ∃ x y, touch.getRow i = some x ∧ b.getRow ((i + k) % b.len) = some y ∧
        splitAt.mul x = .ok y ∧ touch.getAnnot i = b.getAnnot ((i + k) % b.len)) ∧
      (touch.IsTrue ↔ b.IsTrue) := by
  obtain ⟨n, hn, σs, l, annots, hlen, rfl⟩ := (C26_wellFormed_iff b).1 hb
  have hl : (AnnotBlock.ofPerms σs l annots).len = σs.length := hlen.symm
  have hst : (AnnotBlock.ofPerms σs l annots).stage = ⟨n⟩ := rfl
  rw [hst, Row.rounds_eq_ofPerm n] at h0 h1
  rw [hl] at hk
  rw [AnnotBlock.leftover_ofPerms hn] at h1
  obtain rfl := Row.ofPerm_inj.1 (Except.ok.inj h1)
  rw [AnnotBlock.getRow_ofPerms hn] at h0
  have hkl : k < (σs ++ [(1 : Perm (Fin n))]).length := by rw [List.length_append, List.length_singleton]; omega
  obtain ⟨f, hf⟩ : ∃ f, (σs ++ [1])[k]? = some f := ⟨_, List.getElem?_eq_getElem hkl⟩
  have hfirst : (1 : Perm (Fin n)) = (σs.take k ++ [f]).head (by simp) := by
    have e : σs.take k ++ [f] = (σs ++ [1]).take (k + 1) := by
      rw [List.take_succ, hf, List.take_append_of_le_length hk]
      rfl
    have e2 : (σs.take k ++ [f]).head? = some 1 := by
      rw [e, List.head?_eq_getElem?, List.getElem?_take_of_lt (by omega)]
      obtain ⟨x, e3, e4⟩ := Option.map_eq_some_iff.1 h0
      rw [e3, Row.ofPerm_inj.1 e4]
    rw [List.head?_eq_some_head (by simp)] at e2
    exact (Option.some.inj e2).symm
  have hsecond : f = (σs.drop k ++ [1]).head (by simp) := by
    have e : (σs.drop k ++ [(1 : Perm (Fin n))]).head? = some f := by
      rw [← List.drop_append_of_le_length hk, List.head?_drop, hf]
    rw [List.head?_eq_some_head (by simp)] at e
    exact (Option.some.inj e).symm
  have hempty : (AnnotBlock.empty ⟨n⟩ : Res (AnnotBlock A)) = .ok (.ofPerms ([] : List (Perm (Fin n))) 1 []) := by
    unfold AnnotBlock.empty
    rw [Row.rounds_eq_ofPerm n, SameStageVec.ofRows_fromRowBuf (Row.ofPerm_valid hn 1)]
    simp [AnnotBlock.ofPerms]
  have hring : ringTouch ⟨n⟩ [AnnotBlock.ofPerms (σs.drop k) 1 (annots.drop k),
      AnnotBlock.ofPerms (σs.take k) f (annots.take k)] =
      .ok (.ofPerms ((σs.rotate k).map (f⁻¹ * ·)) 1 (annots.rotate k), .ok ()) := by
    unfold ringTouch
    rw [hempty, Res.ok_bind, List.foldlM_cons]
    unfold touchStep
    simp only
    rw [AnnotBlock.extend_ofPerms hn _ _ _ _ _ _ (by simp [hlen]) f hsecond, Res.ok_bind, List.foldlM_cons]
    simp only
    rw [AnnotBlock.extend_ofPerms hn _ _ _ _ _ _ (by simp [hlen]) 1 hfirst, Res.ok_bind, List.foldlM_nil,
      List.rotate_eq_drop_append_take hk, List.rotate_eq_drop_append_take (hlen ▸ hk), List.map_append]
    simp
  have hlen' : ((σs.rotate k).map (f⁻¹ * ·)).length = (annots.rotate k).length := by simp [hlen]
  refine ⟨_, _, .ofPerm f, _, ?_, ?_, hring, AnnotBlock.ofPerms_wellFormed hn hlen', rfl, ?_, ?_, ?_, ?_⟩
  · rw [AnnotBlock.split_ofPerms hn _ _ _ hlen, if_pos (hlen ▸ hk), hf]
    rfl
  · rw [AnnotBlock.getRow_ofPerms hn, hf]
    rfl
  · rw [hl]
    show (annots.rotate k).length = _
    simp [hlen]
  · rw [AnnotBlock.leftover_ofPerms hn, hst, Row.rounds_eq_ofPerm n]
  · intro i hi
    rw [hl] at hi ⊢
    have hm : (i + k) % σs.length < σs.length := Nat.mod_lt _ (by omega)
    refine ⟨.ofPerm (f⁻¹ * σs[(i + k) % σs.length]), .ofPerm σs[(i + k) % σs.length], ?_, ?_, ?_, ?_⟩
    · rw [AnnotBlock.getRow_ofPerms hn, List.getElem?_append_left (by simpa using hi), List.getElem?_map,
        List.getElem?_rotate hi, List.getElem?_eq_getElem hm]
      rfl
    · rw [AnnotBlock.getRow_ofPerms hn, List.getElem?_append_left hm, List.getElem?_eq_getElem hm]
      rfl
    · rw [Row.mul_ofPerm hn, mul_inv_cancel_left]
    · show (annots.rotate k)[i]? = annots[_]?
      rw [List.getElem?_rotate (by omega), hlen]
  · rw [true_iff_nodup hn _ _ _ hlen', true_iff_nodup hn _ _ _ hlen,
      List.nodup_map_iff (fun x y h => mul_left_cancel h), List.nodup_rotate]

/-- The three rows 123, 213, 231 and the other three, begun with the third row. -/
example := C113_elsewhere (A := Nat) (AnnotBlock.ofPerms [1, swap 0 1, swap 0 1 * swap 1 2, swap 0 2, swap 0 2 * swap 0 1, swap 1 2]
    (1 : Perm (Fin 3)) [0, 1, 2, 3, 4, 5]) (AnnotBlock.ofPerms_wellFormed (by omega) rfl)
  (by rw [AnnotBlock.getRow_ofPerms (by omega)]; exact congrArg some (Row.rounds_eq_ofPerm 3).symm)
  (by rw [AnnotBlock.leftover_ofPerms (by omega)]; exact congrArg Except.ok (Row.rounds_eq_ofPerm 3).symm) 2
  (by decide)

/-- A block rung from another row, of the same stage, is true exactly when it is; it has a row in common with another
block exactly when that one, rung from the same row, has one in common with it. -/
theorem C113_transposed (b c : AnnotBlock A) (hb : b.WellFormed) (hc : c.WellFormed) (hs : b.stage = c.stage)
    (r : Row) (hr : r.Valid) (hrs : r.bells.length = b.stage.numBells) :
    ∃ b' c', b.preMultiply r = .ok (b', .ok ()) ∧ c.preMultiply r = .ok (c', .ok ()) ∧
      (b'.IsTrue ↔ b.IsTrue) ∧ (b'.TrueAgainst c' ↔ b.TrueAgainst c) := by
  obtain ⟨n, hn, σs, l, annots, h1, rfl⟩ := (C26_wellFormed_iff b).1 hb
  obtain ⟨n', hn', τs, l', bnnots, h2, rfl⟩ := (C26_wellFormed_iff c).1 hc
  obtain rfl : n = n' := congrArg Stage.numBells hs
  obtain ⟨k, hk, π, rfl⟩ := Row.valid_iff_exists_perm.1 hr
  obtain rfl : k = n := by rw [Row.ofPerm_length] at hrs; exact hrs
  refine ⟨_, _, AnnotBlock.preMultiply_ofPerms hn _ _ _ _, AnnotBlock.preMultiply_ofPerms hn _ _ _ _, ?_, ?_⟩
  · rw [true_iff_nodup hn _ _ _ (by simpa using h1), true_iff_nodup hn _ _ _ h1,
      List.nodup_map_iff (fun x y h => mul_left_cancel h)]
  · rw [against_iff_disjoint hn _ _ _ _ _ _ (by simpa using h1) (by simpa using h2),
      against_iff_disjoint hn _ _ _ _ _ _ h1 h2, disjoint_mul_iff, List.disjoint_left]
    simp only [inv_mul_cancel, one_mul, exists_eq_right, not_exists, not_and]

example := C113_transposed (A := Nat) (AnnotBlock.ofPerms [1, swap 0 1] (1 : Perm (Fin 3)) [7, 8])
  (AnnotBlock.ofPerms [swap 1 2] (1 : Perm (Fin 3)) [9]) (AnnotBlock.ofPerms_wellFormed (by omega) rfl)
  (AnnotBlock.ofPerms_wellFormed (by omega) rfl) rfl (.ofPerm (swap (0 : Fin 3) 2)) (Row.ofPerm_valid (by omega) _)
  (Row.ofPerm_length _)

end Bellframe.Props
