import Verif.Props.OneCall
import Verif.Props.Truth
import Verif.Props.PnParity

/-! # C105: touches of Plain Bob -/

namespace Bellframe.Props

open Equiv

variable {n : Nat} {A : Type}

/-- A lead of plain hunting with the change `c` at the lead end. -/
def huntLeadChanges (n : Nat) (c : Perm (Fin n)) : List (Perm (Fin n)) :=
  (List.range (2 * n - 1)).map (huntChange n) ++ [c]

theorem length_huntLeadChanges (hn : 0 < n) (c : Perm (Fin n)) : (huntLeadChanges n c).length = 2 * n := by
  simp [huntLeadChanges]
  omega

theorem prod_huntLeadChanges (hn : 0 < n) (c : Perm (Fin n)) :
    (huntLeadChanges n c).prod = huntChange n 1 * c := by
  rw [huntLeadChanges, List.prod_append, List.prod_singleton]
  change huntRow n (2 * n - 1) * c = _
  rw [huntRow_last hn]

/-- The lead heads of the touch with the changes `cs` at the lead ends. -/
def touchHead (cs : List (Perm (Fin n))) (a : Nat) : Perm (Fin n) := ((cs.take a).map (huntChange n 1 * ·)).prod

theorem take_touch (hn : 0 < n) : ∀ (cs : List (Perm (Fin n))) (a t : Nat), a < cs.length → t < 2 * n →
    ((cs.flatMap (huntLeadChanges n)).take (a * (2 * n) + t)).prod = touchHead cs a * huntRow n t
  | [], a, t, h, _ => absurd h (by simp)
  | c :: cs, 0, t, _, ht => by
    rw [Nat.zero_mul, Nat.zero_add, List.flatMap_cons, List.take_append_of_le_length
      (by rw [length_huntLeadChanges hn]; omega), touchHead, List.take_zero, List.map_nil, List.prod_nil, one_mul,
      huntLeadChanges, List.take_append_of_le_length (by simp; omega), take_hunts _ _ (by omega)]
  | c :: cs, a + 1, t, h, ht => by
    have ih := take_touch hn cs a t (by simpa using h) ht
    rw [List.flatMap_cons, show (a + 1) * (2 * n) + t = (huntLeadChanges n c).length + (a * (2 * n) + t) by
      rw [length_huntLeadChanges hn]; ring, List.take_length_add_append, List.prod_append, ih, prod_huntLeadChanges hn,
      touchHead, touchHead, List.take_succ_cons, List.map_cons, List.prod_cons, mul_assoc, mul_assoc, mul_assoc]

theorem length_flatMap_lead (hn : 0 < n) (cs : List (Perm (Fin n))) :
    (cs.flatMap (huntLeadChanges n)).length = cs.length * (2 * n) := by
  induction cs with
  | nil => simp
  | cons c cs ih => rw [List.flatMap_cons, List.length_append, ih, length_huntLeadChanges hn, List.length_cons]; ring

theorem huntChange_one_treble (hn : 0 < n) : huntChange n 1 ⟨0, hn⟩ = ⟨0, hn⟩ := by
  apply Fin.ext
  rw [huntChange_val]
  simp [huntFn]

theorem touchHead_treble (hn : 0 < n) : ∀ (cs : List (Perm (Fin n))) (a : Nat),
    (∀ c ∈ cs, c ⟨0, hn⟩ = ⟨0, hn⟩) → touchHead cs a ⟨0, hn⟩ = ⟨0, hn⟩
  | [], a, _ => by simp [touchHead]
  | _ :: _, 0, _ => by simp [touchHead]
  | c :: cs, a + 1, h => by
    have ih := touchHead_treble hn cs a (fun d hd => h d (by simp [hd]))
    unfold touchHead at ih ⊢
    rw [List.take_succ_cons, List.map_cons, List.prod_cons, Perm.mul_apply, ih, Perm.mul_apply, h c (by simp),
      huntChange_one_treble]

theorem treble_of_mul (hn : 0 < n) (h : Perm (Fin n)) (h0 : h ⟨0, hn⟩ = ⟨0, hn⟩) (t : Nat) :
    (((h * huntRow n t)⁻¹) ⟨0, hn⟩).val = huntPlace n 0 t := by
  rw [mul_inv_rev, Perm.mul_apply, show h⁻¹ ⟨0, hn⟩ = ⟨0, hn⟩ by rw [Perm.inv_eq_iff_eq, h0], huntRow_inv_val]

theorem treble_steps {s t : Nat} (hs : s < 2 * n) (ht : t < 2 * n) (h : huntPlace n 0 s = huntPlace n 0 t) :
    s = t ∨ s = 2 * n - 1 - t := by
  have h0 : wayStart n 0 = 0 := by simp [wayStart]
  unfold huntPlace at h
  rw [h0, Nat.zero_add, Nat.zero_add, Nat.mod_eq_of_lt hs, Nat.mod_eq_of_lt ht] at h
  unfold wayPlace at h
  split at h <;> split at h <;> omega

/-- Rows of one lead and of another (or the same) one: if the first is a row of the second lead, so is its lead head,
and it is the lead head or the lead end there. -/
theorem same_row (hn : 0 < n) (g h : Perm (Fin n)) (hg : g ⟨0, hn⟩ = ⟨0, hn⟩) (hh : h ⟨0, hn⟩ = ⟨0, hn⟩) {s t : Nat}
    (hs : s < 2 * n) (ht : t < 2 * n) (e : g * huntRow n s = h * huntRow n t) :
    (s = t ∧ g = h) ∨ g = h * huntChange n 1 := by
  have h1 := treble_of_mul hn g hg s
  rw [e, treble_of_mul hn h hh t] at h1
  rcases treble_steps hs ht h1.symm with rfl | rfl
  · exact .inl ⟨rfl, mul_right_cancel e⟩
  · right
    rw [huntRow_back t ht, ← mul_assoc] at e
    have e2 := mul_right_cancel e
    rw [← e2, mul_assoc, huntChange_mul_self, mul_one]

theorem touch_rings (hn : 0 < n) (cs : List (Perm (Fin n))) (annots : List A) (hl : annots.length = cs.length * (2 * n))
    (q : Nat) (r : Row) :
    (AnnotBlock.rung (cs.flatMap (huntLeadChanges n)) annots).Rings q r ↔
      q < cs.length * (2 * n) ∧ r = .ofPerm (touchHead cs (q / (2 * n)) * huntRow n (q % (2 * n))) := by
  unfold AnnotBlock.rung
  rw [rings_iff hn _ _ _ (by simp [length_flatMap_lead hn, hl]), length_flatMap_lead hn]
  have key : q < cs.length * (2 * n) →
      ((cs.flatMap (huntLeadChanges n)).take q).prod = touchHead cs (q / (2 * n)) * huntRow n (q % (2 * n)) := by
    intro hq
    have := take_touch hn cs (q / (2 * n)) (q % (2 * n)) (Nat.div_lt_of_lt_mul (by rwa [Nat.mul_comm]))
      (Nat.mod_lt _ (by omega))
    rwa [show q / (2 * n) * (2 * n) + q % (2 * n) = q by rw [Nat.mul_comm]; exact Nat.div_add_mod q (2 * n)] at this
  constructor
  · rintro ⟨σ, h1, rfl⟩
    have hq : q < cs.length * (2 * n) := by
      have := (List.getElem?_eq_some_iff.1 h1).1
      simpa using this
    rw [List.getElem?_map, List.getElem?_range hq] at h1
    rw [← key hq]
    exact ⟨hq, by rw [← Option.some.inj h1]⟩
  · rintro ⟨hq, rfl⟩
    exact ⟨_, by rw [List.getElem?_map, List.getElem?_range hq, Option.map_some, key hq], rfl⟩

theorem placeOf_of_inv (σ : Perm (Fin n)) (hn : 0 < n) (p : Nat) (h : (σ⁻¹ ⟨0, hn⟩).val = p) :
    (Row.ofPerm σ).placeOf ⟨0⟩ = some p := by
  rw [placeOf_ofPerm σ ⟨0, hn⟩, ← h]

theorem touch_true (hn : 0 < n) (cs : List (Perm (Fin n))) (hc : ∀ c ∈ cs, c ⟨0, hn⟩ = ⟨0, hn⟩) (annots : List A)
    (hl : annots.length = cs.length * (2 * n)) :
    let touch := AnnotBlock.rung (cs.flatMap (huntLeadChanges n)) annots
    (∀ i r, touch.Rings i r → r.placeOf ⟨0⟩ = some (huntPlace n 0 i)) ∧
    (touch.IsTrue ↔ ∀ i j r, touch.Rings i r → touch.Rings j r → r.placeOf ⟨0⟩ = some 0 → i = j) := by
  intro touch
  have hr := touch_rings hn cs annots hl
  have hplace : ∀ i r, touch.Rings i r → r.placeOf ⟨0⟩ = some (huntPlace n 0 i) := by
    intro i r hi
    obtain ⟨hi, rfl⟩ := (hr i r).1 hi
    refine placeOf_of_inv _ hn _ ?_
    rw [treble_of_mul hn _ (touchHead_treble hn cs _ hc)]
    unfold huntPlace
    rw [Nat.add_mod_mod]
  refine ⟨hplace, fun H i j r h1 h2 _ => H i j r h1 h2, ?_⟩
  intro H i j r h1 h2
  obtain ⟨hi, e1⟩ := (hr i r).1 h1
  obtain ⟨hj, e2⟩ := (hr j r).1 h2
  rw [e1, Row.ofPerm_inj] at e2
  have hg := touchHead_treble hn cs (i / (2 * n)) hc
  have hh := touchHead_treble hn cs (j / (2 * n)) hc
  have h2n : 0 < 2 * n := by omega
  have lead : ∀ q < cs.length * (2 * n), touch.Rings (q / (2 * n) * (2 * n)) (.ofPerm (touchHead cs (q / (2 * n)))) := by
    intro q hq
    refine (hr _ _).2 ⟨lt_of_le_of_lt (Nat.div_mul_le_self q (2 * n)) hq, ?_⟩
    rw [Nat.mul_div_cancel _ h2n, Nat.mul_mod_left, huntRow_zero, mul_one]
  have lead0 : ∀ a, (Row.ofPerm (touchHead cs a)).placeOf ⟨0⟩ = some 0 := by
    intro a
    refine placeOf_of_inv _ hn _ ?_
    rw [Perm.inv_eq_iff_eq.2 (touchHead_treble hn cs a hc).symm]
  have hdi := Nat.div_add_mod i (2 * n)
  have hdj := Nat.div_add_mod j (2 * n)
  rcases same_row hn _ _ hg hh (Nat.mod_lt i h2n) (Nat.mod_lt j h2n) e2 with ⟨hst, hgh⟩ | hgh
  · have e3 := lead i hi
    have e4 := lead j hj
    rw [← hgh] at e4
    have := H _ _ _ e3 e4 (lead0 _)
    have := Nat.eq_of_mul_eq_mul_right h2n this
    rw [← hdi, ← hdj, this, hst]
  · exfalso
    have e3 := lead i hi
    have e4 : touch.Rings (j / (2 * n) * (2 * n) + (2 * n - 1)) (.ofPerm (touchHead cs (i / (2 * n)))) := by
      have hlt : j / (2 * n) < cs.length := Nat.div_lt_of_lt_mul (by rwa [Nat.mul_comm])
      refine (hr _ _).2 ⟨?_, ?_⟩
      · have : (j / (2 * n) + 1) * (2 * n) ≤ cs.length * (2 * n) := Nat.mul_le_mul_right _ hlt
        rw [Nat.add_mul] at this
        omega
      · rw [Nat.add_comm, Nat.add_mul_div_right _ _ h2n, Nat.add_mul_mod_self_right,
          Nat.div_eq_of_lt (show 2 * n - 1 < 2 * n by omega), Nat.zero_add,
          Nat.mod_eq_of_lt (show 2 * n - 1 < 2 * n by omega), huntRow_last hn, hgh]
    have := H _ _ _ e3 e4 (lead0 _)
    have := congrArg (· % (2 * n)) this
    simp only [Nat.mul_mod_left] at this
    rw [Nat.add_comm, Nat.add_mul_mod_self_right, Nat.mod_eq_of_lt (by omega)] at this
    omega

/-! ## Touches of even rows -/

theorem sign_touchHead (h1 : Perm.sign (huntChange n 1) = 1) : ∀ (cs : List (Perm (Fin n))) (a : Nat),
    (∀ c ∈ cs, Perm.sign c = 1) → Perm.sign (touchHead cs a) = 1
  | [], a, _ => by simp [touchHead]
  | _ :: _, 0, _ => by simp [touchHead]
  | c :: cs, a + 1, h => by
    have ih := sign_touchHead h1 cs a (fun d hd => h d (by simp [hd]))
    unfold touchHead at ih ⊢
    rw [List.take_succ_cons, List.map_cons, List.prod_cons, Perm.sign_mul, ih, Perm.sign_mul, h1, h c (by simp)]
    rfl

theorem touch_half (h3 : 3 ≤ n) (cs : List (Perm (Fin n))) (hc : ∀ c ∈ cs, c ⟨0, by omega⟩ = ⟨0, by omega⟩)
    (annots : List A) (hl : annots.length = cs.length * (2 * n)) (h1 : Perm.sign (huntChange n 1) = 1)
    (hs : ∀ c ∈ cs, Perm.sign c = 1)
    (ht : (AnnotBlock.rung (cs.flatMap (huntLeadChanges n)) annots).IsTrue) :
    2 * (cs.length * (2 * n)) ≤ n.factorial := by
  have hn : 0 < n := by omega
  let u : Perm (Fin n) := swap ⟨1, by omega⟩ ⟨2, by omega⟩
  have hu0 : u ⟨0, hn⟩ = ⟨0, hn⟩ := swap_apply_of_ne_of_ne (by simp) (by simp)
  have hu : Perm.sign u = -1 := Perm.sign_swap (by simp)
  unfold AnnotBlock.rung at ht
  rw [true_iff_nodup hn _ _ _ (by simp [length_flatMap_lead hn, hl])] at ht
  generalize hR : (List.range (cs.flatMap (huntLeadChanges n)).length).map
    (fun t => ((cs.flatMap (huntLeadChanges n)).take t).prod) = R at ht
  have hRl : R.length = cs.length * (2 * n) := by rw [← hR]; simp [length_flatMap_lead hn]
  have hRm : ∀ σ ∈ R, ∃ a t, t < 2 * n ∧ σ = touchHead cs a * huntRow n t := by
    intro σ hσ
    rw [← hR, List.mem_map] at hσ
    obtain ⟨q, hq, rfl⟩ := hσ
    rw [List.mem_range, length_flatMap_lead hn] at hq
    have := take_touch hn cs (q / (2 * n)) (q % (2 * n)) (Nat.div_lt_of_lt_mul (by rwa [Nat.mul_comm]))
      (Nat.mod_lt _ (by omega))
    rw [show q / (2 * n) * (2 * n) + q % (2 * n) = q by rw [Nat.mul_comm]; exact Nat.div_add_mod q (2 * n)] at this
    exact ⟨_, _, Nat.mod_lt _ (by omega), this⟩
  have hdis : R.Disjoint (R.map (u * ·)) := by
    intro σ h2 h3
    obtain ⟨σ', h4, e⟩ := List.mem_map.1 h3
    obtain ⟨a, s, hs1, rfl⟩ := hRm σ h2
    obtain ⟨b, t, ht1, rfl⟩ := hRm σ' h4
    simp only [← mul_assoc] at e
    have hb := touchHead_treble hn cs b hc
    have hsa := sign_touchHead h1 cs a hs
    have hsb := sign_touchHead h1 cs b hs
    rcases same_row hn _ _ (touchHead_treble hn cs a hc)
      (show (u * touchHead cs b) ⟨0, hn⟩ = ⟨0, hn⟩ by rw [Perm.mul_apply, hb, hu0]) hs1 ht1 e.symm with ⟨-, h5⟩ | h5
    · have := congrArg Perm.sign h5
      rw [Perm.sign_mul, hsa, hsb, hu] at this
      exact absurd this (by decide)
    · have := congrArg Perm.sign h5
      rw [Perm.sign_mul, Perm.sign_mul, hsa, hsb, hu, h1] at this
      exact absurd this (by decide)
  have hnd : (R ++ R.map (u * ·)).Nodup :=
    List.nodup_append'.2 ⟨ht, (nodup_map_mul u R).2 ht, hdis⟩
  have := hnd.length_le_card
  rw [Fintype.card_perm, Fintype.card_fin, List.length_append, List.length_map, hRl] at this
  omega

theorem sign_of_places (hn : 0 < n) (τ : Perm (Fin n)) (hc : IsChange τ) (L : List Nat) (hs : L.Pairwise (· < ·))
    (hlt : ∀ p ∈ L, p < n) (h : ∀ x : Fin n, τ x = x ↔ x.val ∈ L) (hl : L.length = 2) (h4 : n % 4 = 2) :
    Perm.sign τ = 1 := by
  rw [sign_swapsPairs hn hc (k := 2 * (n / 4)), pow_mul]
  · simp
  · rw [ofChange_places τ L hs hlt h]
    unfold PlaceNot.SwapsPairs
    simp only [hl]
    omega

theorem sign_huntChange (h4 : n % 4 = 2) : Perm.sign (huntChange n 1) = 1 := by
  refine sign_of_places (by omega) _ (huntChange_isChange 1) [0, n - 1] (by simp; omega) (by simp; omega) ?_ rfl h4
  intro x
  have := x.isLt
  rw [Fin.ext_iff, huntChange_val]
  simp only [List.mem_cons, List.not_mem_nil, or_false]
  unfold huntFn
  repeat' split
  all_goals omega

theorem sign_bobChange (h4 : n % 4 = 2) : Perm.sign (bobChange n) = 1 := by
  refine sign_of_places (by omega) _ bobChange_isChange [0, 1] (by simp) (by simp; omega) ?_ rfl h4
  intro x
  have := x.isLt
  rw [Fin.ext_iff, bobChange_val]
  simp only [List.mem_cons, List.not_mem_nil, or_false]
  unfold bobFn huntFn
  repeat' split
  all_goals omega

theorem sign_bobCall (hn : 4 ≤ n) (h4 : n % 4 = 2) : Perm.sign (bobCall hn) = 1 := by
  refine sign_of_places (by omega) _ (bobCall_isChange hn) [0, 3] (by simp) (by simp; omega) ?_ rfl h4
  intro x
  have := x.isLt
  rw [Fin.ext_iff, bobCall_val]
  simp only [List.mem_cons, List.not_mem_nil, or_false]
  unfold bobCallFn huntFn
  repeat' split
  all_goals omega

/-! ## C105 -/

theorem exists_pairs {X Y : Type} (f : X → Y) (P : X → Prop) : ∀ l : List Y, (∀ y ∈ l, ∃ x, P x ∧ y = f x) →
    ∃ xs : List X, l = xs.map f ∧ ∀ x ∈ xs, P x
  | [], _ => ⟨[], rfl, by simp⟩
  | y :: l, h => by
    obtain ⟨x, hx, rfl⟩ := h y (by simp)
    obtain ⟨xs, rfl, hxs⟩ := exists_pairs f P l (fun z hz => h z (by simp [hz]))
    exact ⟨x :: xs, rfl, by simpa using ⟨hx, hxs⟩⟩

theorem touch_of_leads (hn : 0 < n) (leads : List (AnnotBlock A)) (P : Perm (Fin n) → Prop)
    (h : ∀ y ∈ leads, ∃ x : Perm (Fin n) × List A, (P x.1 ∧ x.2.length = 2 * n) ∧ y = .rung (huntLeadChanges n x.1) x.2) :
    ∃ (cs : List (Perm (Fin n))) (annots : List A), (∀ c ∈ cs, P c) ∧ annots.length = cs.length * (2 * n) ∧ cs.length = leads.length ∧
      ringTouch ⟨n⟩ leads = .ok (.rung (cs.flatMap (huntLeadChanges n)) annots, .ok ()) := by
  obtain ⟨xs, rfl, hxs⟩ := exists_pairs _ _ leads h
  obtain ⟨touch, h1, h2, -, -⟩ := C97_touch hn (xs.map fun x => (huntLeadChanges n x.1, x.2)) (by
    intro y hy
    obtain ⟨x, hx, rfl⟩ := List.mem_map.1 hy
    rw [(hxs x hx).2]
    exact length_huntLeadChanges hn x.1)
  rw [List.map_map] at h1
  refine ⟨xs.map (·.1), xs.flatMap (·.2), ?_, ?_, by simp, ?_⟩
  · intro c hc
    obtain ⟨x, hx, rfl⟩ := List.mem_map.1 hc
    exact (hxs x hx).1
  · clear h1 h2 h
    induction xs with
    | nil => simp
    | cons x xs ih =>
      rw [List.flatMap_cons, List.length_append, ih (fun y hy => hxs y (by simp [hy])), (hxs x (by simp)).2]
      simp only [List.map_cons, List.length_cons]
      ring
  · rw [show (fun x : Perm (Fin n) × List A => AnnotBlock.rung (huntLeadChanges n x.1) x.2) =
      ((fun x : List (Perm (Fin n)) × List A => AnnotBlock.rung x.1 x.2) ∘ fun x => (huntLeadChanges n x.1, x.2)) from rfl,
      h1, h2, List.flatMap_map, List.flatMap_map, List.flatMap_map]

/-- Touches of Plain Bob with bobs and singles, at any lead ends, on every stage.  In all of them the treble plain
hunts.  They are true if and only if no row comes twice in which the treble leads: only lead heads and lead ends have
to be compared.  On six, ten, fourteen (and so on) bells no true touch without singles is longer than half of the
extent. -/
theorem C105_plain_bob (name : String) (h4 : 4 ≤ n) (h22 : n ≤ 22) :
    ∃ pn bobPn singlePn m bob single i j bobbed singled,
      PnBlock.parse (plainBobText n) ⟨n⟩ = .ok (.ok pn) ∧ PnBlock.parse (bobText n) ⟨n⟩ = .ok (.ok bobPn) ∧
      PnBlock.parse (singleText n) ⟨n⟩ = .ok (.ok singlePn) ∧ (Method.withLeadEnd name pn).Returns m ∧
      Call.leBob bobPn = .ok bob ∧ Call.leSingle singlePn = .ok single ∧
      m.labelIndices bob.location = [i] ∧ m.labelIndices single.location = [j] ∧
      spliceCall m.firstLead (bob.block.mapAnnots fun _ => none) i bob.coverLen = .ok (some (bobbed, .ok ())) ∧
      spliceCall m.firstLead (single.block.mapAnnots fun _ => none) j single.coverLen =
        .ok (some (singled, .ok ())) ∧
      ∀ leads, (∀ x ∈ leads, x ∈ [m.firstLead, bobbed, singled]) →
        ∃ touch, ringTouch ⟨n⟩ leads = .ok (touch, .ok ()) ∧ touch.len = leads.length * (2 * n) ∧
          (∀ i r, touch.Rings i r → r.placeOf ⟨0⟩ = some (huntPlace n 0 i)) ∧
          (touch.IsTrue ↔ ∀ i j r, touch.Rings i r → touch.Rings j r → r.placeOf ⟨0⟩ = some 0 → i = j) ∧
          (n % 4 = 2 → (∀ x ∈ leads, x ∈ [m.firstLead, bobbed]) → touch.IsTrue →
            2 * touch.len ≤ n.factorial) := by
  have hn : 0 < n := by omega
  have hc : ∀ σ ∈ (List.range (2 * n - 1)).map (huntChange n) ++ [bobChange n], IsChange σ := by
    intro σ hσ
    simp only [List.mem_append, List.mem_map, List.mem_singleton] at hσ
    rcases hσ with ⟨i, -, rfl⟩ | rfl
    · exact huntChange_isChange i
    · exact bobChange_isChange
  obtain ⟨m, bob, s0, h1, h2, -, h3⟩ := C97_called_lead name hn h22 ((List.range (2 * n - 1)).map (huntChange n))
    (bobChange n) (bobCall h4) hc (bobCall_isChange h4)
  obtain ⟨m', b0, single, h1', -, h2', h3'⟩ := C97_called_lead name hn h22
    ((List.range (2 * n - 1)).map (huntChange n)) (bobChange n) (singleCall n) hc singleCall_isChange
  obtain rfl : m = m' := run_returns_unique h1 h1'
  obtain ⟨i, bobbed, e1, e2, e3, -⟩ := h3 bob (by simp)
  obtain ⟨j, singled, f1, f2, f3, -⟩ := h3' single (by simp)
  obtain ⟨m', h1'', ⟨lead, l, g5, g6, -⟩, -⟩ := (C49_with_lead_end name hn _ (by simp) hc).1 h22
  obtain rfl : m = m' := run_returns_unique h1 h1''
  rw [rung_of_follows g5] at g6
  have hlen : ∀ c : Perm (Fin n), ((List.range (2 * n - 1)).map (huntChange n) ++ [c]).length = 2 * n :=
    length_huntLeadChanges hn
  have hrange : ((List.range (2 * n - 1)).map (huntChange n)).length + 1 = 2 * n := by simp; omega
  have plain : m.firstLead = .rung (huntLeadChanges n (bobChange n)) (List.replicate (2 * n - 1) none ++ [some "LE"]) := by
    rw [g6, hlen]
    rfl
  rw [hrange] at e3 f3
  refine ⟨_, _, _, m, bob, single, i, j, bobbed, singled, parse_plainBob h4 (by omega),
    parse_call hn (by omega) _ (bobCall_isChange h4) _ (display_bobCall h4 (by omega)),
    parse_call hn (by omega) _ singleCall_isChange _ (display_singleCall h4 (by omega)), h1, h2, h2', e1, f1, e2, f2, ?_⟩
  have t1 : bobChange n ⟨0, hn⟩ = ⟨0, hn⟩ := Fin.ext (by rw [bobChange_val]; simp [bobFn])
  have t2 : bobCall h4 ⟨0, hn⟩ = ⟨0, hn⟩ := Fin.ext (by rw [bobCall_val]; simp [bobCallFn])
  have t3 : singleCall n ⟨0, hn⟩ = ⟨0, hn⟩ := Fin.ext (by rw [singleCall_val]; simp [singleCallFn])
  intro leads hleads
  obtain ⟨cs, annots, k1, k2, k3, k4⟩ := touch_of_leads hn leads (fun c => c ⟨0, hn⟩ = ⟨0, hn⟩) (by
    intro y hy
    have := hleads y hy
    simp only [List.mem_cons, List.not_mem_nil, or_false] at this
    rcases this with rfl | rfl | rfl
    · exact ⟨(_, _), ⟨t1, by simp; omega⟩, plain⟩
    · exact ⟨(_, _), ⟨t2, by simp⟩, e3⟩
    · exact ⟨(_, _), ⟨t3, by simp⟩, f3⟩)
  have hl : (AnnotBlock.rung (cs.flatMap (huntLeadChanges n)) annots).len = leads.length * (2 * n) := by
    rw [← k3, ← k2]
    rfl
  obtain ⟨r1, r2⟩ := touch_true hn cs k1 annots k2
  refine ⟨_, k4, hl, r1, r2, ?_⟩
  intro hmod hno htrue
  obtain ⟨ds, annots', d1, d2, d3, d4⟩ := touch_of_leads hn leads
    (fun c => c ⟨0, hn⟩ = ⟨0, hn⟩ ∧ Perm.sign c = 1) (by
    intro y hy
    have := hno y hy
    simp only [List.mem_cons, List.not_mem_nil, or_false] at this
    rcases this with rfl | rfl
    · exact ⟨(_, _), ⟨⟨t1, sign_bobChange hmod⟩, by simp; omega⟩, plain⟩
    · exact ⟨(_, _), ⟨⟨t2, sign_bobCall h4 hmod⟩, by simp⟩, e3⟩)
  have heq := k4.symm.trans d4
  simp only [Except.ok.injEq, Prod.mk.injEq, and_true] at heq
  rw [heq] at htrue
  have := touch_half (by omega) ds (fun c hc => (d1 c hc).1) annots' d2 (sign_huntChange hmod)
    (fun c hc => (d1 c hc).2) htrue
  rw [hl]
  rwa [d3] at this

theorem touch_true_of_heads (hn : 0 < n) (cs : List (Perm (Fin n))) (hc : ∀ c ∈ cs, c ⟨0, hn⟩ = ⟨0, hn⟩)
    (annots : List A) (hl : annots.length = cs.length * (2 * n))
    (h : ((List.range cs.length).flatMap fun a => [touchHead cs a, touchHead cs a * huntChange n 1]).Nodup) :
    (AnnotBlock.rung (cs.flatMap (huntLeadChanges n)) annots).IsTrue := by
  rw [List.nodup_flatMap, List.pairwise_iff_getElem] at h
  obtain ⟨h1, h2⟩ := h
  simp only [List.getElem_range, List.length_range] at h2
  have h2' : ∀ a b, a < cs.length → b < cs.length → a ≠ b → List.Disjoint
      [touchHead cs a, touchHead cs a * huntChange n 1] [touchHead cs b, touchHead cs b * huntChange n 1] := by
    intro a b ha hb hab
    rcases lt_or_gt_of_ne hab with hab | hab
    · exact h2 a b ha hb hab
    · exact (h2 b a hb ha hab).symm
  refine (touch_true hn cs hc annots hl).2.2 ?_
  have hr := touch_rings hn cs annots hl
  intro i j r hi hj hp
  have h2n : 0 < 2 * n := by omega
  have key : ∀ q, (AnnotBlock.rung (cs.flatMap (huntLeadChanges n)) annots).Rings q r →
      q / (2 * n) < cs.length ∧
      ((q % (2 * n) = 0 ∧ r = .ofPerm (touchHead cs (q / (2 * n)))) ∨
        (q % (2 * n) = 2 * n - 1 ∧ r = .ofPerm (touchHead cs (q / (2 * n)) * huntChange n 1))) := by
    intro q hq
    have hpl := (touch_true hn cs hc annots hl).1 q r hq
    obtain ⟨hq, e⟩ := (hr q r).1 hq
    refine ⟨Nat.div_lt_of_lt_mul (by rwa [Nat.mul_comm]), ?_⟩
    rw [hp] at hpl
    have hpl := Option.some.inj hpl
    unfold huntPlace at hpl
    have hm := Nat.mod_lt q h2n
    generalize hqm : q % (2 * n) = t at *
    rcases Nat.eq_zero_or_pos t with rfl | ht
    · left
      rw [huntRow_zero, mul_one] at e
      exact ⟨rfl, e⟩
    · right
      have : t = 2 * n - 1 := by
        revert hpl
        simp only [show wayStart n 0 = 0 by simp [wayStart], Nat.zero_add, hqm, wayPlace]
        repeat' split
        all_goals omega
      subst this
      rw [huntRow_last hn] at e
      exact ⟨rfl, e⟩
  obtain ⟨hi1, hi2⟩ := key i hi
  obtain ⟨hj1, hj2⟩ := key j hj
  by_cases hab : i / (2 * n) = j / (2 * n)
  · have hdi := Nat.div_add_mod i (2 * n)
    have hdj := Nat.div_add_mod j (2 * n)
    have hne : touchHead cs (j / (2 * n)) ≠ touchHead cs (j / (2 * n)) * huntChange n 1 := by
      have := h1 (j / (2 * n)) (List.mem_range.2 hj1)
      simpa using this
    rw [hab] at hi2 hdi
    rcases hi2 with ⟨a1, rfl⟩ | ⟨a1, rfl⟩ <;> rcases hj2 with ⟨b1, e⟩ | ⟨b1, e⟩
    · omega
    · exact absurd (Row.ofPerm_inj.1 e) hne
    · exact absurd (Row.ofPerm_inj.1 e).symm hne
    · omega
  · exfalso
    have := h2' _ _ hi1 hj1 hab
    simp only [List.disjoint_cons_left, List.mem_cons, List.not_mem_nil, or_false, not_or] at this
    obtain ⟨⟨c1, c2⟩, ⟨c3, c4⟩, -⟩ := this
    rcases hi2 with ⟨-, rfl⟩ | ⟨-, rfl⟩ <;> rcases hj2 with ⟨-, e⟩ | ⟨-, e⟩ <;> have e := Row.ofPerm_inj.1 e <;> tauto

/-- Half of the extent of Minor: thirty leads of Plain Bob with bobs and no singles, and no row comes twice.  The bound
of `C105_plain_bob` cannot be improved. -/
example : let P := bobChange 6; let B := bobCall (n := 6) (by omega)
    let cs := (List.replicate 3 [P, P, P, P, B, P, P, P, B, B]).flatten
    (AnnotBlock.rung (cs.flatMap (huntLeadChanges 6)) (List.replicate 360 ())).IsTrue ∧
    2 * (AnnotBlock.rung (cs.flatMap (huntLeadChanges 6)) (List.replicate 360 ())).len = Nat.factorial 6 := by
  refine ⟨touch_true_of_heads (by omega) _ ?_ _ ?_ ?_, ?_⟩
  all_goals decide +kernel

/-- The theorem is about the texts by which ringers know Plain Bob Minor and its calls. -/
example : plainBobText 6 = "-.16.-.16.-.16,12".toList ∧ bobText 6 = "14".toList ∧ singleText 6 = "1234".toList := by
  decide +kernel

end Bellframe.Props
