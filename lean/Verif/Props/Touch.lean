import Verif.Spec.Touch
import Verif.Props.Call
import Verif.Props.PlainHunt

/-! # C97: calls put into leads, and touches -/

namespace Bellframe.Props

open Equiv

variable {n : Nat} {A : Type}

theorem rung_rows (τs : List (Perm (Fin n))) :
    ((List.range τs.length).map fun t => (τs.take t).prod) ++ [τs.prod] =
      (List.range (τs.length + 1)).map fun t => (τs.take t).prod := by
  rw [List.range_succ, List.map_append]
  simp

theorem rung_of_follows {τs lead : List (Perm (Fin n))} {τ : Perm (Fin n)}
    (h : Follows 1 τs (lead ++ [τ])) (annots : List A) :
    AnnotBlock.ofPerms lead τ annots = .rung τs annots := by
  unfold AnnotBlock.ofPerms AnnotBlock.rung AnnotBlock.ofPerms
  rw [rung_rows, follows_unique h (follows_of_prod τs)]

/-- The block made from place notation is the block rung by its changes; so is the block of a call at the
lead end. -/
theorem C97_rung (dflt : A) (hn : 0 < n) (τs : List (Perm (Fin n))) (hne : τs ≠ [])
    (hc : ∀ τ ∈ τs, IsChange τ) :
    PnBlock.toBlockFromRounds dflt ⟨τs.map PlaceNot.ofChange⟩ =
      .ok (.rung τs (List.replicate τs.length dflt)) := by
  obtain ⟨-, -, ⟨lead, τ, h1, h2⟩, -⟩ := C36_rows dflt hn 1 τs hne hc
  rw [h2, rung_of_follows h1]

example := C97_rung (A := Nat) (n := 4) 0 (by decide) [swap 0 1 * swap 2 3, swap 1 2] (by decide) (by decide)

/-- One block after another rings the changes of both. -/
theorem C97_join (hn : 0 < n) (τs υs : List (Perm (Fin n))) (annots bnnots : List A)
    (h : υs.length = bnnots.length) :
    (AnnotBlock.rung τs annots).extend (.rung υs bnnots) =
      .ok (.rung (τs ++ υs) (annots ++ bnnots), .ok ()) := by
  unfold AnnotBlock.rung
  rw [C27_extend_from_rounds hn _ _ _ _ _ _ (by simpa using h)
    (by rw [rung_rows, List.range_succ_eq_map]; simp)]
  rw [List.prod_append, List.length_append, List.range_add, List.map_append, List.map_map, List.map_map]
  congr 4
  · apply List.map_congr_left
    intro t ht
    rw [List.mem_range] at ht
    rw [List.take_append_of_le_length (by omega)]
  · apply List.map_congr_left
    intro t _
    simp [List.take_append, List.take_of_length_le]

example := C97_join (A := Nat) (n := 4) (by decide) [swap 0 1 * swap 2 3, swap 1 2] [swap 2 3] [7, 8] [9] rfl

/-- A call may be put anywhere into a lead: the result rings the changes before the call, the changes of
the call, and the changes after what the call covers. -/
theorem C97_splice (hn : 0 < n) (τs υs : List (Perm (Fin n))) (annots bnnots : List A)
    (h1 : τs.length = annots.length) (h2 : υs.length = bnnots.length) (start covers : Nat) :
    (start + covers ≤ τs.length →
      spliceCall (.rung τs annots) (.rung υs bnnots) start covers =
        .ok (some (.rung (τs.take start ++ υs ++ τs.drop (start + covers))
          (annots.take start ++ bnnots ++ annots.drop (start + covers)), .ok ()))) ∧
    (τs.length < start + covers →
      spliceCall (.rung τs annots) (.rung υs bnnots) start covers = .ok none) := by
  have hl : ((List.range τs.length).map fun t => (τs.take t).prod).length = annots.length := by
    simpa using h1
  constructor
  · intro hle
    obtain ⟨a, b, meet, e1, e2, e3, -⟩ := (C28_split hn _ τs.prod annots hl start).1 (by omega)
    obtain ⟨a', b', meet', f1, -, -, f4, -⟩ :=
      (C28_split hn _ τs.prod annots hl (start + covers)).1 (by omega)
    have ha : a = .rung (τs.take start) (annots.take start) := by
      rw [rung_rows, List.getElem?_map, List.getElem?_range (by omega)] at e2
      rw [e3, ← Option.some.inj e2]
      unfold AnnotBlock.rung
      rw [← List.map_take, List.take_range, List.length_take]
      congr 1
      apply List.map_congr_left
      intro t ht
      rw [List.mem_range] at ht
      rw [List.take_take, Nat.min_eq_left (by omega)]
    have hext : ∀ b0 : AnnotBlock A, b0 = .rung (τs.take start ++ υs) (annots.take start ++ bnnots) →
        b0.extend b' = .ok (.rung (τs.take start ++ υs ++ τs.drop (start + covers))
          (annots.take start ++ bnnots ++ annots.drop (start + covers)), .ok ()) := by
      rintro b0 rfl
      rw [← C97_join hn _ _ _ _ (by simp [h1])]
      rw [f4]
      have hfirst : ((((List.range τs.length).map fun t => (τs.take t).prod).drop (start + covers)) ++
          [τs.prod]).head? = some (τs.take (start + covers)).prod := by
        rw [← List.drop_append_of_le_length (by rw [hl]; omega), rung_rows, List.head?_drop,
          List.getElem?_map, List.getElem?_range (by omega)]
        rfl
      obtain ⟨t, g1, g2⟩ := C27_extend hn
        ((List.range (τs.take start ++ υs).length).map fun t => ((τs.take start ++ υs).take t).prod)
        (((List.range τs.length).map fun t => (τs.take t).prod).drop (start + covers))
        (τs.take start ++ υs).prod τs.prod _ (annots.take start ++ bnnots)
        (annots.drop (start + covers)) (by simp [h1]) hfirst
      have g3 := C27_extend_from_rounds hn
        ((List.range (τs.take start ++ υs).length).map fun t => ((τs.take start ++ υs).take t).prod)
        ((List.range (τs.drop (start + covers)).length).map
          fun t => ((τs.drop (start + covers)).take t).prod)
        (τs.take start ++ υs).prod (τs.drop (start + covers)).prod (annots.take start ++ bnnots)
        (annots.drop (start + covers)) (by simp [h1])
        (by rw [rung_rows, List.range_succ_eq_map]; simp)
      unfold AnnotBlock.rung
      rw [g2, g3, ← g1]
      have hsplit : ∀ k, (τs.take (start + covers + k)).prod =
          (τs.take (start + covers)).prod * ((τs.drop (start + covers)).take k).prod := by
        intro k
        rw [List.take_add, List.prod_append]
      refine congrArg Except.ok (congrArg (·, _) (congrArg₂ (fun x y => AnnotBlock.ofPerms x y _) ?_ ?_))
      · refine congrArg _ ?_
        apply List.ext_getElem?
        intro k
        simp only [List.getElem?_map, List.getElem?_drop, List.length_drop]
        by_cases hk : start + covers + k < τs.length
        · rw [List.getElem?_range hk, List.getElem?_range (by omega)]
          simp only [Option.map_some, hsplit, mul_assoc]
        · rw [List.getElem?_eq_none (by simpa using hk), List.getElem?_eq_none (by simp; omega)]
          rfl
      · rw [mul_assoc, ← List.prod_append, List.take_append_drop]
    unfold spliceCall
    rw [show (AnnotBlock.rung τs annots).split start = _ from e1,
      show (AnnotBlock.rung τs annots).split (start + covers) = _ from f1]
    simp only [Res.ok_bind]
    rw [ha, C97_join hn _ _ _ _ h2]
    simp only [Res.ok_bind]
    rw [hext _ rfl]
    rfl
  · intro hlt
    have f1 := (C28_split hn _ τs.prod annots hl (start + covers)).2 (by omega)
    unfold spliceCall
    rw [show (AnnotBlock.rung τs annots).split (start + covers) = _ from f1]
    by_cases hs : start ≤ annots.length
    · obtain ⟨a, b, meet, e1, -⟩ := (C28_split hn _ τs.prod annots hl start).1 hs
      rw [show (AnnotBlock.rung τs annots).split start = _ from e1]
      rfl
    · have e1 := (C28_split hn _ τs.prod annots hl start).2 (by omega)
      rw [show (AnnotBlock.rung τs annots).split start = _ from e1]
      rfl

example := C97_splice (A := Nat) (n := 4) (by decide) [swap 0 1 * swap 2 3, swap 1 2] [swap 2 3] [7, 8] [9] rfl rfl 1 1

/-- The lead of a method with a bob or single of one change at the label of the lead end: the last change of
the lead is replaced, so the lead head is the row of the lead end, changed by the call. -/
theorem C97_called_lead (name : String) (hn : 0 < n) (h22 : n ≤ 22) (τs : List (Perm (Fin n)))
    (τ υ : Perm (Fin n)) (hc : ∀ σ ∈ τs ++ [τ], IsChange σ) (hu : IsChange υ) :
    ∃ m bob single, (Method.withLeadEnd name ⟨(τs ++ [τ]).map PlaceNot.ofChange⟩).Returns m ∧
      Call.leBob ⟨[υ].map PlaceNot.ofChange⟩ = .ok bob ∧
      Call.leSingle ⟨[υ].map PlaceNot.ofChange⟩ = .ok single ∧
      ∀ c ∈ [bob, single], ∃ i lead, m.labelIndices c.location = [i] ∧
        spliceCall m.firstLead (c.block.mapAnnots fun _ => none) i c.coverLen =
          .ok (some (lead, .ok ())) ∧
        lead = .rung (τs ++ [υ]) (List.replicate (τs.length + 1) none) ∧
        lead.leftoverRow = .ok (.ofPerm (τs.prod * υ)) := by
  have hne : τs ++ [τ] ≠ [] := by simp
  obtain ⟨m, h1, ⟨lead, l, h3, h4, -⟩, h2⟩ := (C49_with_lead_end name hn (τs ++ [τ]) hne hc).1 h22
  have hu' : ∀ σ ∈ [υ], IsChange σ := by simpa using hu
  obtain ⟨bob, single, h5, h6, -, -, h7⟩ := C56_calls hn [υ] (by simp) hu'
  refine ⟨m, bob, single, h1, h5, h6, ?_⟩
  have hblk : ∀ c ∈ [bob, single], c.block = .rung [υ] [()] := by
    unfold Call.leBob at h5
    unfold Call.leSingle at h6
    rw [C97_rung () hn [υ] (by simp) hu'] at h5 h6
    simp only [Res.ok_bind, Res.pure_eq, Except.ok.injEq] at h5 h6
    intro c hcm
    simp only [List.mem_cons, List.not_mem_nil, or_false] at hcm
    rcases hcm with rfl | rfl
    · rw [← h5]; rfl
    · rw [← h6]; rfl
  intro c hcm
  obtain ⟨e1, e2, -⟩ := h7 c hcm
  have hlead : m.leadLen = τs.length + 1 := by
    unfold Method.leadLen
    rw [h4]
    simp [AnnotBlock.len, AnnotBlock.ofPerms]
  have hmap : c.block.mapAnnots (fun _ => (none : Option String)) = .rung [υ] [none] := by
    rw [hblk c hcm]; rfl
  have hs := (C97_splice hn (τs ++ [τ]) [υ]
    (List.replicate ((τs ++ [τ]).length - 1) none ++ [some "LE"]) [(none : Option String)] (by simp) rfl
    τs.length 1).1 (by simp)
  refine ⟨τs.length, _, by rw [e1, h2, hlead]; rfl, ?_, rfl, ?_⟩
  · rw [h4, rung_of_follows h3, hmap, e2]
    refine hs.trans ?_
    rw [show (τs ++ [τ]).length - 1 = τs.length by simp, List.take_left, List.drop_eq_nil_of_le (by simp),
      List.take_left' (by simp), List.drop_eq_nil_of_le (by simp), List.append_nil, List.append_nil,
      List.replicate_succ']
  · unfold AnnotBlock.rung
    rw [AnnotBlock.leftover_ofPerms hn, List.prod_append, List.prod_singleton]

example := C97_called_lead (n := 4) "Plain" (by decide) (by decide) [swap 0 1 * swap 2 3, swap 1 2, swap 0 1 * swap 2 3]
  (swap 2 3) (swap 1 2) (by decide) (by decide)

/-- A touch, that is any leads joined one after the other, rings the changes of the leads one after the
other: its length is the sum of their lengths, it ends with the product of the lead heads, and it is
the block that place notation with all these changes would give. -/
theorem C97_touch (hn : 0 < n) (leads : List (List (Perm (Fin n)) × List A))
    (h : ∀ x ∈ leads, x.1.length = x.2.length) :
    ∃ touch, ringTouch ⟨n⟩ (leads.map fun x => .rung x.1 x.2) = .ok (touch, .ok ()) ∧
      touch = .rung (leads.flatMap (·.1)) (leads.flatMap (·.2)) ∧
      touch.len = (leads.map (·.1.length)).sum ∧
      touch.leftoverRow = .ok (.ofPerm (leads.map (·.1.prod)).prod) := by
  have hempty : (AnnotBlock.empty ⟨n⟩ : Res (AnnotBlock A)) = .ok (.rung ([] : List (Perm (Fin n))) []) := by
    unfold AnnotBlock.empty
    rw [Row.rounds_eq_ofPerm n, SameStageVec.ofRows_fromRowBuf (Row.ofPerm_valid hn 1)]
    simp [AnnotBlock.rung, AnnotBlock.ofPerms]
  refine ⟨_, ?_, rfl, ?_, ?_⟩
  · unfold ringTouch
    rw [hempty, Res.ok_bind]
    have key : ∀ (ls : List (List (Perm (Fin n)) × List A)), (∀ x ∈ ls, x.1.length = x.2.length) →
        ∀ τs annots, (ls.map fun x => AnnotBlock.rung x.1 x.2).foldlM touchStep
          (AnnotBlock.rung τs annots, .ok ()) =
          .ok (.rung (τs ++ ls.flatMap (·.1)) (annots ++ ls.flatMap (·.2)), .ok ()) := by
      intro ls
      induction ls with
      | nil => intro _ τs annots; simp
      | cons x ls ih =>
        intro hx τs annots
        rw [List.map_cons, List.foldlM_cons]
        rw [show touchStep (AnnotBlock.rung τs annots, .ok ()) (AnnotBlock.rung x.1 x.2) = _ from
          C97_join hn τs x.1 annots x.2 (hx x (by simp)), Res.ok_bind, ih (fun y hy => hx y (by simp [hy]))]
        simp
    have := key leads h [] []
    simpa using this
  · have : ∀ ls : List (List (Perm (Fin n)) × List A), (∀ x ∈ ls, x.1.length = x.2.length) →
        (ls.flatMap (·.2)).length = (ls.map (·.1.length)).sum := by
      intro ls
      induction ls with
      | nil => intro _; rfl
      | cons x ls ih =>
        intro hx
        rw [List.flatMap_cons, List.length_append, ih (fun y hy => hx y (by simp [hy])), List.map_cons,
          List.sum_cons, hx x (by simp)]
    exact this leads h
  · unfold AnnotBlock.rung
    rw [AnnotBlock.leftover_ofPerms hn]
    congr 2
    clear h hempty
    induction leads with
    | nil => rfl
    | cons x ls ih => rw [List.flatMap_cons, List.prod_append, ih, List.map_cons, List.prod_cons]

example := C97_touch (A := Nat) (n := 4) (by decide) [([swap 0 1 * swap 2 3, swap 1 2], [7, 8]), ([swap 2 3], [9])] (by decide)

/-- So a touch comes round if and only if the product of its lead heads is the identity. -/
theorem C97_comes_round (hn : 0 < n) (leads : List (List (Perm (Fin n)) × List A))
    (h : ∀ x ∈ leads, x.1.length = x.2.length) (touch : AnnotBlock A)
    (ht : ringTouch ⟨n⟩ (leads.map fun x => .rung x.1 x.2) = .ok (touch, .ok ())) :
    ∃ r, touch.leftoverRow = .ok r ∧ (r.isRounds = true ↔ (leads.map (·.1.prod)).prod = 1) := by
  obtain ⟨t, h1, -, -, h2⟩ := C97_touch hn leads h
  rw [h1] at ht
  cases ht
  exact ⟨_, h2, Row.ofPerm_isRounds _⟩

/-- Plain Bob Minimus with the bob 14: the called lead comes round by itself, three plain leads come round, but two
plain leads and a called one do not. -/
example : ∃ (τs : List (Perm (Fin 4))) (τ υ : Perm (Fin 4)), (∀ σ ∈ τs ++ [τ], IsChange σ) ∧ IsChange υ ∧
    τs.prod * τ ≠ τs.prod * υ ∧ (τs.prod * τ) ^ 3 = 1 ∧ τs.prod * υ = 1 ∧
    (τs.prod * τ) * (τs.prod * τ) * (τs.prod * υ) ≠ 1 := by
  refine ⟨[swap 0 1 * swap 2 3, swap 1 2, swap 0 1 * swap 2 3, swap 1 2, swap 0 1 * swap 2 3, swap 1 2,
    swap 0 1 * swap 2 3], swap 2 3, swap 1 2, ?_, ?_, ?_, ?_, ?_, ?_⟩ <;> try unfold IsChange
  all_goals decide +kernel

end Bellframe.Props
