import Verif.Tensor.ConcatProofs

/-! # Expand -/

namespace JST.Layers

open JST.Shape JST.Spec

theorem leadDim_eq {a : List Nat} {r i : Nat} (hr : a.length ≤ r) (hi : i < r) :
    leadDim a r i = fromRight a (r - 1 - i) := by
  unfold leadDim fromRight
  split_ifs with h
  · rw [List.getD_eq_default _ _ (by simp; omega)]
  · rw [List.getD_eq_getElem _ _ (by omega), List.getD_eq_getElem _ _ (by simp; omega),
      List.getElem_reverse]
    congr 1
    omega

theorem fromRight_eq_getElem {s : List Nat} {i : Nat} (hi : i < s.length) :
    fromRight s (s.length - 1 - i) = s[i] := by
  unfold fromRight
  rw [List.getD_eq_getElem _ _ (by simp; omega), List.getElem_reverse]
  congr 1
  omega

/-- The broadcast of shape inference is the ONNX one, empty dimensions included. -/
theorem broadcastShapes_ok_iff (a b out : List Nat) :
    broadcastShapes a b = .ok out ↔ IsBroadcast a b out := by
  unfold broadcastShapes IsBroadcast
  simp only
  rw [mapM_ok_iff, List.forall₂_iff_get]
  simp only [List.length_range, List.get_eq_getElem, List.getElem_range]
  constructor
  · rintro ⟨h1, h2⟩
    refine ⟨h1.symm, fun i hi => ?_⟩
    have h := h2 (out.length - 1 - i) (by omega) (by omega)
    rw [leadDim_eq (by omega) (by omega), leadDim_eq (by omega) (by omega),
      show max a.length b.length - 1 - (out.length - 1 - i) = i by omega] at h
    have e := fromRight_eq_getElem (s := out) (i := out.length - 1 - i) (by omega)
    rw [show out.length - 1 - (out.length - 1 - i) = i by omega] at e
    rw [e]
    split_ifs at h with c1 c2 c3
    · exact .inl ⟨c1, (Except.ok.inj h).symm⟩
    · exact .inr (.inl ⟨c2, (Except.ok.inj h).symm⟩)
    · exact .inr (.inr ⟨c3, (Except.ok.inj h).symm⟩)
  · rintro ⟨h1, h2⟩
    refine ⟨h1.symm, fun i hi hi' => ?_⟩
    have h := h2 (out.length - 1 - i) (by omega)
    rw [fromRight_eq_getElem hi'] at h
    rw [leadDim_eq (by omega) (by omega), leadDim_eq (by omega) (by omega), ← h1]
    rcases h with ⟨c1, c2⟩ | ⟨c1, c2⟩ | ⟨c1, c2⟩
    · rw [if_pos c1, c2]
    · by_cases hab : fromRight a (out.length - 1 - i) = fromRight b (out.length - 1 - i)
      · rw [if_pos hab, c2, hab]
      · rw [if_neg hab, if_pos c1, c2]
    · by_cases hab : fromRight a (out.length - 1 - i) = fromRight b (out.length - 1 - i)
      · rw [if_pos hab, c2]
      · rw [if_neg hab]
        by_cases ha : fromRight a (out.length - 1 - i) = 1
        · exact absurd (ha.trans c1.symm) hab
        · rw [if_neg ha, if_pos c1, c2]

theorem broadcastShapes_error {a b : List Nat} {e : Shape.Err}
    (h : broadcastShapes a b = .error e) : e = .invalid := by
  obtain ⟨i, _, h⟩ := mapM_err h
  simp only at h
  split_ifs at h
  cases h
  rfl

theorem IsBroadcast_stretches {a b out : List Nat} (h : IsBroadcast a b out) : Stretches a out := by
  obtain ⟨hl, h⟩ := h
  refine ⟨by omega, fun i hi => ?_⟩
  rcases h i (by omega) with h | h | h <;> omega

theorem fromRight_pad (k : Nat) (s : List Nat) (i : Nat) :
    fromRight (List.replicate k 1 ++ s) i = fromRight s i := by
  unfold fromRight
  rw [List.reverse_append, List.reverse_replicate]
  simp only [List.getD_eq_getElem?_getD]
  by_cases hi : i < s.reverse.length
  · rw [List.getElem?_append_left hi]
  · rw [List.getElem?_append_right (by omega), List.getElem?_eq_none (l := s.reverse) (by omega),
      List.getElem?_replicate]
    split_ifs <;> rfl

theorem srcCoords_pad {k : Nat} {s c : List Nat} (hc : c.length = k + s.length) :
    srcCoords (List.replicate k 1 ++ s) c = List.replicate k 0 ++ srcCoords s c := by
  unfold srcCoords
  rw [hc]
  simp only [List.length_append, List.length_replicate, Nat.sub_self, List.drop_zero,
    Nat.add_sub_cancel]
  have e : c = c.take k ++ c.drop k := (List.take_append_drop k c).symm
  conv_lhs => rw [e]
  rw [List.zipWith_append (by simp; omega)]
  congr 1
  apply List.ext_getElem
  · simp; omega
  · intro i h1 h2
    simp

theorem rowMajor_pad (k : Nat) (s c : List Nat) :
    rowMajor (List.replicate k 1 ++ s) (List.replicate k 0 ++ c) = rowMajor s c := by
  induction k with
  | zero => rfl
  | succ k ih =>
    rw [List.replicate_succ, List.replicate_succ, List.cons_append, List.cons_append, rowMajor, ih]
    simp

/-- Broadcasting a tensor to a shape it stretches to. -/
theorem applyExpand_ok {α : Type} [Inhabited α] {x : Arr α} (hx : x.WF) {out : List Nat}
    (hs : Stretches x.shape out) : ∃ y, applyExpand out x = .ok y ∧ y.shape = out ∧
      Reads x y (srcCoords x.shape) := by
  unfold applyExpand
  rw [if_neg (by have := hs.1; omega)]
  by_cases hl : x.shape.length < out.length
  · rw [if_pos hl, fromShapeVec_ok (by
      rw [List.prod_append, List.prod_replicate, one_pow, one_mul]; exact hx)]
    have hs' : Stretches (List.replicate (out.length - x.shape.length) 1 ++ x.shape) out := by
      refine ⟨by simp; omega, fun i hi => ?_⟩
      rw [fromRight_pad]
      by_cases h : i < x.shape.length
      · exact hs.2 i h
      · left
        unfold fromRight
        rw [List.getD_eq_default _ _ (by simp; omega)]
    have hw : (⟨List.replicate (out.length - x.shape.length) 1 ++ x.shape, x.data⟩ : Arr α).WF := by
      show x.data.length = _
      rw [List.prod_append, List.prod_replicate, one_pow, one_mul]; exact hx
    cases hb : broadcastArray (⟨List.replicate (out.length - x.shape.length) 1 ++ x.shape, x.data⟩ :
        Arr α) out with
    | error e =>
      exfalso
      have hok : ∃ y, broadcastArray (⟨List.replicate (out.length - x.shape.length) 1 ++ x.shape,
          x.data⟩ : Arr α) out = .ok y := by
        unfold broadcastArray
        rw [if_pos]
        · exact ⟨_, rfl⟩
        · obtain ⟨h1, h2⟩ := (stretches_iff _ _).1 hs'
          refine ⟨h1, (all_zip_iff _ _ ?_).2 h2⟩
          exact h2.length_eq
      obtain ⟨y, hy⟩ := hok
      rw [hb] at hy; cases hy
    | ok y =>
      obtain ⟨_, h2, h3, h4⟩ := (broadcastArray_ok _ _ hw _).1 hb
      refine ⟨y, hb, h2, h3, fun c hc => ?_⟩
      rw [h2] at hc
      have := (h4 c hc).2
      simp only at this
      rw [srcCoords_pad (by rw [hc.length]; omega)] at this
      refine ⟨srcCoords_inRange hs hc, this.trans ?_⟩
      unfold elem
      simp only
      rw [rowMajor_pad]
  · rw [if_neg hl]
    cases hb : broadcastArray x out with
    | error e =>
      exfalso
      have hok : ∃ y, broadcastArray x out = .ok y := by
        unfold broadcastArray
        rw [if_pos]
        · exact ⟨_, rfl⟩
        · obtain ⟨h1, h2⟩ := (stretches_iff _ _).1 hs
          exact ⟨h1, (all_zip_iff _ _ h2.length_eq).2 h2⟩
      obtain ⟨y, hy⟩ := hok
      rw [hb] at hy; cases hy
    | ok y =>
      obtain ⟨_, h2, h3, h4⟩ := (broadcastArray_ok _ _ hx _).1 hb
      refine ⟨y, rfl, h2, h3, fun c hc => ?_⟩
      rw [h2] at hc
      exact ⟨srcCoords_inRange hs hc, (h4 c hc).2⟩

theorem runExpand_ok {α : Type} [Inhabited α] {target : List Int} {x : Arr α} (hx : x.WF)
    {out : List Nat} (ht : ∀ d ∈ target, 0 ≤ d)
    (hb : IsBroadcast x.shape (target.map Int.toNat) out) :
    ∃ y, runExpand target x = .ok y ∧ y.shape = out ∧ Reads x y (srcCoords x.shape) := by
  obtain ⟨y, h1, h2⟩ := applyExpand_ok hx (IsBroadcast_stretches hb)
  refine ⟨y, ?_, h2⟩
  unfold runExpand inferExpand
  rw [if_neg (by
    simp only [List.any_eq_true, decide_eq_true_eq, not_exists, not_and, not_lt]
    exact ht), (broadcastShapes_ok_iff _ _ _).2 hb]
  exact h1

theorem runExpand_error {α : Type} [Inhabited α] {target : List Int} {x : Arr α}
    (h : ¬ ((∀ d ∈ target, 0 ≤ d) ∧ ∃ out, IsBroadcast x.shape (target.map Int.toNat) out)) :
    runExpand target x = .error .invalid := by
  unfold runExpand inferExpand
  by_cases ht : ∀ d ∈ target, 0 ≤ d
  · rw [if_neg (by
      simp only [List.any_eq_true, decide_eq_true_eq, not_exists, not_and, not_lt]
      exact ht)]
    cases hb : broadcastShapes x.shape (target.map Int.toNat) with
    | ok out => exact absurd ⟨ht, out, (broadcastShapes_ok_iff _ _ _).1 hb⟩ h
    | error e => rw [broadcastShapes_error hb]; rfl
  · rw [if_pos (by
      simp only [List.any_eq_true, decide_eq_true_eq]
      push Not at ht
      exact ht)]
    rfl

end JST.Layers
