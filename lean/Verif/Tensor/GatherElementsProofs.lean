import Verif.Tensor.GatherProofs

/-! # GatherElements with constant indices -/

namespace JST.Layers

open JST.Shape JST.Spec

/-- Replace the coordinate of one axis, counting axes from `dim`. -/
def replAt (axis p : Nat) : Nat → List Nat → List Nat
  | _, [] => []
  | dim, c :: cs => (if dim = axis then p else c) :: replAt axis p (dim + 1) cs

theorem replAt_past {axis p : Nat} : ∀ (c : List Nat) (dim : Nat), axis < dim →
    replAt axis p dim c = c
  | [], _, _ => rfl
  | a :: c, dim, h => by
    rw [replAt, if_neg (by omega), replAt_past c (dim + 1) (by omega)]

theorem replAt_eq {axis p : Nat} : ∀ (c : List Nat) (dim : Nat), dim ≤ axis →
    replAt axis p dim c = c.set (axis - dim) p
  | [], _, _ => rfl
  | a :: c, dim, h => by
    rw [replAt]
    by_cases hd : dim = axis
    · subst hd
      rw [if_pos rfl, replAt_past c _ (by omega), Nat.sub_self]
      rfl
    · rw [if_neg hd, replAt_eq c (dim + 1) (by omega), show axis - dim = (axis - (dim + 1)) + 1 by omega]
      rfl

theorem geIndex_ok {axisLen : Nat} {v : Int} {p : Nat} (h : AxisOf axisLen v p) :
    ¬ (v < -(axisLen : Int) ∨ v ≥ axisLen) ∧
      (if v < 0 then (v + axisLen).toNat else v.toNat) = p := by
  obtain ⟨h1, h2⟩ := h
  refine ⟨by omega, ?_⟩
  split_ifs <;> omega

/-- The loop computes the position of the replaced coordinates, in range or not. -/
theorem geLoop_ok {axis axisLen : Nat} {v : Int} {p : Nat} (hv : AxisOf axisLen v p) :
    ∀ (ds is c : List Nat) (dim acc : Nat), ds.length = is.length → InRange is c →
    geLoop axis dim axisLen v (strides ds) (strides is) (rowMajor is c) acc
      = .ok (acc + rowMajor ds (replAt axis p dim c))
  | [], [], [], dim, acc, _, _ => by simp [strides, geLoop, replAt, rowMajor]
  | d :: ds, i :: is, a :: c, dim, acc, hl, hc => by
    cases hc with
    | cons ha hc =>
    have hlt := rowMajor_lt hc
    have hdiv : rowMajor (i :: is) (a :: c) / is.prod = a := by
      rw [rowMajor, Nat.mul_comm, Nat.mul_add_div (by omega), Nat.div_eq_of_lt hlt, Nat.add_zero]
    have hmod : rowMajor (i :: is) (a :: c) % is.prod = rowMajor is c := by
      rw [rowMajor, Nat.mul_comm, Nat.mul_add_mod, Nat.mod_eq_of_lt hlt]
    simp only [strides, geLoop]
    rw [hdiv, hmod]
    obtain ⟨h1, h2⟩ := geIndex_ok hv
    have ih := fun dim acc => geLoop_ok (axis := axis) hv ds is c dim acc (by simpa using hl) hc
    by_cases hd : dim = axis
    · rw [if_pos hd, if_neg h1, h2, ih, replAt, if_pos hd, rowMajor, Nat.add_assoc]
    · rw [if_neg hd, ih, replAt, if_neg hd, rowMajor, Nat.add_assoc]
  | [], [], _ :: _, _, _, _, hc => by cases hc
  | _ :: _, _ :: _, [], _, _, _, hc => by cases hc
  | [], _ :: _, _, _, _, hl, _ => by simp at hl
  | _ :: _, [], _, _, _, hl, _ => by simp at hl

/-- An index outside the axis is refused. -/
theorem geLoop_error {axis axisLen : Nat} {v : Int} (hv : ¬ ∃ p, AxisOf axisLen v p) :
    ∀ (ss ts : List Nat) (dim rem acc : Nat), ss.length = ts.length → dim ≤ axis →
      axis < dim + ss.length → geLoop axis dim axisLen v ss ts rem acc = .error .invalid
  | [], _, dim, _, _, _, h1, h2 => by simp at h2; omega
  | _ :: _, [], _, _, _, hl, _, _ => by simp at hl
  | s :: ss, t :: ts, dim, rem, acc, hl, h1, h2 => by
    simp only [geLoop]
    by_cases hd : dim = axis
    · rw [if_pos hd, if_pos]
      by_contra hn
      push Not at hn
      refine hv ⟨(if v < 0 then v + axisLen else v).toNat, ?_⟩
      unfold AxisOf
      split_ifs <;> omega
    · rw [if_neg hd]
      exact geLoop_error hv ss ts _ _ _ (by simpa using hl) (by omega)
        (by rw [List.length_cons] at h2; omega)

theorem NoPanic.geLoop (axis axisLen : Nat) (v : Int) : ∀ (ss ts : List Nat) (dim rem acc : Nat),
    NoPanic (geLoop axis dim axisLen v ss ts rem acc)
  | [], _, _, _, _ => by unfold Layers.geLoop; exact .ok _
  | _ :: _, [], _, _, _ => by unfold Layers.geLoop; exact .ok _
  | s :: ss, t :: ts, dim, rem, acc => by
    simp only [Layers.geLoop]
    exact .ite (fun _ => .ite (fun _ => .invalid) fun _ => NoPanic.geLoop axis axisLen v ss ts _ _ _)
      fun _ => NoPanic.geLoop axis axisLen v ss ts _ _ _

theorem strides_length : ∀ (s : List Nat), (strides s).length = s.length
  | [] => rfl
  | _ :: s => by simp [strides, strides_length s]

/-- The index map: for every position of the indices, the row-major position of the replaced
coordinates, whether or not they are in the data's range. -/
theorem geMap_ok {dataShape : List Nat} {axis : Nat} {idx : Arr Int} (hi : idx.WF)
    (hl : idx.shape.length = dataShape.length) (hax : axis < dataShape.length)
    (hv : ∀ v ∈ idx.data, ∃ p, AxisOf (dataShape.getD axis 0) v p) :
    geMap dataShape axis idx = .ok ((List.range idx.shape.prod).map fun f =>
      rowMajor dataShape ((unravel f idx.shape).set axis
        (gatherPos (dataShape.getD axis 0) (idx.data.getD f 0)))) := by
  have hidx : idx.data.length = idx.shape.prod := hi
  unfold geMap
  rw [if_neg (by simpa using hl), if_neg (by omega), readAt_getD hax 0]
  have hzip : (idx.data.zipIdx).take idx.shape.prod =
      (List.range idx.shape.prod).map fun f => (idx.data.getD f 0, f) := by
    rw [List.take_of_length_le (by simp [hidx])]
    apply List.ext_getElem
    · simp [hidx]
    · intro i h1 h2
      have : i < idx.data.length := by simpa using h1
      simp [List.getD_eq_getElem?_getD, this]
  show ((idx.data.zipIdx).take idx.shape.prod).mapM _ = _
  rw [hzip, mapM_ok (g := fun vf : Int × Nat => rowMajor dataShape ((unravel vf.2 idx.shape).set axis
        (gatherPos (dataShape.getD axis 0) vf.1)))]
  · rw [List.map_map]
    rfl
  · intro vf hm
    obtain ⟨f, hf, rfl⟩ := List.mem_map.1 hm
    rw [List.mem_range] at hf
    have hvm : idx.data.getD f 0 ∈ idx.data := by
      rw [List.getD_eq_getElem _ _ (by omega)]; exact List.getElem_mem _
    obtain ⟨p, hp⟩ := hv _ hvm
    have h := geLoop_ok (axis := axis) hp dataShape idx.shape (unravel f idx.shape) 0 0 hl.symm
      (unravel_inRange hf)
    rw [rowMajor_unravel hf] at h
    rw [h, Nat.zero_add, replAt_eq _ _ (Nat.zero_le _), AxisOf_pos hp]
    rfl

/-- What the layer computes when every computed position is inside the data, in range or not. -/
theorem runGatherElements_raw {α : Type} {x : Arr α} {idx : Arr Int} (hi : idx.WF)
    {axisRaw : Int} {axis : Nat} (hax : AxisOf x.shape.length axisRaw axis)
    (hl : idx.shape.length = x.shape.length)
    (hv : ∀ v ∈ idx.data, ∃ p, AxisOf (x.shape.getD axis 0) v p)
    (hin : ∀ c v p, InRange idx.shape c → elem idx c = some v → AxisOf (x.shape.getD axis 0) v p →
      rowMajor x.shape (c.set axis p) < x.data.length) :
    ∃ y, runGatherElements axisRaw idx x = .ok y ∧ y.WF ∧ y.shape = idx.shape ∧
      ∀ c v p, InRange idx.shape c → elem idx c = some v → AxisOf (x.shape.getD axis 0) v p →
        elem y c = elem x (c.set axis p) := by
  have hidx : idx.data.length = idx.shape.prod := hi
  have hpos : ∀ f, f < idx.shape.prod → rowMajor x.shape ((unravel f idx.shape).set axis
      (gatherPos (x.shape.getD axis 0) (idx.data.getD f 0))) < x.data.length := by
    intro f hf
    have hvm : idx.data.getD f 0 ∈ idx.data := by
      rw [List.getD_eq_getElem _ _ (by omega)]; exact List.getElem_mem _
    obtain ⟨p, hp⟩ := hv _ hvm
    rw [AxisOf_pos hp]
    refine hin _ _ _ (unravel_inRange hf) ?_ hp
    unfold elem
    rw [rowMajor_unravel hf, List.getElem?_eq_getElem (by omega), List.getD_eq_getElem _ _ (by omega)]
  have hrun : runGatherElements axisRaw idx x = applyMap .invalid
      ((List.range idx.shape.prod).map fun f =>
        rowMajor x.shape ((unravel f idx.shape).set axis
        (gatherPos (x.shape.getD axis 0) (idx.data.getD f 0)))) idx.shape x := by
    unfold runGatherElements
    rw [(layerAxis_ok _ _ _).2 hax]
    show (do
      let map ← geMap x.shape axis idx
      applyMap .invalid map idx.shape x) = _
    rw [geMap_ok hi hl hax.1 hv]
    rfl
  by_cases hz : idx.shape.prod = 0
  · refine ⟨⟨idx.shape, []⟩, ?_, by simp [Arr.WF, hz], rfl, fun c v p hc => ?_⟩
    · rw [hrun, hz]
      exact fromShapeVec_ok (by simp [hz])
    · have := rowMajor_lt hc
      omega
  · have hx0 : 0 < x.data.length := by have := hpos 0 (by omega); omega
    refine ⟨⟨idx.shape, (List.range idx.shape.prod).map fun f => x.data.getD
        (rowMajor x.shape ((unravel f idx.shape).set axis
        (gatherPos (x.shape.getD axis 0) (idx.data.getD f 0)))) x.data[0]⟩, ?_, by simp [Arr.WF], rfl,
        fun c v p hc hev hp => ?_⟩
    · rw [hrun]
      unfold applyMap
      rw [mapM_ok (g := fun i => x.data.getD i x.data[0])]
      · rw [List.map_map]
        exact fromShapeVec_ok (by simp)
      · intro i hi'
        obtain ⟨f, hf, rfl⟩ := List.mem_map.1 hi'
        exact readAt_getD (hpos f (List.mem_range.1 hf)) _
    · rw [elem_tabulate _ _ _ hc, unravel_rowMajor hc]
      have : idx.data.getD (rowMajor idx.shape c) 0 = v := by
        unfold elem at hev
        rw [List.getD_eq_getElem?_getD, hev]
        rfl
      rw [this, AxisOf_pos hp]
      have hlt := hin c v p hc hev hp
      unfold elem
      rw [List.getElem?_eq_getElem hlt, List.getD_eq_getElem _ _ hlt]

/-- The ONNX meaning, when the indices' other dimensions do not exceed the data's. -/
theorem runGatherElements_ok {α : Type} {x : Arr α} (hx : x.WF) {idx : Arr Int} (hi : idx.WF)
    {axisRaw : Int} {axis : Nat} (hax : AxisOf x.shape.length axisRaw axis)
    (hl : idx.shape.length = x.shape.length)
    (hd : ∀ a, a < x.shape.length → a ≠ axis → idx.shape.getD a 0 ≤ x.shape.getD a 0)
    (hv : ∀ v ∈ idx.data, ∃ p, AxisOf (x.shape.getD axis 0) v p) :
    ∃ y, runGatherElements axisRaw idx x = .ok y ∧ IsGatherElements axis idx x y := by
  obtain ⟨y, h1, h2, h3, h4⟩ := runGatherElements_raw hi hax hl hv (by
    intro c v p hc _ hp
    rw [show x.data.length = x.shape.prod from hx]
    apply rowMajor_lt
    rw [inRange_iff]
    have hcl := hc.length
    refine ⟨by simpa using hcl.trans hl, fun a ha => ?_⟩
    rw [getD_set _ _ _ _ _ (by have := hax.1; omega)]
    split_ifs with h
    · subst h; exact hp.1
    · have := (inRange_iff.1 hc).2 a (by omega)
      have := hd a ha h
      omega)
  refine ⟨y, h1, h2, h3, fun c hc => ?_⟩
  obtain ⟨v, hev⟩ := elem_isSome hi hc
  obtain ⟨p, hp⟩ := hv v (List.mem_of_getElem? hev)
  exact ⟨v, p, hev, hp, h4 c v p hc hev hp⟩

/-- Indices of another rank, an axis out of range or an index outside the axis are refused, for data
of rank at least one. -/
theorem runGatherElements_error {α : Type} {x : Arr α} {idx : Arr Int} (hi : idx.WF) {axisRaw : Int}
    (h : ¬ ∃ axis, AxisOf x.shape.length axisRaw axis ∧ idx.shape.length = x.shape.length ∧
      ∀ v ∈ idx.data, ∃ p, AxisOf (x.shape.getD axis 0) v p) :
    runGatherElements axisRaw idx x = .error .invalid := by
  unfold runGatherElements
  cases hla : layerAxis x.shape.length axisRaw with
  | error e =>
    have := NoPanic.layerAxis x.shape.length axisRaw
    cases e with
    | invalid => rfl
    | panic => exact absurd hla this
  | ok axis =>
    have hax := (layerAxis_ok _ _ _).1 hla
    show (do
      let map ← geMap x.shape axis idx
      applyMap .invalid map idx.shape x) = _
    by_cases hl : idx.shape.length = x.shape.length
    · have hbad : ∃ v ∈ idx.data, ¬ ∃ p, AxisOf (x.shape.getD axis 0) v p := by
        by_contra hn
        push Not at hn
        refine h ⟨axis, hax, hl, fun v hv => ?_⟩
        obtain ⟨p, hp⟩ := hn v hv
        exact ⟨p, hp⟩
      obtain ⟨v, hvm, hv⟩ := hbad
      have hg : geMap x.shape axis idx = .error .invalid := by
        have hnp : NoPanic (geMap x.shape axis idx) := by
          unfold geMap
          refine .ite (fun _ => .invalid) fun _ => ?_
          rw [if_neg (by have := hax.1; omega)]
          exact .bind (.readAt _ hax.1) fun _ _ => .mapM fun _ _ => .geLoop _ _ _ _ _ _ _ _
        have hfail : ∃ e, geMap x.shape axis idx = .error e := by
          unfold geMap
          rw [if_neg (by simpa using hl), if_neg (by have := hax.1; omega), readAt_getD hax.1 0]
          obtain ⟨i, hilt, rfl⟩ := List.mem_iff_getElem.1 hvm
          refine mapM_fails (x := (idx.data[i], i)) ?_ (geLoop_error hv _ _ _ _ _ (by
            rw [strides_length, strides_length, hl]) (Nat.zero_le _) (by
            rw [strides_length]; have := hax.1; omega))
          rw [List.take_of_length_le (by
            rw [List.length_zipIdx]; exact le_of_eq hi)]
          rw [List.mem_iff_getElem]
          exact ⟨i, by simpa using hilt, by simp⟩
        obtain ⟨e, he⟩ := hfail
        cases e with
        | invalid => exact he
        | panic => exact absurd he hnp
      rw [hg]
      rfl
    · unfold geMap
      rw [if_pos hl]
      rfl

end JST.Layers
