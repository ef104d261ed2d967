import Verif.Tensor.SliceProofs
import Verif.Tensor.LayerNoPanic

/-! # Split and Concat -/

namespace JST.Layers

open JST.Shape JST.Spec

theorem layerAxis_ok (rank : Nat) (raw : Int) (a : Nat) :
    layerAxis rank raw = .ok a ↔ AxisOf rank raw a := by
  unfold layerAxis AxisOf
  dsimp only
  split_ifs with h1 h2 h2 <;> first
    | (constructor
       · intro h; cases h
       · rintro ⟨h3, h4 | h4⟩ <;> omega)
    | (simp only [Except.ok.injEq]
       constructor <;> intro h <;> omega)

theorem NoPanic.layerAxis (rank : Nat) (raw : Int) : NoPanic (layerAxis rank raw) := by
  unfold Layers.layerAxis
  exact .ite (fun _ => .ite (fun _ => .invalid) fun _ => .ok _)
    fun _ => .ite (fun _ => .invalid) fun _ => .ok _

/-- The selection of a part. -/
def partSel (shape : List Nat) (axis offset size : Nat) : List (List Nat) :=
  (List.range shape.length).map fun a =>
    if a = axis then (List.range size).map (· + offset) else List.range (shape.getD a 0)

theorem partSel_length (shape : List Nat) (axis offset size : Nat) :
    (partSel shape axis offset size).length = shape.length := by simp [partSel]

theorem partSel_getD (shape : List Nat) (axis offset size a : Nat) (h : a < shape.length) :
    (partSel shape axis offset size).getD a [] =
      if a = axis then (List.range size).map (· + offset) else List.range (shape.getD a 0) :=
  getD_map_range _ _ h

theorem getD_set {α : Type} (l : List α) (i : Nat) (v d : α) (a : Nat) (hi : i < l.length) :
    (l.set i v).getD a d = if a = i then v else l.getD a d := by
  simp only [List.getD_eq_getElem?_getD, List.getElem?_set]
  by_cases h : a = i
  · subst h; simp [hi]
  · rw [if_neg (fun hh => h hh.symm), if_neg h]

theorem partSel_shape (shape : List Nat) (axis offset size : Nat) (h : axis < shape.length) :
    (partSel shape axis offset size).map List.length = shape.set axis size := by
  apply List.ext_getElem
  · simp [partSel]
  · intro a h1 h2
    have ha : a < shape.length := by simpa using h2
    have e := partSel_getD shape axis offset size a ha
    rw [List.getD_eq_getElem _ _ (by simpa [partSel] using ha)] at e
    rw [List.getElem_map, e, List.getElem_set]
    by_cases hax : a = axis
    · subst hax; simp
    · rw [if_neg hax, if_neg (fun hh => hax hh.symm), List.length_range,
        List.getD_eq_getElem _ _ ha]

theorem part_src {shape c : List Nat} {axis offset size : Nat} (h : axis < shape.length)
    (hc : InRange (shape.set axis size) c) :
    List.zipWith (fun (s : List Nat) k => s.getD k 0) (partSel shape axis offset size) c
      = c.set axis (c.getD axis 0 + offset) := by
  have hcl := hc.length
  rw [List.length_set] at hcl
  rw [zipWith_sel_eq _ _ _ (partSel_length _ _ _ _) hcl]
  apply List.ext_getElem
  · simp [hcl]
  · intro a h1 h2
    have ha : a < shape.length := by simpa using h1
    have hlt := (inRange_iff.1 hc).2 a (by simpa using ha)
    rw [getD_set _ _ _ _ _ h] at hlt
    rw [List.getElem_map, List.getElem_range, partSel_getD _ _ _ _ _ ha, List.getElem_set]
    by_cases hax : a = axis
    · subst hax
      rw [if_pos rfl] at hlt
      rw [if_pos rfl, if_pos rfl, getD_map_range _ _ hlt]
    · rw [if_neg hax] at hlt
      rw [if_neg hax, if_neg (fun hh => hax hh.symm),
        List.getD_eq_getElem _ _ (by simpa using hlt), List.getElem_range,
        List.getD_eq_getElem _ _ (by omega)]

theorem part_src_inRange {shape c : List Nat} {axis offset size : Nat} (h : axis < shape.length)
    (hsz : offset + size ≤ shape.getD axis 0) (hc : InRange (shape.set axis size) c) :
    InRange shape (c.set axis (c.getD axis 0 + offset)) := by
  have hcl := hc.length
  rw [List.length_set] at hcl
  rw [inRange_iff] at hc ⊢
  refine ⟨by simpa using hcl, fun a ha => ?_⟩
  have hlt := hc.2 a (by simpa using ha)
  rw [getD_set _ _ _ _ _ h] at hlt
  rw [getD_set _ _ _ _ _ (by omega)]
  split_ifs at hlt ⊢ with hax
  · subst hax; omega
  · exact hlt

/-- A tensor is a part of another one: the statement of `IsPart` in terms of coordinates. -/
theorem isPart_iff {α : Type} {axis offset size : Nat} {x y : Arr α} (h : axis < x.shape.length) :
    IsPart axis offset size x y ↔ y.shape = x.shape.set axis size ∧ y.WF ∧
      ∀ c, InRange y.shape c → InRange x.shape (c.set axis (c.getD axis 0 + offset)) ∧
        elem y c = elem x (c.set axis (c.getD axis 0 + offset)) := by
  unfold IsPart IsSelect Reads
  rw [show ((List.range x.shape.length).map fun a =>
    if a = axis then (List.range size).map (· + offset) else List.range (x.shape.getD a 0))
    = partSel x.shape axis offset size from rfl, partSel_shape _ _ _ _ h]
  constructor
  · rintro ⟨h1, h2, h3⟩
    refine ⟨h1, h2, fun c hc => ?_⟩
    have := h3 c hc
    dsimp only at this
    rwa [part_src h (h1 ▸ hc)] at this
  · rintro ⟨h1, h2, h3⟩
    refine ⟨h1, h2, fun c hc => ?_⟩
    dsimp only
    rw [part_src h (h1 ▸ hc)]
    exact h3 c hc

theorem splitMap_ok {α : Type} (x : Arr α) (hx : x.WF) {axis offset size : Nat}
    (h : axis < x.shape.length) (hsz : offset + size ≤ x.shape.getD axis 0) :
    ∃ map y, splitMap x.shape axis offset (x.shape.set axis size) = .ok map ∧
      applyMap .panic map (x.shape.set axis size) x = .ok y ∧ IsPart axis offset size x y := by
  obtain ⟨y, hy1, hy2⟩ := select_ok .panic x hx (partSel x.shape axis offset size)
    (partSel_length _ _ _ _) (by
      intro a ha k hk
      rw [partSel_getD _ _ _ _ _ ha] at hk ⊢
      split_ifs at hk ⊢ with hax
      · rw [List.length_map, List.length_range] at hk
        rw [getD_map_range _ _ hk]
        subst hax; omega
      · rw [List.length_range] at hk
        rw [List.getD_eq_getElem _ _ (by simpa using hk), List.getElem_range]
        exact hk)
  rw [partSel_shape _ _ _ _ h] at hy1
  refine ⟨_, y, ?_, hy1, hy2⟩
  unfold splitMap
  apply mapM_ok
  intro f hf
  have hur := unravel_inRange (List.mem_range.1 hf)
  have hcl := hur.length
  rw [List.length_set] at hcl
  dsimp only
  rw [readAt_getD (by omega) 0, part_src h hur]
  show (do
    let ic ← writeAt (unravel f (x.shape.set axis size)) axis
      ((unravel f (x.shape.set axis size)).getD axis 0 + offset)
    ravelR ic x.shape) = _
  rw [writeAt_ok (by omega)]
  exact ravelR_ok (by simpa using hcl)

/-- The loop over outputs. -/
theorem splitMaps_ok {α : Type} (x : Arr α) (hx : x.WF) {axis : Nat} (h : axis < x.shape.length) :
    ∀ (sizes : List Nat) (offset : Nat), offset + sizes.sum ≤ x.shape.getD axis 0 →
    ∃ maps ys, splitMaps x.shape axis offset (sizes.map (x.shape.set axis ·)) = .ok maps ∧
      maps.mapM (fun mo => applyMap .panic mo.1 mo.2 x) = .ok ys ∧ ys.length = sizes.length ∧
      ∀ (k : Nat) (y : Arr α), ys[k]? = some y →
        IsPart axis (offset + (sizes.take k).sum) (sizes.getD k 0) x y
  | [], offset, _ => ⟨[], [], rfl, rfl, rfl, by simp⟩
  | s :: sizes, offset, hs => by
    rw [List.sum_cons] at hs
    obtain ⟨map, y, h1, h2, h3⟩ := splitMap_ok x hx h (offset := offset) (size := s) (by omega)
    obtain ⟨maps, ys, h4, h5, h6, h7⟩ := splitMaps_ok x hx h sizes (offset + s) (by omega)
    refine ⟨(map, x.shape.set axis s) :: maps, y :: ys, ?_, ?_, by simp [h6], ?_⟩
    · rw [List.map_cons, splitMaps, h1]
      show (do
        let d ← readAt .panic (x.shape.set axis s) axis
        let rest ← splitMaps x.shape axis (offset + d) (sizes.map (x.shape.set axis ·))
        .ok ((map, x.shape.set axis s) :: rest)) = _
      rw [readAt_getD (by simpa using h) 0, getD_set _ _ _ _ _ h, if_pos rfl]
      show (do
        let rest ← splitMaps x.shape axis (offset + s) (sizes.map (x.shape.set axis ·))
        .ok ((map, x.shape.set axis s) :: rest)) = _
      rw [h4]
      rfl
    · rw [List.mapM_cons, h2, h5]
      rfl
    · intro k z hz
      cases k with
      | zero =>
        simp only [List.getElem?_cons_zero, Option.some.injEq] at hz
        subst hz
        simpa using h3
      | succ k =>
        have := h7 k z (by simpa using hz)
        simpa [Nat.add_assoc] using this

theorem splitMaps_part_sizes {α : Type} {x : Arr α} {axis : Nat} {sizes : List Nat}
    {ys : List (Arr α)} (h : axis < x.shape.length) (hl : ys.length = sizes.length)
    (hp : ∀ (k : Nat) (y : Arr α), ys[k]? = some y →
      IsPart axis (0 + (sizes.take k).sum) (sizes.getD k 0) x y) : axisSizes axis ys = sizes := by
  apply List.ext_getElem
  · simpa [axisSizes] using hl
  · intro k h1 h2
    have hk : k < ys.length := by omega
    have := hp k ys[k] (List.getElem?_eq_getElem hk)
    rw [isPart_iff h] at this
    simp only [axisSizes, List.getElem_map]
    rw [this.1, getD_set _ _ _ _ _ h, if_pos rfl, List.getD_eq_getElem _ _ h2]

theorem splitSizes_ok_iff {dim n : Nat} {attr : Option (List Int)} {sizes : List Nat} (hn : n ≠ 0) :
    (splitSizes dim n attr = .ok sizes ∧ sizes.length = n ∧ sizes.sum = dim) ↔
      SplitSizes dim n attr sizes := by
  unfold SplitSizes
  constructor
  · rintro ⟨h, h1, h2⟩
    refine ⟨h1, h2, ?_⟩
    cases attr with
    | some v =>
      simp only [splitSizes] at h ⊢
      split_ifs at h with hneg
      cases h
      rw [List.map_map]
      refine (List.map_id v).symm.trans (List.map_congr_left fun a ha => ?_)
      simp only [List.any_eq_true, decide_eq_true_eq, not_exists, not_and, not_lt] at hneg
      have := hneg a ha
      simp [Int.toNat_of_nonneg this]
    | none =>
      simp only [splitSizes] at h ⊢
      rw [if_neg hn] at h
      split_ifs at h
      cases h
      intro s hs
      exact (List.mem_replicate.1 hs).2
  · rintro ⟨h1, h2, h3⟩
    refine ⟨?_, h1, h2⟩
    cases attr with
    | some v =>
      simp only [splitSizes] at h3 ⊢
      rw [if_neg]
      · rw [h3, List.map_map]
        congr 1
        have : (Int.toNat ∘ Int.ofNat) = id := by funext a; simp
        rw [this, List.map_id]
      · rw [h3]
        simp
    | none =>
      simp only [splitSizes] at h3 ⊢
      have hrep : sizes = List.replicate n (dim / n) := by
        rw [List.eq_replicate_iff]
        exact ⟨h1, h3⟩
      have hdvd : dim % n = 0 := by
        rw [hrep, List.sum_replicate, smul_eq_mul] at h2
        exact Nat.mod_eq_zero_of_dvd ⟨_, h2.symm⟩
      rw [if_neg hn, if_neg (by simpa using hdvd), ← hrep]

theorem NoPanic.splitSizes (dim n : Nat) (attr : Option (List Int)) :
    NoPanic (splitSizes dim n attr) := by
  cases attr with
  | some v => exact .ite (fun _ => .invalid) fun _ => .ok _
  | none => exact .ite (fun _ => .invalid) fun _ => .ite (fun _ => .invalid) fun _ => .ok _

theorem inferSplit_ok {shape : List Nat} {axisRaw : Int} {attr : Option (List Int)} {n axis : Nat}
    {sizes : List Nat} (hax : AxisOf shape.length axisRaw axis)
    (hs : SplitSizes (shape.getD axis 0) n attr sizes) (hn : n ≠ 0) :
    inferSplit shape axisRaw attr n = .ok (sizes.map (shape.set axis ·)) := by
  obtain ⟨h0, h1, h2⟩ := (splitSizes_ok_iff hn).2 hs
  unfold inferSplit
  rw [(layerAxis_ok _ _ _).2 hax]
  show (do
    let dim ← readAt .panic shape axis
    let sz ← splitSizes dim n attr
    if sz.length ≠ n then .error .invalid
    else if sz.sum ≠ dim then .error .invalid
    else sz.mapM fun s => writeAt shape axis s) = _
  rw [readAt_getD hax.1 0]
  show (do
    let sz ← splitSizes (shape.getD axis 0) n attr
    if sz.length ≠ n then .error .invalid
    else if sz.sum ≠ shape.getD axis 0 then .error .invalid
    else sz.mapM fun s => writeAt shape axis s) = _
  rw [h0]
  show (if sizes.length ≠ n then _ else if sizes.sum ≠ shape.getD axis 0 then _ else _) = _
  rw [if_neg (by simpa using h1), if_neg (by simpa using h2)]
  exact mapM_ok fun s _ => writeAt_ok hax.1

/-- What shape inference accepts with at least one output. -/
theorem inferSplit_valid {shape : List Nat} {axisRaw : Int} {attr : Option (List Int)} {n : Nat}
    {outs : List (List Nat)} (h : inferSplit shape axisRaw attr n = .ok outs) (hne : outs ≠ []) :
    n ≠ 0 ∧ ∃ axis sizes, AxisOf shape.length axisRaw axis ∧
      SplitSizes (shape.getD axis 0) n attr sizes := by
  unfold inferSplit at h
  obtain ⟨axis, hax, h⟩ := bind_eq_ok h
  have hax' := (layerAxis_ok _ _ _).1 hax
  obtain ⟨dim, hd, h⟩ := bind_eq_ok h
  rw [readAt_getD hax'.1 0] at hd; cases hd
  obtain ⟨sz, hsz, h⟩ := bind_eq_ok h
  split_ifs at h with h1 h2
  have hn : n ≠ 0 := by
    intro hn
    have : sz = [] := List.eq_nil_of_length_eq_zero (by omega)
    rw [this] at h
    cases h
    exact hne rfl
  exact ⟨hn, axis, sz, hax', (splitSizes_ok_iff hn).1 ⟨hsz, by omega, by omega⟩⟩

theorem NoPanic.inferSplit (shape : List Nat) (axisRaw : Int) (attr : Option (List Int)) (n : Nat) :
    NoPanic (inferSplit shape axisRaw attr n) := by
  unfold Layers.inferSplit
  refine .bind (.layerAxis _ _) fun a ha => ?_
  have ha' := (layerAxis_ok _ _ _).1 ha
  refine .bind (.readAt _ ha'.1) fun d _ => .bind (.splitSizes _ _ _) fun sz _ => ?_
  exact .ite (fun _ => .invalid) fun _ => .ite (fun _ => .invalid) fun _ =>
    .mapM fun s _ => .writeAt _ ha'.1

theorem runSplit_ok {α : Type} {axisRaw : Int} {attr : Option (List Int)} {n axis : Nat}
    {sizes : List Nat} (x : Arr α) (hx : x.WF) (hax : AxisOf x.shape.length axisRaw axis)
    (hs : SplitSizes (x.shape.getD axis 0) n attr sizes) (hn : n ≠ 0) :
    ∃ ys, runSplit axisRaw attr n x = .ok ys ∧ axisSizes axis ys = sizes ∧
      IsPartition axis ys x := by
  obtain ⟨maps, ys, h1, h2, h3, h4⟩ := splitMaps_ok x hx hax.1 sizes 0 (by rw [hs.2.1]; omega)
  have hsz := splitMaps_part_sizes hax.1 h3 h4
  refine ⟨ys, ?_, hsz, hx, hax.1, by rw [hsz, hs.2.1], ?_⟩
  · unfold runSplit
    rw [inferSplit_ok hax hs hn, (layerAxis_ok _ _ _).2 hax]
    show (if sizes.map (x.shape.set axis ·) = [] then _ else _) = _
    rw [if_neg (by
      have : sizes.length ≠ 0 := by rw [hs.1]; exact hn
      intro h
      rw [List.map_eq_nil_iff] at h
      simp [h] at this), h1]
    exact h2
  · intro k y hy
    have := h4 k y hy
    have hk := (List.getElem?_eq_some_iff.1 hy).1
    rw [Nat.zero_add] at this
    rw [hsz]
    have hsk : y.shape.getD axis 0 = sizes.getD k 0 := by
      rw [isPart_iff hax.1] at this
      rw [this.1, getD_set _ _ _ _ _ hax.1, if_pos rfl]
    rw [hsk]
    exact this

theorem runSplit_valid {α : Type} {axisRaw : Int} {attr : Option (List Int)} {n : Nat}
    {x : Arr α} {ys : List (Arr α)} (h : runSplit axisRaw attr n x = .ok ys) :
    n ≠ 0 ∧ ∃ axis sizes, AxisOf x.shape.length axisRaw axis ∧
      SplitSizes (x.shape.getD axis 0) n attr sizes := by
  unfold runSplit at h
  obtain ⟨outs, ho, h⟩ := bind_eq_ok h
  obtain ⟨axis, hax, h⟩ := bind_eq_ok h
  split_ifs at h with he
  exact inferSplit_valid ho he

theorem runSplit_noPanic {α : Type} {axisRaw : Int} {attr : Option (List Int)} {n : Nat}
    (x : Arr α) (hx : x.WF) : NoPanic (runSplit axisRaw attr n x) := by
  by_cases hv : n ≠ 0 ∧ ∃ axis sizes, AxisOf x.shape.length axisRaw axis ∧
      SplitSizes (x.shape.getD axis 0) n attr sizes
  · obtain ⟨hn, axis, sizes, h1, h2⟩ := hv
    obtain ⟨ys, h, _⟩ := runSplit_ok x hx h1 h2 hn
    rw [h]; exact .ok _
  · unfold runSplit
    refine .bind (.inferSplit _ _ _ _) fun outs ho => .bind (.layerAxis _ _) fun axis hax => ?_
    by_cases he : outs = []
    · rw [if_pos he]; exact .invalid
    · exact absurd (inferSplit_valid ho he) hv

end JST.Layers
