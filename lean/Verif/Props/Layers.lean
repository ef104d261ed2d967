import Verif.Tensor.SqueezeProofs
import Verif.Tensor.GatherElementsProofs
import Verif.Tensor.PadProofs
import Verif.Tensor.ExpandProofs
import Verif.Tensor.TileProofs
import Verif.Tensor.SliceTotal
import Verif.Tensor.TransposeProofs

/-!
# Data-movement layers: Transpose (C45), Slice (C46), Split and Concat (C47), Tile and Expand (C48),
Pad (C49), Gather and GatherElements (C50), ScatterND (C51), Squeeze and Unsqueeze (C52)

Each `run…` is shape inference, then the layer's `build`, then its `apply`.
-/

namespace JST.Props

open JST.Shape JST.Spec JST.Layers

/-! ## C45: Transpose -/

/-- Transpose moves every element to its permuted coordinates. -/
theorem C45_transpose {α : Type} (attr : Option (List Int)) (x : Arr α) (perm : List Nat) (hx : x.WF)
    (h : PermAttr x.shape.length attr perm) :
    ∃ y, runTranspose attr x = .ok y ∧ IsTranspose perm x y :=
  runTranspose_ok hx h

/-- A permutation attribute of the wrong length, with an entry out of range or twice the same entry
is a reported error. -/
theorem C45_transpose_rejects {α : Type} (attr : Option (List Int)) (x : Arr α)
    (h : ¬ ∃ perm, PermAttr x.shape.length attr perm) : runTranspose attr x = .error .invalid :=
  runTranspose_error h

example : runTranspose (some [1, -2]) (⟨[2, 3], [1, 2, 3, 4, 5, 6]⟩ : Arr Nat)
    = .ok ⟨[3, 2], [1, 4, 2, 5, 3, 6]⟩ := by decide
example : PermAttr 2 (some [1, -2]) [1, 0] := by
  refine ⟨by decide, ?_⟩
  simp [AxisOf]
example : runTranspose (some [1, 1]) (⟨[2, 3], [1, 2, 3, 4, 5, 6]⟩ : Arr Nat) = .error .invalid := by
  decide

/-! ## C46: Slice -/

/-- Slice with positive steps selects, along every axis it names, the positions `start`, `start + step`,
… below `stop` (negative values count from the end, values beyond an end are clamped), and everything
along the others. -/
theorem C46_slice {α : Type} (starts ends : List Int) (axes steps : Option (List Int)) (x : Arr α)
    (nax : List Nat) (hx : x.WF) (hse : starts.length = ends.length)
    (hax : ∀ a ∈ axes, a.length = starts.length) (hst : ∀ s ∈ steps, s.length = starts.length)
    (hpos : ∀ s ∈ steps.getD (List.replicate starts.length 1), 0 < s)
    (hn : AxesOf x.shape.length (axes.getD ((List.range starts.length).map Int.ofNat)) nax) :
    ∃ y, runSlice starts ends axes steps x = .ok y ∧
      IsSlice starts ends (steps.getD (List.replicate starts.length 1)) nax x y :=
  runSlice_ok starts ends axes steps x hx hse hax hst hpos nax hn.2 hn.1

/-- Lists of different lengths, a step that is not positive (so every reversing slice) or an axis out
of range are never accepted. -/
theorem C46_slice_accepts {α : Type} (starts ends : List Int) (axes steps : Option (List Int))
    (x y : Arr α) (h : runSlice starts ends axes steps x = .ok y) :
    starts.length = ends.length ∧ (∀ a ∈ axes, a.length = starts.length) ∧
    (∀ s ∈ steps, s.length = starts.length) ∧
    (∀ s ∈ steps.getD (List.replicate starts.length 1), 0 < s) ∧
    ∃ nax, List.Forall₂ (AxisOf x.shape.length)
      (axes.getD ((List.range starts.length).map Int.ofNat)) nax :=
  runSlice_valid starts ends axes steps x y h

/-- No attributes make a Slice panic. -/
theorem C46_slice_no_panic {α : Type} (starts ends : List Int) (axes steps : Option (List Int))
    (x : Arr α) (hx : x.WF) : runSlice starts ends axes steps x ≠ .error .panic :=
  runSlice_noPanic starts ends axes steps x hx

example : runSlice [1, -3] [100, -1] none (some [1, 2]) (⟨[2, 4], [1, 2, 3, 4, 5, 6, 7, 8]⟩ : Arr Nat)
    = .ok ⟨[1, 1], [6]⟩ := by decide
example : runSlice [-1] [-5] none (some [-1]) (⟨[4], [1, 2, 3, 4]⟩ : Arr Nat) = .error .invalid := by
  decide
example : AxesOf 2 ((none : Option (List Int)).getD ((List.range 2).map Int.ofNat)) [0, 1] := by
  simp [AxesOf, AxisOf, List.range_succ]

/-! ## C47: Split and Concat -/

/-- Split gives consecutive parts of the requested sizes (or equal ones) that make up the input. -/
theorem C47_split {α : Type} (axisRaw : Int) (attr : Option (List Int)) (n axis : Nat)
    (sizes : List Nat) (x : Arr α) (hx : x.WF) (hax : AxisOf x.shape.length axisRaw axis)
    (hs : SplitSizes (x.shape.getD axis 0) n attr sizes) (hn : n ≠ 0) :
    ∃ ys, runSplit axisRaw attr n x = .ok ys ∧ axisSizes axis ys = sizes ∧ IsPartition axis ys x :=
  runSplit_ok x hx hax hs hn

/-- Anything else is a reported error: no outputs, an axis out of range, sizes that are negative, of
the wrong number or not adding up to the dimension. -/
theorem C47_split_rejects {α : Type} (axisRaw : Int) (attr : Option (List Int)) (n : Nat) (x : Arr α)
    (hx : x.WF) (h : ¬ (n ≠ 0 ∧ ∃ axis sizes, AxisOf x.shape.length axisRaw axis ∧
      SplitSizes (x.shape.getD axis 0) n attr sizes)) :
    runSplit axisRaw attr n x = .error .invalid := by
  have hp := runSplit_noPanic (axisRaw := axisRaw) (attr := attr) (n := n) x hx
  cases hr : runSplit axisRaw attr n x with
  | ok ys => exact absurd (runSplit_valid hr) h
  | error e =>
    cases e with
    | invalid => rfl
    | panic => exact absurd hr hp

/-- Concat puts its inputs side by side along the axis. -/
theorem C47_concat {α : Type} [Inhabited α] (axisRaw : Int) (axis rank : Nat) (xs : List (Arr α))
    (hne : xs ≠ []) (hw : ∀ x ∈ xs, x.WF) (hr : ∀ x ∈ xs, x.shape.length = rank)
    (hax : AxisOf rank axisRaw axis) (hs : ConcatShapes axis (xs.map (·.shape))) :
    ∃ y, runConcat axisRaw xs = .ok y ∧ IsPartition axis xs y :=
  runConcat_ok hne hw hr hax hs

/-- No inputs, an axis out of range or shapes that differ elsewhere are a reported error. -/
theorem C47_concat_rejects {α : Type} [Inhabited α] (axisRaw : Int) (xs : List (Arr α))
    (h : ¬ (xs ≠ [] ∧ ∃ axis rank, (∀ x ∈ xs, x.shape.length = rank) ∧ AxisOf rank axisRaw axis ∧
      ConcatShapes axis (xs.map (·.shape)))) :
    runConcat axisRaw xs = .error .invalid := by
  have hp := runConcat_noPanic axisRaw xs
  cases hr : runConcat axisRaw xs with
  | ok y => exact absurd (runConcat_valid hr) h
  | error e =>
    cases e with
    | invalid => rfl
    | panic => exact absurd hr hp

/-- Concatenating the outputs of a Split gives its input back. -/
theorem C47_concat_split {α : Type} [Inhabited α] (axisRaw : Int) (attr : Option (List Int)) (n : Nat)
    (x : Arr α) (hx : x.WF) (ys : List (Arr α)) (h : runSplit axisRaw attr n x = .ok ys) :
    runConcat axisRaw ys = .ok x :=
  runConcat_runSplit hx h

/-- Splitting a concatenation at the sizes of its inputs gives the inputs back. -/
theorem C47_split_concat {α : Type} [Inhabited α] (axisRaw : Int) (axis : Nat) (xs : List (Arr α))
    (y : Arr α) (hw : ∀ x ∈ xs, x.WF) (hax : AxisOf y.shape.length axisRaw axis)
    (h : runConcat axisRaw xs = .ok y) :
    runSplit axisRaw (some ((axisSizes axis xs).map Int.ofNat)) xs.length y = .ok xs :=
  runSplit_runConcat hw hax h

example : runSplit (-1) (some [1, 2]) 2 (⟨[2, 3], [1, 2, 3, 4, 5, 6]⟩ : Arr Nat)
    = .ok [⟨[2, 1], [1, 4]⟩, ⟨[2, 2], [2, 3, 5, 6]⟩] := by decide
example : runConcat 1 [(⟨[2, 1], [1, 4]⟩ : Arr Nat), ⟨[2, 2], [2, 3, 5, 6]⟩]
    = .ok ⟨[2, 3], [1, 2, 3, 4, 5, 6]⟩ := by decide
example : SplitSizes 3 2 (some [1, 2]) [1, 2] := by simp [SplitSizes]
example : AxisOf 2 (-1) 1 := by simp [AxisOf]
example : ConcatShapes 1 [[2, 1], [2, 2]] := by
  intro s hs t ht
  simp only [List.mem_cons, List.not_mem_nil, or_false] at hs ht
  rcases hs with rfl | rfl <;> rcases ht with rfl | rfl <;>
    refine ⟨rfl, fun a ha => ?_⟩ <;> rcases a with _ | _ | a <;> simp_all

/-! ## C48: Tile and Expand -/

/-- Tile repeats the tensor along every axis; fewer repeats than axes apply to the last axes.
Missing for the full statement: empty dimensions, more repeats than axes and repeats of zero, which
are refused although ONNX gives them a meaning. -/
theorem C48_tile_partial {α : Type} [Inhabited α] (repeats : List Int) (x : Arr α) (hx : x.WF)
    (hs : ∀ d ∈ x.shape, d ≠ 0) (hl : repeats.length ≤ x.shape.length) (hr : ∀ r ∈ repeats, 1 ≤ r)
    (hsz : ∀ d ∈ List.zipWith (· * ·) x.shape ((tileReps x.shape.length repeats).map Int.toNat),
      d < 2 ^ 64) :
    ∃ y, runTile repeats x = .ok y ∧ IsTile ((tileReps x.shape.length repeats).map Int.toNat) x y :=
  runTile_ok x hx hs hl hr hsz

/-- Everything else is a reported error. -/
theorem C48_tile_rejects {α : Type} [Inhabited α] (repeats : List Int) (x : Arr α)
    (h : ¬ ((∀ d ∈ x.shape, d ≠ 0) ∧ repeats.length ≤ x.shape.length ∧ (∀ r ∈ repeats, 1 ≤ r) ∧
      ∀ d ∈ List.zipWith (· * ·) x.shape ((tileReps x.shape.length repeats).map Int.toNat),
        d < 2 ^ 64)) :
    runTile repeats x = .error .invalid := by
  have hp := runTile_noPanic repeats x
  cases hr : runTile repeats x with
  | ok y => exact absurd (runTile_valid hr) h
  | error e =>
    cases e with
    | invalid => rfl
    | panic => exact absurd hr hp

/-- Expand broadcasts the tensor to the common shape of its own and the target, empty dimensions
included. -/
theorem C48_expand {α : Type} [Inhabited α] (target : List Int) (x : Arr α) (hx : x.WF)
    (out : List Nat) (ht : ∀ d ∈ target, 0 ≤ d)
    (hb : IsBroadcast x.shape (target.map Int.toNat) out) :
    ∃ y, runExpand target x = .ok y ∧ y.shape = out ∧ Reads x y (srcCoords x.shape) :=
  runExpand_ok hx ht hb

/-- A negative target dimension or a target without a common shape is a reported error. -/
theorem C48_expand_rejects {α : Type} [Inhabited α] (target : List Int) (x : Arr α)
    (h : ¬ ((∀ d ∈ target, 0 ≤ d) ∧ ∃ out, IsBroadcast x.shape (target.map Int.toNat) out)) :
    runExpand target x = .error .invalid :=
  runExpand_error h

example : runTile [3] (⟨[2, 2], [1, 2, 3, 4]⟩ : Arr Nat)
    = .ok ⟨[2, 6], [1, 2, 1, 2, 1, 2, 3, 4, 3, 4, 3, 4]⟩ := by decide
example : runTile [0] (⟨[2], [1, 2]⟩ : Arr Nat) = .error .invalid := by decide
example : runExpand [2, 1, 2] (⟨[2, 1], [1, 2]⟩ : Arr Nat)
    = .ok ⟨[2, 2, 2], [1, 1, 2, 2, 1, 1, 2, 2]⟩ := by decide
example : IsBroadcast [2, 1] [2, 1, 2] [2, 2, 2] := by
  refine ⟨rfl, fun i hi => ?_⟩
  simp only [List.length_cons, List.length_nil] at hi
  have : i = 0 ∨ i = 1 ∨ i = 2 := by omega
  rcases this with rfl | rfl | rfl <;> decide

/-! ## C49: Pad -/

/-- Pad surrounds the tensor with zeros. -/
theorem C49_pad_partial {F : Type} [Zero F] (x : Arr F) (hx : x.WF) (begins ends : List Nat)
    (fill : Option PadValue) (hb : begins.length = x.shape.length)
    (he : ends.length = x.shape.length) (hf : ∀ f ∈ fill, f.value = 0) :
    ∃ y, runPad true ((begins ++ ends).map Int.ofNat) fill x = .ok y ∧ IsZeroPad begins ends x y :=
  runPad_ok hx hb he (by rintro ⟨f, h1, _, h3⟩; exact h3 (hf f h1))

/-- Other modes, negative pads, the wrong number of pads and a fill value known to be different from
zero are reported errors. -/
theorem C49_pad_rejects {F : Type} [Zero F] (constantMode : Bool) (pads : List Int)
    (fill : Option PadValue) (x : Arr F)
    (h : constantMode = false ∨ pads.length ≠ 2 * x.shape.length ∨ (∃ p ∈ pads, p < 0) ∨
      ∃ f ∈ fill, f.found = true ∧ f.value ≠ 0) :
    runPad constantMode pads fill x = .error .invalid := by
  refine runPad_error ?_
  rintro ⟨h1, h2, h3, h4⟩
  rcases h with h | h | ⟨p, hp, h⟩ | h
  · rw [h1] at h; cases h
  · exact h h2
  · exact absurd (h3 p hp) (by omega)
  · exact h4 h

/-- Why the full statement fails: a fill value that is not among the initialisers (produced by
another node) is never looked at, and the padding is zero whatever it is. -/
theorem C49_unresolved_fill_ignored {F : Type} [Zero F] (x : Arr F) (hx : x.WF)
    (begins ends : List Nat) (value : Int) (hb : begins.length = x.shape.length)
    (he : ends.length = x.shape.length) :
    ∃ y, runPad true ((begins ++ ends).map Int.ofNat) (some ⟨false, value⟩) x = .ok y ∧
      IsZeroPad begins ends x y :=
  runPad_ok hx hb he (by rintro ⟨f, h1, h2, _⟩; cases h1; cases h2)

example : runPad true [1, 0, 0, 1] none (⟨[1, 2], [5, 6]⟩ : Arr Nat)
    = .ok ⟨[2, 3], [0, 0, 0, 5, 6, 0]⟩ := by decide
example : runPad true [1, 0] (some ⟨false, 7⟩) (⟨[1], [5]⟩ : Arr Nat) = .ok ⟨[2], [0, 5]⟩ := by decide
example : runPad true [1, 0] (some ⟨true, 7⟩) (⟨[1], [5]⟩ : Arr Nat) = .error .invalid := by decide

/-! ## C50: Gather and GatherElements -/

/-- Gather with in-range indices, negative ones counting from the end. -/
theorem C50_gather {α : Type} (x : Arr α) (hx : x.WF) (idx : Arr Int) (hi : idx.WF) (axisRaw : Int)
    (axis : Nat) (hax : AxisOf x.shape.length axisRaw axis)
    (hv : ∀ v ∈ idx.data, ∃ p, AxisOf (x.shape.getD axis 0) v p) :
    ∃ y, runGather axisRaw idx x = .ok y ∧ IsGather axis idx x y :=
  runGather_ok hx hi hax hv

/-- An index out of range is a reported error whenever something is to be gathered. -/
theorem C50_gather_rejects {α : Type} (x : Arr α) (hx : x.WF) (idx : Arr Int) (axisRaw : Int)
    (axis : Nat) (hax : AxisOf x.shape.length axisRaw axis)
    (hne : (x.shape.take axis).prod ≠ 0) (v : Int) (hvm : v ∈ idx.data)
    (hv : ¬ ∃ p, AxisOf (x.shape.getD axis 0) v p) :
    runGather axisRaw idx x = .error .invalid :=
  runGather_index_error hx hax hne hvm hv

theorem C50_gather_no_panic {α : Type} (x : Arr α) (hx : x.WF) (axisRaw : Int) (idx : Arr Int) :
    runGather axisRaw idx x ≠ .error .panic :=
  runGather_noPanic hx axisRaw idx

/-- GatherElements with constant indices whose other dimensions do not exceed the data's. Missing for
the full statement: larger index tensors should be refused; `C50_gather_elements_wrong_row` shows they
are not. -/
theorem C50_gather_elements_partial {α : Type} (x : Arr α) (hx : x.WF) (idx : Arr Int) (hi : idx.WF)
    (axisRaw : Int) (axis : Nat) (hax : AxisOf x.shape.length axisRaw axis)
    (hl : idx.shape.length = x.shape.length)
    (hd : ∀ a, a < x.shape.length → a ≠ axis → idx.shape.getD a 0 ≤ x.shape.getD a 0)
    (hv : ∀ v ∈ idx.data, ∃ p, AxisOf (x.shape.getD axis 0) v p) :
    ∃ y, runGatherElements axisRaw idx x = .ok y ∧ IsGatherElements axis idx x y :=
  runGatherElements_ok hx hi hax hl hd hv

theorem C50_gather_elements_rejects {α : Type} (x : Arr α) (idx : Arr Int) (hi : idx.WF)
    (axisRaw : Int) (h : ¬ ∃ axis, AxisOf x.shape.length axisRaw axis ∧
      idx.shape.length = x.shape.length ∧ ∀ v ∈ idx.data, ∃ p, AxisOf (x.shape.getD axis 0) v p) :
    runGatherElements axisRaw idx x = .error .invalid :=
  runGatherElements_error hi h

/-- The other dimensions of the indices are not compared with the data's: with one index column more
than the data has, the extra column silently reads the first column of the next row. Holds for every
data matrix with at least two rows. -/
theorem C50_gather_elements_wrong_row {α : Type} (m n : Nat) (x : Arr α) (hx : x.WF)
    (hs : x.shape = [m + 2, n + 1]) :
    ∃ y, runGatherElements 0 ⟨[1, n + 2], List.replicate (n + 2) 0⟩ x = .ok y ∧
      y.shape = [1, n + 2] ∧ elem y [0, n + 1] = elem x [1, 0] := by
  have hax : AxisOf x.shape.length 0 0 := by rw [hs]; exact ⟨by simp, .inl rfl⟩
  have hdim : x.shape.getD 0 0 = m + 2 := by rw [hs]; rfl
  have hzero : AxisOf (x.shape.getD 0 0) 0 0 := by rw [hdim]; exact ⟨by omega, .inl rfl⟩
  have hlen : x.data.length = (m + 2) * (n + 1) := by
    rw [show x.data.length = x.shape.prod from hx, hs]; simp
  have hbig : 2 * (n + 1) ≤ (m + 2) * (n + 1) := Nat.mul_le_mul_right _ (by omega)
  have hent : ∀ c, InRange [1, n + 2] c →
      elem (⟨[1, n + 2], List.replicate (n + 2) 0⟩ : Arr Int) c = some 0 := by
    intro c hc
    have := rowMajor_lt hc
    unfold elem
    simp only
    rw [List.getElem?_replicate, if_pos (by simpa using this)]
  obtain ⟨y, h1, h2, h3, h4⟩ := runGatherElements_raw (x := x)
    (idx := ⟨[1, n + 2], List.replicate (n + 2) 0⟩) (by simp [Arr.WF]) hax (by rw [hs]; rfl)
    (by
      intro v hv
      rw [List.eq_of_mem_replicate hv]
      exact ⟨0, hzero⟩)
    (by
      intro c v p hc hv hp
      rw [hent c hc] at hv
      cases hv
      rw [AxisOf_unique hp hzero, hs, hlen]
      rcases hc with _ | ⟨ha, _ | ⟨hb, _ | _⟩⟩
      simp only [List.set_cons_zero, rowMajor, List.prod_cons, List.prod_nil]
      omega)
  refine ⟨y, h1, h3, ?_⟩
  have hc : InRange [1, n + 2] [0, n + 1] := .cons (by omega) (.cons (by omega) .nil)
  rw [h4 _ 0 0 hc (hent _ hc) hzero]
  unfold elem
  rw [hs]
  simp [rowMajor]

example : runGather 1 ⟨[2], [-1, 0]⟩ (⟨[2, 3], [1, 2, 3, 4, 5, 6]⟩ : Arr Nat)
    = .ok ⟨[2, 2], [3, 1, 6, 4]⟩ := by decide
example : runGather 1 ⟨[2], [3, 0]⟩ (⟨[2, 3], [1, 2, 3, 4, 5, 6]⟩ : Arr Nat) = .error .invalid := by
  decide
example : runGatherElements 0 ⟨[1, 2], [1, -2]⟩ (⟨[2, 2], [1, 2, 3, 4]⟩ : Arr Nat)
    = .ok ⟨[1, 2], [3, 2]⟩ := by decide
example : runGatherElements 0 ⟨[1, 3], [0, 0, 0]⟩ (⟨[2, 2], [1, 2, 3, 4]⟩ : Arr Nat)
    = .ok ⟨[1, 3], [1, 2, 3]⟩ := by decide

/-! ## C51: ScatterND -/

/-- ScatterND with in-range indices: every element named by index tuples takes the update of the last
one, the others are kept. `order` is the order in which `apply` walks its hash map: the result does
not depend on it. Missing for the full statement: indices out of range and updates of another shape
should be refused; the two theorems below show they are not. -/
theorem C51_scatter_nd_partial {α : Type} (x upd : Arr α) (idx : Arr Int) (k : Nat) (hx : x.WF)
    (hi : idx.WF) (hu : upd.WF) (hlast : idx.shape.getLast? = some k) (hk : k ≤ x.shape.length)
    (hus : upd.shape = idx.shape.dropLast ++ x.shape.drop k)
    (hd : ∀ d ∈ x.shape, d < 2 ^ 64) (hp : x.shape.prod < 2 ^ 64)
    (hv : ∀ q j, InRange idx.shape.dropLast q → j < k →
      ∃ v p, elem idx (q ++ [j]) = some v ∧ AxisOf (x.shape.getD j 0) v p) :
    ∃ m, buildScatter x.shape idx = .ok m ∧ ∀ order, order.Perm m →
      ∃ y, applyScatter order x.shape x upd = .ok y ∧ IsScatterND k idx upd x y := by
  refine scatter_ok hx hi hu hlast hk hus hd hp ?_
  intro q j hq hj
  have hjk : j < k := by rw [List.length_take] at hj; omega
  obtain ⟨v, p, h1, h2⟩ := hv q j hq hjk
  refine ⟨v, p, h1, ?_⟩
  rw [List.getD_eq_getElem?_getD, List.getElem?_take, if_pos hjk, ← List.getD_eq_getElem?_getD]
  exact h2

/-- An index out of range is not refused: in a matrix with `n` columns, the update for row `i` and
column `n + j` (`j < n`) is written to row `i + 1`, column `j`. -/
theorem C51_out_of_range_writes_elsewhere {α : Type} (m n : Nat) (data : List α) (i j : Nat) (v : α)
    (hx : data.length = m * n) (hm : m * n < 2 ^ 64) (hn : n < 2 ^ 64) (hi : i + 1 < m) (hj : j < n) :
    ∃ es y, buildScatter [m, n] ⟨[1, 2], [(i : Int), ((n + j : Nat) : Int)]⟩ = .ok es ∧
      applyScatter es [m, n] ⟨[m, n], data⟩ ⟨[1], [v]⟩ = .ok y ∧ elem y [i + 1, j] = some v := by
  have hle : (i + 2) * n ≤ m * n := Nat.mul_le_mul_right _ (by omega)
  have e1 : (i + 1) * n = i * n + n := by rw [Nat.succ_mul]
  have e2 : (i + 2) * n = i * n + n + n := by rw [Nat.succ_mul, Nat.succ_mul]
  obtain ⟨es, h1, h2⟩ := scatter_pair m n data i (n + j) v hx hm hn (by omega)
  refine ⟨es, _, h1, h2, ?_⟩
  unfold elem
  simp only [rowMajor, List.prod_cons, List.prod_nil, Nat.mul_one, Nat.add_zero]
  rw [show (i + 1) * n + j = i * n + (n + j) from by omega]
  exact List.getElem?_set_self (by omega)

/-- The shape of the updates is not checked: with no updates at all nothing is written, whatever the
indices are. -/
theorem C51_missing_updates_ignored {α : Type} (es : List (Nat × Nat)) (x : Arr α) (hx : x.WF) :
    applyScatter es x.shape x ⟨[0], []⟩ = .ok x :=
  scatter_no_updates es x hx

theorem C51_no_panic (dataShape : List Nat) (idx : Arr Int) (hi : idx.WF) :
    buildScatter dataShape idx ≠ .error .panic :=
  buildScatter_noPanic dataShape hi

example : (do
    let m ← buildScatter [3, 2] ⟨[2, 1], [-1, 0]⟩
    applyScatter m [3, 2] (⟨[3, 2], [1, 2, 3, 4, 5, 6]⟩ : Arr Nat) ⟨[2, 2], [10, 20, 30, 40]⟩)
    = .ok ⟨[3, 2], [30, 40, 3, 4, 10, 20]⟩ := by decide
/-- The later of two updates of one element wins. -/
example : (do
    let m ← buildScatter [3] ⟨[2, 1], [1, 1]⟩
    applyScatter m [3] (⟨[3], [1, 2, 3]⟩ : Arr Nat) ⟨[2], [10, 20]⟩) = .ok ⟨[3], [1, 20, 3]⟩ := by decide
example : (do
    let m ← buildScatter [3, 2] ⟨[1, 2], [0, 3]⟩
    applyScatter m [3, 2] (⟨[3, 2], [1, 2, 3, 4, 5, 6]⟩ : Arr Nat) ⟨[1], [10]⟩)
    = .ok ⟨[3, 2], [1, 2, 3, 10, 5, 6]⟩ := by decide

/-! ## C52: Squeeze and Unsqueeze -/

/-- Squeeze with axes removes exactly those axes, which must be of size one. -/
theorem C52_squeeze {α : Type} (x : Arr α) (raw : List Int) (axes : List Nat) (hx : x.WF)
    (hr : (x.shape.length : Int) < i64Max) (ha : AxesOf x.shape.length raw axes)
    (hu : ∀ a ∈ axes, x.shape[a]? = some 1) :
    ∃ y, applySqueeze (some raw) x = .ok y ∧ IsSqueeze axes x y :=
  applySqueeze_some hx hr ha hu

/-- Axes out of range, repeated or not of size one are a reported error. -/
theorem C52_squeeze_rejects {α : Type} (x : Arr α) (raw : List Int)
    (hr : (x.shape.length : Int) < i64Max)
    (h : ¬ ∃ axes, AxesOf x.shape.length raw axes ∧ ∀ a ∈ axes, x.shape[a]? = some 1) :
    applySqueeze (some raw) x = .error .invalid :=
  applySqueeze_some_error hr h

/-- Squeeze without axes removes exactly the axes of size one. -/
theorem C52_squeeze_all {α : Type} (x : Arr α) (hx : x.WF) :
    ∃ y axes, applySqueeze none x = .ok y ∧ IsSqueeze axes x y ∧
      ∀ a, a ∈ axes ↔ x.shape[a]? = some 1 := by
  obtain ⟨y, h1, h2⟩ := applySqueeze_none hx
  refine ⟨y, _, h1, h2, fun a => ⟨h2.2.1 a, fun h => ?_⟩⟩
  obtain ⟨hl, he⟩ := List.getElem?_eq_some_iff.1 h
  simp only [unitAxes, List.mem_filter, List.mem_range, decide_eq_true_eq]
  exact ⟨hl, by rw [List.getD_eq_getElem _ _ hl, he]⟩

/-- Unsqueeze inserts axes of size one at the given positions of the output. -/
theorem C52_unsqueeze {α : Type} (x : Arr α) (raw : List Int) (axes : List Nat) (hx : x.WF)
    (hr : ((x.shape.length + raw.length : Nat) : Int) < i64Max)
    (ha : AxesOf (x.shape.length + raw.length) raw axes) :
    ∃ y, applyUnsqueeze raw x = .ok y ∧ y.shape.length = x.shape.length + raw.length ∧
      y.WF ∧ IsSqueeze axes y x :=
  applyUnsqueeze_ok hx hr ha

theorem C52_unsqueeze_rejects {α : Type} (x : Arr α) (raw : List Int)
    (hr : ((x.shape.length + raw.length : Nat) : Int) < i64Max)
    (h : ¬ ∃ axes, AxesOf (x.shape.length + raw.length) raw axes) :
    applyUnsqueeze raw x = .error .invalid :=
  applyUnsqueeze_error hr h

/-- The two are inverse of each other. -/
theorem C52_squeeze_unsqueeze {α : Type} (x : Arr α) (raw : List Int) (axes : List Nat) (hx : x.WF)
    (hr : ((x.shape.length + raw.length : Nat) : Int) < i64Max)
    (ha : AxesOf (x.shape.length + raw.length) raw axes) :
    ∃ y, applyUnsqueeze raw x = .ok y ∧ applySqueeze (some raw) y = .ok x :=
  squeeze_unsqueeze hx hr ha

theorem C52_unsqueeze_squeeze {α : Type} (x : Arr α) (raw : List Int) (axes : List Nat) (hx : x.WF)
    (hr : (x.shape.length : Int) < i64Max) (ha : AxesOf x.shape.length raw axes)
    (hu : ∀ a ∈ axes, x.shape[a]? = some 1) :
    ∃ y, applySqueeze (some raw) x = .ok y ∧ applyUnsqueeze raw y = .ok x :=
  unsqueeze_squeeze hx hr ha hu

example : applySqueeze (some [-1]) (⟨[1, 2, 1], [5, 6]⟩ : Arr Nat) = .ok ⟨[1, 2], [5, 6]⟩ := by decide
example : applySqueeze none (⟨[1, 2, 1], [5, 6]⟩ : Arr Nat) = .ok ⟨[2], [5, 6]⟩ := by decide
example : applyUnsqueeze [0, -1] (⟨[2], [5, 6]⟩ : Arr Nat) = .ok ⟨[1, 2, 1], [5, 6]⟩ := by decide
example : AxesOf 3 [0, -1] [0, 2] := by
  simp [AxesOf, AxisOf]

end JST.Props
