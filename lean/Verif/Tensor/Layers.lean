import Verif.Tensor.Shape
import Mathlib.Data.List.Basic

/-!
# Data-movement layers

Shape inference (rust/jstprove_onnx/src/shape_inference.rs) together with `build` and `apply` of the
layers that only move values (rust/jstprove_circuits/src/circuit_functions/layers): Transpose, Slice,
Split, Concat, Tile, Expand, Pad, Gather, GatherElements with constant indices, ScatterND, Squeeze and
Unsqueeze.

Conventions. Attributes and constant tensors are already parsed; an optional attribute is an `Option`.
A slice index out of bounds is `Err.panic`, a returned error is `Err.invalid`. `usize` sums and
products are natural numbers (sizes of arrays that fit in memory), except where a comment says so.
-/

namespace JST.Layers

open JST.Shape

/-- `ArrayD::from_shape_vec`: fails unless the length is the number of elements. -/
def fromShapeVec {α : Type} (shape : List Nat) (data : List α) : R (Arr α) :=
  if data.length = shape.prod then .ok ⟨shape, data⟩ else .error .invalid

/-- `v[i]`, failing with `e` when out of bounds. -/
def readAt {α : Type} (e : Shape.Err) (v : List α) (i : Nat) : R α :=
  match v[i]? with
  | some x => .ok x
  | none => .error e

/-- `v[i] = x`, panicking when out of bounds. -/
def writeAt {α : Type} (v : List α) (i : Nat) (x : α) : R (List α) :=
  if i < v.length then .ok (v.set i x) else .error .panic

/-- `ravel`, transpose.rs:56-64, slice.rs:58-66, pad.rs:54-62, split.rs:50-58: the loop indexes
`coords` by every axis of `shape`. -/
def ravelR (coords shape : List Nat) : R Nat :=
  match ravel coords shape with
  | some i => .ok i
  | none => .error .panic

/-- Selecting by a precomputed index map and reshaping: `apply` of Transpose (transpose.rs:101-142,
`e = invalid`), Slice (slice.rs:171-206) and one output of Split (split.rs:108-134) (`e = panic`). -/
def applyMap {α : Type} (e : Shape.Err) (map : List Nat) (shape : List Nat) (x : Arr α) : R (Arr α) := do
  let data ← map.mapM (readAt e x.data)
  fromShapeVec shape data

/-! ## Transpose -/

/-- One entry of `perm`, shape_inference.rs:1841-1853 and transpose.rs:206-220. A negative entry below
`-rank` becomes a huge `usize` in transpose.rs and is refused by the same comparison. -/
def permEntry (rank : Nat) (a : Int) : R Nat :=
  let n := if a < 0 then (rank : Int) + a else a
  if n < 0 ∨ n ≥ rank then .error .invalid else .ok n.toNat

/-- The permutation, shape_inference.rs:1839-1877 and transpose.rs:200-241: default is the reversed
order; the length must be the rank and the entries distinct. -/
def resolvePerm (rank : Nat) (attr : Option (List Int)) : R (List Nat) := do
  let perm ← match attr with
    | some raw => raw.mapM (permEntry rank)
    | none => .ok (List.range rank).reverse
  if perm.length ≠ rank then .error .invalid
  else if ¬ perm.Nodup then .error .invalid
  else .ok perm

/-- `infer_transpose`, shape_inference.rs:1826-1885. -/
def inferTranspose (shape : List Nat) (attr : Option (List Int)) : R (List Nat) := do
  let perm ← resolvePerm shape.length attr
  perm.mapM (readAt .panic shape)

/-- The inverse permutation of `build_index_map`, transpose.rs:79-82. -/
def invPerm (perm : List Nat) : R (List Nat) :=
  perm.zipIdx.foldlM (fun v pi => writeAt v pi.1 pi.2) (List.replicate perm.length 0)

/-- `build_index_map`, transpose.rs:70-95. -/
def transposeMap (inShape perm : List Nat) : R (List Nat) := do
  let out ← perm.mapM (readAt .panic inShape)
  let inv ← invPerm perm
  (List.range out.prod).mapM fun flat => do
    let oc := unravel flat out
    let ic ← (List.range inShape.length).mapM fun p => do
      let q ← readAt .panic inv p
      readAt .panic oc q
    ravelR ic inShape

/-- `TransposeLayer::build`, transpose.rs:150-276, returning the index map. -/
def buildTranspose (inShape : List Nat) (attr : Option (List Int)) (outShape : List Nat) :
    R (List Nat) := do
  let perm ← resolvePerm inShape.length attr
  let expected ← perm.mapM (readAt .panic inShape)
  if expected ≠ outShape then .error .invalid
  else do
    let map ← transposeMap inShape perm
    if map.any (fun i => i ≥ inShape.prod) then .error .invalid else .ok map

/-- Transpose: shape inference, `build` and `apply` (transpose.rs:101-142). -/
def runTranspose {α : Type} (attr : Option (List Int)) (x : Arr α) : R (Arr α) := do
  let out ← inferTranspose x.shape attr
  let map ← buildTranspose x.shape attr out
  applyMap .invalid map out x

/-! ## Slice -/

/-- `i64::clamp`. -/
def clampI (x lo hi : Int) : Int := max lo (min x hi)

/-- A start or end of a slice: add the dimension to a negative value, then clamp to `[0, dim]`,
shape_inference.rs:2108-2118 and slice.rs:111-125. -/
def sliceBound (dim : Nat) (v : Int) : Nat :=
  (clampI (if v < 0 then (dim : Int) + v else v) 0 dim).toNat

/-- `a.div_ceil(b)`. -/
def divCeil (a b : Nat) : Nat := (a + b - 1) / b

/-- The loop of `infer_slice`, shape_inference.rs:2080-2140. -/
def inferSliceLoop (inShape : List Nat) (starts ends steps : List Int) :
    List (Int × Nat) → List Nat → R (List Nat)
  | [], out => .ok out
  | (axisRaw, i) :: rest, out => do
    let axis ← normAxis inShape.length axisRaw
    let dim ← readAt .panic inShape axis
    let start := sliceBound dim (starts.getD i 0)
    let stop := sliceBound dim (ends.getD i dim)
    let step := steps.getD i 1
    if step ≤ 0 then .error .invalid
    else do
      let out ← writeAt out axis
        (if start < stop then divCeil (stop - start) step.toNat else 0)
      inferSliceLoop inShape starts ends steps rest out

/-- Default axes: `0, …, starts.len() - 1`, shape_inference.rs:2076 and slice.rs:335-341. -/
def sliceAxes (starts : List Int) (axes : Option (List Int)) : List Int :=
  axes.getD ((List.range starts.length).map Int.ofNat)

/-- Default steps: ones, shape_inference.rs:2077 and slice.rs:344-350. -/
def sliceSteps (starts : List Int) (steps : Option (List Int)) : List Int :=
  steps.getD (List.replicate starts.length 1)

/-- `infer_slice`, shape_inference.rs:1982-2147, for constant `starts`, `ends`, `axes`, `steps` (when
one of them is not constant, shape inference returns the input shape and `build` fails to read it). -/
def inferSlice (inShape : List Nat) (starts ends : List Int) (axes steps : Option (List Int)) :
    R (List Nat) :=
  if starts.length ≠ ends.length then .error .invalid
  else if ∃ a ∈ axes, a.length ≠ starts.length then .error .invalid
  else if ∃ s ∈ steps, s.length ≠ starts.length then .error .invalid
  else inferSliceLoop inShape starts ends (sliceSteps starts steps)
    (sliceAxes starts axes).zipIdx inShape

/-- The length `build_index_map` computes for an axis, slice.rs:126-142. -/
def sliceLen (s e : Nat) (step : Int) : Nat :=
  if step > 0 then
    if e > s then divCeil (e - s) step.toNat else 0
  else
    if s > e then divCeil (s - e) (-step).toNat else 0

/-- The per-axis loop of `build_index_map`, slice.rs:91-152: start and step of every axis. -/
def sliceLoop (inShape outShape : List Nat) (starts ends steps : List Int) :
    List (Int × Nat) → List (Int × Int) → R (List (Int × Int))
  | [], acc => .ok acc
  | (axisRaw, i) :: rest, acc => do
    let axis ← normAxis inShape.length axisRaw
    let dim ← readAt .panic inShape axis
    let s := sliceBound dim (starts.getD i 0)
    let step := steps.getD i 1
    if step = 0 then .error .invalid
    else do
      let e := sliceBound dim (ends.getD i dim)
      let o ← readAt .panic outShape axis
      if sliceLen s e step ≠ o then .error .invalid
      else do
        let acc ← writeAt acc axis ((s : Int), step)
        sliceLoop inShape outShape starts ends steps rest acc

/-- One coordinate, slice.rs:159-169: out of the input's range is an error. -/
def sliceCoord (dim : Nat) (startStep : Int × Int) (oc : Nat) : R Nat :=
  let coord := startStep.1 + (oc : Int) * startStep.2
  if coord < 0 ∨ coord ≥ dim then .error .invalid else .ok coord.toNat

/-- `build_index_map`, slice.rs:77-175. -/
def buildSlice (inShape outShape : List Nat) (starts ends axes steps : List Int) :
    R (List Nat) := do
  let sel ← sliceLoop inShape outShape starts ends steps axes.zipIdx
    (List.replicate inShape.length (0, 1))
  (List.range outShape.prod).mapM fun flat => do
    let oc := unravel flat outShape
    let ic ← (List.range inShape.length).mapM fun ax => do
      let ss ← readAt .panic sel ax
      let o ← readAt .panic oc ax
      let dim ← readAt .panic inShape ax
      sliceCoord dim ss o
    ravelR ic inShape

/-- Slice: shape inference, `build` (slice.rs:209-366) and `apply` (slice.rs:180-206). -/
def runSlice {α : Type} (starts ends : List Int) (axes steps : Option (List Int)) (x : Arr α) :
    R (Arr α) := do
  let out ← inferSlice x.shape starts ends axes steps
  let map ← buildSlice x.shape out starts ends (sliceAxes starts axes) (sliceSteps starts steps)
  applyMap .panic map out x

/-! ## Split -/

/-- The axis of Split and Concat: shape_inference.rs:2594-2620, 1908-1926, split.rs:157-183,
concat.rs:95-121. Same as `normAxis`. -/
def layerAxis (rank : Nat) (raw : Int) : R Nat :=
  if raw < 0 then
    let a := (rank : Int) + raw
    if a < 0 then .error .invalid else .ok a.toNat
  else if raw.toNat ≥ rank then .error .invalid else .ok raw.toNat

/-- The sizes of `infer_split`, shape_inference.rs:2631-2675: the given ones must not be negative;
without them the dimension must divide evenly. -/
def splitSizes (dim n : Nat) : Option (List Int) → R (List Nat)
  | some v => if v.any (· < 0) then .error .invalid else .ok (v.map Int.toNat)
  | none =>
    if n = 0 then .error .invalid
    else if dim % n ≠ 0 then .error .invalid
    else .ok (List.replicate n (dim / n))

/-- `infer_split`, shape_inference.rs:2581-2695. `sizes` are those of the second input or the `split`
attribute. The sum is a natural number (simplification: `usize` wrap-around is not modelled). -/
def inferSplit (inShape : List Nat) (axisRaw : Int) (sizes : Option (List Int)) (n : Nat) :
    R (List (List Nat)) := do
  let axis ← layerAxis inShape.length axisRaw
  let dim ← readAt .panic inShape axis
  let sz ← splitSizes dim n sizes
  if sz.length ≠ n then .error .invalid
  else if sz.sum ≠ dim then .error .invalid
  else sz.mapM fun s => writeAt inShape axis s

/-- `build_split_index_map`, split.rs:63-77. -/
def splitMap (inShape : List Nat) (axis offset : Nat) (outShape : List Nat) : R (List Nat) :=
  (List.range outShape.prod).mapM fun flat => do
    let oc := unravel flat outShape
    let v ← readAt .panic oc axis
    let ic ← writeAt oc axis (v + offset)
    ravelR ic inShape

/-- The loop of `SplitLayer::build`, split.rs:196-213: the offset moves by the size along the axis. -/
def splitMaps (inShape : List Nat) (axis : Nat) : Nat → List (List Nat) →
    R (List (List Nat × List Nat))
  | _, [] => .ok []
  | offset, out :: outs => do
    let map ← splitMap inShape axis offset out
    let d ← readAt .panic out axis
    let rest ← splitMaps inShape axis (offset + d) outs
    .ok ((map, out) :: rest)

/-- Split: shape inference, `build` (split.rs:137-219) and `apply_multi` (split.rs:95-134). -/
def runSplit {α : Type} (axisRaw : Int) (sizes : Option (List Int)) (n : Nat) (x : Arr α) :
    R (List (Arr α)) := do
  let outs ← inferSplit x.shape axisRaw sizes n
  let axis ← layerAxis x.shape.length axisRaw
  if outs = [] then .error .invalid
  else do
    let maps ← splitMaps x.shape axis 0 outs
    maps.mapM fun mo => applyMap .panic mo.1 mo.2 x

/-! ## Concat, Tile and Expand -/

/-- Which array of a concatenation holds index `i` of the axis, and its index there. -/
def locate {α : Type} (axis : Nat) : List (Arr α) → Nat → Option (Arr α × Nat)
  | [], _ => none
  | a :: as, i =>
    let d := a.shape.getD axis 0
    if i < d then some (a, i) else locate axis as (i - d)

/-- `ndarray::concatenate(Axis(axis), views)` (the library's documented contract): the shapes must
agree except along the axis; the result's element at index `i` of the axis is that of the array whose
range contains `i`. An empty list or an axis out of range is an error. -/
def concatenate {α : Type} [Inhabited α] (axis : Nat) (xs : List (Arr α)) : R (Arr α) :=
  match xs with
  | [] => .error .invalid
  | x :: rest =>
    if x.shape.length ≤ axis then .error .invalid
    else if rest.any (fun y => y.shape.length ≠ x.shape.length ∨
        (y.shape.set axis 0) ≠ (x.shape.set axis 0)) then .error .invalid
    else
      let out := x.shape.set axis ((x :: rest).map fun a => a.shape.getD axis 0).sum
      .ok ⟨out, (List.range out.prod).map fun flat =>
        let c := unravel flat out
        match locate axis (x :: rest) (c.getD axis 0) with
        | some (a, i) => a.data.getD ((ravel (c.set axis i) a.shape).getD 0) default
        | none => default⟩

/-- The loop of `infer_concat`, shape_inference.rs:1930-1972, over the inputs after the first. The sum
is a natural number (simplification: `checked_add` never fails). -/
def inferConcatLoop (axis : Nat) (first : List Nat) : List (List Nat) → List Nat → R (List Nat)
  | [], out => .ok out
  | s :: rest, out =>
    if s.length ≠ first.length then .error .invalid
    else if (List.range first.length).any (fun i => i ≠ axis ∧ s.getD i 0 ≠ first.getD i 0) then
      .error .invalid
    else do
      let a ← readAt .panic out axis
      let b ← readAt .panic s axis
      let out ← writeAt out axis (a + b)
      inferConcatLoop axis first rest out

/-- `infer_concat`, shape_inference.rs:1893-1980. -/
def inferConcat (shapes : List (List Nat)) (axisRaw : Int) : R (List Nat) :=
  match shapes with
  | [] => .error .invalid
  | first :: rest => do
    let axis ← layerAxis first.length axisRaw
    inferConcatLoop axis first rest first

/-- Concat: shape inference, `build` (concat.rs:72-129) and `apply` (concat.rs:36-65). The layer keeps
no output shape; the shape is that of the concatenation. -/
def runConcat {α : Type} [Inhabited α] (axisRaw : Int) (xs : List (Arr α)) : R (Arr α) :=
  match xs with
  | [] => .error .invalid
  | x :: _ => do
    let _ ← inferConcat (xs.map (·.shape)) axisRaw
    let axis ← layerAxis x.shape.length axisRaw
    concatenate axis xs

/-- `infer_tile`, shape_inference.rs:1524-1598: short `repeats` are padded with ones on the left;
`checked_mul` overflow is an error. -/
def inferTile (inShape : List Nat) (repeats : List Int) : R (List Nat) :=
  if repeats.length > inShape.length then .error .invalid
  else
    (inShape.zip (List.replicate (inShape.length - repeats.length) 1 ++ repeats)).mapM fun dr =>
      if dr.2 < 1 then (.error .invalid : R Nat)
      else if dr.1 * dr.2.toNat < usizeMax then .ok (dr.1 * dr.2.toNat) else .error .invalid

/-- `TileLayer::build`, tile.rs:66-148: the repeats are the quotients of the output and input
dimensions. -/
def buildTile (inShape outShape : List Nat) : R (List Nat) :=
  if inShape.length ≠ outShape.length then .error .invalid
  else (outShape.zip inShape).mapM fun oi =>
    if oi.1 = 0 then (.error .invalid : R Nat)
    else if oi.2 = 0 then .error .invalid
    else if oi.1 % oi.2 ≠ 0 then .error .invalid
    else .ok (oi.1 / oi.2)

/-- `TileLayer::apply`, tile.rs:22-63: concatenate copies of the current result along every axis. -/
def applyTile {α : Type} [Inhabited α] : List (Nat × Nat) → Arr α → R (Arr α)
  | [], x => .ok x
  | (rep, ax) :: rest, x =>
    if rep = 0 then .error .invalid
    else if rep = 1 then applyTile rest x
    else do
      let y ← concatenate ax (List.replicate rep x)
      applyTile rest y

/-- Tile: shape inference, `build` and `apply`. -/
def runTile {α : Type} [Inhabited α] (repeats : List Int) (x : Arr α) : R (Arr α) := do
  let out ← inferTile x.shape repeats
  let reps ← buildTile x.shape out
  applyTile reps.zipIdx x

/-- The dimension of `a` at position `i` of a result of rank `r`, shape_inference.rs:1141-1145:
missing leading dimensions are one. -/
def leadDim (a : List Nat) (r i : Nat) : Nat :=
  if i < r - a.length then 1 else a.getD (i - (r - a.length)) 0

/-- `broadcast_shapes`, shape_inference.rs:1136-1162. -/
def broadcastShapes (a b : List Nat) : R (List Nat) :=
  let r := max a.length b.length
  (List.range r).mapM fun i =>
    let da := leadDim a r i
    let db := leadDim b r i
    if da = db then (.ok da : R Nat)
    else if da = 1 then .ok db
    else if db = 1 then .ok da
    else .error .invalid

/-- `infer_expand`, shape_inference.rs:2275-2334. -/
def inferExpand (inShape : List Nat) (target : List Int) : R (List Nat) :=
  if target.any (· < 0) then .error .invalid
  else broadcastShapes inShape (target.map Int.toNat)

/-- `ExpandLayer::apply`, expand.rs:42-108: an input of smaller rank is first reshaped with leading
ones, then `ndarray`'s `broadcast`. -/
def applyExpand {α : Type} [Inhabited α] (out : List Nat) (x : Arr α) : R (Arr α) :=
  if x.shape.length > out.length then .error .invalid
  else if x.shape.length < out.length then do
    let y ← fromShapeVec (List.replicate (out.length - x.shape.length) 1 ++ x.shape) x.data
    broadcastArray y out
  else broadcastArray x out

/-- Expand: shape inference and `apply` (`build`, expand.rs:110-208, takes the inferred shape). -/
def runExpand {α : Type} [Inhabited α] (target : List Int) (x : Arr α) : R (Arr α) := do
  let out ← inferExpand x.shape target
  applyExpand out x

/-! ## Pad -/

/-- One dimension of `infer_pad`, shape_inference.rs:2554-2570. -/
def padDim (inShape : List Nat) (pads : List Int) (i : Nat) : R Nat := do
  let b ← readAt .panic pads i
  let e ← readAt .panic pads (inShape.length + i)
  if b < 0 ∨ e < 0 then .error .invalid
  else do
    let d ← readAt .panic inShape i
    .ok (d + b.toNat + e.toNat)

/-- `infer_pad`, shape_inference.rs:2517-2574. -/
def inferPad (inShape : List Nat) (pads : List Int) : R (List Nat) :=
  if pads.length ≠ 2 * inShape.length then .error .invalid
  else (List.range inShape.length).mapM (padDim inShape pads)

/-- The input coordinates of `build_pad_index_map`, pad.rs:74-83: `None` at a padded position. -/
def padCoords (inShape begins oc : List Nat) : List Nat → R (Option (List Nat))
  | [] => .ok (some [])
  | ax :: axes => do
    let o ← readAt .panic oc ax
    let b ← readAt .panic begins ax
    let d ← readAt .panic inShape ax
    if o < b then .ok none
    else if o - b < d then do
      let rest ← padCoords inShape begins oc axes
      .ok (rest.map ((o - b) :: ·))
    else .ok none

/-- `build_pad_index_map`, pad.rs:64-87. -/
def padMap (inShape outShape begins : List Nat) : R (List (Option Nat)) :=
  (List.range outShape.prod).mapM fun flat => do
    let c ← padCoords inShape begins (unravel flat outShape) (List.range inShape.length)
    match c with
    | none => .ok none
    | some ic => do
      let i ← ravelR ic inShape
      .ok (some i)

/-- The fill value of Pad (its third input): whether `build` finds it among the initialisers, and the
value. -/
structure PadValue where
  found : Bool
  value : Int

/-- `PadLayer::build`, pad.rs:129-289: only mode `constant`, only a fill value of zero, and no
negative pads; a fill value that is not among the initialisers is not looked at (pad.rs:253-266). -/
def buildPad (inShape outShape : List Nat) (constantMode : Bool) (pads : List Int)
    (fill : Option PadValue) : R (List (Option Nat)) :=
  if ¬ constantMode then .error .invalid
  else if pads.length ≠ 2 * inShape.length then .error .invalid
  else if ∃ f ∈ fill, f.found ∧ f.value ≠ 0 then .error .invalid
  else if pads.any (· < 0) then .error .invalid
  else padMap inShape outShape ((pads.take inShape.length).map Int.toNat)

/-- One element of `PadLayer::apply`, pad.rs:108-115. -/
def padCell {F : Type} [Zero F] (data : List F) : Option Nat → R F
  | some i => readAt .panic data i
  | none => .ok 0

/-- `PadLayer::apply`, pad.rs:92-126. -/
def applyPad {F : Type} [Zero F] (map : List (Option Nat)) (shape : List Nat) (x : Arr F) :
    R (Arr F) := do
  let data ← map.mapM (padCell x.data)
  fromShapeVec shape data

/-- Pad: shape inference, `build` and `apply`. -/
def runPad {F : Type} [Zero F] (constantMode : Bool) (pads : List Int) (fill : Option PadValue)
    (x : Arr F) : R (Arr F) := do
  let out ← inferPad x.shape pads
  let map ← buildPad x.shape out constantMode pads fill
  applyPad map out x

/-! ## Gather -/

/-- How far an axis may exceed the rank, shape_inference.rs:1659 and gather.rs:37. -/
def maxAxisPad : Nat := 4

/-- `while shape.len() <= axis { shape.push(1) }`, shape_inference.rs:1668-1670, gather.rs:88-90. -/
def padAxis (shape : List Nat) (axis : Nat) : List Nat :=
  shape ++ List.replicate (axis + 1 - shape.length) 1

/-- `infer_gather`, shape_inference.rs:1600-1685. -/
def inferGather (dataShape idxShape : List Nat) (axisRaw : Int) : R (List Nat) :=
  let ds := if dataShape = [] then [1] else dataShape
  let a := if axisRaw < 0 then (ds.length : Int) + axisRaw else axisRaw
  if a < 0 then .error .invalid
  else if a.toNat ≥ ds.length + maxAxisPad then .error .invalid
  else
    let ds := padAxis ds a.toNat
    .ok (ds.take a.toNat ++ idxShape ++ ds.drop (a.toNat + 1))

/-- The axis of `GatherLayer::build`, gather.rs:249-287: the data rank is derived from the output and
index ranks. -/
def gatherAxis (outShape idxShape : List Nat) (axisRaw : Int) : R Nat :=
  if idxShape.length > outShape.length + 1 then .error .invalid
  else
    let rank := outShape.length + 1 - idxShape.length
    if axisRaw < 0 then
      let a := (rank : Int) + axisRaw
      if a < 0 then .error .invalid else .ok a.toNat
    else if axisRaw.toNat ≥ rank + maxAxisPad then .error .invalid
    else .ok axisRaw.toNat

/-- Index normalisation, gather.rs:134-160. -/
def gatherIndex (dim : Nat) (idx : Int) : R Nat :=
  if idx < 0 then
    let n := idx + dim
    if n < 0 then .error .invalid
    else if n.toNat ≥ dim then .error .invalid else .ok n.toNat
  else if idx.toNat ≥ dim then .error .invalid else .ok idx.toNat

/-- `&data[start..start + len]`, panicking when out of range. -/
def subslice {α : Type} (v : List α) (start len : Nat) : R (List α) :=
  if start + len ≤ v.length then .ok ((v.drop start).take len) else .error .panic

/-- Appending unit axes up to the gather axis, gather.rs:75-102. -/
def gatherPad {α : Type} (axis : Nat) (x : Arr α) : R (Arr α) :=
  if axis ≥ x.shape.length then
    if axis ≥ x.shape.length + maxAxisPad then .error .invalid
    else fromShapeVec (padAxis x.shape axis) x.data
  else .ok x

/-- `GatherLayer::apply`, gather.rs:58-176. -/
def applyGather {α : Type} (axis : Nat) (indices : List Int) (outShape : List Nat) (x : Arr α) :
    R (Arr α) := do
  let x' ← gatherPad axis x
  let dim ← readAt .panic x'.shape axis
  let outer := (x'.shape.take axis).prod
  let slice := (x'.shape.drop (axis + 1)).prod
  if outer * indices.length * slice ≠ outShape.prod then .error .invalid
  else do
    let blocks ← (List.range outer).mapM fun o =>
      indices.mapM fun idx => do
        let i ← gatherIndex dim idx
        subslice x'.data (o * (dim * slice) + i * slice) slice
    fromShapeVec outShape (blocks.flatten.flatten)

/-- Gather with constant indices: shape inference, `build` (gather.rs:184-302) and `apply`. -/
def runGather {α : Type} (axisRaw : Int) (idx : Arr Int) (x : Arr α) : R (Arr α) := do
  let out ← inferGather x.shape idx.shape axisRaw
  let axis ← gatherAxis out idx.shape axisRaw
  applyGather axis idx.data out x

/-! ## GatherElements with constant indices -/

/-- Row-major strides, gather_elements.rs:337-345: `strides[i] = strides[i+1] * shape[i+1]`. The loop
bound `0..rank-1` underflows at rank 0. -/
def strides : List Nat → List Nat
  | [] => []
  | _ :: ds => ds.prod :: strides ds

/-- The inner loop over dimensions, gather_elements.rs:351-381: `dim` counts up. -/
def geLoop (axis dim axisLen : Nat) (idx : Int) : List Nat → List Nat → Nat → Nat → R Nat
  | ds :: dss, is :: iss, remaining, acc =>
    let coord := remaining / is
    let remaining := remaining % is
    if dim = axis then
      if idx < -(axisLen : Int) ∨ idx ≥ axisLen then .error .invalid
      else
        let r := if idx < 0 then (idx + axisLen).toNat else idx.toNat
        geLoop axis (dim + 1) axisLen idx dss iss remaining (acc + r * ds)
    else geLoop axis (dim + 1) axisLen idx dss iss remaining (acc + coord * ds)
  | _, _, _, acc => .ok acc

/-- The index map of `GatherElementsLayer::build`, gather_elements.rs:317-385. A division by a zero
stride cannot happen: then there are no indices. -/
def geMap (dataShape : List Nat) (axis : Nat) (idx : Arr Int) : R (List Nat) :=
  if idx.shape.length ≠ dataShape.length then .error .invalid
  else if dataShape.length = 0 then .error .panic
  else do
    let axisLen ← readAt .panic dataShape axis
    ((idx.data.zipIdx).take idx.shape.prod).mapM fun vi =>
      geLoop axis 0 axisLen vi.1 (strides dataShape) (strides idx.shape) vi.2 0

/-- GatherElements with constant indices: the shape of the indices (shape_inference.rs:750-753),
`build` and `apply` (gather_elements.rs:84-105). -/
def runGatherElements {α : Type} (axisRaw : Int) (idx : Arr Int) (x : Arr α) : R (Arr α) := do
  let axis ← layerAxis x.shape.length axisRaw
  let map ← geMap x.shape axis idx
  applyMap .invalid map idx.shape x

/-! ## ScatterND -/

/-- `ravel` on `usize` with wrap-around (release build), scatter_nd.rs:22-30. -/
def ravelWrap (coords shape : List Nat) : R Nat := do
  let i ← ravelR coords shape
  .ok (i % usizeMax)

/-- A coordinate of an index, scatter_nd.rs:176-184: `(v + dim) as usize` or `v as usize`, without a
range check. -/
def scatterCoord (dim : Nat) (v : Int) : Nat :=
  if v < 0 then ((v + dim) % (usizeMax : Int)).toNat else v.toNat

/-- `HashMap::insert`. -/
def insertMap (m : List (Nat × Nat)) (k v : Nat) : List (Nat × Nat) :=
  (k, v) :: m.filter (fun e => e.1 ≠ k)

/-- One update of `ScatterNDLayer::build`, scatter_nd.rs:173-201. -/
def scatterStep (dataShape : List Nat) (lastDim slice : Nat) (indices : List Int) (u : Nat)
    (m : List (Nat × Nat)) : R (List (Nat × Nat)) := do
  let coords ← (List.range lastDim).mapM fun j => do
    let v ← readAt .panic indices (u * lastDim + j)
    let d ← readAt .panic dataShape j
    .ok (scatterCoord d v)
  let base ← ravelWrap coords (dataShape.take lastDim)
  .ok ((List.range slice).foldl
    (fun m s => insertMap m ((base * slice % usizeMax + s) % usizeMax) (u * slice + s)) m)

/-- `ScatterNDLayer::build`, scatter_nd.rs:98-211, returning the update map. -/
def buildScatter (dataShape : List Nat) (idx : Arr Int) : R (List (Nat × Nat)) :=
  match idx.shape.getLast? with
  | none => .error .invalid
  | some lastDim =>
    if lastDim > dataShape.length then .error .invalid
    else
      let n := idx.shape.dropLast.prod
      let slice := (dataShape.drop lastDim).prod
      (List.range n).foldlM (fun m u => scatterStep dataShape lastDim slice idx.data u m) []

/-- `ScatterNDLayer::apply`, scatter_nd.rs:33-90, for one iteration order of the map. -/
def applyScatter {α : Type} (entries : List (Nat × Nat)) (shape : List Nat) (x upd : Arr α) :
    R (Arr α) :=
  fromShapeVec shape (entries.foldl (fun out e =>
    match upd.data[e.2]? with
    | some v => if e.1 < out.length then out.set e.1 v else out
    | none => out) x.data)

/-! ## Squeeze and Unsqueeze -/

/-- `infer_squeeze`, shape_inference.rs:1364-1447, and `squeezed_shape`, squeeze.rs:26-66. -/
def squeezeShape (inShape : List Nat) (axes : Option (List Int)) : R (List Nat) :=
  match axes with
  | none => .ok (inShape.filter (· ≠ 1))
  | some axes => do
    let ax ← normalizeAxes axes inShape.length
    if ax.any (fun a => inShape.getD a 0 ≠ 1) then .error .invalid
    else .ok ((inShape.zipIdx.filter (fun di => di.2 ∉ ax)).map Prod.fst)

/-- `SqueezeLayer::apply`, squeeze.rs:69-100. -/
def applySqueeze {α : Type} (axes : Option (List Int)) (x : Arr α) : R (Arr α) := do
  let out ← squeezeShape x.shape axes
  fromShapeVec out x.data

/-- The loop of `unsqueezed_shape`, unsqueeze.rs:34-49, over the output axes `i ..`: returns the shape
and the input dimensions left. -/
def unsqueezeLoop (axes : List Nat) : Nat → Nat → List Nat → R (List Nat × List Nat)
  | 0, _, rest => .ok ([], rest)
  | n + 1, i, rest =>
    if i ∈ axes then do
      let (out, left) ← unsqueezeLoop axes n (i + 1) rest
      .ok (1 :: out, left)
    else match rest with
      | [] => .error .invalid
      | d :: rest => do
        let (out, left) ← unsqueezeLoop axes n (i + 1) rest
        .ok (d :: out, left)

/-- `unsqueezed_shape`, unsqueeze.rs:25-64. -/
def unsqueezeShape (inShape : List Nat) (axes : List Int) : R (List Nat) := do
  let rank := inShape.length + axes.length
  let ax ← normalizeAxes axes rank
  let (out, left) ← unsqueezeLoop ax rank 0 inShape
  if left ≠ [] then .error .invalid else .ok out

/-- `UnsqueezeLayer::apply`, unsqueeze.rs:68-99. -/
def applyUnsqueeze {α : Type} (axes : List Int) (x : Arr α) : R (Arr α) := do
  let out ← unsqueezeShape x.shape axes
  fromShapeVec out x.data

end JST.Layers
