import Mathlib.Data.Nat.Log
import Mathlib.Data.Nat.Size

/-!
# The Remainder backend: models, layouts, sizes

The second proving backend, rust/jstprove_remainder. A model is the quantised layer graph
(rust/jstprove_onnx/src/graph.rs, quantizer.rs) that prover and verifier both load.

Simplifications: shapes and sizes are unbounded naturals; weights are given by name for each layer.
-/

namespace JST.Remainder

/-- Errors carry the reason. -/
abbrev R := Except String

/-- A quantised constant tensor: shape and row-major data. -/
structure Weight where
  shape : List Nat
  data : List Int

/-- The operators the circuit builder distinguishes, circuit_builder.rs:351-766. -/
inductive Op
  | gemm | conv | relu | maxPool | add | sub | batchNorm
  | cast | reshape | flatten | squeeze | unsqueeze
  | gather | layerNorm | resize | gridSample | transpose | concat | slice | «where»
  | constant | split
  | exp | softmax | sigmoid | gelu | tile | topK | shape | log | expand | reduceMean
  | other
  deriving DecidableEq, Repr

/-- A layer of the quantised graph, graph.rs `LayerNode`. -/
structure Layer where
  name : String
  op : Op
  inputs : List String
  outputs : List String
  weights : String → Option Weight := fun _ => none
  intAttr : String → Option Int := fun _ => none
  intsAttr : String → Option (List Int) := fun _ => none
  /-- The attribute `value` of a Constant. -/
  value : Option (List Int) := none
  outputShape : List Nat := []
  nBits : Option Nat := none

/-- A quantised model, quantizer.rs:97-104, in topological order, with `base = 2`. -/
structure Model where
  inputNames : List String
  inputShapes : String → Option (List Nat)
  outputNames : List String
  layers : List Layer
  exponent : Nat
  alpha : Int

/-- `apply_observed_n_bits`, quantizer.rs:107-115, and verify.rs:31-37: the widths in the proof replace
those of the model. -/
def Model.withBits (m : Model) (obs : String → Option Nat) : Model :=
  { m with layers := m.layers.map fun l => match obs l.name with
      | some b => { l with nBits := some b }
      | none => l }

/-! ## Sizes -/

/-- `usize::next_power_of_two`. -/
def nextPow2 (n : Nat) : Nat := 2 ^ Nat.clog 2 n

/-- `log2_ceil`, padding.rs:5-10. -/
def log2Ceil (n : Nat) : Nat := if n ≤ 1 then 0 else Nat.size (n - 1)

/-- `num_vars_for`, padding.rs:20-22. -/
def numVars (n : Nat) : Nat := log2Ceil (nextPow2 n)

/-! ## Tables from names -/

/-- The hash maps from tensor names. -/
abbrev Tab (α : Type) := String → Option α

/-- Insert one value for several names. -/
def setAll {α : Type} (t : Tab α) (names : List String) (v : α) : Tab α :=
  fun n => if n ∈ names then some v else t n

/-- Remove several names. -/
def clearAll {α : Type} (t : Tab α) (names : List String) : Tab α :=
  fun n => if n ∈ names then none else t n

/-- Insert when there is a value. -/
def setOpt {α : Type} (t : Tab α) (names : List String) (v : Option α) : Tab α :=
  match v with
  | some v => setAll t names v
  | none => t

/-- `ok_or_else`. -/
def need {α : Type} (o : Option α) (e : String) : R α :=
  match o with
  | some a => .ok a
  | none => .error e

/-! ## Layouts -/

/-- `SpatialInfo`, circuit_builder.rs:41-53. -/
inductive Layout
  | chw (c h w : Nat)
  | hwc (h w c stride : Nat)
  deriving DecidableEq, Repr

/-- `SpatialInfo::index`, circuit_builder.rs:56-63. -/
def Layout.index : Layout → Nat → Nat → Nat → Nat
  | .chw _ hd wd, c, h, w => c * hd * wd + h * wd + w
  | .hwc _ wd _ stride, c, h, w => (h * wd + w) * stride + c

/-- `spatial_dims`, circuit_builder.rs:65-70: channels, height, width. -/
def Layout.dims : Layout → Nat × Nat × Nat
  | .chw c h w => (c, h, w)
  | .hwc h w c _ => (c, h, w)

/-- `layout_from_output_shape`, circuit_builder.rs:82-117 (and the same function at
witness.rs:259-297). -/
def layoutFrom (outputShape : List Nat) (inp : Option Layout) : Option Layout :=
  let chw := match outputShape with
    | [c, h, w] => some (c, h, w)
    | [_, c, h, w] => some (c, h, w)
    | _ => none
  chw.map fun q => match inp with
    | some (.hwc _ _ _ stride) => .hwc q.2.1 q.2.2 q.1 (if q.1 ≤ stride then stride else q.1)
    | _ => .chw q.1 q.2.1 q.2.2

/-- The layouts of the inputs, circuit_builder.rs:313-324. -/
def inputLayouts (m : Model) : Tab Layout := fun n => match m.inputShapes n with
  | some [c, h, w] => some (.chw c h w)
  | _ => none

/-! ## Layer dimensions -/

/-- `get_int_attr(name).map(|v| v != 0).unwrap_or(false)`. -/
def Layer.flag (l : Layer) (a : String) : Bool := (l.intAttr a).getD 0 ≠ 0

/-- Inner and outer dimension of a Gemm, with its refusals, circuit_builder.rs:903-947. -/
def gemmDims (l : Layer) : R (Nat × Nat × Weight) := do
  let wn ← need l.inputs[1]? "no weight input"
  let w ← need (l.weights wn) "missing weight tensor"
  if l.flag "transA" then .error "transA=1 is not supported"
  else match w.shape with
    | rows :: cols :: _ => .ok (if l.flag "transB" then (cols, rows, w) else (rows, cols, w))
    | _ => .error "weight has < 2 dims"

/-- An attribute of several integers at one position, `as usize`; negative values, which wrap around to
sizes no machine holds, are taken as refused. -/
def Layer.natAt (l : Layer) (a : String) (i : Nat) (dflt : Int) : R Nat :=
  let v := (((l.intsAttr a).getD [])[i]?).getD dflt
  if v < 0 then .error "negative attribute" else .ok v.toNat

/-- The numbers of a convolution. -/
structure ConvDims where
  cOut : Nat
  cIn : Nat
  kh : Nat
  kw : Nat
  padT : Nat
  padL : Nat
  sh : Nat
  sw : Nat
  inH : Nat
  inW : Nat
  outH : Nat
  outW : Nat
  deriving DecidableEq

/-- Reading them, with the refusals, circuit_builder.rs:1055-1137. -/
def convDims (l : Layer) (inp : Layout) : R (ConvDims × Weight) := do
  let wn ← need l.inputs[1]? "no weight"
  let w ← need (l.weights wn) "missing weight"
  match w.shape with
  | cOut :: cIn :: kh :: kw :: _ => do
    let padT ← l.natAt "pads" 0 0
    let padL ← l.natAt "pads" 1 0
    let padB ← l.natAt "pads" 2 0
    let padR ← l.natAt "pads" 3 0
    let sh ← l.natAt "strides" 0 1
    let sw ← l.natAt "strides" 1 1
    if sh = 0 ∨ sw = 0 then .error "strides must be positive"
    else if inp.dims.1 ≠ cIn then .error "weight c_in does not match input channels"
    else if inp.dims.2.1 + padT + padB < kh ∨ inp.dims.2.2 + padL + padR < kw then
      .error "padded input smaller than kernel"
    else .ok (⟨cOut, cIn, kh, kw, padT, padL, sh, sw, inp.dims.2.1, inp.dims.2.2,
      (inp.dims.2.1 + padT + padB - kh) / sh + 1, (inp.dims.2.2 + padL + padR - kw) / sw + 1⟩, w)
  | _ => .error "weight has < 4 dims"

/-- The layout of the output of a convolution, circuit_builder.rs:1256-1266. -/
def ConvDims.layout (d : ConvDims) : Layout := .hwc d.outH d.outW d.cOut (nextPow2 d.cOut)

/-- The numbers of a MaxPool. -/
structure PoolDims where
  c : Nat
  ph : Nat
  pw : Nat
  sh : Nat
  sw : Nat
  outH : Nat
  outW : Nat
  deriving DecidableEq

/-- Reading them, with the refusals, circuit_builder.rs:1398-1451. -/
def poolDims (l : Layer) (inp : Layout) : R PoolDims := do
  let ks ← need (l.intsAttr "kernel_shape") "missing kernel_shape"
  match ks with
  | [a, b] =>
    if a ≤ 0 ∨ b ≤ 0 then .error "kernel_shape values must be positive"
    else do
      let sh ← l.natAt "strides" 0 1
      let sw ← l.natAt "strides" 1 1
      if sh = 0 ∨ sw = 0 then .error "strides must be positive"
      else if inp.dims.2.1 < a.toNat ∨ inp.dims.2.2 < b.toNat then .error "input smaller than kernel"
      else .ok ⟨inp.dims.1, a.toNat, b.toNat, sh, sw,
        (inp.dims.2.1 - a.toNat) / sh + 1, (inp.dims.2.2 - b.toNat) / sw + 1⟩
  | _ => .error "kernel_shape must be 2D"

/-- The layout of the output of a MaxPool, circuit_builder.rs:1537-1546. -/
def PoolDims.layout (d : PoolDims) : Layout := .hwc d.outH d.outW d.c d.c

/-- `compute_rescale`, gadgets/rescale.rs:3-10: truncated division of the value shifted by
`alpha * offset`. -/
def computeRescale (value alpha offset : Int) : R (Int × Int) :=
  if alpha = 0 then .error "alpha must be non-zero"
  else
    let q := (alpha * offset + value).tdiv alpha
    .ok (q - offset, alpha * offset + value - alpha * q)

/-- `delta_table_nv`, range_checks.rs:10-12. -/
def deltaNv (nBits exponent : Nat) : Nat := max (nBits - exponent) 1

/-- `RANGE_CHECK_CHUNK_BITS`, range_checks.rs:8. -/
def chunkBits : Nat := 9

/-- A channel vector spread over the positions of a layout, `padded_size` long, as BatchNormalization needs
it, witness.rs:3683-3725 (and 1100-1143). When writes overlap (more channels than the stride) the last one
counts. -/
def broadcastCh (v : List Int) (inp : Option Layout) (size : Nat) : R (Nat → Int) :=
  match inp with
  | some (.chw _ h w) => .ok fun i => if i < v.length * (h * w) then v.getD (i / (h * w)) 0 else 0
  | some (.hwc h w _ stride) => .ok fun i =>
      let row := min (h * w - 1) (i / stride)
      if h * w = 0 then 0 else if i - row * stride < v.length then v.getD (i - row * stride) 0 else 0
  | none =>
    if v.length > 0 ∧ size > v.length then
      if size % v.length ≠ 0 then .error "size is not divisible by channels"
      else .ok fun i => if i < v.length * (size / v.length) then v.getD (i / (size / v.length)) 0 else 0
    else .ok fun i => if i < v.length then v.getD i 0 else 0

end JST.Remainder
