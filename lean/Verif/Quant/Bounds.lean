import Mathlib.Analysis.SpecialFunctions.Log.Base
import Mathlib.Analysis.SpecialFunctions.Pow.Real

/-!
# Activation bounds (`rust/jstprove_onnx/src/quantizer.rs`)

`compute_bounds` propagates, layer by layer, a bound on the magnitude of every tensor and turns it into
the bit width used by the range checks. The model computes with real numbers where the code uses `f64`:
floating-point rounding is not modelled.

Operators not modelled: `Erf`, `Gelu`, the comparison and logical operators, `Sin`, `Cos`, `Shape`,
`ScatterND`.
-/

namespace JST.Quant

/-- An operator together with the constant data its bound uses. -/
inductive Op where
  /-- `Conv`, with row-major weights of the given shape. -/
  | conv (shape : List Nat) (w : List ℝ) (bias : List ℝ)
  /-- `Gemm` with a weight matrix of `rows × cols` entries, row-major. -/
  | gemm (transB : Bool) (w : List ℝ) (rows cols : Nat) (bias : List ℝ)
  | batchNorm (mul bias : List ℝ)
  | mul | add | sub
  /-- `Div` by a constant tensor -/
  | divConst (d : List ℝ)
  /-- `Div` by a run-time tensor -/
  | divDyn
  | relu | maxPool | max | min
  | clip (lo hi : ℝ)
  /-- `Cast`, `Reshape`, `Flatten`, `Squeeze`, `Unsqueeze`, `Tile`, `Gather`, `Transpose`, `Slice`,
  `Split`, `Identity`, `Expand`, `GatherElements`, `ReduceMax` -/
  | pass
  /-- the values output of `TopK`; the index output is not modelled -/
  | topK
  /-- linear `Resize` and `GridSample`, `AveragePool`, `GlobalAveragePool` -/
  | average
  | reduceMean
  | concat
  | log
  /-- `MatMul` with a constant right factor `[K, nOut]` -/
  | matmulRight (w : List ℝ) (nOut : Nat)
  /-- `MatMul` with a constant left factor `[M, nCols]` -/
  | matmulLeft (w : List ℝ) (nCols : Nat)
  /-- `MatMul` of two run-time tensors with contracting dimension `k` -/
  | matmulDyn (k : Nat)
  | pad
  | where_
  /-- `Pow` with a constant exponent -/
  | pow (e : ℝ)
  | sqrt | tanh
  /-- `ConvTranspose` with weights `[cIn, cOut, kernel]` -/
  | convTranspose (cIn cOut kernel : Nat) (w bias : List ℝ)
  /-- `ReduceSum` with the given reduction factor -/
  | reduceSum (factor : Nat)
  | exp
  | leakyRelu (a : ℝ)
  | neg | softmax | sigmoid
  | constant (vals : List ℝ)
  | constantOfShape (v : ℝ)
  | range (n : Nat)
  | hardSwish
  /-- `LayerNormalization`, `InstanceNormalization`, `GroupNormalization` -/
  | norm (eps : ℝ) (gamma beta : List ℝ)

/-- `vals.iter().map(|v| v.abs()).fold(0.0, f64::max)`. -/
noncomputable def maxAbs (l : List ℝ) : ℝ := (l.map abs).foldr Max.max 0

/-- Sum of absolute values. -/
noncomputable def l1 (l : List ℝ) : ℝ := (l.map abs).sum

/-- Maximum over a list of non-negative candidates, `fold(0.0, f64::max)`. -/
noncomputable def maxOf (l : List ℝ) : ℝ := l.foldr Max.max 0

/-- Row `oc` of a flat weight tensor with rows of length `per`. -/
def rowOf (w : List ℝ) (per oc : Nat) : List ℝ := (w.drop (oc * per)).take per

/-- Column `c` of a flat row-major matrix with `cols` columns and `rows` rows. -/
def colOf (w : List ℝ) (rows cols c : Nat) : List ℝ :=
  (List.range rows).map fun r => w.getD (r * cols + c) 0

/-- `w.iter().skip(c).step_by(n)`. -/
def stepFrom (w : List ℝ) (c n : Nat) : List ℝ :=
  (List.range ((w.length - c + n - 1) / n)).map fun i => w.getD (c + i * n) 0

/-- The weights of output channel `oc` of a transposed convolution: entries
`((ci * cOut + oc) * kernel + k)`. -/
def transposeChannel (w : List ℝ) (cIn cOut kernel oc : Nat) : List ℝ :=
  (List.range cIn).flatMap fun ci => (List.range kernel).map fun k =>
    w.getD ((ci * cOut + oc) * kernel + k) 0

/-- `max_output_channel_l1`, `quantizer.rs:1362-1402`; `none` is its error. -/
noncomputable def maxOutputChannelL1 (w : List ℝ) (outCh : Nat) : Option ℝ :=
  if outCh = 0 ∨ w = [] then none
  else if w.length % outCh ≠ 0 then none
  else some (maxOf ((List.range outCh).map fun oc => l1 (rowOf w (w.length / outCh) oc)))

/-- `compute_layer_bound`, `quantizer.rs:1327-1877`, with the overrides of `compute_bounds` for
`ReduceSum` and run-time `MatMul` (1249-1283). The checks that `alpha * bound` and `exp` stay finite
as floating-point numbers (1293-1301, 1749-1755) have no counterpart over the reals; `m i` is `get_input_bound(i)`, `n` the number of inputs.
`none` is an error. -/
noncomputable def layerBound (alpha : ℝ) (m : Nat → ℝ) (n : Nat) : Op → Option ℝ
  | .conv shape w bias =>
    (maxOutputChannelL1 w (if 4 ≤ shape.length then shape.headD 0 else 1)).map
      fun l => l * m 0 + maxAbs bias
  | .gemm true w rows _ bias => (maxOutputChannelL1 w rows).map fun l => l * m 0 + maxAbs bias
  | .gemm false w rows cols bias =>
    if 0 < cols ∧ w ≠ [] ∧ w.length = rows * cols then
      some (maxOf ((List.range cols).map fun c => l1 (colOf w rows cols c)) * m 0 + maxAbs bias)
    else none
  | .batchNorm mul bias => some (maxAbs mul * m 0 + maxAbs bias)
  | .mul => some (m 0 * m 1)
  | .add | .sub => some (m 0 + m 1)
  | .divConst d =>
    let pos := (d.map abs).filter (fun v => 0 < v)
    match pos with
    | [] => some (m 0 / 1)
    | v :: vs => some (m 0 / vs.foldr Min.min v)
  | .divDyn => some (m 0 / 1)
  | .relu | .maxPool | .max | .min | .clip _ _ | .pass | .topK | .average | .reduceMean => some (m 0)
  | .concat => some (maxOf ((List.range n).map m))
  | .log => some (Max.max (m 0) (Real.log alpha))
  | .matmulRight w nOut =>
    if 0 < nOut ∧ 0 < w.length / nOut then
      some (maxOf ((List.range nOut).map fun c =>
        l1 (stepFrom w c nOut)) * m 0)
    else some (maxAbs w * m 0)
  | .matmulLeft w nCols =>
    if 0 < w.length / nCols ∧ 0 < nCols then
      some (maxOf ((List.range (w.length / nCols)).map fun r => l1 (rowOf w nCols r)) * m 1)
    else some (maxAbs w * m 1)
  | .matmulDyn k => some (m 0 * m 1 * (Nat.max k 1 : Nat))
  | .pad => some (Max.max (m 0) |m 2|)
  | .where_ => some (Max.max (m 1) (m 2))
  | .pow e =>
    if 1 ≤ e then some ((m 0) ^ e)
    else if 0 ≤ e then some (Max.max (m 0) ((m 0) ^ e))
    else none
  | .sqrt => some (Max.max (m 0) (Real.sqrt (m 0)))
  | .tanh => some 1
  | .convTranspose cIn cOut kernel w bias =>
    if w = [] ∨ cOut = 0 ∨ kernel = 0 then some (m 0)
    else some (maxOf ((List.range cOut).map fun oc => l1 (transposeChannel w cIn cOut kernel oc)) * m 0
      + maxAbs bias)
  | .reduceSum f => some (m 0 * (Nat.max f 1 : Nat))
  | .exp => some (Real.exp (m 0))
  | .leakyRelu a => some (Max.max (m 0) (|a| * m 0))
  | .neg => some (m 0)
  | .softmax | .sigmoid => some 1
  | .constant _ => some 1
  | .constantOfShape _ => some 1
  | .range _ => some 1
  | .hardSwish => some (m 0)
  | .norm eps gamma beta =>
    some (maxAbs gamma * (2 * m 0 / Real.sqrt (Max.max eps 1e-12)) + maxAbs beta)

/-- `compute_n_bits`, `quantizer.rs:1907-1913`. -/
noncomputable def computeNBits (alpha bound : ℝ) : Nat :=
  if |alpha * bound| ≤ 1 then 2 else ⌈Real.logb 2 |alpha * bound|⌉₊ + 1

/-- `is_range_check_op`, `quantizer.rs:1879-1905`. -/
def isRangeCheckOp : Op → Bool
  | .relu | .leakyRelu _ | .maxPool | .max | .min | .clip _ _ | .exp | .softmax | .sigmoid | .average | .topK
  | .sqrt | .tanh | .pow _ | .hardSwish => true
  | _ => false

/-- A layer: operator, tensor names and constant initialisers. -/
structure Node where
  name : String
  op : Op
  inputs : List String
  consts : List (String × List ℝ)
  outputs : List String
  needsRescale : Bool

/-- A map from names to values, newest entry first (`HashMap::insert`). -/
abbrev Env (α : Type) := List (String × α)

def Env.get {α} (e : Env α) (n : String) : Option α := (e.find? (fun x => x.1 == n)).map (·.2)

/-- `get_input_bound`, `quantizer.rs:1332-1348`. -/
noncomputable def getInputBound (node : Node) (bounds : Env ℝ) (i : Nat) : ℝ :=
  match node.inputs[i]? with
  | none => 1
  | some n =>
    match bounds.get n with
    | some b => b
    | none =>
      match Env.get node.consts n with
      | some vals => if vals = [] then 1 else maxAbs vals
      | none => 1

/-- One step of the loop of `compute_bounds`, `quantizer.rs:1243-1319`. -/
noncomputable def boundStep (alpha : ℝ) (st : Env ℝ × Env Nat) (node : Node) :
    Option (Env ℝ × Env Nat) :=
  match layerBound alpha (getInputBound node st.1) node.inputs.length node.op with
  | none => none
  | some b =>
    some (node.outputs.map (fun o => (o, b)) ++ st.1,
      if node.needsRescale || isRangeCheckOp node.op then (node.name, computeNBits alpha b) :: st.2
      else st.2)

/-- `compute_bounds`, `quantizer.rs:1229-1325`: tensor bounds and bit widths. -/
noncomputable def computeBounds (alpha : ℝ) (inputs : List String) (layers : List Node) :
    Option (Env ℝ × Env Nat) :=
  layers.foldlM (boundStep alpha) (inputs.map (fun n => (n, 1)), [])

/-- `compute_max_bound_inner`, `quantizer.rs:324-387`: tensor bounds and the largest accumulation. After
a rescaled layer the bound is reset to one. -/
noncomputable def maxBoundStep (alpha : ℝ) (st : Env ℝ × ℝ) (node : Node) : Option (Env ℝ × ℝ) :=
  match layerBound alpha (getInputBound node st.1) node.inputs.length node.op with
  | none => none
  | some b =>
    some (node.outputs.map (fun o => (o, if node.needsRescale then 1 else b)) ++ st.1,
      if node.needsRescale then Max.max st.2 b else st.2)

noncomputable def computeMaxBound (alpha : ℝ) (inputs : List String) (layers : List Node) :
    Option ℝ :=
  (layers.foldlM (maxBoundStep alpha) (inputs.map (fun n => (n, 1)), 1)).map (·.2)

/-- `ScaleConfig::max_safe_exponent`, `quantizer.rs:58-65`. -/
noncomputable def maxSafeExponent (nBits : Nat) (maxBound : ℝ) : Nat :=
  let accum := if 1 < maxBound then ⌈Real.logb 2 maxBound⌉₊ else 0
  (nBits - (accum + 1)) / 2

end JST.Quant
