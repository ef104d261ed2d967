import Verif.Tensor.Conv
import Verif.Gadgets.Mean

/-!
# Pooling layers

rust/jstprove_circuits/src/circuit_functions/layers/maxpool.rs, averagepool.rs and
global_averagepool.rs.

Conventions as in `Conv`. A subtraction below zero on `usize` is a panic (what a debug build does).
Attributes are those the node carries, already parsed as lists of non-negative integers.
-/

namespace JST.Layers

open JST.Shape

variable {p : Nat}

/-- Run a circuit-building step for each element in order and collect the results. -/
def collectG {F α β : Type} [CommRing F] (f : α → G F β) : List α → G F (List β)
  | [] => pure []
  | a :: as => do
    let b ← f a
    let bs ← collectG f as
    pure (b :: bs)

/-- The coordinates visited by four nested loops `for n in 0..N { for c in 0..C { .. } }`. -/
def idx4 (N C H W : Nat) : List (Nat × Nat × Nat × Nat) :=
  (List.range N).flatMap fun n => (List.range C).flatMap fun c => (List.range H).flatMap fun h =>
    (List.range W).map fun w => (n, c, h, w)

/-- `array4[[n, c, h, w]]` of a four-dimensional array. -/
def read4 {F : Type} [Zero F] (x : Arr F) (n c h w : Nat) : R F :=
  if n < x.shape.getD 0 0 ∧ c < x.shape.getD 1 0 ∧ h < x.shape.getD 2 0 ∧ w < x.shape.getD 3 0 then
    .ok (x.data.getD (((n * x.shape.getD 1 0 + c) * x.shape.getD 2 0 + h) * x.shape.getD 3 0 + w) 0)
  else .error .panic

/-! ## MaxPool -/

/-- Attributes of a MaxPool node. `kernel_shape` is required, the others default to `None`. The last two
are never read by the layer. -/
structure MaxPoolAttrs where
  kernel : List Nat
  strides : Option (List Nat)
  dilations : Option (List Nat)
  pads : Option (List Nat)
  ceilMode : Int
  autoPad : String
deriving Repr, DecidableEq

/-- `PoolingParams`, maxpool.rs:137-142; `padH = new_pads[0]`, `padW = new_pads[1]`. -/
structure PoolParams where
  kh : Nat
  kw : Nat
  sh : Nat
  sw : Nat
  dh : Nat
  dw : Nat
  padH : Nat × Nat
  padW : Nat × Nat
deriving Repr, DecidableEq

/-- The list `padding` brought to four entries, maxpool.rs:166-179. -/
def padsFour : List Nat → R (Nat × Nat × Nat × Nat)
  | [] => .ok (0, 0, 0, 0)
  | [a] => .ok (a, a, a, a)
  | [a, b] => .ok (a, b, a, b)
  | [a, b, c, d] => .ok (a, b, c, d)
  | _ => .error .invalid

/-- The kernel brought to two entries, maxpool.rs:181-193. -/
def kernelTwo : List Nat → R (Nat × Nat)
  | [a] => .ok (a, a)
  | [a, b] => .ok (a, b)
  | _ => .error .invalid

/-- Dilations or strides brought to two entries, maxpool.rs:195-223. -/
def onesTwo : List Nat → R (Nat × Nat)
  | [] => .ok (1, 1)
  | [a] => .ok (a, a)
  | [a, b] => .ok (a, b)
  | _ => .error .invalid

/-- `setup_maxpooling_2d_params`, maxpool.rs:160-233. -/
def setupMaxPoolParams (padding kernel strides dilation : List Nat) : R PoolParams := do
  let (p0, p1, p2, p3) ← padsFour padding
  let (kh, kw) ← kernelTwo kernel
  let (dh, dw) ← onesTwo dilation
  let (sh, sw) ← onesTwo strides
  .ok ⟨kh, kw, sh, sw, dh, dw, (p0, p2), (p1, p3)⟩

/-- One output dimension, maxpool.rs:289-322, with `ceil_mode` false (its value at the only call,
maxpool.rs:72). -/
def poolOutDim (dim k d s : Nat) (pad : Nat × Nat) : R Nat :=
  if k = 0 then .error .panic
  else if dim + (pad.1 + pad.2) ≥ (k - 1) * d + 1 then
    if s = 0 then .error .panic
    else .ok ((dim + (pad.1 + pad.2) - ((k - 1) * d + 1)) / s + 1)
  else .error .invalid

/-- `setup_maxpooling_2d`, maxpool.rs:260-333: one output dimension per spatial dimension of the
expected shape. `new_pads[2]` would panic. -/
def setupMaxPool (P : PoolParams) (expected : List Nat) : R (List Nat) :=
  match expected.drop 2 with
  | [] => if expected.length < 2 then .error .panic else .ok []
  | [h] => do
    let oh ← poolOutDim h P.kh P.dh P.sh P.padH
    .ok [oh]
  | h :: w :: more => do
    let oh ← poolOutDim h P.kh P.dh P.sh P.padH
    let ow ← poolOutDim w P.kw P.dw P.sw P.padW
    if more ≠ [] then .error .panic else .ok [oh, ow]

/-- The in-data positions of `(lo..hi).step_by(step)`, maxpool.rs:446-450 and 453-456. -/
def insideSteps (lo hi : Int) (step dim : Nat) : List Nat :=
  (stepRange lo hi step).filterMap fun h => if 0 ≤ h ∧ h.toNat < dim then some h.toNat else none

/-- One row of a window, maxpool.rs:452-460. `step_by(0)` panics. -/
def maxRow {F : Type} [Zero F] (x : Arr F) (n c : Nat) (w0 wend : Int) (dw width h : Nat) : R (List F) :=
  if dw = 0 then .error .panic else (insideSteps w0 wend dw width).mapM (read4 x n c h)

/-- The values of one window, maxpool.rs:433-461. -/
def maxValues {F : Type} [Zero F] (x : Arr F) (P : PoolParams) (height width n c ph pw : Nat) : R (List F) := do
  let hstart : Int := ph * P.sh - P.padH.1
  let hend : Int := hstart + (P.kh * P.dh : Nat)
  let wstart : Int := pw * P.sw - P.padW.1
  let wend : Int := wstart + (P.kw * P.dw : Nat)
  if P.dh = 0 then .error .panic
  else do
    let rows ← (insideSteps hstart hend P.dh height).mapM (maxRow x n c wstart wend P.dw width)
    .ok rows.flatten

/-- One output element, maxpool.rs:463-466: zero for a window without data. -/
def maxCell (sc : ShiftCtx p) (rc : RangeCtx) (x : Arr (ZMod p)) (P : PoolParams) (height width : Nat)
    (i : Nat × Nat × Nat × Nat) : G (ZMod p) (ZMod p) := do
  let vs ← liftR (maxValues x P height width i.1 i.2.1 i.2.2.1 i.2.2.2)
  match vs with
  | [] => pure 0
  | v :: vs => constrainedMax sc rc (v :: vs)

/-- `maxpooling_2d`, maxpool.rs:368-471. The output array is written in row-major order, once per
element. -/
def maxPool2d (rc : RangeCtx) (x : Arr (ZMod p)) (expected : List Nat) (shiftExp : Nat) (out : List Nat)
    (P : PoolParams) : G (ZMod p) (Arr (ZMod p)) :=
  match expected, out with
  | [N, C, H, W], [oh, ow] => do
    if x.shape.length ≠ 4 then throwErr "Expected 4D input for maxpooling"
    else do
      let sc ← ShiftCtx.new shiftExp
      let ys ← collectG (maxCell sc rc x P H W) (idx4 N C oh ow)
      pure ⟨[N, C, oh, ow], ys⟩
  | _, _ => throwErr "Expected 4D input for 2D kernel"

/-- `MaxPoolLayer::build` and `apply`, maxpool.rs:48-134. `expected` is the shape recorded for the input
when the circuit was built. -/
def maxPoolLayer (rc : RangeCtx) (a : MaxPoolAttrs) (expected : List Nat) (nBits : Nat) (x : Arr (ZMod p)) :
    G (ZMod p) (Arr (ZMod p)) :=
  if nBits < 1 then throwErr "n_bits too small to derive shift_exponent"
  else if x.shape.length ≠ 4 then throwErr "Expected 4D input"
  else do
    let P ← liftR (setupMaxPoolParams (a.pads.getD (List.replicate (2 * a.kernel.length) 0)) a.kernel
      (a.strides.getD (List.replicate a.kernel.length 1))
      (a.dilations.getD (List.replicate a.kernel.length 1)))
    let out ← liftR (setupMaxPool P expected)
    maxPool2d rc x expected (nBits - 1) out P

/-! ## AveragePool -/

/-- Attributes of an AveragePool node. -/
structure AvgPoolAttrs where
  kernel : Option (List Nat)
  strides : Option (List Nat)
  pads : Option (List Nat)
  ceilMode : Int
  countIncludePad : Int
  autoPad : Option String
deriving Repr, DecidableEq

/-- `AveragePoolLayer`, averagepool.rs:49-58. -/
structure AvgPool where
  kh : Nat
  kw : Nat
  sh : Nat
  sw : Nat
  p0 : Nat
  p1 : Nat
  p2 : Nat
  p3 : Nat
  inputShape : List Nat
  outputShape : List Nat
  nBits : Nat
deriving Repr, DecidableEq

/-- `AveragePoolLayer::build`, averagepool.rs:261-387. -/
def avgPoolBuild (a : AvgPoolAttrs) (inputShape outputShape : List Nat) (nBits : Nat) : R AvgPool :=
  match a.kernel with
  | none => .error .invalid
  | some kernel =>
    match kernel, a.strides.getD (List.replicate kernel.length 1),
        a.pads.getD (List.replicate (kernel.length * 2) 0) with
    | [kh, kw], [sh, sw], [p0, p1, p2, p3] =>
      if kh = 0 ∨ kw = 0 then .error .invalid
      else if sh = 0 ∨ sw = 0 then .error .invalid
      else if a.ceilMode ≠ 0 then .error .invalid
      else if a.countIncludePad ≠ 0 then .error .invalid
      else if a.autoPad.getD "" ≠ "NOTSET" ∧ a.autoPad.getD "" ≠ "" then .error .invalid
      else .ok ⟨kh, kw, sh, sw, p0, p1, p2, p3, inputShape, outputShape, nBits⟩
    | _, _, _ => .error .invalid

/-- The values of one window, averagepool.rs:153-175. `data_flat[flat]` is in bounds because the array
has exactly `N·C·H·W` elements. -/
def avgValues {F : Type} [Zero F] (data : List F) (L : AvgPool) (C H W n c oh ow : Nat) : List F :=
  (List.range L.kh).flatMap fun kh : Nat => (List.range L.kw).filterMap fun kw : Nat =>
    let ih : Int := (oh * L.sh : Nat) - L.p0 + kh
    let iw : Int := (ow * L.sw : Nat) - L.p1 + kw
    if ih ≥ 0 ∧ ih.toNat < H ∧ iw ≥ 0 ∧ iw.toNat < W then
      some (data.getD (n * (C * H * W) + c * (H * W) + ih.toNat * W + iw.toNat) 0)
    else none

/-- `AveragePoolLayer::apply`, averagepool.rs:80-259. -/
def avgPoolApply (hint : List (ZMod p) → Except Err (List (ZMod p))) (rc : RangeCtx) (L : AvgPool)
    (x : Arr (ZMod p)) : G (ZMod p) (Arr (ZMod p)) :=
  if x.shape ≠ L.inputShape then throwErr "runtime input shape"
  else match L.inputShape with
    | [N, C, H, W] =>
      if H + L.p0 + L.p2 < L.kh then throwErr "kernel height"
      else if W + L.p1 + L.p3 < L.kw then throwErr "kernel width"
      else do
        let outH := (H + L.p0 + L.p2 - L.kh) / L.sh + 1
        let outW := (W + L.p1 + L.p3 - L.kw) / L.sw + 1
        let ys ← collectG (fun i => windowMean hint rc L.nBits
          (avgValues x.data L C H W i.1 i.2.1 i.2.2.1 i.2.2.2)) (idx4 N C outH outW)
        liftR (fromShapeVec L.outputShape ys)
    | _ => throwErr "AveragePool expects 4-D input"

/-- Build and apply. -/
def avgPoolLayer (hint : List (ZMod p) → Except Err (List (ZMod p))) (rc : RangeCtx) (a : AvgPoolAttrs)
    (inputShape outputShape : List Nat) (nBits : Nat) (x : Arr (ZMod p)) : G (ZMod p) (Arr (ZMod p)) := do
  let L ← liftR (avgPoolBuild a inputShape outputShape nBits)
  avgPoolApply hint rc L x

/-! ## GlobalAveragePool -/

/-- The coordinates visited by two nested loops. -/
def idx2 (N C : Nat) : List (Nat × Nat) :=
  (List.range N).flatMap fun n => (List.range C).map fun c => (n, c)

/-- `GlobalAveragePoolLayer::build` (rank check) and `apply`, global_averagepool.rs:41-218. -/
def globalAvgPoolLayer (hint : List (ZMod p) → Except Err (List (ZMod p))) (rc : RangeCtx)
    (inputShape outputShape : List Nat) (nBits : Nat) (x : Arr (ZMod p)) : G (ZMod p) (Arr (ZMod p)) :=
  if x.shape ≠ inputShape then throwErr "runtime input shape"
  else match inputShape with
    | N :: C :: d :: spatial => do
      let nValid := (d :: spatial).prod
      let ys ← collectG (fun i : Nat × Nat => windowMean hint rc nBits
        ((x.data.drop (i.1 * C * nValid + i.2 * nValid)).take nValid)) (idx2 N C)
      liftR (fromShapeVec outputShape ys)
    | _ => throwErr "GlobalAveragePool expects at least 3-D input"

end JST.Layers
