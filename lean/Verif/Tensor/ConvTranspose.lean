import Verif.Tensor.Pool
import Verif.Tensor.Conv
import Verif.Spec.Numeric

/-!
# Transposed convolution

rust/jstprove_circuits/src/circuit_functions/layers/conv_transpose.rs, and the shape the importer expects,
rust/jstprove_onnx/src/shape_inference.rs:2729-2919. Attributes are unsigned (a negative one does not
deserialise). `u32`, `i64` and `usize` arithmetic is exact: sizes are taken to be small enough not to
overflow.
-/

namespace JST.Layers

open JST.Shape

/-- The attributes read by `ConvTransposeLayer::build`; `none` is an absent attribute. -/
structure CTAttrs where
  kernel : Option (List Nat)
  group : Option Nat := none
  dilations : Option (List Nat) := none
  strides : Option (List Nat) := none
  pads : Option (List Nat) := none
  outPad : Option (List Nat) := none
deriving Repr, DecidableEq

/-- The fields of `ConvTransposeLayer` used by `apply`, conv_transpose.rs:37-52. -/
structure CTLayer where
  kernel : List Nat
  group : Nat
  dilation : List Nat
  strides : List Nat
  pads : List Nat
  outPad : List Nat
deriving Repr, DecidableEq

/-- `ConvTransposeLayer::build`, conv_transpose.rs:263-413. -/
def ctBuild (a : CTAttrs) : R CTLayer :=
  match a.kernel with
  | none => .error .invalid
  | some k =>
    if k.length ≠ 2 then .error .invalid
    else if 0 ∈ k then .error .invalid
    else if a.group.getD 1 ≠ 1 then .error .invalid
    else if (a.dilations.getD [1, 1]).any (· ≠ 1) then .error .invalid
    else if (a.strides.getD [1, 1]).length ≠ 2 ∨ (a.dilations.getD [1, 1]).length ≠ 2 ∨
        (a.outPad.getD [0, 0]).length ≠ 2 ∨ (a.pads.getD [0, 0, 0, 0]).length ≠ 4 then .error .invalid
    else if 0 ∈ a.strides.getD [1, 1] then .error .invalid
    else .ok ⟨k, a.group.getD 1, a.dilations.getD [1, 1], a.strides.getD [1, 1],
      a.pads.getD [0, 0, 0, 0], a.outPad.getD [0, 0]⟩

/-- `arr[[n, c, h, w]]` for coordinates inside a four-dimensional array. -/
def get4 {F : Type} [Zero F] (x : Arr F) (n c h w : Nat) : F :=
  x.data.getD (((n * x.shape.getD 1 0 + c) * x.shape.getD 2 0 + h) * x.shape.getD 3 0 + w) 0

/-- The input row that kernel row `k` sends to output row `o`, if there is one:
conv_transpose.rs:216-224, 226-234. -/
def ctSource (o pad k dil stride size : Nat) : Option Nat :=
  let num : Int := o + pad - (k * dil : Nat)
  if num < 0 ∨ num.toNat % stride ≠ 0 then none
  else if num.toNat / stride ≥ size then none
  else some (num.toNat / stride)

/-- The loops over input channels and kernel positions for one output entry, conv_transpose.rs:214-244.
Every entry of `res` is only touched by its own iteration of the outer loops, so the model folds from its
initial value. -/
def ctCell {F : Type} [CommRing F] (L : CTLayer) (x w : Arr F) (init : F) (cIn kh kw hIn wIn : Nat)
    (n oc oh ow : Nat) : F :=
  (List.range cIn).foldl (fun r ci =>
    (List.range kh).foldl (fun r kih =>
      match ctSource oh (L.pads.getD 0 0) kih (L.dilation.getD 0 0) (L.strides.getD 0 0) hIn with
      | none => r
      | some ih =>
        (List.range kw).foldl (fun r kiw =>
          match ctSource ow (L.pads.getD 1 0) kiw (L.dilation.getD 1 0) (L.strides.getD 1 0) wIn with
          | none => r
          | some iw => r + get4 x n ci ih iw * get4 w ci oc kih kiw) r) r) init

/-- The size of the output along one axis, conv_transpose.rs:151-156. -/
def ctOut (stride size kernel dil outPad padBegin padEnd : Nat) : Int :=
  stride * ((size : Int) - 1) + (((kernel : Int) - 1) * dil + 1) + outPad - (padBegin + padEnd)

/-- The initial value of an entry of channel `oc`, conv_transpose.rs:175-201: the bias, if there is one. -/
def ctInit {F : Type} [Zero F] (bias : Arr F) (oc : Nat) : F :=
  if bias.shape.prod = 0 then 0 else bias.data.getD oc 0

/-- `ConvTransposeLayer::apply` up to `maybe_rescale`, conv_transpose.rs:89-245. -/
def ctApply {F : Type} [CommRing F] (L : CTLayer) (x w bias : Arr F) : R (Arr F) :=
  match x.shape with
  | [N, cIn, hIn, wIn] =>
    match w.shape with
    | [w0, w1, w2, w3] =>
      let kh := L.kernel.getD 0 0
      let kw := L.kernel.getD 1 0
      let cOut := w1 * L.group
      if w0 ≠ cIn then .error .invalid
      else if w2 ≠ kh ∨ w3 ≠ kw then .error .invalid
      else
        let oh := ctOut (L.strides.getD 0 0) hIn kh (L.dilation.getD 0 0) (L.outPad.getD 0 0) (L.pads.getD 0 0)
          (L.pads.getD 2 0)
        let ow := ctOut (L.strides.getD 1 0) wIn kw (L.dilation.getD 1 0) (L.outPad.getD 1 0) (L.pads.getD 1 0)
          (L.pads.getD 3 0)
        if oh ≤ 0 ∨ ow ≤ 0 then .error .invalid
        else if bias.shape.prod ≠ 0 ∧ bias.shape.length ≠ 1 then .error .invalid
        else if bias.shape.prod ≠ 0 ∧ bias.shape.getD 0 0 ≠ cOut then .error .invalid
        else .ok ⟨[N, cOut, oh.toNat, ow.toNat], (idx4 N cOut oh.toNat ow.toNat).map fun q =>
          ctCell L x w (ctInit bias q.2.1) cIn kh kw hIn wIn
            q.1 q.2.1 q.2.2.1 q.2.2.2⟩
    | _ => .error .invalid
  | _ => .error .invalid

/-- Build and apply, up to `maybe_rescale`. -/
def ctRun {F : Type} [CommRing F] (a : CTAttrs) (x w bias : Arr F) : R (Arr F) := do
  let L ← ctBuild a
  ctApply L x w bias

/-- The whole layer, conv_transpose.rs:55-261. -/
def ctLayer {p : Nat} (rc : RangeCtx) (a : CTAttrs) (x w bias : Arr (ZMod p)) (isRescale : Bool)
    (kappa nBits : Nat) : G (ZMod p) (Arr (ZMod p)) := do
  let out ← liftR (ctRun a x w bias)
  let ys ← maybeRescale rc out.data isRescale kappa nBits false
  pure ⟨out.shape, ys⟩

/-- The sizes of the spatial axes in `infer_conv_transpose`, shape_inference.rs:2876-2912, where `k` axes
are left from axis `i`. -/
def ctInferAxes (shape kernel strides pads dil outPad : List Nat) (sd : Nat) : Nat → Nat → R (List Nat)
  | _, 0 => .ok []
  | i, k + 1 =>
    if shape.getD (2 + i) 0 = 0 then .error .invalid
    else if kernel.getD i 0 = 0 then .error .invalid
    else
      let pad := if pads.length ≥ 2 * sd then pads.getD i 0 + pads.getD (sd + i) 0 else 0
      let eff := (kernel.getD i 0 - 1) * dil.getD i 1 + 1
      let out : Int := strides.getD i 0 * ((shape.getD (2 + i) 0 : Int) - 1) + eff - pad + outPad.getD i 0
      if out ≤ 0 then .error .invalid
      else do
        let rest ← ctInferAxes shape kernel strides pads dil outPad sd (i + 1) k
        .ok (out.toNat :: rest)

/-- `infer_conv_transpose`, shape_inference.rs:2732-2919: the shape the importer records for the output.
`outShape` is the attribute `output_shape`, which the circuit layer does not read. -/
def ctInfer (a : CTAttrs) (outShape : Option (List Nat)) (shape wShape : List Nat) : R (List Nat) :=
  if wShape.length < 2 then .error .invalid
  else if a.group.getD 1 = 0 then .error .invalid
  else
    let kernel := a.kernel.getD (if wShape.length ≥ 3 then wShape.drop 2 else [1])
    let sd := kernel.length
    let strides := a.strides.getD (List.replicate sd 1)
    let pads := a.pads.getD (List.replicate (sd * 2) 0)
    let outPad := a.outPad.getD (List.replicate sd 0)
    let dil := a.dilations.getD (List.replicate sd 1)
    let head := [shape.getD 0 0, wShape.getD 1 0 * a.group.getD 1]
    if shape.length < 2 + sd then .error .invalid
    else match outShape with
      | some o => if o.length ≠ sd then .error .invalid else .ok (head ++ o)
      | none =>
        if strides.length ≠ sd then .error .invalid
        else if pads ≠ [] ∧ pads.length ≠ 2 * sd then .error .invalid
        else if dil.length ≠ sd then .error .invalid
        else if outPad.length ≠ sd then .error .invalid
        else do
          let axes ← ctInferAxes shape kernel strides pads dil outPad sd 0 sd
          .ok (head ++ axes)

end JST.Layers
