import Verif.Tensor.Layers
import Verif.Gadgets.Arith

/-!
# Convolution

rust/jstprove_circuits/src/circuit_functions/layers/conv.rs. A wire is the field element it carries, so
`api.add` and `api.mul` are the field operations and the computation up to `maybe_rescale` is a function
of the input arrays.

Conventions. A returned error is `Err.invalid`, a slice or index out of bounds (ndarray, Rust) is
`Err.panic`. `u32`/`usize` sums and products and `i32` sums are exact: attributes and dimensions are
taken to be small enough (below `2^29`) for the Rust arithmetic not to overflow.
-/

namespace JST.Layers

open JST.Shape

/-- `Conv2DParams`, conv.rs:177-184. -/
structure ConvParams where
  dilations : List Nat
  kernelShape : List Nat
  pads : List Nat
  strides : List Nat
  inputShape : List Nat
  groups : List Nat
deriving Repr, DecidableEq

/-- `set_default_params`, conv.rs:207-259. -/
def setDefaultParams (c : ConvParams) : R ConvParams :=
  if c.inputShape.length < 3 then .error .invalid
  else
    .ok { dilations := if c.dilations.isEmpty then (c.inputShape.drop 2).map (fun _ => 1) else c.dilations
          kernelShape := if c.kernelShape.isEmpty then c.inputShape.drop 2 else c.kernelShape
          pads := if c.pads.isEmpty then List.replicate ((c.inputShape.drop 2).length * 2) 0 else c.pads
          strides := if c.strides.isEmpty then (c.inputShape.drop 2).map (fun _ => 1) else c.strides
          inputShape := c.inputShape
          groups := c.groups }

/-- `not_yet_implemented_conv`, conv.rs:274-333. `dilations.iter().min() != dilations.iter().max()` is
"not all entries are equal". -/
def notYetImplementedConv (inputShape group dilations : List Nat) : R Unit :=
  if inputShape.length < 2 then .error .invalid
  else match group.head? with
    | none => .error .invalid
    | some g =>
      if g = 0 then .error .invalid
      else if inputShape.getD 1 0 % g ≠ 0 then .error .invalid
      else if g > 1 then .error .invalid
      else if dilations.headD 1 ≠ 1 ∨ dilations.min? ≠ dilations.max? then .error .invalid
      else if inputShape.length ≤ 3 then .error .invalid
      else if inputShape.length ≥ 5 then .error .invalid
      else .ok ()

/-- `conv_shape_4_setup_res`, conv.rs:335-367: zeros, or the bias of the channel everywhere.
`bias[[j]]` panics unless the bias is a vector with an entry `j`. -/
def convSetupRes {F : Type} [Zero F] (bias : Arr F) (s0 s1 s2 s3 : Nat) : R (List F) :=
  if bias.shape.prod = 0 then .ok (List.replicate ([s0, s1, s2, s3].prod) 0)
  else match bias.shape with
    | [] => .error .panic
    | b0 :: more =>
      if b0 ≠ s1 then .error .invalid
      else if more ≠ [] ∧ s1 ≠ 0 then .error .panic
      else .ok ((List.range s0).flatMap fun _ => (List.range s1).flatMap fun j =>
        List.replicate (s2 * s3) (bias.data.getD j 0))

/-- `usize::as_i32` / `u32::as_i32`, typecasting.rs:60-98. -/
def asI32 (n : Nat) : R Int := if n < 2 ^ 31 then .ok n else .error .invalid

/-- `i32_to_usize`, typecasting.rs:112-118, and `i32::as_usize`. -/
def i32ToUsize (x : Int) : R Nat := if x < 0 then .error .invalid else .ok x.toNat

/-- `(lo..hi).step_by(step)` over `i32`. -/
def stepRange (lo hi : Int) (step : Nat) : List Int :=
  (List.range (((hi - lo) + step - 1) / step).toNat).map fun k : Nat => lo + k * step

/-- The range `lo..hi` of an axis of length `dim` in `ndarray`'s `slice`: a reversed range is empty, a
bound beyond the axis panics. Returns start and length. -/
def sliceAxis (dim lo hi : Nat) : R (Nat × Nat) :=
  if lo ≤ dim ∧ max lo hi ≤ dim then .ok (lo, max lo hi - lo) else .error .panic

/-- The elements of `a[n, c, h0..h0+hl, w0..w0+wl]` in iteration order, for a four-dimensional array. -/
def window {F : Type} [Zero F] (a : Arr F) (n c h0 hl w0 wl : Nat) : List F :=
  (List.range hl).flatMap fun r => (List.range wl).map fun t =>
    a.data.getD (((n * a.shape.getD 1 0 + c) * a.shape.getD 2 0 + (h0 + r)) * a.shape.getD 3 0 + (w0 + t)) 0

/-- `flatten_and_perform_dot`, conv.rs:552-563. -/
def flattenDot {F : Type} [CommRing F] (img w : List F) : F :=
  (img.zip w).foldl (fun sum ab => sum + ab.1 * ab.2) 0

/-- `res[[n, nw, hr, wr]] = api.add(s, res[[n, nw, hr, wr]])`, conv.rs:517, 544. -/
def addAt {F : Type} [Add F] [Zero F] (res : List F) (i : Nat) (v : F) : R (List F) :=
  if i < res.length then .ok (res.set i (v + res.getD i 0)) else .error .panic

/-- Sizes used throughout `conv_shape_4`. `wh` and `ww` are the last two dimensions of the weights. -/
structure ConvDims where
  m : Nat
  sH : Nat
  sW : Nat
  kh : Nat
  kw : Nat
  wh : Nat
  ww : Nat
  strideH : Nat
  strideW : Nat
  hOut : Nat
  wOut : Nat
  bh : Int
  bw : Int
deriving Repr, DecidableEq

/-- The dot product of one image window with the matching part of the kernel, conv.rs:487-545, for a
window whose top left corner is `(io, jo)`. `i = io + kh % 2` and `oh = -(kh % 2)`. -/
def convDot {F : Type} [CommRing F] (x w : Arr F) (d : ConvDims) (n nw c : Nat) (io jo : Int) : R F := do
  let oh : Int := -((d.kh : Int) % 2)
  let i : Int := io + (d.kh : Int) % 2
  let h1 ← i32ToUsize (max 0 (i + oh))
  let h2 ← i32ToUsize (min (i + oh + d.kh) d.sH)
  let ow : Int := -((d.kw : Int) % 2)
  let j : Int := jo + (d.kw : Int) % 2
  let w1 ← i32ToUsize (max 0 (j + ow))
  let w2 ← i32ToUsize (min (j + ow + d.kw) d.sW)
  let _ ← sliceAxis (x.shape.getD 0 0) n (n + 1)
  let _ ← sliceAxis (x.shape.getD 1 0) c (c + 1)
  let (h0, hl) ← sliceAxis (x.shape.getD 2 0) h1 h2
  let (w0, wl) ← sliceAxis (x.shape.getD 3 0) w1 w2
  let img := window x n c h0 hl w0 wl
  if hl = d.wh ∧ wl = d.ww then .ok (flattenDot img (window w nw c 0 d.wh 0 d.ww))
  else do
    let jh1 ← i32ToUsize (max (-oh - i) 0)
    let jh2 ← i32ToUsize (min d.kh (d.kh + d.sH - (i + oh + d.kh)))
    let jw1 ← i32ToUsize (max (-ow - j) 0)
    let jw2 ← i32ToUsize (min d.kw (d.kw + d.sW - (j + ow + d.kw)))
    let (g0, gl) ← sliceAxis d.wh jh1 jh2
    let (v0, vl) ← sliceAxis d.ww jw1 jw2
    if gl ≠ hl ∨ vl ≠ wl then .error .invalid
    else .ok (flattenDot img (window w nw c g0 gl v0 vl))

/-- One step of the innermost loop, conv.rs:494-546. -/
def convInner {F : Type} [CommRing F] (x w : Arr F) (d : ConvDims) (n nw c : Nat) (io : Int) (hr : Nat)
    (res : List F) (jo : Int) : R (List F) := do
  let wr ← i32ToUsize ((jo - d.bw) / d.strideW)
  if wr ≥ d.wOut then .ok res
  else do
    let s ← convDot x w d n nw c io jo
    addAt res (((n * d.m + nw) * d.hOut + hr) * d.wOut + wr) s

/-- One step of the loop over rows, conv.rs:485-547. (The row bounds of the window are computed there, before the
loop over columns; the model computes them in `convDot`, which is called for at least one column.) -/
def convRow {F : Type} [CommRing F] (x w : Arr F) (d : ConvDims) (n nw c : Nat) (res : List F) (io : Int) :
    R (List F) := do
  let hr ← i32ToUsize ((io - d.bh) / d.strideH)
  if hr ≥ d.hOut then .ok res
  else (stepRange d.bw (d.wOut * d.strideW : Nat) d.strideW).foldlM (convInner x w d n nw c io hr) res

/-- One step of the loop over input channels, conv.rs:482-548: the weights are sliced at
`[nw..=nw, c..=c, .., ..]`. -/
def convChan {F : Type} [CommRing F] (x w : Arr F) (d : ConvDims) (n nw : Nat) (res : List F) (c : Nat) :
    R (List F) := do
  if w.shape.length ≠ 4 then .error .panic
  else do
    let _ ← sliceAxis (w.shape.getD 0 0) nw (nw + 1)
    let _ ← sliceAxis (w.shape.getD 1 0) c (c + 1)
    (stepRange d.bh (d.hOut * d.strideH : Nat) d.strideH).foldlM (convRow x w d n nw c) res

/-- `validate_conv_params`, conv.rs:380-399. -/
def validateConvParams (c : ConvParams) : R Unit :=
  if c.pads.length < 4 then .error .invalid
  else if 0 ∈ c.strides then .error .invalid
  else .ok ()

/-- `conv_shape_4`, conv.rs:420-550. `get_u` is `readAt invalid`; `weights.shape()[0]` panics for a
scalar. -/
def convShape4 {F : Type} [CommRing F] (x : Arr F) (c : ConvParams) (w bias : Arr F) : R (Arr F) := do
  let _ ← validateConvParams c
  let sN ← readAt .invalid c.inputShape 0
  let sC ← readAt .invalid c.inputShape 1
  let sH ← readAt .invalid c.inputShape 2
  let sW ← readAt .invalid c.inputShape 3
  let kh ← readAt .invalid c.kernelShape 0
  let kw ← readAt .invalid c.kernelShape 1
  let strideH ← readAt .invalid c.strides 0
  let strideW ← readAt .invalid c.strides 1
  let pad0 ← readAt .invalid c.pads 0
  let pad1 ← readAt .invalid c.pads 1
  let pad2 ← readAt .invalid c.pads 2
  let pad3 ← readAt .invalid c.pads 3
  let hOut := (sH + pad0 + pad2 - kh) / strideH + 1
  let wOut := (sW + pad1 + pad3 - kw) / strideW + 1
  let _ ← asI32 kw
  let _ ← asI32 kh
  let _ ← asI32 sW
  let _ ← asI32 sH
  let p0 ← asI32 pad0
  let p1 ← asI32 pad1
  let _ ← asI32 (hOut * strideH)
  let _ ← asI32 (wOut * strideW)
  let m ← readAt .panic w.shape 0
  let res ← convSetupRes bias sN m hOut wOut
  let d : ConvDims := ⟨m, sH, sW, kh, kw, w.shape.getD 2 0, w.shape.getD 3 0, strideH, strideW, hOut, wOut,
    -p0, -p1⟩
  let out ← (List.range sN).foldlM (fun res n =>
    (List.range m).foldlM (fun res nw =>
      (List.range sC).foldlM (convChan x w d n nw) res) res) res
  .ok ⟨[sN, m, hOut, wOut], out⟩

/-- `conv_4d_run` up to `maybe_rescale`, conv.rs:589-606. `input_shape` is the shape of the input array
(conv.rs:88-92). -/
def convRun {F : Type} [CommRing F] (x w bias : Arr F) (dilations kernelShape pads strides : List Nat)
    (group : Nat) : R (Arr F) := do
  let c ← setDefaultParams ⟨dilations, kernelShape, pads, strides, x.shape, [group]⟩
  let _ ← notYetImplementedConv c.inputShape c.groups c.dilations
  convShape4 x c w bias

/-- A computation that emits no constraints, as a circuit-building step. -/
def liftR {F α : Type} [CommRing F] (r : R α) : G F α :=
  match r with
  | .ok a => pure a
  | .error .panic => panicWith "panic"
  | .error .invalid => throwErr "error"

/-- `conv_4d_run`, conv.rs:589-624. -/
def conv4dRun {p : Nat} (rc : RangeCtx) (x w bias : Arr (ZMod p))
    (dilations kernelShape pads strides : List Nat) (group : Nat) (isRescale : Bool) (kappa nBits : Nat)
    (isRelu : Bool) : G (ZMod p) (Arr (ZMod p)) := do
  let out ← liftR (convRun x w bias dilations kernelShape pads strides group)
  let ys ← maybeRescale rc out.data isRescale kappa nBits isRelu
  pure ⟨out.shape, ys⟩

end JST.Layers
