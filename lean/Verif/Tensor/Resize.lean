import Verif.Tensor.Layers
import Verif.Tensor.Conv
import Verif.Tensor.Pool
import Verif.Gadgets.Exp
import Verif.Gadgets.Mean
import Verif.Spec.Resize
import Mathlib.Data.List.Sort

/-!
# Resize

rust/jstprove_circuits/src/circuit_functions/layers/resize.rs, hints/resize.rs and `infer_resize`
(rust/jstprove_onnx/src/shape_inference.rs:1687-1757).

Simplification: coordinates and weights, `f64` in the code, are exact rationals here.
-/

namespace JST.Layers

open JST.Shape JST.Spec

variable {p : Nat}

/-! ## Attributes -/

/-- The interpolation, resize.rs:508-523 and 560-586. -/
inductive ResizeMode
  | nearest
  | linear
  | cubic
  deriving DecidableEq, Repr

/-- resize.rs:508-523. -/
def parseMode (s : String) : Option ResizeMode :=
  if s = "nearest" then some .nearest
  else if s = "linear" ∨ s = "bilinear" ∨ s = "trilinear" then some .linear
  else if s = "cubic" then some .cubic
  else none

/-- resize.rs:524-543. -/
def parseCoord (s : String) : Option CoordMode :=
  if s = "half_pixel" then some .halfPixel
  else if s = "asymmetric" then some .asymmetric
  else if s = "align_corners" then some .alignCorners
  else if s = "pytorch_half_pixel" then some .pytorchHalfPixel
  else if s = "tf_half_pixel_for_nn" then some .tfHalfPixelForNN
  else none

/-- resize.rs:544-556. -/
def parseNearest (s : String) : Option NearestMode :=
  if s = "round_prefer_floor" then some .roundPreferFloor
  else if s = "round_prefer_ceil" then some .roundPreferCeil
  else if s = "floor" then some .floor
  else if s = "ceil" then some .ceil
  else none

/-! ## Coordinates -/

/-- `output_to_input_coord`, resize.rs:77-103. -/
def coordOf (mode : CoordMode) (o inSize outSize : Nat) : ℚ :=
  match mode with
  | .halfPixel => (o + 1 / 2) * inSize / outSize - 1 / 2
  | .asymmetric => o * inSize / outSize
  | .alignCorners => if outSize ≤ 1 then 0 else o * ((inSize : ℚ) - 1) / ((outSize : ℚ) - 1)
  | .pytorchHalfPixel => if outSize > 1 then (o + 1 / 2) * inSize / outSize - 1 / 2 else 0
  | .tfHalfPixelForNN => (o + 1 / 2) * inSize / outSize

/-- `f64::round`: half away from zero. -/
def roundAway (x : ℚ) : Int := if x < 0 then -⌊-x + 1 / 2⌋ else ⌊x + 1 / 2⌋

/-- The tie test of `apply_nearest_rounding`, resize.rs:121-127. -/
def isTie (x : ℚ) : Prop := |x - ⌊x⌋ - 1 / 2| < 1 / 10 ^ 10

instance (x : ℚ) : Decidable (isTie x) := inferInstanceAs (Decidable (_ < _))

/-- The match of `apply_nearest_rounding`, resize.rs:122-143. -/
def roundMode (mode : NearestMode) (x : ℚ) : Int :=
  match mode with
  | .roundPreferFloor => if isTie x then ⌊x⌋ else roundAway x
  | .roundPreferCeil => if isTie x then ⌈x⌉ else roundAway x
  | .floor => ⌊x⌋
  | .ceil => ⌈x⌉

/-- `apply_nearest_rounding`, resize.rs:112-146. -/
def nearestIdx (mode : NearestMode) (x : ℚ) (inSize : Nat) : R Nat :=
  if inSize = 0 then .error .invalid
  else .ok (clampI (roundMode mode x) 0 ((inSize : Int) - 1)).toNat

/-- `f64::clamp(0.0, hi)`. -/
def clampQ (x hi : ℚ) : ℚ :=
  let x' := if x < 0 then 0 else x
  if hi < x' then hi else x'

/-- `linear_corners`, resize.rs:155-171. -/
def linearCorners (x : ℚ) (inSize : Nat) : R (Nat × Nat × ℚ × ℚ) :=
  if inSize = 0 then .error .invalid
  else
    let xc := clampQ x ((inSize - 1 : Nat) : ℚ)
    .ok (⌊xc⌋₊, min ⌈xc⌉₊ (inSize - 1), 1 - (xc - ⌊xc⌋₊), xc - ⌊xc⌋₊)

/-! ## Index maps and weights -/

/-- `build_nearest_index_map`, resize.rs:199-222. -/
def buildNearest (cm : CoordMode) (nm : NearestMode) (inShape outShape : List Nat) : R (List Nat) :=
  (List.range outShape.prod).mapM fun flat => do
    let c := unravel flat outShape
    let c' ← (List.range outShape.length).mapM fun d =>
      nearestIdx nm (coordOf cm (c.getD d 0) (inShape.getD d 0) (outShape.getD d 0)) (inShape.getD d 0)
    ravelR c' inShape

/-- The axes whose size changes, resize.rs:238-240. -/
def resizeDims (inShape outShape : List Nat) : List Nat :=
  (List.range outShape.length).filter fun d => inShape.getD d 0 ≠ outShape.getD d 0

/-- The corner of a mask with its weight, resize.rs:266-277: bit `i` of the mask chooses between the two
neighbours along the `i`-th resized axis. -/
def cornerOf : List (Nat × Nat × Nat × ℚ × ℚ) → Nat → List Nat → ℚ → List Nat × ℚ
  | [], _, c, w => (c, w)
  | (d, lo, hi, wl, wh) :: rest, mask, c, w =>
    if mask % 2 = 0 then cornerOf rest (mask / 2) (c.set d lo) (w * wl)
    else cornerOf rest (mask / 2) (c.set d hi) (w * wh)

/-- The fractional part of the `i`-th weight. -/
def fracOf (raw : List ℚ) (i : Nat) : ℚ := raw.getD i 0 - ⌊raw.getD i 0⌋

/-- `weights_q[i] += delta` for every `i` of a list. -/
def bump (delta : Int) (q : List Int) (is : List Nat) : List Int :=
  is.foldl (fun q i => q.modify i (· + delta)) q

/-- The fixed-point weights of the corners, resize.rs:283-314: round each, then move the entries with the
largest (or smallest) fractional parts until the sum is the scale. Both sorts are stable. -/
def quantise (raw : List ℚ) (scaling : Nat) : List Int :=
  let q := raw.map roundAway
  let residual : Int := scaling - q.sum
  let n := min residual.natAbs raw.length
  if residual = 0 then q
  else if residual > 0 then
    bump 1 q (((List.range raw.length).insertionSort fun a b => fracOf raw b ≤ fracOf raw a).take n)
  else
    bump (-1) q (((List.range raw.length).insertionSort fun a b => fracOf raw a ≤ fracOf raw b).take n)

/-- The neighbours along each resized axis, resize.rs:249-261. -/
def dimInfo (cm : CoordMode) (inShape outShape c : List Nat) : R (List (Nat × Nat × Nat × ℚ × ℚ)) :=
  (resizeDims inShape outShape).mapM fun d => do
    let q ← linearCorners (coordOf cm (c.getD d 0) (inShape.getD d 0) (outShape.getD d 0)) (inShape.getD d 0)
    .ok (d, q)

/-- The indices and weights of one output, resize.rs:246-315. -/
def linearSpec (cm : CoordMode) (inShape outShape : List Nat) (scaling flat : Nat) : R (List Nat × List Int) := do
  let c := unravel flat outShape
  let info ← dimInfo cm inShape outShape c
  let corners := (List.range (2 ^ info.length)).map fun mask => cornerOf info mask c 1
  let idx ← corners.mapM fun cw => ravelR cw.1 inShape
  .ok (idx, quantise (corners.map fun cw => cw.2 * scaling) scaling)

/-- `build_linear_per_output`, resize.rs:230-318. -/
def buildLinear (cm : CoordMode) (inShape outShape : List Nat) (scaling : Nat) : R (List (List Nat × List Int)) :=
  (List.range outShape.prod).mapM fun flat => linearSpec cm inShape outShape scaling flat

/-! ## Circuit -/

/-- The weighted sum of `resize_hint` in checked `i128`, hints/resize.rs:84-102. -/
def hintSum : List (ZMod p × ZMod p) → Int → Except Err Int
  | [], acc => .ok acc
  | (x, w) :: rest, acc =>
    if w.val ≥ 2 ^ 64 then .error (.hint "weight exceeds u64::MAX")
    else
      let prod := fieldToI64 x * (w.val : Int)
      if prod < -2 ^ 127 ∨ prod ≥ 2 ^ 127 then .error (.hint "overflow in weighted sum")
      else if acc + prod < -2 ^ 127 ∨ acc + prod ≥ 2 ^ 127 then .error (.hint "overflow in accumulation")
      else hintSum rest (acc + prod)

/-- The rounded quotient of `resize_hint`, hints/resize.rs:104-117. -/
def hintQuot (sum : Int) (scale : Nat) : Int :=
  if sum ≥ 0 then min ((sum + (scale / 2 : Nat)) / scale) (2 ^ 63 - 1) else 0

/-- `resize_hint`, hints/resize.rs:50-119. -/
def resizeHint (inputs : List (ZMod p)) : Except Err (List (ZMod p)) :=
  if inputs.length < 3 ∨ inputs.length % 2 = 0 then .error (.hint "expected 2*n+1 inputs")
  else
    let n := (inputs.length - 1) / 2
    let scale := (inputs.getD (2 * n) 0).val
    if scale ≥ 2 ^ 64 then .error (.hint "scale exceeds u64::MAX")
    else if scale = 0 then .error (.hint "scale is zero")
    else match hintSum ((inputs.take n).zip ((inputs.drop n).take n)) 0 with
      | .error e => .error e
      | .ok s => .ok [((hintQuot s scale : Int) : ZMod p)]

/-- `w as u64` for an `i64`, resize.rs:371. -/
def weightConst (w : Int) : Nat := (w % 2 ^ 64).toNat

/-- The constraints of one interpolated output, resize.rs:356-393. -/
def resizeCell (rc : RangeCtx) (kappa nBits : Nat) (xs : List (ZMod p)) (ws : List Int) : G (ZMod p) (ZMod p) := do
  let wv : List (ZMod p) := ws.map fun w => (weightConst w : ZMod p)
  let o ← newHint resizeHint (xs ++ wv ++ [((2 ^ kappa : Nat) : ZMod p)]) 1
  let y := o.headD 0
  let sum := (xs.zip wv).foldl (fun acc q => acc + q.1 * q.2) 0
  let r := sum + ((2 ^ kappa / 2 : Nat) : ZMod p) - y * ((2 ^ kappa : Nat) : ZMod p)
  rangeCheck rc r kappa
  rangeCheck rc y nBits
  pure y

/-- The values read for one output, then its constraints, resize.rs:355-396. -/
def resizeOut (rc : RangeCtx) (kappa nBits : Nat) (x : Arr (ZMod p)) (s : List Nat × List Int) :
    G (ZMod p) (ZMod p) := do
  let xs ← liftR (s.1.mapM (readAt .panic x.data))
  resizeCell rc kappa nBits xs s.2

/-- Interpolation, resize.rs:344-398 and 567-583. -/
def resizeLinear (rc : RangeCtx) (cm : CoordMode) (kappa nBits : Nat) (out : List Nat) (x : Arr (ZMod p)) :
    G (ZMod p) (Arr (ZMod p)) :=
  if kappa ≥ 64 then throwErr "scale_exponent is too large"
  else do
    let specs ← liftR (buildLinear cm x.shape out (2 ^ kappa))
    let ys ← collectG (resizeOut rc kappa nBits x) specs
    liftR (fromShapeVec out ys)

/-- Selection, resize.rs:337-343 and 583-588. -/
def resizeNearest {α : Type} (cm : CoordMode) (nm : NearestMode) (out : List Nat) (x : Arr α) : R (Arr α) := do
  let map ← buildNearest cm nm x.shape out
  applyMap .panic map out x

/-- `build` and `apply` of the Resize layer, resize.rs:318-607, for the inferred output shape. -/
def resizeLayer (rc : RangeCtx) (kappa nBits : Nat) (mode cm nm : Option String) (out : List Nat)
    (x : Arr (ZMod p)) : G (ZMod p) (Arr (ZMod p)) :=
  if x.shape.length ≠ out.length then throwErr "input rank != output rank"
  else match parseMode (mode.getD "nearest"), parseCoord (cm.getD "half_pixel"),
      parseNearest (nm.getD "round_prefer_floor") with
    | some .linear, some c, some _ => resizeLinear rc c kappa nBits out x
    | some .nearest, some c, some n => liftR (resizeNearest c n out x)
    | _, _, _ => throwErr "unsupported attribute"

/-! ## Shape inference -/

/-- The sizes from `sizes`, shape_inference.rs:1707-1717. -/
def sizesDims (sizes : List Int) : R (List Nat) :=
  sizes.mapM fun s => if s < 0 then .error .invalid else .ok s.toNat

/-- The sizes from `scales`, shape_inference.rs:1730-1742. -/
def scalesDims (inShape : List Nat) (scales : List ℚ) : R (List Nat) :=
  (inShape.zip scales).mapM fun q => if q.2 ≤ 0 then .error .invalid else .ok ⌊(q.1 : ℚ) * q.2⌋₊

/-- `infer_resize`, shape_inference.rs:1687-1757, with the constant tensors of the inputs 2 and 3 (`none`
when the input is absent or not constant): `sizes` when there is one number for every axis, else `scales`
under the same condition, else an error. -/
def inferResize (inShape : List Nat) (sizes : Option (List Int)) (scales : Option (List ℚ)) : R (List Nat) :=
  match sizes.filter (·.length = inShape.length), scales.filter (·.length = inShape.length) with
  | some s, _ => sizesDims s
  | none, some s => scalesDims inShape s
  | none, none => .error .invalid

end JST.Layers
