import Verif.Spec.Layers
import Mathlib.Data.Rat.Floor
import Mathlib.Algebra.Order.Floor.Semiring

/-!
# Specification of Resize

What ONNX Resize means: the coordinate in the input of an output coordinate, the nearest element, and
linear interpolation along every axis. Nothing here models code.
-/

namespace JST.Spec

/-- The values of `coordinate_transformation_mode` that the project accepts. -/
inductive CoordMode
  | halfPixel
  | asymmetric
  | alignCorners
  | pytorchHalfPixel
  | tfHalfPixelForNN
  deriving DecidableEq, Repr

/-- The values of `nearest_mode`. -/
inductive NearestMode
  | roundPreferFloor
  | roundPreferCeil
  | floor
  | ceil
  deriving DecidableEq, Repr

/-- ONNX: `x_original` for `x_resized = o`, with the scale of the axis as a separate argument (it is
`sizeOut / sizeIn` when `sizes` is given, and the given number when `scales` is). -/
def originalCoord (mode : CoordMode) (scale : ℚ) (sizeIn sizeOut o : Nat) : ℚ :=
  match mode with
  | .halfPixel => (o + 1 / 2) / scale - 1 / 2
  | .asymmetric => o / scale
  | .alignCorners => if sizeOut ≤ 1 then 0 else o * ((sizeIn : ℚ) - 1) / ((sizeOut : ℚ) - 1)
  | .pytorchHalfPixel => if sizeOut > 1 then (o + 1 / 2) / scale - 1 / 2 else 0
  | .tfHalfPixelForNN => (o + 1 / 2) / scale

/-- `i` is the integer that the mode selects for `x`. -/
def IsNearest (mode : NearestMode) (x : ℚ) (i : Int) : Prop :=
  match mode with
  | .roundPreferFloor => x - 1 / 2 ≤ i ∧ (i : ℚ) < x + 1 / 2
  | .roundPreferCeil => x - 1 / 2 < i ∧ (i : ℚ) ≤ x + 1 / 2
  | .floor => (i : ℚ) ≤ x ∧ x < i + 1
  | .ceil => x ≤ i ∧ (i : ℚ) - 1 < x

/-- `k` is `i` moved into `[0, size)`. -/
def IsClamped (size : Nat) (i : Int) (k : Nat) : Prop :=
  (k : Int) = if i < 0 then 0 else if (size : Int) ≤ i then (size : Int) - 1 else i

/-- A coordinate moved into `[0, size - 1]`. -/
def clampCoord (size : Nat) (x : ℚ) : ℚ := if x < 0 then 0 else if (size : ℚ) - 1 < x then (size : ℚ) - 1 else x

/-- Linear interpolation of a sequence at a non-negative point. -/
def lerp (g : Nat → ℚ) (x : ℚ) : ℚ := (1 - (x - ⌊x⌋₊)) * g ⌊x⌋₊ + (x - ⌊x⌋₊) * g ⌈x⌉₊

/-- Linear interpolation along every axis, of a function on integer points, at a rational point. -/
def multilinear : (List Nat → ℚ) → List ℚ → ℚ
  | f, [] => f []
  | f, x :: xs => lerp (fun i => multilinear (fun c => f (i :: c)) xs) x

/-- The point of the input that an output coordinate comes from, clamped to the input. -/
def resizePoint (mode : CoordMode) : List Nat → List Nat → List Nat → List ℚ
  | i :: ins, s :: outs, o :: os =>
    clampCoord i (originalCoord mode ((s : ℚ) / i) i s o) :: resizePoint mode ins outs os
  | _, _, _ => []

/-- `c'` is the nearest point of the input for the output coordinate `c`, axis by axis. -/
def NearestPoint (cm : CoordMode) (nm : NearestMode) (sIn sOut c c' : List Nat) : Prop :=
  c'.length = sOut.length ∧ ∀ d, d < sOut.length → ∃ i : Int,
    IsNearest nm (originalCoord cm ((sOut.getD d 0 : ℚ) / (sIn.getD d 0 : ℚ)) (sIn.getD d 0) (sOut.getD d 0)
      (c.getD d 0)) i ∧
    IsClamped (sIn.getD d 0) i (c'.getD d 0)

/-- The number of axes whose size changes. -/
def changedAxes (sIn sOut : List Nat) : Nat :=
  ((List.range sOut.length).filter fun d => sIn.getD d 0 ≠ sOut.getD d 0).length

end JST.Spec
