import Verif.Spec.Resize

/-!
# Specification of GridSample

What ONNX GridSample means for two spatial axes. Nothing here models code.
-/

namespace JST.Spec

/-- `padding_mode`. -/
inductive GridPad
  | zeros
  | border
  | reflection
  deriving DecidableEq, Repr

/-- The pixel coordinate of a normalised coordinate. -/
def gridCoord (alignCorners : Bool) (size : Nat) (g : ℚ) : ℚ :=
  if alignCorners then (g + 1) * ((size : ℚ) - 1) / 2 else ((g + 1) * size - 1) / 2

/-- Linear interpolation between the two integers around a point. -/
def lerpZ (g : Int → ℚ) (x : ℚ) : ℚ := (1 - Int.fract x) * g ⌊x⌋ + Int.fract x * g (⌊x⌋ + 1)

/-- Linear interpolation along both axes. -/
def bilin (g : Int → Int → ℚ) (y x : ℚ) : ℚ := lerpZ (fun i => lerpZ (g i) x) y

/-- The value of a pixel; zero outside the image. -/
def pixel (x : Arr Int) (n c H W : Nat) (i j : Int) : ℚ :=
  if 0 ≤ i ∧ i < H ∧ 0 ≤ j ∧ j < W then (((elem x [n, c, i.toNat, j.toNat]).getD 0 : Int) : ℚ) else 0

/-- `z` is `x` mirrored at `lo` and `hi` until it lies between them. -/
def IsMirrored (lo hi x z : ℚ) : Prop :=
  lo ≤ z ∧ z ≤ hi ∧ ∃ k : Int, z = x + 2 * k * (hi - lo) ∨ z = 2 * lo - x + 2 * k * (hi - lo)

/-- The nearest integer, the even one of two. -/
def IsRint (x : ℚ) (i : Int) : Prop := |x - i| ≤ 1 / 2 ∧ (|x - i| = 1 / 2 → i % 2 = 0)

/-- The sampled point `(y, x)` of an output, in pixels: the grid holds `(x, y)` in fixed point. -/
def gridPoint (grid : Arr Int) (κ : Nat) (ac : Bool) (H W n i j : Nat) : ℚ × ℚ :=
  (gridCoord ac H ((((elem grid [n, i, j, 1]).getD 0 : Int) : ℚ) / 2 ^ κ),
    gridCoord ac W ((((elem grid [n, i, j, 0]).getD 0 : Int) : ℚ) / 2 ^ κ))

end JST.Spec
