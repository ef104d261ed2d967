import Verif.Spec.Layers
import Mathlib.Algebra.BigOperators.Intervals

/-!
# Specification of the numeric layers

What ONNX means by convolution and pooling. Nothing here models code.
-/

namespace JST.Spec

/-- The entry of an `N×C×H×W` tensor at a possibly negative or too large position: zero outside. -/
def padded {F : Type} [Zero F] (x : Arr F) (n c : Nat) (h w : Int) : F :=
  if 0 ≤ h ∧ h < (x.shape.getD 2 0 : Nat) ∧ 0 ≤ w ∧ w < (x.shape.getD 3 0 : Nat) then
    (elem x [n, c, h.toNat, w.toNat]).getD 0
  else 0

/-- Two-dimensional convolution (ONNX `Conv`, one group, no dilation) with kernel size `kh×kw`, strides
`sh`, `sw`, and `ph`, `pw` rows and columns of zeros before the data:
`bias + Σ_c Σ_a Σ_b x[n, c, i·sh + a - ph, j·sw + b - pw] · w[m, c, a, b]`. -/
def convAt {F : Type} [CommRing F] (x w : Arr F) (bias : Nat → F) (kh kw sh sw ph pw : Nat)
    (n m i j : Nat) : F :=
  bias m + ∑ c ∈ Finset.range (x.shape.getD 1 0), ∑ a ∈ Finset.range kh, ∑ b ∈ Finset.range kw,
    padded x n c (i * sh + a - ph : Int) (j * sw + b - pw : Int) * (elem w [m, c, a, b]).getD 0

/-- Number of positions of a window of `k` at stride `s` in `padded` positions. -/
def windows (padded k s : Nat) : Nat := (padded - k) / s + 1

/-- The data inside a pooling window of an `N×C×H×W` tensor: the entries `x[n, c, h, w]` with
`h = i·sh + a·dh - ph`, `w = j·sw + b·dw - pw` for `a < kh`, `b < kw`, leaving out the padding. -/
def poolWindow {α : Type} (x : Arr α) (kh kw dh dw sh sw ph pw n c i j : Nat) : List α :=
  (List.range kh).flatMap fun a : Nat => (List.range kw).filterMap fun b : Nat =>
    if 0 ≤ (i * sh + a * dh - ph : Int) ∧ (i * sh + a * dh - ph : Int) < (x.shape.getD 2 0 : Nat) ∧
        0 ≤ (j * sw + b * dw - pw : Int) ∧ (j * sw + b * dw - pw : Int) < (x.shape.getD 3 0 : Nat) then
      elem x [n, c, (i * sh + a * dh - ph : Int).toNat, (j * sw + b * dw - pw : Int).toNat]
    else none

/-- The integer nearest to `s / n`, ties upwards: `⌊s/n + 1/2⌋`. -/
def roundedMean (s : Int) (n : Nat) : Int := (2 * s + n) / (2 * n)

/-- It is the nearest integer. -/
example (s : Int) (n : Nat) (hn : 0 < n) :
    2 * (n * roundedMean s n) ≤ 2 * s + n ∧ 2 * s + n < 2 * (n * roundedMean s n) + 2 * n := by
  have h : (0 : Int) < 2 * n := by omega
  have h1 := Int.mul_ediv_add_emod (2 * s + n) (2 * n)
  have h2 := Int.emod_nonneg (2 * s + n) h.ne'
  have h3 := Int.emod_lt_of_pos (2 * s + n) h
  unfold roundedMean
  rw [← mul_assoc]
  omega

/-- The output coordinates to which the entry at coordinates `c` contributes when the axes `axes` are
reduced: their coordinates are set to zero (`keep`) or left out. -/
def collapse (keep : Bool) (axes c : List Nat) : List Nat :=
  if keep then (List.range c.length).map fun i => if i ∈ axes then 0 else c.getD i 0 else dropAxes axes c

/-- The shape after reducing the axes `axes`. -/
def reduceShape (keep : Bool) (axes s : List Nat) : List Nat :=
  if keep then (List.range s.length).map fun i => if i ∈ axes then 1 else s.getD i 0 else dropAxes axes s

/-- The entries of `x` that contribute to the output at coordinates `o`, in row-major order. -/
def lane {α : Type} (keep : Bool) (axes : List Nat) (x : Arr α) (o : List Nat) : List α :=
  ((coordsOf x.shape).filter fun c => decide (collapse keep axes c = o)).filterMap (elem x)

/-- The axes an ONNX reduction names: all axes if `raw` is empty. -/
def ReduceAxes (rank : Nat) (raw : List Int) (axes : List Nat) : Prop :=
  (raw = [] ∧ ∀ a, a ∈ axes ↔ a < rank) ∨
  (raw ≠ [] ∧ (∀ r ∈ raw, ∃ a, AxisOf rank r a) ∧ ∀ a, a ∈ axes ↔ ∃ r ∈ raw, AxisOf rank r a)

end JST.Spec
