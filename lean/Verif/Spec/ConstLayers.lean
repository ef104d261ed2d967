import Verif.Spec.Tensor
import Mathlib.Data.Rat.Floor
import Mathlib.Algebra.Order.Floor.Ring

/-!
# Specification of Range, Shape, ConstantOfShape and Cast

As in the ONNX operator definitions. Nothing here models code.
-/

namespace JST.Spec

/-- The number of entries of Range. -/
def rangeLength (start limit delta : ℚ) : Nat := (max 0 ⌈(limit - start) / delta⌉).toNat

/-- `out` holds `start, start + delta, …`, as images in a ring. -/
def IsRange {F : Type} [CommRing F] (start limit delta : Int) (out : Arr F) : Prop :=
  out.shape = [rangeLength start limit delta] ∧ out.WF ∧
  ∀ k < rangeLength start limit delta, elem out [k] = some ((start + k * delta : Int) : F)

/-- An end of the slice taken by Shape: a negative one counts from the right, and both are clamped to `[0, rank]`. -/
def IsShapeEnd (rank : Nat) (raw : Int) (e : Nat) : Prop :=
  (e : Int) = max 0 (min (rank : Int) (if raw < 0 then raw + rank else raw))

/-- `out` is `dims[start:end]`. -/
def IsShapeOf {F : Type} [CommRing F] (dims : List Nat) (start stop : Int) (out : Arr F) : Prop :=
  ∃ s e : Nat, IsShapeEnd dims.length start s ∧ IsShapeEnd dims.length stop e ∧ out.shape = [e - s] ∧ out.WF ∧
    ∀ k < e - s, ∃ d, dims[s + k]? = some d ∧ elem out [k] = some (d : F)

/-- `out` has the given shape, all its entries are `v`. -/
def IsFilled {F : Type} (dims : List Nat) (v : F) (out : Arr F) : Prop :=
  out.shape = dims ∧ out.WF ∧ ∀ c, InRange dims c → elem out c = some v

/-- Conversion of a number to an integer: towards zero. -/
def IsTrunc (q : ℚ) (n : Int) : Prop := |(n : ℚ)| ≤ |q| ∧ |q| < |(n : ℚ)| + 1 ∧ 0 ≤ (n : ℚ) * q

end JST.Spec
