import Verif.Tensor.Elementwise
import Mathlib.Data.Rat.Floor
import Mathlib.Algebra.Order.Floor.Ring

/-!
# Layers whose output is known when the circuit is built, and Cast

layers/range.rs, layers/shape.rs, layers/constant_of_shape.rs, layers/constant.rs, layers/cast.rs and their shape
inference (rust/jstprove_onnx/src/shape_inference.rs). The 64-bit floats are rational numbers here.
-/

namespace JST.ConstLayers
open JST.Shape JST.Layers

variable {p : Nat}

def i64Low : Int := -2 ^ 63
def i64High : Int := 2 ^ 63 - 1

/-- `f as i64`: towards zero, saturating. -/
def asI64 (q : ℚ) : Int := max i64Low (min i64High (if 0 ≤ q then ⌊q⌋ else ⌈q⌉))

/-- `saturating_add`. -/
def satAdd (a b : Int) : Int := max i64Low (min i64High (a + b))

/-- `range_len`, range.rs:116-122; the subtraction of 64-bit integers may overflow. -/
def rangeLen (start limit delta : Int) : R Nat :=
  if (0 < delta ∧ start < limit) ∨ (delta < 0 ∧ limit < start) then
    if i64Low ≤ limit - start ∧ limit - start ≤ i64High then
      .ok (divCeil (limit - start).natAbs delta.natAbs)
    else .error .panic
  else .ok 0

/-- The loop, range.rs:124-129. -/
def rangeSeq (delta : Int) : Nat → Int → List Int
  | 0, _ => []
  | n + 1, current => current :: rangeSeq delta n (satAdd current delta)

/-- `RangeLayer`, range.rs:25-136, from the three constants. -/
def rangeLayer (p : Nat) (start limit delta : Int) : R (Arr (ZMod p)) :=
  if delta = 0 then .error .invalid
  else do
    let n ← rangeLen start limit delta
    let seq := rangeSeq delta n start
    fromShapeVec [seq.length] (seq.map fun v : Int => (v : ZMod p))

/-- The three constants as the layer receives them: `get_w_or_b` converts the stored numbers to `i64`. -/
def rangeBuild (p : Nat) (start limit delta : ℚ) : R (Arr (ZMod p)) :=
  rangeLayer p (asI64 start) (asI64 limit) (asI64 delta)

/-- `infer_range`, shape_inference.rs:787-819. -/
def inferRange (start limit delta : ℚ) : R (List Nat) :=
  if delta = 0 then .error .invalid else .ok [⌈(limit - start) / delta⌉.toNat]

/-- An end of the selection, shape.rs:156-165 and shape_inference.rs:2256-2265. -/
def shapeEnd (rank : Nat) (raw : Int) : Nat :=
  if raw < 0 then (max (rank + raw) 0).toNat else min raw.toNat rank

/-- The dimensions, shape.rs:167-171. -/
def shapeDims (shape : List Nat) (start : Option Int) (stop : Option Int) : List Nat :=
  let s := shapeEnd shape.length (start.getD 0)
  let e := shapeEnd shape.length (stop.getD shape.length)
  if e > s then (shape.drop s).take (e - s) else []

/-- `ShapeLayer`, shape.rs:41-178. -/
def shapeLayer (p : Nat) (shape : List Nat) (start stop : Option Int) : R (Arr (ZMod p)) :=
  let dims := shapeDims shape start stop
  fromShapeVec [dims.length] (dims.map fun d : Nat => (d : ZMod p))

/-- `infer_shape_op`, shape_inference.rs:2247-2273. -/
def inferShapeOp (shape : List Nat) (start stop : Option Int) : List Nat :=
  [shapeEnd shape.length (stop.getD shape.length) - shapeEnd shape.length (start.getD 0)]

/-- `v as usize`. -/
def asUsize (v : Int) : Nat := (v % 2 ^ 64).toNat

/-- `iter().product()` over `usize`; overflow panics. -/
def prodU : List Nat → Nat → R Nat
  | [], acc => .ok acc
  | d :: ds, acc => do
    let acc ← usz (acc * d)
    prodU ds acc

/-- `ConstantOfShapeLayer`, constant_of_shape.rs:23-104; `from_shape_vec` refuses a shape whose non-zero dimensions
multiply to more than `isize::MAX`. -/
def constOfShape (p : Nat) (dims : List Int) (fill : ℚ) : R (Arr (ZMod p)) := do
  let out := dims.map asUsize
  let total ← prodU out 1
  if (out.filter (· ≠ 0)).prod ≥ 2 ^ 63 then .error .invalid
  else fromShapeVec out (List.replicate total ((asI64 fill : Int) : ZMod p))

/-- `ConstantLayer`, constant.rs:20-39. -/
def constantLayer (p : Nat) (values : Arr Int) : R (Arr (ZMod p)) :=
  fromShapeVec values.shape (values.data.map fun v : Int => (v : ZMod p))

/-- `SUPPORTED_CAST_TYPES`, cast.rs:18-32. -/
def castTypes : List Int := [1, 2, 3, 4, 5, 6, 7, 9, 10, 11, 12, 13, 16]

variable [Fact p.Prime]

/-- An entry of a cast to BOOL, cast.rs:75-77. -/
def toBool (v : ZMod p) : G (ZMod p) (ZMod p) := do
  let iz ← isZero v
  pure (1 - iz)

/-- `CastLayer`, cast.rs:46-131. -/
def castLayer (ty : Int) (x : Arr (ZMod p)) : G (ZMod p) (Arr (ZMod p)) :=
  if ty ∉ castTypes then throwErr "unsupported cast"
  else if ty = 9 then mapLayer toBool x
  else pure x

end JST.ConstLayers
