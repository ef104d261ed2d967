import Verif.Tensor.Reduce
import Verif.Gadgets.LinAlg
import Verif.Gadgets.Ops

/-!
# Elementwise layers

rust/jstprove_circuits/src/circuit_functions/layers/: binary_arith.rs, mul.rs, div.rs, neg.rs, relu.rs,
leaky_relu.rs, clip.rs, binary_compare.rs, equal.rs, greater.rs, less.rs, and_op.rs, not_op.rs,
where_op.rs.

Conventions as in `Pool`: operands are the arrays already fetched or loaded from constants
(tensor_ops.rs:61-80); a constant is its image in the field. `n_bits_for` and `scale_exponent` are
arguments.
-/

namespace JST.Layers

open JST.Shape

/-! ## Arithmetic -/

section ring
variable {F : Type} [CommRing F]

/-- `BinaryArithLayer` for Add, binary_arith.rs:28-66. -/
def addLayer [Inhabited F] (a b : Arr F) : G F (Arr F) := do
  let r ← liftR (broadcastTwo a b)
  elementwiseOp (fun x y => x + y) r.1 r.2

/-- `BinaryArithLayer` for Sub, binary_arith.rs:28-66. -/
def subLayer [Inhabited F] (a b : Arr F) : G F (Arr F) := do
  let r ← liftR (broadcastTwo a b)
  elementwiseOp (fun x y => x - y) r.1 r.2

/-- The loop over one array, as in neg.rs:32-44, not_op.rs:36-50, relu.rs:107-115, leaky_relu.rs:71-103:
the results take the shape of the input. -/
def mapLayer (f : F → G F F) (x : Arr F) : G F (Arr F) := do
  let ys ← collectG f x.data
  liftR (fromShapeVec x.shape ys)

/-- The loop over two arrays of the same shape, as in binary_compare.rs:74-98, equal.rs:92-109,
greater.rs:95-109, less.rs:95-109, and_op.rs:52-65. -/
def zipLoop (f : F → F → G F F) (a b : Arr F) : G F (Arr F) := do
  let ys ← collectG (fun q : F × F => f q.1 q.2) (a.data.zip b.data)
  liftR (fromShapeVec a.shape ys)

/-- `NegLayer::apply`, neg.rs:22-48. -/
def negLayer (x : Arr F) : G F (Arr F) := mapLayer (fun v => pure (0 - v)) x

/-- `AndLayer::apply`, and_op.rs:21-68. -/
def andLayer [Inhabited F] (a b : Arr F) : G F (Arr F) := do
  let r ← liftR (broadcastTwo a b)
  zipLoop (fun x y => pure (x * y)) r.1 r.2

/-- `NotLayer::apply`, not_op.rs:22-53. -/
def notLayer (x : Arr F) : G F (Arr F) := mapLayer (fun v => do
  assertBool v
  pure (1 - v)) x

end ring

variable {p : Nat}

/-- `MulLayer::apply`, mul.rs:41-85. -/
def mulLayer (rc : RangeCtx) (isRescale : Bool) (kappa nBits : Nat) (isRelu : Bool) (a b : Arr (ZMod p)) :
    G (ZMod p) (Arr (ZMod p)) := do
  let r ← liftR (broadcastTwo a b)
  let prod ← elementwiseOp (fun x y => x * y) r.1 r.2
  let ys ← maybeRescale rc prod.data isRescale kappa nBits isRelu
  pure ⟨prod.shape, ys⟩

/-- One element of DivLayer, div.rs:131-164. The caches of constants only avoid duplicates. Divisors are
positive and below `2^32` (`validate_divisors`). -/
def divElem (rc : RangeCtx) (s : Nat) (x : ZMod p) (d : Int) : G (ZMod p) (ZMod p) :=
  if d = 1 then pure x
  else if d < 0 ∨ d ≥ 2 ^ 32 then throwErr "divisor is negative or too large"
  else divConst rc x (d.toNat : ZMod p) d.toNat ((2 ^ s * d.toNat : Nat) : ZMod p) s ((2 ^ s : Nat) : ZMod p)

/-- The checks between broadcasting and division, div.rs:95-129; `RescalingContext::new` rejects scale
exponents of 32 and more. -/
def divChecks (kappa nBits : Nat) (divisors : List Int) : G (ZMod p) Nat :=
  if divisors.any (fun d => decide (d ≤ 0 ∨ d > 2 ^ 32 - 1)) then throwErr "Divisor must be in range [1, 2^32)"
  else if nBits = 0 then throwErr "shift_exponent_plus_one"
  else do
    let ctx ← RescaleCtx.new (p := p) kappa (nBits - 1)
    pure ctx.shiftExp

/-- `DivLayer::apply`, div.rs:36-177, with the constant divisor if there is one. -/
def divLayer (rc : RangeCtx) (kappa nBits : Nat) (a : Arr (ZMod p)) (divisor : Option (Arr Int)) :
    G (ZMod p) (Arr (ZMod p)) :=
  match divisor with
  | none => throwErr "Div requires constant divisor. Dynamic divisors not supported."
  | some b => do
    let out ← liftR (broadcastShapes a.shape b.shape)
    let a' ← liftR (broadcastArray a out)
    let b' ← liftR (broadcastArray b out)
    let s ← divChecks kappa nBits b'.data
    let ys ← collectG (fun q : ZMod p × Int => divElem rc s q.1 q.2) (a'.data.zip b'.data)
    liftR (fromShapeVec out ys)

/-- `ReluLayer::apply` and `relu_array`, relu.rs:30-118. -/
def reluLayer (rc : RangeCtx) (nBits : Nat) (x : Arr (ZMod p)) : G (ZMod p) (Arr (ZMod p)) :=
  if nBits = 0 then throwErr "ReLU: n_bits must be at least 1"
  else do
    let sc ← ShiftCtx.new (nBits - 1)
    mapLayer (fun v => constrainedRelu sc rc v) x

/-- One element of LeakyRelu, leaky_relu.rs:73-95. -/
def leakyElem (rc : RangeCtx) (sc : ShiftCtx p) (ctx : RescaleCtx p) (alpha x : ZMod p) :
    G (ZMod p) (ZMod p) := do
  let reluX ← constrainedRelu sc rc x
  let alphaNeg ← divPow2 rc (alpha * (x - reluX)) ctx.scalingFactor ctx.scaledShift ctx.scalingExp
    ctx.shiftExp ctx.shift
  pure (reluX + alphaNeg)

/-- `LeakyReluLayer::apply`, leaky_relu.rs:31-106; `alphaQ` is the quantised slope computed by `build`
(lines 139-168), entering the circuit as a field element (lines 54-64). -/
def leakyReluLayer (rc : RangeCtx) (nBits kappa : Nat) (alphaQ : Int) (x : Arr (ZMod p)) :
    G (ZMod p) (Arr (ZMod p)) :=
  if nBits = 0 then throwErr "LeakyReLU: n_bits must be at least 1"
  else do
    let sc ← ShiftCtx.new (nBits - 1)
    let ctx ← RescaleCtx.new kappa (nBits - 1)
    mapLayer (fun v => leakyElem rc sc ctx (alphaQ : ZMod p) v) x

/-- `BinaryCompareLayer` for Max, binary_compare.rs:29-141. -/
def maxLayer (rc : RangeCtx) (nBits : Nat) (a b : Arr (ZMod p)) : G (ZMod p) (Arr (ZMod p)) :=
  if nBits = 0 then throwErr "n_bits too small to derive shift_exponent"
  else do
    let r ← liftR (broadcastTwo a b)
    let sc ← ShiftCtx.new (nBits - 1)
    zipLoop (fun x y => max2 sc rc x y) r.1 r.2

/-- `BinaryCompareLayer` for Min, binary_compare.rs:29-141. -/
def minLayer (rc : RangeCtx) (nBits : Nat) (a b : Arr (ZMod p)) : G (ZMod p) (Arr (ZMod p)) :=
  if nBits = 0 then throwErr "n_bits too small to derive shift_exponent"
  else do
    let r ← liftR (broadcastTwo a b)
    let sc ← ShiftCtx.new (nBits - 1)
    zipLoop (fun x y => min2 sc rc x y) r.1 r.2

/-- Broadcasting X against the lower bound, clip.rs:115-119. -/
def clipLower {F : Type} [CommRing F] [Inhabited F] (x : Arr F) : Option (Arr F) →
    R (Arr F × Option (Arr F))
  | none => .ok (x, none)
  | some lo => do
    let r ← broadcastTwo x lo
    .ok (r.1, some r.2)

/-- Bringing the lower bound to the final shape, clip.rs:128-135. -/
def clipRealign {F : Type} [CommRing F] [Inhabited F] (x : Arr F) : Option (Arr F) → R (Option (Arr F))
  | none => .ok none
  | some lo =>
    if lo.shape = x.shape then .ok (some lo)
    else do
      let r ← broadcastTwo x lo
      .ok (some r.2)

/-- Broadcasting X, by then aligned with the lower bound, against the upper bound, clip.rs:121-136. -/
def clipUpper {F : Type} [CommRing F] [Inhabited F] (x : Arr F) (lo : Option (Arr F)) :
    Option (Arr F) → R (Arr F × Option (Arr F) × Option (Arr F))
  | none => .ok (x, lo, none)
  | some hi => do
    let r ← broadcastTwo x hi
    let lo' ← clipRealign r.1 lo
    .ok (r.1, lo', some r.2)

/-- The shape checks, clip.rs:138-167. -/
def clipShapesOk {F : Type} (x : Arr F) (b : Option (Arr F)) : Bool :=
  match b with
  | none => true
  | some b => b.shape == x.shape

/-- The values of an optional bound, one per element of X. -/
def boundVals {F : Type} (n : Nat) : Option (Arr F) → List (Option F)
  | none => List.replicate n none
  | some b => b.data.map some

/-- `ClipLayer::build` and `apply`, clip.rs:54-266. The four loops of lines 180-222 are one. -/
def clipLayer (rc : RangeCtx) (nBits : Nat) (x : Arr (ZMod p)) (lo hi : Option (Arr (ZMod p))) :
    G (ZMod p) (Arr (ZMod p)) :=
  if nBits = 0 then throwErr "n_bits too small to derive shift_exponent"
  else if lo.isNone && hi.isNone then pure x
  else do
    let r1 ← liftR (clipLower x lo)
    let r2 ← liftR (clipUpper r1.1 r1.2 hi)
    if !clipShapesOk r2.1 r2.2.1 || !clipShapesOk r2.1 r2.2.2 then throwErr "not broadcastable to X shape"
    else do
      let sc ← ShiftCtx.new (nBits - 1)
      let ys ← collectG (fun q : (ZMod p × Option (ZMod p)) × Option (ZMod p) =>
          constrainedClip sc rc q.1.1 q.1.2 q.2)
        ((r2.1.data.zip (boundVals r2.1.data.length r2.2.1)).zip (boundVals r2.1.data.length r2.2.2))
      liftR (fromShapeVec r2.1.shape ys)

/-! ## Comparison, logic, selection -/

variable [Fact p.Prime]

/-- `EqualLayer::apply` with at most one constant operand, equal.rs:63-112. -/
def equalLayer (a b : Arr (ZMod p)) : G (ZMod p) (Arr (ZMod p)) := do
  let r ← liftR (broadcastTwo a b)
  zipLoop (fun x y => isZero (x - y)) r.1 r.2

/-- `GreaterLayer::apply` with at most one constant operand, greater.rs:63-112; `numBits` is the width
`gt` uses for the field. -/
def greaterLayer (numBits : Nat) (a b : Arr (ZMod p)) : G (ZMod p) (Arr (ZMod p)) := do
  let r ← liftR (broadcastTwo a b)
  zipLoop (fun x y => gt numBits x y) r.1 r.2

/-- `LessLayer::apply` with at most one constant operand, less.rs:63-112. -/
def lessLayer (numBits : Nat) (a b : Arr (ZMod p)) : G (ZMod p) (Arr (ZMod p)) := do
  let r ← liftR (broadcastTwo a b)
  zipLoop (fun x y => gt numBits y x) r.1 r.2

/-- Equal, Greater and Less with two constant operands: computed by `build`, emitted by `apply` as
constants. equal.rs:44-62, 150-213, greater.rs:43-62, 147-205, less.rs:43-62, 147-205. -/
def comparePre (cmp : Int → Int → Bool) (out : List Nat) (a b : Arr Int) : R (Arr (ZMod p)) := do
  let a' ← broadcastArray a out
  let b' ← broadcastArray b out
  fromShapeVec out ((a'.data.zip b'.data).map fun q : Int × Int => if cmp q.1 q.2 then (1 : ZMod p) else 0)

/-- The comparisons of constants: equal.rs:197-201, greater.rs:195-199, less.rs:195-199. -/
def equalPre (out : List Nat) (a b : Arr Int) : R (Arr (ZMod p)) := comparePre (fun x y => decide (x = y)) out a b
/-- See `equalPre`. -/
def greaterPre (out : List Nat) (a b : Arr Int) : R (Arr (ZMod p)) := comparePre (fun x y => decide (x > y)) out a b
/-- See `equalPre`. -/
def lessPre (out : List Nat) (a b : Arr Int) : R (Arr (ZMod p)) := comparePre (fun x y => decide (x < y)) out a b

/-- One output of Where, where_op.rs:156-170, on the 0/1 condition values. -/
def whereElem (cond x y : List (ZMod p)) (cShape xShape yShape out : List Nat) (i : Nat) : R (ZMod p) := do
  let oc := unravel i out
  let ci ← (broadcastIndex oc cShape out.length).elim (.error .panic) .ok
  let xi ← (broadcastIndex oc xShape out.length).elim (.error .panic) .ok
  let yi ← (broadcastIndex oc yShape out.length).elim (.error .panic) .ok
  let c ← readAt .panic cond ci
  let xv ← readAt .panic x xi
  let yv ← readAt .panic y yi
  .ok (c * (xv - yv) + yv)

/-- `WhereLayer::apply` with a condition known only at run time, where_op.rs:117-187: the condition is
first turned into 0/1 values (lines 139-153), then every output is `c·(x - y) + y`. -/
def whereLayer (out cShape xShape yShape : List Nat) (cond x y : Arr (ZMod p)) :
    G (ZMod p) (Arr (ZMod p)) := do
  let cs ← collectG (fun v : ZMod p => do
    let iz ← isZero v
    pure (1 - iz)) cond.data
  let ys ← liftR ((List.range out.prod).mapM (whereElem cs x.data y.data cShape xShape yShape out))
  liftR (fromShapeVec out ys)

end JST.Layers
