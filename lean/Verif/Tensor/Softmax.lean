import Verif.Tensor.Lanes
import Verif.Gadgets.Arith

/-!
# Softmax

rust/jstprove_circuits/src/circuit_functions/layers/softmax.rs. Conventions as in `FunctionExp`.
-/

namespace JST.Layers

open JST.Shape

variable {p : Nat}

/-- The check that `m` is one of the values and each `m - x` is small, softmax.rs:116-123. -/
def softmaxMax (rc : RangeCtx) (bits : Nat) (m : ZMod p) : List (ZMod p) → G (ZMod p) Unit
  | [] => panicWith "x_vars[0]"
  | x :: xs => do
    rangeCheck rc (m - x) bits
    let r ← maxLoop rc bits m xs (m - x)
    assertZero r

/-- The checks on one output `y` whose exponential is `e`, softmax.rs:138-149. -/
def softmaxElem (rc : RangeCtx) (nBits alpha tol tolBits : Nat) (sumExp : ZMod p) (ye : ZMod p × ZMod p) :
    G (ZMod p) Unit := do
  rangeCheck rc ye.1 nBits
  rangeCheck rc ((alpha : ZMod p) - ye.1) nBits
  let crossDiff := ye.1 * sumExp - ye.2 * (alpha : ZMod p)
  rangeCheck rc (crossDiff + (tol : ZMod p)) tolBits

/-- One lane, softmax.rs:107-160. `x_vars[0]` panics on an empty lane, which `apply` excludes. -/
def softmaxLane (hint : List (ZMod p) → Except Err (List (ZMod p))) (e : ExpCtx) (nBits tol tolBits : Nat)
    (xs : List (ZMod p)) : G (ZMod p) (List (ZMod p)) := do
  let out ← newHint hint (xs ++ [(e.scale : ZMod p)]) (2 * xs.length + 1)
  let ys := out.take xs.length
  let m := out.getD xs.length 0
  softmaxMax e.rc (e.totalBits - 1) m xs
  let es ← collectG (fun x => verifyExp e (x - m)) xs
  let _ ← collectG (softmaxElem e.rc nBits e.scale tol tolBits es.sum) (ys.zip es)
  rangeCheck e.rc (ys.sum - (e.scale : ZMod p) + (xs.length : ZMod p)) (Nat.clog 2 (2 * xs.length + 1))
  pure ys

/-- `SoftmaxLayer::build` and `apply`, softmax.rs:35-237. The two products of `u64`s are as in a release build. -/
def softmaxLayer (hint : List (ZMod p) → Except Err (List (ZMod p))) (f : Int → Int) (rc : RangeCtx)
    (th tl kappa nBits opset : Nat) (axis : Int) (x : Arr (ZMod p)) : G (ZMod p) (Arr (ZMod p)) :=
  if kappa ≥ 64 then throwErr "scale_exponent is too large to shift u64"
  else if opset < 13 then throwErr "per-axis lanes semantics requires opset ≥ 13"
  else do
    let ax ← liftR (normAxis x.shape.length axis)
    let n := x.shape.getD ax 0
    if n = 0 then pure ⟨x.shape, List.replicate x.shape.prod 0⟩
    else if kappa = 63 then throwErr "scaling exceeds i64::MAX"
    else laneMap (softmaxLane hint (expCtx f rc th tl kappa) nBits (n * 2 ^ kappa % 2 ^ 64)
      (Nat.clog 2 (2 * (n * 2 ^ kappa % 2 ^ 64) % 2 ^ 64))) ax x

end JST.Layers
