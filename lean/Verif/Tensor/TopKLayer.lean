import Verif.Gadgets.TopK
import Verif.Tensor.Resize

/-!
# The TopK layer

rust/jstprove_circuits/src/circuit_functions/layers/topk.rs: `build`, `apply_multi` and the loops of `compute` over the
lanes, whose body is `topkLane`.

Simplification: `out_flat` and `idx_flat` are written once at each position (topk.rs:490-492); here each position is
looked up in the lane that writes it.
-/

namespace JST.Layers

open JST.Shape

variable {p : Nat} [Fact p.Prime]

/-- The values of one lane, topk.rs:448-450. -/
def topkRead {α : Type} (data : List α) (d inner o inr : Nat) : R (List α) :=
  (List.range d).mapM fun a => readAt .panic data ((o * d + a) * inner + inr)

/-- The entry written at position `f`, topk.rs:490-492: `f = (o * k + j) * inner + inr`. -/
def topkPlace {α : Type} (lanes : List (List α)) (k inner f : Nat) : R α := do
  let l ← readAt .panic lanes (f / inner / k * inner + f % inner)
  readAt .panic l (f / inner % k)

/-- `apply_multi` and `compute`, topk.rs:116-152 and 422-560: values and indices. -/
def topkApply (rc : RangeCtx) (kappa nBits k axis : Nat) (out : List Nat) (x : Arr (ZMod p)) :
    G (ZMod p) (Arr (ZMod p) × Arr (ZMod p)) :=
  if nBits ≥ 64 then throwErr "n_bits too large for shift offset"
  else do
    let d := x.shape.getD axis 0
    let inner := (x.shape.drop (axis + 1)).prod
    let outer := (x.shape.take axis).prod
    let res ← collectG (fun l => do
      let lane ← liftR (topkRead x.data d inner (l / inner) (l % inner))
      topkLane rc nBits k ((2 ^ kappa : Nat) : ZMod p) lane) (List.range (outer * inner))
    let vals ← liftR ((List.range out.prod).mapM (topkPlace (res.map Prod.fst) k inner))
    let idx ← liftR ((List.range out.prod).mapM (topkPlace (res.map Prod.snd) k inner))
    let v ← liftR (fromShapeVec out vals)
    let i ← liftR (fromShapeVec out idx)
    pure (v, i)

/-- `build` followed by `apply_multi`, topk.rs:160-411: `kTensor` is the constant second input, `axis` and `largest` the
attributes with their defaults, `out` the recorded shape of the output. -/
def topkLayer (rc : RangeCtx) (kappa nBits : Nat) (kTensor : List Int) (axis largest : Int) (out : List Nat)
    (x : Arr (ZMod p)) : G (ZMod p) (Arr (ZMod p) × Arr (ZMod p)) :=
  match kTensor with
  | [k] =>
    if k ≤ 0 then throwErr "K tensor must be positive"
    else do
      let ax ← liftR (normAxis x.shape.length axis)
      if k.toNat > x.shape.getD ax 0 then throwErr "K exceeds axis dimension"
      else if largest ≠ 1 then throwErr "only largest=1 is supported"
      else if out ≠ x.shape.set ax k.toNat then throwErr "output shape does not match"
      else if kappa ≥ 64 then throwErr "scale_exponent is too large to shift u64"
      else topkApply rc kappa nBits k.toNat ax out x
  | _ => throwErr "K tensor must be a scalar"

end JST.Layers
