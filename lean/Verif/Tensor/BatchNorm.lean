import Verif.Tensor.Elementwise
import Verif.Quant.Convert
import Mathlib.Analysis.SpecialFunctions.Pow.Real

/-!
# BatchNormalization

`layers/batchnorm.rs` and `reshape_channel_vector_for_broadcast` (`utils/tensor_ops.rs`) in
`/repo/rust/jstprove_circuits/src/circuit_functions`, and the folding of the parameters in
`/repo/rust/jstprove_onnx/src/quantizer.rs`.
-/

namespace JST.Layers

open JST.Shape

/-- `reshape_channel_vector_for_broadcast`, tensor_ops.rs:259-293. For an input of rank 0 or 1 the error message reads
`target_shape[1]`, which panics. -/
def reshapeChannel {F : Type} (v : Arr F) (target : List Nat) : R (Arr F) :=
  if v.shape.length ≠ 1 then .error .invalid
  else if target.length < 2 then .error .panic
  else if target.getD 1 0 ≠ v.data.length then .error .invalid
  else .ok ⟨v.data.length :: List.replicate (target.length - 2) 1, v.data⟩

/-- `BatchnormLayer::apply`, batchnorm.rs:39-101; `m` and `b` are the arrays loaded or fetched for the second and third
input. -/
def batchnormLayer {p : Nat} (rc : RangeCtx) (isRescale : Bool) (kappa nBits : Nat) (isRelu : Bool)
    (x m b : Arr (ZMod p)) : G (ZMod p) (Arr (ZMod p)) := do
  let m' ← liftR (reshapeChannel m x.shape)
  let b' ← liftR (reshapeChannel b x.shape)
  let r ← liftR (broadcastTwo x m')
  let prod ← elementwiseOp (fun u v => u * v) r.1 r.2
  let s ← liftR (broadcastTwo prod b')
  let sum ← elementwiseOp (fun u v => u + v) s.1 s.2
  let ys ← maybeRescale rc sum.data isRescale kappa nBits isRelu
  pure ⟨sum.shape, ys⟩

end JST.Layers

namespace JST.Convert

/-- `fold_batchnorm_params`, quantizer.rs:185-291, on the values of the four parameters; `none` is its error. Real
numbers stand for `f64`. -/
noncomputable def foldBatchnorm (eps : ℝ) (scale bias mean var : List ℝ) : Option (List ℝ × List ℝ) :=
  if bias.length = scale.length ∧ mean.length = scale.length ∧ var.length = scale.length then
    if ∀ v ∈ var, 0 < v + eps then
      some ((List.range scale.length).map fun i => scale.getD i 0 / Real.sqrt (var.getD i 0 + eps),
        (List.range scale.length).map fun i =>
          bias.getD i 0 - mean.getD i 0 * (scale.getD i 0 / Real.sqrt (var.getD i 0 + eps)))
    else none
  else none

end JST.Convert
