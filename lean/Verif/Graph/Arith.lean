import Verif.Graph.Assembly
import Verif.Tensor.Elementwise

/-!
# The layer builders of Add, Sub, Mul, Max, Min, Neg and ReLU

/repo/rust/jstprove_circuits/src/circuit_functions/layers/layer_kinds.rs:181-247 and the `build` and `apply` functions of
binary_arith.rs, mul.rs, binary_compare.rs, neg.rs, relu.rs: which operands a layer reads, and under which names it
returns its result. What it computes is in Verif/Tensor/Elementwise.lean.
-/

namespace JST.Graph

open JST.Spec JST.Layers

variable {p : Nat} {X : Type}

/-- What the builders read: range checks, `scale_exponent`, `n_bits_for`, `rescale_config` and `w_and_b_map` together
with `constants_map` (`get_optional_w_or_b`, utils/onnx_model.rs:259-268). -/
structure ArithCfg where
  rc : RangeCtx
  kappa : Nat
  nBits : String → Nat
  rescale : String → Bool
  init : Vals Int

/-- `load_array_constants_or_get_inputs`, utils/tensor_ops.rs:61-80. -/
def operand (init : Vals Int) (env : Vals (ZMod p)) (name : String) : G (ZMod p) (Arr (ZMod p)) :=
  match init name with
  | some a => pure ⟨a.shape, a.data.map fun z : Int => (z : ZMod p)⟩
  | none =>
    match env name with
    | some v => pure v
    | none => throwErr "MissingInput"

/-- `build` and `apply` of a binary layer, mul.rs:41-115, binary_arith.rs:28-98, binary_compare.rs:29-141, and the default
`apply_multi`, layers/layer_ops.rs:45-53: inputs beyond the second are ignored; the result is returned under every output
name. -/
def binaryLayer (init : Vals Int) (f : Arr (ZMod p) → Arr (ZMod p) → G (ZMod p) (Arr (ZMod p))) (nd : Node) :
    Option (Layer (ZMod p) X) :=
  match nd.inputs with
  | a :: b :: _ => some fun _ env => do
      let u ← operand init env a
      let v ← operand init env b
      let z ← f u v
      pure (nd.outputs.map fun n => (n, z))
  | _ => none

/-- `build` and `apply` of a unary layer, neg.rs:22-66, relu.rs:30-75: the input is not looked up among the
initializers. -/
def unaryLayer (f : Arr (ZMod p) → G (ZMod p) (Arr (ZMod p))) (nd : Node) : Option (Layer (ZMod p) X) :=
  some fun _ env =>
    match nd.inputs with
    | a :: _ =>
      match env a with
      | some u => do
        let z ← f u
        pure (nd.outputs.map fun n => (n, z))
      | none => throwErr "MissingInput"
    | [] => throwErr "MissingParameter"

/-- `LayerKind::try_from(op_type)` and its builder, layers/layer_kinds.rs:181-247, for seven operators; the others are
refused here. -/
def arithBuilder (cfg : ArithCfg) (nd : Node) (pat : Pattern) (_ : Nat) : Option (Layer (ZMod p) X) :=
  if nd.op = "Add" then binaryLayer cfg.init addLayer nd
  else if nd.op = "Sub" then binaryLayer cfg.init subLayer nd
  else if nd.op = "Mul" then
    binaryLayer cfg.init
      (mulLayer cfg.rc (cfg.rescale nd.name) cfg.kappa (cfg.nBits nd.name) (decide (pat = .mulRelu))) nd
  else if nd.op = "Max" then binaryLayer cfg.init (maxLayer cfg.rc (cfg.nBits nd.name)) nd
  else if nd.op = "Min" then binaryLayer cfg.init (minLayer cfg.rc (cfg.nBits nd.name)) nd
  else if nd.op = "Neg" then unaryLayer negLayer nd
  else if nd.op = "ReLU" ∨ nd.op = "Relu" then unaryLayer (reluLayer cfg.rc (cfg.nBits nd.name)) nd
  else none

end JST.Graph
