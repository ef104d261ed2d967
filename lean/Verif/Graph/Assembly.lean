import Verif.Graph.Fusion
import Verif.Gadgets.Monad
import Verif.Tensor.Basic
import Verif.Tensor.Layers

/-!
# The circuit of a model: `Circuit::try_define_impl`

/repo/rust/jstprove_circuits/src/onnx.rs:78-176.
-/

namespace JST.Graph

open JST.Spec JST.Layers

variable {F X : Type} [CommRing F]

/-- `ONNXIO`, utils/onnx_types.rs: the name and shape of an input or output of the model. -/
structure IO where
  name : String
  shape : List Nat
deriving DecidableEq, Repr

/-- `LayerOp::apply_multi`, layers/layer_ops.rs:38-46: from the named tensors computed so far to the named tensors of the
layer. `X` are the challenges drawn by the circuit. -/
abbrev Layer (F X : Type) := X → Vals F → G F (List (String × Arr F))

/-- `get_inputs`, utils/shaping.rs:154-186: the loop. The check of the total length comes first. Simplification: sums and
products do not overflow. -/
def splitInputs : List IO → List F → Vals F → Shape.R (Vals F)
  | [], _, out => .ok out
  | io :: t, v, out => do
    let arr ← fromShapeVec io.shape (v.take io.shape.prod)
    splitInputs t (v.drop io.shape.prod) (Function.update out io.name (some arr))

/-- `get_inputs`, utils/shaping.rs:154-186. -/
def getInputs (v : List F) (inputs : List IO) : Shape.R (Vals F) :=
  if v.length ≠ (inputs.map fun io => io.shape.prod).sum then .error .invalid
  else splitInputs inputs v fun _ => none

/-- The total size of the outputs, or their number if it is zero: `effective_output_dims`, utils/onnx_model.rs:85-93. -/
def effectiveDims (ios : List IO) : Nat :=
  if (ios.map fun io => io.shape.prod).sum = 0 ∧ ios ≠ [] then ios.length
  else (ios.map fun io => io.shape.prod).sum

/-- The loop over the layers, onnx.rs:104-116. -/
def applyLayers (x : X) : List (Layer F X) → Vals F → G F (Vals F)
  | [], env => pure env
  | l :: t, env => do
    let o ← l x env
    applyLayers x t (o.foldl (fun e kv => Function.update e kv.1 (some kv.2)) env)

/-- What a model consists of: `architecture`, `params.inputs`, `params.outputs`, `scale_base`, `scale_exponent`, and the
layer builders (`LayerKind::builder`, with `rescale_config`, weights and shapes), which may refuse a node. -/
structure Model (F X : Type) where
  nodes : List Node
  inputs : List IO
  outputs : List IO
  scaleBase : Nat
  scaleExponent : Nat
  builder : Node → Pattern → Nat → Option (Layer F X)

/-- `build_layers`, build_layers.rs:76-165. -/
def buildLayers (ord : List String → List String) (m : Model F X) : Option (List (Layer F X)) :=
  (plan ord m.nodes m.nodes 0 []).mapM fun b => m.builder b.1 b.2.1 b.2.2

/-- The variables of the circuit, onnx.rs:49-55. -/
structure Wires (F : Type) where
  inputArr : List F
  outputs : List F
  dummy : F × F
  scaleBase : F
  scaleExponent : F

/-- `for (&out, &combined) in self.outputs.iter().zip(..)`, onnx.rs:158-160. -/
def assertOutputs : List (F × F) → G F Unit
  | [] => pure ()
  | (a, b) :: t => do
    assertEq a b
    assertOutputs t

/-- The outputs and the final assertions, onnx.rs:121-173. -/
def finish (m : Model F X) (w : Wires F) (env : Vals F) : G F Unit :=
  if m.outputs = [] then throwErr "circuit has no declared outputs"
  else
    match m.outputs.mapM fun io => env io.name with
    | none => throwErr "Missing output"
    | some ys =>
      let combined := ys.flatMap (·.data)
      if combined.length ≠ effectiveDims m.outputs then throwErr "shape"
      else if combined.length ≠ w.outputs.length then throwErr "output length mismatch"
      else do
        assertOutputs (w.outputs.zip combined)
        assertEq w.dummy.1 1
        assertEq w.dummy.2 1
        assertEq w.scaleBase (m.scaleBase : F)
        assertEq w.scaleExponent (m.scaleExponent : F)

/-- `Circuit::try_define_impl`, onnx.rs:78-176. The lookups recorded by the layers are those that `logup_ctx.finalize`
enforces (C07). -/
def tryDefine (ord : List String → List String) (m : Model F X) (w : Wires F) (x : X) : G F Unit :=
  if m.nodes = [] then throwErr "EmptyArchitecture"
  else
    match getInputs w.inputArr m.inputs with
    | .error _ => throwErr "input length"
    | .ok env =>
      match buildLayers ord m with
      | none => throwErr "build"
      | some layers => do
        let env ← applyLayers x layers env
        finish m w env

end JST.Graph
