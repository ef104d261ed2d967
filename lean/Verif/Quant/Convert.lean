import Mathlib.Data.Real.Basic
import Mathlib.Data.Real.Archimedean
import Mathlib.Algebra.Order.Floor.Ring

/-!
# From float constants to the integers in the circuit

`rust/jstprove_onnx/src/quantizer.rs` (`quantize_layer_weights`), `rust/jstprove_onnx/src/ops.rs`
(`get_scale_plan`), `rust/jstprove_onnx/src/parser.rs` (`as_i64_vec`), `rust/jstprove_circuits/src/expander_metadata.rs`
(`build_wandb`): how the constants of a model reach the layers of the circuit.

Real numbers stand for `f64`: rounding of floating-point products, infinities and NaN are not modelled.
-/

namespace JST.Convert

/-- `TensorData`, parser.rs: the values are in `float_data` or in `int_data`. The shape is left out. -/
structure TD where
  floats : List ℝ
  ints : List Int

/-- The saturation of `as i64`. -/
def satI64 (z : Int) : Int := max (-2 ^ 63) (min (2 ^ 63 - 1) z)

/-- `x as i64` for a float: towards zero, saturating. -/
noncomputable def castI64 (x : ℝ) : Int := satI64 (if 0 ≤ x then ⌊x⌋ else ⌈x⌉)

/-- `x.round() as i64`: half away from zero, saturating. -/
noncomputable def roundI64 (x : ℝ) : Int := satI64 (if 0 ≤ x then ⌊x + 1 / 2⌋ else ⌈x - 1 / 2⌉)

/-- `TensorData::as_i64_vec`, parser.rs:261-267. -/
noncomputable def TD.asI64 (t : TD) : List Int := if t.ints ≠ [] then t.ints else t.floats.map castI64

/-- `get_scale_plan`, ops.rs:5-53: input position and power of the scale. -/
def scalePlan (op : String) : List (Nat × Nat) :=
  if op = "Conv" ∨ op = "Gemm" ∨ op = "BatchNormalization" ∨ op = "LayerNormalization" ∨ op = "ConvTranspose" then
    [(1, 1), (2, 2)]
  else if op = "GridSample" ∨ op = "MatMul" then [(1, 1)]
  else []

/-- `LayerNode`, graph.rs: operator, input names and the constants among the inputs. -/
structure Layer where
  op : String
  inputs : List String
  weights : String → Option TD

/-- The body of the loop of `quantize_layer_weights`, quantizer.rs:153-170. `factor = alpha.pow(power)` is taken without
overflow: for `alpha = 2^κ` that is `κ ≤ 31`. -/
noncomputable def scaleOne (alpha : ℝ) (l : Layer) (e : Nat × Nat) : Layer :=
  match l.inputs[e.1]? with
  | none => l
  | some n =>
    match l.weights n with
    | none => l
    | some w =>
      if w.floats = [] then l
      else { l with weights := fun m =>
        if m = n then some ⟨[], w.floats.map (fun v => roundI64 (v * alpha ^ e.2))⟩ else l.weights m }

/-- `quantize_layer_weights`, quantizer.rs:150-173. The code walks through the plan in the order of a hash map; here in
the order of positions. The two orders differ only if a node reads one tensor at both positions. -/
noncomputable def quantizeLayer (alpha : ℝ) (l : Layer) : Layer := (scalePlan l.op).foldl (scaleOne alpha) l

/-- `build_wandb`, expander_metadata.rs:347-388, as the map the circuit's layers read (`w_and_b_map`): every name is
taken from the first layer that has it. -/
noncomputable def wandb (alpha : ℝ) (layers : List Layer) (name : String) : Option (List Int) :=
  (layers.map (quantizeLayer alpha)).findSome? fun l => (l.weights name).map TD.asI64

end JST.Convert
