import Verif.Spec.Graph
import Verif.Spec.Elementwise

/-!
# The meaning of Add, Sub, Mul, Max, Min, Neg and ReLU in fixed point
-/

namespace JST.Spec

/-- A product, divided by the scale `2^κ` and rounded down if the layer rescales. -/
def fixedMul (rescale : Bool) (κ : Nat) (u v : Int) : Int := if rescale then u * v / 2 ^ κ else u * v

/-- The meaning of the seven operators on integer tensors; `Max` and `Min` with two inputs. -/
def arithMeaning (κ : Nat) (rescale : String → Bool) : Meaning := fun nd xs ys =>
  (nd.op = "Add" ∧ ∃ a b c, xs = [some a, some b] ∧ ys = [c] ∧ IsBinary a b (fun u v w => w = u + v) c) ∨
  (nd.op = "Sub" ∧ ∃ a b c, xs = [some a, some b] ∧ ys = [c] ∧ IsBinary a b (fun u v w => w = u - v) c) ∨
  (nd.op = "Mul" ∧ ∃ a b c, xs = [some a, some b] ∧ ys = [c] ∧
    IsBinary a b (fun u v w => w = fixedMul (rescale nd.name) κ u v) c) ∨
  (nd.op = "Max" ∧ ∃ a b c, xs = [some a, some b] ∧ ys = [c] ∧ IsBinary a b (fun u v w => w = max u v) c) ∨
  (nd.op = "Min" ∧ ∃ a b c, xs = [some a, some b] ∧ ys = [c] ∧ IsBinary a b (fun u v w => w = min u v) c) ∨
  (nd.op = "Neg" ∧ ∃ a c, xs = [some a] ∧ ys = [c] ∧ IsUnary a (fun u w => w = -u) c) ∨
  ((nd.op = "ReLU" ∨ nd.op = "Relu") ∧ ∃ a, xs = [some a] ∧ ys = [reluArr a])

end JST.Spec
