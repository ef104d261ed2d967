import Verif.Gkr.Model
import Verif.Spec.Mle
import Mathlib.Algebra.Polynomial.Degree.Defs
import Mathlib.Algebra.Polynomial.Eval.Defs

/-!
# Specification: layered circuits and the sums a sumcheck proves

The value of an output wire is the sum of what its gates add. The circuit data (`Layer` and its gates) is
that of the model; nothing else of it is used here.
-/

namespace JST.Spec

open JST.Gkr

variable {K : Type} [Field K]

/-- `out` is the layer's output on inputs `w` and public inputs `pub`, in lane `k`: each wire is the sum over
the gates writing to it. -/
def IsOutput (l : Layer K) (pub w out : Nat → Nat → K) (k : Nat) : Prop :=
  ∀ o, out o k =
    ((l.mul.filter (·.o = o)).map fun g => g.coef * (w g.i0 k * w g.i1 k)).sum +
    ((l.add.filter (·.o = o)).map fun g => g.coef * w g.i k).sum +
    ((l.cst.filter (·.o = o)).map fun g =>
      match g.val with
      | .coef c => c
      | .pub idx => pub idx k).sum +
    ((l.uni.filter (·.o = o)).map fun g =>
      match g.kind with
      | .pow5 => g.coef * w g.i k ^ 5
      | .copy => g.coef * w g.i k).sum

/-- Every gate of the layer reads and writes wires the layer has, and no gate is unary. -/
def LayerOk (l : Layer K) : Prop :=
  (∀ g ∈ l.mul, g.o < 2 ^ l.outVars ∧ g.i0 < 2 ^ l.inVars ∧ g.i1 < 2 ^ l.inVars) ∧
  (∀ g ∈ l.add, g.o < 2 ^ l.outVars ∧ g.i < 2 ^ l.inVars) ∧
  (∀ g ∈ l.cst, g.o < 2 ^ l.outVars) ∧ l.uni = []

/-- The layers fit together: the first reads `2 ^ n` wires, each next one what the one before writes. -/
def CircuitOk : Nat → List (Layer K) → Prop
  | _, [] => True
  | n, l :: ls => l.inVars = n ∧ LayerOk l ∧ CircuitOk l.outVars ls

/-- The number of output variables. -/
def outputVars : Nat → List (Layer K) → Nat
  | n, [] => n
  | _, l :: ls => outputVars l.outVars ls

/-- `out` is what the circuit computes from `w` in lane `k`. -/
def IsRun (pub : Nat → Nat → K) (k : Nat) : List (Layer K) → (Nat → Nat → K) → (Nat → Nat → K) → Prop
  | [], w, out => ∀ o, out o k = w o k
  | l :: ls, w, out => ∃ mid, IsOutput l pub w mid k ∧ IsRun pub k ls mid out

/-- The value of a table of wires and lanes at a point of the wire variables and one of the lane
variables: the multilinear extension in both. -/
def tableAt (s : Nat) (tab : Nat → Nat → K) (rz rs : List K) : K :=
  ∑ i ∈ Finset.range (2 ^ rz.length), ∑ k ∈ Finset.range (2 ^ s), chi rz i * chi rs k * tab i k

/-- The sum of `g` over the vertices of the `n`-dimensional cube. -/
def cubeSum : Nat → (List K → K) → K
  | 0, g => g []
  | n + 1, g => cubeSum n (fun r => g (0 :: r)) + cubeSum n (fun r => g (1 :: r))

/-- `g` is a polynomial of degree at most `d` in each of its `n` variables. -/
def DegreeLe (d n : Nat) (g : List K → K) : Prop :=
  ∀ pre post, pre.length + 1 + post.length = n →
    ∃ f : Polynomial K, f.natDegree ≤ d ∧ ∀ x, f.eval x = g (pre ++ x :: post)

end JST.Spec
