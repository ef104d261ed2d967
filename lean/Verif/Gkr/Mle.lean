import Mathlib.Algebra.BigOperators.Group.Finset.Basic
import Mathlib.Algebra.BigOperators.Ring.Finset
import Mathlib.Algebra.BigOperators.Intervals
import Mathlib.Algebra.Module.Basic
import Mathlib.Algebra.Module.BigOperators
import Mathlib.Algebra.Module.Pi
import Mathlib.Algebra.Field.Basic
import Mathlib.Tactic.Ring
import Mathlib.Tactic.Linarith
import Mathlib.Tactic.Module
import Mathlib.Tactic.Abel
import Mathlib.Tactic.LinearCombination
import Mathlib.Data.List.GetD

/-!
# Multilinear extensions and equality tables

Model of /repo/prover/arith/polynomials/src/{eq,mle}.rs. A scratch buffer is a function from index to
content, and a loop over a prefix of the buffer changes exactly that prefix. Buffer capacities are not
modelled (the code sizes them by the largest layer). Values are in a `K`-module `V`: `V` is `K`
itself for challenge-field values, and `Fin P → K` for packed SIMD values.
-/

namespace JST.Gkr

variable {K : Type} [Field K] {V : Type} [AddCommGroup V] [Module K V]

/-! ### Equality tables, eq.rs -/

/-- The state of the loop of `build_eq_x_r_with_buf`, eq.rs:36-42: the number of live entries and the
buffer. -/
def buildStep (st : Nat × (Nat → K)) (r : K) : Nat × (Nat → K) :=
  (2 * st.1, fun j =>
    if j < st.1 then st.2 j - st.2 j * r
    else if j < 2 * st.1 then st.2 (j - st.1) * r
    else st.2 j)

/-- `build_eq_x_r_with_buf`, eq.rs:32-43. -/
def buildEq (r : List K) (f : K) (buf : Nat → K) : Nat → K :=
  (r.foldl buildStep (1, fun j => if j = 0 then f else buf j)).2

/-- `eq_eval_at`, eq.rs:11-28: the product of the tables of the two halves of the point. The two scratch
buffers are overwritten before they are read, so they start as zero here. -/
def eqEvalAt (r : List K) (f : K) (buf : Nat → K) : Nat → K :=
  let h := r.length / 2
  let first := buildEq (r.take h) f fun _ => 0
  let second := buildEq (r.drop h) 1 fun _ => 0
  fun i => if i < 2 ^ r.length then first (i % 2 ^ h) * second (i / 2 ^ h) else buf i

/-- `EqPolynomial::eq`, eq.rs:145-149. -/
def eq1 (x y : K) : K := x * y + x * y - x - y + 1

/-- `eq_vec`, eq.rs:47-52: the zip stops at the shorter list. -/
def eqVec (xs ys : List K) : K := (xs.zipWith eq1 ys).prod

/-- `build_eq_x_r_helper`, eq.rs:163-197. -/
def buildEqHelper : List K → List K
  | [] => [1]
  | [r] => [1 - r, r]
  | r :: rs => (buildEqHelper rs).flatMap fun b => [b - r * b, r * b]

/-- `scaled_evals_jolt`, eq.rs:106-120 (`evals_jolt`, eq.rs:86-100, is the case `f = 1`): each round
replaces entry `s` by the two entries `s - s r` and `s r`, for the coordinates from the last to the
first. The in-place loop runs from the top down, so it reads only entries it has not yet written. -/
def evalsJolt (r : List K) (f : K) : List K :=
  r.reverse.foldl (fun es x => es.flatMap fun s => [s - s * x, s * x]) [f]

/-- `ith_eq_vec_elem`, eq.rs:125-139, without the assertion that the index is in range. -/
def ithEq : List K → Nat → K
  | [], _ => 1
  | r :: rs, i => (if i % 2 = 0 then 1 - r else r) * ithEq rs (i / 2)

/-! ### Evaluation, mle.rs -/

/-- One in-place folding loop over the lowest variable, mle.rs:172-174, 178-180; also
product_gate.rs:119-125, simd_gate.rs:179-183: entries below `m` are replaced. -/
def foldTo (m : Nat) (r : K) (f : Nat → V) : Nat → V := fun i =>
  if i < m then f (2 * i) + r • (f (2 * i + 1) - f (2 * i)) else f i

/-- `evaluate_with_buffer`, mle.rs:153-185, and `eval_circuit_vals_at_challenge`,
gkr_engine/src/field_engine/definition.rs:72-96: fold the variables one by one. `n` is the number of
variables left. -/
def evalFold : List K → (Nat → V) → V
  | [], f => f 0
  | r :: rs, f => evalFold rs (foldTo (2 ^ rs.length) r f)

/-- `fix_top_variable`, mle.rs:80-88: halve the vector on its highest variable. -/
def fixTop (r : K) (xs : List K) : List K :=
  List.zipWith (fun a b => a + r * (b - a)) (xs.take (xs.length / 2)) (xs.drop (xs.length / 2))

/-- `fix_variables`, mle.rs:123-129. -/
def fixVariables (rs : List K) (xs : List K) : List K := rs.reverse.foldl (fun xs r => fixTop r xs) xs

/-- `eval_reverse_order`, mle.rs:109-117. -/
def evalReverse (rs : List K) (xs : List K) : K := (rs.foldl (fun xs r => fixTop r xs) xs).headD 0

/-- One step of the loop of `fix_bottom_variable`, mle.rs:97-98, as written. -/
def fixBottomStep (p : K) (xs : List K) (i : Nat) : List K :=
  xs.set i (xs.getD i 0 + (xs.getD (2 * i + 1) 0 - xs.getD (2 * i) 0) * p)

/-- `fix_bottom_variable`, mle.rs:91-101. -/
def fixBottom (p : K) (xs : List K) : List K :=
  ((List.range (xs.length / 2)).foldl (fixBottomStep p) xs).take (xs.length / 2)

/-- `interpolate_over_hypercube_impl`, mle.rs:35-53, for a vector of `2 ^ n` entries: level `i` subtracts
the lower half from the upper half of each chunk of `2 ^ i`. -/
def interpLevel (c : Nat) (f : Nat → K) : Nat → K := fun i =>
  if c ≤ i % (2 * c) then f i - f (i - c) else f i

/-- All levels. -/
def interpolate (n : Nat) (f : Nat → K) : Nat → K :=
  (List.range n).foldl (fun g i => interpLevel (2 ^ i) g) f

end JST.Gkr
