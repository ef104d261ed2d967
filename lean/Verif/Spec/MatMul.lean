import Mathlib.Algebra.BigOperators.Group.Finset.Basic
import Mathlib.Algebra.BigOperators.Ring.Finset
import Mathlib.Data.Fintype.Card
import Verif.Spec.Tensor
import Verif.Gadgets.Monad

/-!
# Specification of matrix products of tensors

ONNX `MatMul` and `Gemm` on integer tensors. Nothing here models code.
-/

namespace JST.Spec

/-- The entry at the given coordinates. -/
def entry (a : Arr Int) (c : List Nat) : Int := (elem a c).getD 0

/-- Entry `(i, j)` of the product of the matrix of `a` at batch coordinates `ca` with the matrix of `b` at batch
coordinates `cb`; `K` is the inner dimension. -/
def matmulAt (a b : Arr Int) (ca cb : List Nat) (K i j : Nat) : Int :=
  ∑ k ∈ Finset.range K, entry a (ca ++ [i, k]) * entry b (cb ++ [k, j])

/-- Entry `(i, k)` of the matrix `a`, or of its transpose. -/
def opAt (a : Arr Int) (transpose : Bool) (i k : Nat) : Int :=
  if transpose then entry a [k, i] else entry a [i, k]

/-- Entry `(i, j)` of `op(a) * op(b)`. -/
def gemmAt (a b : Arr Int) (ta tb : Bool) (K i j : Nat) : Int :=
  ∑ k ∈ Finset.range K, opAt a ta i k * opAt b tb k j

/-- Entry `(i, j)` of a tensor of rank at most 2 broadcast to a matrix, by the rules of ONNX: shapes are aligned at the
last axis, and an axis of size one is repeated. -/
def biasEntry (c : Arr Int) (i j : Nat) : Int :=
  match c.shape with
  | [] => entry c []
  | [n] => entry c [if n = 1 then 0 else j]
  | [m, n] => entry c [if m = 1 then 0 else i, if n = 1 then 0 else j]
  | _ => 0

/-- `y` holds `g` of the products of the matrices in the last two axes, `M × K` and `K × N`. `ba` and `bb` are the other
axes of `a` and `b`; an operand without other axes takes part in every product. -/
def IsMatMul {β : Type} (a b : Arr Int) (ba bb : List Nat) (M K N : Nat) (g : Int → β) (y : Arr β) : Prop :=
  y.shape = (if bb = [] then ba else bb) ++ [M, N] ∧ y.WF ∧
  ∀ c i j, InRange (if bb = [] then ba else bb) c → i < M → j < N →
    elem y (c ++ [i, j]) = some (g (matmulAt a b (if ba = [] then [] else c) (if bb = [] then [] else c) K i j))

/-- `y` holds `g` of the entries of `op(a) * op(b) + bias`. -/
def IsGemm {β : Type} (a b : Arr Int) (bias : Nat → Nat → Int) (ta tb : Bool) (M K N : Nat) (g : Int → β)
    (y : Arr β) : Prop :=
  y.shape = [M, N] ∧ y.WF ∧ ∀ i j, i < M → j < N → elem y [i, j] = some (g (gemmAt a b ta tb K i j + bias i j))

/-- `AlmostSound T g num den Q`: the prover fixes the hints, then the challenge is drawn from `X`. But for a fraction of
at most `num / den` of the challenges, if all constraints hold the result satisfies `Q`. -/
def AlmostSound {F α X : Type} [CommRing F] [Fintype X] (T : Tables F) (g : X → G F α) (num den : Nat)
    (Q : α → Prop) : Prop :=
  ∀ h : Hints F, ∃ bad : Finset X, bad.card * den ≤ num * Fintype.card X ∧
    ∀ x, x ∉ bad → ∀ o, g x h = .ok o → Sat T o.cons → Q o.val

end JST.Spec
