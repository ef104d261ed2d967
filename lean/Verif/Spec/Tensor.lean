import Verif.Tensor.Basic

/-!
# Specification of tensors

What ONNX means by a tensor element, a shape and multidirectional broadcasting. Nothing here models
code: these are the yardsticks the theorems about layers are stated with.
-/

namespace JST.Spec

/-- Position of an element in row-major order: the first coordinate varies slowest. -/
def rowMajor : List Nat → List Nat → Nat
  | _ :: ds, c :: cs => c * ds.prod + rowMajor ds cs
  | _, _ => 0

/-- The coordinates are those of an element of a tensor of that shape. -/
def InRange (shape coords : List Nat) : Prop := List.Forall₂ (fun c s => c < s) coords shape

/-- The element of a tensor at the given coordinates. -/
def elem {α : Type} (a : Arr α) (coords : List Nat) : Option α := a.data[rowMajor a.shape coords]?

/-- All coordinates of a shape, in row-major order. -/
def coordsOf : List Nat → List (List Nat)
  | [] => [[]]
  | d :: ds => (List.range d).flatMap fun i => (coordsOf ds).map (i :: ·)

/-- The dimension at distance `i` from the right; missing dimensions count as one. -/
def fromRight (s : List Nat) (i : Nat) : Nat := s.reverse.getD i 1

/-- ONNX/NumPy multidirectional broadcasting: shapes are aligned at the right; aligned dimensions
are equal, or one of them is one and the result takes the other. -/
def IsBroadcast (a b out : List Nat) : Prop :=
  out.length = max a.length b.length ∧
  ∀ i, i < out.length →
    (fromRight a i = fromRight b i ∧ fromRight out i = fromRight a i) ∨
    (fromRight a i = 1 ∧ fromRight out i = fromRight b i) ∨
    (fromRight b i = 1 ∧ fromRight out i = fromRight a i)

/-- The coordinates a broadcast operand is read at: leading output axes are dropped, and an axis of
size one is read at zero. -/
def srcCoords (shape out : List Nat) : List Nat :=
  List.zipWith (fun c s => if s = 1 then 0 else c) (out.drop (out.length - shape.length)) shape

end JST.Spec
