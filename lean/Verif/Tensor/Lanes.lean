import Verif.Tensor.FunctionExp

/-!
# Layers that treat each lane of a tensor

`ndarray`'s `x.lanes(Axis(axis))` zipped with `out.lanes_mut(Axis(axis))`, as in softmax.rs:103-160.

`ndarray` enumerates the lanes in row-major order of the remaining coordinates; both iterators run in the same
order, so which order it is affects only the order of the constraints.
-/

namespace JST.Layers

open JST.Shape

variable {p : Nat}

/-- The values of the lane through `base`: `in_lane.iter()`, softmax.rs:108. -/
def laneIn {α : Type} (data : List α) (axis : Nat) (shape base : List Nat) : R (List α) :=
  (List.range (shape.getD axis 0)).mapM fun i => do
    let k ← ravelR (base.set axis i) shape
    readAt .panic data k

/-- The entry of the output array at flat position `o`: what `out_lane.iter_mut()`, softmax.rs:138, wrote there. -/
def laneOut {α : Type} (lanes : List (List α)) (axis : Nat) (shape : List Nat) (o : Nat) : R α := do
  let c := unravel o shape
  let k ← ravelR (c.set axis 0) (shape.set axis 1)
  let l ← readAt .panic lanes k
  readAt .panic l (c.getD axis 0)

/-- The lane numbered `k`, processed by `f`. -/
def laneStep {F : Type} [CommRing F] (f : List F → G F (List F)) (axis : Nat) (x : Arr F) (k : Nat) : G F (List F) := do
  let xs ← liftR (laneIn x.data axis x.shape (unravel k (x.shape.set axis 1)))
  f xs

/-- The loop over the lanes, softmax.rs:103-160. -/
def laneMap {F : Type} [CommRing F] (f : List F → G F (List F)) (axis : Nat) (x : Arr F) : G F (Arr F) := do
  let lanes ← collectG (laneStep f axis x) (List.range (x.shape.set axis 1).prod)
  let data ← liftR ((List.range x.shape.prod).mapM (laneOut lanes axis x.shape))
  liftR (fromShapeVec x.shape data)

end JST.Layers
