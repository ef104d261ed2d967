import Verif.Tensor.Pool

/-!
# Reduction layers

rust/jstprove_circuits/src/circuit_functions/layers/reduce_sum.rs, reduce_max.rs and reduce_mean.rs.

Conventions as in `Pool`. `axes` is the content of the axes input or, without one, of the `axes`
attribute.
-/

namespace JST.Layers

open JST.Shape

variable {p : Nat}

/-- `Vec::dedup`. -/
def dedupAdj : List Nat → List Nat
  | a :: b :: l => if a = b then dedupAdj (b :: l) else a :: dedupAdj (b :: l)
  | l => l

/-- Explicit axes: normalised, range-checked, sorted, repetitions removed, reduce_sum.rs:298-317,
reduce_max.rs:243-262, reduce_mean.rs:241-258. -/
def explicitAxes (rank : Nat) (raw : List Int) : R (List Nat) := do
  let v ← raw.mapM (normAxis rank)
  .ok (dedupAdj (v.mergeSort (fun a b => decide (a ≤ b))))

/-- Axes of ReduceSum, reduce_sum.rs:292-326. -/
def sumAxes (rank : Nat) (raw : Option (List Int)) (noop : Bool) : R (List Nat) :=
  match raw with
  | some v => if v.isEmpty && !noop then .ok (List.range rank) else explicitAxes rank v
  | none => if noop then .ok [] else .ok (List.range rank)

/-- Axes of ReduceMax, reduce_max.rs:238-265. -/
def maxAxes (rank : Nat) (raw : Option (List Int)) : R (List Nat) :=
  match raw with
  | some v => if v.isEmpty then .ok (List.range rank) else explicitAxes rank v
  | none => .ok (List.range rank)

/-- Axes of ReduceMean, reduce_mean.rs:240-262. -/
def meanAxes (rank : Nat) (raw : Option (List Int)) : R (List Nat) :=
  match raw with
  | some v => explicitAxes rank v
  | none => .ok (List.range rank)

/-- `computed_output_shape`, reduce_sum.rs:328-340, reduce_max.rs:268-280, reduce_mean.rs:265-274. -/
def reducedShape (axes : List Nat) (keepdims : Bool) (shape : List Nat) : List Nat :=
  if keepdims then shape.zipIdx.map fun di => if di.2 ∈ axes then 1 else di.1
  else shape.zipIdx.filterMap fun di => if di.2 ∈ axes then none else some di.1

/-- Re-expanding the output coordinates, reduce_sum.rs:396-407. The arguments are the axis, how many axes
are left and the output coordinates not yet used. -/
def expandFrom (axes : List Nat) : Nat → Nat → List Nat → R (List Nat)
  | _, 0, _ => .ok []
  | ax, n + 1, out =>
    if ax ∈ axes then do
      let r ← expandFrom axes (ax + 1) n out
      .ok (0 :: r)
    else
      match out with
      | [] => .error .panic
      | o :: out => do
        let r ← expandFrom axes (ax + 1) n out
        .ok (o :: r)

/-- Decoding a reduction index into the coordinates of the reduction axes, reduce_sum.rs:418-425: the
loop runs from the last axis. Axes are below the rank, so that `in_coords[ax]` is in bounds. -/
def decodeAxes : List (Nat × Nat) → Nat → List Nat → List Nat × Nat
  | [], r, cs => (cs, r)
  | (ax, sz) :: rest, r, cs =>
    let (cs, r) := decodeAxes rest r cs
    (cs.set ax (r % sz), r / sz)

/-- The coordinates the lane starts from, reduce_sum.rs:389-408. -/
def laneBase (outCoords axes : List Nat) (keepdims : Bool) (rank : Nat) : R (List Nat) :=
  if keepdims then .ok outCoords else expandFrom axes 0 rank outCoords

/-- `collect_reduction_inputs`, reduce_sum.rs:379-429. -/
def reductionInputs (outCoords axes : List Nat) (keepdims : Bool) (shape : List Nat) : R (List Nat) := do
  let base ← laneBase outCoords axes keepdims shape.length
  let sizes := axes.map fun ax => shape.getD ax 0
  (List.range sizes.prod).mapM fun r => ravelR (decodeAxes (axes.zip sizes) r base).1 shape

/-- The values of one lane. -/
def laneValues {F : Type} (data : List F) (axes : List Nat) (keepdims : Bool) (shape outShape : List Nat)
    (outFlat : Nat) : R (List F) := do
  let idx ← reductionInputs (unravel outFlat outShape) axes keepdims shape
  idx.mapM (readAt .panic data)

/-- The loop over output positions shared by the three layers. -/
def reduceAll {F : Type} [CommRing F] (f : List F → G F F) (data : List F) (axes : List Nat)
    (keepdims : Bool) (shape outShape : List Nat) : G F (Arr F) := do
  let ys ← collectG (fun o => do
    let vs ← liftR (laneValues data axes keepdims shape outShape o)
    f vs) (List.range outShape.prod)
  liftR (fromShapeVec outShape ys)

/-- The running sum, reduce_sum.rs:105-114 and reduce_mean.rs:102-110. -/
def sumVars {F : Type} [CommRing F] : List F → F
  | [] => 0
  | v :: vs => vs.foldl (fun acc x => acc + x) v

/-- `ReduceSumLayer::build` and `apply`, reduce_sum.rs:43-350. -/
def reduceSumLayer {F : Type} [CommRing F] [DecidableEq F] (raw : Option (List Int)) (noop keepdims : Bool)
    (shape : List Nat) (x : Arr F) : G F (Arr F) := do
  let axes ← liftR (sumAxes shape.length raw noop)
  if x.shape ≠ shape then throwErr "runtime input shape"
  else if noop && axes.isEmpty then pure x
  else reduceAll (fun vs => pure (sumVars vs)) x.data axes keepdims shape (reducedShape axes keepdims shape)

/-- One lane of ReduceMax, reduce_max.rs:93-103. -/
def maxLane (sc : ShiftCtx p) (rc : RangeCtx) : List (ZMod p) → G (ZMod p) (ZMod p)
  | [] => throwErr "ReduceMax: empty reduction lane"
  | v :: vs => constrainedMax sc rc (v :: vs)

/-- `ReduceMaxLayer::build` and `apply`, reduce_max.rs:36-296. -/
def reduceMaxLayer (rc : RangeCtx) (raw : Option (List Int)) (keepdims : Bool) (shape : List Nat)
    (nBits : Nat) (x : Arr (ZMod p)) : G (ZMod p) (Arr (ZMod p)) := do
  let axes ← liftR (maxAxes shape.length raw)
  if x.shape ≠ shape then throwErr "runtime input shape"
  else do
    let sc ← ShiftCtx.new (nBits - 1)
    reduceAll (maxLane sc rc) x.data axes keepdims shape (reducedShape axes keepdims shape)

/-- `ReduceMeanLayer::build` and `apply`, reduce_mean.rs:31-308. -/
def reduceMeanLayer (rc : RangeCtx) (raw : Option (List Int)) (keepdims : Bool) (shape : List Nat)
    (nBits : Nat) (x : Arr (ZMod p)) : G (ZMod p) (Arr (ZMod p)) := do
  let axes ← liftR (meanAxes shape.length raw)
  let n := (axes.map fun a => shape.getD a 0).prod
  if n = 0 then throwErr "reduction lane size is zero"
  else if nBits = 0 ∨ nBits > 128 then throwErr "n_bits out of supported range"
  else if x.shape ≠ shape then throwErr "runtime input shape"
  else
    reduceAll (fun vs => laneMean rc nBits n (sumVars vs)) x.data axes keepdims shape
      (reducedShape axes keepdims shape)

end JST.Layers
