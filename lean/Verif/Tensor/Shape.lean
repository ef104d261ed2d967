import Verif.Tensor.Basic
import Mathlib.Data.Nat.Basic
import Mathlib.Tactic.Linarith

/-!
# Shapes, flat indices and broadcasting

Model of rust/jstprove_circuits/src/circuit_functions/utils/shaping.rs, the shape part of
utils/tensor_ops.rs and layers/where_op.rs.
-/

namespace JST.Shape

/-- How a shape computation fails: a reported error, or a panic (overflow, slice or division). -/
inductive Err
  | invalid
  | panic
  deriving DecidableEq, Repr

abbrev R := Except Err

/-- The bound of `usize` and of `isize`/`i64` (64-bit targets). -/
def usizeMax : Nat := 2 ^ 64
def i64Max : Int := 2 ^ 63

/-- A checked `usize` result: overflow is a panic. -/
def usz (n : Nat) : R Nat := if n < usizeMax then .ok n else .error .panic

/-- One axis of `normalize_axes`, utils/shaping.rs:33-50: add the rank to a negative axis, then check
the range. -/
def normAxis (rank : Nat) (a : Int) : R Nat :=
  let ax := if a < 0 then a + rank else a
  if ax < 0 ∨ ax ≥ rank then .error .invalid else .ok ax.toNat

/-- The loop of `normalize_axes`, shaping.rs:32-63, over the axes already collected. -/
def normLoop (rank : Nat) : List Int → List Nat → R (List Nat)
  | [], out => .ok out
  | a :: as, out => do
    let ax ← normAxis rank a
    if ax ∈ out then .error .invalid else normLoop rank as (out ++ [ax])

/-- `normalize_axes`, shaping.rs:16-67. The `HashSet` of seen axes is the collected list; the final
`sort_unstable` is `insertionSort` (any sort gives the same list of distinct numbers). -/
def normalizeAxes (axes : List Int) (rank : Nat) : R (List Nat) :=
  if (rank : Int) ≥ i64Max then .error .invalid
  else do
    let out ← normLoop rank axes []
    .ok (out.insertionSort (· ≤ ·))

/-- `onnx_flatten`, shaping.rs:104-117. -/
def onnxFlatten {α : Type} (a : Arr α) (axis : Nat) : R (Arr α) :=
  if axis > a.shape.length then .error .invalid
  else .ok ⟨[(a.shape.take axis).prod, (a.shape.drop axis).prod], a.data⟩

/-- The fold of `infer_reshape_shape`, shaping.rs:310-333: `seen` says whether a `-1` was met. -/
def reshapeFold : List Int → Nat → Bool → R (Nat × Bool)
  | [], acc, seen => .ok (acc, seen)
  | d :: ds, acc, seen =>
    if d = -1 then
      if seen then .error .invalid else reshapeFold ds acc true
    else if d ≤ 0 then .error .invalid
    else do
      let acc ← usz (acc * d.toNat)
      reshapeFold ds acc seen

/-- `infer_reshape_shape`, shaping.rs:307-368. -/
def inferReshape (inputSize : Nat) (shape : List Int) : R (List Nat) := do
  let (known, seen) ← reshapeFold shape 1 false
  if seen ∧ inputSize % known ≠ 0 then .error .invalid
  else if ¬ seen ∧ known ≠ inputSize then .error .invalid
  else .ok (shape.map fun d => if d = -1 then inputSize / known else d.toNat)

/-- The dimension of `a` at distance `i` from the right, tensor_ops.rs:188-189:
`a.len().checked_sub(1 + i).map_or(1, |idx| a[idx])`. -/
def dimFromRight (a : List Nat) (i : Nat) : Nat :=
  if 1 + i ≤ a.length then a.getD (a.length - (1 + i)) 0 else 1

/-- The loop of `determine_broadcast_shape`, tensor_ops.rs:187-198, which fills the result from the
right; the accumulator is the part already filled. -/
def bcastLoop (a b : List Nat) : Nat → Nat → List Nat → R (List Nat)
  | 0, _, out => .ok out
  | n + 1, i, out =>
    let ad := dimFromRight a i
    let bd := dimFromRight b i
    if ad = bd ∨ ad = 1 ∨ bd = 1 then bcastLoop a b n (i + 1) (max ad bd :: out)
    else .error .invalid

/-- `determine_broadcast_shape`, tensor_ops.rs:183-201. -/
def broadcastShape (a b : List Nat) : R (List Nat) :=
  bcastLoop a b (max a.length b.length) 0 []

/-- `unravel`, where_op.rs:14-23: from the last axis to the first. -/
def unravelAux : List Nat → Nat → List Nat × Nat
  | [], flat => ([], flat)
  | s :: ss, flat =>
    let (coords, flat) := unravelAux ss flat
    if s > 0 then (flat % s :: coords, flat / s) else (0 :: coords, flat)

/-- `unravel`, where_op.rs:14-23. -/
def unravel (flat : Nat) (shape : List Nat) : List Nat := (unravelAux shape flat).1

/-- The loop of `ravel`, where_op.rs:25-33, returning `(flat, stride)`. Coordinates are indexed by the
axis; a missing coordinate is an out-of-bounds panic. -/
def ravelAux : List Nat → List Nat → Option (Nat × Nat)
  | _, [] => some (0, 1)
  | [], _ :: _ => none
  | c :: cs, s :: ss => do
    let (flat, stride) ← ravelAux cs ss
    some (flat + c * stride, stride * s)

/-- `ravel`, where_op.rs:25-33. -/
def ravel (coords shape : List Nat) : Option Nat := (ravelAux coords shape).map Prod.fst

/-- `broadcast_index`, where_op.rs:35-44. -/
def broadcastIndex (outCoords shape : List Nat) (outRank : Nat) : Option Nat :=
  if shape.length ≤ outRank then
    let pad := outRank - shape.length
    if pad ≤ outCoords.length then
      ravel (((outCoords.drop pad).zip shape).map fun (oc, s) => if s = 1 then 0 else oc) shape
    else none
  else none

/-- `ndarray`'s `broadcast`, as called by `broadcast_array`, tensor_ops.rs:234-248: `None` unless the
array has at most the target's rank and each of its dimensions, aligned at the right, is one or equal
to the target's. Its elements are then read with stride zero along stretched axes. -/
def broadcastArray {α : Type} [Inhabited α] (a : Arr α) (target : List Nat) : R (Arr α) :=
  if a.shape.length ≤ target.length ∧
      ((target.drop (target.length - a.shape.length)).zip a.shape).all
        (fun (t, s) => s == 1 || s == t) then
    .ok ⟨target, (List.range target.prod).map fun i =>
      a.data.getD ((broadcastIndex (unravel i target) a.shape target.length).getD 0) default⟩
  else .error .invalid

/-- `broadcast_two_arrays`, tensor_ops.rs:210-225. -/
def broadcastTwo {α : Type} [Inhabited α] (a b : Arr α) : R (Arr α × Arr α) := do
  let out ← broadcastShape a.shape b.shape
  let a' ← broadcastArray a out
  let b' ← broadcastArray b out
  .ok (a', b')

/-- `reshape_channel_vector_for_broadcast`, tensor_ops.rs:259-293, on a vector. The error message of
the channel check reads `target_shape[1]`, which panics below rank two. -/
def channelVector {α : Type} (vec : Arr α) (target : List Nat) : R (Arr α) :=
  match vec.shape with
  | [channels] =>
    match target with
    | [] => .error .panic
    | [_] => .error .panic
    | _ :: c :: rest =>
      if c ≠ channels then .error .invalid
      else .ok ⟨channels :: List.replicate rest.length 1, vec.data⟩
  | _ => .error .invalid

/-- The element-wise selection of `WhereLayer::apply`, where_op.rs:155-169 (run-time mode), with the
condition already turned into 0/1 by lines 126-153. -/
def whereRuntime {F : Type} [Ring F] [Inhabited F] [DecidableEq F]
    (cond x y : Arr F) (out : List Nat) : Option (Arr F) := do
  let data ← (List.range out.prod).mapM fun i => do
    let oc := unravel i out
    let ci ← broadcastIndex oc cond.shape out.length
    let xi ← broadcastIndex oc x.shape out.length
    let yi ← broadcastIndex oc y.shape out.length
    let cv ← cond.data[ci]?
    let c : F := 1 - (if cv = 0 then 1 else 0)
    let xv ← x.data[xi]?
    let yv ← y.data[yi]?
    some (c * (xv - yv) + yv)
  some ⟨out, data⟩

/-- `WhereLayer::build` with a constant condition, where_op.rs:262-288, followed by `apply` in
precomputed mode, where_op.rs:106-116. -/
def wherePrecomputed {F : Type} [Inhabited F] (cond : Arr Int) (x y : Arr F) (out : List Nat) :
    Option (Arr F) := do
  let data ← (List.range out.prod).mapM fun i => do
    let oc := unravel i out
    let ci ← broadcastIndex oc cond.shape out.length
    let xi ← broadcastIndex oc x.shape out.length
    let yi ← broadcastIndex oc y.shape out.length
    let cv ← cond.data[ci]?
    if cv ≠ 0 then x.data[xi]? else y.data[yi]?
  some ⟨out, data⟩

end JST.Shape
