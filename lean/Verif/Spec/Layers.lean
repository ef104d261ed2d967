import Verif.Spec.Tensor

/-!
# Specification of the data-movement operators

What the ONNX operators Transpose, Slice, Split, Concat, Tile, Pad, Gather, GatherElements, ScatterND,
Squeeze and Unsqueeze mean, element by element. Nothing here models code.
-/

namespace JST.Spec

/-- The axis a (possibly negative) axis attribute names. -/
def AxisOf (rank : Nat) (raw : Int) (axis : Nat) : Prop :=
  axis < rank ∧ ((axis : Int) = raw ∨ (axis : Int) = raw + rank)

/-- Every element of `y` is the element of `x` at the coordinates `src` gives for it. -/
def Reads {α : Type} (x y : Arr α) (src : List Nat → List Nat) : Prop :=
  y.WF ∧ ∀ c, InRange y.shape c → InRange x.shape (src c) ∧ elem y c = elem x (src c)

/-- The entries of a list at the given positions. -/
def pick (positions l : List Nat) : List Nat := positions.map fun p => l.getD p 0

/-- Transpose: output axis `i` is input axis `perm[i]`. -/
def IsTranspose {α : Type} (perm : List Nat) (x y : Arr α) : Prop :=
  y.WF ∧ y.shape = pick perm x.shape ∧
  ∀ c, InRange x.shape c → InRange y.shape (pick perm c) ∧ elem y (pick perm c) = elem x c

/-- The permutation a Transpose asks for: the attribute (negative axes count from the end), or the
reversed order. -/
def PermAttr (rank : Nat) (attr : Option (List Int)) (perm : List Nat) : Prop :=
  perm.Perm (List.range rank) ∧
  match attr with
  | some raw => List.Forall₂ (AxisOf rank) raw perm
  | none => perm = (List.range rank).reverse

/-- The positions of an axis of size `dim` that `start:stop:step` selects, for a positive step: those
reached from the start (negative values count from the end) by whole steps, before the stop. -/
def sliceSel (dim : Nat) (start stop step : Int) : List Nat :=
  let s := max 0 (if start < 0 then start + dim else start)
  let e := if stop < 0 then stop + dim else stop
  (List.range dim).filter fun i => s ≤ i ∧ (i : Int) < e ∧ ((i : Int) - s) % step = 0

/-- Selection of positions along every axis: `sel[a][k]` is the input position read at output
position `k` of axis `a`. -/
def IsSelect {α : Type} (sel : List (List Nat)) (x y : Arr α) : Prop :=
  y.shape = sel.map List.length ∧
  Reads x y fun c => List.zipWith (fun s k => s.getD k 0) sel c

/-- The positions a Slice selects along axis `a`: those of the entry that names the axis, or all. -/
def sliceAxisSel (shape : List Nat) (starts ends steps : List Int) (axes : List Nat) (a : Nat) :
    List Nat :=
  if a ∈ axes then
    sliceSel (shape.getD a 0) (starts.getD (axes.idxOf a) 0) (ends.getD (axes.idxOf a) 0)
      (steps.getD (axes.idxOf a) 1)
  else List.range (shape.getD a 0)

/-- Slice with positive steps: along every named axis the selected positions, all positions of the
others. -/
def IsSlice {α : Type} (starts ends steps : List Int) (axes : List Nat) (x y : Arr α) : Prop :=
  IsSelect ((List.range x.shape.length).map (sliceAxisSel x.shape starts ends steps axes)) x y

/-- The part of a tensor from position `offset`, of the given size, along an axis. -/
def IsPart {α : Type} (axis offset size : Nat) (x y : Arr α) : Prop :=
  IsSelect ((List.range x.shape.length).map fun a =>
    if a = axis then (List.range size).map (· + offset) else List.range (x.shape.getD a 0)) x y

/-- The sizes of tensors along an axis. -/
def axisSizes {α : Type} (axis : Nat) (xs : List (Arr α)) : List Nat :=
  xs.map fun x => x.shape.getD axis 0

/-- `xs` are consecutive parts of `y` along an axis, and together all of it: `xs` is a split of `y`,
and `y` the concatenation of `xs`. -/
def IsPartition {α : Type} (axis : Nat) (xs : List (Arr α)) (y : Arr α) : Prop :=
  y.WF ∧ axis < y.shape.length ∧ (axisSizes axis xs).sum = y.shape.getD axis 0 ∧
  ∀ (k : Nat) (x : Arr α), xs[k]? = some x →
    IsPart axis ((axisSizes axis xs).take k).sum (x.shape.getD axis 0) y x

/-- The shapes can be concatenated along an axis: equal ranks, and equal dimensions elsewhere. -/
def ConcatShapes (axis : Nat) (shapes : List (List Nat)) : Prop :=
  ∀ s ∈ shapes, ∀ t ∈ shapes, s.length = t.length ∧ ∀ a, a ≠ axis → s.getD a 0 = t.getD a 0

/-- The sizes a Split asks for: the given ones, or equal ones; there are `n` of them and they add up
to the dimension. -/
def SplitSizes (dim n : Nat) (attr : Option (List Int)) (sizes : List Nat) : Prop :=
  sizes.length = n ∧ sizes.sum = dim ∧
  match attr with
  | some v => v = sizes.map Int.ofNat
  | none => ∀ s ∈ sizes, s = dim / n

/-- The repeats of a Tile: short ones are extended with ones on the left. -/
def tileReps (rank : Nat) (repeats : List Int) : List Int :=
  List.replicate (rank - repeats.length) 1 ++ repeats

/-- Tile: along axis `a` the tensor is repeated `reps[a]` times. -/
def IsTile {α : Type} (reps : List Nat) (x y : Arr α) : Prop :=
  y.shape = List.zipWith (· * ·) x.shape reps ∧
  Reads x y fun c => List.zipWith (· % ·) c x.shape

/-- Pad with zeros: `begins[a]` positions before and `ends[a]` after the data along axis `a`. -/
def IsZeroPad {F : Type} [Zero F] (begins ends : List Nat) (x y : Arr F) : Prop :=
  y.WF ∧ y.shape = List.zipWith (· + ·) (List.zipWith (· + ·) begins x.shape) ends ∧
  (∀ c, InRange x.shape c → InRange y.shape (List.zipWith (· + ·) begins c) ∧
    elem y (List.zipWith (· + ·) begins c) = elem x c) ∧
  ∀ c, InRange y.shape c → (¬ ∃ d, InRange x.shape d ∧ c = List.zipWith (· + ·) begins d) →
    elem y c = some 0

/-- Gather: along the axis, the slices of `x` the indices name; negative indices count from the end. -/
def IsGather {α : Type} (axis : Nat) (idx : Arr Int) (x y : Arr α) : Prop :=
  y.WF ∧ y.shape = x.shape.take axis ++ idx.shape ++ x.shape.drop (axis + 1) ∧
  ∀ before i after, InRange (x.shape.take axis) before → InRange idx.shape i →
    InRange (x.shape.drop (axis + 1)) after →
    ∃ v p, elem idx i = some v ∧ AxisOf (x.shape.getD axis 0) v p ∧
      elem y (before ++ i ++ after) = elem x (before ++ p :: after)

/-- GatherElements: every output element is the one of `x` at its own coordinates, with the axis
coordinate replaced by the index found there. -/
def IsGatherElements {α : Type} (axis : Nat) (idx : Arr Int) (x y : Arr α) : Prop :=
  y.WF ∧ y.shape = idx.shape ∧
  ∀ c, InRange idx.shape c → ∃ v p, elem idx c = some v ∧ AxisOf (x.shape.getD axis 0) v p ∧
    elem y c = elem x (c.set axis p)

/-- Index tuple `q` of a ScatterND names the position `p` of the first axes of the data. -/
def ScatterHits (idx : Arr Int) (dims q p : List Nat) : Prop :=
  p.length = dims.length ∧
  ∀ j, j < dims.length → ∃ v, elem idx (q ++ [j]) = some v ∧ AxisOf (dims.getD j 0) v (p.getD j 0)

/-- ScatterND with index tuples of length `k`: an element named by some index tuples takes the update
of the last of them; every other element is kept. -/
def IsScatterND {α : Type} (k : Nat) (idx : Arr Int) (upd x y : Arr α) : Prop :=
  y.WF ∧ y.shape = x.shape ∧
  ∀ p s, InRange (x.shape.take k) p → InRange (x.shape.drop k) s →
    (∀ q, InRange idx.shape.dropLast q → ScatterHits idx (x.shape.take k) q p →
      (∀ q', InRange idx.shape.dropLast q' → ScatterHits idx (x.shape.take k) q' p →
        rowMajor idx.shape.dropLast q' ≤ rowMajor idx.shape.dropLast q) →
      elem y (p ++ s) = elem upd (q ++ s)) ∧
    ((¬ ∃ q, InRange idx.shape.dropLast q ∧ ScatterHits idx (x.shape.take k) q p) →
      elem y (p ++ s) = elem x (p ++ s))

/-- A list without the entries at the given positions. -/
def dropAxes (axes l : List Nat) : List Nat :=
  ((List.range l.length).filter fun i => i ∉ axes).map fun i => l.getD i 0

/-- The axes a list of (possibly negative) attributes names: distinct, one for each. -/
def AxesOf (rank : Nat) (raw : List Int) (axes : List Nat) : Prop :=
  axes.Nodup ∧ List.Forall₂ (AxisOf rank) raw axes

/-- `y` is `x` without the axes `axes`, which are of size one: same elements, same order of the axes
that remain. -/
def IsSqueeze {α : Type} (axes : List Nat) (x y : Arr α) : Prop :=
  y.WF ∧ (∀ a ∈ axes, x.shape[a]? = some 1) ∧ y.shape = dropAxes axes x.shape ∧
  ∀ c, InRange x.shape c → InRange y.shape (dropAxes axes c) ∧ elem y (dropAxes axes c) = elem x c

end JST.Spec
