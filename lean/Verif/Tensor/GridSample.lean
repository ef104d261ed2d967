import Verif.Tensor.Resize
import Verif.Spec.GridSample

/-!
# GridSample

rust/jstprove_circuits/src/circuit_functions/layers/gridsample.rs and hints/gridsample.rs.

Simplifications: coordinates and weights, `f64` in the code, are exact rationals here. The four nested loops over
batch, channel, row and column are one loop over the flat index of the output.
-/

namespace JST.Layers

open JST.Shape JST.Spec

variable {p : Nat}

/-! ## Coordinates -/

/-- `unnormalize`, gridsample.rs:102-108. -/
def unnormalize (norm : ℚ) (size : Nat) (ac : Bool) : ℚ :=
  if ac then (norm + 1) / 2 * ((size - 1 : Nat) : ℚ) else (norm + 1) / 2 * (size : ℚ) - 1 / 2

/-- `f64::rem_euclid` for a positive period. -/
def remEuclid (x period : ℚ) : ℚ := x - period * ⌊x / period⌋

/-- `reflect_coord`, gridsample.rs:112-128. -/
def reflectCoord (x : ℚ) (size : Nat) (ac : Bool) : ℚ :=
  if size ≤ 1 then 0
  else
    let lo : ℚ := if ac then 0 else -1 / 2
    let range : ℚ := if ac then ((size - 1 : Nat) : ℚ) else (size : ℚ)
    let rel := remEuclid (x - lo) (2 * range)
    let rel := if rel > range then 2 * range - rel else rel
    clampQ (rel + lo) ((size - 1 : Nat) : ℚ)

/-- `apply_padding_f`, gridsample.rs:133-145. -/
def gridPad (x : ℚ) (size : Nat) (pad : GridPad) (ac : Bool) : Option ℚ :=
  match pad with
  | .zeros => if x < -1 / 2 ∨ x > (size : ℚ) - 1 / 2 then none else some (clampQ x ((size - 1 : Nat) : ℚ))
  | .reflection => some (reflectCoord x size ac)
  | .border => some (clampQ x ((size - 1 : Nat) : ℚ))

/-- `nearest_px`, gridsample.rs:153-157. -/
def nearestPx (x : ℚ) (size : Nat) : Nat := ⌊clampQ (⌊x + 1 / 2⌋ : Int) ((size - 1 : Nat) : ℚ)⌋₊

/-- `bilinear_corners_1d`, gridsample.rs:166-173. -/
def gridCorners (x : ℚ) (size : Nat) : Nat × Nat × ℚ × ℚ :=
  let xc := clampQ x ((size - 1 : Nat) : ℚ)
  (⌊xc⌋₊, min ⌈xc⌉₊ (size - 1), 1 - (xc - ⌊xc⌋₊), xc - ⌊xc⌋₊)

/-! ## Index maps and weights -/

/-- The sizes and attributes that `build` reads, gridsample.rs:578-629. -/
structure GridGeom where
  n : Nat
  c : Nat
  hIn : Nat
  wIn : Nat
  hOut : Nat
  wOut : Nat
  kappa : Nat
  pad : GridPad
  ac : Bool

/-- The flat index of a pixel, gridsample.rs:216 and 284. -/
def GridGeom.flat (g : GridGeom) (bn bc h w : Nat) : Nat :=
  bn * g.c * g.hIn * g.wIn + bc * g.hIn * g.wIn + h * g.wIn + w

/-- The sampled point, gridsample.rs:203-208 and 255-260. -/
def gridRead (g : GridGeom) (grid : List Int) (bn bh bw : Nat) : R (ℚ × ℚ) := do
  let sp := bn * g.hOut * g.wOut + bh * g.wOut + bw
  let gx ← readAt .panic grid (sp * 2)
  let gy ← readAt .panic grid (sp * 2 + 1)
  .ok (unnormalize ((gy : ℚ) / 2 ^ g.kappa) g.hIn g.ac, unnormalize ((gx : ℚ) / 2 ^ g.kappa) g.wIn g.ac)

/-- One entry of `build_nearest_index_map`, gridsample.rs:202-219. -/
def nearestEntry (g : GridGeom) (grid : List Int) (f : Nat) : R (Option Nat) := do
  let co := unravel f [g.n, g.c, g.hOut, g.wOut]
  let pt ← gridRead g grid (co.getD 0 0) (co.getD 2 0) (co.getD 3 0)
  .ok ((gridPad pt.1 g.hIn g.pad g.ac).bind fun y => (gridPad pt.2 g.wIn g.pad g.ac).map fun x =>
    g.flat (co.getD 0 0) (co.getD 1 0) (nearestPx y g.hIn) (nearestPx x g.wIn))

/-- One entry of `build_bilinear_per_output`, gridsample.rs:255-298. -/
def bilinearSpec (g : GridGeom) (grid : List Int) (f : Nat) : R (List Nat × List Int) := do
  let co := unravel f [g.n, g.c, g.hOut, g.wOut]
  let pt ← gridRead g grid (co.getD 0 0) (co.getD 2 0) (co.getD 3 0)
  let a := gridCorners pt.1 g.hIn
  let b := gridCorners pt.2 g.wIn
  let inBounds := g.pad ≠ .zeros ∨
    ((gridPad pt.1 g.hIn .zeros g.ac).isSome ∧ (gridPad pt.2 g.wIn .zeros g.ac).isSome)
  .ok ([g.flat (co.getD 0 0) (co.getD 1 0) a.1 b.1, g.flat (co.getD 0 0) (co.getD 1 0) a.1 b.2.1,
      g.flat (co.getD 0 0) (co.getD 1 0) a.2.1 b.1, g.flat (co.getD 0 0) (co.getD 1 0) a.2.1 b.2.1],
    [a.2.2.1 * b.2.2.1, a.2.2.1 * b.2.2.2, a.2.2.2 * b.2.2.1, a.2.2.2 * b.2.2.2].map fun w =>
      if inBounds then roundAway (w * 2 ^ g.kappa) else 0)

/-! ## Circuit -/

/-- The rounded quotient of `gridsample_hint`, hints/gridsample.rs:116-134. -/
def gridQuot (sum : Int) (scale : Nat) : Int :=
  if sum ≥ 0 then min ((sum + (scale / 2 : Nat)) / scale) (2 ^ 63 - 1)
  else max (Int.tdiv (sum - (scale / 2 : Nat)) scale) (-2 ^ 63)

/-- `gridsample_hint`, hints/gridsample.rs:60-153. -/
def gridsampleHint (inputs : List (ZMod p)) : Except Err (List (ZMod p)) :=
  if inputs.length < 3 ∨ inputs.length % 2 = 0 then .error (.hint "expected 2*n+1 inputs")
  else
    let n := (inputs.length - 1) / 2
    let scale := (inputs.getD (2 * n) 0).val
    if scale ≥ 2 ^ 64 then .error (.hint "scale exceeds u64::MAX")
    else if scale = 0 then .error (.hint "scale is zero")
    else match hintSum ((inputs.take n).zip ((inputs.drop n).take n)) 0 with
      | .error e => .error e
      | .ok s => if gridQuot s scale < 0 then .error (.hint "negative interpolation result")
        else .ok [((gridQuot s scale : Int) : ZMod p)]

/-- The two range checks of one interpolated output, gridsample.rs:388-394 and 482-488. -/
def gridChecks (rc : RangeCtx) (kappa nBits : Nat) (sum y : ZMod p) : G (ZMod p) (ZMod p) := do
  let r := sum + ((2 ^ kappa / 2 : Nat) : ZMod p) - y * ((2 ^ kappa : Nat) : ZMod p)
  rangeCheck rc r kappa
  rangeCheck rc y nBits
  pure y

/-- `Σ x_i * w_i`, gridsample.rs:381-386 and 475-480. -/
def gridDot (xs ws : List (ZMod p)) : ZMod p := (xs.zip ws).foldl (fun acc q => acc + q.1 * q.2) 0

/-- One interpolated output with a constant grid, gridsample.rs:356-394. -/
def gridOut (rc : RangeCtx) (kappa nBits : Nat) (x : Arr (ZMod p)) (s : List Nat × List Int) :
    G (ZMod p) (ZMod p) := do
  let xs ← liftR (s.1.mapM (readAt .panic x.data))
  let wv : List (ZMod p) := s.2.map fun w : Int => (w : ZMod p)
  let o ← newHint gridsampleHint (xs ++ wv ++ [((2 ^ kappa : Nat) : ZMod p)]) 1
  gridChecks rc kappa nBits (gridDot xs wv) (o.headD 0)

/-- Interpolation with a constant grid, gridsample.rs:344-398 and 667-687. -/
def gridBilinear (rc : RangeCtx) (nBits : Nat) (g : GridGeom) (grid : List Int) (out : List Nat) (x : Arr (ZMod p)) :
    G (ZMod p) (Arr (ZMod p)) := do
  let specs ← liftR ((List.range (g.n * g.c * g.hOut * g.wOut)).mapM (bilinearSpec g grid))
  let ys ← collectG (gridOut rc g.kappa nBits x) specs
  liftR (fromShapeVec out ys)

/-- Selection with a constant grid, gridsample.rs:333-342 and 653-666. -/
def gridNearest {α : Type} (zero : α) (g : GridGeom) (grid : List Int) (out : List Nat) (x : Arr α) : R (Arr α) := do
  let map ← (List.range (g.n * g.c * g.hOut * g.wOut)).mapM (nearestEntry g grid)
  let data ← map.mapM fun e => match e with
    | some i => readAt .panic x.data i
    | none => .ok zero
  fromShapeVec out data

/-- One output with a grid that is itself a circuit variable, gridsample.rs:451-488: the result, the corners and the
weights all come from the hint. -/
def gridDynOut (hint : List (ZMod p) → Except Err (List (ZMod p))) (rc : RangeCtx) (nBits : Nat) (g : GridGeom)
    (x grid : List (ZMod p)) (f : Nat) : G (ZMod p) (ZMod p) := do
  let co := unravel f [g.n, g.c, g.hOut, g.wOut]
  let data ← liftR ((List.range (g.hIn * g.wIn)).mapM fun i =>
    readAt .panic x (co.getD 0 0 * g.c * (g.hIn * g.wIn) + co.getD 1 0 * (g.hIn * g.wIn) + i))
  let sp := co.getD 0 0 * g.hOut * g.wOut + co.getD 2 0 * g.wOut + co.getD 3 0
  let gx ← liftR (readAt .panic grid (sp * 2))
  let gy ← liftR (readAt .panic grid (sp * 2 + 1))
  let code : Nat := match g.pad with
    | .zeros => 0
    | .border => 1
    | .reflection => 2
  let o ← newHint hint ([((2 ^ g.kappa : Nat) : ZMod p), (g.hIn : ZMod p), (g.wIn : ZMod p),
    ((if g.ac then 1 else 0 : Nat) : ZMod p), (code : ZMod p)] ++ data ++ [gx, gy]) 9
  gridChecks rc g.kappa nBits (gridDot ((o.drop 1).take 4) ((o.drop 5).take 4)) (o.headD 0)

/-- The layer with a grid that is a circuit variable, gridsample.rs:400-494 and 688-707. -/
def gridDynamic (hint : List (ZMod p) → Except Err (List (ZMod p))) (rc : RangeCtx) (nBits : Nat) (g : GridGeom)
    (out : List Nat) (x grid : Arr (ZMod p)) : G (ZMod p) (Arr (ZMod p)) := do
  let ys ← collectG (gridDynOut hint rc nBits g x.data grid.data) (List.range (g.n * g.c * g.hOut * g.wOut))
  liftR (fromShapeVec out ys)

/-- The grid of a node: a constant of the model, or a tensor of the circuit. -/
inductive GridArg (p : Nat)
  | const (grid : List Int)
  | wire (grid : Arr (ZMod p))

/-- `build` and `apply`, gridsample.rs:308-717, for the inferred output shape. The attribute `padding_mode` is one of the
three names ONNX has. -/
def gridLayer (hint : List (ZMod p) → Except Err (List (ZMod p))) (rc : RangeCtx) (kappa nBits : Nat) (mode : String)
    (pad : GridPad) (ac : Bool) (out : List Nat) (x : Arr (ZMod p)) (grid : GridArg p) : G (ZMod p) (Arr (ZMod p)) :=
  match x.shape, out with
  | [n, c, hIn, wIn], [_, _, hOut, wOut] =>
    let g : GridGeom := ⟨n, c, hIn, wIn, hOut, wOut, kappa, pad, ac⟩
    if kappa ≥ 64 then throwErr "scale_exponent too large to shift u64"
    else if mode = "bicubic" then throwErr "bicubic interpolation mode is not supported in ZK circuits"
    else match grid with
      | .const gr => if mode = "nearest" then liftR (gridNearest 0 g gr out x) else gridBilinear rc nBits g gr out x
      | .wire gr => gridDynamic hint rc nBits g out x gr
  | _, _ => throwErr "expected 4-D tensors"

end JST.Layers
