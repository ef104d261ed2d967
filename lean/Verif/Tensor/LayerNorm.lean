import Verif.Tensor.Lanes
import Verif.Gadgets.Arith

/-!
# LayerNormalization

rust/jstprove_circuits/src/circuit_functions/layers/layer_norm.rs. Conventions as in `FunctionExp`.
`InstanceNormLayer::build` (instance_norm.rs:236-254) and `GroupNormLayer::build` (group_norm.rs:31-45) refuse every
node, so these two layers have nothing to model.
-/

namespace JST.Layers

open JST.Shape

variable {p : Nat}

/-- The loop over the blocks of trailing axes, layer_norm.rs:226-303; `flat_input[start..end]` is in bounds because an
array has as many entries as its shape says. -/
def blockMap {F : Type} [CommRing F] (f : List F → G F (List F)) (axis : Nat) (x : Arr F) : G F (Arr F) := do
  let n := (x.shape.drop axis).prod
  let ls ← collectG (fun k => f ((x.data.drop (k * n)).take n)) (List.range (x.shape.take axis).prod)
  liftR (fromShapeVec x.shape ls.flatten)

/-- The constants of one layer: `κ`, `n_bits`, `max_norm_bits` (computed in floating point, layer_norm.rs:27-36; a
parameter, below 64), and the tolerance per element. -/
structure NormConsts where
  kappa : Nat
  nBits : Nat
  normBits : Nat
  tol : Nat

namespace NormConsts

/-- `norm_div_shift_exponent`, layer_norm.rs:199-202. -/
def shiftTotal (k : NormConsts) : Nat := max (2 * k.nBits + 1) (k.kappa + 1)

/-- `norm_div_shift_over_scale_exponent`, layer_norm.rs:203-204. -/
def shiftExp (k : NormConsts) : Nat := k.shiftTotal - k.kappa

/-- `per_elem_tol_bits`, layer_norm.rs:196-197. -/
def tolBits (k : NormConsts) : Nat := Nat.clog 2 (2 * k.tol + 1)

end NormConsts

/-- One element, layer_norm.rs:254-295: output `y`, input `x`, coefficients `g` and `b`. The result is `norm_sq`. -/
def normElem (rc : RangeCtx) (k : NormConsts) (mean inv : ZMod p) (q : ZMod p × ZMod p × ZMod p × ZMod p) :
    G (ZMod p) (ZMod p) := do
  rangeCheck rc (q.1 + ((2 ^ (k.nBits - 1) : Nat) : ZMod p)) k.nBits
  let normQ ← divPow2Inner rc ((q.2.1 - mean) * inv) ((2 ^ k.kappa : Nat) : ZMod p) ((2 ^ k.shiftTotal : Nat) : ZMod p)
    k.kappa k.shiftExp ((2 ^ k.shiftExp : Nat) : ZMod p) true
  rangeCheck rc (normQ + ((2 ^ k.normBits : Nat) : ZMod p)) (k.normBits + 1)
  let diff := q.1 * ((2 ^ k.kappa : Nat) : ZMod p) - (normQ * q.2.2.1 + q.2.2.2)
  rangeCheck rc (diff + (k.tol : ZMod p)) k.tolBits
  rangeCheck rc ((k.tol : ZMod p) - diff) k.tolBits
  pure (normQ * normQ)

/-- One block, layer_norm.rs:227-302; `varTol` is `lane_size * scaling * scaling`. -/
def normBlock (hint : List (ZMod p) → Except Err (List (ZMod p))) (rc : RangeCtx) (k : NormConsts) (varTol varBits : Nat)
    (gs bs xs : List (ZMod p)) : G (ZMod p) (List (ZMod p)) := do
  let out ← newHint hint (xs ++ gs ++ bs ++ [((2 ^ k.kappa : Nat) : ZMod p)]) (xs.length + 2)
  let ys := out.take xs.length
  let mean := out.getD xs.length 0
  let inv := out.getD (xs.length + 1) 0
  rangeCheck rc inv k.nBits
  rangeCheck rc (xs.sum - (xs.length : ZMod p) * mean + (xs.length : ZMod p)) (Nat.clog 2 (2 * xs.length + 1))
  rangeCheck rc (mean + ((2 ^ k.nBits : Nat) : ZMod p)) (k.nBits + 1)
  let sq ← collectG (normElem rc k mean inv) (ys.zip (xs.zip (gs.zip bs)))
  rangeCheck rc (sq.sum - (varTol : ZMod p) + (varTol : ZMod p)) varBits
  pure ys

/-- `self.gamma.iter().map(|g| g.unsigned_abs()).max()`, layer_norm.rs:430. -/
def maxAbs (gamma : List Int) : Nat := (gamma.map Int.natAbs).foldr max 0

/-- `per_elem_tolerance_val`, layer_norm.rs:155-170. -/
def normTol (kappa : Nat) (gamma : List Int) : Nat := maxAbs gamma * 2 + 2 ^ kappa + 4

/-- `norm_var_tol_native`, layer_norm.rs:137; the products wrap at 64 bits in a release build. -/
def normVarTol (kappa n : Nat) : Nat := n * 2 ^ kappa * 2 ^ kappa % 2 ^ 64

/-- `norm_var_tol_bits`, layer_norm.rs:141-143. -/
def normVarBits (kappa n : Nat) : Nat := Nat.clog 2 (2 * normVarTol kappa n % 2 ^ 64)

/-- `LayerNormLayer::build` and `apply`, layer_norm.rs:51-442. The axis is normalised against the shape recorded for the
output, which is that of the input. `beta` are zeros when the node has no third input. -/
def layerNormLayer (hint : List (ZMod p) → Except Err (List (ZMod p))) (rc : RangeCtx) (kappa nBits normBits : Nat)
    (axis : Int) (gamma beta : List Int) (x : Arr (ZMod p)) : G (ZMod p) (Arr (ZMod p)) :=
  if kappa ≥ 64 then throwErr "scale_exponent is too large to shift u64"
  else do
    let ax ← liftR (normAxis x.shape.length axis)
    let n := (x.shape.drop ax).prod
    if gamma.length ≠ n ∨ beta.length ≠ n then throwErr "gamma/beta length mismatch"
    else if normTol kappa gamma ≥ 2 ^ 64 then throwErr "per-element tolerance overflow"
    else if normTol kappa gamma * 2 + 1 ≥ 2 ^ 64 then throwErr "per-element tolerance bit-width overflow"
    else if normTol kappa gamma * 2 + 1 > 2 ^ 63 then throwErr "per-element tolerance bit-width exceeds 63 bits"
    else
      blockMap (normBlock hint rc ⟨kappa, nBits, normBits, normTol kappa gamma⟩ (normVarTol kappa n) (normVarBits kappa n)
        (gamma.map fun z : Int => (z : ZMod p)) (beta.map fun z : Int => (z : ZMod p))) ax x

end JST.Layers
