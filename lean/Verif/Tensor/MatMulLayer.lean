import Verif.Gadgets.LinAlg
import Verif.Gadgets.Arith
import Verif.Tensor.Conv
import Verif.Tensor.Pool

/-!
# The MatMul and Gemm layers

rust/jstprove_circuits/src/circuit_functions/layers/matmul.rs and gemm.rs; the product cores are in `Gadgets/LinAlg.lean`.

Arrays are in row-major order, so `into_shape_with_order` succeeds exactly if the number of elements agrees.
`chal` are the values of `api.get_random_value()`, `toNat` is `to_u256`. Looking the operands up by name
(`get_input_name`, `load_array_constants_or_get_inputs`) is not modelled: the layers get the arrays.
-/

namespace JST.Layers

open JST.Shape

/-! ## MatMul -/

section
variable {F : Type} [CommRing F]

/-- `MatMulLayer::apply_2d`, matmul.rs:280-316. -/
def matmul2d (toNat : F → Nat) (a b : Arr F) (chal : Nat → Nat → F) (reps : Nat) : G F (Arr F) :=
  match a.shape with
  | [_, m] =>
    match b.shape with
    | [m2, _] =>
      if m ≠ m2 then throwErr "MatMul: A.cols != B.rows"
      else matmul2dCore toNat a b chal reps
    | _ => throwErr "Expected 2D weights for MatMul layer"
  | _ => throwErr "Expected 2D input for MatMul layer"

/-- `a_flat.slice(s![i, .., ..])` of an array flattened to `[_, r, c]`, matmul.rs:412-418. -/
def sliceAt (a : Arr F) (r c i : Nat) : Arr F := ⟨[r, c], (a.data.drop (i * (r * c))).take (r * c)⟩

/-- The body of `apply_nd_batched` after its validation, matmul.rs:384-455. In the loop the index of the slice is in
bounds: either both operands have the same batch dimensions, or one has none and its only slice is used. -/
def matmulBatch (toNat : F → Nat) (a b : Arr F) (ba bb : List Nat) (M K N : Nat)
    (chal : Nat → Nat → Nat → F) (reps : Nat) : G F (Arr F) :=
  if a.data.length ≠ max ba.prod 1 * (M * K) then throwErr "failed to flatten A"
  else if bb ≠ [] ∧ b.data.length ≠ max bb.prod 1 * (K * N) then throwErr "failed to flatten B"
  else do
    let ys ← collectG (fun i => matmul2dCore toNat (sliceAt a M K (if max ba.prod 1 = 1 then 0 else i))
      (if bb ≠ [] then sliceAt b K N i else ⟨[K, N], b.data⟩) (chal i) reps)
      (List.range (max (max ba.prod 1) (max bb.prod 1)))
    let stacked ← liftR (fromShapeVec [max (max ba.prod 1) (max bb.prod 1), M, N] (ys.flatMap (·.data)))
    liftR (fromShapeVec ((if bb ≠ [] then bb else ba) ++ [M, N]) stacked.data)

/-- `MatMulLayer::apply_nd_batched`, matmul.rs:323-455. -/
def matmulNd (toNat : F → Nat) (a b : Arr F) (chal : Nat → Nat → Nat → F) (reps : Nat) : G F (Arr F) :=
  let ra := a.shape.length
  let rb := b.shape.length
  if ra < 2 ∨ rb < 2 then throwErr "apply_nd_batched requires rank >= 2 for both inputs"
  else if a.shape.getD (ra - 1) 0 ≠ b.shape.getD (rb - 2) 0 then throwErr "MatMul: A.K != B.K"
  else if b.shape.take (rb - 2) ≠ [] ∧ a.shape.take (ra - 2) ≠ [] ∧
      a.shape.take (ra - 2) ≠ b.shape.take (rb - 2) then
    throwErr "MatMul: leading batch dimensions must match element-wise"
  else matmulBatch toNat a b (a.shape.take (ra - 2)) (b.shape.take (rb - 2)) (a.shape.getD (ra - 2) 0)
    (a.shape.getD (ra - 1) 0) (b.shape.getD (rb - 1) 0) chal reps

/-- The choice between the two, matmul.rs:72-76. -/
def matmulCore (toNat : F → Nat) (a b : Arr F) (chal : Nat → Nat → Nat → F) (reps : Nat) : G F (Arr F) :=
  if a.shape.length ≤ 2 ∧ b.shape.length ≤ 2 then matmul2d toNat a b (chal 0) reps
  else matmulNd toNat a b chal reps

/-! ## Gemm -/

/-- `promote_to_2d`, gemm.rs:107-147. -/
def promote2d (a : Arr F) (asColumn : Bool) : R (Arr F) :=
  match a.shape with
  | [n] => .ok ⟨if asColumn then [n, 1] else [1, n], a.data⟩
  | [_, _] => .ok a
  | _ => .error .invalid

/-- The weights as a matrix, gemm.rs:153-180; `expected` is `expected_weight_shape`. -/
def gemmWeights (w : Arr F) (expected : Option (Nat × Nat)) : R (Arr F) :=
  match w.shape, expected with
  | [_], some (r, c) => if w.data.length ≠ r * c then .error .invalid else .ok ⟨[r, c], w.data⟩
  | _, _ => promote2d w true

/-- `check_and_apply_transpose_array`, utils/shaping.rs:230-247. -/
def applyTranspose (flag : Nat) (a : Arr F) : R (Arr F) :=
  match flag with
  | 0 => .ok a
  | 1 =>
    match a.shape with
    | [r, c] => .ok ⟨[c, r], (List.range c).flatMap fun j => (List.range r).map fun i => a.at2 c i j⟩
    | _ => .error .invalid
  | _ => .error .invalid

/-- The bias, brought to the shape of the product, gemm.rs:217-262. -/
def gemmBias (bias : Arr F) (rows cols : Nat) : R (Arr F) :=
  if bias.shape = [rows, cols] then .ok bias
  else if bias.data.length = cols then
    fromShapeVec [rows, cols] ((List.range rows).flatMap fun _ => bias.data)
  else if bias.data.length = 1 then
    fromShapeVec [rows, cols] ((List.range rows).flatMap fun _ => List.replicate cols (bias.data.headD 0))
  else .error .invalid

/-- What `GemmLayer` is configured with: `expected_weight_shape`, `transA`, `transB`, whether `alpha` and `beta` pass
`check_alpha_beta` (not more than `1e-6` from one, gemm.rs:481-496; a NaN passes), and `freivalds_reps`. -/
structure GemmCfg where
  expected : Option (Nat × Nat)
  transA : Nat
  transB : Nat
  alphaOk : Bool
  betaOk : Bool
  reps : Nat

/-- The two matrices to multiply, gemm.rs:149-204, with the checks of `alpha` and `beta`. -/
def gemmOperands (cfg : GemmCfg) (x w : Arr F) : R (Arr F × Arr F) := do
  let a ← promote2d x false
  let b ← gemmWeights w cfg.expected
  let a ← applyTranspose cfg.transA a
  let b ← applyTranspose cfg.transB b
  if cfg.alphaOk = true ∧ cfg.betaOk = true then pure (a, b) else .error .invalid

/-- The product and the bias, gemm.rs:206-263; `target` is the shape of the product. -/
def gemmCore (toNat : F → Nat) (cfg : GemmCfg) (x w bias : Arr F) (chal : Nat → Nat → F) : G F (Arr F) := do
  let ab ← liftR (gemmOperands cfg x w)
  let c ← computeCoreProduct toNat ab.1 ab.2 chal cfg.reps
  let bias ← liftR (gemmBias bias (c.shape.getD 0 0) (c.shape.getD 1 0))
  elementwiseOp (fun u v => u + v) c bias

end

variable {p : Nat}

/-- `MatMulLayer::apply`, matmul.rs:48-97. -/
def matmulLayer (toNat : ZMod p → Nat) (rc : RangeCtx) (a b : Arr (ZMod p)) (chal : Nat → Nat → Nat → ZMod p)
    (reps : Nat) (isRescale : Bool) (kappa nBits : Nat) : G (ZMod p) (Arr (ZMod p)) := do
  let core ← matmulCore toNat a b chal reps
  let ys ← maybeRescale rc core.data isRescale kappa nBits false
  pure ⟨core.shape, ys⟩

/-- `GemmLayer::build` (the check of `freivalds_reps`, gemm.rs:297-306) and `apply`, gemm.rs:92-280. -/
def gemmLayer (toNat : ZMod p → Nat) (rc : RangeCtx) (cfg : GemmCfg) (x w bias : Arr (ZMod p))
    (chal : Nat → Nat → ZMod p) (isRescale : Bool) (kappa nBits : Nat) (isRelu : Bool) :
    G (ZMod p) (Arr (ZMod p)) :=
  if cfg.reps = 0 then throwErr "freivalds_reps"
  else do
    let out ← gemmCore toNat cfg x w bias chal
    let ys ← maybeRescale rc out.data isRescale kappa nBits isRelu
    pure ⟨out.shape, ys⟩

end JST.Layers
