import Verif.Tensor.Basic

/-!
# Matrix gadgets

Model of /repo/rust/jstprove_circuits/src/circuit_functions/gadgets/linear_algebra.rs,
hints/matmul.rs and the product core of layers/matmul.rs and layers/gemm.rs. `api.add`/`api.mul` are
the field operations.
-/

namespace JST

variable {F : Type} [CommRing F]

/-- `acc = 0; for k in 0..n { acc += f(k) * g(k) }`, linear_algebra.rs:277-282, 493-500, 504-511,
515-522. -/
def dot (n : Nat) (f g : Nat → F) : F :=
  (List.range n).foldl (fun acc k => acc + f k * g k) 0

/-- `matrix_multiplication`, linear_algebra.rs:245-289. -/
def matrixMultiplication (a b : Arr F) : G F (Arr F) :=
  match a.shape with
  | [m, n] =>
    match b.shape with
    | [n2, p] =>
      if n ≠ n2 then throwErr "a_dim[1] != b_dim[0]"
      else pure ⟨[m, p], (List.range m).flatMap fun i => (List.range p).map fun j =>
        dot n (fun k => a.at2 n i k) (fun k => b.at2 p k j)⟩
    | _ => throwErr "matrix_b must be 2D"
  | _ => throwErr "matrix_a must be 2D"

/-- `matmul_hint`, hints/matmul.rs:48-122, with `usize` of 64 bits. `nOut` is `outputs.len()`,
`toNat` is `to_u256`. -/
def matmulHint (toNat : F → Nat) (nOut : Nat) (inputs : List F) : Except Err (List F) :=
  let t := inputs.length
  if t < 3 then .error (.hint "expected at least 3 inputs")
  else
    let ell := toNat (inputs.getD (t - 3) 0)
    let m := toNat (inputs.getD (t - 2) 0)
    let n := toNat (inputs.getD (t - 1) 0)
    if ell ≥ 2 ^ 64 ∨ m ≥ 2 ^ 64 ∨ n ≥ 2 ^ 64 then .error (.hint "dimension does not fit in usize")
    else if ell * m ≥ 2 ^ 64 ∨ m * n ≥ 2 ^ 64 ∨ ell * n ≥ 2 ^ 64 ∨ ell * m + m * n + 3 ≥ 2 ^ 64 then
      .error (.hint "dimension product overflows usize")
    else if t ≠ ell * m + m * n + 3 then .error (.hint "input length")
    else if nOut ≠ ell * n then .error (.hint "output length")
    else
      let a := inputs.take (ell * m)
      let b := (inputs.drop (ell * m)).take (m * n)
      .ok ((List.range ell).flatMap fun i => (List.range n).map fun j =>
        dot m (fun k => a.getD (i * m + k) 0) (fun k => b.getD (k * n + j) 0))

/-- `unconstrained_matrix_multiplication`, linear_algebra.rs:313-385. -/
def unconstrainedMatrixMultiplication (toNat : F → Nat) (a b : Arr F) : G F (Arr F) :=
  match a.shape with
  | [m, n] =>
    match b.shape with
    | [n2, p] =>
      if n ≠ n2 then throwErr "a_dim[1] != b_dim[0]"
      else do
        let inputs := ((List.range m).flatMap fun i => (List.range n).map fun k => a.at2 n i k) ++
          ((List.range n).flatMap fun k => (List.range p).map fun j => b.at2 p k j) ++
          [((m : Nat) : F), ((n : Nat) : F), ((p : Nat) : F)]
        let outs ← newHint (matmulHint toNat (m * p)) inputs (m * p)
        pure ⟨[m, p], (List.range m).flatMap fun i => (List.range p).map fun j =>
          outs.getD (i * p + j) 0⟩
    | _ => throwErr "matrix_b must be 2D"
  | _ => throwErr "matrix_a must be 2D"

/-- The `assert_is_equal` loop of one repetition, linear_algebra.rs:525-527. -/
def assertRows (u w : Nat → F) : Nat → G F Unit
  | 0 => pure ()
  | k + 1 => do assertRows u w k; assertEq (u k) (w k)

/-- The body of one repetition, linear_algebra.rs:482-528; `x` is the sampled vector. -/
def freivaldsRep (a b c : Arr F) (ell m n : Nat) (x : Nat → F) : G F Unit :=
  let v := fun r => dot n (fun j => b.at2 n r j) x
  let w := fun r => dot n (fun j => c.at2 n r j) x
  let u := fun r => dot m (fun k => a.at2 m r k) v
  assertRows u w ell

/-- The repetition loop, linear_algebra.rs:482-529; `chal rep j` is the `j`-th value drawn with
`get_random_value` in repetition `rep`. -/
def freivaldsLoop (a b c : Arr F) (ell m n : Nat) (chal : Nat → Nat → F) : Nat → G F Unit
  | 0 => pure ()
  | r + 1 => do freivaldsLoop a b c ell m n chal r; freivaldsRep a b c ell m n (chal r)

/-- `freivalds_verify_matrix_product`, linear_algebra.rs:430-532. -/
def freivaldsVerify (a b c : Arr F) (chal : Nat → Nat → F) (reps : Nat) : G F Unit :=
  match a.shape with
  | [ell, m] =>
    match b.shape with
    | [mb, n] =>
      match c.shape with
      | [rc, nc] =>
        if m ≠ mb then throwErr "Freivalds: A.cols != B.rows"
        else if ell ≠ rc ∨ n ≠ nc then throwErr "Freivalds: C shape mismatch"
        else if reps = 0 then throwErr "Freivalds: num_repetitions must be >= 1"
        else freivaldsLoop a b c ell m n chal reps
      | _ => throwErr "Freivalds: matrix_c must be 2D"
    | _ => throwErr "Freivalds: matrix_b must be 2D"
  | _ => throwErr "Freivalds: matrix_a must be 2D"

/-- The cost rule of `should_use_freivalds`, layers/gemm.rs:521-563 (saturating `u128` arithmetic;
simplification: no saturation at `2^128`, i.e. the cost fits in 128 bits). -/
def shouldUseFreivalds (ell m n reps : Nat) : Bool :=
  if reps = 0 then false
  else
    let costFull := 2 * ell * m * n - ell * n
    let s := ell * m + ell * n + m * n
    let d := 2 * s - (m + 2 * ell)
    if d = 0 then false else reps * d < costFull

/-- `compute_core_product`, layers/gemm.rs:428-475. -/
def computeCoreProduct (toNat : F → Nat) (a b : Arr F) (chal : Nat → Nat → F) (reps : Nat) :
    G F (Arr F) :=
  match a.shape with
  | [ell, m] =>
    match b.shape with
    | [m2, n] =>
      if m ≠ m2 then throwErr "GEMM: A.cols != B.rows"
      else if shouldUseFreivalds ell m n reps then do
        let c ← unconstrainedMatrixMultiplication toNat a b
        freivaldsVerify a b c chal reps
        pure c
      else matrixMultiplication a b
    | _ => throwErr "2D"
  | _ => throwErr "2D"

/-- The cost rule of `matmul_2d_core`, layers/matmul.rs:248-257: plain `u128` subtraction, which panics
when it underflows (`none`). -/
def matmulCostRule (ell m n reps : Nat) : Option Bool :=
  if reps = 0 then some false
  else if 2 * ell * m * n < ell * n then none
  else
    let costFull := 2 * ell * m * n - ell * n
    let s := ell * m + ell * n + m * n
    if 2 * s < m + 2 * ell then none
    else
      let d := 2 * s - (m + 2 * ell)
      some (decide (d > 0 ∧ reps * d < costFull))

/-- `matmul_2d_core`, layers/matmul.rs:236-278 (indexing `shape()[1]` of a lower-rank array panics). -/
def matmul2dCore (toNat : F → Nat) (a b : Arr F) (chal : Nat → Nat → F) (reps : Nat) :
    G F (Arr F) :=
  match a.shape with
  | ell :: m :: _ =>
    match b.shape with
    | _ :: n :: _ =>
      match matmulCostRule ell m n reps with
      | none => panicWith "attempt to subtract with overflow"
      | some true => do
        let c ← unconstrainedMatrixMultiplication toNat a b
        freivaldsVerify a b c chal reps
        pure c
      | some false => matrixMultiplication a b
    | _ => panicWith "index out of bounds"
  | _ => panicWith "index out of bounds"

/-- `elementwise_op`, linear_algebra.rs:174-220. Reshaping an array to a shape with the same number of
elements cannot fail (`into_shape_with_order`), nor can `from_shape_vec` with the right length. -/
def elementwiseOp (op : F → F → F) (a b : Arr F) : G F (Arr F) :=
  if b.shape ≠ a.shape ∧ b.data.length ≠ a.data.length then throwErr "matrix_b shape mismatch"
  else pure ⟨a.shape, List.zipWith op a.data b.data⟩

end JST
