import Mathlib.Data.Rat.Floor
import Mathlib.Data.Nat.Log
import Mathlib.Algebra.Order.Floor.Ring

/-!
# The choice of scale and field

`ScaleConfig`, rust/jstprove_onnx/src/quantizer.rs:9-104, and the choice of proof configuration,
rust/jstprove_circuits/src/expander_metadata.rs:92-257.

The logarithms are taken to be exact: the 64-bit floats of the code may round a bound just above a power of two
(relative distance below `2^-45`) to that power, and a product with `LOG2_10` to a neighbouring integer only for
numbers of digits that no exponent can reach.
-/

namespace JST.Quant.Scale

/-- A 64-bit float that is not negative: the accumulated bound. -/
inductive Bound
  | nan
  | inf
  | fin (q : ℚ)

/-- quantizer.rs:9-23. -/
def defaultExponent : Nat := 18
def nBitsBn254 : Nat := 64
def nBitsGoldilocks : Nat := 64 / 2 - 1
def nBitsGoldilocksExt2 : Nat := 64 * 2 / 2 - 1
def minUsefulExponent : Nat := 8

def u32Max : Nat := 2 ^ 32 - 1

/-- `log2_accum`, quantizer.rs:64-68: a comparison with NaN is false, the cast of infinity saturates. -/
def logAccum : Bound → Nat
  | .nan => 0
  | .inf => u32Max
  | .fin q => if 1 < q then Nat.clog 2 ⌈q⌉₊ else 0

/-- `max_safe_exponent`, quantizer.rs:63-70. -/
def maxSafeExponent (nBits : Nat) (b : Bound) : Nat := (nBits - min (logAccum b + 1) u32Max) / 2

/-- `exponent_for_digits`, quantizer.rs:58-60: `⌈d · log₂ 10⌉`. -/
def exponentForDigits (d : Nat) : Nat := min (Nat.clog 2 (10 ^ d)) u32Max

/-- `max_safe_digits`, quantizer.rs:73-76: `⌊e / log₂ 10⌋`. -/
def maxSafeDigits (nBits : Nat) (b : Bound) : Nat := Nat.log 10 (2 ^ maxSafeExponent nBits b)

/-- `ScaleConfig`; `alpha` is a 64-bit integer. -/
structure Config where
  base : Nat
  exponent : Nat
  alpha : Nat
  deriving DecidableEq

inductive Failure
  | overflow
  | precision
  | needsBits
  | capacity
  deriving DecidableEq

/-- `ScaleConfig::new`, quantizer.rs:48-55. `pow` of a 64-bit integer overflows from `2^63` on (a panic when
overflow checks are on; with them off `alpha` is wrong). -/
def new (base exponent : Nat) : Except Failure Config :=
  if base ^ exponent < 2 ^ 63 then .ok ⟨base, exponent, base ^ exponent⟩ else .error .overflow

/-- `ScaleConfig::adaptive`, quantizer.rs:79-82. -/
def adaptive (nBits : Nat) (b : Bound) : Except Failure Config := new 2 (maxSafeExponent nBits b)

/-- `ScaleConfig::for_precision`, quantizer.rs:84-103. -/
def forPrecision (digits nBits : Nat) (b : Bound) : Except Failure Config :=
  if exponentForDigits digits ≤ maxSafeExponent nBits b then new 2 (exponentForDigits digits)
  else .error .precision

/-- The proof configurations that are chosen automatically. -/
inductive Proof
  | goldilocksBasefold
  | goldilocksExt2Basefold
  | bn254Raw
  deriving DecidableEq

/-- `infer_proof_config_from_n_bits`, expander_metadata.rs:165-173. -/
def inferProof (nBits : Nat) : Proof :=
  if nBits ≤ nBitsGoldilocks then .goldilocksBasefold
  else if nBits ≤ nBitsGoldilocksExt2 then .goldilocksExt2Basefold
  else .bn254Raw

/-- `select_goldilocks_tier`, expander_metadata.rs:175-221. -/
def selectTier (b : Bound) (digits : Option Nat) : Except Failure (Proof × Nat) :=
  let base := maxSafeExponent nBitsGoldilocks b
  let ext2 := maxSafeExponent nBitsGoldilocksExt2 b
  match digits with
  | some d =>
    let required := exponentForDigits d
    if base ≥ required then .ok (.goldilocksBasefold, nBitsGoldilocks)
    else if ext2 ≥ required then .ok (.goldilocksExt2Basefold, nBitsGoldilocksExt2)
    else .error .precision
  | none =>
    if base ≥ minUsefulExponent then .ok (.goldilocksBasefold, nBitsGoldilocks)
    else if ext2 ≥ minUsefulExponent then .ok (.goldilocksExt2Basefold, nBitsGoldilocksExt2)
    else .error .capacity

/-- The scale and proof configuration of `generate_from_parsed`, expander_metadata.rs:101-119, 154. -/
def generate (b : Bound) (nBits digits : Option Nat) : Except Failure (Config × Option Proof) := do
  let c ← match nBits, digits with
    | some nb, some d => forPrecision d nb b
    | some nb, none => adaptive nb b
    | none, some _ => .error .needsBits
    | none, none => new 2 defaultExponent
  return (c, nBits.map inferProof)

/-- `generate_from_onnx_goldilocks_auto`, expander_metadata.rs:225-251. -/
def generateAuto (b : Bound) (digits : Option Nat) : Except Failure (Config × Option Proof) := do
  let (_, nb) ← selectTier b digits
  generate b (some nb) digits

end JST.Quant.Scale
