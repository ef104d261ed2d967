import Verif.Tensor.Elementwise
import Verif.Gadgets.Exp

/-!
# Layers that compute a function by hint and check

rust/jstprove_circuits/src/circuit_functions/layers/: sqrt.rs, hardswish.rs, pow.rs, sin.rs, cos.rs.

Conventions as in `Elementwise`. The hint functions compute in `f64`
(hints/sqrt.rs, hints/hardswish.rs, hints/sin.rs, hints/cos.rs); they are the parameter `hint`, used only
by an honest prover. The checks that a node has the right number of inputs and outputs are not modelled.
-/

namespace JST.Layers

open JST.Shape

variable {p : Nat}

/-! ## Sqrt -/

/-- One element of Sqrt, sqrt.rs:54-77. -/
def sqrtElem (hint : List (ZMod p) → Except Err (List (ZMod p))) (rc : RangeCtx) (nBits scale : Nat)
    (x : ZMod p) : G (ZMod p) (ZMod p) := do
  rangeCheck rc x nBits
  let out ← newHint hint [x, (scale : ZMod p)] 1
  let y := out.headD 0
  rangeCheck rc y nBits
  let remainder := x * (scale : ZMod p) - y * y
  rangeCheck rc remainder (nBits + 1)
  rangeCheck rc (y + y - remainder) (nBits + 1)
  pure y

/-- `SqrtLayer::build` and `apply`, sqrt.rs:35-132: `1u64.checked_shl` refuses exponents of 64 and more. -/
def sqrtLayer (hint : List (ZMod p) → Except Err (List (ZMod p))) (rc : RangeCtx) (kappa nBits : Nat)
    (x : Arr (ZMod p)) : G (ZMod p) (Arr (ZMod p)) :=
  if kappa ≥ 64 then throwErr "scale_exponent is too large to shift u64"
  else mapLayer (fun v => sqrtElem hint rc nBits (2 ^ kappa) v) x

/-! ## HardSwish -/

/-- One element of HardSwish, hardswish.rs:64-90; `tolBits` is
`(2 * cross_tolerance).next_power_of_two().trailing_zeros()`. -/
def hardElem (hint : List (ZMod p) → Except Err (List (ZMod p))) (rc : RangeCtx) (sc : ShiftCtx p)
    (alpha tolBits : Nat) (x : ZMod p) : G (ZMod p) (ZMod p) := do
  let out ← newHint hint [x, (alpha : ZMod p)] 1
  let y := out.headD 0
  let clipped ← constrainedClip sc rc (x + ((3 * alpha : Nat) : ZMod p)) (some 0)
    (some ((6 * alpha : Nat) : ZMod p))
  let diff := 6 * y * (alpha : ZMod p) - x * clipped
  let shifted := diff + ((6 * alpha : Nat) : ZMod p)
  rangeCheck rc shifted tolBits
  rangeCheck rc (((2 * (6 * alpha) : Nat) : ZMod p) - shifted) tolBits
  pure y

/-- `HardSwishLayer::build` and `apply`, hardswish.rs:27-150. -/
def hardLayer (hint : List (ZMod p) → Except Err (List (ZMod p))) (rc : RangeCtx) (kappa : Nat)
    (x : Arr (ZMod p)) : G (ZMod p) (Arr (ZMod p)) :=
  if kappa ≥ 32 then throwErr "scale_exponent >= 32: overflows u64 in HardSwish verification"
  else do
    let sc ← ShiftCtx.new (kappa + 3)
    mapLayer (fun v => hardElem hint rc sc (2 ^ kappa) (Nat.clog 2 (2 * (6 * 2 ^ kappa))) v) x

/-! ## Pow -/

/-- A product divided by the scale with a range-checked remainder, pow.rs:52-59 and 62-70. -/
def mulScale (rc : RangeCtx) (kappa : Nat) (a b : ZMod p) : G (ZMod p) (ZMod p) := do
  let product := a * b
  let q ← uIntDiv product ((2 ^ kappa : Nat) : ZMod p)
  let rem ← uMod product ((2 ^ kappa : Nat) : ZMod p)
  assertEq (q * ((2 ^ kappa : Nat) : ZMod p) + rem) product
  rangeCheck rc rem kappa
  pure q

/-- The body of the loop for an odd counter, pow.rs:51-60. -/
def powOdd (rc : RangeCtx) (kappa e : Nat) (result base : ZMod p) : G (ZMod p) (ZMod p) :=
  if e % 2 = 1 then mulScale rc kappa result base else pure result

/-- The loop of `constrained_pow_integer`, pow.rs:46-72. -/
def powLoop (rc : RangeCtx) (kappa : Nat) (e : Nat) (result base : ZMod p) : G (ZMod p) (ZMod p) :=
  if he : e = 0 then pure result
  else do
    let result' ← powOdd rc kappa e result base
    if e / 2 = 0 then pure result'
    else do
      let base' ← mulScale rc kappa base base
      powLoop rc kappa (e / 2) result' base'
termination_by e
decreasing_by omega

/-- The inversion for negative exponents, pow.rs:74-82. -/
def powInv (kappa : Nat) (result : ZMod p) : G (ZMod p) (ZMod p) := do
  let scaleSq := ((2 ^ kappa : Nat) : ZMod p) * ((2 ^ kappa : Nat) : ZMod p)
  let inv ← uIntDiv scaleSq result
  let invRem ← uMod scaleSq result
  assertEq (inv * result + invRem) scaleSq
  pure inv

/-- `constrained_pow_integer`, pow.rs:28-85. -/
def powElem (rc : RangeCtx) (kappa : Nat) (x : ZMod p) (exp : Int) : G (ZMod p) (ZMod p) :=
  if exp = 0 then pure ((2 ^ kappa : Nat) : ZMod p)
  else if exp = 1 then pure x
  else do
    let result ← powLoop rc kappa exp.natAbs ((2 ^ kappa : Nat) : ZMod p) x
    if exp < 0 then powInv kappa result else pure result

/-- The exponent used for element `i`, pow.rs:105-109: indexing panics beyond the end. -/
def powExp (exps : List Int) (i : Nat) : R Int :=
  if exps.length = 1 then readAt .panic exps 0 else readAt .panic exps i

/-- One element of the loop, pow.rs:104-123. -/
def powStep (rc : RangeCtx) (kappa nBits : Nat) (exps : List Int) (q : ZMod p × Nat) :
    G (ZMod p) (ZMod p) := do
  let e ← liftR (powExp exps q.2)
  let y ← powElem rc kappa q.1 e
  rangeCheck rc y nBits
  pure y

/-- `PowLayer::build` and `apply`, pow.rs:88-215, for constant exponents (anything else is refused).
`i32::try_from` is implied by the bound of 16. -/
def powLayer (rc : RangeCtx) (kappa nBits : Nat) (exps : List Int) (x : Arr (ZMod p)) :
    G (ZMod p) (Arr (ZMod p)) :=
  if kappa ≥ 64 then throwErr "scale_exponent is too large to shift u64"
  else if exps.any (fun e => decide (e.natAbs > 16)) then throwErr "Pow exponent exceeds supported range"
  else if exps = [] then throwErr "Pow exponent tensor is empty"
  else do
    let ys ← collectG (powStep rc kappa nBits exps) (x.data.zip (List.range x.data.length))
    liftR (fromShapeVec x.shape ys)

/-! ## Sin and Cos -/

/-- The width of the table, sin.rs:136-138, cos.rs:136-138. -/
def trigBits (kappa nBits : Nat) : Nat := min (min (kappa + 3) 20) nBits

/-- The hint, hints/sin.rs:43-76, hints/cos.rs: the same function as in the table, of the clamped input. -/
def trigHint (f : Int → Int) (inputs : List (ZMod p)) : Except Err (List (ZMod p)) :=
  match inputs with
  | [x, s] => if 2 ^ 64 ≤ s.val then .error (.hint "scale exceeds u64::MAX")
    else if s.val = 0 then .error (.hint "scale is zero")
    else .ok [((f (fieldToI64 x) : Int) : ZMod p)]
  | _ => .error (.hint "arity")

/-- One element of Sin or Cos, sin.rs:63-90. -/
def trigElem (f : Int → Int) (rc : RangeCtx) (tid : Nat) (sc : ShiftCtx p) (scale tableBits nBits : Nat)
    (x : ZMod p) : G (ZMod p) (ZMod p) := do
  let clamped ← constrainedClip sc rc x (some ((-2 ^ (tableBits - 1) : Int) : ZMod p))
    (some ((2 ^ (tableBits - 1) - 1 : Int) : ZMod p))
  let out ← newHint (trigHint f) [clamped, (scale : ZMod p)] 1
  let y := out.headD 0
  lookup tid [clamped, y]
  rangeCheck rc (y + (scale : ZMod p)) (nBits + 1)
  rangeCheck rc ((scale : ZMod p) - y) (nBits + 1)
  pure y

/-- `SinLayer::build` and `apply`, sin.rs:25-160, and the same for Cos, cos.rs:25-160; `f` is
`compute_sin_quantized(·, scale)` or `compute_cos_quantized(·, scale)`, `tid` the table built by
`FunctionLookupTable::build_signed`. -/
def trigLayer (f : Int → Int) (rc : RangeCtx) (tid kappa nBits : Nat) (x : Arr (ZMod p)) :
    G (ZMod p) (Arr (ZMod p)) :=
  if kappa ≥ 32 then throwErr "scale_exponent >= 32: exceeds maximum allowed for Sin lookup table"
  else if nBits < kappa + 1 then throwErr "n_bits must be >= scale_exponent + 1 for output range checks"
  else do
    let sc ← ShiftCtx.new (max (trigBits kappa nBits) nBits + 4)
    mapLayer (fun v => trigElem f rc tid sc (2 ^ kappa) (trigBits kappa nBits) nBits v) x

end JST.Layers
