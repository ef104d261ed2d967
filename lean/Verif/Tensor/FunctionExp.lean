import Verif.Tensor.Function

/-!
# Layers built on the exponential look-up

rust/jstprove_circuits/src/circuit_functions/layers/: exp.rs, sigmoid.rs, tanh.rs, log.rs, gelu.rs.

Conventions as in `Function`. `th` and `tl` are the two tables of `DecomposedExpLookup` (modelled in
`Gadgets/Exp.lean`), `f` is `compute_exp_quantized(·, scale)`. The hint functions compute in `f64`; they are
the parameter `hint`. Products of `u64` constants are as in a release build: modulo `2^64`.
-/

namespace JST.Layers

open JST.Shape

variable {p : Nat}

/-- `function_lookup_bits`, gadgets/function_lookup.rs:12-15. -/
def lookupBits (kappa : Nat) : Nat := min (kappa + 6) 24

/-- `DecomposedExpLookup::build(api, lookup_bits, scaling, compute_exp_quantized)`. -/
def expCtx (f : Int → Int) (rc : RangeCtx) (th tl kappa : Nat) : ExpCtx :=
  ⟨rc, th, tl, lookupBits kappa, 2 ^ kappa, f⟩

/-! ## Exp -/

/-- `ExpLayer::build` and `apply`, exp.rs:24-103. -/
def expLayer (f : Int → Int) (rc : RangeCtx) (th tl kappa : Nat) (x : Arr (ZMod p)) :
    G (ZMod p) (Arr (ZMod p)) :=
  if kappa ≥ 64 then throwErr "scale_exponent is too large to shift u64"
  else mapLayer (fun v => verifyExp (expCtx f rc th tl kappa) v) x

/-! ## Sigmoid -/

/-- One element of Sigmoid, sigmoid.rs:63-80; `scaleSq` is the constant `scaling * scaling`. -/
def sigmoidElem (hint : List (ZMod p) → Except Err (List (ZMod p))) (e : ExpCtx) (nBits scaleSq tol tolBits : Nat)
    (x : ZMod p) : G (ZMod p) (ZMod p) := do
  let out ← newHint hint [x, (e.scale : ZMod p)] 1
  let y := out.headD 0
  rangeCheck e.rc y nBits
  rangeCheck e.rc ((e.scale : ZMod p) - y) nBits
  let expNegX ← verifyExp e (0 - x)
  let diff := y * ((e.scale : ZMod p) + expNegX) - (scaleSq : ZMod p)
  rangeCheck e.rc (diff + (tol : ZMod p)) tolBits
  pure y

/-- `SigmoidLayer::build` and `apply`, sigmoid.rs:26-129. -/
def sigmoidLayer (hint : List (ZMod p) → Except Err (List (ZMod p))) (f : Int → Int) (rc : RangeCtx)
    (th tl kappa nBits : Nat) (x : Arr (ZMod p)) : G (ZMod p) (Arr (ZMod p)) :=
  if kappa ≥ 64 then throwErr "scale_exponent is too large to shift u64"
  else mapLayer (fun v => sigmoidElem hint (expCtx f rc th tl kappa) nBits (2 ^ kappa * 2 ^ kappa % 2 ^ 64)
    (2 * 2 ^ kappa % 2 ^ 64) (Nat.clog 2 (2 * (2 * 2 ^ kappa % 2 ^ 64) % 2 ^ 64)) v) x

/-! ## Tanh -/

/-- One element of Tanh, tanh.rs:67-90. -/
def tanhElem (hint : List (ZMod p) → Except Err (List (ZMod p))) (e : ExpCtx) (nBits tol tolBits : Nat)
    (x : ZMod p) : G (ZMod p) (ZMod p) := do
  let out ← newHint hint [x, (e.scale : ZMod p)] 1
  let y := out.headD 0
  rangeCheck e.rc (y + (e.scale : ZMod p)) (nBits + 1)
  rangeCheck e.rc ((e.scale : ZMod p) - y) (nBits + 1)
  let exp2x ← verifyExp e (x + x)
  let diff := y * (exp2x + (e.scale : ZMod p)) - (exp2x - (e.scale : ZMod p)) * (e.scale : ZMod p)
  let shifted := diff + (tol : ZMod p)
  rangeCheck e.rc shifted tolBits
  rangeCheck e.rc (((2 * tol : Nat) : ZMod p) - shifted) tolBits
  pure y

/-- `TanhLayer::build` and `apply`, tanh.rs:26-144. -/
def tanhLayer (hint : List (ZMod p) → Except Err (List (ZMod p))) (f : Int → Int) (rc : RangeCtx)
    (th tl kappa nBits : Nat) (x : Arr (ZMod p)) : G (ZMod p) (Arr (ZMod p)) :=
  if kappa ≥ 32 then throwErr "scale_exponent >= 32: scale^2 overflows u64 in Tanh cross-multiplication"
  else mapLayer (fun v => tanhElem hint (expCtx f rc th tl kappa) nBits (3 * 2 ^ kappa)
    (Nat.clog 2 (2 * (3 * 2 ^ kappa))) v) x

/-! ## Log -/

/-- One element of Log, log.rs:63-84. -/
def logElem (hint : List (ZMod p) → Except Err (List (ZMod p))) (e : ExpCtx) (nBits tol tolBits : Nat)
    (x : ZMod p) : G (ZMod p) (ZMod p) := do
  let out ← newHint hint [x, (e.scale : ZMod p)] 1
  let y := out.headD 0
  rangeCheck e.rc x nBits
  rangeCheck e.rc (x - 1) nBits
  let expY ← verifyExp e y
  let diff := expY * (e.scale : ZMod p) - x * (e.scale : ZMod p)
  let shifted := diff + (tol : ZMod p)
  rangeCheck e.rc shifted tolBits
  rangeCheck e.rc (((2 * tol : Nat) : ZMod p) - shifted) tolBits
  pure y

/-- `LogLayer::build` and `apply`, log.rs:26-160; `worst` is `(scale * ln(scale)).ceil()`. -/
def logLayer (hint : List (ZMod p) → Except Err (List (ZMod p))) (f : Int → Int) (rc : RangeCtx)
    (th tl kappa nBits : Nat) (worst : Int) (x : Arr (ZMod p)) : G (ZMod p) (Arr (ZMod p)) :=
  if kappa ≥ 32 then throwErr "scale_exponent is too large (must be < 32)"
  else if worst ≥ 2 ^ (lookupBits kappa - 1) then throwErr "worst-case |y_q| exceeds DecomposedExpLookup signed range"
  else mapLayer (fun v => logElem hint (expCtx f rc th tl kappa) nBits (2 * 2 ^ kappa)
    (Nat.clog 2 (2 * (2 * 2 ^ kappa)) + 1) v) x

/-! ## Gelu -/

/-- A quotient with a range-checked remainder, gelu.rs:80-86, 91-101 and 106-112, and `erf_div_rem`,
erf.rs:36-50. -/
def divRem (rc : RangeCtx) (num den : ZMod p) (remBits : Nat) : G (ZMod p) (ZMod p) := do
  let q ← uIntDiv num den
  let r ← uMod num den
  assertEq (q * den + r) num
  rangeCheck rc r remBits
  pure q

/-- One element of Gelu, gelu.rs:75-127; `coef` and `outer` are the two quantised coefficients. -/
def geluElem (hint : List (ZMod p) → Except Err (List (ZMod p))) (e : ExpCtx) (kappa coef outer tol tolBits : Nat)
    (x : ZMod p) : G (ZMod p) (ZMod p) := do
  let out ← newHint hint [x, (e.scale : ZMod p)] 1
  let y := out.headD 0
  let xSqDiv ← divRem e.rc (x * x) (e.scale : ZMod p) kappa
  let coefX3Div ← divRem e.rc ((coef : ZMod p) * (xSqDiv * x)) ((e.scale * e.scale : Nat) : ZMod p) (2 * kappa)
  let z ← divRem e.rc ((outer : ZMod p) * (x + coefX3Div)) (e.scale : ZMod p) kappa
  let expNegZ ← verifyExp e (0 - z)
  let denom := (e.scale : ZMod p) + expNegZ
  let diff := y * denom - x * (e.scale : ZMod p)
  rangeCheck e.rc (diff + (tol : ZMod p)) tolBits
  pure y

/-- `GeluLayer::build` and `apply`, gelu.rs:30-206; `tanh` says whether the attribute `approximate` is `"tanh"`. -/
def geluLayer (hint : List (ZMod p) → Except Err (List (ZMod p))) (f : Int → Int) (rc : RangeCtx)
    (th tl kappa coef outer : Nat) (tanh : Bool) (x : Arr (ZMod p)) : G (ZMod p) (Arr (ZMod p)) :=
  if tanh = false then throwErr "only approximate='tanh' is implemented."
  else if kappa ≥ 32 then throwErr "scale_exponent >= 32: scale^2 overflows u64 in GELU polynomial verification"
  else mapLayer (fun v => geluElem hint (expCtx f rc th tl kappa) kappa coef outer (5 * 2 ^ kappa)
    (Nat.clog 2 (2 * (5 * 2 ^ kappa))) v) x

end JST.Layers
