import Verif.Tensor.FunctionExp

/-!
# Erf

rust/jstprove_circuits/src/circuit_functions/layers/erf.rs. Conventions as in `FunctionExp`.
-/

namespace JST.Layers

open JST.Shape

variable {p : Nat}

/-- The quantised coefficients, erf.rs:19-24 and 79-84: `round(P * scale)` and so on. -/
structure ErfCoefs where
  p : Nat
  a1 : Nat
  a2 : Nat
  a3 : Nat
  a4 : Nat
  a5 : Nat

/-- `erf_abs_hint`, hints/erf.rs:49-66. -/
def erfAbsHint (inputs : List (ZMod p)) : Except Err (List (ZMod p)) :=
  match inputs with
  | [x] => .ok [((fieldToI64 x).natAbs : ZMod p), if 0 ≤ fieldToI64 x then 1 else 0]
  | _ => .error (.hint "erf_abs_hint: expected 1 input")

/-- The checks of one element with the claimed result `y`, erf.rs:119-191. -/
def erfCheck (e : ExpCtx) (kappa nBits : Nat) (c : ErfCoefs) (x y : ZMod p) : G (ZMod p) (ZMod p) := do
  let scale : ZMod p := (e.scale : Nat)
  let ab ← newHint erfAbsHint [x] 2
  let absX := ab.headD 0
  let nonneg := ab.tail.headD 0
  assertBool nonneg
  let sign := nonneg + nonneg - 1
  assertEq (sign * absX) x
  rangeCheck e.rc absX nBits
  let pScaled ← divRem e.rc ((c.p : ZMod p) * absX) scale kappa
  let denom := scale + pScaled
  let t ← divRem e.rc ((e.scale * e.scale : Nat) : ZMod p) denom (kappa + 1)
  rangeCheck e.rc t nBits
  let tShifted := t * denom - ((e.scale * e.scale : Nat) : ZMod p) + ((2 * e.scale : Nat) : ZMod p)
  rangeCheck e.rc tShifted (Nat.clog 2 (2 * (2 * e.scale)))
  rangeCheck e.rc (((2 * (2 * e.scale) : Nat) : ZMod p) - tShifted) (Nat.clog 2 (2 * (2 * e.scale)))
  let tSq ← divRem e.rc (t * t) scale kappa
  let a5t ← divRem e.rc ((c.a5 : ZMod p) * tSq) scale kappa
  let pi2 ← divRem e.rc (((c.a3 : ZMod p) + a5t) * tSq) scale kappa
  let pos ← divRem e.rc (t * ((c.a1 : ZMod p) + pi2)) scale kappa
  let a4t ← divRem e.rc ((c.a4 : ZMod p) * tSq) scale kappa
  let neg ← divRem e.rc (((c.a2 : ZMod p) + a4t) * tSq) scale kappa
  let xSq ← divRem e.rc (absX * absX) scale kappa
  let ex ← verifyExp e (0 - xSq)
  let posExp ← divRem e.rc (pos * ex) scale kappa
  let negExp ← divRem e.rc (neg * ex) scale kappa
  let erf := sign * (scale - posExp + negExp)
  let shifted := y - erf + ((4 * e.scale : Nat) : ZMod p)
  rangeCheck e.rc shifted (Nat.clog 2 (2 * (4 * e.scale)))
  rangeCheck e.rc (((2 * (4 * e.scale) : Nat) : ZMod p) - shifted) (Nat.clog 2 (2 * (4 * e.scale)))
  rangeCheck e.rc (y + scale) (nBits + 1)
  rangeCheck e.rc (scale - y) (nBits + 1)
  pure y

/-- One element, erf.rs:115-191. -/
def erfElem (hint : List (ZMod p) → Except Err (List (ZMod p))) (e : ExpCtx) (kappa nBits : Nat) (c : ErfCoefs)
    (x : ZMod p) : G (ZMod p) (ZMod p) := do
  let out ← newHint hint [x, (e.scale : ZMod p)] 1
  erfCheck e kappa nBits c x (out.headD 0)

/-- `ErfLayer::build` and `apply`, erf.rs:53-261. -/
def erfLayer (hint : List (ZMod p) → Except Err (List (ZMod p))) (f : Int → Int) (rc : RangeCtx)
    (th tl kappa nBits : Nat) (c : ErfCoefs) (x : Arr (ZMod p)) : G (ZMod p) (Arr (ZMod p)) :=
  if kappa ≥ 32 then throwErr "scale_exponent >= 32: scale^2 overflows u64 in Erf polynomial verification"
  else mapLayer (fun v => erfElem hint (expCtx f rc th tl kappa) kappa nBits c v) x

end JST.Layers
