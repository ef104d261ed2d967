import Verif.Gadgets.ArithProofs2
import Verif.LogUp.Model

/-!
# The decomposed exponential lookup

Model of `DecomposedExpLookup`,
/repo/rust/jstprove_circuits/src/circuit_functions/gadgets/function_lookup.rs:90-194. The tabulated
function `compute_exp_quantized` (hints/exp.rs:31-45) is computed in `f64`; it is a parameter
`f : Int → Int` here (its second argument, the scale, is fixed by `build`).
-/

set_option linter.unusedSectionVars false

namespace JST

variable {p : Nat}

/-- `DecomposedExpLookup`, function_lookup.rs:91-100, together with the range-check context. -/
structure ExpCtx where
  rc : RangeCtx
  tidHigh : Nat
  tidLow : Nat
  totalBits : Nat
  scale : Nat
  f : Int → Int

/-- function_lookup.rs:110. -/
def ExpCtx.chunkBits (e : ExpCtx) : Nat := e.totalBits / 2
/-- function_lookup.rs:111. -/
def ExpCtx.highBits (e : ExpCtx) : Nat := e.totalBits - e.chunkBits
/-- `64 - scale.leading_zeros()`, function_lookup.rs:133. -/
def ExpCtx.scaleBits (e : ExpCtx) : Nat := bitLen e.scale

/-- The contents of the two tables, function_lookup.rs:114-122. `saturating_mul` cannot saturate for
the widths used (`total_bits ≤ 24`, `function_lookup_bits`). -/
def IsExpTables (T : Tables (ZMod p)) (e : ExpCtx) : Prop :=
  (∀ r, T e.tidHigh r ↔ r ∈ signedRows p (fun x => e.f (x * 2 ^ e.chunkBits)) e.highBits) ∧
  (∀ r, T e.tidLow r ↔ r ∈ unsignedRows p e.f e.chunkBits)

/-- `field_to_i64`, hints/mod.rs:98-117: values above half the modulus are negative; magnitudes that do
not fit saturate. -/
def fieldToI64 (x : ZMod p) : Int :=
  if p / 2 < x.val then
    if p - x.val > 2 ^ 63 - 1 then -2 ^ 63 else -((p - x.val : Nat) : Int)
  else if x.val > 2 ^ 63 - 1 then 2 ^ 63 - 1 else (x.val : Int)

/-- `exp_hint`, hints/exp.rs:54-79 (the result is non-negative, so the cast to `u64` is exact). -/
def expHint (e : ExpCtx) (inputs : List (ZMod p)) : Except Err (List (ZMod p)) :=
  match inputs with
  | [x, s] => if s.val % 2 ^ 64 = 0 then .error (.hint "scale is zero")
    else .ok [((e.f (fieldToI64 x) : Int) : ZMod p)]
  | _ => .error (.hint "arity")

/-- `verify_exp`, function_lookup.rs:149-188. -/
def verifyExp (e : ExpCtx) (x : ZMod p) : G (ZMod p) (ZMod p) := do
  let xShifted := x + ((2 ^ (e.totalBits - 1) : Nat) : ZMod p)
  let chunkVar := ((2 ^ e.chunkBits : Nat) : ZMod p)
  let xHighU ← uIntDiv xShifted chunkVar
  let xLow ← uMod xShifted chunkVar
  assertEq (xHighU * chunkVar + xLow) xShifted
  rangeCheck e.rc xLow e.chunkBits
  let xHigh := xHighU - ((2 ^ (e.highBits - 1) : Nat) : ZMod p)
  let expHighHint ← newHint (expHint e) [xHigh * chunkVar, (e.scale : ZMod p)] 1
  let expHigh := expHighHint.headD 0
  let expLowHint ← newHint (expHint e) [xLow, (e.scale : ZMod p)] 1
  let expLow := expLowHint.headD 0
  lookup e.tidHigh [xHigh, expHigh]
  lookup e.tidLow [xLow, expLow]
  let product := expHigh * expLow
  let y ← uIntDiv product (e.scale : ZMod p)
  let remainder ← uMod product (e.scale : ZMod p)
  assertEq (y * (e.scale : ZMod p) + remainder) product
  rangeCheck e.rc remainder e.scaleBits
  pure y

end JST
