import Verif.Gadgets.RangeCheck

/-!
# Division, max/min/ReLU/clip and rescaling gadgets

Models of
* /repo/rust/jstprove_circuits/src/circuit_functions/gadgets/euclidean_division.rs
* /repo/rust/jstprove_circuits/src/circuit_functions/gadgets/max_min_clip.rs
* /repo/rust/jstprove_circuits/src/circuit_functions/hints/max_min_clip.rs
* /repo/rust/jstprove_circuits/src/circuit_functions/utils/quantization.rs
-/

namespace JST

variable {p : Nat}

/-! ## Unconstrained binary operations

`api.unconstrained_*` create one prover-chosen wire whose honest value is the operation on the canonical
representatives (/repo/compiler/expander_compiler/src/frontend/builder.rs:537-604; the witness solver
evaluates them with /repo/compiler/expander_compiler/src/hints/builtin.rs:176-251; field elements are ordered by their canonical representatives, e.g.
/repo/prover/arith/goldilocks/src/goldilocks.rs:49-54). -/

/-- A hint with two inputs and one output. -/
def hint2 (f : ZMod p → ZMod p → Except Err (ZMod p)) (x y : ZMod p) : G (ZMod p) (ZMod p) := do
  let l ← newHint (fun i => match i with
    | [a, b] => (f a b).map fun v => [v]
    | _ => .error (.hint "arity")) [x, y] 1
  match l with
  | [v] => pure v
  | _ => panicWith "arity"

/-- Field value of a Boolean. -/
def boolF (b : Bool) : ZMod p := if b then 1 else 0

/-- `unconstrained_greater_eq`, builtin.rs:233. -/
def uGreaterEq (x y : ZMod p) : G (ZMod p) (ZMod p) :=
  hint2 (fun a b => .ok (boolF (decide (b.val ≤ a.val)))) x y
/-- `unconstrained_lesser_eq`, builtin.rs:232. -/
def uLesserEq (x y : ZMod p) : G (ZMod p) (ZMod p) :=
  hint2 (fun a b => .ok (boolF (decide (a.val ≤ b.val)))) x y
/-- `unconstrained_greater`, builtin.rs:235. -/
def uGreater (x y : ZMod p) : G (ZMod p) (ZMod p) :=
  hint2 (fun a b => .ok (boolF (decide (b.val < a.val)))) x y
/-- `unconstrained_lesser`, builtin.rs:234. -/
def uLesser (x y : ZMod p) : G (ZMod p) (ZMod p) :=
  hint2 (fun a b => .ok (boolF (decide (a.val < b.val)))) x y
/-- `unconstrained_mul`. -/
def uMul (x y : ZMod p) : G (ZMod p) (ZMod p) := hint2 (fun a b => .ok (a * b)) x y
/-- `unconstrained_add`. -/
def uAdd (x y : ZMod p) : G (ZMod p) (ZMod p) := hint2 (fun a b => .ok (a + b)) x y
/-- `unconstrained_int_div`, builtin.rs:218-223; division by zero gives 0. -/
def uIntDiv (x y : ZMod p) : G (ZMod p) (ZMod p) :=
  hint2 (fun a b => .ok (if b.val = 0 then 0 else ((a.val / b.val : Nat) : ZMod p))) x y
/-- `unconstrained_mod`, builtin.rs:224-229; division by zero gives 0. -/
def uMod (x y : ZMod p) : G (ZMod p) (ZMod p) :=
  hint2 (fun a b => .ok (if b.val = 0 then 0 else ((a.val % b.val : Nat) : ZMod p))) x y

/-! ## Euclidean division -/

/-- `div_pos_integer_pow2_constant_inner`, euclidean_division.rs:84-130. `checked_add` on `usize`
cannot fail for the exponents accepted by `rangeCheck` (at most 128) and is omitted. -/
def divPow2Inner (rc : RangeCtx) (dividend divisor divisorByShift : ZMod p)
    (divisorExp shiftExp : Nat) (shift : ZMod p) (rangeCheckQuotient : Bool) :
    G (ZMod p) (ZMod p) := do
  let shiftedDividend := divisorByShift + dividend
  let shiftedQ ← uIntDiv shiftedDividend divisor
  let remainder ← uMod shiftedDividend divisor
  assertEq shiftedDividend (divisor * shiftedQ + remainder)
  rangeCheck rc remainder divisorExp
  if rangeCheckQuotient then rangeCheck rc shiftedQ (shiftExp + 1) else pure ()
  pure (shiftedQ - shift)

/-- `div_pos_integer_pow2_constant`, euclidean_division.rs:50-71. -/
def divPow2 (rc : RangeCtx) (dividend divisor divisorByShift : ZMod p)
    (divisorExp shiftExp : Nat) (shift : ZMod p) : G (ZMod p) (ZMod p) :=
  divPow2Inner rc dividend divisor divisorByShift divisorExp shiftExp shift true

/-- `u32::BITS - (d - 1).leading_zeros()`, the bit length of `d - 1`. euclidean_division.rs:187. -/
def bitLen (n : Nat) : Nat := if n = 0 then 0 else Nat.log2 n + 1

/-- `div_pos_integer_constant`, euclidean_division.rs:146-224. -/
def divConst (rc : RangeCtx) (dividend divisor : ZMod p) (d : Nat) (divisorByShift : ZMod p)
    (shiftExp : Nat) (shift : ZMod p) : G (ZMod p) (ZMod p) :=
  if d = 0 then throwErr "InvalidDivisor"
  else if d = 1 then pure dividend
  else if 2 ^ Nat.log2 d = d then
    -- `is_power_of_two`; `trailing_zeros` of a power of two is its logarithm
    divPow2 rc dividend divisor divisorByShift (Nat.log2 d) shiftExp shift
  else do
    let shiftedDividend := divisorByShift + dividend
    let shiftedQ ← uIntDiv shiftedDividend divisor
    let remainder ← uMod shiftedDividend divisor
    assertEq shiftedDividend (divisor * shiftedQ + remainder)
    let remainderBits := bitLen (d - 1)
    rangeCheck rc remainder remainderBits
    rangeCheck rc (((d - 1 : Nat) : ZMod p) - remainder) remainderBits
    rangeCheck rc shiftedQ (shiftExp + 1)
    pure (shiftedQ - shift)

/-! ## Max, min, ReLU, clip -/

/-- `ShiftRangeContext { shift_exponent, offset }`, max_min_clip.rs:13-16. -/
structure ShiftCtx (p : Nat) where
  shiftExp : Nat
  offset : ZMod p

/-- `ShiftRangeContext::new`, max_min_clip.rs:21-44: `1u64.checked_shl(s)` fails for `s ≥ 64`. -/
def ShiftCtx.new (shiftExp : Nat) : G (ZMod p) (ShiftCtx p) :=
  if shiftExp ≥ 64 then throwErr "InvalidParameterValue"
  else pure ⟨shiftExp, ((2 ^ shiftExp : Nat) : ZMod p)⟩

/-- Loop of `unconstrained_max`, hints/max_min_clip.rs:84-96. -/
def uMaxLoop : List (ZMod p) → ZMod p → G (ZMod p) (ZMod p)
  | [], cur => pure cur
  | v :: vs, cur => do
    let isGreater ← uGreater v cur
    let isNotGreater ← uLesserEq v cur
    let takeV ← uMul v isGreater
    let keepOld ← uMul cur isNotGreater
    let cur' ← uAdd takeV keepOld
    uMaxLoop vs cur'

/-- `unconstrained_max`, hints/max_min_clip.rs:72-99. -/
def uMax : List (ZMod p) → G (ZMod p) (ZMod p)
  | [] => throwErr "unconstrained_max: input slice must be nonempty"
  | v :: vs => uMaxLoop vs v

/-- Loop of `unconstrained_min`, hints/max_min_clip.rs:167-179. -/
def uMinLoop : List (ZMod p) → ZMod p → G (ZMod p) (ZMod p)
  | [], cur => pure cur
  | v :: vs, cur => do
    let isLesser ← uLesser v cur
    let isNotLesser ← uGreaterEq v cur
    let takeV ← uMul v isLesser
    let keepOld ← uMul cur isNotLesser
    let cur' ← uAdd takeV keepOld
    uMinLoop vs cur'

/-- `unconstrained_min`, hints/max_min_clip.rs:155-182. -/
def uMin : List (ZMod p) → G (ZMod p) (ZMod p)
  | [] => throwErr "unconstrained_min: input slice must be nonempty"
  | v :: vs => uMinLoop vs v

/-- `constrained_max_2`, max_min_clip.rs:111-149. -/
def max2 (sc : ShiftCtx p) (rc : RangeCtx) (x a : ZMod p) : G (ZMod p) (ZMod p) := do
  let b ← uGreaterEq (x + sc.offset) (a + sc.offset)
  assertBool b
  let diff := x - a
  let result := a + b * diff
  let absDiff := (b + b - 1) * diff
  rangeCheck rc absDiff (sc.shiftExp + 1)
  pure result

/-- The loop of `constrained_max` over the values, max_min_clip.rs:87-100: range-check each
`max - x` and accumulate the product. -/
def maxLoop (rc : RangeCtx) (nBits : Nat) (m : ZMod p) : List (ZMod p) → ZMod p → G (ZMod p) (ZMod p)
  | [], prod => pure prod
  | x :: xs, prod => do
    let delta := m - x
    rangeCheck rc delta nBits
    maxLoop rc nBits m xs (prod * delta)

/-- `constrained_max`, max_min_clip.rs:52-104. -/
def constrainedMax (sc : ShiftCtx p) (rc : RangeCtx) (values : List (ZMod p)) :
    G (ZMod p) (ZMod p) :=
  match values with
  | [] => throwErr "constrained_max: input slice must be nonempty"
  | [x, a] => max2 sc rc x a
  | values => do
    let maxOffset ← uMax (values.map (· + sc.offset))
    let maxRaw := maxOffset - sc.offset
    let prod ← maxLoop rc (sc.shiftExp + 1) maxRaw values 1
    assertZero prod
    pure maxRaw

/-- `constrained_relu`, max_min_clip.rs:155-187. -/
def constrainedRelu (sc : ShiftCtx p) (rc : RangeCtx) (x : ZMod p) : G (ZMod p) (ZMod p) := do
  let b ← uGreaterEq (x + sc.offset) sc.offset
  assertBool b
  let result := b * x
  let absX := result + result - x
  rangeCheck rc absX (sc.shiftExp + 1)
  pure result

/-- `constrained_min_2`, max_min_clip.rs:255-293. -/
def min2 (sc : ShiftCtx p) (rc : RangeCtx) (x a : ZMod p) : G (ZMod p) (ZMod p) := do
  let b ← uGreaterEq (a + sc.offset) (x + sc.offset)
  assertBool b
  let diff := a - x
  let result := a - b * diff
  let absDiff := (b + b - 1) * diff
  rangeCheck rc absDiff (sc.shiftExp + 1)
  pure result

/-- The loop of `constrained_min`, max_min_clip.rs:231-244. -/
def minLoop (rc : RangeCtx) (nBits : Nat) (m : ZMod p) : List (ZMod p) → ZMod p → G (ZMod p) (ZMod p)
  | [], prod => pure prod
  | x :: xs, prod => do
    let delta := x - m
    rangeCheck rc delta nBits
    minLoop rc nBits m xs (prod * delta)

/-- `constrained_min`, max_min_clip.rs:194-248. -/
def constrainedMin (sc : ShiftCtx p) (rc : RangeCtx) (values : List (ZMod p)) :
    G (ZMod p) (ZMod p) :=
  match values with
  | [] => throwErr "constrained_min: input slice must be nonempty"
  | [x, a] => min2 sc rc x a
  | values => do
    let minOffset ← uMin (values.map (· + sc.offset))
    let minRaw := minOffset - sc.offset
    let prod ← minLoop rc (sc.shiftExp + 1) minRaw values 1
    assertZero prod
    pure minRaw

/-- `constrained_clip`, max_min_clip.rs:299-329. -/
def constrainedClip (sc : ShiftCtx p) (rc : RangeCtx) (x : ZMod p) (lower upper : Option (ZMod p)) :
    G (ZMod p) (ZMod p) := do
  let cur ← match lower with
    | some a => max2 sc rc x a
    | none => pure x
  match upper with
  | some b => min2 sc rc cur b
  | none => pure cur

/-! ## Rescaling -/

/-- `RescalingContext`, quantization.rs:81-92 (the native copies are the same numbers). -/
structure RescaleCtx (p : Nat) where
  scalingExp : Nat
  shiftExp : Nat
  scalingFactor : ZMod p
  shift : ZMod p
  scaledShift : ZMod p

/-- `RescalingContext::new`, quantization.rs:121-166: `1u32.checked_shl(kappa)` and
`1u64.checked_shl(s)` fail for `kappa ≥ 32` and `s ≥ 64`. -/
def RescaleCtx.new (kappa s : Nat) : G (ZMod p) (RescaleCtx p) :=
  if kappa ≥ 32 then throwErr "ScalingExponentTooLargeError"
  else if s ≥ 64 then throwErr "ShiftExponentTooLargeError"
  else pure ⟨kappa, s, ((2 ^ kappa : Nat) : ZMod p), ((2 ^ s : Nat) : ZMod p),
    ((2 ^ kappa * 2 ^ s : Nat) : ZMod p)⟩

/-- `rescale`, quantization.rs:219-257. -/
def rescale (ctx : RescaleCtx p) (rc : RangeCtx) (dividend : ZMod p) (applyRelu : Bool) :
    G (ZMod p) (ZMod p) := do
  let quotient ← divPow2Inner rc dividend ctx.scalingFactor ctx.scaledShift ctx.scalingExp
    ctx.shiftExp ctx.shift (!applyRelu)
  if applyRelu then do
    let sc ← ShiftCtx.new ctx.shiftExp
    constrainedRelu sc rc quotient
  else pure quotient

/-- `array.into_iter().map(f).collect::<Result<Vec<_>, _>>()`: run `f` on each element in order and
stop at the first error. quantization.rs:310-315, 401-406. -/
def mapG (f : ZMod p → G (ZMod p) (ZMod p)) : List (ZMod p) → G (ZMod p) (List (ZMod p))
  | [] => pure []
  | x :: xs => do
    let y ← f x
    let ys ← mapG f xs
    pure (y :: ys)

/-- `rescale_array`, quantization.rs:299-317 (the array is its flattened data; the shape is kept). -/
def rescaleArray (rc : RangeCtx) (xs : List (ZMod p)) (kappa s : Nat) (applyRelu : Bool) :
    G (ZMod p) (List (ZMod p)) := do
  let ctx ← RescaleCtx.new kappa s
  mapG (fun x => rescale ctx rc x applyRelu) xs

/-- `standalone_relu_array`, quantization.rs:391-408. -/
def reluArray (rc : RangeCtx) (xs : List (ZMod p)) (s : Nat) : G (ZMod p) (List (ZMod p)) := do
  let sc ← ShiftCtx.new s
  mapG (fun x => constrainedRelu sc rc x) xs

/-- `maybe_rescale`, quantization.rs:342-389. -/
def maybeRescale (rc : RangeCtx) (xs : List (ZMod p)) (isRescale : Bool) (kappa nBits : Nat)
    (isRelu : Bool) : G (ZMod p) (List (ZMod p)) :=
  if !isRescale then
    if isRelu then
      if nBits = 0 then throwErr "InvalidParameterValue n_bits" else reluArray rc xs (nBits - 1)
    else pure xs
  else if nBits = 0 then throwErr "InvalidParameterValue n_bits"
  else rescaleArray rc xs kappa (nBits - 1) isRelu

end JST
