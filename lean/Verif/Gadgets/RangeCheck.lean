import Verif.Gadgets.Monad
import Mathlib.Tactic.NormNum

/-!
# Range-check gadgets

Model of /repo/compiler/circuit-std-rs/src/logup.rs:333-465 (`LogUpRangeProofTable`), 519-550
(`rangeproof_hint`) and
/repo/rust/jstprove_circuits/src/circuit_functions/gadgets/range_check.rs.
-/

namespace JST

variable {p : Nat}

/-- A shared LogUp range table: its id and the number of bits per digit.
range_check.rs:184-187 `LogupRangeCheckContext { chunk_bits, table }`. -/
structure RangeCtx where
  tid : Nat
  chunk : Nat
deriving Repr, DecidableEq

/-- Table `rc.tid` holds exactly the keys `0 .. 2^chunk - 1`. logup.rs:348-353 `initial`. -/
def IsRangeTable (T : Tables (ZMod p)) (rc : RangeCtx) : Prop :=
  ∀ q : ZMod p, T rc.tid [q] ↔ ∃ k : Nat, k < 2 ^ rc.chunk ∧ q = (k : ZMod p)

/-- The base-`2^m` digits of `a`, least significant first. Loop of logup.rs:543-547; each digit is
stored as `F::from(r.as_u32())`, i.e. truncated to 32 bits. -/
def chunkDigits (m : Nat) : Nat → Nat → List Nat
  | 0, _ => []
  | k + 1, a => (a % 2 ^ m) % 2 ^ 32 :: chunkDigits m k (a / 2 ^ m)

/-- `rangeproof_hint`, logup.rs:519-550. `nOut` is `outputs.len()`; unset outputs stay zero. -/
def rangeproofHint (nOut : Nat) (inputs : List (ZMod p)) : Except Err (List (ZMod p)) :=
  match inputs with
  | n :: m :: a :: _ =>
    if m.val = 0 then .error (.hint "rangeproof_hint chunk size must be positive")
    else
      let numChunks := n.val / m.val
      if numChunks > nOut then .error (.hint "rangeproof_hint chunk count exceeds output length")
      else .ok ((chunkDigits m.val numChunks a.val).map (fun d => ((d : Nat) : ZMod p)) ++
        List.replicate (nOut - numChunks) 0)
  | _ => .error (.hint "rangeproof_hint requires at least 3 inputs")

/-- The recomposition loop `sum = w_0; sum += w_i * 2^(bits*i)` of logup.rs:395-403, starting at
digit `i`. -/
def recompose (chunk : Nat) : Nat → List (ZMod p) → ZMod p → ZMod p
  | _, [], sum => sum
  | i, w :: ws, sum => recompose chunk (i + 1) ws (sum + w * (2 : ZMod p) ^ (chunk * i))

/-- Query every digit in the range table. logup.rs:405-407. -/
def queryAll (tid : Nat) : List (ZMod p) → G (ZMod p) Unit
  | [] => pure ()
  | w :: ws => do lookup tid [w]; queryAll tid ws

/-- `a + (2^shift - 1) * 2^n`, the "shift value" of logup.rs:374-388 and 424-435. The two panics are
Rust's shift overflows: `(1 << shift) - 1` is a 32-bit integer and `mul_factor: u128` is shifted by
`n` (in a release build these wrap instead of panicking). -/
def addShift (chunk : Nat) (a : ZMod p) (n : Nat) : G (ZMod p) (ZMod p) :=
  let shift := chunk - n % chunk
  if shift ≥ 32 then panicWith "attempt to shift left with overflow"
  else if n ≥ 128 then panicWith "attempt to shift left with overflow"
  else pure (a + (((2 ^ shift - 1 : Nat) : ZMod p)) * (2 : ZMod p) ^ n)

/-- The conditional `if n % bits != 0 { .. shift .. }` of logup.rs:372-389 and 423-436. -/
def padStep (chunk : Nat) (a : ZMod p) (n : Nat) : G (ZMod p) (ZMod p) :=
  if n % chunk ≠ 0 then addShift chunk a n else pure a

/-- `rangeproof_onechunk`, logup.rs:413-438. -/
def rangeproofOneChunk (rc : RangeCtx) (a : ZMod p) (n : Nat) : G (ZMod p) Unit :=
  if n > rc.chunk then panicWith "n must be less than self.rangeproof_bits"
  else do
    let newA ← padStep rc.chunk a n
    lookup rc.tid [newA]

/-- The bit width after padding: `n += shift` when `n % bits != 0`. logup.rs:372-389. -/
def paddedBits (chunk n : Nat) : Nat := if n % chunk ≠ 0 then n + (chunk - n % chunk) else n

/-- `rangeproof`, logup.rs:363-411. -/
def rangeproof (rc : RangeCtx) (a : ZMod p) (n : Nat) : G (ZMod p) Unit :=
  if n > 128 then panicWith "n must be less than 128"
  else if n ≤ rc.chunk then rangeproofOneChunk rc a n
  else do
    let newA ← padStep rc.chunk a n
    let n' := paddedBits rc.chunk n
    let ws ← newHint (rangeproofHint (n' / rc.chunk))
      [(n' : ZMod p), (rc.chunk : ZMod p), newA] (n' / rc.chunk)
    match ws with
    | [] => panicWith "index out of bounds"
    | w :: ws' => do
      assertEq (recompose rc.chunk 1 ws' w) newA
      queryAll rc.tid (w :: ws')

/-- `LogupRangeCheckContext::range_check`, range_check.rs:240-263, on a context built by
`LogupRangeCheckContext::new` (which asserts `0 < chunk_bits <= 128`, range_check.rs:198-208). -/
def rangeCheck (rc : RangeCtx) (a : ZMod p) (n : Nat) : G (ZMod p) Unit :=
  if n = 0 then throwErr "logup_range_check_pow2_unsigned: n_bits must be > 0"
  else if n > 128 then throwErr "logup_range_check_pow2_unsigned: n_bits > 128 not supported yet"
  else rangeproof rc a n

/-! ## Bit decomposition -/

/-- `api.unconstrained_bit_and(x, 1)` as an honest hint
(/repo/compiler/expander_compiler/src/hints/builtin.rs:319-354, circuit/ir/source/mod.rs
`UnconstrainedBinOpType::BitAnd`). -/
def bitAnd1Hint (inputs : List (ZMod p)) : Except Err (List (ZMod p)) :=
  match inputs with
  | [x] => .ok [((x.val % 2 : Nat) : ZMod p)]
  | _ => .error (.hint "arity")

/-- `api.unconstrained_shift_r(x, 1)` as an honest hint (same files). -/
def shiftR1Hint (inputs : List (ZMod p)) : Except Err (List (ZMod p)) :=
  match inputs with
  | [x] => .ok [((x.val / 2 : Nat) : ZMod p)]
  | _ => .error (.hint "arity")

/-- The loop of `unconstrained_to_bits`,
/repo/rust/jstprove_circuits/src/circuit_functions/hints/bits.rs:104-113. -/
def toBitsLoop : Nat → ZMod p → G (ZMod p) (List (ZMod p))
  | 0, _ => pure []
  | k + 1, cur => do
    let b ← newHint bitAnd1Hint [cur] 1
    let c ← newHint shiftR1Hint [cur] 1
    let bs ← toBitsLoop k (c.headD 0)
    pure (b.headD 0 :: bs)

/-- `unconstrained_to_bits`, hints/bits.rs:71-116. -/
def unconstrainedToBits (x : ZMod p) (n : Nat) : G (ZMod p) (List (ZMod p)) :=
  if n = 0 then throwErr "Cannot convert to 0 bits"
  else if n ≥ 256 then throwErr "unconstrained_to_bits: n_bits too large (max 255)"
  else if 2 ^ n ≥ p / 2 then
    throwErr "unconstrained_to_bits: n_bits too large (require 2^n_bits < MODULUS/2)"
  else toBitsLoop n x

/-- The loop of `constrained_reconstruct_from_bits`, range_check.rs:72-83. -/
def reconstructLoop : Nat → List (ZMod p) → ZMod p → G (ZMod p) (ZMod p)
  | _, [], acc => pure acc
  | i, b :: bs, acc => do
    assertBool b
    reconstructLoop (i + 1) bs (acc + (2 : ZMod p) ^ i * b)

/-- `constrained_reconstruct_from_bits`, range_check.rs:61-86. -/
def constrainedReconstructFromBits (bits : List (ZMod p)) : G (ZMod p) (ZMod p) :=
  if bits.length > 256 then throwErr "ValueTooLarge" else reconstructLoop 0 bits 0

/-- `range_check_pow2_unsigned`, range_check.rs:125-140. -/
def rangeCheckPow2Unsigned (x : ZMod p) (n : Nat) : G (ZMod p) (List (ZMod p)) := do
  let bits ← unconstrainedToBits x n
  let recon ← constrainedReconstructFromBits bits
  assertEq x recon
  pure bits

end JST
