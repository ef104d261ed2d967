import Verif.Runner.Witness

/-!
# Verification with output extraction

Model of /repo/rust/jstprove_circuits/src/runner/verify_extract.rs. Floating point (`descale_outputs`,
the rounding of `scale_to_field`) and the proof verifier are parameters; decompression is not modelled
(the functions start from the decompressed bytes).
-/

namespace JST.Extract

open JST JST.Witness

/-- How the entry points fail. -/
inductive Err
  /-- `RunError::Deserialize` -/
  | deserialize
  /-- `RunError::Verify` -/
  | verify
  /-- a panic -/
  | panic
  deriving DecidableEq, Repr

/-- `element_size_from_modulus`, verify_extract.rs:61-63 (`bits() <= 64` is `< 2 ^ 64`). -/
def elemSize (modulus : Nat) : Nat := if modulus < 2 ^ 64 then 8 else 32

/-- `from_field_repr`, verify_extract.rs:74-82; subtracting a larger `BigUint` panics. -/
def fromFieldRepr (value modulus : Nat) : Except Err Int :=
  let half := modulus / 2
  if value > half then
    if value ≤ modulus then .ok (-((modulus - value : Nat) : Int)) else .error .panic
  else .ok value

/-- `convert_val_to_field_element`, circuit_functions/utils/tensor_ops.rs:173-181, and `i64_to_field`,
gadgets/function_lookup.rs: the canonical representative of the encoding of a signed integer.
`from_u256` reduces modulo `p`; `neg` is negation in the field. -/
def encodeSigned (p : Nat) (v : Int) : Nat :=
  if v < 0 then (p - v.natAbs % p) % p else v.natAbs % p

/-- The integer part of `scale_to_field`, verify_extract.rs:146-160, after rounding to `i128`. -/
def reduceScaled (p : Nat) (scaled : Int) : Nat :=
  if scaled < 0 then
    let reduced := scaled.natAbs % p
    if reduced = 0 then 0 else p - reduced
  else scaled.natAbs % p

/-- The loop of `compare_field_values`, verify_extract.rs:176-185. -/
def compareLoop (modulus tol : Nat) : List Nat → List Nat → Bool
  | e :: es, a :: as =>
    let diff := if e ≥ a then (e - a) % modulus else modulus - (a - e) % modulus
    if diff > tol ∧ diff < modulus - tol then false else compareLoop modulus tol es as
  | _, _ => true

/-- `compare_field_values`, verify_extract.rs:165-187; `modulus - tol` panics below zero. -/
def compareFieldValues (expected actual : List Nat) (modulus tol : Nat) : Except Err Bool :=
  if expected.length ≠ actual.length then .ok false
  else if modulus < tol then .error .panic
  else .ok (compareLoop modulus tol expected actual)

/-- The check that enough bytes remain, verify_extract.rs:213-220. -/
def checkRemaining (n : Nat) : De Unit := fun s =>
  if s.length < n then .error .invalid else .ok ((), s)

/-- The reading part of `parse_public_inputs_from_witness_bytes`, verify_extract.rs:192-226. -/
def parseDe : De (Nat × Nat × List Nat) := do
  let _num ← readExact 8
  let a ← readExact 8
  let b ← readExact 8
  let mb ← readExact 32
  let modulus := leDec mb
  if modulus = 0 then De.fail .invalid
  else if 2 ^ 64 ≤ leDec a + leDec b then De.fail .invalid
  else if 2 ^ 64 ≤ (leDec a + leDec b) * elemSize modulus then De.fail .invalid
  else do
    checkRemaining ((leDec a + leDec b) * elemSize modulus)
    let values ← deN (do let u ← readExact (elemSize modulus); pure (leDec u)) (leDec a + leDec b)
    pure (modulus, leDec a, values)

/-- `parse_public_inputs_from_witness_bytes`, verify_extract.rs:189-230. -/
def parsePublic (data : Bytes) : Except Err (Nat × List Nat) :=
  match parseDe data with
  | .ok ((modulus, a, values), _) => .ok (modulus, values.drop a)
  | .error _ => .error .deserialize

/-- The parameters that stand for floating point. -/
structure Floats (R : Type) where
  /-- one value of `descale_outputs`, verify_extract.rs:85-109 -/
  descale : Int → Nat → Nat → Except Err R
  /-- the scaling and rounding of `scale_to_field`, verify_extract.rs:122-145 -/
  scale : R → Nat → Nat → Except Err Int

/-- `ExtractionContext`, verify_extract.rs:232-236. -/
structure Ctx (R : Type) where
  inputs : List R
  outputs : List R
  base : Nat
  exp : Nat
  modulus : Nat
  raw : List Nat

/-- `biguint_to_u64`, verify_extract.rs:69-72. -/
def toU64 (v : Nat) : Except Err Nat := if v < 2 ^ 64 then .ok v else .error .deserialize

/-- `extract_outputs_common`, verify_extract.rs:238-284. -/
def extractCommon {R : Type} (fl : Floats R) (data : Bytes) (numInputs : Nat) :
    Except Err (Ctx R) := do
  let (modulus, pub) ← parsePublic data
  if 2 ^ 64 ≤ numInputs + 2 then .error .deserialize
  else if pub.length < numInputs + 2 then .error .deserialize
  else do
    let base ← toU64 (pub.getD (pub.length - 2) 0)
    let exp ← toU64 (pub.getD (pub.length - 1) 0)
    let ins ← (pub.take numInputs).mapM (fromFieldRepr · modulus)
    let outs ← ((pub.take (pub.length - 2)).drop numInputs).mapM (fromFieldRepr · modulus)
    let ri ← ins.mapM (fl.descale · base exp)
    let ro ← outs.mapM (fl.descale · base exp)
    .ok ⟨ri, ro, base, exp, modulus, pub⟩

/-- `VerifiedOutput`, verify_extract.rs:24-31. -/
structure Verified (R : Type) where
  valid : Bool
  inputs : List R
  outputs : List R
  base : Nat
  exp : Nat

/-- `verify_and_extract_with_layered`, verify_extract.rs:328-396 (and `..._with_flat`, 400-463, which
differs only in where the circuit comes from). `verify` is `load_proof_and_claimed_v` followed by
`executor::verify` for the given circuit and proof bytes, applied to the packed inputs and public
inputs. -/
def verifyAndExtract {R : Type} (fl : Floats R) (p wd P : Nat)
    (verify : List (Fin P → Nat) → List (Fin P → Nat) → Except Err Bool)
    (data : Bytes) (numInputs : Nat) (expected : Option (List R)) : Except Err (Verified R) :=
  match deWit p wd P data with
  | .error .panic => .error .panic
  | .error _ => .error .deserialize
  | .ok (w, _) =>
    match toSimd w with
    | none => .error .panic
    | some (ins, pubs) => do
      let valid ← verify ins pubs
      if ¬ valid then .ok ⟨false, [], [], 0, 0⟩
      else do
        let ctx ← extractCommon fl data numInputs
        match expected with
        | none => .ok ⟨valid, ctx.inputs, ctx.outputs, ctx.base, ctx.exp⟩
        | some ex =>
          if ex.length ≠ numInputs then .error .verify
          else do
            let exf ← ex.mapM fun v => do
              let s ← fl.scale v ctx.base ctx.exp
              .ok (reduceScaled ctx.modulus s)
            let ok ← compareFieldValues exf (ctx.raw.take numInputs) ctx.modulus 1
            if ¬ ok then .error .verify
            else .ok ⟨valid, ctx.inputs, ctx.outputs, ctx.base, ctx.exp⟩

end JST.Extract
