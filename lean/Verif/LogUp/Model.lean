import Verif.Gadgets.RangeCheck

/-!
# The LogUp lookup argument

Model of /repo/compiler/circuit-std-rs/src/logup.rs and
/repo/rust/jstprove_circuits/src/circuit_functions/gadgets/function_lookup.rs.

The challenges (`builder.get_random_value()`) are explicit arguments. In the compiled circuit they are
drawn after the input layer, which contains all hint values, has been committed; the soundness
theorems therefore fix the hints first and then count challenges.
-/

namespace JST

variable {F : Type} [CommRing F]

/-- `Rational`, logup.rs:33-37. -/
structure Rat2 (F : Type) where
  num : F
  den : F
deriving Repr, DecidableEq

/-- `add_rational`, logup.rs:39-51. -/
def addRational (a b : Rat2 F) : Rat2 F := ⟨a.num * b.den + a.den * b.num, a.den * b.den⟩

/-- `assert_eq_rational`, logup.rs:53-57. -/
def assertEqRational (a b : Rat2 F) : G F Unit := assertEq (a.num * b.den) (a.den * b.num)

/-- The `for` loop of one level of the summation tree, logup.rs:82-84:
`vvs[i] = vvs[i] + vvs[i + half]` for `i` from 0 to `half - 1`, in place. -/
def sumLevel (vs : List (Rat2 F)) (half : Nat) : List (Rat2 F) :=
  (List.range half).foldl
    (fun vs i => vs.set i (addRational (vs.getD i ⟨0, 1⟩) (vs.getD (i + half) ⟨0, 1⟩))) vs

/-- The `while` loop, logup.rs:80-91. -/
def sumLoop (vs : List (Rat2 F)) (n : Nat) : List (Rat2 F) :=
  if h : n > 1 then
    let half := n / 2
    let vs1 := sumLevel vs half
    let vs2 := if n % 2 ≠ 0 then vs1.set half (vs1.getD (n - 1) ⟨0, 1⟩) else vs1
    sumLoop vs2 ((n + 1) / 2)
  else vs
termination_by n
decreasing_by omega

/-- `sum_rational_vec`, logup.rs:59-93. -/
def sumRationalVec (vs : List (Rat2 F)) : Rat2 F :=
  if vs.isEmpty then ⟨0, 1⟩ else (sumLoop vs vs.length).getD 0 ⟨0, 1⟩

/-- `logup_poly_val`, logup.rs:138-153 (`zip` stops at the shorter list). -/
def logupPolyVal (vals counts : List F) (x : F) : Rat2 F :=
  sumRationalVec ((vals.zip counts).map fun vc => ⟨vc.2, x - vc.1⟩)

/-- `get_column_randomness`, logup.rs:102-112: `1` followed by the drawn challenges. -/
def columnRandomness (chal : List F) : List F := 1 :: chal

/-- One row of `combine_columns`, logup.rs:126-134. -/
def combineRow (randomness row : List F) : F :=
  (row.zip randomness).foldl (fun acc vr => acc + vr.1 * vr.2) 0

/-- `combine_columns`, logup.rs:114-136; the length assertion looks at the first row only. -/
def combineColumns (rows : List (List F)) (randomness : List F) : G F (List F) :=
  match rows with
  | [] => pure []
  | row :: _ =>
    if randomness.length = row.length then pure (rows.map (combineRow randomness))
    else panicWith "assertion failed: randomness.len() == column_size"

/-- `query_count_hint`, logup.rs:467-483. `toNat` is `to_u256`; `as_usize` keeps 64 bits; the count
is stored through `as u32`. -/
def queryCountHint (toNat : F → Nat) (nOut : Nat) (inputs : List F) : Except Err (List F) :=
  if inputs.all (fun q => toNat q % 2 ^ 64 < nOut) then
    .ok ((List.range nOut).map fun i : Nat =>
      (((inputs.countP fun q => toNat q % 2 ^ 64 == i) % 2 ^ 32 : Nat) : F))
  else .error (.hint "query_id out of bounds")

/-- `query_count_by_key_hint`, logup.rs:485-518. Keys are truncated to 32 bits (`as_u32`) both for
queries and for table rows. `nOut` is the number of outputs, which the caller sets to the number of
table rows, so "table entry index exceeds output length" cannot occur when `table_size ≤ nOut`. -/
def queryCountByKeyHint (toNat : F → Nat) (nOut : Nat) (inputs : List F) : Except Err (List F) :=
  match inputs with
  | [] => .error (.panic "index out of bounds")
  | n :: rest =>
    let tableSize := toNat n % 2 ^ 64
    if tableSize ≥ inputs.length then .error (.hint "table_size exceeds inputs length")
    else if tableSize > nOut then .error (.hint "table entry index exceeds output length")
    else
      let table := rest.take tableSize
      let queries := rest.drop tableSize
      .ok ((table.map fun t =>
        (((queries.countP fun q => toNat q % 2 ^ 32 == toNat t % 2 ^ 32) % 2 ^ 32 : Nat) : F)) ++
        List.replicate (nOut - tableSize) 0)

/-- `LogUpRangeProofTable::final_check`, logup.rs:444-464. -/
def rangeFinalCheck (toNat : F → Nat) (table queries : List F) (alpha : F) : G F Unit :=
  if queries.isEmpty then pure ()
  else do
    let counts ← newHint (queryCountHint toNat table.length) queries table.length
    let vTable := logupPolyVal table counts alpha
    let vQuery := logupPolyVal queries (List.replicate queries.length 1) alpha
    assertEqRational vTable vQuery

/-- The keys added by `LogUpRangeProofTable::initial`, logup.rs:348-353. -/
def rangeTableKeys (chunk : Nat) : List F := (List.range (2 ^ chunk)).map fun i : Nat => ((i : Nat) : F)

/-- `LogUpSingleKeyTable::final_check`, logup.rs:297-330. `chal` holds the column challenges; rows
and query rows start with their key. -/
def singleKeyFinalCheck (toNat : F → Nat) (table queries : List (List F)) (alpha : F)
    (chal : List F) : G F Unit :=
  if table.isEmpty || queries.isEmpty then panicWith "empty table or empty query"
  else do
    let randomness := columnRandomness chal
    let tableCombined ← combineColumns table randomness
    let inputs := ((table.length : Nat) : F) :: (table.map fun r => r.headD 0) ++
      queries.map fun r => r.headD 0
    let counts ← newHint (queryCountByKeyHint toNat table.length) inputs table.length
    let vTable := logupPolyVal tableCombined counts alpha
    let queryCombined ← combineColumns queries randomness
    let vQuery := logupPolyVal queryCombined (List.replicate queryCombined.length 1) alpha
    assertEqRational vTable vQuery

/-! ## Function lookup tables -/

/-- `i64_to_field`, function_lookup.rs:19-26: a negative `x` becomes `MODULUS - |x|`. -/
def i64ToField (p : Nat) (x : Int) : ZMod p :=
  if 0 ≤ x then ((x.toNat : Nat) : ZMod p) else ((p - x.natAbs : Nat) : ZMod p)

/-- The rows of `FunctionLookupTable::build_signed`, function_lookup.rs:34-58
(`n_bits ≥ 1`; the Rust shift `1 << (n_bits - 1)` underflows for 0). -/
def signedRows (p : Nat) (f : Int → Int) (nBits : Nat) : List (List (ZMod p)) :=
  (List.range (2 ^ nBits)).map fun i : Nat =>
    let x : Int := (i : Int) - 2 ^ (nBits - 1)
    [i64ToField p x, i64ToField p (f x)]

/-- The rows of `build_unsigned`, function_lookup.rs:60-80. -/
def unsignedRows (p : Nat) (f : Int → Int) (nBits : Nat) : List (List (ZMod p)) :=
  (List.range (2 ^ nBits)).map fun i : Nat => [((i : Nat) : ZMod p), i64ToField p (f i)]

/-- `function_lookup_bits`, function_lookup.rs:12-15. -/
def functionLookupBits (scaleExponent : Nat) : Nat := min (scaleExponent + 6) 24

end JST
