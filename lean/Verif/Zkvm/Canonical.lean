import Verif.IO.Serde

/-!
# The canonical model encoding and the zkVM guest

`rust/jstprove_zkvm/src/canonical.rs` (host) and `rust/jstprove_zkvm/guest/src/lib.rs` (guest).
The guest reads with assertions: an error of the `De` reader below stands for its panic. Allocation
limits of the guest are not modelled.
-/

namespace JST.Zkvm

open JST

/-- `i64::to_le_bytes`. -/
def i64Enc (v : Int) : Bytes := leEnc 8 (v % 2 ^ 64).toNat

/-- `i64::from_le_bytes`. -/
def i64Dec (b : Bytes) : Int :=
  let n := leDec b
  if n < 2 ^ 63 then (n : Int) else (n : Int) - 2 ^ 64

/-- `CanonicalLayer`, `canonical.rs:15-25`, and `LayerDesc`, `guest/src/lib.rs:45-55`. -/
structure Layer where
  opType : UInt8
  needsRescale : Bool
  nInputs : Nat
  weightDims : List Nat
  weightData : List Int
  biasDims : List Nat
  biasData : List Int
  intAttrs : List Int
  extra : List Int
  deriving DecidableEq, Repr

/-- `CanonicalModel`, `canonical.rs:6-12`. -/
structure Model where
  base : Nat
  exponent : Nat
  alpha : Nat
  inputDims : List Nat
  layers : List Layer
  deriving DecidableEq, Repr

/-- A length-prefixed list of `u32`; the length is cast with `as u32`. -/
def encDims (l : List Nat) : Bytes := leEnc 4 l.length ++ l.flatMap (leEnc 4)

/-- A length-prefixed list of `i64`. -/
def encData (l : List Int) : Bytes := leEnc 4 l.length ++ l.flatMap i64Enc

/-- One layer of `CanonicalModel::encode`, `canonical.rs:40-69`. -/
def encLayer (l : Layer) : Bytes :=
  [l.opType] ++ [if l.needsRescale then 1 else 0] ++ leEnc 4 l.nInputs
    ++ encDims l.weightDims ++ encData l.weightData ++ encDims l.biasDims ++ encData l.biasData
    ++ encData l.intAttrs ++ encData l.extra

/-- `CanonicalModel::encode`, `canonical.rs:28-72`. -/
def encode (m : Model) : Bytes :=
  leEnc 8 m.base ++ leEnc 4 m.exponent ++ leEnc 8 m.alpha ++ encDims m.inputDims
    ++ leEnc 4 m.layers.length ++ m.layers.flatMap encLayer

/-- `read_u32`, `guest/src/lib.rs:237-247`. -/
def readU32 : De Nat := do return leDec (← readExact 4)

/-- `read_u64`, `guest/src/lib.rs:249-268`. -/
def readU64 : De Nat := do return leDec (← readExact 8)

/-- `read_i64`, `guest/src/lib.rs:270-289`. -/
def readI64 : De Int := do return i64Dec (← readExact 8)

/-- The one-byte reads of `decode_layers`, `guest/src/lib.rs:295-310`. -/
def readU8 : De UInt8 := do
  let b ← readExact 1
  return b.headD 0

/-- The `for _ in 0..n { dims.push(read_u32) }` loops. -/
def readDims : De (List Nat) := do
  let n ← readU32
  deN readU32 n

/-- The `for _ in 0..n { data.push(read_i64) }` loops. -/
def readData : De (List Int) := do
  let n ← readU32
  deN readI64 n

/-- The loop body of `decode_layers`, `guest/src/lib.rs:294-354`. -/
def readLayer : De Layer := do
  let op ← readU8
  let r ← readU8
  let n ← readU32
  let wd ← readDims
  let w ← readData
  let bd ← readDims
  let b ← readData
  let a ← readData
  let e ← readData
  return ⟨op, r != 0, n, wd, w, bd, b, a, e⟩

/-- `decode_layers`, `guest/src/lib.rs:291-356`. -/
def readLayers : De (List Layer) := do
  let n ← readU32
  deN readLayer n

/-- The reads of `verify_compilation`, `guest/src/lib.rs:365-376`. -/
def decode : De Model := do
  let base ← readU64
  let exponent ← readU32
  let alpha ← readU64
  let dims ← readDims
  let layers ← readLayers
  return ⟨base, exponent, alpha, dims, layers⟩

/-! ## Bit widths -/

/-- `guest/src/lib.rs:61-76` on mathematical integers; `none` is the overflow panic of the `u64` sum.
`weights[start..end]` never panics: `end ≤ out_channels * (len / out_channels) ≤ len`. -/
def maxChannelL1 (weights : List Int) (outChannels : Nat) : Option Nat :=
  if outChannels = 0 ∨ weights = [] then some 0
  else
    let perChannel := weights.length / outChannels
    (List.range outChannels).foldlM (fun acc oc =>
      let l1 := (((weights.drop (oc * perChannel)).take perChannel).map Int.natAbs).sum
      if l1 < 2 ^ 64 then some (max acc l1) else none) 0

/-- `bias_max_abs`, `guest/src/lib.rs:78-80`. -/
def biasMaxAbs (bias : List Int) : Nat := (bias.map Int.natAbs).foldl max 0

/-- `integer_log2_ceil`, `guest/src/lib.rs:82-87`: `64 - leading_zeros(v - 1)` is the bit length of
`v - 1`. -/
def integerLog2Ceil (v : Nat) : Nat := if v ≤ 1 then 0 else (v - 1).log2 + 1

/-- `compute_n_bits_int`, `guest/src/lib.rs:89-98`. -/
def computeNBits (bound : Nat) : Nat :=
  if bound = 0 then 2 else if bound ≤ 1 then 2 else integerLog2Ceil bound + 1

/-- `u64::saturating_mul` / `saturating_add`. -/
def sat (n : Nat) : Nat := min n (2 ^ 64 - 1)

inductive GErr where
  | panic
  deriving DecidableEq, Repr

/-- The loop of `compute_bounds_and_nbits`, `guest/src/lib.rs:100-171`, carrying `prev_bound_scaled`.
Division by `alpha = 0` panics. -/
def nbitsLoop (alpha : Nat) : Nat → List Layer → Except GErr (List Nat)
  | _, [] => .ok []
  | prev, l :: ls =>
    let op := l.opType.toNat
    if op = 5 ∨ op = 4 then
      if alpha = 0 then .error .panic
      else
        let outCh := if l.weightDims.length ≥ 2 then l.weightDims.headD 0 else 1
        match maxChannelL1 l.weightData outCh with
        | none => .error .panic
        | some l1 =>
          let bound := sat (sat (l1 * (prev / alpha)) + biasMaxAbs l.biasData / alpha)
          match nbitsLoop alpha alpha ls with
          | .error e => .error e
          | .ok r => .ok (computeNBits bound :: r)
    else if op = 8 then
      if alpha = 0 then .error .panic
      else
        let mulMax := if l.weightData = [] then alpha else biasMaxAbs l.weightData
        let bound := sat (sat (mulMax / alpha * prev) + biasMaxAbs l.biasData / alpha)
        match nbitsLoop alpha alpha ls with
        | .error e => .error e
        | .ok r => .ok (computeNBits bound :: r)
    else if op = 3 then
      match nbitsLoop alpha alpha ls with
      | .error e => .error e
      | .ok r => .ok (0 :: r)
    else if op = 6 ∨ op = 7 ∨ op = 9 ∨ op = 10 ∨ op = 12 ∨ op = 13 ∨ op = 19 ∨ op = 20 ∨ op = 21
        ∨ op = 25 ∨ op = 26 ∨ op = 30 then
      match nbitsLoop alpha prev ls with
      | .error e => .error e
      | .ok r => .ok (computeNBits prev :: r)
    else
      match nbitsLoop alpha prev ls with
      | .error e => .error e
      | .ok r => .ok (0 :: r)

/-- `compute_bounds_and_nbits`, `guest/src/lib.rs:100-171`. -/
def computeNbits (layers : List Layer) (alpha : Nat) : Except GErr (List Nat) :=
  nbitsLoop alpha alpha layers

/-- `MAGIC`, `guest/src/lib.rs:42`: `JSTCAN01`. -/
def canMagic : Bytes := [0x4A, 0x53, 0x54, 0x43, 0x41, 0x4E, 0x30, 0x31]

/-- `canonical_output`, `guest/src/lib.rs:185-235`. -/
def canonicalOutput (m : Model) (nbits : List Nat) : Bytes :=
  canMagic ++ leEnc 8 m.base ++ leEnc 4 m.exponent ++ leEnc 8 m.alpha ++ encDims m.inputDims
    ++ leEnc 4 m.layers.length
    ++ (m.layers.zip nbits).flatMap (fun e => encLayer e.1 ++ leEnc 4 e.2)

/-- `verify_compilation`, `guest/src/lib.rs:364-380`, for a hash function `H` (SHA-256). -/
def verifyCompilation {D : Type} (H : Bytes → D) (modelBytes : Bytes) : Except GErr D :=
  match decode modelBytes with
  | .error _ => .error .panic
  | .ok (m, _) =>
    match computeNbits m.layers m.alpha with
    | .error e => .error e
    | .ok nbits => .ok (H (canonicalOutput m nbits))

/-! ## From a quantised model -/

/-- `TensorDataCompat`, `canonical.rs:318-324`, with `float_data` already converted by `f as i64`. -/
structure TensorData where
  dims : List Int
  intData : List Int
  floatAsInt : List Int
  deriving DecidableEq

/-- `AttrValueCompat`, `canonical.rs:366-373`; floating-point contents are opaque words. -/
inductive Attr where
  | float (bits : Nat)
  | int (v : Int)
  | string (s : String)
  | floats (bits : List Nat)
  | ints (v : List Int)
  | tensor (t : TensorData)
  deriving DecidableEq

/-- `LayerNodeCompat`, `canonical.rs:304-315`; `attributes` are listed in key order, which is the order
both users of the map iterate in. `opType` is the code of the operator (`canonical.rs:239-277`). -/
structure QLayer where
  name : String
  opType : UInt8
  inputs : List String
  outputs : List String
  weights : List (String × TensorData)
  attributes : List (String × Attr)
  needsRescale : Bool
  deriving DecidableEq

/-- `QuantizedModelCompat`, `canonical.rs:280-301`, with the shape of the first input looked up. -/
structure QModel where
  base : Nat
  exponent : Nat
  inputNames : List String
  inputShapes : List (String × List Nat)
  layers : List QLayer
  topo : List Nat
  deriving DecidableEq

def lookupW (ws : List (String × TensorData)) (n : String) : Option TensorData :=
  (ws.find? (fun e => e.1 == n)).map (·.2)

/-- `if !td.int_data.is_empty() { td.int_data } else { floats }`. -/
def tensorInts (t : TensorData) : List Int := if t.intData = [] then t.floatAsInt else t.intData

/-- `d as u32` of an `i64`. -/
def asU32 (d : Int) : Nat := (d % 2 ^ 32).toNat

/-- `extract_weights`, `canonical.rs:161-191`, for input position `pos`. -/
def extractAt (l : QLayer) (pos : Nat) : List Nat × List Int :=
  match l.inputs[pos]?.bind (lookupW l.weights) with
  | some t => (t.dims.map asU32, tensorInts t)
  | none => ([], [])

/-- `extract_extra_constants`, `canonical.rs:193-223`. -/
def extractExtra (l : QLayer) : List Int :=
  ((l.inputs.zipIdx.filter (fun e => e.2 ≠ 1 ∧ e.2 ≠ 2)).flatMap (fun e =>
      match lookupW l.weights e.1 with
      | some t => tensorInts t
      | none => []))
    ++ l.attributes.flatMap (fun a => match a.2 with | .tensor t => tensorInts t | _ => [])

/-- `extract_int_attrs`, `canonical.rs:225-237`. -/
def extractIntAttrs (l : QLayer) : List Int :=
  l.attributes.flatMap (fun a => match a.2 with | .int v => [v] | .ints v => v | _ => [])

/-- The body of the layer loop, `canonical.rs:97-113`. -/
def convLayer (l : QLayer) : Layer :=
  let w := extractAt l 1
  let b := extractAt l 2
  ⟨l.opType, l.needsRescale, l.inputs.length % 2 ^ 32, w.1, w.2, b.1, b.2, extractIntAttrs l,
    extractExtra l⟩

inductive QErr where
  | alphaOverflow | topoLength | topoRange | topoDuplicate
  deriving DecidableEq, Repr

/-- The check of `topo_order`, `canonical.rs:122-132`; `seen` collects the indices met. -/
def checkTopo (n : Nat) : List Nat → List Nat → Except QErr Unit
  | _, [] => .ok ()
  | seen, i :: is =>
    if ¬ i < n then .error .topoRange
    else if i ∈ seen then .error .topoDuplicate
    else checkTopo n (i :: seen) is

/-- `CanonicalModel::from_quantized_model_bytes`, `canonical.rs:74-145`, after deserialisation. -/
def fromQuantized (q : QModel) : Except QErr Model :=
  if 2 ^ 64 ≤ q.base ^ q.exponent then .error .alphaOverflow
  else if q.topo.length ≠ q.layers.length then .error .topoLength
  else
    match checkTopo q.layers.length [] q.topo with
    | .error e => .error e
    | .ok () =>
      .ok { base := q.base, exponent := q.exponent, alpha := q.base ^ q.exponent
            inputDims :=
              match q.inputNames.head?.bind
                  (fun n => (q.inputShapes.find? (fun e => e.1 == n)).map (·.2)) with
              | some s => s.map (· % 2 ^ 32)
              | none => []
            layers := q.topo.filterMap (fun i => (q.layers.map convLayer)[i]?) }

end JST.Zkvm
