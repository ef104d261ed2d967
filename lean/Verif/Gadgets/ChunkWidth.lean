import Mathlib.Data.List.Basic
import Verif.Gadgets.RangeCheck

/-!
# Choice of the LogUp digit width

gadgets/autotuner.rs, gadgets/chunk_table.rs, onnx.rs:850-899 and onnx.rs:93-96.

Simplifications. A cache file is represented by the number its text parses to (absent, unreadable and
unparsable files are all `none`). Whether a write reaches the disk is a parameter. The hash of a cache key
is an arbitrary function of the data hashed, and that data is kept structured instead of serialised.
Counts of elements are natural numbers. `compile_total_cost` is an arbitrary function of the width.
-/

namespace JST.ChunkWidth

/-- The widths tried. autotuner.rs:25. -/
def candidates : List Nat := [10, 11, 12, 13, 14]

/-- `DEFAULT_LOGUP_CHUNK_BITS`. range_check.rs:158. -/
def defaultBits : Nat := 12

/-- One row of the generated table. chunk_table.rs:1-6. -/
structure Entry where
  kappa : Nat
  nBits : Nat
  maxElements : Nat
  chunkBits : Nat

/-- chunk_table.rs:21-46. -/
def table : List Entry :=
  [⟨18, 64, 10000, 12⟩, ⟨18, 64, 50000, 12⟩, ⟨18, 64, 2 ^ 32 - 1, 12⟩, ⟨18, 31, 2 ^ 32 - 1, 12⟩]

/-- chunk_table.rs:49-59 `lookup`. -/
def tableLookup (kappa nBits elems : Nat) : Nat :=
  match table.find? fun e => e.kappa == kappa && e.nBits == nBits && decide (elems ≤ e.maxElements) with
  | some e => e.chunkBits
  | none => defaultBits

/-- `usize::MAX` on a 64-bit machine. -/
def usizeMax : Nat := 2 ^ 64 - 1

/-- One turn of the loop of autotuner.rs:164-171; the state is `(best_bits, best_cost)`. -/
def sweepStep (cost : Nat → Option Nat) (st : Nat × Nat) (c : Nat) : Nat × Nat :=
  match cost c with
  | some k => if k < st.2 then (c, k) else st
  | none => st

/-- autotuner.rs:158-173 `sweep_and_select`. -/
def sweep (cands : List Nat) (cost : Nat → Option Nat) : Nat :=
  (cands.foldl (sweepStep cost) (defaultBits, usizeMax)).1

/-- The cache directory: file name to parsed contents. -/
abbrev Cache (K : Type) := K → Option Nat

/-- autotuner.rs:139-145 `read_cache`. -/
def readCache {K : Type} (cache : Cache K) (key : K) : Option Nat :=
  match cache key with
  | some b => if b ∈ candidates then some b else none
  | none => none

/-- autotuner.rs:147-156 `write_cache`; `ok` says whether the file system accepts the write. -/
def writeCache {K : Type} [DecidableEq K] (ok : Bool) (cache : Cache K) (key : K) (b : Nat) : Cache K :=
  if ok && decide (b ∈ candidates) then fun k => if k = key then some b else cache k else cache

/-- The part of a layer that the cache keys read. onnx_model.rs `ONNXLayer`. -/
structure LayerInfo where
  name : String
  op : String
  outputs : List String
  shape : String → Option (List Nat)

/-- The part of `CircuitParams` that the cache keys read. -/
structure KeyParams where
  scaleExp : Nat
  scaleBase : Nat
  rescale : String → Option Bool
  nBits : String → Option Nat
  weightsAsInputs : Bool

/-- The data hashed by `circuit_cache_key`, after the version. autotuner.rs:70-95. -/
structure CircuitKey where
  params : KeyParams
  layers : List (String × String × List (String × Option (List Nat)))

/-- autotuner.rs:70-95 `circuit_cache_key`. -/
def circuitKey (P : KeyParams) (arch : List LayerInfo) : CircuitKey :=
  ⟨P, arch.map fun l => (l.name, l.op, l.outputs.map fun o => (o, l.shape o))⟩

/-- The data hashed by `operator_cache_key`, after the version. The sorted map is the function that gives
the count of an operator, `none` where it has no entry. autotuner.rs:124-136. -/
structure OperatorKey where
  scaleExp : Nat
  nBits : Nat
  profile : String → Option Nat

/-- Whether a layer is rescaled. autotuner.rs:108-115. -/
def rescaled (P : KeyParams) (l : LayerInfo) : Bool := (P.rescale l.name).getD true

/-- Elements produced by a layer; `shapes` is the result of `collect_all_shapes`. autotuner.rs:116-121. -/
def elems (shapes : String → Option (List Nat)) (l : LayerInfo) : Nat :=
  (l.outputs.map fun o => match shapes o with | some s => s.prod | none => 0).sum

/-- One turn of the loop of autotuner.rs:107-123. -/
def profileStep (P : KeyParams) (shapes : String → Option (List Nat))
    (prof : String → Option Nat) (l : LayerInfo) : String → Option Nat :=
  if rescaled P l then
    fun op => if op = l.op then some ((prof op).getD 0 + elems shapes l) else prof op
  else prof

/-- autotuner.rs:98-137 `operator_cache_key`; `n_bits as u32` truncates. -/
def operatorKey (P : KeyParams) (arch : List LayerInfo) (shapes : String → Option (List Nat))
    (nBits : Nat) : OperatorKey :=
  ⟨P.scaleExp, nBits % 2 ^ 32, arch.foldl (profileStep P shapes) fun _ => none⟩

/-- What automatic selection does: the width and the cache left behind. The two keys are those of
`operator_cache_key` and `circuit_cache_key`. onnx.rs:866-899 `autotune_chunk_bits`. -/
def autotune {K : Type} [DecidableEq K] (opKey circKey : K) (ok₁ ok₂ : Bool) (cost : Nat → Option Nat)
    (cache : Cache K) : Nat × Cache K :=
  match readCache cache opKey with
  | some b => (b, cache)
  | none =>
    match readCache cache circKey with
    | some b => (b, cache)
    | none =>
      let w := sweep candidates cost
      (w, writeCache ok₂ (writeCache ok₁ cache circKey w) opKey w)

/-- The width with which a BN254 circuit is built: `given` is the width in the metadata argument of
`compile_bn254`, `ctx` the one in the stored parameters. onnx.rs:850-857 and onnx.rs:93-96. -/
def compileWidth (given ctx : Option Nat) (auto : Nat) : Nat :=
  match given with
  | none => (some auto).getD defaultBits
  | some _ => ctx.getD defaultBits

end JST.ChunkWidth
