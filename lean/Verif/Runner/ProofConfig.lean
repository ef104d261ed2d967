import Verif.Primes
import Verif.IO.Envelope

/-!
# Proof configurations (`rust/jstprove_circuits/src/proof_config.rs`)
-/

namespace JST.Runner

open JST JST.IO

/-- `Field`, `proof_config.rs:16-19`. -/
inductive PField where
  | bn254 | goldilocks
  deriving DecidableEq, Repr

/-- `ProofConfig`, `proof_config.rs:37-62`. -/
inductive ProofConfig where
  | bn254Raw | goldilocksRaw | goldilocksBasefold | goldilocksExt2Basefold | goldilocksExt3Whir
  | goldilocksExt4Whir
  deriving DecidableEq, Repr

/-- `ProofConfigError`, `proof_config.rs:67-75`. -/
inductive PcErr where
  | unknownConfigId (id : Nat)
  | unknownName (s : String)
  | versionMismatch (config : ProofConfig) (stored current : Nat)
  deriving DecidableEq, Repr

/-- `ProofConfig::config_id`, `proof_config.rs:102-111`. -/
def configId : ProofConfig → Nat
  | .bn254Raw => 2
  | .goldilocksRaw => 4
  | .goldilocksBasefold => 8
  | .goldilocksExt2Basefold => 9
  | .goldilocksExt3Whir => 10
  | .goldilocksExt4Whir => 11

/-- `ProofConfig::from_config_id`, `proof_config.rs:119-129`. -/
def fromConfigId (id : Nat) : Except PcErr ProofConfig :=
  match id with
  | 2 => .ok .bn254Raw
  | 4 => .ok .goldilocksRaw
  | 8 => .ok .goldilocksBasefold
  | 9 => .ok .goldilocksExt2Basefold
  | 10 => .ok .goldilocksExt3Whir
  | 11 => .ok .goldilocksExt4Whir
  | _ => .error (.unknownConfigId id)

/-- `ProofConfig::current_version`, `proof_config.rs:141-150`. -/
def currentVersion : ProofConfig → Nat
  | .bn254Raw => 1
  | .goldilocksRaw => 1
  | .goldilocksBasefold => 1
  | .goldilocksExt2Basefold => 1
  | .goldilocksExt3Whir => 1
  | .goldilocksExt4Whir => 1

/-- `ProofConfig::field`, `proof_config.rs:155-164`. -/
def configField : ProofConfig → PField
  | .bn254Raw => .bn254
  | .goldilocksRaw | .goldilocksBasefold | .goldilocksExt2Basefold | .goldilocksExt3Whir
  | .goldilocksExt4Whir => .goldilocks

/-- `Display for ProofConfig`, `proof_config.rs:173-185`. -/
def display : ProofConfig → String
  | .bn254Raw => "bn254_raw"
  | .goldilocksRaw => "goldilocks_raw"
  | .goldilocksBasefold => "goldilocks_basefold"
  | .goldilocksExt2Basefold => "goldilocks_ext2_basefold"
  | .goldilocksExt3Whir => "goldilocks_ext3_whir"
  | .goldilocksExt4Whir => "goldilocks_ext4_whir"

/-- `str::to_ascii_lowercase`. -/
def toAsciiLowercase (s : String) : String :=
  String.ofList (s.toList.map fun c => if 65 ≤ c.toNat ∧ c.toNat ≤ 90 then Char.ofNat (c.toNat + 32) else c)

/-- The name table of `FromStr for ProofConfig`, `proof_config.rs:191-196`, in match order. -/
def nameTable : List (String × ProofConfig) :=
  [("bn254_raw", .bn254Raw), ("bn254", .bn254Raw),
   ("goldilocks_raw", .goldilocksRaw),
   ("goldilocks_basefold", .goldilocksBasefold), ("goldilocks", .goldilocksBasefold),
   ("goldilocks_ext2_basefold", .goldilocksExt2Basefold), ("goldilocks_ext2", .goldilocksExt2Basefold),
   ("goldilocks_ext3_whir", .goldilocksExt3Whir), ("goldilocks_whir", .goldilocksExt3Whir),
   ("goldilocks_ext4_whir", .goldilocksExt4Whir), ("goldilocks_whir_pq", .goldilocksExt4Whir)]

/-- `FromStr for ProofConfig`, `proof_config.rs:187-200`. -/
def fromStr (s : String) : Except PcErr ProofConfig :=
  match nameTable.find? (fun e => e.1 == toAsciiLowercase s) with
  | some e => .ok e.2
  | none => .error (.unknownName (toAsciiLowercase s))

/-- `StampedProofConfig`, `proof_config.rs:206-209`. -/
structure Stamped where
  config : ProofConfig
  version : Nat
  deriving DecidableEq

/-- `StampedProofConfig::current`, `proof_config.rs:214-219`. -/
def Stamped.current (c : ProofConfig) : Stamped := ⟨c, currentVersion c⟩

/-- `StampedProofConfig::ensure_current`, `proof_config.rs:227-238`. -/
def Stamped.ensureCurrent (s : Stamped) : Except PcErr Unit :=
  if s.version = currentVersion s.config then .ok ()
  else .error (.versionMismatch s.config s.version (currentVersion s.config))

/-- The errors of `detect_from_circuit_bytes`. -/
inductive DetectErr where
  | decompress | tooShort | unknownModulus
  deriving DecidableEq, Repr

/-- `auto_decompress_bytes`, `rust/jstprove_io/src/compress.rs:26-32`. -/
def autoDecompress (Z : Zstd) (data : Bytes) : Option Bytes :=
  if data.take 4 = zstdMagic then Z.decomp data else some data

/-- `Field::detect_from_circuit_bytes`, `proof_config.rs:253-296`: the 32-byte little-endian modulus at
offset 8 of the (possibly compressed) circuit. -/
def detectField (Z : Zstd) (circuit : Bytes) : Except DetectErr PField :=
  match autoDecompress Z circuit with
  | none => .error .decompress
  | some data =>
    if data.length < 40 then .error .tooShort
    else
      let modulus := leDec ((data.drop 8).take 32)
      if modulus = bn254P then .ok .bn254
      else if modulus = goldP then .ok .goldilocks
      else .error .unknownModulus

end JST.Runner
