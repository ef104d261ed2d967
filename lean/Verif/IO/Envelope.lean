import Verif.IO.Crc

/-!
# The artifact envelope (`rust/jstprove_io/src/{envelope,lib,compress}.rs`)

MessagePack and zstd are external libraries: they enter as parameters (`Msgpack`, `Zstd`) whose laws are
the hypotheses recorded in the structures below.
-/

namespace JST.IO

open JST

/-- The errors of the reader (`anyhow::Error` messages collapsed to a tag). -/
inductive EErr where
  | io | headerTooShort | truncated | crc | zstd | msgpack | exists_ | notFound
  deriving DecidableEq, Repr

/-- `rmp_serde`: `enc` is `to_vec_named`; `dec` reads one value from the front of a byte stream and
reports how many bytes it consumed (`from_slice` and `from_read` both ignore what follows). -/
structure Msgpack (V : Type) where
  enc : V → Option Bytes
  dec : Bytes → Option (V × Nat)
  /-- what is encoded decodes, whatever follows -/
  dec_enc : ∀ v b, enc v = some b → ∀ t, dec (b ++ t) = some (v, b.length)
  /-- decoding is a stream function: it depends only on the bytes consumed -/
  dec_stream : ∀ b v c, dec b = some (v, c) → c ≤ b.length ∧ ∀ t, dec (b.take c ++ t) = some (v, c)

/-- `rust/jstprove_io/src/envelope.rs:58`. -/
def zstdMagic : Bytes := [0x28, 0xB5, 0x2F, 0xFD]

/-- `zstd`: `comp` is `encode_all`/the stream encoder, `decomp` is `decode_all`, `stream` is the content
a stream decoder yields before its first error or the end of its input. -/
structure Zstd where
  comp : Bytes → Option Bytes
  decomp : Bytes → Option Bytes
  stream : Bytes → Bytes
  decomp_comp : ∀ x y, comp x = some y → decomp y = some x
  stream_comp : ∀ x y, comp x = some y → stream y = x
  comp_magic : ∀ x y, comp x = some y → zstdMagic <+: y

/-- How much of a source of the given length a reader stack has pulled when its consumer has taken `c`
bytes: `plain` for a `BufReader`, `zst` for `BufReader` over the zstd stream decoder. -/
structure Pull where
  plain : (len c : Nat) → Nat
  zst : (src : Bytes) → (c : Nat) → Nat
  plain_ge : ∀ len c, c ≤ len → c ≤ plain len c
  plain_le : ∀ len c, plain len c ≤ len

/-- `ENVELOPE_MAGIC`, `rust/jstprove_io/src/envelope.rs:3`. -/
def envelopeMagic : Bytes := [0x4A, 0x53, 0x54, 0x01]

/-- `ENVELOPE_HEADER_LEN`, `rust/jstprove_io/src/envelope.rs:4`. -/
def headerLen : Nat := 20

/-- `write_envelope`, `rust/jstprove_io/src/envelope.rs:14-25`. -/
def writeEnvelope (payload : Bytes) (compressed : Bool) : Bytes :=
  envelopeMagic ++ leEnc 4 (if compressed then 1 else 0) ++ leEnc 8 payload.length
    ++ leEnc 4 (crc32c payload).toNat ++ payload

/-- `EnvelopeHeader`, `rust/jstprove_io/src/envelope.rs:8-12`. -/
structure Header where
  compressed : Bool
  payloadLen : Nat
  crc : BitVec 32
  deriving DecidableEq

/-- `parse_header`, `rust/jstprove_io/src/envelope.rs:27-45`. -/
def parseHeader (buf : Bytes) : Except EErr Header :=
  if buf.length < headerLen then .error .headerTooShort
  else .ok
    { compressed := leDec ((buf.drop 4).take 4) % 2 != 0
      payloadLen := leDec ((buf.drop 8).take 8)
      crc := BitVec.ofNat 32 (leDec ((buf.drop 16).take 4)) }

inductive Format where
  | envelope | legacyZstd | raw
  deriving DecidableEq, Repr

/-- `detect_format`, `rust/jstprove_io/src/envelope.rs:66-74` (a list shorter than four bytes is never
equal to a magic number). -/
def detectFormat (data : Bytes) : Format :=
  if data.take 4 = envelopeMagic then .envelope
  else if data.take 4 = zstdMagic then .legacyZstd
  else .raw

/-- `serialize_to_bytes`, `rust/jstprove_io/src/lib.rs:27-35`. -/
def serializeToBytes {V} (M : Msgpack V) (Z : Zstd) (v : V) (compress : Bool) : Except EErr Bytes :=
  match M.enc v with
  | none => .error .msgpack
  | some msgpack =>
    if compress then
      match Z.comp msgpack with
      | none => .error .zstd
      | some payload => .ok (writeEnvelope payload true)
    else .ok (writeEnvelope msgpack false)

/-- `rmp_serde::from_slice` / `from_read` with the consumed length dropped. -/
def fromSlice {V} (M : Msgpack V) (data : Bytes) : Except EErr V :=
  match M.dec data with
  | none => .error .msgpack
  | some (v, _) => .ok v

/-- `decompress_bytes`, `rust/jstprove_io/src/compress.rs:14-16`. -/
def decompressBytes (Z : Zstd) (data : Bytes) : Except EErr Bytes :=
  match Z.decomp data with
  | none => .error .zstd
  | some d => .ok d

/-- `verify_crc_computed`, `rust/jstprove_io/src/envelope.rs:51-56`. -/
def verifyCrcComputed (actual expected : BitVec 32) : Except EErr Unit :=
  if actual ≠ expected then .error .crc else .ok ()

/-- `deserialize_from_bytes`, `rust/jstprove_io/src/lib.rs:43-74` (64-bit platform: the `u64` length
always fits `usize`). -/
def deserializeFromBytes {V} (M : Msgpack V) (Z : Zstd) (data : Bytes) : Except EErr V :=
  match detectFormat data with
  | .envelope => do
    let header ← parseHeader data
    let remaining := data.length - headerLen
    if remaining < header.payloadLen then throw .truncated
    let payload := (data.drop headerLen).take header.payloadLen
    verifyCrcComputed (crc32c payload) header.crc
    let msgpack ← if header.compressed then decompressBytes Z payload else pure payload
    fromSlice M msgpack
  | .legacyZstd => do
    let d ← decompressBytes Z data
    fromSlice M d
  | .raw => fromSlice M data

/-- `deserialize_from_file`, `rust/jstprove_io/src/lib.rs:76-125`, on the contents of the file. The CRC
is that of the bytes the decoder stack pulled (`Crc32cReader`). -/
def deserializeFromFile {V} (M : Msgpack V) (Z : Zstd) (P : Pull) (file : Bytes) : Except EErr V :=
  if file.length < headerLen then .error .io
  else
    match detectFormat (file.take headerLen) with
    | .envelope => do
      let header ← parseHeader (file.take headerLen)
      let src := (file.drop headerLen).take header.payloadLen
      let (result, pulled) ←
        if header.compressed then
          match M.dec (Z.stream src) with
          | none => throw EErr.msgpack
          | some (v, c) => pure (v, P.zst src c)
        else
          match M.dec src with
          | none => throw EErr.msgpack
          | some (v, c) => pure (v, P.plain src.length c)
      verifyCrcComputed (crcAppend 0 (src.take pulled)) header.crc
      pure result
    | .legacyZstd => fromSlice M (Z.stream file)
    | .raw => fromSlice M file

end JST.IO
