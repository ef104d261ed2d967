import Verif.IO.Envelope

/-!
# Artifact bundles (`rust/jstprove_io/src/{bundle,compress}.rs`)

The file system is reduced to what a bundle write touches: the bundle directory, absent (`none`) or
present with its files by name. Every system call of the write path may fail; a failing write may fail
before the file exists or after some bytes were written.
-/

namespace JST.IO

open JST

/-- The names of the files of a bundle: `circuit.bin`, `witness_solver.bin`, `vk.bin`,
`manifest.msgpack`, `rust/jstprove_io/src/bundle.rs:10-13`. -/
inductive BFile where
  | circuit | witness | vk | manifest
  deriving DecidableEq, Repr

/-- The bundle directory: `none` when the path does not exist, else its files. -/
abbrev Disk := Option (List (BFile × Bytes))

/-- What goes wrong in one step of a write: nothing, the call fails before creating anything, or the
file is created and an arbitrary byte string (a prefix of the data, say) reaches it before the failure. -/
inductive Fault where
  | none
  | before
  | during (written : Bytes)

/-- The faults met, one per step: directory, circuit, witness solver, key, manifest. -/
structure Faults where
  dir : Fault := .none
  circuit : Fault := .none
  witness : Fault := .none
  vk : Fault := .none
  manifest : Fault := .none

def lookupFile (fs : List (BFile × Bytes)) (name : BFile) : Option Bytes :=
  (fs.find? (fun e => e.1 == name)).map (·.2)

/-- `File::create` + write: replace or add. -/
def putFile (fs : List (BFile × Bytes)) (name : BFile) (data : Bytes) : List (BFile × Bytes) :=
  fs.filter (fun e => e.1 != name) ++ [(name, data)]

/-- `remove_file`. -/
def delFile (fs : List (BFile × Bytes)) (name : BFile) : List (BFile × Bytes) :=
  fs.filter (fun e => e.1 != name)

/-- State of a write: the disk and the guard's record (`WriteGuard`,
`rust/jstprove_io/src/bundle.rs:15-18`): the directory created or not, and the files written, oldest
first. -/
structure WState where
  disk : Disk
  dirRecorded : Bool
  paths : List BFile

/-- `WriteGuard::create_dir`, `rust/jstprove_io/src/bundle.rs:28-32`. -/
def guardCreateDir (f : Fault) (s : WState) : Except EErr Unit × WState :=
  match s.disk with
  | some _ => (.error .exists_, s)
  | none =>
    match f with
    | .none => (.ok (), { s with disk := some [], dirRecorded := true })
    | _ => (.error .io, s)

/-- A file write through the guard: `WriteGuard::write_blob` and `WriteGuard::serialize_to_file`,
`rust/jstprove_io/src/bundle.rs:34-44`, with `write_blob`, 205-211. The path is recorded only after the
write succeeded. `data` is what should reach the disk, `none` when encoding itself fails. -/
def guardWrite (f : Fault) (name : BFile) (data : Option Bytes) (s : WState) :
    Except EErr Unit × WState :=
  match s.disk with
  | none => (.error .io, s)
  | some fs =>
    match f with
    | .before => (.error .io, s)
    | .during w => (.error .io, { s with disk := some (putFile fs name w) })
    | .none =>
      match data with
      | none => (.error .io, s)
      | some d => (.ok (), { s with disk := some (putFile fs name d), paths := s.paths ++ [name] })

/-- `Drop for WriteGuard` without `commit`, `rust/jstprove_io/src/bundle.rs:51-63`: the recorded files
are removed, newest first, then the directory, which succeeds only when it is empty. The removals
themselves are assumed to succeed. -/
def guardDrop (s : WState) : Disk :=
  match s.disk with
  | none => none
  | some fs =>
    let fs' := s.paths.reverse.foldl delFile fs
    if s.dirRecorded then (if fs'.isEmpty then none else some fs') else some fs'

/-- `compressed_writer` + `write_all` + `finish`, `rust/jstprove_io/src/compress.rs:55-75`. -/
def blobBytes (Z : Zstd) (data : Bytes) (compress : Bool) : Option Bytes :=
  if compress then Z.comp data else some data

/-- `BundleManifest`, `rust/jstprove_io/src/bundle.rs:70-75`; the type of the metadata and version is
the value type of the codec. -/
abbrev Manifest (Meta Ver : Type) := Option Meta × Option Ver

/-- Sequencing of guarded steps. -/
def andThen (r : Except EErr Unit × WState) (k : WState → Except EErr Unit × WState) :
    Except EErr Unit × WState :=
  match r with
  | (.ok (), s) => k s
  | (.error e, s) => (.error e, s)

/-- `write_bundle_with_vk`, `rust/jstprove_io/src/bundle.rs:105-125` (`write_bundle`, 77-94, is the case
without a key). -/
def writeBundle {Meta Ver} (M : Msgpack (Manifest Meta Ver)) (Z : Zstd) (faults : Faults)
    (circuit witness : Bytes) (vk : Option Bytes) (metadata : Option Meta) (version : Option Ver)
    (compress : Bool) (disk : Disk) : Except EErr Unit × Disk :=
  let r := andThen (guardCreateDir faults.dir ⟨disk, false, []⟩) fun s =>
    andThen (guardWrite faults.circuit .circuit (blobBytes Z circuit compress) s) fun s =>
    andThen (guardWrite faults.witness .witness (blobBytes Z witness compress) s) fun s =>
    andThen (match vk with
      | some k => guardWrite faults.vk .vk (blobBytes Z k compress) s
      | none => (.ok (), s)) fun s =>
    guardWrite faults.manifest .manifest
      (match serializeToBytes M Z (metadata, version) false with
       | .ok b => some b
       | .error _ => none) s
  match r with
  | (.ok (), s) => (.ok (), s.disk)
  | (.error e, s) => (.error e, guardDrop s)

/-- `read_blob`, `rust/jstprove_io/src/bundle.rs:213-224`, with `auto_reader`,
`rust/jstprove_io/src/compress.rs:77-104`. -/
def readBlob (Z : Zstd) (disk : Disk) (name : BFile) : Except EErr Bytes :=
  match disk with
  | none => .error .notFound
  | some fs =>
    match lookupFile fs name with
    | none => .error .notFound
    | some d => if d.take 4 = zstdMagic then decompressBytes Z d else .ok d

/-- `BundleBlobs`, `rust/jstprove_io/src/bundle.rs:127-137`. -/
structure Blobs (Meta Ver : Type) where
  circuit : Bytes
  witness : Bytes
  vk : Option Bytes
  metadata : Option Meta
  version : Option Ver
  deriving DecidableEq

/-- `deserialize_from_file` on a file of the bundle. -/
def readManifest {Meta Ver} (M : Msgpack (Manifest Meta Ver)) (Z : Zstd) (P : Pull) (disk : Disk) :
    Except EErr (Manifest Meta Ver) :=
  match disk with
  | none => .error .notFound
  | some fs =>
    match lookupFile fs .manifest with
    | none => .error .notFound
    | some d => deserializeFromFile M Z P d

/-- `read_bundle`, `rust/jstprove_io/src/bundle.rs:139-164`. -/
def readBundle {Meta Ver} (M : Msgpack (Manifest Meta Ver)) (Z : Zstd) (P : Pull) (disk : Disk) :
    Except EErr (Blobs Meta Ver) := do
  let manifest ← readManifest M Z P disk
  let circuit ← readBlob Z disk .circuit
  let witness ← readBlob Z disk .witness
  let vk ← match readBlob Z disk .vk with
    | .ok b => pure (some b)
    | .error .notFound => pure none
    | .error e => throw e
  pure ⟨circuit, witness, vk, manifest.1, manifest.2⟩

/-- `bundle_has_vk`, `rust/jstprove_io/src/bundle.rs:194-196`. -/
def bundleHasVk (disk : Disk) : Bool :=
  match disk with
  | none => false
  | some fs => (lookupFile fs .vk).isSome

end JST.IO
