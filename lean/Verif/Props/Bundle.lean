import Verif.IO.Bundle
import Verif.Props.Envelope

/-!
# C31, C32: artifact bundles
-/

namespace JST.Props

open JST JST.IO

section
variable {Meta Ver : Type} (M : Msgpack (Manifest Meta Ver)) (Z : Zstd)

/-- The files of a complete bundle, in the order written. -/
def bundleFiles (c w : Bytes) (vk : Option Bytes) (m : Bytes) : List (BFile × Bytes) :=
  [(.circuit, c), (.witness, w)] ++ (vk.map (fun k => (.vk, k))).toList
    ++ [(.manifest, m)]

/-- What a successful write leaves on disk. -/
theorem writeBundle_ok {faults : Faults} {circuit witness : Bytes} {vk : Option Bytes}
    {metadata : Option Meta} {version : Option Ver} {compress : Bool} {disk disk' : Disk}
    (h : writeBundle M Z faults circuit witness vk metadata version compress disk = (.ok (), disk')) :
    disk = none ∧ ∃ c w m, blobBytes Z circuit compress = some c ∧ blobBytes Z witness compress = some w ∧
      serializeToBytes M Z (metadata, version) false = .ok m ∧
      ∃ k, (match vk with | none => k = none | some v => ∃ b, blobBytes Z v compress = some b ∧ k = some b) ∧
        disk' = some (bundleFiles c w k m) := by
  unfold writeBundle guardCreateDir at h
  rcases disk with _ | fs
  swap
  · simp [andThen] at h
  refine ⟨rfl, ?_⟩
  rcases hd : faults.dir with _ | _ | _ <;> simp only [hd, andThen] at h
  rotate_left
  · simp at h
  · simp at h
  rcases hc : faults.circuit with _ | _ | _ <;> simp only [hc, guardWrite] at h
  rotate_left
  · simp at h
  · simp at h
  rcases hcb : blobBytes Z circuit compress with _ | c <;> simp only [hcb] at h
  · simp at h
  rcases hw : faults.witness with _ | _ | _ <;> simp only [hw] at h
  rotate_left
  · simp at h
  · simp at h
  rcases hwb : blobBytes Z witness compress with _ | w <;> simp only [hwb] at h
  · simp at h
  rcases hs : serializeToBytes M Z (metadata, version) false with e | m
  · rcases vk with _ | v
    · simp only [hs] at h
      rcases hm : faults.manifest with _ | _ | _ <;> simp [hm] at h
    · simp only [hs] at h
      rcases hv : faults.vk with _ | _ | _ <;> simp only [hv] at h
      · rcases hvb : blobBytes Z v compress with _ | b <;> simp only [hvb] at h
        · simp at h
        · rcases hm : faults.manifest with _ | _ | _ <;> simp [hm] at h
      · simp at h
      · simp at h
  refine ⟨c, w, m, rfl, rfl, rfl, ?_⟩
  rcases vk with _ | v
  · refine ⟨none, rfl, ?_⟩
    simp only [hs] at h
    rcases hm : faults.manifest with _ | _ | _ <;> simp only [hm] at h
    · simpa [putFile, bundleFiles] using (congrArg Prod.snd h).symm
    · simp at h
    · simp at h
  · simp only [hs] at h
    rcases hv : faults.vk with _ | _ | _ <;> simp only [hv] at h
    · rcases hvb : blobBytes Z v compress with _ | b <;> simp only [hvb] at h
      · simp at h
      · refine ⟨some b, ⟨b, hvb, rfl⟩, ?_⟩
        rcases hm : faults.manifest with _ | _ | _ <;> simp only [hm] at h
        · simpa [putFile, bundleFiles] using (congrArg Prod.snd h).symm
        · simp at h
        · simp at h
    · simp at h
    · simp at h

theorem lookup_bundleFiles (c w : Bytes) (k : Option Bytes) (m : Bytes) :
    lookupFile (bundleFiles c w k m) .circuit = some c ∧
    lookupFile (bundleFiles c w k m) .witness = some w ∧
    lookupFile (bundleFiles c w k m) .vk = k ∧
    lookupFile (bundleFiles c w k m) .manifest = some m := by
  rcases k with _ | k <;> simp [lookupFile, bundleFiles]

/-- A blob survives the writer and the sniffing reader: always when compressed; when stored plainly,
if it does not begin with the zstd magic number. -/
def BlobSafe (compress : Bool) (b : Bytes) : Prop := compress = true ∨ b.take 4 ≠ [0x28, 0xB5, 0x2F, 0xFD]

theorem blob_back {compress : Bool} {b d : Bytes} (hs : BlobSafe compress b)
    (h : blobBytes Z b compress = some d) :
    (if d.take 4 = zstdMagic then decompressBytes Z d else Except.ok d) = Except.ok b := by
  unfold blobBytes at h
  cases compress with
  | true =>
    simp only [if_true] at h
    obtain ⟨t, rfl⟩ := Z.comp_magic _ _ h
    rw [if_pos (by simp [zstdMagic])]
    simp [decompressBytes, Z.decomp_comp _ _ h]
  | false =>
    simp only [Bool.false_eq_true, if_false, Option.some.injEq] at h
    subst h
    rcases hs with hs | hs
    · simp at hs
    · rw [if_neg (show ¬ _ = zstdMagic from hs)]

/-- **C31 (partial)**: after a successful write, reading the bundle returns exactly what was written:
circuit, witness solver, key (present or absent), metadata and version. Holds for every compressed
bundle, and for plain ones none of whose blobs begins with the zstd magic number; without that side
condition the property is false (`C31_magic_blob_misread`). -/
theorem C31_read_written_partial (P : Pull) (faults : Faults) (circuit witness : Bytes)
    (vk : Option Bytes) (metadata : Option Meta) (version : Option Ver) (compress : Bool)
    (disk disk' : Disk)
    (h : writeBundle M Z faults circuit witness vk metadata version compress disk = (.ok (), disk'))
    (hm : ∀ b, M.enc (metadata, version) = some b → b.length + 20 < 2 ^ 64)
    (hc : BlobSafe compress circuit) (hw : BlobSafe compress witness)
    (hv : ∀ k ∈ vk, BlobSafe compress k) :
    readBundle M Z P disk' = .ok ⟨circuit, witness, vk, metadata, version⟩ ∧
    bundleHasVk disk' = vk.isSome := by
  obtain ⟨-, c, w, m, hcb, hwb, hs, k, hk, rfl⟩ := writeBundle_ok M Z h
  obtain ⟨l1, l2, l3, l4⟩ := lookup_bundleFiles c w k m
  have hman : deserializeFromFile M Z P m = .ok (metadata, version) := by
    apply C30_file_round_trip M Z P _ false m hs
    · obtain ⟨b, pl, hb, hp, rfl⟩ := serialize_inv hs
      simp only [Bool.false_eq_true, if_false] at hp
      subst hp
      rw [envelopeBytes_length]
      have := hm _ hb
      omega
    · simp
  have b1 := blob_back Z hc hcb
  have b2 := blob_back Z hw hwb
  unfold readBundle readManifest readBlob bundleHasVk
  simp only [l1, l2, l3, l4, hman, b1, b2]
  rcases vk with _ | v
  · simp only at hk
    subst hk
    exact ⟨rfl, rfl⟩
  · obtain ⟨b, hb, rfl⟩ := hk
    have b3 := blob_back Z (hv v rfl) hb
    simp only [b3]
    exact ⟨rfl, rfl⟩

/-- A write without faults into an absent directory succeeds whenever the codecs do. -/
theorem C31_write_succeeds (circuit witness : Bytes) (vk : Option Bytes) (metadata : Option Meta)
    (version : Option Ver) (compress : Bool)
    (hz : compress = true → ∀ x, (Z.comp x).isSome) (hm : (M.enc (metadata, version)).isSome) :
    ∃ disk', writeBundle M Z {} circuit witness vk metadata version compress none = (.ok (), disk') := by
  have hb : ∀ x, ∃ d, blobBytes Z x compress = some d := by
    intro x
    unfold blobBytes
    cases compress with
    | true => exact Option.isSome_iff_exists.mp (by simpa using hz rfl x)
    | false => exact ⟨x, rfl⟩
  obtain ⟨c, hc⟩ := hb circuit
  obtain ⟨w, hw⟩ := hb witness
  obtain ⟨m, hm⟩ := Option.isSome_iff_exists.mp hm
  unfold writeBundle guardCreateDir
  rcases vk with _ | v
  · simp [andThen, guardWrite, hc, hw, serializeToBytes, hm]
  · obtain ⟨b, hb⟩ := hb v
    simp [andThen, guardWrite, hc, hw, hb, serializeToBytes, hm]

/-- **C31 fails**: a plain circuit blob that happens to be a zstd frame is silently replaced by its
decompressed contents when read back. -/
theorem C31_magic_blob_misread (P : Pull) (x y witness : Bytes) (metadata : Option Meta)
    (version : Option Ver) (disk' : Disk) (hxy : Z.comp x = some y)
    (hw : witness.take 4 ≠ [0x28, 0xB5, 0x2F, 0xFD])
    (hm : ∀ b, M.enc (metadata, version) = some b → b.length + 20 < 2 ^ 64)
    (h : writeBundle M Z {} y witness none metadata version false none = (.ok (), disk')) :
    readBundle M Z P disk' = .ok ⟨x, witness, none, metadata, version⟩ := by
  obtain ⟨-, c, w, m, hcb, hwb, hs, k, hk, rfl⟩ := writeBundle_ok M Z h
  obtain ⟨l1, l2, l3, l4⟩ := lookup_bundleFiles c w k m
  have hman : deserializeFromFile M Z P m = .ok (metadata, version) := by
    apply C30_file_round_trip M Z P _ false m hs
    · obtain ⟨b, pl, hb, hp, rfl⟩ := serialize_inv hs
      simp only [Bool.false_eq_true, if_false] at hp
      subst hp
      rw [envelopeBytes_length]
      have := hm _ hb
      omega
    · simp
  simp only [blobBytes, Bool.false_eq_true, if_false, Option.some.injEq] at hcb
  subst hcb
  have b1 : (if y.take 4 = zstdMagic then decompressBytes Z y else Except.ok y) = Except.ok x := by
    obtain ⟨t, rfl⟩ := Z.comp_magic _ _ hxy
    rw [if_pos (by simp [zstdMagic])]
    simp [decompressBytes, Z.decomp_comp _ _ hxy]
  have b2 := blob_back Z (compress := false) (.inr hw) hwb
  unfold readBundle readManifest readBlob
  simp only at hk
  subst hk
  simp only [l1, l2, l3, l4, hman, b1, b2]
  rfl

/-- **C32 (existing bundle)**: writing over an existing directory fails and changes nothing. -/
theorem C32_existing_untouched (faults : Faults) (circuit witness : Bytes) (vk : Option Bytes)
    (metadata : Option Meta) (version : Option Ver) (compress : Bool) (fs : List (BFile × Bytes)) :
    writeBundle M Z faults circuit witness vk metadata version compress (some fs)
      = (.error .exists_, some fs) := by
  simp [writeBundle, guardCreateDir, andThen, guardDrop]

/-- What a failed write into an absent directory can leave: nothing, or one half-written file. -/
theorem writeBundle_error {faults : Faults} {circuit witness : Bytes} {vk : Option Bytes}
    {metadata : Option Meta} {version : Option Ver} {compress : Bool} {e : EErr} {disk' : Disk}
    (h : writeBundle M Z faults circuit witness vk metadata version compress none = (.error e, disk')) :
    disk' = none ∨
    (∃ b, faults.circuit = .during b ∧ disk' = some [(.circuit, b)]) ∨
    (∃ b, faults.witness = .during b ∧ disk' = some [(.witness, b)]) ∨
    (∃ b, vk ≠ none ∧ faults.vk = .during b ∧ disk' = some [(.vk, b)]) ∨
    (∃ b, faults.manifest = .during b ∧ disk' = some [(.manifest, b)]) := by
  unfold writeBundle guardCreateDir at h
  rcases hd : faults.dir with _ | _ | _ <;> simp only [hd, andThen] at h
  rotate_left
  · left; simpa [guardDrop, putFile, delFile] using (congrArg Prod.snd h).symm
  · left; simpa [guardDrop, putFile, delFile] using (congrArg Prod.snd h).symm
  rcases hc : faults.circuit with _ | _ | b <;> simp only [hc, guardWrite] at h
  rotate_left
  · left; simpa [guardDrop, putFile, delFile] using (congrArg Prod.snd h).symm
  · right; left
    exact ⟨b, rfl, by simpa [guardDrop, putFile, delFile] using (congrArg Prod.snd h).symm⟩
  rcases hcb : blobBytes Z circuit compress with _ | c <;> simp only [hcb] at h
  · left; simpa [guardDrop, putFile, delFile] using (congrArg Prod.snd h).symm
  rcases hw : faults.witness with _ | _ | b <;> simp only [hw] at h
  rotate_left
  · left; simpa [guardDrop, putFile, delFile] using (congrArg Prod.snd h).symm
  · right; right; left
    exact ⟨b, rfl, by simpa [guardDrop, putFile, delFile] using (congrArg Prod.snd h).symm⟩
  rcases hwb : blobBytes Z witness compress with _ | w <;> simp only [hwb] at h
  · left; simpa [guardDrop, putFile, delFile] using (congrArg Prod.snd h).symm
  rcases vk with _ | v
  · rcases hm : faults.manifest with _ | _ | b <;> simp only [hm] at h
    · rcases hs : serializeToBytes M Z (metadata, version) false with e | m <;> simp only [hs] at h
      · left; simpa [guardDrop, putFile, delFile] using (congrArg Prod.snd h).symm
      · simp at h
    · left; simpa [guardDrop, putFile, delFile] using (congrArg Prod.snd h).symm
    · right; right; right; right
      exact ⟨b, rfl, by simpa [guardDrop, putFile, delFile] using (congrArg Prod.snd h).symm⟩
  · rcases hv : faults.vk with _ | _ | b <;> simp only [hv] at h
    · rcases hvb : blobBytes Z v compress with _ | k <;> simp only [hvb] at h
      · left; simpa [guardDrop, putFile, delFile] using (congrArg Prod.snd h).symm
      · rcases hm : faults.manifest with _ | _ | b <;> simp only [hm] at h
        · rcases hs : serializeToBytes M Z (metadata, version) false with e | m <;> simp only [hs] at h
          · left; simpa [guardDrop, putFile, delFile] using (congrArg Prod.snd h).symm
          · simp at h
        · left; simpa [guardDrop, putFile, delFile] using (congrArg Prod.snd h).symm
        · right; right; right; right
          exact ⟨b, rfl, by simpa [guardDrop, putFile, delFile] using (congrArg Prod.snd h).symm⟩
    · left; simpa [guardDrop, putFile, delFile] using (congrArg Prod.snd h).symm
    · right; right; right; left
      exact ⟨b, by simp, rfl, by simpa [guardDrop, putFile, delFile] using (congrArg Prod.snd h).symm⟩

/-- No step fails with its file already created. -/
def CleanFaults (f : Faults) : Prop :=
  ∀ b, f.circuit ≠ .during b ∧ f.witness ≠ .during b ∧ f.vk ≠ .during b ∧ f.manifest ≠ .during b

/-- **C32 (partial)**: a write that fails at any step, for any reason, leaves the disk as it was, provided
the failing call itself created no file. (Without the proviso: `C32_partial_file_left`.) -/
theorem C32_failed_write_restores_partial (faults : Faults) (circuit witness : Bytes)
    (vk : Option Bytes) (metadata : Option Meta) (version : Option Ver) (compress : Bool) (e : EErr)
    (disk disk' : Disk) (hf : CleanFaults faults)
    (h : writeBundle M Z faults circuit witness vk metadata version compress disk = (.error e, disk')) :
    disk' = disk := by
  rcases disk with _ | fs
  · rcases writeBundle_error M Z h with h | ⟨b, hb, -⟩ | ⟨b, hb, -⟩ | ⟨b, -, hb, -⟩ | ⟨b, hb, -⟩
    · exact h
    · exact absurd hb (hf b).1
    · exact absurd hb (hf b).2.1
    · exact absurd hb (hf b).2.2.1
    · exact absurd hb (hf b).2.2.2
  · rw [C32_existing_untouched] at h
    exact (congrArg Prod.snd h).symm

/-- **C32 fails**: when a file write fails after the file was created, that file and the directory stay
behind, for every one of the writes, and from then on every retry, with or without faults, is refused. -/
theorem C32_partial_file_left (faults : Faults) (circuit witness : Bytes) (vk : Option Bytes)
    (metadata : Option Meta) (version : Option Ver) (compress : Bool) (b : Bytes)
    (hd : faults.dir = .none) (hc : faults.circuit = .during b) :
    writeBundle M Z faults circuit witness vk metadata version compress none
      = (.error .io, some [(.circuit, b)]) ∧
    ∀ faults' circuit' witness' vk' metadata' version' compress',
      writeBundle M Z faults' circuit' witness' vk' metadata' version' compress'
        (some [(.circuit, b)]) = (.error .exists_, some [(.circuit, b)]) := by
  refine ⟨?_, fun _ _ _ _ _ _ _ => C32_existing_untouched ..⟩
  simp [writeBundle, guardCreateDir, hd, andThen, hc, guardWrite, guardDrop, putFile]

/-- The same at the last step: everything but the half-written manifest is removed. -/
theorem C32_partial_manifest_left (faults : Faults) (circuit witness : Bytes)
    (metadata : Option Meta) (version : Option Ver) (compress : Bool) (b c w : Bytes)
    (hd : faults.dir = .none) (hc : faults.circuit = .none) (hw : faults.witness = .none)
    (hm : faults.manifest = .during b) (hcb : blobBytes Z circuit compress = some c)
    (hwb : blobBytes Z witness compress = some w) :
    writeBundle M Z faults circuit witness none metadata version compress none
      = (.error .io, some [(.manifest, b)]) := by
  simp [writeBundle, guardCreateDir, hd, andThen, hc, hw, hm, hcb, hwb, guardWrite, guardDrop, putFile,
    delFile]

/-- **C32 (no false success)**: a disk left by a failed write never reads as a bundle. -/
theorem C32_failed_write_unreadable (P : Pull) (faults : Faults) (circuit witness : Bytes)
    (vk : Option Bytes) (metadata : Option Meta) (version : Option Ver) (compress : Bool) (e : EErr)
    (disk' : Disk)
    (h : writeBundle M Z faults circuit witness vk metadata version compress none = (.error e, disk')) :
    ∃ e', readBundle M Z P disk' = .error e' := by
  have key : ∀ fs, lookupFile fs .circuit = none →
      ∃ e', readBundle M Z P (some fs) = .error e' := by
    intro fs hfs
    unfold readBundle readBlob
    simp only [hfs, bind, Except.bind]
    rcases readManifest M Z P (some fs) with e | m
    · exact ⟨e, rfl⟩
    · exact ⟨_, rfl⟩
  rcases writeBundle_error M Z h with rfl | ⟨b, -, rfl⟩ | ⟨b, -, rfl⟩ | ⟨b, -, -, rfl⟩ | ⟨b, -, rfl⟩
  · exact ⟨.notFound, rfl⟩
  · exact ⟨.notFound, rfl⟩
  · exact key _ rfl
  · exact key _ rfl
  · exact key _ rfl

end

/-! ## The hypotheses are met -/

/-- A codec for a one-byte metadata value. -/
def toyManifest : Msgpack (Manifest UInt8 Unit) where
  enc
    | (some v, none) => some [1, v]
    | (none, none) => some [0, 0]
    | _ => none
  dec
    | 1 :: v :: _ => some ((some v, none), 2)
    | 0 :: 0 :: _ => some ((none, none), 2)
    | _ => none
  dec_enc := by
    rintro ⟨_ | v, _ | _⟩ b h t <;> simp at h <;> subst h <;> rfl
  dec_stream := by
    intro b v c h
    split at h
    · simp only [Option.some.injEq, Prod.mk.injEq] at h
      obtain ⟨rfl, rfl⟩ := h
      exact ⟨by simp, fun t => rfl⟩
    · simp only [Option.some.injEq, Prod.mk.injEq] at h
      obtain ⟨rfl, rfl⟩ := h
      exact ⟨by simp, fun t => rfl⟩
    · simp at h

example : ∃ d, writeBundle toyManifest toyZstd {} [1, 2] [3] (some [4]) (some 7) none true none = (.ok (), d) ∧
    readBundle toyManifest toyZstd toyPull d = .ok ⟨[1, 2], [3], some [4], some 7, none⟩ := by
  obtain ⟨d, hd⟩ := C31_write_succeeds toyManifest toyZstd [1, 2] [3] (some [4]) (some 7) none true
    (fun _ _ => rfl) rfl
  exact ⟨d, hd, (C31_read_written_partial toyManifest toyZstd toyPull {} _ _ _ _ _ true _ _ hd
    (by intro b h; cases h; simp) (.inl rfl) (.inl rfl) (by rintro k -; exact .inl rfl)).1⟩

/-- A blob that is itself a frame comes back changed. -/
example : ∃ d, writeBundle toyManifest toyZstd {} [0x28, 0xB5, 0x2F, 0xFD, 5] [3] none (some 7) none false none
      = (.ok (), d) ∧
    readBundle toyManifest toyZstd toyPull d = .ok ⟨[5], [3], none, some 7, none⟩ := by
  obtain ⟨d, hd⟩ := C31_write_succeeds toyManifest toyZstd [0x28, 0xB5, 0x2F, 0xFD, 5] [3] none (some 7)
    none false (fun _ _ => rfl) rfl
  exact ⟨d, hd, C31_magic_blob_misread toyManifest toyZstd toyPull [5] _ _ _ _ _ rfl (by decide)
    (by intro b h; cases h; simp) hd⟩

example : writeBundle toyManifest toyZstd { manifest := .before } [1] [2] (some [3]) none none false none
    = (.error .io, none) := by decide +kernel

example : CleanFaults { manifest := .before } := by intro b; simp

end JST.Props
