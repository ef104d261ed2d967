import Verif.IO.Envelope

/-!
# C30: the artifact envelope
-/

namespace JST.Props

open JST JST.IO

/-! ## The file format, spelled out -/

/-- A byte string in envelope layout: magic `JST\x01`, flags (4 bytes), payload length (8 bytes),
checksum (4 bytes), all little-endian, then `rest`. -/
def envelopeBytes (flags len : Nat) (crc : BitVec 32) (rest : Bytes) : Bytes :=
  [0x4A, 0x53, 0x54, 0x01] ++ leEnc 4 flags ++ leEnc 8 len ++ leEnc 4 crc.toNat ++ rest

theorem writeEnvelope_eq (payload : Bytes) (c : Bool) :
    writeEnvelope payload c
      = envelopeBytes (if c then 1 else 0) payload.length (crc32c payload) payload := by
  cases c <;> rfl

theorem envelopeBytes_length (f len : Nat) (crc : BitVec 32) (rest : Bytes) :
    (envelopeBytes f len crc rest).length = 20 + rest.length := by
  simp [envelopeBytes, leEnc_length]; omega

theorem env_take4 (f len : Nat) (crc : BitVec 32) (rest : Bytes) :
    (envelopeBytes f len crc rest).take 4 = envelopeMagic := by
  simp [envelopeBytes, envelopeMagic]

theorem env_flags (f len : Nat) (crc : BitVec 32) (rest : Bytes) :
    ((envelopeBytes f len crc rest).drop 4).take 4 = leEnc 4 f := by
  have h := leEnc_length 4 f
  simp only [envelopeBytes, List.append_assoc, List.cons_append, List.nil_append, List.drop_succ_cons,
    List.drop_zero]
  rw [List.take_left' h]

theorem env_len (f len : Nat) (crc : BitVec 32) (rest : Bytes) :
    ((envelopeBytes f len crc rest).drop 8).take 8 = leEnc 8 len := by
  have h := leEnc_length 4 f
  have h2 := leEnc_length 8 len
  simp only [envelopeBytes, List.append_assoc, List.cons_append, List.nil_append, List.drop_succ_cons]
  rw [List.drop_left' h, List.take_left' h2]

theorem env_crc (f len : Nat) (crc : BitVec 32) (rest : Bytes) :
    ((envelopeBytes f len crc rest).drop 16).take 4 = leEnc 4 crc.toNat := by
  have h := leEnc_length 4 f
  have h2 := leEnc_length 8 len
  have h3 := leEnc_length 4 crc.toNat
  simp only [envelopeBytes, List.append_assoc, List.cons_append, List.nil_append, List.drop_succ_cons]
  rw [← List.append_assoc, List.drop_left' (by rw [List.length_append, h, h2]), List.take_left' h3]

theorem env_rest (f len : Nat) (crc : BitVec 32) (rest : Bytes) :
    (envelopeBytes f len crc rest).drop 20 = rest := by
  have h := leEnc_length 4 f
  have h2 := leEnc_length 8 len
  have h3 := leEnc_length 4 crc.toNat
  simp only [envelopeBytes, List.append_assoc, List.cons_append, List.nil_append, List.drop_succ_cons]
  rw [← List.append_assoc, ← List.append_assoc,
    List.drop_left' (by rw [List.length_append, List.length_append, h, h2, h3])]

theorem env_take20 (f len : Nat) (crc : BitVec 32) (rest : Bytes) :
    (envelopeBytes f len crc rest).take 20 = envelopeBytes f len crc [] := by
  have : envelopeBytes f len crc rest = envelopeBytes f len crc [] ++ rest := by
    simp [envelopeBytes]
  rw [this, List.take_left' (by rw [envelopeBytes_length]; rfl)]

theorem env_header (f len : Nat) (crc : BitVec 32) (rest : Bytes) (hf : f < 2 ^ 32)
    (hl : len < 2 ^ 64) :
    parseHeader (envelopeBytes f len crc rest) = .ok ⟨f % 2 != 0, len, crc⟩ := by
  unfold parseHeader headerLen
  rw [if_neg (by rw [envelopeBytes_length]; omega), env_flags, env_len, env_crc,
    leDec_leEnc 4 f (by simpa using hf), leDec_leEnc 8 len (by simpa using hl),
    leDec_leEnc 4 crc.toNat (by simpa using crc.isLt)]
  simp

/-- What the reader does with a byte string in envelope layout. -/
theorem read_env {V} (M : Msgpack V) (Z : Zstd) (f len : Nat) (crc : BitVec 32) (rest : Bytes)
    (hf : f < 2 ^ 32) (hl : len < 2 ^ 64) :
    deserializeFromBytes M Z (envelopeBytes f len crc rest)
      = if rest.length < len then .error .truncated
        else if crc32c (rest.take len) ≠ crc then .error .crc
        else if f % 2 = 1 then (decompressBytes Z (rest.take len)).bind (fromSlice M)
        else fromSlice M (rest.take len) := by
  unfold deserializeFromBytes detectFormat
  rw [if_pos (env_take4 ..)]
  simp only [env_header f len crc rest hf hl, headerLen, env_rest, envelopeBytes_length,
    verifyCrcComputed]
  have e : 20 + rest.length - 20 = rest.length := by omega
  simp only [e, bind, Except.bind, pure, Except.pure, throw, throwThe, MonadExceptOf.throw]
  by_cases h1 : rest.length < len
  · simp [h1]
  · by_cases h2 : crc32c (rest.take len) = crc
    · rcases Nat.mod_two_eq_zero_or_one f with h3 | h3
      · simp [h1, h2, h3]
      · simp [h1, h2, h3]
    · simp [h1, h2]

theorem fromSlice_enc {V} (M : Msgpack V) {v : V} {b : Bytes} (h : M.enc v = some b) :
    fromSlice M b = .ok v := by
  have := M.dec_enc v b h []
  simp only [List.append_nil] at this
  simp [fromSlice, this]

/-- The payload a write produces. -/
theorem serialize_inv {V} {M : Msgpack V} {Z : Zstd} {v : V} {c : Bool} {out : Bytes}
    (h : serializeToBytes M Z v c = .ok out) :
    ∃ m payload, M.enc v = some m ∧ (if c then Z.comp m = some payload else payload = m) ∧
      out = envelopeBytes (if c then 1 else 0) payload.length (crc32c payload) payload := by
  unfold serializeToBytes at h
  rcases hm : M.enc v with _ | m <;> rw [hm] at h
  · simp at h
  · cases c with
    | false =>
      simp only [Bool.false_eq_true, if_false, Except.ok.injEq] at h
      exact ⟨m, m, rfl, rfl, by rw [← h, writeEnvelope_eq]⟩
    | true =>
      simp only [if_true] at h
      rcases hz : Z.comp m with _ | y <;> rw [hz] at h
      · simp at h
      · simp only [Except.ok.injEq] at h
        exact ⟨m, y, rfl, hz, by rw [← h, writeEnvelope_eq]⟩

/-- **C30 (round trip, in memory)**: what was written, compressed or not, reads back as the same value,
whatever bytes follow it. Payloads have fewer than 2^64 bytes on every platform. -/
theorem C30_bytes_round_trip {V} (M : Msgpack V) (Z : Zstd) (v : V) (compress : Bool)
    (out trailing : Bytes) (h : serializeToBytes M Z v compress = .ok out)
    (hsz : out.length < 2 ^ 64) :
    deserializeFromBytes M Z (out ++ trailing) = .ok v := by
  obtain ⟨m, payload, hm, hp, rfl⟩ := serialize_inv h
  rw [envelopeBytes_length] at hsz
  have e : envelopeBytes (if compress then 1 else 0) payload.length (crc32c payload) payload ++ trailing
      = envelopeBytes (if compress then 1 else 0) payload.length (crc32c payload)
          (payload ++ trailing) := by simp [envelopeBytes]
  rw [e, read_env M Z _ _ _ _ (by split <;> norm_num) (by omega)]
  rw [List.take_left' rfl, if_neg (by simp), if_neg (by simp)]
  cases compress with
  | true =>
    simp only [if_true] at hp
    simp [decompressBytes, Z.decomp_comp _ _ hp, Except.bind, fromSlice_enc M hm]
  | false =>
    simp only [Bool.false_eq_true, if_false] at hp
    subst hp
    simp [fromSlice_enc M hm]

theorem stream_enc {V} (M : Msgpack V) {v : V} {b : Bytes} (h : M.enc v = some b) :
    M.dec b = some (v, b.length) := by
  have := M.dec_enc v b h []
  simpa using this

/-- What the file reader does with a file in envelope layout. -/
theorem readfile_env {V} (M : Msgpack V) (Z : Zstd) (P : Pull) (f len : Nat) (crc : BitVec 32)
    (rest : Bytes) (hf : f < 2 ^ 32) (hl : len < 2 ^ 64) :
    deserializeFromFile M Z P (envelopeBytes f len crc rest)
      = match (if f % 2 = 1 then (M.dec (Z.stream (rest.take len))).map
                  (fun r => (r.1, P.zst (rest.take len) r.2))
               else (M.dec (rest.take len)).map
                  (fun r => (r.1, P.plain (rest.take len).length r.2))) with
        | none => .error .msgpack
        | some (v, k) => if crc32c ((rest.take len).take k) ≠ crc then .error .crc else .ok v := by
  unfold deserializeFromFile
  rw [if_neg (by rw [envelopeBytes_length]; unfold headerLen; omega)]
  simp only [headerLen, env_take20, env_rest]
  have hd : detectFormat (envelopeBytes f len crc []) = .envelope := by
    unfold detectFormat; rw [if_pos (env_take4 ..)]
  rw [hd]
  simp only [env_header f len crc [] hf hl, verifyCrcComputed]
  simp only [bind, Except.bind, pure, Except.pure, throw, throwThe, MonadExceptOf.throw,
    show ∀ x, crcAppend 0 x = crc32c x from fun _ => rfl]
  rcases Nat.mod_two_eq_zero_or_one f with h3 | h3
  · simp only [h3, bne_self_eq_false, Bool.false_eq_true, if_false, zero_ne_one]
    rcases M.dec (rest.take len) with _ | ⟨v, c⟩
    · rfl
    · simp only [Option.map_some]
      by_cases hc : crc32c ((rest.take len).take (P.plain (rest.take len).length c)) = crc
      · rw [if_neg (not_not.mpr hc), if_neg (not_not.mpr hc)]
      · rw [if_pos hc, if_pos hc]
  · simp only [h3, if_true, show (1 != 0) = true from rfl]
    rcases M.dec (Z.stream (rest.take len)) with _ | ⟨v, c⟩
    · rfl
    · simp only [Option.map_some]
      by_cases hc : crc32c ((rest.take len).take (P.zst (rest.take len) c)) = crc
      · rw [if_neg (not_not.mpr hc), if_neg (not_not.mpr hc)]
      · rw [if_pos hc, if_pos hc]

/-- **C30 (round trip, through a file)**. For compressed files this rests on the zstd decoder having
pulled its whole input when the last byte of content has been taken: nothing in the code forces it to. -/
theorem C30_file_round_trip {V} (M : Msgpack V) (Z : Zstd) (P : Pull) (v : V) (compress : Bool)
    (out : Bytes) (h : serializeToBytes M Z v compress = .ok out) (hsz : out.length < 2 ^ 64)
    (hz : compress = true → ∀ x y, Z.comp x = some y → P.zst y x.length = y.length) :
    deserializeFromFile M Z P out = .ok v := by
  obtain ⟨m, payload, hm, hp, rfl⟩ := serialize_inv h
  rw [envelopeBytes_length] at hsz
  rw [readfile_env M Z P _ _ _ _ (by split <;> norm_num) (by omega), List.take_length]
  cases compress with
  | true =>
    simp only [if_true] at hp
    have e := stream_enc M hm
    simp only [if_true, Nat.mod_succ, Z.stream_comp _ _ hp, e, Option.map_some, hz rfl _ _ hp,
      List.take_length]
    simp
  | false =>
    simp only [Bool.false_eq_true, if_false] at hp
    subst hp
    have e := stream_enc M hm
    have h1 := P.plain_ge payload.length payload.length (le_refl _)
    have h2 := P.plain_le payload.length payload.length
    have h3 : P.plain payload.length payload.length = payload.length := by omega
    simp only [Bool.false_eq_true, if_false, Nat.zero_mod, zero_ne_one, e, Option.map_some, h3,
      List.take_length]
    simp

/-- A proper prefix, of at least twenty bytes, of a string in envelope layout. -/
theorem env_take (f len : Nat) (crc : BitVec 32) (rest : Bytes) (k : Nat) (hk : 20 ≤ k) :
    (envelopeBytes f len crc rest).take k = envelopeBytes f len crc (rest.take (k - 20)) := by
  have e : ∀ r, envelopeBytes f len crc r = envelopeBytes f len crc [] ++ r := by
    simp [envelopeBytes]
  rw [e, List.take_append, e (rest.take (k - 20)), envelopeBytes_length]
  rw [List.take_of_length_le (by rw [envelopeBytes_length]; simp; omega)]
  rfl

/-- **C30 (truncation)**: every proper prefix that still contains the magic number is rejected, with
the header error or the truncation error. -/
theorem C30_truncated_rejected {V} (M : Msgpack V) (Z : Zstd) (v : V) (compress : Bool) (out : Bytes)
    (h : serializeToBytes M Z v compress = .ok out) (hsz : out.length < 2 ^ 64) (k : Nat)
    (hk4 : 4 ≤ k) (hk : k < out.length) :
    deserializeFromBytes M Z (out.take k)
      = .error (if k < 20 then .headerTooShort else .truncated) := by
  obtain ⟨m, payload, hm, hp, rfl⟩ := serialize_inv h
  rw [envelopeBytes_length] at hsz hk
  by_cases h20 : k < 20
  · rw [if_pos h20]
    unfold deserializeFromBytes detectFormat
    rw [if_pos (by rw [List.take_take, Nat.min_eq_left hk4, env_take4])]
    have : parseHeader ((envelopeBytes (if compress then 1 else 0) payload.length (crc32c payload)
        payload).take k) = .error .headerTooShort := by
      unfold parseHeader headerLen
      rw [if_pos (by rw [List.length_take, envelopeBytes_length]; omega)]
    simp only [this]
    rfl
  · rw [if_neg h20, env_take _ _ _ _ _ (by omega),
      read_env M Z _ _ _ _ (by split <;> norm_num) (by omega)]
    rw [if_pos (by rw [List.length_take]; omega)]

/-- **C30 (truncation, through a file)**: every proper prefix of an uncompressed file is rejected. -/
theorem C30_file_truncated_rejected {V} (M : Msgpack V) (Z : Zstd) (P : Pull) (v : V) (out : Bytes)
    (h : serializeToBytes M Z v false = .ok out) (hsz : out.length < 2 ^ 64) (k : Nat)
    (hk : k < out.length) :
    ∃ e, deserializeFromFile M Z P (out.take k) = .error e := by
  obtain ⟨m, payload, hm, hp, rfl⟩ := serialize_inv h
  rw [envelopeBytes_length] at hsz hk
  by_cases h20 : k < 20
  · refine ⟨.io, ?_⟩
    unfold deserializeFromFile headerLen
    rw [if_pos (by rw [List.length_take]; omega)]
  · simp only [Bool.false_eq_true, if_false] at hp
    subst hp
    refine ⟨.msgpack, ?_⟩
    rw [env_take _ _ _ _ _ (by omega),
      readfile_env M Z P _ _ _ _ (by split <;> norm_num) (by omega)]
    have ht : (payload.take (k - 20)).take payload.length = payload.take (k - 20) := by
      rw [List.take_take, Nat.min_eq_right (by omega)]
    have hnone : M.dec (payload.take (k - 20)) = none := by
      rcases hd : M.dec (payload.take (k - 20)) with _ | ⟨v', c⟩
      · rfl
      · exfalso
        obtain ⟨hc, hs⟩ := M.dec_stream _ _ _ hd
        have := hs (payload.drop c)
        rw [List.length_take] at hc
        rw [List.take_take, Nat.min_eq_left (by omega), List.take_append_drop, stream_enc M hm] at this
        simp only [Option.some.injEq, Prod.mk.injEq] at this
        omega
    rw [ht, hnone]
    simp

/-- **C30 (checksum)**: whatever the flags, length and payload, a byte string in envelope layout whose
checksum field is not the CRC-32C of its payload is rejected. -/
theorem C30_checksum_mismatch_rejected {V} (M : Msgpack V) (Z : Zstd) (flags : Nat) (crc : BitVec 32)
    (payload trailing : Bytes) (hf : flags < 2 ^ 32) (hl : payload.length < 2 ^ 64)
    (hne : crc ≠ crc32c payload) :
    deserializeFromBytes M Z (envelopeBytes flags payload.length crc (payload ++ trailing))
      = .error .crc := by
  rw [read_env M Z _ _ _ _ hf hl, if_neg (by simp), List.take_left' rfl, if_pos (Ne.symm hne)]

/-- **C30 (corruption)**: a written envelope in which up to four consecutive payload bytes were altered
is rejected. -/
theorem C30_corruption_rejected {V} (M : Msgpack V) (Z : Zstd) (v : V) (compress : Bool)
    (pre w w' post : Bytes) (hdr : Bytes) (hh : hdr.length = 20)
    (h : serializeToBytes M Z v compress = .ok (hdr ++ (pre ++ w ++ post)))
    (hsz : (hdr ++ (pre ++ w ++ post)).length < 2 ^ 64)
    (hl : w.length = w'.length) (h4 : w.length ≤ 4) (hne : w ≠ w') :
    deserializeFromBytes M Z (hdr ++ (pre ++ w' ++ post)) = .error .crc := by
  obtain ⟨m, payload, hm, hp, ho⟩ := serialize_inv h
  have e : ∀ f len crc r, envelopeBytes f len crc r = envelopeBytes f len crc [] ++ r := by
    simp [envelopeBytes]
  rw [e] at ho
  obtain ⟨rfl, rfl⟩ := List.append_inj ho (by rw [hh, envelopeBytes_length]; rfl)
  rw [← e]
  have hlen : (pre ++ w ++ post).length = (pre ++ w' ++ post).length := by simp [hl]
  rw [← e, envelopeBytes_length] at hsz
  have := C30_checksum_mismatch_rejected M Z (if compress then 1 else 0) (crc32c (pre ++ w ++ post))
    (pre ++ w' ++ post) [] (by split <;> norm_num) (by omega) (crc32c_detects pre w w' post hl h4 hne)
  rwa [List.append_nil, ← hlen] at this

/-- **C30 (corruption, through a file)**: the same, provided the decoder pulled the whole payload; the
checksum of a file covers only what was pulled. -/
theorem C30_file_corruption_rejected_partial {V} (M : Msgpack V) (Z : Zstd) (P : Pull) (v : V)
    (pre w w' post : Bytes) (hdr : Bytes) (hh : hdr.length = 20)
    (h : serializeToBytes M Z v false = .ok (hdr ++ (pre ++ w ++ post)))
    (hsz : (hdr ++ (pre ++ w ++ post)).length < 2 ^ 64)
    (hl : w.length = w'.length) (h4 : w.length ≤ 4) (hne : w ≠ w')
    (hpull : ∀ c, P.plain (pre ++ w' ++ post).length c = (pre ++ w' ++ post).length) :
    ∃ e, deserializeFromFile M Z P (hdr ++ (pre ++ w' ++ post)) = .error e := by
  obtain ⟨m, payload, hm, hp, ho⟩ := serialize_inv h
  have e : ∀ f len crc r, envelopeBytes f len crc r = envelopeBytes f len crc [] ++ r := by
    simp [envelopeBytes]
  rw [e] at ho
  obtain ⟨rfl, rfl⟩ := List.append_inj ho (by rw [hh, envelopeBytes_length]; rfl)
  rw [← e]
  have hlen : (pre ++ w ++ post).length = (pre ++ w' ++ post).length := by simp [hl]
  rw [← e, envelopeBytes_length] at hsz
  rw [readfile_env M Z P _ _ _ _ (by split <;> norm_num) (by omega), hlen, List.take_length]
  simp only [Bool.false_eq_true, if_false, Nat.zero_mod, zero_ne_one]
  rcases M.dec (pre ++ w' ++ post) with _ | ⟨v', c⟩
  · exact ⟨_, rfl⟩
  · refine ⟨.crc, ?_⟩
    simp only [Option.map_some, hpull c, List.take_length]
    rw [if_pos (crc32c_detects pre w w' post hl h4 hne).symm]

/-- **C30 fails (checksum through a file)**: a file whose checksum field is the CRC of only the part the
decoder pulls is accepted, although the checksum of its payload differs. -/
theorem C30_file_checksum_covers_pulled_only {V} (M : Msgpack V) (Z : Zstd) (P : Pull) (v : V)
    (m junk : Bytes) (hm : M.enc v = some m) (hsz : (m ++ junk).length < 2 ^ 64) :
    deserializeFromFile M Z P (envelopeBytes 0 (m ++ junk).length
        (crc32c ((m ++ junk).take (P.plain (m ++ junk).length m.length))) (m ++ junk)) = .ok v := by
  rw [readfile_env M Z P _ _ _ _ (by norm_num) hsz, List.take_length, M.dec_enc v m hm junk]
  simp

/-- **C30 fails (unknown flags)**: the thirty-one undefined flag bits are ignored: any flags word with
the right low bit is accepted. -/
theorem C30_unknown_flags_accepted {V} (M : Msgpack V) (Z : Zstd) (flags len : Nat) (crc : BitVec 32)
    (rest : Bytes) (hf : flags < 2 ^ 32) (hl : len < 2 ^ 64) :
    deserializeFromBytes M Z (envelopeBytes flags len crc rest)
      = deserializeFromBytes M Z (envelopeBytes (flags % 2) len crc rest) := by
  rw [read_env M Z _ _ _ _ hf hl, read_env M Z _ _ _ _ (by omega) hl, Nat.mod_mod]

/-- **C30 fails (wrong magic)**: a byte string with neither magic number is not rejected: it is decoded
as a bare value, without any length or checksum test. -/
theorem C30_wrong_magic_accepted {V} (M : Msgpack V) (Z : Zstd) (v : V) (m trailing : Bytes)
    (hm : M.enc v = some m) (h1 : (m ++ trailing).take 4 ≠ [0x4A, 0x53, 0x54, 0x01])
    (h2 : (m ++ trailing).take 4 ≠ [0x28, 0xB5, 0x2F, 0xFD]) :
    deserializeFromBytes M Z (m ++ trailing) = .ok v := by
  unfold deserializeFromBytes detectFormat
  rw [if_neg (show ¬ _ = envelopeMagic from h1), if_neg (show ¬ _ = zstdMagic from h2)]
  simp only [fromSlice, M.dec_enc v m hm trailing]

/-- A string with neither magic number that is not a bare value either is rejected. -/
theorem C30_wrong_magic_garbage_rejected {V} (M : Msgpack V) (Z : Zstd) (data : Bytes)
    (hm : M.dec data = none) (h1 : data.take 4 ≠ [0x4A, 0x53, 0x54, 0x01])
    (h2 : data.take 4 ≠ [0x28, 0xB5, 0x2F, 0xFD]) :
    deserializeFromBytes M Z data = .error .msgpack := by
  unfold deserializeFromBytes detectFormat
  rw [if_neg (show ¬ _ = envelopeMagic from h1), if_neg (show ¬ _ = zstdMagic from h2)]
  simp [fromSlice, hm]

/-! ## The hypotheses are met -/

/-- A one-byte codec. -/
def toyMsgpack : Msgpack UInt8 where
  enc v := some [v]
  dec
    | [] => none
    | b :: _ => some (b, 1)
  dec_enc := by rintro v b ⟨⟩ t; rfl
  dec_stream := by
    rintro (_ | ⟨b, bs⟩) v c h
    · simp at h
    · simp only [Option.some.injEq, Prod.mk.injEq] at h
      obtain ⟨rfl, rfl⟩ := h
      exact ⟨by simp, fun t => rfl⟩

/-- A compressor that only prepends the magic number. -/
def toyZstd : Zstd where
  comp x := some (zstdMagic ++ x)
  decomp y := if y.take 4 = zstdMagic then some (y.drop 4) else none
  stream y := if y.take 4 = zstdMagic then y.drop 4 else []
  decomp_comp := by rintro x y ⟨⟩; simp [zstdMagic]
  stream_comp := by rintro x y ⟨⟩; simp [zstdMagic]
  comp_magic := by rintro x y ⟨⟩; exact List.prefix_append _ _

def toyPull : Pull where
  plain len c := min len (((c + 1) / 2) * 2)
  zst src _ := src.length
  plain_ge := by intro len c h; omega
  plain_le := by intro len c; omega

example : deserializeFromBytes toyMsgpack toyZstd
    ((envelopeBytes 1 5 (crc32c [0x28, 0xB5, 0x2F, 0xFD, 77]) [0x28, 0xB5, 0x2F, 0xFD, 77]) ++ [9, 9])
    = .ok 77 :=
  C30_bytes_round_trip toyMsgpack toyZstd 77 true _ [9, 9] (by rfl) (by simp [envelopeBytes_length])

example : deserializeFromFile toyMsgpack toyZstd toyPull
    (envelopeBytes 1 5 (crc32c [0x28, 0xB5, 0x2F, 0xFD, 77]) [0x28, 0xB5, 0x2F, 0xFD, 77]) = .ok 77 :=
  C30_file_round_trip toyMsgpack toyZstd toyPull 77 true _ (by rfl) (by simp [envelopeBytes_length])
    (by rintro - x y -; rfl)

example : deserializeFromBytes toyMsgpack toyZstd
    ((envelopeBytes 0 1 (crc32c [77]) [77]).take 20) = .error .truncated :=
  C30_truncated_rejected toyMsgpack toyZstd 77 false _ (by rfl) (by simp [envelopeBytes_length]) 20
    (by norm_num) (by simp [envelopeBytes_length])

example : deserializeFromBytes toyMsgpack toyZstd (envelopeBytes 0 1 (crc32c [77]) [] ++ ([] ++ [78] ++ []))
    = .error .crc :=
  C30_corruption_rejected toyMsgpack toyZstd 77 false [] [77] [78] []
    (envelopeBytes 0 1 (crc32c [77]) []) (by rw [envelopeBytes_length]; rfl) (by rfl)
    (by simp [envelopeBytes_length]) rfl (by simp) (by decide)

/-- Two different checksums, both accepted for the same file contents by the file reader's rule. -/
example : deserializeFromFile toyMsgpack toyZstd toyPull
      (envelopeBytes 0 3 (crc32c [77, 1]) [77, 1, 2]) = .ok 77 ∧
    crc32c [77, 1] ≠ crc32c [77, 1, 2] :=
  ⟨C30_file_checksum_covers_pulled_only toyMsgpack toyZstd toyPull 77 [77] [1, 2] rfl (by simp),
    by decide +kernel⟩

example : deserializeFromBytes toyMsgpack toyZstd (envelopeBytes 0xFFFFFFFE 1 (crc32c [77]) [77])
    = .ok 77 := by
  rw [C30_unknown_flags_accepted _ _ _ _ _ _ (by norm_num) (by norm_num)]
  exact C30_bytes_round_trip toyMsgpack toyZstd 77 false _ [] (by rfl)
    (by simp [writeEnvelope_eq, envelopeBytes_length])

example : deserializeFromBytes toyMsgpack toyZstd ([77] ++ [1, 2, 3]) = .ok 77 :=
  C30_wrong_magic_accepted toyMsgpack toyZstd 77 [77] [1, 2, 3] rfl (by decide) (by decide)

end JST.Props
