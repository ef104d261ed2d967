import Verif.Runner.ProofConfig
import Verif.Props.Envelope

/-!
# C33: proof-configuration identifiers
-/

namespace JST.Props

open JST JST.IO JST.Runner

/-- **C33 (ids round-trip)**. -/
theorem C33_id_round_trip (c : ProofConfig) : fromConfigId (configId c) = .ok c := by
  cases c <;> rfl

/-- **C33 (ids are unambiguous)**. -/
theorem C33_id_injective (c d : ProofConfig) (h : configId c = configId d) : c = d := by
  have := C33_id_round_trip c
  rw [h, C33_id_round_trip] at this
  exact (Except.ok.inj this).symm

/-- **C33 (every accepted id is the id of the configuration returned; every other integer is rejected)**. -/
theorem C33_id_exact (id : Nat) :
    (∀ c, fromConfigId id = .ok c → configId c = id) ∧
    ((∀ c, configId c ≠ id) → fromConfigId id = .error (.unknownConfigId id)) := by
  constructor
  · intro c h
    unfold fromConfigId at h
    split at h <;> first | (cases h; rfl) | exact absurd h (by simp)
  · intro h
    unfold fromConfigId
    split
    · exact absurd rfl (h .bn254Raw)
    · exact absurd rfl (h .goldilocksRaw)
    · exact absurd rfl (h .goldilocksBasefold)
    · exact absurd rfl (h .goldilocksExt2Basefold)
    · exact absurd rfl (h .goldilocksExt3Whir)
    · exact absurd rfl (h .goldilocksExt4Whir)
    · rfl

/-- **C33 (the identifiers are pinned)**: they are part of the file format. -/
theorem C33_id_pinned :
    [ProofConfig.bn254Raw, .goldilocksRaw, .goldilocksBasefold, .goldilocksExt2Basefold,
      .goldilocksExt3Whir, .goldilocksExt4Whir].map configId = [2, 4, 8, 9, 10, 11] := rfl

/-- **C33 (names round-trip)**. -/
theorem C33_name_round_trip (c : ProofConfig) : fromStr (display c) = .ok c := by
  cases c <;> decide +kernel

/-- **C33 (names are unambiguous)**. -/
theorem C33_name_injective (c d : ProofConfig) (h : display c = display d) : c = d := by
  have := C33_name_round_trip c
  rw [h, C33_name_round_trip] at this
  exact (Except.ok.inj this).symm

/-- The names a user may type for each configuration, in lower case. -/
def acceptedNames : ProofConfig → List String
  | .bn254Raw => ["bn254_raw", "bn254"]
  | .goldilocksRaw => ["goldilocks_raw"]
  | .goldilocksBasefold => ["goldilocks_basefold", "goldilocks"]
  | .goldilocksExt2Basefold => ["goldilocks_ext2_basefold", "goldilocks_ext2"]
  | .goldilocksExt3Whir => ["goldilocks_ext3_whir", "goldilocks_whir"]
  | .goldilocksExt4Whir => ["goldilocks_ext4_whir", "goldilocks_whir_pq"]

/-- **C33 (names, exactly)**: a string is accepted as a configuration exactly when its ASCII lower-case
form is one of that configuration's names; every other string is rejected, naming the string. -/
theorem C33_name_exact (s : String) :
    (∀ c, fromStr s = .ok c ↔ toAsciiLowercase s ∈ acceptedNames c) ∧
    ((∀ c, toAsciiLowercase s ∉ acceptedNames c) →
      fromStr s = .error (.unknownName (toAsciiLowercase s))) := by
  generalize hl : toAsciiLowercase s = l
  have hnd : (nameTable.map Prod.fst).Nodup := by decide +kernel
  have htab : ∀ c n, (n, c) ∈ nameTable ↔ n ∈ acceptedNames c := by
    intro c n
    cases c <;> simp [nameTable, acceptedNames]
  have hfind : ∀ e, nameTable.find? (fun e => e.1 == l) = some e ↔ e ∈ nameTable ∧ e.1 = l := by
    intro e
    constructor
    · intro h
      exact ⟨List.mem_of_find?_eq_some h, by simpa using List.find?_some h⟩
    · rintro ⟨hm, rfl⟩
      rcases hf : nameTable.find? (fun e' => e'.1 == e.1) with _ | e'
      · rw [List.find?_eq_none] at hf
        exact absurd (hf e hm) (by simp)
      · have h1 := List.mem_of_find?_eq_some hf
        have h2 : e'.1 = e.1 := by simpa using List.find?_some hf
        rw [hf, List.inj_on_of_nodup_map hnd h1 hm h2]
  have hnone : nameTable.find? (fun e => e.1 == l) = none → ∀ c, l ∉ acceptedNames c := by
    intro h c hc
    rw [List.find?_eq_none] at h
    exact absurd (h (l, c) ((htab c l).mpr hc)) (by simp)
  unfold fromStr
  rw [hl]
  constructor
  · intro c
    rcases hf : nameTable.find? (fun e => e.1 == l) with _ | e
    · rw [hf]; simp [hnone hf c]
    · obtain ⟨hm, he⟩ := (hfind e).mp hf
      rw [hf]
      simp only [Except.ok.injEq]
      constructor
      · rintro rfl
        rw [← htab, ← he]; exact hm
      · intro hc
        have := (htab c l).mpr hc
        have h3 := (hfind (l, c)).mpr ⟨this, rfl⟩
        rw [hf] at h3
        exact congrArg Prod.snd (Option.some.inj h3)
  · intro h
    rcases hf : nameTable.find? (fun e => e.1 == l) with _ | e
    · rw [hf]
    · obtain ⟨hm, he⟩ := (hfind e).mp hf
      exact absurd ((htab e.2 l).mp (by rw [← he]; exact hm)) (h e.2)

/-- **C33 (stale versions)**: a stamp is accepted exactly when its version is the current one; a stale
stamp is refused with the stored and the current version. -/
theorem C33_stamp (s : Stamped) :
    (s.ensureCurrent = .ok () ↔ s = Stamped.current s.config) ∧
    (s ≠ Stamped.current s.config →
      s.ensureCurrent = .error (.versionMismatch s.config s.version (currentVersion s.config))) := by
  obtain ⟨c, v⟩ := s
  unfold Stamped.ensureCurrent Stamped.current
  by_cases h : v = currentVersion c <;> simp [h]

/-- **C33 (field detection)**: a circuit file, plain or compressed, whose header carries the modulus of
one of the two fields is recognised as that field. A plain circuit must not begin with the zstd magic
number. -/
theorem C33_detect_field (Z : Zstd) (magic rest data file : Bytes) (f : PField)
    (hmag : magic.length = 8)
    (hd : data = magic ++ leEnc 32 (match f with | .bn254 => bn254P | .goldilocks => goldP) ++ rest)
    (hf : (file = data ∧ data.take 4 ≠ [0x28, 0xB5, 0x2F, 0xFD]) ∨ Z.comp data = some file) :
    detectField Z file = .ok f := by
  have ha : autoDecompress Z file = some data := by
    unfold autoDecompress
    rcases hf with ⟨rfl, h⟩ | h
    · rw [if_neg (show ¬ _ = zstdMagic from h)]
    · obtain ⟨t, rfl⟩ := Z.comp_magic _ _ h
      rw [if_pos (by simp [zstdMagic]), Z.decomp_comp _ _ h]
  unfold detectField
  rw [ha]
  simp only
  have hl : ∀ p, (magic ++ leEnc 32 p ++ rest).length = 40 + rest.length := by
    intro p; simp [leEnc_length, hmag]; omega
  have hmod : ∀ p, ((magic ++ leEnc 32 p ++ rest).drop 8).take 32 = leEnc 32 p := by
    intro p
    rw [List.append_assoc, List.drop_left' hmag, List.take_left' (leEnc_length 32 p)]
  cases f with
  | bn254 =>
    simp only at hd
    rw [hd, if_neg (by rw [hl]; omega), hmod, leDec_leEnc _ _ (by norm_num [bn254P]), if_pos rfl]
  | goldilocks =>
    simp only at hd
    rw [hd, if_neg (by rw [hl]; omega), hmod, leDec_leEnc _ _ (by norm_num [goldP]),
      if_neg (by norm_num [goldP, bn254P]), if_pos rfl]

/-- **C33 (field detection rejects other moduli)**. -/
theorem C33_detect_field_exact (Z : Zstd) (file : Bytes) (f : PField)
    (h : detectField Z file = .ok f) :
    ∃ data, autoDecompress Z file = some data ∧ 40 ≤ data.length ∧
      leDec ((data.drop 8).take 32) = (match f with | .bn254 => bn254P | .goldilocks => goldP) := by
  unfold detectField at h
  rcases ha : autoDecompress Z file with _ | data <;> rw [ha] at h
  · simp at h
  · refine ⟨data, rfl, ?_⟩
    simp only at h
    split_ifs at h with h1 h2 h3
    · cases h; exact ⟨by omega, h2⟩
    · cases h; exact ⟨by omega, h3⟩

example : fromStr "Goldilocks_WHIR" = .ok .goldilocksExt3Whir := by decide +kernel
example : fromStr "bn255" = .error (.unknownName "bn255") := by decide +kernel
example : fromConfigId 3 = .error (.unknownConfigId 3) := (C33_id_exact 3).2 (by intro c; cases c <;> decide)
example : detectField toyZstd ([1, 2, 3, 4, 5, 6, 7, 8] ++ leEnc 32 goldP ++ [9]) = .ok .goldilocks :=
  C33_detect_field toyZstd [1, 2, 3, 4, 5, 6, 7, 8] [9] _ _ .goldilocks rfl rfl (.inl ⟨rfl, by decide⟩)

end JST.Props
