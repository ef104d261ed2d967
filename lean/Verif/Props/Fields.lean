import Verif.Field.M31
import Verif.Field.GoldInv
import Verif.Props.Serde

/-!
# Properties C27, C28, C29: the base fields

The specification is `ZMod p`: a stored representation `v` stands for the residue of `v`.
-/

namespace JST.Props

open JST

/-! ## C27: Mersenne-31 -/

/-- The stored representations a caller can obtain through the public operations of `M31`
(prover/arith/mersenne31/src/m31.rs), leaving out the two `unsafe_*` helpers and, for
`from_uniform_bytes`, the one byte string `ff ff ff ff`. -/
inductive M31Reach : Nat → Prop
  | zero : M31Reach 0
  | one : M31Reach 1
  | inv2 : M31Reach (2 ^ 30)
  | ofU32 {x} : x < 2 ^ 32 → M31Reach (M31.fromU32 x)
  | ofU256 {hi lo} : hi < 2 ^ 128 → lo < 2 ^ 128 → M31Reach (M31.fromU256 hi lo)
  | ofBytes {s rest v} : M31.de s = .ok (v, rest) → M31Reach v
  | ofUniform {x} : x < 2 ^ 32 - 1 → M31Reach (M31.fromUniform x)
  | add {a b r} : M31Reach a → M31Reach b → M31.add a b = some r → M31Reach r
  | sub {a b r} : M31Reach a → M31Reach b → M31.sub a b = some r → M31Reach r
  | mul {a b r} : M31Reach a → M31Reach b → M31.mul a b = some r → M31Reach r
  | neg {a r} : M31Reach a → M31.neg a = some r → M31Reach r
  | inv {a r} : M31Reach a → M31.inv a = some (some r) → M31Reach r
  | exp {a e r} : M31Reach a → e < 2 ^ 128 → M31.exp a e = some r → M31Reach r

theorem m31_de_inv {s rest : Bytes} {v : Nat} (h : M31.de s = .ok (v, rest)) :
    s = leEnc 4 v ++ rest ∧ v < M31.MOD := by
  unfold M31.de at h
  obtain ⟨u, s1, h1, h2⟩ := De.bind_inv h
  obtain ⟨hl, hs⟩ := readExact_inv h1
  dsimp only at h2
  split_ifs at h2 with hge
  · cases h2
  · rw [De.pure_eq] at h2
    obtain ⟨rfl, rfl⟩ := Prod.mk.inj (Except.ok.inj h2)
    refine ⟨?_, by omega⟩
    rw [hs]
    conv_lhs => rw [← leEnc_leDec u, hl]

theorem m31Reach_le {v : Nat} (h : M31Reach v) : v ≤ M31.MOD := by
  induction h with
  | zero => unfold M31.MOD; omega
  | one => unfold M31.MOD; omega
  | inv2 => unfold M31.MOD; norm_num
  | ofU32 hx => unfold M31.fromU32 M31.MOD; split_ifs <;> omega
  | ofU256 hh hl => rw [M31.fromU256_spec hh hl]; exact (Nat.mod_lt _ (by decide)).le
  | ofBytes h => exact (m31_de_inv h).2.le
  | ofUniform hx => unfold M31.fromUniform; rw [M31.reduce32_canon hx]; exact (Nat.mod_lt _ (by decide)).le
  | add _ _ h iha ihb => obtain ⟨r, e, l, -⟩ := M31.add_spec iha ihb; rw [h] at e; cases e; exact l
  | sub _ _ h iha ihb => obtain ⟨r, e, l, -⟩ := M31.sub_spec iha ihb; rw [h] at e; cases e; exact l
  | mul _ _ h iha ihb => obtain ⟨r, e, l, -⟩ := M31.mul_spec' iha ihb; rw [h] at e; cases e; exact l
  | neg _ h iha => obtain ⟨r, e, l, -⟩ := M31.neg_spec iha; rw [h] at e; cases e; exact l
  | inv _ h iha =>
    rcases M31.inv_spec iha with ⟨-, e⟩ | ⟨-, r, e, l, -⟩
    · rw [h] at e; cases e
    · rw [h] at e; cases e; exact l
  | exp _ he h iha =>
    obtain ⟨r, e, l, -⟩ := M31.expLoop_spec 128 _ 1 _ he (by decide) iha
    unfold M31.exp at h
    rw [h] at e; cases e; exact l

/-- **C27.** Every representation obtainable through the public operations is at most the modulus
`2^31 - 1`. -/
theorem C27_m31_reachable (v : Nat) (h : M31Reach v) : v ≤ 2 ^ 31 - 1 := m31Reach_le h

example : M31Reach 2147483646 := .neg .one (by decide)

/-- **C27.** On every representation up to the modulus (zero has two: `0` and `2^31 - 1`; by
`C27_m31_reachable` these include all that can be obtained), M31 arithmetic never overflows and computes arithmetic modulo `2^31 - 1`; equality, ordering and the zero test compare
residues; conversions read out the residue. Partial: see `C27_uniform_bytes_escape`. -/
theorem C27_m31_arith_partial (a b : Nat) (la : a ≤ 2 ^ 31 - 1) (lb : b ≤ 2 ^ 31 - 1) :
    (∃ r, M31.add a b = some r ∧ r ≤ 2 ^ 31 - 1 ∧ (r : ZMod m31P) = a + b) ∧
    (∃ r, M31.sub a b = some r ∧ r ≤ 2 ^ 31 - 1 ∧ (r : ZMod m31P) = a - b) ∧
    (∃ r, M31.mul a b = some r ∧ r ≤ 2 ^ 31 - 1 ∧ (r : ZMod m31P) = a * b) ∧
    (∃ r, M31.neg a = some r ∧ r ≤ 2 ^ 31 - 1 ∧ (r : ZMod m31P) = -a) ∧
    (∀ e, e < 2 ^ 128 → ∃ r, M31.exp a e = some r ∧ r ≤ 2 ^ 31 - 1 ∧ (r : ZMod m31P) = a ^ e) ∧
    (((a : ZMod m31P) = 0 ∧ M31.inv a = some none) ∨
      ((a : ZMod m31P) ≠ 0 ∧ ∃ r, M31.inv a = some (some r) ∧ r ≤ 2 ^ 31 - 1 ∧
        (r : ZMod m31P) = (a : ZMod m31P)⁻¹)) ∧
    (M31.isZero a = true ↔ (a : ZMod m31P) = 0) ∧
    (M31.eq a b = true ↔ (a : ZMod m31P) = b) ∧
    (M31.cmp a b = compare (a : ZMod m31P).val (b : ZMod m31P).val) ∧
    M31.toU256 a = (a : ZMod m31P).val := by
  have hred : ∀ v, v ≤ M31.MOD → M31.reduce32 v = (v : ZMod m31P).val := fun v hv => by
    rw [M31.reduce32_canon (by unfold M31.MOD at hv; omega), ZMod.val_natCast]; rfl
  refine ⟨?_, ?_, ?_, ?_, ?_, ?_, M31.isZero_iff la, ?_, ?_, hred a la⟩
  · obtain ⟨r, e, l, v⟩ := M31.add_spec la lb; exact ⟨r, e, l, v⟩
  · obtain ⟨r, e, l, v⟩ := M31.sub_spec la lb; exact ⟨r, e, l, v⟩
  · obtain ⟨r, e, l, v⟩ := M31.mul_spec' la lb; exact ⟨r, e, l, v⟩
  · obtain ⟨r, e, l, v⟩ := M31.neg_spec la; exact ⟨r, e, l, v⟩
  · intro n hn
    obtain ⟨r, e, l, v⟩ := M31.expLoop_spec 128 n 1 a hn (by decide) la
    exact ⟨r, e, l, by simpa using v⟩
  · rcases M31.inv_spec la with ⟨h, e⟩ | ⟨h, r, e, l, v⟩
    · exact Or.inl ⟨h, e⟩
    · exact Or.inr ⟨h, r, e, l, eq_inv_of_mul_eq_one_left v⟩
  · unfold M31.eq
    rw [beq_iff_eq, hred a la, hred b lb]
    exact ⟨fun h => ZMod.val_injective _ h, fun h => by rw [h]⟩
  · unfold M31.cmp
    rw [hred a la, hred b lb]

/-- Both representations of zero. -/
example : M31.add 2147483647 2147483647 = some 2147483647 ∧ M31.eq 2147483647 0 = true ∧
    M31.mul 2147483647 5 = some 0 ∧ M31.inv 5 = some (some 858993459) := by decide +kernel

/-- **C27.** Conversion from wider integers and from uniform bytes is reduction modulo `2^31 - 1`. -/
theorem C27_m31_conversions :
    (∀ x, x < 2 ^ 32 → M31.fromU32 x = (x : ZMod m31P).val) ∧
    (∀ hi lo, hi < 2 ^ 128 → lo < 2 ^ 128 →
      M31.fromU256 hi lo = ((hi * 2 ^ 128 + lo : Nat) : ZMod m31P).val) ∧
    (∀ x, x < 2 ^ 32 → (M31.fromUniform x : ZMod m31P) = x) := by
  refine ⟨fun x hx => ?_, fun hi lo hh hl => ?_, fun x hx => ?_⟩
  · rw [ZMod.val_natCast]
    show _ = x % M31.MOD
    unfold M31.fromU32
    split_ifs with h
    · exact (Nat.mod_eq_of_lt h).symm
    · rfl
  · rw [M31.fromU256_spec hh hl, ZMod.val_natCast]; rfl
  · exact (M31.val_eq_iff _ _).mpr (M31.reduce32_mod x)

/-- **C27, the exception.** The challenge bytes `ff ff ff ff` give the representation `2^31`, which is
above the modulus: negating it, subtracting it from a small element and doubling it all overflow
`u32`. It is the only such byte string. -/
theorem C27_uniform_bytes_escape :
    M31.fromUniform (2 ^ 32 - 1) = 2 ^ 31 ∧ M31.neg (2 ^ 31) = none ∧
    (∀ a, a = 0 → M31.sub a (2 ^ 31) = none) ∧ M31.add (2 ^ 31) (2 ^ 31) = none ∧
    (∀ x, x < 2 ^ 32 → M31.MOD < M31.fromUniform x → x = 2 ^ 32 - 1) := by
  refine ⟨by decide, by decide, ?_, by decide, ?_⟩
  · rintro a rfl; decide
  · intro x hx h
    by_contra hne
    have := M31.reduce32_canon (x := x) (by omega)
    unfold M31.fromUniform at h
    rw [this] at h
    have := Nat.mod_lt x (show 0 < M31.MOD by decide)
    omega

/-- **C27.** `unsafe_double` of a representation of zero is a representation of zero that `is_zero`
does not recognise. -/
theorem C27_unsafe_double_zero :
    (M31.unsafeDouble M31.MOD : ZMod m31P) = 0 ∧ M31.isZero (M31.unsafeDouble M31.MOD) = false :=
  ⟨(ZMod.natCast_eq_zero_iff _ _).mpr (by decide), by decide⟩

/-! ## C28: Goldilocks -/

/-- **C28.** On every 64-bit representation, canonical or not, Goldilocks addition, subtraction,
multiplication and negation never overflow nor reach an `assume` that fails, and compute arithmetic
modulo `2^64 - 2^32 + 1`; equality, ordering and the zero test compare residues. -/
theorem C28_goldilocks_arith (a b : Nat) (ha : a < 2 ^ 64) (hb : b < 2 ^ 64) :
    (∃ r, Gold.add a b = some r ∧ r < 2 ^ 64 ∧ (r : ZMod goldP) = a + b) ∧
    (∃ r, Gold.sub a b = some r ∧ r < 2 ^ 64 ∧ (r : ZMod goldP) = a - b) ∧
    (∃ r, Gold.mul a b = some r ∧ r < 2 ^ 64 ∧ (r : ZMod goldP) = a * b) ∧
    (∃ r, Gold.neg a = some r ∧ r < 2 ^ 64 ∧ (r : ZMod goldP) = -a) ∧
    (Gold.isZero a = true ↔ (a : ZMod goldP) = 0) ∧
    (Gold.eq a b = true ↔ (a : ZMod goldP) = b) ∧
    (Gold.cmp a b = compare (a : ZMod goldP).val (b : ZMod goldP).val) ∧
    Gold.toU256 a = (a : ZMod goldP).val ∧
    Gold.fromU64 a = (a : ZMod goldP).val ∧
    Gold.fromUniform a = (a : ZMod goldP).val := by
  have hred : ∀ v, v < 2 ^ 64 → Gold.reduce v = (v : ZMod goldP).val := fun v hv => by
    rw [Gold.reduce_canon hv, ZMod.val_natCast]; rfl
  refine ⟨Gold.add_spec ha hb, Gold.sub_spec ha hb, Gold.mul_spec ha hb, Gold.neg_spec ha,
    Gold.isZero_iff ha, ?_, ?_, hred a ha, hred a ha, hred a ha⟩
  · unfold Gold.eq
    rw [beq_iff_eq, hred a ha, hred b hb]
    exact ⟨fun h => ZMod.val_injective _ h, fun h => by rw [h]⟩
  · unfold Gold.cmp
    rw [hred a ha, hred b hb]

/-- Both overflow corrections of the addition are reached. -/
example : Gold.add (2 ^ 64 - 1) (2 ^ 64 - 1) = some 8589934588 ∧ Gold.sub 0 (2 ^ 64 - 1) =
    some 18446744065119617027 := by decide

/-- **C28.** The 128-bit reduction is correct on every `u128`. -/
theorem C28_reduce128 (x : Nat) (hx : x < 2 ^ 128) :
    ∃ r, Gold.reduce128 x = some r ∧ r < 2 ^ 64 ∧ (r : ZMod goldP) = x := Gold.reduce128_spec hx

/-- **C28.** Conversion from any 256-bit integer is reduction modulo the prime. -/
theorem C28_from_u256 (x : Nat) : Gold.fromU256 x = (x : ZMod goldP).val := by
  unfold Gold.fromU256
  have h : x % Gold.MOD < Gold.MOD := Nat.mod_lt _ (by decide)
  rw [Gold.gMOD_eq] at *
  rw [Nat.mod_eq_of_lt (by omega : x % 18446744069414584321 < 2 ^ 128),
    Nat.mod_eq_of_lt (by omega : x % 18446744069414584321 < 2 ^ 64), ZMod.val_natCast]
  unfold Gold.reduce
  rw [if_neg (by rw [Gold.gMOD_eq]; omega)]
  rfl

/-- **C28, inversion.** For every stored representation: a result, if the code reaches one, is `None`
exactly on zero and otherwise the inverse; and the algorithm run with unbounded `c` and `d` always
reaches a result (its loop ends and its `u64` operations never overflow). Missing: a proof that the
`i128` counters `c` and `d` of the code cannot overflow before the loop ends. -/
theorem C28_goldilocks_inverse_partial (x : Nat) (hx : x < 2 ^ 64) :
    (∀ r, Gold.inv x = some r →
      ((x : ZMod goldP) = 0 ∧ r = none) ∨
      ((x : ZMod goldP) ≠ 0 ∧ ∃ v, r = some v ∧ v < 2 ^ 64 ∧ (v : ZMod goldP) = (x : ZMod goldP)⁻¹)) ∧
    (∃ r, Gold.tryInverse (fun _ => true) x = some r ∧
      (((x : ZMod goldP) = 0 ∧ r = none) ∨
      ((x : ZMod goldP) ≠ 0 ∧
        ∃ v, r = some v ∧ v < 2 ^ 64 ∧ (v : ZMod goldP) = (x : ZMod goldP)⁻¹))) := by
  have key : ∀ ck r, Gold.tryInverse ck x = some r →
      ((x : ZMod goldP) = 0 ∧ r = none) ∨
      ((x : ZMod goldP) ≠ 0 ∧
        ∃ v, r = some v ∧ v < 2 ^ 64 ∧ (v : ZMod goldP) = (x : ZMod goldP)⁻¹) := fun ck r h => by
    rcases Gold.tryInverse_sound hx h with h | ⟨h0, v, h1, h2, h3⟩
    · exact Or.inl h
    · exact Or.inr ⟨h0, v, h1, h2, eq_inv_of_mul_eq_one_left h3⟩
  refine ⟨key _, ?_⟩
  obtain ⟨r, hr⟩ := Gold.tryInverse_total hx
  exact ⟨r, hr, key _ r hr⟩

/-- The code's `i128` version does reach results, also on a non-canonical representation. -/
example : Gold.inv 3 = some (some 12297829379609722881) ∧
    Gold.inv (Gold.MOD + 3) = some (some 12297829379609722881) := by decide +kernel

/-- **C28.** The root of unity used for FFTs has order exactly `2^32`. -/
theorem C28_root_of_unity :
    (0x185629dcda58878c : ZMod goldP) ^ (2 ^ 32) = 1 ∧
    (0x185629dcda58878c : ZMod goldP) ^ (2 ^ 31) ≠ 1 := by
  have h : ∀ k, k < 2 ^ 40 → ((0x185629dcda58878c : ZMod goldP) ^ k
      = ((powMod 0x185629dcda58878c goldP 40 k : Nat) : ZMod goldP)) := fun k hk => by
    rw [powMod_eq _ _ _ _ hk, ZMod.natCast_mod]; push_cast; rfl
  constructor
  · rw [h _ (by norm_num), show powMod 0x185629dcda58878c goldP 40 (2 ^ 32) = 1 by decide +kernel]
    simp
  · rw [h _ (by norm_num), show powMod 0x185629dcda58878c goldP 40 (2 ^ 31) = goldP - 1 by decide +kernel]
    intro h
    have : ((goldP - 1 : Nat) : ZMod goldP) = ((1 : Nat) : ZMod goldP) := by rw [h]; simp
    rw [ZMod.natCast_eq_natCast_iff'] at this
    revert this; decide

/-! ## C29: canonical decoding -/

theorem gold_de_inv {s rest : Bytes} {v : Nat} (h : Gold.de s = .ok (v, rest)) :
    s = leEnc 8 v ++ rest ∧ v < Gold.MOD := by
  unfold Gold.de at h
  obtain ⟨u, s1, h1, h2⟩ := De.bind_inv h
  obtain ⟨hl, hs⟩ := readExact_inv h1
  dsimp only at h2
  split_ifs at h2 with hge
  · cases h2
  · rw [De.pure_eq] at h2
    obtain ⟨rfl, rfl⟩ := Prod.mk.inj (Except.ok.inj h2)
    refine ⟨?_, by omega⟩
    rw [hs]
    conv_lhs => rw [← leEnc_leDec u, hl]

/-- **C29, M31.** Decoding accepts exactly the four-byte little-endian encodings of the integers below
the modulus (a longer input keeps its tail), so each field element has exactly one accepted
encoding; and it is the one `serialize_into` writes, whatever representation was stored. -/
theorem C29_m31_decoding :
    (∀ s rest v, M31.de s = .ok (v, rest) ↔ v < 2 ^ 31 - 1 ∧ s = leEnc 4 v ++ rest) ∧
    (∀ s t v w, M31.de s = .ok (v, []) → M31.de t = .ok (w, []) → (v : ZMod m31P) = w → s = t) ∧
    (∀ v, M31Reach v → ∃ w : Nat, (w : ZMod m31P) = v ∧ Decodes M31.de w (M31.ser v)) := by
  have hdec : ∀ v, v < M31.MOD → Decodes M31.de v (leEnc 4 v) := fun v hv => by
    unfold M31.de
    refine (decodes_le 4 v).map ?_
    rw [leDec_leEnc 4 v (by unfold M31.MOD at hv; omega)]
    simp only [if_neg (not_le.mpr hv)]
  refine ⟨fun s rest v => ⟨fun h => ?_, fun h => ?_⟩, fun s t v w hv hw h => ?_, fun v hv => ?_⟩
  · obtain ⟨h1, h2⟩ := m31_de_inv h; exact ⟨h2, h1⟩
  · rw [h.2]; exact (hdec v h.1).roundTrip rest
  · obtain ⟨h1, h2⟩ := m31_de_inv hv
    obtain ⟨h3, h4⟩ := m31_de_inv hw
    have := (M31.val_eq_iff v w).mp h
    rw [Nat.mod_eq_of_lt h2, Nat.mod_eq_of_lt h4] at this
    rw [h1, h3, this]
  · have hle := m31Reach_le hv
    have hr := M31.reduce32_canon (x := v) (by unfold M31.MOD at hle; omega)
    refine ⟨M31.reduce32 v, (M31.val_eq_iff _ _).mpr (M31.reduce32_mod v), hdec _ ?_⟩
    rw [hr]; exact Nat.mod_lt _ (by decide)

/-- **C29, Goldilocks.** As for M31, with eight bytes and every 64-bit representation. -/
theorem C29_goldilocks_decoding :
    (∀ s rest v, Gold.de s = .ok (v, rest) ↔ v < 2 ^ 64 - 2 ^ 32 + 1 ∧ s = leEnc 8 v ++ rest) ∧
    (∀ s t v w, Gold.de s = .ok (v, []) → Gold.de t = .ok (w, []) → (v : ZMod goldP) = w → s = t) ∧
    (∀ v : Nat, v < 2 ^ 64 → ∃ w : Nat, (w : ZMod goldP) = v ∧ Decodes Gold.de w (Gold.ser v)) := by
  have hdec : ∀ v, v < Gold.MOD → Decodes Gold.de v (leEnc 8 v) := fun v hv => by
    unfold Gold.de
    refine (decodes_le 8 v).map ?_
    rw [leDec_leEnc 8 v (by rw [Gold.gMOD_eq] at hv; omega)]
    simp only [if_neg (not_le.mpr hv)]
  refine ⟨fun s rest v => ⟨fun h => ?_, fun h => ?_⟩, fun s t v w hv hw h => ?_, fun v hv => ?_⟩
  · obtain ⟨h1, h2⟩ := gold_de_inv h; exact ⟨h2, h1⟩
  · rw [h.2]; exact (hdec v h.1).roundTrip rest
  · obtain ⟨h1, h2⟩ := gold_de_inv hv
    obtain ⟨h3, h4⟩ := gold_de_inv hw
    have := (Gold.val_eq_iff v w).mp h
    rw [Nat.mod_eq_of_lt h2, Nat.mod_eq_of_lt h4] at this
    rw [h1, h3, this]
  · have hr := Gold.reduce_canon hv
    refine ⟨Gold.reduce v, (Gold.val_eq_iff _ _).mpr (by rw [hr, Nat.mod_mod]), hdec _ ?_⟩
    rw [hr]; exact Nat.mod_lt _ (by decide)

/-- The encodings of `p` and `p + 3` are rejected, that of `p - 1` accepted. -/
example : M31.de [0xff, 0xff, 0xff, 0x7f] = .error .invalid ∧
    M31.de [0xfe, 0xff, 0xff, 0x7f, 9] = .ok (2147483646, [9]) ∧
    Gold.de [4, 0, 0, 0, 0xff, 0xff, 0xff, 0xff] = .error .invalid ∧
    Gold.de [0, 0, 0, 0, 0xff, 0xff, 0xff, 0xff] = .ok (18446744069414584320, []) := by
  decide +kernel

end JST.Props
