import Verif.IO.Bytes
import Mathlib.Logic.Function.Iterate

/-!
# CRC-32C

The checksum used by the artifact envelope, `crc32c::crc32c` (reflected Castagnoli polynomial, initial
value and final complement all ones), in its bit-serial form, and its error-detection property.
-/

namespace JST

/-- The reflected Castagnoli polynomial. -/
def crcPoly : BitVec 32 := 0x82F63B78#32

/-- One bit of the register update. -/
def crcStep (s : BitVec 32) : BitVec 32 :=
  if s.getLsbD 0 then (s >>> 1) ^^^ crcPoly else s >>> 1

/-- One byte of the register update. -/
def crcByte (s : BitVec 32) (b : UInt8) : BitVec 32 :=
  crcStep^[8] (s ^^^ b.toBitVec.setWidth 32)

/-- `crc32c::crc32c_append(crc, data)`: resume from a previous checksum. -/
def crcAppend (crc : BitVec 32) (data : Bytes) : BitVec 32 := ~~~ (data.foldl crcByte (~~~ crc))

/-- `crc32c::crc32c(data)`. -/
def crc32c (data : Bytes) : BitVec 32 := crcAppend 0 data

theorem crcAppend_append (c : BitVec 32) (a b : Bytes) :
    crcAppend (crcAppend c a) b = crcAppend c (a ++ b) := by
  simp [crcAppend, List.foldl_append]

theorem crcStep_xor (a b : BitVec 32) : crcStep (a ^^^ b) = crcStep a ^^^ crcStep b := by
  unfold crcStep
  rw [BitVec.getLsbD_xor, BitVec.ushiftRight_xor_distrib]
  cases a.getLsbD 0 <;> cases b.getLsbD 0
  · simp
  · simp [BitVec.xor_assoc]
  · simp only [Bool.true_xor, Bool.not_false, if_true, Bool.false_eq_true, if_false]
    rw [BitVec.xor_assoc, BitVec.xor_assoc, BitVec.xor_comm (b >>> 1)]
  · simp only [Bool.true_xor, Bool.not_true, Bool.false_eq_true, if_false, if_true]
    rw [BitVec.xor_assoc (a >>> 1), ← BitVec.xor_assoc crcPoly, BitVec.xor_comm crcPoly,
      BitVec.xor_assoc (b >>> 1) crcPoly, BitVec.xor_self, BitVec.xor_zero]

theorem crcStep_zero {x : BitVec 32} (h : crcStep x = 0) : x = 0 := by
  unfold crcStep at h
  split_ifs at h with h0
  · exfalso
    have h1 : x >>> 1 = crcPoly := by
      have := congrArg (· ^^^ crcPoly) h
      simpa [BitVec.xor_assoc] using this
    have h2 := congrArg (fun v => v.getLsbD 31) h1
    simp [crcPoly] at h2
  · have hx : ∀ i, x.getLsbD i = false := by
      intro i
      cases i with
      | zero => simpa using h0
      | succ i =>
        have := congrArg (fun v => v.getLsbD i) h
        simpa [Nat.add_comm] using this
    apply BitVec.eq_of_getLsbD_eq
    intro i _
    rw [hx i]; simp

theorem crcStep_injective : Function.Injective crcStep := by
  intro a b h
  have : crcStep (a ^^^ b) = 0 := by rw [crcStep_xor, h, BitVec.xor_self]; rfl
  exact BitVec.xor_eq_zero_iff.mp (crcStep_zero this)

theorem crcN_injective (n : Nat) : Function.Injective crcStep^[n] := crcStep_injective.iterate n

theorem crcN_xor (n : Nat) (a b : BitVec 32) :
    crcStep^[n] (a ^^^ b) = crcStep^[n] a ^^^ crcStep^[n] b := by
  induction n generalizing a b with
  | zero => rfl
  | succ n ih => simp only [Function.iterate_succ, Function.comp, crcStep_xor, ih]

/-- Shifting in zero bits. -/
theorem crcN_shift (k : Nat) (x : BitVec 32) (h : x.toNat * 2 ^ k < 2 ^ 32) :
    crcStep^[k] (x <<< k) = x := by
  induction k with
  | zero => simp
  | succ k ih =>
    have hk : x.toNat * 2 ^ k < 2 ^ 32 := by rw [pow_succ, ← mul_assoc] at h; omega
    rw [Function.iterate_succ, Function.comp]
    have : crcStep (x <<< (k + 1)) = x <<< k := by
      unfold crcStep
      rw [if_neg (by simp)]
      apply BitVec.eq_of_toNat_eq
      rw [BitVec.toNat_ushiftRight, BitVec.toNat_shiftLeft, BitVec.toNat_shiftLeft,
        Nat.shiftLeft_eq, Nat.shiftLeft_eq, Nat.mod_eq_of_lt h, Nat.mod_eq_of_lt hk,
        Nat.shiftRight_eq_div_pow, pow_succ, ← mul_assoc]
      omega
    rw [this]
    exact ih hk

theorem crcByte_injective (b : UInt8) : Function.Injective (crcByte · b) := by
  intro s s' h
  have := crcN_injective 8 h
  have h2 := congrArg (· ^^^ b.toBitVec.setWidth 32) this
  simpa [BitVec.xor_assoc] using h2

theorem crcFold_injective (data : Bytes) : Function.Injective (fun s => data.foldl crcByte s) := by
  induction data with
  | nil => exact fun _ _ h => h
  | cons b data ih => exact fun s s' h => crcByte_injective b (ih h)

/-- A window of at most four bytes as a word. -/
theorem ofNat_cons (b : UInt8) (x : Nat) :
    BitVec.ofNat 32 (b.toNat + 256 * x) = b.toBitVec.setWidth 32 ^^^ (BitVec.ofNat 32 x <<< 8) := by
  apply BitVec.eq_of_getLsbD_eq
  intro i hi
  have hb : b.toNat < 2 ^ 8 := b.toNat_lt
  rw [BitVec.getLsbD_ofNat, BitVec.getLsbD_xor, BitVec.getLsbD_setWidth, BitVec.getLsbD_shiftLeft,
    BitVec.getLsbD_ofNat, show b.toNat + 256 * x = 2 ^ 8 * x + b.toNat by ring,
    Nat.testBit_two_pow_mul_add x hb]
  have e : b.toBitVec.getLsbD i = b.toNat.testBit i := rfl
  rw [e]
  simp only [hi, decide_true, Bool.true_and]
  by_cases h8 : i < 8
  · simp [h8]
  · have : b.toNat.testBit i = false :=
      Nat.testBit_lt_two_pow (lt_of_lt_of_le hb (Nat.pow_le_pow_right (by norm_num) (by omega)))
    simp [h8, this, show i - 8 < 32 by omega]

theorem crcFold_window (s : BitVec 32) (w : Bytes) (h : w.length ≤ 4) :
    w.foldl crcByte s = crcStep^[8 * w.length] (s ^^^ BitVec.ofNat 32 (leDec w)) := by
  induction w generalizing s with
  | nil => simp [leDec]
  | cons b w ih =>
    simp only [List.length_cons] at h
    have hlt : leDec w < 2 ^ 24 := by
      have := leDec_lt w
      have h2 : 256 ^ w.length ≤ 256 ^ 3 := Nat.pow_le_pow_right (by norm_num) (by omega)
      omega
    rw [List.foldl_cons, ih _ (by omega), leDec, ofNat_cons b _, crcByte]
    have hs : BitVec.ofNat 32 (leDec w) = crcStep^[8] (BitVec.ofNat 32 (leDec w) <<< 8) := by
      rw [crcN_shift]
      rw [BitVec.toNat_ofNat, Nat.mod_eq_of_lt (by omega)]
      omega
    conv_lhs => rw [hs, ← crcN_xor]
    rw [← Function.iterate_add_apply, List.length_cons, BitVec.xor_assoc]
    rfl

/-- **CRC-32C detects every error confined to four consecutive bytes.** -/
theorem crc32c_detects (pre w w' post : Bytes) (hl : w.length = w'.length) (h4 : w.length ≤ 4)
    (hne : w ≠ w') : crc32c (pre ++ w ++ post) ≠ crc32c (pre ++ w' ++ post) := by
  intro h
  unfold crc32c crcAppend at h
  have h1 := congrArg (~~~ ·) h
  simp only [BitVec.not_not, List.foldl_append] at h1
  have h2 := crcFold_injective post h1
  rw [crcFold_window _ w h4, crcFold_window _ w' (hl ▸ h4), hl] at h2
  have h3 := crcN_injective _ h2
  have h5 : BitVec.ofNat 32 (leDec w) = BitVec.ofNat 32 (leDec w') := by
    have := congrArg ((pre.foldl crcByte (~~~ 0)) ^^^ ·) h3
    simpa [← BitVec.xor_assoc] using this
  have h6 := congrArg BitVec.toNat h5
  have b1 := leDec_lt w
  have b2 := leDec_lt w'
  have p1 : 256 ^ w.length ≤ 256 ^ 4 := Nat.pow_le_pow_right (by norm_num) h4
  rw [← hl] at b2
  rw [BitVec.toNat_ofNat, BitVec.toNat_ofNat, Nat.mod_eq_of_lt (by omega),
    Nat.mod_eq_of_lt (by omega)] at h6
  apply hne
  rw [← leEnc_leDec w, ← leEnc_leDec w', h6, hl]

/-- Check value of CRC-32C: the checksum of the ASCII digits "123456789". -/
example : crc32c [49, 50, 51, 52, 53, 54, 55, 56, 57] = 0xE3069283#32 := by decide +kernel

end JST
