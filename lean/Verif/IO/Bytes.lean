import Mathlib.Tactic.Linarith
import Mathlib.Tactic.Ring
import Mathlib.Data.List.Basic

/-!
# Byte strings and little-endian integers

`to_le_bytes`/`from_le_bytes` of Rust's integer types.
-/

namespace JST

/-- A byte string. -/
abbrev Bytes := List UInt8

/-- `x.to_le_bytes()` for a `w`-byte integer type. -/
def leEnc : Nat → Nat → Bytes
  | 0, _ => []
  | w + 1, n => UInt8.ofNat (n % 256) :: leEnc w (n / 256)

/-- `from_le_bytes`. -/
def leDec : Bytes → Nat
  | [] => 0
  | b :: bs => b.toNat + 256 * leDec bs

theorem leEnc_length (w n : Nat) : (leEnc w n).length = w := by
  induction w generalizing n with
  | zero => rfl
  | succ w ih => simp [leEnc, ih]

theorem leDec_leEnc (w n : Nat) (h : n < 256 ^ w) : leDec (leEnc w n) = n := by
  induction w generalizing n with
  | zero => simp at h; simp [leEnc, leDec, h]
  | succ w ih =>
    rw [leEnc, leDec, ih (n / 256) (by rw [pow_succ] at h; omega)]
    have : (UInt8.ofNat (n % 256)).toNat = n % 256 := by
      simp [UInt8.toNat_ofNat']
    rw [this]; omega

theorem leDec_lt (bs : Bytes) : leDec bs < 256 ^ bs.length := by
  induction bs with
  | nil => simp [leDec]
  | cons b bs ih =>
    rw [leDec, List.length_cons, pow_succ]
    have := b.toNat_lt
    omega

theorem leEnc_leDec (bs : Bytes) : leEnc bs.length (leDec bs) = bs := by
  induction bs with
  | nil => rfl
  | cons b bs ih =>
    rw [leDec, List.length_cons, leEnc]
    have hb := b.toNat_lt
    have h1 : (b.toNat + 256 * leDec bs) % 256 = b.toNat := by omega
    have h2 : (b.toNat + 256 * leDec bs) / 256 = leDec bs := by omega
    rw [h1, h2, ih]
    congr 1
    exact UInt8.ofNat_toNat

theorem leEnc_inj {w a b : Nat} (ha : a < 256 ^ w) (hb : b < 256 ^ w) (h : leEnc w a = leEnc w b) :
    a = b := by
  rw [← leDec_leEnc w a ha, h, leDec_leEnc w b hb]

end JST
