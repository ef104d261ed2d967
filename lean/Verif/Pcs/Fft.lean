import Mathlib.Data.Nat.Log
import Mathlib.Data.Nat.Bitwise
import Mathlib.Data.List.GetD
import Mathlib.Algebra.Field.Basic
import Mathlib.Logic.Function.Iterate

/-!
# The fast Fourier transform

Model of /repo/prover/arith/src/fft_field.rs, generic in the field as the trait `FFTField` is. A field of the
code is `FftField`: its constants `TWO_ADICITY` and `root_of_unity()`. A panic is `none`.
-/

namespace JST.Pcs

/-- The ring operations of a field of the code, on whatever represents its elements. -/
structure Ops (R : Type) where
  zero : R
  one : R
  add : R → R → R
  sub : R → R → R
  mul : R → R → R

/-- The operations of a field, on its elements. -/
def fieldOps (K : Type) [Field K] : Ops K := ⟨0, 1, (· + ·), (· - ·), (· * ·)⟩

/-- The constants of the trait `FFTField`, fft_field.rs:5-8. -/
structure FftField (R : Type) where
  adicity : Nat
  root : R

/-- `two_adic_generator`, fft_field.rs:10-16: the loop `bits..TWO_ADICITY` squares. -/
def FftField.genOps {R : Type} (O : Ops R) (F : FftField R) (bits : Nat) : R :=
  (fun g => O.mul g g)^[F.adicity - bits] F.root

/-- The same over a field. -/
def FftField.gen {K : Type} [Field K] (F : FftField K) (bits : Nat) : K := F.genOps (fieldOps K) bits

/-- `U8_REVERSE_LOOKUP`, utils.rs:3-20. -/
def u8ReverseLookup : List Nat :=
  [0, 128, 64, 192, 32, 160, 96, 224, 16, 144, 80, 208, 48, 176, 112, 240,
   8, 136, 72, 200, 40, 168, 104, 232, 24, 152, 88, 216, 56, 184, 120, 248,
   4, 132, 68, 196, 36, 164, 100, 228, 20, 148, 84, 212, 52, 180, 116, 244,
   12, 140, 76, 204, 44, 172, 108, 236, 28, 156, 92, 220, 60, 188, 124, 252,
   2, 130, 66, 194, 34, 162, 98, 226, 18, 146, 82, 210, 50, 178, 114, 242,
   10, 138, 74, 202, 42, 170, 106, 234, 26, 154, 90, 218, 58, 186, 122, 250,
   6, 134, 70, 198, 38, 166, 102, 230, 22, 150, 86, 214, 54, 182, 118, 246,
   14, 142, 78, 206, 46, 174, 110, 238, 30, 158, 94, 222, 62, 190, 126, 254,
   1, 129, 65, 193, 33, 161, 97, 225, 17, 145, 81, 209, 49, 177, 113, 241,
   9, 137, 73, 201, 41, 169, 105, 233, 25, 153, 89, 217, 57, 185, 121, 249,
   5, 133, 69, 197, 37, 165, 101, 229, 21, 149, 85, 213, 53, 181, 117, 245,
   13, 141, 77, 205, 45, 173, 109, 237, 29, 157, 93, 221, 61, 189, 125, 253,
   3, 131, 67, 195, 35, 163, 99, 227, 19, 147, 83, 211, 51, 179, 115, 243,
   11, 139, 75, 203, 43, 171, 107, 235, 27, 155, 91, 219, 59, 187, 123, 251,
   7, 135, 71, 199, 39, 167, 103, 231, 23, 151, 87, 215, 55, 183, 119, 247,
   15, 143, 79, 207, 47, 175, 111, 239, 31, 159, 95, 223, 63, 191, 127, 255]

/-- `bit_reverse_u8`, `_u16`, `_u32` and `_u64`, utils.rs:22-51, which are written out for 1, 2, 4 and 8 bytes;
here a recursion on the number of bytes. The lowest byte goes to the top. -/
def bitReverseBytes : Nat → Nat → Nat
  | 0, _ => 0
  | k + 1, a => u8ReverseLookup.getD (a % 256) 0 <<< (8 * k) ||| bitReverseBytes k (a / 256)

/-- `bit_reverse`, utils.rs:53-73. -/
def bitReverse (n bitWidth : Nat) : Nat :=
  if bitWidth ≤ 8 then bitReverseBytes 1 n >>> (8 - bitWidth)
  else if bitWidth ≤ 16 then bitReverseBytes 2 n >>> (16 - bitWidth)
  else if bitWidth ≤ 32 then bitReverseBytes 4 n >>> (32 - bitWidth)
  else if bitWidth ≤ 64 then bitReverseBytes 8 n >>> (64 - bitWidth)
  else n

/-- The low `bits` bits of `x` in the opposite order; `u64::reverse_bits` is the case of 64 bits. -/
def revBits : Nat → Nat → Nat
  | 0, _ => 0
  | b + 1, x => x % 2 * 2 ^ b + revBits b (x / 2)

/-- `<[T]>::swap`. -/
def swap {T : Type} (a : List T) (i j : Nat) : List T :=
  match a[i]?, a[j]? with
  | some x, some y => (a.set i y).set j x
  | _, _ => a

/-- One step of `bit_reverse_swap`, fft_field.rs:63-77, on the slice and the number of swaps so far. Once the
threshold is reached the loop ends, so later steps do nothing. -/
def bitReverseStep {T : Type} (logN threshold : Nat) (s : List T × Nat) (i : Nat) : List T × Nat :=
  if s.2 ≥ threshold then s
  else if i < bitReverse i logN then (swap s.1 (bitReverse i logN) i, s.2 + 1)
  else s

/-- `bit_reverse_swap`, fft_field.rs:53-78; `ilog2` of an empty slice panics before. -/
def bitReverseSwap {T : Type} (a : List T) : List T :=
  ((List.range a.length).foldl (bitReverseStep (Nat.log 2 a.length) (a.length / 2)) (a, 0)).1

variable {R : Type}

/-- The running products of the twiddle table, fft_field.rs:90-96. -/
def powers (O : Ops R) (ω : R) : Nat → R → List R
  | 0, _ => []
  | n + 1, w => w :: powers O ω n (O.mul w ω)

/-- One pass of the loop of `radix2_fft_single_threaded`, fft_field.rs:100-121, on chunks of `2 * h` elements
with twiddle stride `stride`. The loops over the chunks and over the pairs of a chunk touch disjoint pairs, so
the pass is written as the new value of each position. The pair at offset 0 is written out without the
multiplication by `twiddles[0] = 1` in the code; here it is a case of its own too. -/
def fftPass (O : Ops R) (tw : List R) (h stride : Nat) (a : List R) : List R :=
  (List.range a.length).map fun j =>
    let i := j % (2 * h)
    if i < h then
      O.add (a.getD j O.zero) (if i = 0 then a.getD (j + h) O.zero
        else O.mul (a.getD (j + h) O.zero) (tw.getD (i * stride) O.zero))
    else
      O.sub (a.getD (j - h) O.zero) (if i = h then a.getD j O.zero
        else O.mul (a.getD j O.zero) (tw.getD ((i - h) * stride) O.zero))

/-- The passes, fft_field.rs:98-124: the chunk doubles and the stride halves. -/
def fftPasses (O : Ops R) (tw : List R) : Nat → Nat → Nat → List R → List R
  | 0, _, _, a => a
  | k + 1, h, stride, a => fftPasses O tw k (2 * h) (stride / 2) (fftPass O tw h stride a)

/-- `radix2_fft_single_threaded`, fft_field.rs:80-125. -/
def radix2Fft (O : Ops R) (a : List R) (ω : R) : Option (List R) :=
  if a.length ≠ 2 ^ Nat.log 2 a.length then none
  else
    let n := a.length
    some (fftPasses O (powers O ω (n / 2) O.one) (Nat.log 2 n) 1 (n / 2) (bitReverseSwap a))

/-- `fft_in_place`, fft_field.rs:32-38. -/
def fftInPlace (O : Ops R) (F : FftField R) (a : List R) : Option (List R) :=
  radix2Fft O a (F.genOps O (Nat.log 2 a.length))

/-- `ifft_in_place`, fft_field.rs:40-51, over a field; inverting zero panics. -/
def ifftInPlace {K : Type} [Field K] [DecidableEq K] (F : FftField K) (a : List K) : Option (List K) :=
  let logN := Nat.log 2 a.length
  let ω := F.gen logN
  if ω = 0 ∨ ((1 + 1 : K) ^ logN) = 0 then none
  else (radix2Fft (fieldOps K) a ω⁻¹).map fun r => r.map (· * ((1 + 1 : K) ^ logN)⁻¹)

end JST.Pcs
