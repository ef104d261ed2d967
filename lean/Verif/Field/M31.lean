import Mathlib.Data.Nat.Bitwise
import Mathlib.Data.ZMod.Basic
import Mathlib.FieldTheory.Finite.Basic
import Verif.Primes
import Verif.IO.Serde

/-!
# The Mersenne-31 base field

Stored values are `u32`; here a `Nat`.  Every unsigned operation that Rust checks for overflow
returns `none` when it leaves the machine range (a panic in a build with overflow checks, a wrapped
value otherwise; neither is modelled further).
-/

namespace JST.M31

/-- `a + b` in a `w`-bit unsigned type. -/
def addU (w a b : Nat) : Option Nat := if a + b < 2 ^ w then some (a + b) else none

/-- `a - b` in an unsigned type. -/
def subU (a b : Nat) : Option Nat := if b ≤ a then some (a - b) else none

/-- `M31_MOD`, prover/arith/mersenne31/src/m31.rs:12. -/
def MOD : Nat := 2147483647

/-- `mod_reduce_u32_safe`, m31.rs:14-21. The sum of the two parts is at most `2^31`, so it never
overflows a `u32`. -/
def reduce32 (x : Nat) : Nat :=
  let x' := (x &&& MOD) + (x >>> 31)
  if x' = MOD then 0 else x'

/-- `mod_reduce_i64`, m31.rs:24-26, for the non-negative arguments it is called with. -/
def reduce64 (x : Nat) : Nat := (x &&& MOD) + (x >>> 31)

/-- `PartialEq::eq`, m31.rs:33-38. -/
def eq (a b : Nat) : Bool := reduce32 a == reduce32 b

/-- `Ord::cmp`, m31.rs:49-54. -/
def cmp (a b : Nat) : Ordering := compare (reduce32 a) (reduce32 b)

/-- `is_zero`, m31.rs:117-119. -/
def isZero (v : Nat) : Bool := v == 0 || v == MOD

/-- `add_internal`, m31.rs:264-270. -/
def add (a b : Nat) : Option Nat := do
  let vv ← addU 32 a b
  pure (if vv ≥ MOD then vv - MOD else vv)

/-- `sub_internal`, m31.rs:273-279. -/
def sub (a b : Nat) : Option Nat := do
  let s ← addU 32 a MOD
  let vv ← subU s b
  pure (if vv ≥ MOD then vv - MOD else vv)

/-- `mul_internal`, m31.rs:282-290: `i64` product, one folding step, one conditional subtraction,
and the truncating cast to `u32`. -/
def mul (a b : Nat) : Option Nat := do
  let vv ← if a * b < 2 ^ 63 then some (a * b) else none
  let vv := reduce64 vv
  let vv := if vv ≥ MOD then vv - MOD else vv
  pure (vv % 2 ^ 32)

/-- `Neg::neg`, m31.rs:209-217. -/
def neg (v : Nat) : Option Nat := if v = 0 then some 0 else subU MOD v

/-- `From<u32>`, m31.rs:219-226. -/
def fromU32 (x : Nat) : Nat := if x < MOD then x else x % MOD

/-- `from_uniform_bytes`, m31.rs:191-195, on the `u32` its first four bytes encode. -/
def fromUniform (x : Nat) : Nat := reduce32 x

/-- `to_u256`, m31.rs:132-134. -/
def toU256 (v : Nat) : Nat := reduce32 v

/-- The chunk of 31 bits (fewer for the last) of a 128-bit word at position `i`, m31.rs:145-153. -/
def chunk (w i : Nat) : Nat :=
  let shift := i * 31
  let mask := if shift + 31 ≤ 128 then 2 ^ 31 - 1 else 2 ^ (128 - shift) - 1
  (w >>> shift) &&& mask

/-- One loop of `from_u256`, m31.rs:145-156 (`mult` = 1) and 159-171 (`mult` = 16). -/
def foldChunks (w mult : Nat) : List Nat → Nat → Nat
  | [], acc => acc
  | i :: is, acc =>
    foldChunks w mult is (if i * 31 < 128 then reduce64 (acc + chunk w i * mult) else acc)

/-- `from_u256`, m31.rs:137-179, on the high and low 128-bit words. -/
def fromU256 (high low : Nat) : Nat :=
  let acc := foldChunks low 1 [0, 1, 2, 3, 4] 0
  let acc := foldChunks high 16 [0, 1, 2, 3, 4] acc
  reduce32 (acc % 2 ^ 32)

/-- `exp_power_of_2`, m31.rs:230-236. -/
def expPow2 (v : Nat) : Nat → Option Nat
  | 0 => some v
  | n + 1 => do
    let r ← expPow2 v n
    mul r r

/-- `try_inverse`, m31.rs:240-260. The outer `Option` is the arithmetic failure, the inner one the
function's result. -/
def inv (v : Nat) : Option (Option Nat) :=
  if isZero v then some none
  else do
    let p1 := v
    let p101 ← mul (← expPow2 p1 2) p1
    let p1111 ← mul (← mul p101 p101) p101
    let p8 ← mul (← expPow2 p1111 4) p1111
    let p12_0 ← expPow2 p8 4
    let p12 ← mul p12_0 p1111
    let p16 ← mul (← expPow2 p12_0 4) p8
    let p28 ← mul (← expPow2 p16 12) p12
    let r ← mul (← expPow2 p28 3) p101
    pure (some r)

/-- `Field::exp`, prover/arith/src/field.rs:137-150: square and multiply over the bits of a
`u128`; `fuel` bounds the number of bits. -/
def expLoop : Nat → Nat → Nat → Nat → Option Nat
  | 0, _, res, _ => some res
  | fuel + 1, e, res, t =>
    if e = 0 then some res
    else do
      let res ← if e % 2 = 1 then mul res t else some res
      let t ← mul t t
      expLoop fuel (e / 2) res t

/-- `Field::exp`, field.rs:137-150. -/
def exp (v e : Nat) : Option Nat := expLoop 128 e 1 v

/-- `serialize_into`, m31.rs:60-63. -/
def ser (v : Nat) : Bytes := leEnc 4 (reduce32 v)

/-- `deserialize_from`, m31.rs:66-74. -/
def de : De Nat := do
  let u ← readExact 4
  let v := leDec u
  if v ≥ MOD then De.fail .invalid else pure v

/-- `unsafe_double`, m31.rs:86-88: the shift drops the top bit. -/
def unsafeDouble (v : Nat) : Nat := (v <<< 1) % 2 ^ 32

/-- `unsafe_add`, m31.rs:80-82. -/
def unsafeAdd (a b : Nat) : Option Nat := addU 32 a b

/-! ## Proofs -/

theorem and_MOD (x : Nat) : x &&& MOD = x % 2 ^ 31 := Nat.and_two_pow_sub_one_eq_mod x 31

theorem reduce64_eq (x : Nat) : reduce64 x = x % 2 ^ 31 + x / 2 ^ 31 := by
  simp only [reduce64, and_MOD, Nat.shiftRight_eq_div_pow]

theorem reduce32_eq (x : Nat) :
    reduce32 x = if x % 2 ^ 31 + x / 2 ^ 31 = MOD then 0 else x % 2 ^ 31 + x / 2 ^ 31 := by
  simp only [reduce32, and_MOD, Nat.shiftRight_eq_div_pow]

/-- The value of a stored representation. -/
abbrev val (v : Nat) : ZMod m31P := (v : ZMod m31P)

theorem val_eq_iff (a b : Nat) : val a = val b ↔ a % MOD = b % MOD :=
  ZMod.natCast_eq_natCast_iff' a b m31P

theorem reduce64_mod (x : Nat) : reduce64 x % MOD = x % MOD := by
  rw [reduce64_eq]; unfold MOD; omega

theorem reduce32_mod (x : Nat) : reduce32 x % MOD = x % MOD := by
  rw [reduce32_eq]; unfold MOD; split_ifs <;> omega

theorem reduce32_canon {x : Nat} (h : x < 2 ^ 32 - 1) : reduce32 x = x % MOD := by
  rw [reduce32_eq]; unfold MOD; split_ifs <;> omega

theorem add_spec {a b : Nat} (ha : a ≤ MOD) (hb : b ≤ MOD) :
    ∃ r, add a b = some r ∧ r ≤ MOD ∧ val r = val a + val b := by
  have h : a + b < 2 ^ 32 := by unfold MOD at *; omega
  simp only [add, addU, if_pos h, Option.bind_eq_bind, Option.bind_some]
  refine ⟨_, rfl, ?_, ?_⟩
  · unfold MOD at *; split_ifs <;> omega
  · have := (val_eq_iff (if a + b ≥ MOD then a + b - MOD else a + b) (a + b)).mpr
      (by unfold MOD; split_ifs <;> omega)
    rw [this]; push_cast; rfl

theorem sub_spec {a b : Nat} (ha : a ≤ MOD) (hb : b ≤ MOD) :
    ∃ r, sub a b = some r ∧ r ≤ MOD ∧ val r = val a - val b := by
  have h : a + MOD < 2 ^ 32 := by unfold MOD at *; omega
  have h2 : b ≤ a + MOD := by omega
  simp only [sub, addU, subU, if_pos h, if_pos h2, Option.bind_eq_bind, Option.bind_some]
  refine ⟨_, rfl, ?_, ?_⟩
  · unfold MOD at *; split_ifs <;> omega
  · rw [eq_sub_iff_add_eq]
    have := (val_eq_iff ((if a + MOD - b ≥ MOD then a + MOD - b - MOD else a + MOD - b) + b) a).mpr
      (by unfold MOD at *; split_ifs <;> omega)
    push_cast at this
    exact_mod_cast this

theorem mul_spec {a b : Nat} (ha : a ≤ 2 ^ 31) (hb : b ≤ 2 ^ 31) :
    ∃ r, mul a b = some r ∧ r < MOD ∧ val r = val a * val b := by
  have hab : a * b ≤ 2 ^ 31 * 2 ^ 31 := Nat.mul_le_mul ha hb
  have h : a * b < 2 ^ 63 := by omega
  simp only [mul, if_pos h, Option.bind_eq_bind, Option.bind_some]
  have hmod := reduce64_mod (a * b)
  have hlt : reduce64 (a * b) < 2 * MOD := by
    rw [reduce64_eq]
    by_cases h1 : a = 2 ^ 31
    · rw [h1, Nat.mul_mod_right, Nat.mul_div_cancel_left _ (by norm_num)]; unfold MOD; omega
    by_cases h2 : b = 2 ^ 31
    · rw [h2, Nat.mul_mod_left, Nat.mul_div_cancel _ (by norm_num)]; unfold MOD; omega
    have h3 : a * b ≤ (2 ^ 31 - 1) * (2 ^ 31 - 1) :=
      Nat.mul_le_mul (by omega) (by omega)
    generalize a * b = e at *
    unfold MOD; omega
  have hcast : val (a * b) = val a * val b := by push_cast; rfl
  refine ⟨_, rfl, ?_, ?_⟩
  · refine lt_of_le_of_lt (Nat.mod_le _ _) ?_
    split_ifs <;> omega
  · rw [← hcast, val_eq_iff, ← hmod]
    unfold MOD at *
    split_ifs <;> omega

theorem neg_spec {v : Nat} (hv : v ≤ MOD) : ∃ r, neg v = some r ∧ r ≤ MOD ∧ val r = -val v := by
  unfold neg
  split_ifs with h
  · exact ⟨0, rfl, by unfold MOD; omega, by subst h; simp⟩
  · refine ⟨MOD - v, by simp [subU, hv], by omega, ?_⟩
    rw [eq_neg_iff_add_eq_zero]
    have := (val_eq_iff (MOD - v + v) 0).mpr (by rw [Nat.sub_add_cancel hv]; simp)
    push_cast at this
    exact this

theorem expPow2_spec {v : Nat} (hv : v ≤ MOD) :
    ∀ n, ∃ r, expPow2 v n = some r ∧ r ≤ MOD ∧ val r = val v ^ 2 ^ n
  | 0 => ⟨v, rfl, hv, by simp⟩
  | n + 1 => by
    obtain ⟨r, hr, hle, hval⟩ := expPow2_spec hv n
    have h31 : r ≤ 2 ^ 31 := by unfold MOD at hle; omega
    obtain ⟨s, hs, hslt, hsval⟩ := mul_spec h31 h31
    refine ⟨s, by simp [expPow2, hr, hs], hslt.le, ?_⟩
    rw [hsval, hval, pow_succ, pow_mul]; ring

theorem mul_spec' {a b : Nat} (ha : a ≤ MOD) (hb : b ≤ MOD) :
    ∃ r, mul a b = some r ∧ r ≤ MOD ∧ val r = val a * val b := by
  obtain ⟨r, h, hl, hv⟩ := mul_spec (a := a) (b := b) (by unfold MOD at ha; omega)
    (by unfold MOD at hb; omega)
  exact ⟨r, h, hl.le, hv⟩

theorem isZero_iff {v : Nat} (hv : v ≤ MOD) : isZero v = true ↔ val v = 0 := by
  have : val v = 0 ↔ val v = val 0 := by simp
  rw [this, val_eq_iff]
  simp only [isZero, Bool.or_eq_true, beq_iff_eq]
  unfold MOD at *; omega

theorem inv_spec {v : Nat} (hv : v ≤ MOD) :
    (val v = 0 ∧ inv v = some none) ∨
    (val v ≠ 0 ∧ ∃ r, inv v = some (some r) ∧ r ≤ MOD ∧ val r * val v = 1) := by
  by_cases h : isZero v = true
  · exact Or.inl ⟨(isZero_iff hv).mp h, by simp [inv, h]⟩
  · right
    have h0 : val v ≠ 0 := fun e => h ((isZero_iff hv).mpr e)
    refine ⟨h0, ?_⟩
    obtain ⟨a1, e1, l1, v1⟩ := expPow2_spec hv 2
    obtain ⟨a2, e2, l2, v2⟩ := mul_spec' l1 hv
    obtain ⟨a3, e3, l3, v3⟩ := mul_spec' l2 l2
    obtain ⟨a4, e4, l4, v4⟩ := mul_spec' l3 l2
    obtain ⟨a5, e5, l5, v5⟩ := expPow2_spec l4 4
    obtain ⟨a6, e6, l6, v6⟩ := mul_spec' l5 l4
    obtain ⟨a7, e7, l7, v7⟩ := expPow2_spec l6 4
    obtain ⟨a8, e8, l8, v8⟩ := mul_spec' l7 l4
    obtain ⟨a9, e9, l9, v9⟩ := expPow2_spec l7 4
    obtain ⟨b1, f1, m1, w1⟩ := mul_spec' l9 l6
    obtain ⟨b2, f2, m2, w2⟩ := expPow2_spec m1 12
    obtain ⟨b3, f3, m3, w3⟩ := mul_spec' m2 l8
    obtain ⟨b4, f4, m4, w4⟩ := expPow2_spec m3 3
    obtain ⟨b5, f5, m5, w5⟩ := mul_spec' m4 l2
    refine ⟨b5, ?_, m5, ?_⟩
    · simp only [inv, h, Bool.false_eq_true, if_false, Option.bind_eq_bind, Option.bind_some, e1,
        e2, e3, e4, e5, e6, e7, e8, e9, f1, f2, f3, f4, f5]
      rfl
    · have hpow : val b5 = val v ^ (m31P - 2) := by
        rw [w5, w4, w3, w2, w1, v9, v8, v7, v6, v5, v4, v3, v2, v1]
        simp only [← pow_mul, ← pow_add, ← pow_succ]
        congr 1
      rw [hpow, ← pow_succ]
      have := ZMod.pow_card_sub_one_eq_one h0
      exact this

/-- What square-and-multiply computes. -/
theorem expLoop_spec : ∀ (fuel e res t : Nat), e < 2 ^ fuel → res ≤ MOD → t ≤ MOD →
    ∃ r, expLoop fuel e res t = some r ∧ r ≤ MOD ∧ val r = val res * val t ^ e
  | 0, e, res, t, he, hr, _ => by
    have : e = 0 := by simpa using he
    subst this
    exact ⟨res, rfl, hr, by simp⟩
  | fuel + 1, e, res, t, he, hr, ht => by
    unfold expLoop
    split_ifs with h0 h1
    · subst h0; exact ⟨res, rfl, hr, by simp⟩
    · obtain ⟨a, ea, la, va⟩ := mul_spec' hr ht
      obtain ⟨b, eb, lb, vb⟩ := mul_spec' ht ht
      obtain ⟨r, er, lr, vr⟩ := expLoop_spec fuel (e / 2) a b
        (by rw [pow_succ] at he; omega) la lb
      refine ⟨r, by simp [ea, eb, er], lr, ?_⟩
      rw [vr, va, vb]
      have : e = 2 * (e / 2) + 1 := by omega
      conv_rhs => rw [this, pow_succ, pow_mul]
      ring
    · obtain ⟨b, eb, lb, vb⟩ := mul_spec' ht ht
      obtain ⟨r, er, lr, vr⟩ := expLoop_spec fuel (e / 2) res b
        (by rw [pow_succ] at he; omega) hr lb
      refine ⟨r, by simp [eb, er], lr, ?_⟩
      rw [vr, vb]
      have : e = 2 * (e / 2) := by omega
      conv_rhs => rw [this, pow_mul]
      ring

theorem chunk_full (w i : Nat) (h : i * 31 + 31 ≤ 128) :
    chunk w i = w / 2 ^ (i * 31) % 2 ^ 31 := by
  simp only [chunk, if_pos h, Nat.and_two_pow_sub_one_eq_mod, Nat.shiftRight_eq_div_pow]

theorem chunk_last (w : Nat) : chunk w 4 = w / 2 ^ 124 % 2 ^ 4 := by
  have : ¬ (4 * 31 + 31 ≤ 128) := by omega
  simp only [chunk, if_neg this, Nat.and_two_pow_sub_one_eq_mod, Nat.shiftRight_eq_div_pow]

theorem chunks_mod {w : Nat} (h : w < 2 ^ 128) :
    (chunk w 0 + chunk w 1 + chunk w 2 + chunk w 3 + chunk w 4) % MOD = w % MOD := by
  rw [chunk_full w 0 (by omega), chunk_full w 1 (by omega), chunk_full w 2 (by omega),
    chunk_full w 3 (by omega), chunk_last]
  have e1 : w / 2 ^ (0 * 31) = w := by simp
  have e2 : w / 2 ^ (2 * 31) = w / 2 ^ (1 * 31) / 2 ^ 31 := by
    rw [Nat.div_div_eq_div_mul, ← pow_add]
  have e3 : w / 2 ^ (3 * 31) = w / 2 ^ (2 * 31) / 2 ^ 31 := by
    rw [Nat.div_div_eq_div_mul, ← pow_add]
  have e4 : w / 2 ^ 124 = w / 2 ^ (3 * 31) / 2 ^ 31 := by
    rw [Nat.div_div_eq_div_mul, ← pow_add]
  have h4 : w / 2 ^ 124 < 2 ^ 4 := by omega
  have h0 : w = 2 ^ 31 * (w / 2 ^ (1 * 31)) + w % 2 ^ 31 := (Nat.div_add_mod w (2 ^ 31)).symm
  rw [e1]
  generalize w / 2 ^ (1 * 31) = q1 at *
  generalize w / 2 ^ (2 * 31) = q2 at *
  generalize w / 2 ^ (3 * 31) = q3 at *
  generalize w / 2 ^ 124 = q4 at *
  have hr : w % 2 ^ 31 < 2 ^ 31 := Nat.mod_lt _ (by norm_num)
  generalize w % 2 ^ 31 = r0 at *
  subst h0
  clear e1 h
  have key : 2 ^ 31 * q1 + r0 = (r0 + q1 % 2 ^ 31 + q2 % 2 ^ 31 + q3 % 2 ^ 31 + q4 % 2 ^ 4)
      + MOD * (q1 + q2 + q3 + q4) := by unfold MOD; omega
  rw [key, Nat.add_mul_mod_self_left]

theorem reduce64_add_mod (a b : Nat) : (reduce64 a + b) % MOD = (a + b) % MOD := by
  rw [Nat.add_mod, reduce64_mod, ← Nat.add_mod]

theorem foldChunks_mod (w mult acc : Nat) (h : w < 2 ^ 128) :
    foldChunks w mult [0, 1, 2, 3, 4] acc % MOD = (acc + w * mult) % MOD := by
  have hc := chunks_mod h
  simp only [foldChunks]
  norm_num only
  simp only [if_true]
  rw [reduce64_mod, reduce64_add_mod, Nat.add_assoc, reduce64_add_mod, Nat.add_assoc,
    reduce64_add_mod, Nat.add_assoc, reduce64_add_mod, Nat.add_assoc]
  have : chunk w 0 * mult + (chunk w 1 * mult + (chunk w 2 * mult + (chunk w 3 * mult
      + chunk w 4 * mult))) = (chunk w 0 + chunk w 1 + chunk w 2 + chunk w 3 + chunk w 4) * mult := by
    ring
  rw [this, Nat.add_mod, Nat.mul_mod, hc, ← Nat.mul_mod, ← Nat.add_mod]

theorem foldChunks_lt (w mult acc : Nat) (hm : mult ≤ 16) (hacc : acc < 2 ^ 40) :
    foldChunks w mult [0, 1, 2, 3, 4] acc ≤ 2 ^ 31 := by
  have hb : ∀ i, i * 31 + 31 ≤ 128 → chunk w i * mult < 2 ^ 31 * 16 := fun i hi => by
    rw [chunk_full w i hi]
    have : w / 2 ^ (i * 31) % 2 ^ 31 < 2 ^ 31 := Nat.mod_lt _ (by norm_num)
    nlinarith
  have h4 : chunk w 4 * mult ≤ 15 * 16 := by
    rw [chunk_last]
    have : w / 2 ^ 124 % 2 ^ 4 < 2 ^ 4 := Nat.mod_lt _ (by norm_num)
    exact Nat.mul_le_mul (by omega) hm
  have h0 := hb 0 (by omega)
  have h1 := hb 1 (by omega)
  have h2 := hb 2 (by omega)
  have h3 := hb 3 (by omega)
  simp only [foldChunks]
  norm_num only
  simp only [if_true, reduce64_eq]
  generalize chunk w 0 * mult = c0 at *
  generalize chunk w 1 * mult = c1 at *
  generalize chunk w 2 * mult = c2 at *
  generalize chunk w 3 * mult = c3 at *
  generalize chunk w 4 * mult = c4 at *
  omega

theorem fromU256_spec {high low : Nat} (hh : high < 2 ^ 128) (hl : low < 2 ^ 128) :
    fromU256 high low = (high * 2 ^ 128 + low) % MOD := by
  unfold fromU256
  simp only
  have hlt1 : foldChunks low 1 [0, 1, 2, 3, 4] 0 < 2 ^ 40 :=
    lt_of_le_of_lt (foldChunks_lt low 1 0 (by norm_num) (by norm_num)) (by norm_num)
  have hlt2 := foldChunks_lt high 16 _ (by norm_num) hlt1
  rw [Nat.mod_eq_of_lt (by omega), reduce32_canon (by omega), foldChunks_mod _ _ _ hh, Nat.add_mod,
    foldChunks_mod _ _ _ hl]
  unfold MOD
  omega

end JST.M31
