import Mathlib.Data.Nat.Bitwise
import Mathlib.Data.ZMod.Basic
import Mathlib.FieldTheory.Finite.Basic
import Mathlib.Tactic.LinearCombination
import Verif.Primes
import Verif.Field.M31

/-!
# The Goldilocks base field

Stored values are `u64`; here a `Nat` below `2^64`.  Operations return `none` where Rust would panic
(or wrap) on overflow, and where `assume` would be undefined behaviour.
-/

namespace JST.Gold

open JST.M31 (addU subU)

/-- `GOLDILOCKS_MOD`, prover/arith/goldilocks/src/goldilocks.rs:15. -/
def MOD : Nat := 0xFFFFFFFF00000001

/-- `EPSILON`, goldilocks.rs:17. -/
def EPS : Nat := 0xffffffff

/-- `mod_reduce_u64`, goldilocks.rs:20-26. -/
def reduce (x : Nat) : Nat := if x ≥ MOD then x - MOD else x

/-- `PartialEq::eq`, goldilocks.rs:34-38. -/
def eq (a b : Nat) : Bool := reduce a == reduce b

/-- `Ord::cmp`, goldilocks.rs:50-54. -/
def cmp (a b : Nat) : Ordering := compare (reduce a) (reduce b)

/-- `is_zero`, goldilocks.rs:106-108. -/
def isZero (v : Nat) : Bool := v == 0 || v == MOD

/-- `u64::overflowing_add`. -/
def ovAdd (a b : Nat) : Nat × Bool := ((a + b) % 2 ^ 64, decide (2 ^ 64 ≤ a + b))

/-- `u64::overflowing_sub` (both operands below `2^64`). -/
def ovSub (a b : Nat) : Nat × Bool := ((a + 2 ^ 64 - b) % 2 ^ 64, decide (a < b))

/-- `assume`, goldilocks.rs:312-320: undefined behaviour when the condition is false. -/
def assume (p : Prop) [Decidable p] : Option Unit := if p then some () else none

/-- `add_internal`, goldilocks.rs:194-209. -/
def add (a b : Nat) : Option Nat :=
  let (sum, over) := ovAdd a b
  let (sum, over) := ovAdd sum (if over then EPS else 0)
  if over then do
    assume (a > MOD ∧ b > MOD)
    addU 64 sum EPS
  else some sum

/-- `sub_internal`, goldilocks.rs:212-228. -/
def sub (a b : Nat) : Option Nat :=
  let (diff, under) := ovSub a b
  let (diff, under) := ovSub diff (if under then EPS else 0)
  if under then do
    assume (a < EPS - 1 ∧ b > MOD)
    subU diff EPS
  else some diff

/-- `add_no_canonicalize_trashing_input`, goldilocks.rs:344-377. The x86 assembly and the portable
version compute the same function; the two `assume`s of the x86 version are kept. -/
def addNoCanon (x y : Nat) : Option Nat :=
  let (res, carry) := ovAdd x y
  let adj := if carry then EPS else 0
  do
    assume (x ≠ 0 ∨ (res = y ∧ adj = 0))
    assume (y ≠ 0 ∨ (res = x ∧ adj = 0))
    addU 64 res adj

/-- `reduce128`, goldilocks.rs:297-310, with `split` 380-382. -/
def reduce128 (x : Nat) : Option Nat :=
  let xLo := x % 2 ^ 64
  let xHi := (x >>> 64) % 2 ^ 64
  let xHiHi := xHi >>> 32
  let xHiLo := xHi &&& EPS
  let t0borrow := ovSub xLo xHiHi
  (if t0borrow.2 then subU t0borrow.1 EPS else some t0borrow.1).bind fun t0 =>
  (if xHiLo * EPS < 2 ^ 64 then some (xHiLo * EPS) else none).bind fun t1 =>
  addNoCanon t0 t1

/-- `mul_internal`, goldilocks.rs:231-233. -/
def mul (a b : Nat) : Option Nat := reduce128 (a * b)

/-- `Neg::neg`, goldilocks.rs:156-162. -/
def neg (v : Nat) : Option Nat := sub 0 v

/-- `From<u64>`, goldilocks.rs:171-177. -/
def fromU64 (x : Nat) : Nat := reduce x

/-- `from_uniform_bytes`, goldilocks.rs:149-153, on the `u64` its first eight bytes encode. -/
def fromUniform (x : Nat) : Nat := reduce x

/-- `from_u256`, goldilocks.rs:127-135: `U256` remainder, low word, truncation to 64 bits. -/
def fromU256 (x : Nat) : Nat := reduce ((x % MOD) % 2 ^ 128 % 2 ^ 64)

/-- `to_u256`, goldilocks.rs:122-124. -/
def toU256 (v : Nat) : Nat := reduce v

/-- `serialize_into`, goldilocks.rs:60-65. -/
def ser (v : Nat) : Bytes := leEnc 8 (reduce v)

/-- `deserialize_from`, goldilocks.rs:68-76. -/
def de : De Nat := do
  let u ← readExact 8
  let v := leDec u
  if v ≥ MOD then De.fail .invalid else pure v

/-- `u64::trailing_zeros`: at most `fuel` trailing zero bits. -/
def ctzAux : Nat → Nat → Nat
  | 0, _ => 0
  | fuel + 1, n => if n % 2 = 0 then ctzAux fuel (n / 2) + 1 else 0

/-- `u64::trailing_zeros`. -/
def ctz (n : Nat) : Nat := ctzAux 64 n

/-- The working state of `try_inverse_u64`, goldilocks.rs:392-401. -/
structure St where
  f : Nat
  g : Nat
  c : Int
  d : Int
  k : Nat
  deriving Repr, DecidableEq

/-- The range of `i128`. -/
def i128 (z : Int) : Bool := decide (-(2 ^ 127) ≤ z ∧ z < 2 ^ 127)

/-- A result kept only if it is within range. -/
def keep (ck : Int → Bool) (z : Int) : Option Int := if ck z then some z else none

/-- The swap at the head of an iteration, goldilocks.rs:474-477 and 504-507. -/
def swap (s : St) : St := if s.f < s.g then ⟨s.g, s.f, s.d, s.c, s.k⟩ else s

/-- `safe_iteration`, goldilocks.rs:473-497. `ck` is the range of `c` and `d` (`i128` in the code);
a `<<` that would drop bits of `d` is a failure here, silent in Rust. -/
def safeIter (ck : Int → Bool) (s : St) : Option St :=
  let s := swap s
  if s.f &&& 3 = s.g &&& 3 then
    let f := s.f - s.g
    (keep ck (s.c - s.d)).bind fun c =>
    let kk := ctz f
    (keep ck (s.d * 2 ^ kk)).bind fun d =>
    some ⟨f >>> kk, s.g, c, d, s.k + kk⟩
  else
    (addU 64 (s.f >>> 2) (s.g >>> 2)).bind fun f =>
    (addU 64 f 1).bind fun f =>
    (keep ck (s.c + s.d)).bind fun c =>
    let kk := ctz f
    (keep ck (s.d * 2 ^ (kk + 2))).bind fun d =>
    some ⟨f >>> kk, s.g, c, d, s.k + (kk + 2)⟩

/-- `unsafe_iteration`, goldilocks.rs:503-523. -/
def unsafeIter (ck : Int → Bool) (s : St) : Option St :=
  let s := swap s
  (if s.f &&& 3 = s.g &&& 3 then some (s.f - s.g) else addU 64 s.f s.g).bind fun f =>
  (keep ck (if s.f &&& 3 = s.g &&& 3 then s.c - s.d else s.c + s.d)).bind fun c =>
  let kk := ctz f
  (keep ck (s.d * 2 ^ kk)).bind fun d =>
  some ⟨f >>> kk, s.g, c, d, s.k + kk⟩

/-- `while f != 1 { unsafe_iteration }`, goldilocks.rs:439-443; `none` when the fuel runs out. -/
def loop (ck : Int → Bool) : Nat → St → Option St
  | fuel, s =>
    if s.f = 1 then some s
    else match fuel with
      | 0 => none
      | fuel + 1 => (unsafeIter ck s).bind (loop ck fuel)

/-- The `while e > 32` loop of `inverse_2exp`, goldilocks.rs:552-557. -/
def inv2expLoop : Nat → Nat → Nat → Option (Nat × Nat)
  | 0, res, e => some (res, e)
  | fuel + 1, res, e =>
    if e > 32 then (mul res 0xfffffffe00000002).bind fun r => inv2expLoop fuel r (e - 32)
    else some (res, e)

/-- `inverse_2exp`, goldilocks.rs:527-568. -/
def inv2exp (e : Nat) : Option Nat :=
  if e > 32 then
    (inv2expLoop e 0xfffffffe00000002 (e - 32)).bind fun (res, e) =>
      mul res (MOD - ((MOD - 1) >>> e))
  else some (MOD - ((MOD - 1) >>> e))

/-- `while c < 0 { c += MOD }`, goldilocks.rs:450-452. -/
def raiseLoop : Nat → Int → Int
  | 0, c => c
  | fuel + 1, c => if c < 0 then raiseLoop fuel (c + MOD) else c

/-- `while c >= MOD { c -= MOD }`, goldilocks.rs:456-458. -/
def lowerLoop : Nat → Int → Int
  | 0, c => c
  | fuel + 1, c => if c ≥ MOD then lowerLoop fuel (c - MOD) else c

/-- `try_inverse_u64`, goldilocks.rs:391-467. The outer `Option` is the arithmetic failure, the
inner one the function's result. The loops' fuel is at least their number of iterations
(`loop_spec`, `raise_spec`, `lower_spec`). -/
def tryInverse (ck : Int → Bool) (x : Nat) : Option (Option Nat) :=
  if x = 0 ∨ x = MOD then some none
  else
    let k := ctz x
    let s : St := ⟨x >>> k, MOD, 1, 0, k⟩
    if s.f = 1 then (inv2exp k).map some
    else (safeIter ck s).bind fun s =>
      if s.f = 1 then
        if s.c = -1 then (inv2exp s.k).bind fun r => (subU MOD r).map some
        else (inv2exp s.k).map some
      else (safeIter ck s).bind fun s =>
        (loop ck (s.f + s.g) s).bind fun s =>
          let c := raiseLoop s.c.natAbs s.c
          let c := lowerLoop c.natAbs c
          (inv2exp s.k).bind fun r => (mul c.toNat r).map some

/-- `Goldilocks::try_inverse`, goldilocks.rs:181-183, as compiled: `c` and `d` are `i128`. -/
def inv (x : Nat) : Option (Option Nat) := tryInverse i128 x

/-! ## Proofs -/

abbrev val (v : Nat) : ZMod goldP := (v : ZMod goldP)

theorem gMOD_eq : MOD = 18446744069414584321 := rfl
theorem EPS_eq : EPS = 4294967295 := rfl

theorem val_eq_iff (a b : Nat) : val a = val b ↔ a % MOD = b % MOD :=
  ZMod.natCast_eq_natCast_iff' a b goldP

theorem val_MOD : val MOD = 0 := ZMod.natCast_self goldP

/-- `2^64` is `EPS` in the field. -/
theorem val_two64 : (2 : ZMod goldP) ^ 64 = val EPS := by
  have := (val_eq_iff (2 ^ 64) EPS).mpr (by decide)
  rw [← this]; push_cast; rfl

theorem reduce_canon {x : Nat} (h : x < 2 ^ 64) : reduce x = x % MOD := by
  unfold reduce; rw [gMOD_eq]; split_ifs <;> omega

theorem add_spec {a b : Nat} (ha : a < 2 ^ 64) (hb : b < 2 ^ 64) :
    ∃ r, add a b = some r ∧ r < 2 ^ 64 ∧ val r = val a + val b := by
  have key : ∀ r : Nat, r % MOD = (a + b) % MOD → val r = val a + val b := fun r h => by
    rw [(val_eq_iff r (a + b)).mpr h]; push_cast; rfl
  rw [gMOD_eq] at key
  unfold add ovAdd
  simp only [decide_eq_true_eq]
  by_cases h1 : 2 ^ 64 ≤ a + b
  · simp only [if_pos h1]
    by_cases h2 : 2 ^ 64 ≤ (a + b) % 2 ^ 64 + EPS
    · simp only [if_pos h2]
      rw [EPS_eq] at *
      have h3 : a > MOD ∧ b > MOD := by rw [gMOD_eq]; omega
      have h4 : ((a + b) % 2 ^ 64 + 4294967295) % 2 ^ 64 + 4294967295 < 2 ^ 64 := by omega
      refine ⟨_, by simp only [assume, if_pos h3, addU, if_pos h4]; rfl, h4, key _ (by omega)⟩
    · simp only [if_neg h2]
      rw [EPS_eq] at *
      exact ⟨_, rfl, by omega, key _ (by omega)⟩
  · simp only [if_neg h1]
    have h2 : ¬ 2 ^ 64 ≤ (a + b) % 2 ^ 64 + 0 := by omega
    simp only [if_neg h2]
    exact ⟨_, rfl, by omega, key _ (by omega)⟩

theorem sub_spec {a b : Nat} (ha : a < 2 ^ 64) (hb : b < 2 ^ 64) :
    ∃ r, sub a b = some r ∧ r < 2 ^ 64 ∧ val r = val a - val b := by
  have key : ∀ r : Nat, (r + b) % MOD = a % MOD → val r = val a - val b := fun r h => by
    rw [eq_sub_iff_add_eq]
    have := (val_eq_iff (r + b) a).mpr h
    push_cast at this; exact this
  rw [gMOD_eq] at key
  unfold sub ovSub
  simp only [decide_eq_true_eq]
  by_cases h1 : a < b
  · simp only [if_pos h1]
    by_cases h2 : (a + 2 ^ 64 - b) % 2 ^ 64 < EPS
    · simp only [if_pos h2]
      rw [EPS_eq] at *
      have h3 : a < 4294967295 - 1 ∧ b > MOD := by rw [gMOD_eq]; omega
      have h4 : 4294967295 ≤ ((a + 2 ^ 64 - b) % 2 ^ 64 + 2 ^ 64 - 4294967295) % 2 ^ 64 := by omega
      refine ⟨_, by simp only [assume, if_pos h3, subU, if_pos h4]; rfl, by omega, key _ (by omega)⟩
    · simp only [if_neg h2]
      rw [EPS_eq] at *
      exact ⟨_, rfl, by omega, key _ (by omega)⟩
  · simp only [if_neg h1]
    have h2 : ¬ (a + 2 ^ 64 - b) % 2 ^ 64 < 0 := by omega
    simp only [if_neg h2]
    exact ⟨_, rfl, by omega, key _ (by omega)⟩

theorem addNoCanon_spec {x y : Nat} (hx : x < 2 ^ 64) (hy : y < 2 ^ 64)
    (h : x + y < 2 ^ 64 + MOD) :
    ∃ r, addNoCanon x y = some r ∧ r < 2 ^ 64 ∧ val r = val x + val y := by
  have key : ∀ r : Nat, r % MOD = (x + y) % MOD → val r = val x + val y := fun r h => by
    rw [(val_eq_iff r (x + y)).mpr h]; push_cast; rfl
  rw [gMOD_eq] at key h
  unfold addNoCanon ovAdd
  simp only [decide_eq_true_eq]
  by_cases h1 : 2 ^ 64 ≤ x + y
  · simp only [if_pos h1]
    rw [EPS_eq]
    have a1 : x ≠ 0 ∨ ((x + y) % 2 ^ 64 = y ∧ (4294967295 : Nat) = 0) := Or.inl (by omega)
    have a2 : y ≠ 0 ∨ ((x + y) % 2 ^ 64 = x ∧ (4294967295 : Nat) = 0) := Or.inl (by omega)
    have a3 : (x + y) % 2 ^ 64 + 4294967295 < 2 ^ 64 := by omega
    refine ⟨_, by simp only [assume, if_pos a1, if_pos a2, addU, if_pos a3]; rfl, a3,
      key _ (by omega)⟩
  · simp only [if_neg h1]
    have a1 : x ≠ 0 ∨ ((x + y) % 2 ^ 64 = y ∧ True) := by simp only [and_true]; omega
    have a2 : y ≠ 0 ∨ ((x + y) % 2 ^ 64 = x ∧ True) := by simp only [and_true]; omega
    have a3 : (x + y) % 2 ^ 64 + 0 < 2 ^ 64 := by omega
    refine ⟨_, by simp only [assume, if_pos a1, if_pos a2, addU, if_pos a3]; rfl, a3,
      key _ (by omega)⟩

theorem reduce128_spec {x : Nat} (hx : x < 2 ^ 128) :
    ∃ r, reduce128 x = some r ∧ r < 2 ^ 64 ∧ val r = val x := by
  unfold reduce128
  have hand : ∀ n, n &&& EPS = n % 2 ^ 32 := fun n => Nat.and_two_pow_sub_one_eq_mod n 32
  simp only [hand, Nat.shiftRight_eq_div_pow]
  have hhi : x / 2 ^ 64 % 2 ^ 64 = x / 2 ^ 64 := Nat.mod_eq_of_lt (by omega)
  rw [hhi]
  have hsplit : x = 2 ^ 64 * (x / 2 ^ 64) + x % 2 ^ 64 := (Nat.div_add_mod x _).symm
  have hhlt : x / 2 ^ 64 < 2 ^ 64 := by omega
  have hllt : x % 2 ^ 64 < 2 ^ 64 := Nat.mod_lt _ (by norm_num)
  generalize x / 2 ^ 64 = hi at *
  generalize x % 2 ^ 64 = lo at *
  have hsplit2 : hi = 2 ^ 32 * (hi / 2 ^ 32) + hi % 2 ^ 32 := (Nat.div_add_mod hi _).symm
  have hhh : hi / 2 ^ 32 < 2 ^ 32 := by omega
  have hhl : hi % 2 ^ 32 < 2 ^ 32 := Nat.mod_lt _ (by norm_num)
  generalize hi / 2 ^ 32 = hh at *
  generalize hi % 2 ^ 32 = hl at *
  -- the value of the intermediate difference
  have ht0 : ∃ t0, (if (ovSub lo hh).2 = true then subU (ovSub lo hh).1 EPS
      else some (ovSub lo hh).1) = some t0 ∧ t0 < 2 ^ 64 ∧ (t0 + hh) % MOD = lo % MOD := by
    unfold ovSub subU
    simp only [decide_eq_true_eq]
    rw [gMOD_eq, EPS_eq]
    split_ifs with h1 h2
    · exact ⟨_, rfl, by omega, by omega⟩
    · omega
    · have : (lo + 2 ^ 64 - hh) % 2 ^ 64 = lo - hh := by omega
      exact ⟨_, rfl, by omega, by rw [this]; congr 1; omega⟩
  obtain ⟨t0, e0, l0, v0⟩ := ht0
  have hmul : hl * EPS ≤ (2 ^ 32 - 1) * (2 ^ 32 - 1) := Nat.mul_le_mul (by omega) (by rw [EPS_eq]; norm_num)
  have hm2 : hl * EPS < 2 ^ 64 := by omega
  obtain ⟨r, er, lr, vr⟩ := addNoCanon_spec l0 hm2 (by rw [gMOD_eq]; omega)
  refine ⟨r, ?_, lr, ?_⟩
  · simp only [e0, if_pos hm2, Option.bind_some, er]
  · rw [vr]
    have hv0 : val t0 + val hh = val lo := by
      have := (val_eq_iff (t0 + hh) lo).mpr v0
      push_cast at this; exact this
    have hp : (18446744069414584321 : ZMod goldP) = 0 := by exact_mod_cast val_MOD
    have hE : val EPS = 4294967295 := by rw [EPS_eq]; push_cast; rfl
    subst hsplit2
    rw [hsplit]
    have hm : val (hl * EPS) = val hl * 4294967295 := by rw [← hE]; push_cast; rfl
    rw [hm]
    push_cast
    push_cast at hv0
    linear_combination hv0 - ((hh : ZMod goldP) * 4294967297 + hl) * hp

theorem mul_spec {a b : Nat} (ha : a < 2 ^ 64) (hb : b < 2 ^ 64) :
    ∃ r, mul a b = some r ∧ r < 2 ^ 64 ∧ val r = val a * val b := by
  have : a * b < 2 ^ 128 := by
    have := Nat.mul_lt_mul'' ha hb
    omega
  obtain ⟨r, e, l, v⟩ := reduce128_spec this
  exact ⟨r, e, l, by rw [v]; push_cast; rfl⟩

theorem neg_spec {v : Nat} (hv : v < 2 ^ 64) : ∃ r, neg v = some r ∧ r < 2 ^ 64 ∧ val r = -val v := by
  obtain ⟨r, e, l, h⟩ := sub_spec (a := 0) (b := v) (by norm_num) hv
  exact ⟨r, e, l, by rw [h]; simp⟩

theorem isZero_iff {v : Nat} (hv : v < 2 ^ 64) : isZero v = true ↔ val v = 0 := by
  have : val v = 0 ↔ val v = val 0 := by simp
  rw [this, val_eq_iff]
  simp only [isZero, Bool.or_eq_true, beq_iff_eq]
  rw [gMOD_eq]; omega

end JST.Gold
