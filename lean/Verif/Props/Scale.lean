import Verif.Quant.Scale
import Mathlib.Tactic.Linarith
import Mathlib.Tactic.Positivity
import Mathlib.Tactic.NormNum

/-!
# C79: the choice of scale and field
-/

namespace JST.Props
open JST.Quant.Scale

namespace Scale

theorem clog_spec {q : ℚ} (h : 1 < q) : q ≤ 2 ^ Nat.clog 2 ⌈q⌉₊ ∧ (2 : ℚ) ^ Nat.clog 2 ⌈q⌉₊ < 2 * q := by
  constructor
  · calc q ≤ (⌈q⌉₊ : ℚ) := Nat.le_ceil q
      _ ≤ ((2 ^ Nat.clog 2 ⌈q⌉₊ : ℕ) : ℚ) := by exact_mod_cast Nat.le_pow_clog (by norm_num) _
      _ = _ := by push_cast; rfl
  · have h1 : 1 < ⌈q⌉₊ := Nat.lt_ceil.2 (by simpa using h)
    have h2 : 2 ^ (Nat.clog 2 ⌈q⌉₊ - 1) < ⌈q⌉₊ := Nat.pow_pred_clog_lt_self (by norm_num) h1
    have h3 : ((2 ^ (Nat.clog 2 ⌈q⌉₊ - 1) : ℕ) : ℚ) < q := Nat.lt_ceil.1 h2
    have h4 : 0 < Nat.clog 2 ⌈q⌉₊ := Nat.clog_pos (by norm_num) h1
    obtain ⟨k, hk⟩ := Nat.exists_eq_succ_of_ne_zero h4.ne'
    rw [hk] at h3 ⊢
    simp only [Nat.succ_eq_add_one, Nat.add_sub_cancel, Nat.cast_pow, Nat.cast_ofNat] at h3
    rw [Nat.succ_eq_add_one, pow_succ]
    linarith

theorem logAccum_spec (q : ℚ) (k : Nat) : logAccum (.fin q) ≤ k ↔ q ≤ 2 ^ k := by
  unfold logAccum
  by_cases h : 1 < q
  · simp only [if_pos h]
    rw [Nat.clog_le_iff_le_pow (by norm_num), Nat.ceil_le]
    push_cast
    rfl
  · simp only [if_neg h, Nat.zero_le, true_iff]
    exact (not_lt.1 h).trans (one_le_pow₀ (by norm_num))

end Scale

open Scale

/-- The exponent chosen keeps the product of two scaled values within the signed numbers of `nBits` bits, for every
bound that leaves room for the scale one. -/
theorem C79_safe_partial (nBits : Nat) (hn : 0 < nBits) (h32 : nBits < 2 ^ 32) (q : ℚ) (hq : q ≤ 2 ^ (nBits - 1)) :
    (2 ^ maxSafeExponent nBits (.fin q)) ^ 2 * q ≤ 2 ^ (nBits - 1) := by
  have hl := (logAccum_spec q _).2 hq
  have hq2 := (logAccum_spec q _).1 le_rfl
  unfold maxSafeExponent
  rw [min_eq_left (by unfold u32Max; omega)]
  generalize logAccum (.fin q) = l at hl hq2 ⊢
  generalize he : (nBits - (l + 1)) / 2 = e
  have h2 : 2 * e + l ≤ nBits - 1 := by omega
  rw [← pow_mul]
  calc (2 : ℚ) ^ (e * 2) * q ≤ 2 ^ (e * 2) * 2 ^ l := mul_le_mul_of_nonneg_left hq2 (by positivity)
    _ = 2 ^ (e * 2 + l) := (pow_add _ _ _).symm
    _ ≤ 2 ^ (nBits - 1) := pow_le_pow_right₀ (by norm_num) (by omega)

/-- One more would leave less than two bits of room. -/
theorem C79_maximal (nBits : Nat) (hn : 0 < nBits) (h32 : nBits < 2 ^ 32) (q : ℚ) (h1 : 1 ≤ q)
    (hq : q ≤ 2 ^ (nBits - 1)) :
    (2 : ℚ) ^ (nBits - 1) < 2 * ((2 ^ (maxSafeExponent nBits (.fin q) + 1)) ^ 2 * q) := by
  have hl := (logAccum_spec q _).2 hq
  have hlow : (2 : ℚ) ^ logAccum (.fin q) < 2 * q := by
    unfold logAccum
    by_cases h : 1 < q
    · simp only [if_pos h]
      exact (clog_spec h).2
    · simp only [if_neg h, pow_zero]
      linarith
  unfold maxSafeExponent
  rw [min_eq_left (by unfold u32Max; omega)]
  generalize logAccum (.fin q) = l at hl hlow ⊢
  generalize he : (nBits - (l + 1)) / 2 = e
  have h2 : nBits - 1 ≤ (e + 1) * 2 + l := by omega
  rw [← pow_mul]
  calc (2 : ℚ) ^ (nBits - 1) ≤ 2 ^ ((e + 1) * 2 + l) := pow_le_pow_right₀ (by norm_num) h2
    _ = 2 ^ ((e + 1) * 2) * 2 ^ l := pow_add _ _ _
    _ < 2 ^ ((e + 1) * 2) * (2 * q) := mul_lt_mul_of_pos_left hlow (by positivity)
    _ = 2 * (2 ^ ((e + 1) * 2) * q) := by ring

/-- The values fit both Goldilocks tiers: signed numbers of that many bits are distinct modulo the prime. -/
theorem C79_fits (nBits : Nat) (h : nBits ≤ nBitsGoldilocksExt2) (x y : ℤ) (hx : |x| ≤ 2 ^ (nBits - 1))
    (hy : |y| ≤ 2 ^ (nBits - 1)) (hxy : (18446744069414584321 : ℤ) ∣ x - y) : x = y := by
  have hp : (2 : ℤ) ^ (nBits - 1) ≤ 2 ^ 62 := pow_le_pow_right₀ (by norm_num) (by
    unfold nBitsGoldilocksExt2 at h; omega)
  have h1 := abs_le.1 hx
  have h2 := abs_le.1 hy
  have h3 : |x - y| < 18446744069414584321 := by
    rw [abs_lt]
    constructor <;> linarith [h1.1, h1.2, h2.1, h2.2, (by norm_num : (2 : ℤ) ^ 62 = 4611686018427387904)]
  have := Int.eq_zero_of_abs_lt_dvd hxy h3
  omega

/-- The digits asked for are delivered: the scale is the smallest power of two that separates them, and within the
largest safe one; they are refused exactly when that is impossible. -/
theorem C79_precision (d nBits : Nat) (hn : nBits ≤ 126) (b : Bound) :
    (∀ c, forPrecision d nBits b = .ok c → c.base = 2 ∧ c.alpha = 2 ^ c.exponent ∧ 10 ^ d ≤ c.alpha ∧
      (∀ e, 10 ^ d ≤ 2 ^ e → c.exponent ≤ e) ∧ c.exponent ≤ maxSafeExponent nBits b) ∧
    (forPrecision d nBits b = .error .precision ↔ 2 ^ maxSafeExponent nBits b < 10 ^ d) ∧
    forPrecision d nBits b ≠ .error .overflow := by
  have hm : maxSafeExponent nBits b ≤ 62 := by
    unfold maxSafeExponent u32Max
    omega
  have hcl : exponentForDigits d ≤ maxSafeExponent nBits b ↔ 10 ^ d ≤ 2 ^ maxSafeExponent nBits b := by
    unfold exponentForDigits u32Max
    rw [← Nat.clog_le_iff_le_pow (by norm_num)]
    omega
  unfold forPrecision new
  by_cases h : exponentForDigits d ≤ maxSafeExponent nBits b
  · have h63 : 2 ^ exponentForDigits d < 2 ^ 63 := Nat.pow_lt_pow_right (by norm_num) (by omega)
    have hex : exponentForDigits d = Nat.clog 2 (10 ^ d) := by
      unfold exponentForDigits u32Max at h ⊢
      omega
    rw [if_pos h, if_pos h63]
    refine ⟨?_, ?_, by simp⟩
    · intro c hc
      obtain rfl := Except.ok.inj hc
      refine ⟨rfl, rfl, ?_, ?_, h⟩
      · simp only [hex]
        exact Nat.le_pow_clog (by norm_num) _
      · intro e he
        simp only [hex]
        exact Nat.clog_le_of_le_pow he
    · simp only [reduceCtorEq, false_iff, not_lt]
      exact hcl.1 h
  · rw [if_neg h]
    refine ⟨by simp, ?_, by simp⟩
    simp only [true_iff]
    rw [hcl, not_le] at h
    exact h

/-- The number of digits named in the refusal is the largest that is not refused. -/
theorem C79_digits (nBits d : Nat) (hn : nBits < 2 ^ 32) (b : Bound) :
    d ≤ maxSafeDigits nBits b ↔ exponentForDigits d ≤ maxSafeExponent nBits b := by
  unfold maxSafeDigits exponentForDigits
  have hm : maxSafeExponent nBits b < u32Max := by
    unfold maxSafeExponent u32Max
    omega
  rw [Nat.le_log_iff_pow_le (by norm_num) (by positivity), ← Nat.clog_le_iff_le_pow (by norm_num)]
  omega

/-- The automatic choice: the smallest tier that can hold the digits (or eight bits), the configuration that the
width implies, a scale that is not refused afterwards; and refusal exactly when neither tier can. -/
theorem C79_auto (b : Bound) (digits : Option Nat) :
    let need := match digits with | some d => exponentForDigits d | none => minUsefulExponent
    (need ≤ maxSafeExponent 31 b → selectTier b digits = .ok (.goldilocksBasefold, 31)) ∧
    (maxSafeExponent 31 b < need → need ≤ maxSafeExponent 63 b →
      selectTier b digits = .ok (.goldilocksExt2Basefold, 63)) ∧
    (maxSafeExponent 63 b < need → ∃ e, selectTier b digits = .error e ∧ generateAuto b digits = .error e) ∧
    (∀ p n, selectTier b digits = .ok (p, n) → inferProof n = p ∧ ∃ c, generateAuto b digits = .ok (c, some p) ∧
      need ≤ c.exponent ∧ c.exponent ≤ maxSafeExponent n b ∧ c.alpha = 2 ^ c.exponent) := by
  have hmono : maxSafeExponent 31 b ≤ maxSafeExponent 63 b := by
    unfold maxSafeExponent
    omega
  have h31 : nBitsGoldilocks = 31 := rfl
  have h63 : nBitsGoldilocksExt2 = 63 := rfl
  have hm31 : maxSafeExponent 31 b ≤ 62 := by unfold maxSafeExponent; omega
  have hm63 : maxSafeExponent 63 b ≤ 62 := by unfold maxSafeExponent; omega
  have hnew : ∀ e, e ≤ 62 → new 2 e = .ok ⟨2, e, 2 ^ e⟩ := by
    intro e he
    unfold new
    rw [if_pos (Nat.pow_lt_pow_right (by norm_num) (by omega))]
  have i31 : inferProof 31 = .goldilocksBasefold := by decide
  have i63 : inferProof 63 = .goldilocksExt2Basefold := by decide
  cases digits with
  | some d =>
    simp only [selectTier, generateAuto, generate, forPrecision, h31, h63, ge_iff_le]
    generalize exponentForDigits d = need
    by_cases h1 : need ≤ maxSafeExponent 31 b
    · simp [h1, hnew need (by omega), i31, Bind.bind, Except.bind, Pure.pure, Except.pure]
      try omega
    · by_cases h2 : need ≤ maxSafeExponent 63 b
      · simp [h1, h2, hnew need (by omega), i63, Bind.bind, Except.bind, Pure.pure, Except.pure]
        try omega
      · simp [h1, h2, Bind.bind, Except.bind]
  | none =>
    simp only [selectTier, generateAuto, generate, adaptive, h31, h63, ge_iff_le]
    generalize minUsefulExponent = need
    by_cases h1 : need ≤ maxSafeExponent 31 b
    · simp [h1, hnew _ hm31, i31, Bind.bind, Except.bind, Pure.pure, Except.pure]
      try omega
    · by_cases h2 : need ≤ maxSafeExponent 63 b
      · simp [h1, h2, hnew _ hm63, i63, Bind.bind, Except.bind, Pure.pure, Except.pure]
        try omega
      · simp [h1, h2, Bind.bind, Except.bind]

/-- An exponent above zero shows that the bound leaves room, so that whatever the automatic choice accepts for at
least one digit (or without a number of digits) is safe. -/
theorem C79_auto_safe (q : ℚ) (digits : Option Nat) (hd : digits ≠ some 0) (c : Config) (p : Option Proof)
    (h : generateAuto (.fin q) digits = .ok (c, p)) :
    ∃ n, (p = some .goldilocksBasefold ∧ n = 31 ∨ p = some .goldilocksExt2Basefold ∧ n = 63) ∧
      (c.alpha : ℚ) ^ 2 * q ≤ 2 ^ (n - 1) := by
  have ha := C79_auto (.fin q) digits
  dsimp only at ha
  obtain ⟨-, -, -, h4⟩ := ha
  cases hs : selectTier (.fin q) digits with
  | error e => simp [generateAuto, hs, Bind.bind, Except.bind] at h
  | ok pn =>
    obtain ⟨p', n⟩ := pn
    obtain ⟨hinf, c', hg, hneed, hmax, halpha⟩ := h4 p' n hs
    rw [h] at hg
    obtain ⟨rfl, rfl⟩ := Prod.mk.inj (Except.ok.inj hg)
    have hpos : 0 < maxSafeExponent n (.fin q) := by
      refine lt_of_lt_of_le ?_ (hneed.trans hmax)
      cases digits with
      | none => simp [minUsefulExponent]
      | some d =>
        have hd0 : d ≠ 0 := fun h0 => hd (by rw [h0])
        simp only [exponentForDigits, u32Max]
        have : 0 < Nat.clog 2 (10 ^ d) := Nat.clog_pos (by norm_num)
          (Nat.one_lt_pow hd0 (by norm_num))
        omega
    have hn : n = 31 ∧ p' = .goldilocksBasefold ∨ n = 63 ∧ p' = .goldilocksExt2Basefold := by
      revert hs
      unfold selectTier
      cases digits <;> dsimp only <;> intro hs <;> split_ifs at hs <;> first
        | (obtain ⟨h1, h2⟩ := Prod.mk.inj (Except.ok.inj hs); simp [← h1, ← h2, nBitsGoldilocks, nBitsGoldilocksExt2])
        | cases hs
    have hn0 : 0 < n ∧ n < 2 ^ 32 := by rcases hn with ⟨rfl, -⟩ | ⟨rfl, -⟩ <;> norm_num
    refine ⟨n, by rcases hn with ⟨rfl, rfl⟩ | ⟨rfl, rfl⟩ <;> simp, ?_⟩
    have hq : q ≤ 2 ^ (n - 1) := by
      rw [← logAccum_spec]
      unfold maxSafeExponent at hpos
      have hn63 : n ≤ 63 := by rcases hn with ⟨rfl, -⟩ | ⟨rfl, -⟩ <;> norm_num
      have hu : 64 ≤ u32Max := by norm_num [u32Max]
      generalize u32Max = u at hpos hu
      omega
    have hsafe := C79_safe_partial n hn0.1 hn0.2 q hq
    have h0 : (2 : ℚ) ^ c.exponent ≤ 2 ^ maxSafeExponent n (.fin q) := pow_le_pow_right₀ (by norm_num) hmax
    rw [halpha]
    push_cast
    rcases le_or_gt 0 q with hq0 | hq0
    · refine le_trans (mul_le_mul_of_nonneg_right ?_ hq0) hsafe
      exact pow_le_pow_left₀ (by positivity) h0 2
    · calc ((2 : ℚ) ^ c.exponent) ^ 2 * q ≤ 0 := mul_nonpos_of_nonneg_of_nonpos (by positivity) hq0.le
        _ ≤ 2 ^ (n - 1) := by positivity

/-- With a width given and no digits, or zero digits, a bound that does not fit is accepted: the scale is one, and
the values exceed the width. -/
theorem C79_not_safe (nBits : Nat) (hn : 0 < nBits) (h32 : nBits < 2 ^ 32) (q : ℚ) (hq : 2 ^ (nBits - 1) < q) :
    generate (.fin q) (some nBits) none = .ok (⟨2, 0, 1⟩, some (inferProof nBits)) ∧
    generate (.fin q) (some nBits) (some 0) = .ok (⟨2, 0, 1⟩, some (inferProof nBits)) ∧
    (2 : ℚ) ^ (nBits - 1) < (1 : ℚ) ^ 2 * q := by
  have h0 : maxSafeExponent nBits (.fin q) = 0 := by
    have : ¬ logAccum (.fin q) ≤ nBits - 1 := by
      rw [logAccum_spec]
      exact not_le.2 hq
    unfold maxSafeExponent u32Max
    omega
  refine ⟨?_, ?_, by simpa using hq⟩
  · simp [generate, adaptive, h0, new, Bind.bind, Except.bind, Pure.pure, Except.pure]
  · simp [generate, forPrecision, h0, new, exponentForDigits, Bind.bind, Except.bind, Pure.pure, Except.pure]

/-- The automatic choice too, when zero digits are asked for: every bound, infinity and NaN are accepted. -/
theorem C79_auto_zero (b : Bound) :
    generateAuto b (some 0) = .ok (⟨2, 0, 1⟩, some .goldilocksBasefold) := by
  have h0 : exponentForDigits 0 = 0 := by simp [exponentForDigits]
  have i31 : inferProof nBitsGoldilocks = .goldilocksBasefold := by decide
  simp [generateAuto, selectTier, generate, forPrecision, h0, new, i31, Bind.bind, Except.bind, Pure.pure, Except.pure]

/-- A bound that is not a number gives the largest exponent. -/
theorem C79_nan (nBits : Nat) (b : Bound) : maxSafeExponent nBits b ≤ maxSafeExponent nBits .nan := by
  unfold maxSafeExponent
  have : logAccum .nan = 0 := rfl
  omega

/-- Without a width nothing depends on the bound. -/
theorem C79_default (b : Bound) : generate b none none = .ok (⟨2, 18, 262144⟩, none) := by
  simp [generate, new, defaultExponent, Bind.bind, Except.bind, Pure.pure, Except.pure]

/-- Digits without a width are refused. -/
theorem C79_needs_width (b : Bound) (d : Nat) : generate b none (some d) = .error .needsBits := rfl

/-- A width of 127 bits or more overflows the scale when the bound is small. -/
theorem C79_overflow (nBits : Nat) (hn : 127 ≤ nBits) (q : ℚ) (hq : q ≤ 1) :
    generate (.fin q) (some nBits) none = .error .overflow := by
  have h : 63 ≤ maxSafeExponent nBits (.fin q) ∨ 2 ^ 32 ≤ nBits := by
    have : logAccum (.fin q) = 0 := by simp [logAccum, hq]
    unfold maxSafeExponent u32Max
    omega
  have h' : 63 ≤ maxSafeExponent nBits (.fin q) := by
    rcases h with h | h
    · exact h
    · have : logAccum (.fin q) = 0 := by simp [logAccum, hq]
      unfold maxSafeExponent u32Max
      omega
  have h2 : ¬ 2 ^ maxSafeExponent nBits (.fin q) < 2 ^ 63 :=
    not_lt.2 (Nat.pow_le_pow_right (by norm_num) h')
  simp only [generate, adaptive, new, if_neg h2, Bind.bind, Except.bind]

/-- Non-vacuity: a bound of 1000 has exponent 10 at 31 bits and 26 at 63; four digits need exponent 14. -/
example : maxSafeExponent 31 (.fin 1000) = 10 ∧ maxSafeExponent 63 (.fin 1000) = 26 ∧ exponentForDigits 4 = 14 ∧
    maxSafeDigits 31 (.fin 1000) = 3 := by decide +kernel
example : generateAuto (.fin 1000) (some 4) = .ok (⟨2, 14, 16384⟩, some .goldilocksExt2Basefold) := by decide +kernel
example : generateAuto (.fin 1000) none = .ok (⟨2, 10, 1024⟩, some .goldilocksBasefold) := by decide +kernel

end JST.Props
