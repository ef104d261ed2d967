import Verif.Props.FunctionPow

/-!
# C58: soundness of the Pow layer for every positive exponent

The quotients inside the loop are not range-checked, so a dishonest prover works with fractions: every product
is divided exactly by the scale after subtracting a remainder of its choice. The theorem bounds how far this
can move the output.
-/

set_option linter.unusedSectionVars false

namespace JST.Props

open JST.Shape JST.Layers JST.Spec

variable {p : Nat} [Fact p.Prime] {T : Tables (ZMod p)}

/-- `(N+2)^(k+1)` exceeds `α^(k+1)` by at least `2 α^k`. -/
private theorem pow_gap {α N : Int} (hα : 0 < α) (hN : α ≤ N) (k : Nat) :
    α * α ^ k + 2 * α ^ k ≤ (N + 2) ^ (k + 1) := by
  have h1 : (α + 2) ^ (k + 1) ≤ (N + 2) ^ (k + 1) := pow_le_pow_left₀ (by linarith) (by linarith) _
  have h2 : α ^ k ≤ (α + 2) ^ k := pow_le_pow_left₀ hα.le (by linarith) _
  have h3 : (α + 2) ^ (k + 1) = (α + 2) ^ k * (α + 2) := pow_succ _ _
  have h4 : α ^ k * (α + 2) ≤ (α + 2) ^ k * (α + 2) := mul_le_mul_of_nonneg_right h2 (by linarith)
  linarith

private theorem abs_pow_le {X N : Int} (h : |X| ≤ N) (k : Nat) : |X ^ k| ≤ N ^ k := by
  rw [abs_pow]; exact pow_le_pow_left₀ (abs_nonneg X) h k

/-- Squaring the base. -/
private theorem base_step {α c n b x Z r : Int} (hb : 0 < b) (hc : α * b + 2 * b ≤ c)
    (hα : 0 < α) (hx : |x| ≤ n) (hZ : |Z - x| ≤ c - n - 2 * b) (r0 : 0 ≤ r) (r1 : r < α) :
    |Z * Z - r * (b * b) - x * x| ≤ c * c - n * n - 2 * (α * (b * b)) := by
  obtain ⟨d, rfl⟩ : ∃ d, Z = x + d := ⟨Z - x, by ring⟩
  rw [add_sub_cancel_left] at hZ
  have h1 : |d * (2 * x + d)| ≤ (c - n - 2 * b) * (2 * n + (c - n - 2 * b)) := by
    rw [abs_mul]
    refine mul_le_mul hZ ?_ (abs_nonneg _) (le_trans (abs_nonneg _) hZ)
    calc |2 * x + d| ≤ |2 * x| + |d| := abs_add_le _ _
      _ ≤ _ := by rw [abs_mul, abs_two]; linarith
  have h2 : 0 ≤ r * (b * b) := by positivity
  have h3 : r * (b * b) ≤ α * (b * b) := mul_le_mul_of_nonneg_right r1.le (by positivity)
  have h4 : b * (α * b + 2 * b) ≤ b * c := mul_le_mul_of_nonneg_left hc hb.le
  have h5 : 0 < α * (b * b) := by positivity
  have e1 : (x + d) * (x + d) - r * (b * b) - x * x = d * (2 * x + d) - r * (b * b) := by ring
  rw [e1]
  rw [abs_le] at h1 ⊢
  constructor <;> nlinarith

/-- Multiplying the result by the base. -/
private theorem res_step {α cm ck nm nk a b xm xk R Z r : Int} (hα : 0 < α) (ha : 0 < a) (hb : 0 < b)
    (hcm : α * a + 2 * a ≤ cm) (hck : 0 ≤ ck) (hxm : |xm| ≤ nm) (hxk : |xk| ≤ nk)
    (hR : |R - α * xm| ≤ α * (cm - nm - a)) (hZ : |Z - xk| ≤ ck - nk - 2 * b) (r0 : 0 ≤ r) (r1 : r < α) :
    |R * Z - r * (α * a * b) - α * (xm * xk)| ≤ α * (cm * ck - nm * nk - α * a * b) := by
  obtain ⟨u, rfl⟩ : ∃ u, R = α * xm + u := ⟨R - α * xm, by ring⟩
  obtain ⟨v, rfl⟩ : ∃ v, Z = xk + v := ⟨Z - xk, by ring⟩
  rw [add_sub_cancel_left] at hR hZ
  have h0 : |α * xm + u| ≤ α * (cm - a) := by
    have : |α * xm| ≤ α * nm := by
      rw [abs_mul, abs_of_pos hα]; exact mul_le_mul_of_nonneg_left hxm hα.le
    calc |α * xm + u| ≤ |α * xm| + |u| := abs_add_le _ _
      _ ≤ α * nm + α * (cm - nm - a) := add_le_add this hR
      _ = _ := by ring
  have h1 : |(α * xm + u) * v| ≤ α * (cm - a) * (ck - nk - 2 * b) := by
    rw [abs_mul]
    exact mul_le_mul h0 hZ (abs_nonneg _) (le_trans (abs_nonneg _) h0)
  have h2 : |u * xk| ≤ α * (cm - nm - a) * nk := by
    rw [abs_mul]
    exact mul_le_mul hR hxk (abs_nonneg _) (le_trans (abs_nonneg _) hR)
  have h3 : 0 ≤ r * (α * a * b) := by positivity
  have h4 : r * (α * a * b) ≤ α * (α * a * b) := mul_le_mul_of_nonneg_right r1.le (by positivity)
  have h5 : α * b * (α * a + 2 * a) ≤ α * b * cm := mul_le_mul_of_nonneg_left hcm (by positivity)
  have h6 : 0 ≤ α * a * ck := by positivity
  have h7 : 0 < α * a * b := by positivity
  have e1 : (α * xm + u) * (xk + v) - r * (α * a * b) - α * (xm * xk) =
      (α * xm + u) * v + u * xk - r * (α * a * b) := by ring
  have e2 : α * (cm - a) * (ck - nk - 2 * b) + α * (cm - nm - a) * nk =
      α * (cm * ck - nm * nk) - 2 * (α * b * cm) - α * a * ck + 2 * (α * a * b) := by ring
  have e3 : α * (cm * ck - nm * nk - α * a * b) = α * (cm * ck - nm * nk) - α * (α * a * b) := by ring
  have e4 : α * b * (α * a + 2 * a) = α * (α * a * b) + 2 * (α * a * b) := by ring
  rw [e1, e3]
  rw [e4] at h5
  rw [abs_le] at h1 h2 ⊢
  constructor <;> linarith

/-- The base after `log₂ (k+1)` squarings, as a fraction with denominator `α^k`. -/
private def BaseOk (α : Nat) (N X : Int) (k : Nat) (w : ZMod p) : Prop :=
  ∃ Z : Int, w * (α : ZMod p) ^ k = (Z : ZMod p) ∧
    |Z - X ^ (k + 1)| ≤ (N + 2) ^ (k + 1) - N ^ (k + 1) - 2 * (α : Int) ^ k

/-- A non-trivial result, as a fraction with denominator `α^(m+1)`. -/
private def ResPos (α : Nat) (N X : Int) (m : Nat) (w : ZMod p) : Prop :=
  ∃ Z : Int, w * (α : ZMod p) ^ (m + 1) = (Z : ZMod p) ∧
    |Z - α * X ^ (m + 1)| ≤ α * ((N + 2) ^ (m + 1) - N ^ (m + 1) - (α : Int) ^ m)

/-- The result that stands for the `m`-th power. -/
private def ResOk (α : Nat) (N X : Int) (m : Nat) (w : ZMod p) : Prop :=
  (m = 0 ∧ w = (α : ZMod p)) ∨ ∃ m', m = m' + 1 ∧ ResPos α N X m' w

private theorem baseOk_sq {α : Nat} {N X : Int} (hα : 0 < α) (hN : (α : Int) ≤ N) (hX : |X| ≤ N) {k r : Nat}
    {w q : ZMod p} (h : BaseOk α N X k w) (hr : r < α) (e : q * (α : ZMod p) + (r : ZMod p) = w * w) :
    BaseOk α N X (2 * k + 1) q := by
  obtain ⟨Z, e1, hZ⟩ := h
  have hα' : (0 : Int) < α := by exact_mod_cast hα
  refine ⟨Z * Z - r * ((α : Int) ^ k * (α : Int) ^ k), ?_, ?_⟩
  · push_cast
    rw [← e1]
    have : (α : ZMod p) ^ (2 * k + 1) = (α : ZMod p) * ((α : ZMod p) ^ k * (α : ZMod p) ^ k) := by ring
    rw [this]
    linear_combination ((α : ZMod p) ^ k * (α : ZMod p) ^ k) * e
  · have := base_step (b := (α : Int) ^ k) (by positivity) (pow_gap hα' hN k) hα' (abs_pow_le hX (k + 1)) hZ
      (r := r) (by positivity) (by exact_mod_cast hr)
    have e2 : ∀ y : Int, y ^ (2 * k + 1 + 1) = y ^ (k + 1) * y ^ (k + 1) := fun y => by ring
    have e3 : (α : Int) ^ (2 * k + 1) = α * ((α : Int) ^ k * (α : Int) ^ k) := by ring
    rw [e2, e2, e2, e3]
    exact this

private theorem resOk_mul {α : Nat} {N X : Int} (hα : 0 < α) (hN : (α : Int) ≤ N) (hX : |X| ≤ N)
    (hne : (α : ZMod p) ≠ 0) {m k r : Nat}
    {w b q : ZMod p} (h : ResOk α N X m w) (hb : BaseOk α N X k b) (hr : r < α)
    (e : q * (α : ZMod p) + (r : ZMod p) = w * b) : ResOk α N X (m + (k + 1)) q := by
  obtain ⟨Z, e1, hZ⟩ := hb
  have hα' : (0 : Int) < α := by exact_mod_cast hα
  have r0 : (0 : Int) ≤ r := by positivity
  have r1 : (r : Int) < α := by exact_mod_cast hr
  rcases h with ⟨rfl, rfl⟩ | ⟨m', rfl, R, eR, hR⟩
  · refine .inr ⟨k, by omega, α * Z - r * (α : Int) ^ k, ?_, ?_⟩
    · push_cast
      rw [← e1, pow_succ]
      linear_combination ((α : ZMod p) ^ k) * e
    · have h2 : 0 ≤ r * (α : Int) ^ k := by positivity
      have h3 : r * (α : Int) ^ k ≤ α * (α : Int) ^ k := mul_le_mul_of_nonneg_right r1.le (by positivity)
      have h4 : |α * (Z - X ^ (k + 1))| ≤ α * ((N + 2) ^ (k + 1) - N ^ (k + 1) - 2 * (α : Int) ^ k) := by
        rw [abs_mul, abs_of_pos hα']; exact mul_le_mul_of_nonneg_left hZ hα'.le
      have h5 : 0 < α * (α : Int) ^ k := by positivity
      have e2 : α * Z - r * (α : Int) ^ k - α * X ^ (k + 1) = α * (Z - X ^ (k + 1)) - r * (α : Int) ^ k := by ring
      rw [e2]
      rw [abs_le] at h4 ⊢
      constructor <;> linarith
  · refine .inr ⟨m' + k + 1, by omega, R * Z - r * (α * (α : Int) ^ m' * (α : Int) ^ k), ?_, ?_⟩
    · push_cast
      rw [← e1, ← eR]
      have : (α : ZMod p) ^ (m' + k + 1 + 1) = (α : ZMod p) * ((α : ZMod p) ^ (m' + 1) * (α : ZMod p) ^ k) := by ring
      rw [this]
      have e5 : (α : ZMod p) * (α : ZMod p) ^ m' = (α : ZMod p) ^ (m' + 1) := by ring
      rw [e5]
      linear_combination ((α : ZMod p) ^ (m' + 1) * (α : ZMod p) ^ k) * e
    · have hN0 : 0 ≤ N := by linarith
      have := res_step (a := (α : Int) ^ m') (b := (α : Int) ^ k) (ck := (N + 2) ^ (k + 1)) hα' (by positivity)
        (by positivity) (pow_gap hα' hN m') (by positivity) (abs_pow_le hX (m' + 1)) (abs_pow_le hX (k + 1)) hR hZ r0 r1
      have e2 : ∀ y : Int, y ^ (m' + k + 1 + 1) = y ^ (m' + 1) * y ^ (k + 1) := fun y => by ring
      have e3 : (α : Int) ^ (m' + k + 1) = α * (α : Int) ^ m' * (α : Int) ^ k := by ring
      rw [e2, e2, e2, e3]
      exact this

private theorem sound_powLoop {rc : RangeCtx} (hT : IsRangeTable T rc) (hc : 0 < rc.chunk) {κ : Nat}
    (hd : rc.chunk ∣ κ) {N X : Int} (hN : 2 ^ κ ≤ N) (hX : |X| ≤ N) (hne : ((2 ^ κ : Nat) : ZMod p) ≠ 0) {E : Nat} :
    ∀ (e m k : Nat) (r b : ZMod p), m + e * (k + 1) = E → ResOk (2 ^ κ) N X m r → BaseOk (2 ^ κ) N X k b →
      Sound T (powLoop rc κ e r b) (ResOk (2 ^ κ) N X E) := by
  have hN' : ((2 ^ κ : Nat) : Int) ≤ N := by push_cast; exact hN
  have hα : 0 < 2 ^ κ := by positivity
  intro e
  induction e using Nat.strong_induction_on with
  | _ e ih =>
  intro m k r b hme hr hb
  rw [powLoop.eq_def]
  by_cases he : e = 0
  · rw [dif_pos he]
    rw [he] at hme
    have : m = E := by omega
    rw [this] at hr
    exact Sound.pure hr
  · rw [dif_neg he]
    refine Sound.bind (P := ResOk (2 ^ κ) N X (m + (e % 2) * (k + 1))) ?_ ?_
    · unfold powOdd
      by_cases ho : e % 2 = 1
      · rw [if_pos ho]
        refine (sound_mulScale hT hc hd r b).conseq ?_
        rintro q ⟨s, hs, eq⟩
        rw [ho, one_mul]
        exact resOk_mul hα hN' hX hne hr hb hs eq
      · rw [if_neg ho]
        refine Sound.pure ?_
        rw [show e % 2 = 0 by omega, zero_mul, add_zero]; exact hr
    · intro r' hr'
      have hsplit : e * (k + 1) = (e % 2) * (k + 1) + (e / 2) * (2 * k + 1 + 1) := by
        conv_lhs => rw [← Nat.mod_add_div e 2]
        ring
      by_cases h2 : e / 2 = 0
      · rw [if_pos h2]
        rw [h2] at hsplit
        have : m + (e % 2) * (k + 1) = E := by omega
        rw [this] at hr'
        exact Sound.pure hr'
      · rw [if_neg h2]
        refine Sound.bind (sound_mulScale hT hc hd b b) ?_
        rintro b' ⟨s, hs, eq⟩
        exact ih (e / 2) (by omega) _ _ _ _ (by rw [add_assoc, ← hsplit]; exact hme) hr' (baseOk_sq hα hN' hX hb hs eq)

/-- **C58, Pow with any positive exponent, proved part.** For digit widths dividing `κ` and entries of absolute value at
most `N`, where `N` is at least the scale `α = 2^κ`, every accepted output `y` of the exponent `e + 1` satisfies
`|y α^e - u^(e+1)| ≤ (N+2)^(e+1) - N^(e+1) - α^e`: it is within the distance of the powers of `N` and `N + 2` of the exact
power. Missing: the rounded power itself (`C58_pow_unit_unsound`), and other digit widths. -/
theorem C58_pow_sound_partial {rc : RangeCtx} (hT : IsRangeTable T rc) (hc : 0 < rc.chunk) {κ nb : Nat}
    (hκ : κ < 64) (hd : rc.chunk ∣ κ) {e : Nat} (he : e + 1 ≤ 16) {N : Int} (hN : 2 ^ κ ≤ N)
    (x : Arr Int) (hx : x.WF) (hu : ∀ u ∈ x.data, |u| ≤ N)
    (hp : (2 ^ κ) ^ (e + 1) * 2 ^ (nb + slackBits rc.chunk nb) + 2 ^ κ * (N + 2) ^ (e + 1) ≤ p) :
    Sound T (powLayer rc κ nb [((e + 1 : Nat) : Int)] (castArr p x)) (IsUnary x fun u w =>
      ∃ y : Int, w = (y : ZMod p) ∧ -(2 ^ (nb + slackBits rc.chunk nb)) ≤ y ∧ y < 2 ^ nb ∧
        |y * (2 ^ κ) ^ e - u ^ (e + 1)| ≤ (N + 2) ^ (e + 1) - N ^ (e + 1) - (2 ^ κ) ^ e) := by
  have hK : (0 : Int) < 2 ^ κ := by positivity
  have hN0 : 0 < N := by linarith
  have hslack : (2 : Int) ^ nb ≤ 2 ^ (nb + slackBits rc.chunk nb) := pow_le_pow_right₀ (by norm_num) (by omega)
  have hn : (0 : Int) < 2 ^ nb := by positivity
  have hlt : 2 ^ κ < p := by
    have h1 : (0 : Int) < (2 ^ κ) ^ (e + 1) * 2 ^ (nb + slackBits rc.chunk nb) := by positivity
    have h2 : (1 : Int) ≤ (N + 2) ^ (e + 1) := one_le_pow₀ (by linarith)
    have h3 : (2 : Int) ^ κ * 1 ≤ 2 ^ κ * (N + 2) ^ (e + 1) := mul_le_mul_of_nonneg_left h2 hK.le
    have : ((2 ^ κ : Nat) : Int) < p := by push_cast; linarith
    exact_mod_cast this
  have hne : ((2 ^ κ : Nat) : ZMod p) ≠ 0 := by
    intro h
    rw [ZMod.natCast_eq_zero_iff] at h
    exact absurd (Nat.le_of_dvd (by positivity) h) (by omega)
  rw [powLayer_single hκ (by rw [Int.natAbs_natCast]; exact he)]
  refine sound_mapLayer hx fun u hm => ?_
  refine sound_powOne ?_
  refine Sound.bind (P := ResPos (2 ^ κ) N u e) ?_ ?_
  · unfold powElem
    rw [if_neg (by omega)]
    by_cases h1 : ((e + 1 : Nat) : Int) = 1
    · rw [if_pos h1]
      have : e = 0 := by omega
      subst this
      refine Sound.pure ⟨2 ^ κ * u, by push_cast; ring, ?_⟩
      push_cast
      have e0 : (2 : Int) ^ κ * u - 2 ^ κ * u ^ (0 + 1) = 0 := by ring
      rw [e0, abs_zero]
      have : (2 : Int) ^ κ * ((N + 2) ^ (0 + 1) - N ^ (0 + 1) - (2 ^ κ) ^ 0) = 2 ^ κ := by ring
      rw [this]; exact hK.le
    · rw [if_neg h1, Int.natAbs_natCast]
      refine Sound.bind (sound_powLoop hT hc hd hN (hu u hm) hne (E := e + 1) (e + 1) 0 0 _ _ (by omega)
        (.inl ⟨rfl, rfl⟩) ⟨u, by simp, by simp⟩) ?_
      intro w hw
      rw [if_neg (by omega)]
      rcases hw with ⟨h0, -⟩ | ⟨m', h0, hw⟩
      · omega
      · have : m' = e := by omega
        subst this
        exact Sound.pure hw
  · rintro w ⟨Z, eZ, hZ⟩
    refine Sound.bind (sound_rangeCheckInt hT hc _ _) ?_
    rintro _ ⟨Y, ⟨y1, y2⟩, rfl⟩
    refine Sound.pure ⟨Y, rfl, by linarith, y2, ?_⟩
    push_cast at eZ hZ
    have ha : |Y| ≤ 2 ^ (nb + slackBits rc.chunk nb) := abs_le.mpr ⟨by linarith, by linarith⟩
    have hue := abs_pow_le (hu u hm) (e + 1)
    have hae : (0 : Int) < (2 ^ κ) ^ e := by positivity
    have key : Y * (2 ^ κ) ^ (e + 1) = Z := by
      apply int_eq_of_cast_eq (p := p)
      · rw [← eZ]; push_cast; ring
      · have b1 : |Y * (2 ^ κ) ^ (e + 1)| ≤ (2 ^ κ) ^ (e + 1) * 2 ^ (nb + slackBits rc.chunk nb) := by
          rw [abs_mul, abs_of_pos (show (0 : Int) < (2 ^ κ) ^ (e + 1) by positivity), mul_comm]
          exact mul_le_mul_of_nonneg_left ha (by positivity)
        have b2 : |(2 : Int) ^ κ * u ^ (e + 1)| ≤ 2 ^ κ * N ^ (e + 1) := by
          rw [abs_mul, abs_of_pos hK]; exact mul_le_mul_of_nonneg_left hue hK.le
        have b3 : (0 : Int) < 2 ^ κ * (2 ^ κ) ^ e := by positivity
        rw [abs_le] at b1 b2 hZ
        rw [abs_lt]; constructor <;> linarith
    rw [← key] at hZ
    have e1 : Y * (2 ^ κ) ^ (e + 1) - 2 ^ κ * u ^ (e + 1) = 2 ^ κ * (Y * (2 ^ κ) ^ e - u ^ (e + 1)) := by ring
    rw [e1, abs_mul, abs_of_pos hK] at hZ
    exact le_of_mul_le_mul_left hZ hK

/-- From the value 1 the loop for an exponent of at least 2 can be made to end one unit below. -/
private theorem forge_powLoop_unit {rc : RangeCtx} (hT : IsRangeTable T rc) {κ : Nat} (h1 : RangeCallable rc κ)
    (hκ0 : 0 < κ) (hα : 2 ^ κ < p) : ∀ e : Nat, 2 ≤ e →
      Forge T (powLoop rc κ e ((2 ^ κ : Nat) : ZMod p) ((2 ^ κ : Nat) : ZMod p))
        (fun o => o = ((2 ^ κ - 1 : Int) : ZMod p)) := by
  have hne : ((2 ^ κ : Nat) : ZMod p) ≠ 0 := by
    intro h
    rw [ZMod.natCast_eq_zero_iff] at h
    exact absurd (Nat.le_of_dvd (by positivity) h) (by omega)
  have h2 : 1 < 2 ^ κ := Nat.one_lt_two_pow (by omega)
  have hc1 : (((2 ^ κ - 1 : Nat)) : ZMod p) = ((2 ^ κ : Nat) : ZMod p) - 1 := by
    rw [Nat.cast_sub h2.le, Nat.cast_one]
  have hod : ∀ e : Nat, Forge T (powOdd rc κ e ((2 ^ κ : Nat) : ZMod p) ((2 ^ κ : Nat) : ZMod p))
      (fun o => o = ((2 ^ κ : Nat) : ZMod p)) := by
    intro e
    unfold powOdd
    by_cases ho : e % 2 = 1
    · rw [if_pos ho]
      exact forge_mulScale hT h1 (r := 0) (by positivity) (by simp)
    · rw [if_neg ho]; exact Forge.pure rfl
  intro e
  induction e using Nat.strong_induction_on with
  | _ e ih =>
  intro he
  rw [powLoop.eq_def, dif_neg (by omega)]
  refine Forge.bind (hod e) (fun _ h => h) ?_
  rw [if_neg (by omega)]
  by_cases hlast : e / 2 = 1
  · refine Forge.bind (forge_mulScale hT h1 (q := (((2 ^ κ : Nat) : ZMod p) * ((2 ^ κ : Nat) : ZMod p) - 1) /
      ((2 ^ κ : Nat) : ZMod p)) (r := 1) h2 (by rw [div_mul_cancel₀ _ hne]; push_cast; ring)) (fun _ h => h) ?_
    rw [hlast, powLoop.eq_def, dif_neg (by norm_num)]
    refine Forge.bind (P := fun o => o = ((2 ^ κ - 1 : Int) : ZMod p)) ?_ (fun _ h => h) (by
      rw [if_pos (by norm_num)]; exact Forge.pure rfl)
    unfold powOdd
    rw [if_pos (by norm_num)]
    refine forge_mulScale hT h1 (r := 2 ^ κ - 1) (by omega) ?_
    rw [mul_div_cancel₀ _ hne, hc1]
    push_cast
    ring
  · refine Forge.bind (forge_mulScale hT h1 (q := ((2 ^ κ : Nat) : ZMod p)) (r := 0) (by positivity) (by simp))
      (fun _ h => h) ?_
    exact ih (e / 2) (by omega) (by omega)

/-- **C58 is false for Pow with every exponent from 2 on**, for every digit width: a tensor of ones can be proved to have
powers `2^κ - 1`, one unit less than one. -/
theorem C58_pow_unit_unsound {rc : RangeCtx} (hT : IsRangeTable T rc) {κ nb : Nat} (hκ0 : 0 < κ) (hκ : κ < 64)
    (h1 : RangeCallable rc κ) (h2 : RangeCallable rc nb) (hnb : κ ≤ nb) (hα : 2 ^ κ < p) {e : Nat} (he : 2 ≤ e)
    (he' : e ≤ 16) (x : Arr Int) (hx : x.WF) (hone : ∀ u ∈ x.data, u = 2 ^ κ) :
    Forge T (powLayer rc κ nb [(e : Int)] (castArr p x)) (IsUnary x fun _ w => w = ((2 ^ κ - 1 : Int) : ZMod p)) := by
  rw [powLayer_single hκ (by simpa using he')]
  refine forge_mapLayer hx fun u hm => ?_
  rw [hone u hm]
  refine forge_powOne ?_
  refine Forge.bind (P := fun o => o = ((2 ^ κ - 1 : Int) : ZMod p)) ?_ (fun _ h => h) ?_
  · unfold powElem
    rw [if_neg (by omega), if_neg (by omega), Int.natAbs_natCast]
    have hu : ((2 ^ κ : Int) : ZMod p) = ((2 ^ κ : Nat) : ZMod p) := by push_cast; rfl
    rw [hu]
    refine Forge.bind (forge_powLoop_unit hT h1 hκ0 hα e he) (fun _ h => h) ?_
    rw [if_neg (by omega)]
    exact Forge.pure rfl
  · have hle : (2 : Int) ^ κ ≤ 2 ^ nb := pow_le_pow_right₀ (by norm_num) hnb
    have hge : (1 : Int) ≤ 2 ^ κ := one_le_pow₀ (by norm_num)
    exact Forge.seq (h2.forge hT (accepted_nonneg (k := 2 ^ κ - 1) (by linarith) (by linarith)) rfl) (Forge.pure rfl)

/-- `1^5` proved to be `1 - 2^-18` with the usual BN254 parameters. -/
example : Forge (rangeTables bn254P ⟨0, 12⟩) (powLayer ⟨0, 12⟩ 18 64 [((5 : Nat) : Int)]
      (castArr bn254P ⟨[2], [2 ^ 18, 2 ^ 18]⟩))
    (IsUnary (⟨[2], [2 ^ 18, 2 ^ 18]⟩ : Arr Int) fun _ w => w = ((2 ^ 18 - 1 : Int) : ZMod bn254P)) :=
  C58_pow_unit_unsound (rangeTables_spec _) (by norm_num) (by norm_num)
    ⟨by norm_num, by norm_num, by norm_num, by norm_num, by norm_num⟩
    ⟨by norm_num, by norm_num, by norm_num, by norm_num, by norm_num⟩ (by norm_num) (by norm_num [bn254P]) (by norm_num)
    (by norm_num) _ rfl (by simp)

/-- The cube of 2, -1.5 and 5 at scale 16. -/
example : Sound (rangeTables goldP ⟨0, 4⟩) (powLayer ⟨0, 4⟩ 4 12 [((2 + 1 : Nat) : Int)] (castArr goldP powX))
    (IsUnary powX fun u w => ∃ y : Int, w = (y : ZMod goldP) ∧ -(2 ^ (12 + slackBits 4 12)) ≤ y ∧ y < 2 ^ 12 ∧
      |y * (2 ^ 4) ^ 2 - u ^ (2 + 1)| ≤ (80 + 2) ^ (2 + 1) - 80 ^ (2 + 1) - (2 ^ 4) ^ 2) :=
  C58_pow_sound_partial (rangeTables_spec _) (by norm_num) (by norm_num) (by norm_num) (by norm_num) (by norm_num) _ rfl
    (by decide +kernel) (by norm_num [slackBits, goldP])

end JST.Props
