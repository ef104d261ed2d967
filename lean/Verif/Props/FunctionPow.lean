import Verif.Props.FunctionSwish

/-!
# C58: the Pow layer
-/

set_option linter.unusedSectionVars false

namespace JST.Props

open JST.Shape JST.Layers JST.Spec

variable {p : Nat} [Fact p.Prime] {T : Tables (ZMod p)}

/-- One entry of Pow with a single exponent. -/
def powOne (rc : RangeCtx) (κ nb : Nat) (e : Int) (v : ZMod p) : G (ZMod p) (ZMod p) := powStep rc κ nb [e] (v, 0)

theorem sound_powOne {rc : RangeCtx} {κ nb : Nat} {e : Int} {v : ZMod p} {Q : ZMod p → Prop}
    (h : Sound T (powElem rc κ v e >>= fun y => rangeCheck rc y nb >>= fun _ => pure y) Q) :
    Sound T (powOne rc κ nb e v) Q := by
  unfold powOne powStep
  refine Sound.bind (P := fun e' => e' = e) (Sound.pure rfl) ?_
  rintro _ rfl
  exact h

theorem complete_powOne {rc : RangeCtx} {κ nb : Nat} {e : Int} {v : ZMod p} {Q : ZMod p → Prop}
    (h : Complete T (powElem rc κ v e >>= fun y => rangeCheck rc y nb >>= fun _ => pure y) Q) :
    Complete T (powOne rc κ nb e v) Q := by
  unfold powOne powStep
  refine Complete.bind (P := fun e' => e' = e) (Complete.pure rfl) ?_
  rintro _ rfl
  exact h

theorem forge_powOne {rc : RangeCtx} {κ nb : Nat} {e : Int} {v : ZMod p} {Q : ZMod p → Prop}
    (h : Forge T (powElem rc κ v e >>= fun y => rangeCheck rc y nb >>= fun _ => pure y) Q) :
    Forge T (powOne rc κ nb e v) Q := by
  unfold powOne powStep
  refine Forge.bind (P := fun e' => e' = e) (a := e) (Forge.pure rfl) (fun _ h => h) ?_
  exact h

theorem powLayer_single {rc : RangeCtx} {κ nb : Nat} {e : Int} (hκ : κ < 64) (he : e.natAbs ≤ 16)
    (x : Arr (ZMod p)) : powLayer rc κ nb [e] x = mapLayer (powOne rc κ nb e) x := by
  have h : powStep rc κ nb [e] = fun q : ZMod p × Nat => powOne rc κ nb e q.1 := by
    funext q
    rfl
  have h2 : (x.data.zip (List.range x.data.length)).map Prod.fst = x.data := by
    rw [List.map_fst_zip]; simp
  unfold powLayer
  rw [if_neg (by omega), if_neg (by simpa using he), if_neg (by simp), h,
    ← collectG_map (powOne rc κ nb e) Prod.fst, h2]
  rfl

/-! ## One multiplication -/

theorem sound_mulScale {rc : RangeCtx} (hT : IsRangeTable T rc) (hc : 0 < rc.chunk) {κ : Nat}
    (hd : rc.chunk ∣ κ) (a b : ZMod p) :
    Sound T (mulScale rc κ a b) (fun q => ∃ r : Nat, r < 2 ^ κ ∧
      q * ((2 ^ κ : Nat) : ZMod p) + (r : ZMod p) = a * b) := by
  unfold mulScale uIntDiv uMod
  refine Sound.bind sound_hint2 fun q _ => ?_
  refine Sound.bind sound_hint2 fun r _ => ?_
  refine Sound.bind (Sound.assertEq) fun _ h => ?_
  refine Sound.bind (sound_rangeCheck_dvd hT hc hd) ?_
  rintro _ ⟨k, hk, rfl⟩
  exact Sound.pure ⟨k, hk, h⟩

theorem forge_mulScale {rc : RangeCtx} (hT : IsRangeTable T rc) {κ : Nat} (hκ : RangeCallable rc κ)
    {a b q : ZMod p} {r : Nat} (hr : r < 2 ^ κ) (h : q * ((2 ^ κ : Nat) : ZMod p) + (r : ZMod p) = a * b) :
    Forge T (mulScale rc κ a b) (fun o => o = q) := by
  unfold mulScale uIntDiv uMod
  refine Forge.bind (forge_hint2 _ _ _ q) (fun _ h => h) ?_
  refine Forge.bind (forge_hint2 _ _ _ (r : ZMod p)) (fun _ h => h) ?_
  refine Forge.seq (Det.assertEq h).forge ?_
  refine Forge.seq (hκ.forge hT (accepted_nonneg (k := (r : Int)) (by omega) (by exact_mod_cast hr)) (by simp)) ?_
  exact Forge.pure rfl

theorem complete_mulScale {rc : RangeCtx} (hT : IsRangeTable T rc) {κ : Nat} (hκ : RangeUsable p rc κ)
    (hα : 2 ^ κ < p) {a b : ZMod p} {n : Nat} (hn : n < p) (h : a * b = (n : ZMod p)) :
    Complete T (mulScale rc κ a b) (fun q => q = ((n / 2 ^ κ : Nat) : ZMod p)) := by
  have v1 : (a * b).val = n := by rw [h, ZMod.val_natCast, Nat.mod_eq_of_lt hn]
  have v2 : (((2 ^ κ : Nat)) : ZMod p).val = 2 ^ κ := by rw [ZMod.val_natCast, Nat.mod_eq_of_lt hα]
  have v3 : (2 : Nat) ^ κ ≠ 0 := by positivity
  unfold mulScale uIntDiv uMod
  refine Complete.bind (complete_hint2 rfl) ?_
  rintro _ rfl
  refine Complete.bind (complete_hint2 rfl) ?_
  rintro _ rfl
  rw [v1, v2, if_neg v3, if_neg v3]
  refine Complete.bind (Det.assertEq ?_).complete fun _ _ => ?_
  · rw [h]
    exact_mod_cast congrArg (Nat.cast : Nat → ZMod p) (Nat.div_add_mod' n (2 ^ κ))
  refine Complete.bind (hκ.complete hT (Nat.mod_lt n (by positivity)) rfl) fun _ _ => ?_
  exact Complete.pure rfl

/-! ## Exponents 0 and 1 -/

/-- **C58, Pow with exponent 0** gives 1 (the scale), for all inputs. -/
theorem C58_pow_zero {rc : RangeCtx} {κ nb : Nat} (hκ : κ < 64) (x : Arr Int) (hx : x.WF) :
    Sound T (powLayer rc κ nb [0] (castArr p x)) (IsUnary x fun _ w => w = ((2 ^ κ : Int) : ZMod p)) := by
  rw [powLayer_single hκ (by simp)]
  refine sound_mapLayer hx fun u _ => ?_
  refine sound_powOne ?_
  unfold powElem
  rw [if_pos rfl]
  refine Sound.bind (Sound.pure rfl : Sound T _ (fun y => y = ((2 ^ κ : Nat) : ZMod p))) ?_
  rintro _ rfl
  refine Sound.bind (P := fun _ => True) (fun _ _ _ _ => trivial) fun _ _ => Sound.pure (by push_cast; rfl)

/-- **C58, Pow with exponent 1** returns its input, but no execution is accepted if an entry is negative. -/
theorem C58_pow_one {rc : RangeCtx} (hT : IsRangeTable T rc) (hc : 0 < rc.chunk) {κ nb : Nat} (hd : rc.chunk ∣ nb)
    (hκ : κ < 64) (x : Arr Int) (hx : x.WF) (hp : ∀ u ∈ x.data, |u| + 2 ^ nb ≤ p) :
    Sound T (powLayer rc κ nb [1] (castArr p x)) (IsUnary x fun u w => 0 ≤ u ∧ u < 2 ^ nb ∧ w = (u : ZMod p)) := by
  rw [powLayer_single hκ (by simp)]
  refine sound_mapLayer hx fun u hm => ?_
  refine sound_powOne ?_
  unfold powElem
  rw [if_neg (by norm_num), if_pos rfl]
  refine Sound.bind (Sound.pure rfl : Sound T _ (fun y => y = (u : ZMod p))) ?_
  rintro _ rfl
  refine Sound.bind (sound_rangeCheck_dvd hT hc hd) ?_
  rintro _ ⟨k, hk, e⟩
  have hk' : (k : Int) < 2 ^ nb := by exact_mod_cast hk
  have : u = (k : Int) := int_eq_of_cast_eq (p := p) (by rw [e]; simp) (by
    have := abs_sub u (k : Int)
    rw [abs_of_nonneg (Int.natCast_nonneg k)] at this
    linarith [hp u hm])
  exact Sound.pure ⟨by omega, by omega, rfl⟩

/-! ## Exponent 2 -/

theorem powElem_two (rc : RangeCtx) (κ : Nat) (x : ZMod p) :
    powElem rc κ x 2 = ((pure ((2 ^ κ : Nat) : ZMod p) >>= fun r => mulScale rc κ x x >>= fun b =>
      mulScale rc κ r b >>= fun y => pure y) >>= fun y => pure y) := by
  unfold powElem
  rw [if_neg (by norm_num), if_neg (by norm_num)]
  have e2 : (2 : Int).natAbs = 2 := rfl
  rw [e2, powLoop.eq_def, dif_neg (by norm_num)]
  have h1 : ∀ r b : ZMod p, powLoop rc κ (2 / 2) r b = (mulScale rc κ r b >>= fun y => pure y) := by
    intro r b
    rw [powLoop.eq_def, dif_neg (by norm_num)]
    rfl
  simp only [h1]
  rfl

theorem abs_sq_le {u M : Int} (h : |u| ≤ M) : 0 ≤ u * u ∧ u * u ≤ M * M := by
  refine ⟨mul_self_nonneg u, ?_⟩
  rw [← abs_mul_abs_self u]
  exact mul_le_mul h h (abs_nonneg _) (le_trans (abs_nonneg _) h)

/-- **C58, Pow with exponent 2, proved part**: for digit widths dividing `κ`, an accepted square is the floor of
`u²/2^κ` or one less. Missing: the floor itself (`C58_pow_square_unsound`), and other digit widths. -/
theorem C58_pow_square_sound_partial {rc : RangeCtx} (hT : IsRangeTable T rc) (hc : 0 < rc.chunk) {κ nb : Nat}
    (hκ : κ < 64) (hd : rc.chunk ∣ κ) {M : Int} (x : Arr Int) (hx : x.WF) (hu : ∀ u ∈ x.data, |u| ≤ M)
    (hp : M * M + 2 ^ κ * 2 ^ (nb + slackBits rc.chunk nb) + 2 * 2 ^ κ ≤ p) :
    Sound T (powLayer rc κ nb [2] (castArr p x)) (IsUnary x fun u w => ∃ y : Int, w = (y : ZMod p) ∧
      (y = u * u / 2 ^ κ ∨ y = u * u / 2 ^ κ - 1)) := by
  have hK : (0 : Int) < 2 ^ κ := by positivity
  rw [powLayer_single hκ (by simp)]
  refine sound_mapLayer hx fun u hm => ?_
  obtain ⟨q1, q2⟩ := abs_sq_le (hu u hm)
  refine sound_powOne ?_
  rw [powElem_two]
  refine Sound.bind (P := fun y => ∃ t : Int, 0 ≤ t ∧ t ≤ 2 * 2 ^ κ - 2 ∧
    y * ((2 ^ κ : Int) : ZMod p) = ((u * u - t : Int) : ZMod p)) ?_ ?_
  · refine Sound.bind (P := fun y => ∃ t : Int, 0 ≤ t ∧ t ≤ 2 * 2 ^ κ - 2 ∧
      y * ((2 ^ κ : Int) : ZMod p) = ((u * u - t : Int) : ZMod p)) ?_ fun _ h => Sound.pure h
    refine Sound.bind (Sound.pure rfl : Sound T _ (fun r => r = ((2 ^ κ : Nat) : ZMod p))) ?_
    rintro _ rfl
    refine Sound.bind (sound_mulScale hT hc hd _ _) ?_
    rintro b ⟨r, hr, e⟩
    refine Sound.bind (sound_mulScale hT hc hd _ _) ?_
    rintro y ⟨r', hr', e'⟩
    refine Sound.pure ?_
    have h1 : (r : Int) < 2 ^ κ := by exact_mod_cast hr
    have h2 : (r' : Int) < 2 ^ κ := by exact_mod_cast hr'
    refine ⟨(r : Int) + r', by omega, by omega, ?_⟩
    push_cast at e e' ⊢
    linear_combination e' + e
  · rintro y ⟨t, t0, t1, e⟩
    refine Sound.bind (sound_rangeCheckInt hT hc _ _) ?_
    rintro _ ⟨Y, ⟨y1, y2⟩, rfl⟩
    refine Sound.pure ⟨Y, rfl, ?_⟩
    have hs : (2 : Int) ^ nb ≤ 2 ^ (nb + slackBits rc.chunk nb) :=
      pow_le_pow_right₀ (by norm_num) (by omega)
    have hn : (0 : Int) < 2 ^ nb := by positivity
    have ha : |Y| ≤ 2 ^ (nb + slackBits rc.chunk nb) := abs_le.mpr ⟨by linarith, by linarith⟩
    have key : Y * 2 ^ κ = u * u - t := by
      apply int_eq_of_cast_eq (p := p)
      · rw [← e]; push_cast; ring
      · have b1 : |Y * 2 ^ κ| ≤ 2 ^ κ * 2 ^ (nb + slackBits rc.chunk nb) := by
          rw [abs_mul, abs_of_pos hK, mul_comm]
          exact mul_le_mul_of_nonneg_left ha hK.le
        rw [abs_le] at b1
        rw [abs_lt]; constructor <;> linarith
    have hdm := Int.ediv_mul_add_emod (u * u) (2 ^ κ)
    have m0 := Int.emod_nonneg (u * u) hK.ne'
    have m1 := Int.emod_lt_of_pos (u * u) hK
    set q := u * u / 2 ^ κ
    set m := u * u % 2 ^ κ
    have e1 : (Y - q) * 2 ^ κ = m - t := by linear_combination key - hdm
    have l1 : Y - q < 1 := by
      by_contra hh
      have : 1 * 2 ^ κ ≤ (Y - q) * 2 ^ κ := mul_le_mul_of_nonneg_right (by omega) hK.le
      linarith
    have l2 : -2 < Y - q := by
      by_contra hh
      have : (Y - q) * 2 ^ κ ≤ (-2) * 2 ^ κ := mul_le_mul_of_nonneg_right (by omega) hK.le
      linarith
    omega

/-- **C58 is false for Pow with exponent 2**, for every digit width: whenever `u²` leaves a remainder of at most `2^κ - 2`
and `u² ≥ 2^κ`, one less than the floor of `u²/2^κ` is provable. -/
theorem C58_pow_square_unsound {rc : RangeCtx} (hT : IsRangeTable T rc) {κ nb : Nat} (hκ : κ < 64)
    (h1 : RangeCallable rc κ) (h2 : RangeCallable rc nb) (hα : 2 ^ κ < p) (x : Arr Int) (hx : x.WF)
    (hr : ∀ u ∈ x.data, u * u % 2 ^ κ ≤ 2 ^ κ - 2 ∧ 2 ^ κ ≤ u * u ∧ u * u / 2 ^ κ ≤ 2 ^ nb) :
    Forge T (powLayer rc κ nb [2] (castArr p x)) (IsUnary x fun u w => w = ((u * u / 2 ^ κ - 1 : Int) : ZMod p)) := by
  have hK : (0 : Int) < 2 ^ κ := by positivity
  have hne : ((2 ^ κ : Nat) : ZMod p) ≠ 0 := by
    intro h
    rw [ZMod.natCast_eq_zero_iff] at h
    exact absurd (Nat.le_of_dvd (by positivity) h) (by omega)
  rw [powLayer_single hκ (by simp)]
  refine forge_mapLayer hx fun u hm => ?_
  obtain ⟨r1, r2, r3⟩ := hr u hm
  have m0 := Int.emod_nonneg (u * u) hK.ne'
  have hdm := Int.ediv_mul_add_emod (u * u) (2 ^ κ)
  have hq : 1 ≤ u * u / 2 ^ κ := (Int.le_ediv_iff_mul_le hK).mpr (by linarith)
  have hk1 : 1 ≤ 2 ^ κ := Nat.one_le_two_pow
  refine forge_powOne ?_
  rw [powElem_two]
  set q := u * u / 2 ^ κ
  set m := u * u % 2 ^ κ
  obtain ⟨m', hm'⟩ := Int.eq_ofNat_of_zero_le (show 0 ≤ m + 1 by omega)
  have hm2 : (m' : Int) < 2 ^ κ := by omega
  have hc : (((2 ^ κ - 1 : Nat)) : ZMod p) = ((2 ^ κ : Nat) : ZMod p) - 1 := by
    rw [Nat.cast_sub hk1, Nat.cast_one]
  refine Forge.bind (P := fun y => y = ((q - 1 : Int) : ZMod p)) ?_ (fun _ h => h) ?_
  · refine Forge.bind (P := fun y => y = ((q - 1 : Int) : ZMod p)) ?_ (fun _ h => h) (Forge.pure rfl)
    refine Forge.bind (P := fun r => r = ((2 ^ κ : Nat) : ZMod p)) (Forge.pure rfl) (fun _ h => h) ?_
    refine Forge.bind (forge_mulScale hT h1 (q := ((u : ZMod p) * u - ((2 ^ κ - 1 : Nat) : ZMod p)) /
      ((2 ^ κ : Nat) : ZMod p)) (r := 2 ^ κ - 1) (by omega) (by field_simp; ring)) (fun _ h => h) ?_
    refine Forge.bind (forge_mulScale hT h1 (q := ((q - 1 : Int) : ZMod p)) (r := m') (by exact_mod_cast hm2) ?_)
      (fun _ h => h) (Forge.pure rfl)
    rw [mul_div_cancel₀ _ hne, hc]
    have e1 := congrArg (Int.cast : Int → ZMod p) hdm
    have e2 := congrArg (Int.cast : Int → ZMod p) hm'
    push_cast at e1 e2 ⊢
    linear_combination e1 - e2
  · refine Forge.seq (h2.forge hT (accepted_nonneg (k := q - 1) (by omega) (by omega)) rfl) ?_
    exact Forge.pure rfl

/-- **C58, Pow with exponent 2, completeness**: the honest prover gets the floor of `u²/2^κ`, whatever the sign of `u`, if it
fits `n_bits`. -/
theorem C58_pow_square_complete {rc : RangeCtx} (hT : IsRangeTable T rc) {κ nb : Nat} (hκ : κ < 64)
    (h1 : RangeUsable p rc κ) (h2 : RangeUsable p rc nb) (hα : 2 ^ κ < p) (x : Arr Int) (hx : x.WF)
    (hr : ∀ u ∈ x.data, u * u < p ∧ u * u / 2 ^ κ < 2 ^ nb) :
    Complete T (powLayer rc κ nb [2] (castArr p x)) (IsUnary x fun u w => w = ((u * u / 2 ^ κ : Int) : ZMod p)) := by
  rw [powLayer_single hκ (by simp)]
  refine complete_mapLayer hx fun u hm => ?_
  obtain ⟨r1, r2⟩ := hr u hm
  have hsq : ((u.natAbs * u.natAbs : Nat) : Int) = u * u := by push_cast; exact abs_mul_abs_self u
  set n := u.natAbs * u.natAbs
  have hn : n < p := by omega
  have hdiv : ((n / 2 ^ κ : Nat) : Int) = u * u / 2 ^ κ := by
    rw [← hsq]; exact_mod_cast (Int.natCast_div n (2 ^ κ))
  refine complete_powOne ?_
  rw [powElem_two]
  refine Complete.bind (P := fun q => q = ((n / 2 ^ κ : Nat) : ZMod p)) ?_ ?_
  · refine Complete.bind (P := fun q => q = ((n / 2 ^ κ : Nat) : ZMod p)) ?_ fun _ h => Complete.pure h
    refine Complete.bind (Complete.pure rfl : Complete T _ (fun r => r = ((2 ^ κ : Nat) : ZMod p))) ?_
    rintro _ rfl
    refine Complete.bind (complete_mulScale hT h1 hα hn (by
      have := congrArg (Int.cast : Int → ZMod p) hsq
      rw [Int.cast_natCast] at this
      rw [this]; push_cast; ring)) ?_
    rintro _ rfl
    refine Complete.bind (complete_mulScale hT h1 hα (n := 2 ^ κ * (n / 2 ^ κ)) ?_ (by push_cast; ring)) ?_
    · exact lt_of_le_of_lt (Nat.mul_div_le _ _) hn
    · rintro q rfl
      rw [Nat.mul_div_cancel_left _ (by positivity)]
      exact Complete.pure rfl
  · rintro _ rfl
    refine Complete.bind (h2.complete hT (k := n / 2 ^ κ) (by
      have : ((n / 2 ^ κ : Nat) : Int) < 2 ^ nb := by rw [hdiv]; exact r2
      exact_mod_cast this) rfl) fun _ _ => ?_
    refine Complete.pure ?_
    rw [← hdiv, Int.cast_natCast]

/-! ## Other exponents -/

/-- A truncated power: at most the exact `m`-th power. -/
def PowLe (κ X m r : Nat) : Prop := r * (2 ^ κ) ^ m ≤ 2 ^ κ * X ^ m

theorem PowLe.mul {κ X m k r b : Nat} (hr : PowLe κ X m r) (hb : PowLe κ X k b) :
    PowLe κ X (m + k) (r * b / 2 ^ κ) := by
  unfold PowLe at *
  have h1 := Nat.mul_le_mul hr hb
  have h2 := Nat.div_mul_le_self (r * b) (2 ^ κ)
  have hpos : 0 < 2 ^ κ := by positivity
  generalize 2 ^ κ = α at *
  refine Nat.le_of_mul_le_mul_left (c := α) ?_ hpos
  calc α * (r * b / α * α ^ (m + k)) = (r * b / α * α) * (α ^ m * α ^ k) := by rw [pow_add]; ring
    _ ≤ (r * b) * (α ^ m * α ^ k) := Nat.mul_le_mul_right _ h2
    _ = r * α ^ m * (b * α ^ k) := by ring
    _ ≤ α * X ^ m * (α * X ^ k) := h1
    _ = α * (α * X ^ (m + k)) := by rw [pow_add]; ring

theorem PowLe.le {κ X m r E M : Nat} (h : PowLe κ X m r) (hm : m ≤ E) (hM : 2 ^ κ ≤ M)
    (hE : 2 ^ κ * X ^ E ≤ M * (2 ^ κ) ^ E) : r ≤ M := by
  unfold PowLe at h
  have hpos : 0 < 2 ^ κ := by positivity
  generalize 2 ^ κ = α at *
  rcases Nat.le_total X α with hX | hX
  · refine le_trans (Nat.le_of_mul_le_mul_right (c := α ^ m) (le_trans h ?_) (by positivity)) hM
    exact Nat.mul_le_mul_left _ (Nat.pow_le_pow_left hX m)
  · refine Nat.le_of_mul_le_mul_right (c := α ^ E) (le_trans ?_ hE) (by positivity)
    obtain ⟨d, rfl⟩ := Nat.exists_eq_add_of_le hm
    calc r * α ^ (m + d) = r * α ^ m * α ^ d := by rw [pow_add]; ring
      _ ≤ α * X ^ m * X ^ d := Nat.mul_le_mul h (Nat.pow_le_pow_left hX d)
      _ = α * X ^ (m + d) := by rw [pow_add]; ring

theorem complete_powLoop {rc : RangeCtx} (hT : IsRangeTable T rc) {κ : Nat} (h1 : RangeUsable p rc κ)
    (hα : 2 ^ κ < p) {X E M : Nat} (hM : 2 ^ κ ≤ M) (hE : 2 ^ κ * X ^ E ≤ M * (2 ^ κ) ^ E) (hMp : M * M < p) :
    ∀ (e m k r b : Nat), m + e * k = E → PowLe κ X m r → PowLe κ X k b →
      Complete T (powLoop rc κ e (r : ZMod p) (b : ZMod p))
        (fun w => ∃ y : Nat, PowLe κ X E y ∧ w = (y : ZMod p)) := by
  intro e
  induction e using Nat.strong_induction_on with
  | _ e ih =>
  intro m k r b hme hr hb
  rw [powLoop.eq_def]
  by_cases he : e = 0
  · rw [dif_pos he]
    refine Complete.pure ⟨r, ?_, rfl⟩
    rw [he] at hme
    have : m = E := by omega
    rwa [this] at hr
  · rw [dif_neg he]
    have hk : k ≤ E := by
      have : 1 * k ≤ e * k := Nat.mul_le_mul_right k (by omega)
      omega
    have hrM := hr.le (by omega) hM hE
    have hbM := hb.le hk hM hE
    refine Complete.bind (P := fun w => ∃ r' : Nat, w = (r' : ZMod p) ∧ PowLe κ X (m + (e % 2) * k) r') ?_ ?_
    · unfold powOdd
      split_ifs with ho
      · refine (complete_mulScale hT h1 hα (n := r * b) (lt_of_le_of_lt (Nat.mul_le_mul hrM hbM) hMp)
          (by push_cast; ring)).conseq ?_
        rintro _ rfl
        exact ⟨_, rfl, by rw [ho, one_mul]; exact hr.mul hb⟩
      · refine Complete.pure ⟨r, rfl, ?_⟩
        rw [show e % 2 = 0 by omega, zero_mul, add_zero]; exact hr
    · rintro _ ⟨r', rfl, hr'⟩
      have hsplit : e * k = (e % 2) * k + (e / 2) * (k + k) := by
        conv_lhs => rw [← Nat.mod_add_div e 2]
        ring
      by_cases h2 : e / 2 = 0
      · rw [if_pos h2]
        refine Complete.pure ⟨r', ?_, rfl⟩
        rw [h2] at hsplit
        have : m + (e % 2) * k = E := by omega
        rwa [this] at hr'
      · rw [if_neg h2]
        refine Complete.bind (complete_mulScale hT h1 hα (n := b * b) (lt_of_le_of_lt (Nat.mul_le_mul hbM hbM) hMp)
          (by push_cast; ring)) ?_
        rintro _ rfl
        exact ih (e / 2) (by omega) _ _ _ _ (by rw [add_assoc, ← hsplit]; exact hme) hr' (hb.mul hb)

/-- **C58, Pow, completeness for positive exponents**: on entries that are not negative the honest prover succeeds
whenever the exact power fits `n_bits`, with an output of at most the exact power. `M` bounds the scale and the
exact power; its square must fit the field. -/
theorem C58_pow_complete {rc : RangeCtx} (hT : IsRangeTable T rc) {κ nb : Nat} (hκ : κ < 64)
    (h1 : RangeUsable p rc κ) (h2 : RangeUsable p rc nb) (hα : 2 ^ κ < p) {e : Nat} (he0 : 0 < e) (he : e ≤ 16)
    {M : Nat} (hM : 2 ^ κ ≤ M) (hMp : M * M < p) (x : Arr Int) (hx : x.WF)
    (hr : ∀ u ∈ x.data, 0 ≤ u ∧ 2 ^ κ * u ^ e ≤ M * (2 ^ κ) ^ e ∧ 2 ^ κ * u ^ e < 2 ^ nb * (2 ^ κ) ^ e) :
    Complete T (powLayer rc κ nb [(e : Int)] (castArr p x)) (IsUnary x fun u w => ∃ y : Int, w = (y : ZMod p) ∧
      0 ≤ y ∧ y * (2 ^ κ) ^ e ≤ 2 ^ κ * u ^ e) := by
  rw [powLayer_single hκ (by simpa using he)]
  refine complete_mapLayer hx fun u hm => ?_
  obtain ⟨r0, r1, r2⟩ := hr u hm
  obtain ⟨X, rfl⟩ := Int.eq_ofNat_of_zero_le r0
  have r1' : 2 ^ κ * X ^ e ≤ M * (2 ^ κ) ^ e := by exact_mod_cast r1
  have r2' : 2 ^ κ * X ^ e < 2 ^ nb * (2 ^ κ) ^ e := by exact_mod_cast r2
  refine complete_powOne ?_
  refine Complete.bind (P := fun w => ∃ y : Nat, PowLe κ X e y ∧ w = (y : ZMod p)) ?_ ?_
  · unfold powElem
    rw [if_neg (by omega)]
    by_cases h : (e : Int) = 1
    · rw [if_pos h]
      refine Complete.pure ⟨X, ?_, by simp⟩
      have : e = 1 := by omega
      subst this
      unfold PowLe
      rw [pow_one, pow_one, mul_comm]
    · rw [if_neg h, Int.natAbs_natCast]
      refine Complete.bind (P := fun w => ∃ y : Nat, PowLe κ X e y ∧ w = (y : ZMod p)) ?_ ?_
      · have := complete_powLoop hT h1 hα hM r1' hMp e 0 1 (2 ^ κ) X (by omega) (by simp [PowLe])
          (by unfold PowLe; rw [pow_one, pow_one, mul_comm])
        rw [Int.cast_natCast]
        exact this
      · intro w hw
        rw [if_neg (by omega)]
        exact Complete.pure hw
  · rintro _ ⟨y, hy, rfl⟩
    have hpos : 0 < (2 ^ κ) ^ e := by positivity
    have hlt : y < 2 ^ nb := by
      unfold PowLe at hy
      exact lt_of_mul_lt_mul_right (lt_of_le_of_lt hy r2') hpos.le
    refine Complete.bind (h2.complete hT hlt rfl) fun _ _ => ?_
    refine Complete.pure ⟨(y : Int), by simp, by omega, ?_⟩
    unfold PowLe at hy
    exact_mod_cast hy

theorem forge_powLoop {rc : RangeCtx} (hT : IsRangeTable T rc) {κ : Nat} (h1 : RangeCallable rc κ) (hα : 2 ^ κ < p) :
    ∀ (e : Nat) (r b : ZMod p), ∃ w, Forge T (powLoop rc κ e r b) (fun o => o = w) := by
  have hne : ((2 ^ κ : Nat) : ZMod p) ≠ 0 := by
    intro h
    rw [ZMod.natCast_eq_zero_iff] at h
    exact absurd (Nat.le_of_dvd (by positivity) h) (by omega)
  have hms : ∀ a b : ZMod p, Forge T (mulScale rc κ a b) (fun o => o = a * b / ((2 ^ κ : Nat) : ZMod p)) :=
    fun a b => forge_mulScale hT h1 (r := 0) (by positivity) (by field_simp; simp)
  have hod : ∀ (e : Nat) (a b : ZMod p), ∃ w, Forge T (powOdd rc κ e a b) (fun o => o = w) := by
    intro e a b
    unfold powOdd
    split_ifs
    · exact ⟨_, hms a b⟩
    · exact ⟨a, Forge.pure rfl⟩
  intro e
  induction e using Nat.strong_induction_on with
  | _ e ih =>
  intro r b
  rw [powLoop.eq_def]
  by_cases he : e = 0
  · rw [dif_pos he]; exact ⟨r, Forge.pure rfl⟩
  · rw [dif_neg he]
    obtain ⟨r', hr'⟩ := hod e r b
    by_cases h2 : e / 2 = 0
    · simp only [h2, if_true]
      exact ⟨r', hr'.bind (fun _ h => h) (Forge.pure rfl)⟩
    · simp only [h2, if_false]
      obtain ⟨w, hw⟩ := ih (e / 2) (by omega) r' (b * b / ((2 ^ κ : Nat) : ZMod p))
      exact ⟨w, hr'.bind (fun _ h => h) ((hms b b).bind (fun _ h => h) hw)⟩

/-- **C58 is false for Pow with negative exponents**: the remainder of the inversion is not range-checked, so for every
input *any* tensor of values below `2^n_bits` is provable. -/
theorem C58_pow_negative_unsound {rc : RangeCtx} (hT : IsRangeTable T rc) {κ nb : Nat} (hκ : κ < 64)
    (h1 : RangeCallable rc κ) (h2 : RangeCallable rc nb) (hα : 2 ^ κ < p) {e : Int} (he : e < 0)
    (he' : -16 ≤ e) (x : Arr Int) (hx : x.WF) (g : Int → Int) (hg : ∀ u ∈ x.data, 0 ≤ g u ∧ g u < 2 ^ nb) :
    Forge T (powLayer rc κ nb [e] (castArr p x)) (IsUnary x fun u w => w = (g u : ZMod p)) := by
  rw [powLayer_single hκ (by omega)]
  refine forge_mapLayer hx fun u hm => ?_
  refine forge_powOne ?_
  unfold powElem
  rw [if_neg (by omega), if_neg (by omega)]
  obtain ⟨w, hw⟩ := forge_powLoop hT h1 hα e.natAbs ((2 ^ κ : Nat) : ZMod p) (u : ZMod p)
  refine Forge.bind (hw.bind (fun _ h => h) ?_ (Q := fun o => o = (g u : ZMod p))) (fun _ h => h) ?_
  · rw [if_pos he]
    unfold powInv uIntDiv uMod
    refine Forge.bind (forge_hint2 _ _ _ (g u : ZMod p)) (fun _ h => h) ?_
    refine Forge.bind (forge_hint2 _ _ _ (((2 ^ κ : Nat) : ZMod p) * ((2 ^ κ : Nat) : ZMod p) - (g u : ZMod p) * w))
      (fun _ h => h) ?_
    exact Forge.seq (Det.assertEq (by ring)).forge (Forge.pure rfl)
  · exact Forge.seq (h2.forge hT (accepted_nonneg (hg u hm).1 (hg u hm).2) rfl) (Forge.pure rfl)

/-- **C58, Pow: refused parameters.** No circuit is built for an exponent beyond 16 in absolute value, for no exponents,
for a scale of `2^64` or more, or (a panic) for fewer exponents than entries unless there is exactly one. -/
theorem C58_pow_refuses {rc : RangeCtx} {κ nb : Nat} {exps : List Int} (x : Arr (ZMod p))
    (h : 64 ≤ κ ∨ (∃ e ∈ exps, 16 < e.natAbs) ∨ exps = [] ∨ (exps.length ≠ 1 ∧ exps.length < x.data.length)) :
    Sound T (powLayer rc κ nb exps x) (fun _ => False) := by
  unfold powLayer
  split_ifs with c1 c2 c3
  · exact Sound.throwErr
  · exact Sound.throwErr
  · exact Sound.throwErr
  · rcases h with h | ⟨e, he, h⟩ | h | ⟨h, h'⟩
    · omega
    · exact absurd (List.any_eq_true.mpr ⟨e, he, by simpa using h⟩) c2
    · exact absurd h c3
    · refine Sound.bind (sound_collectG_false _ ⟨(x.data[exps.length]'h', exps.length), ?_, ?_⟩) fun _ h => h.elim
      · rw [List.mem_iff_getElem]
        refine ⟨exps.length, by simpa using h', ?_⟩
        simp
      · unfold powStep
        have : powExp exps exps.length = .error .panic := by
          unfold powExp readAt
          rw [if_neg h]; simp
        simp only [this]
        exact Sound.bind (P := fun _ => False) (fun _ _ h _ => by simp [liftR] at h; cases h) fun _ h => h.elim

/-! ## The hypotheses are met -/

/-- Scale 16; entries 2, -1.5 and 5. -/
def powX : Arr Int := ⟨[3], [32, -24, 80]⟩

example : Sound (rangeTables goldP ⟨0, 4⟩) (powLayer ⟨0, 4⟩ 4 12 [0] (castArr goldP powX))
    (IsUnary powX fun _ w => w = ((2 ^ 4 : Int) : ZMod goldP)) := C58_pow_zero (by norm_num) _ rfl

example : Sound (rangeTables goldP ⟨0, 4⟩) (powLayer ⟨0, 4⟩ 4 12 [1] (castArr goldP powX))
    (IsUnary powX fun u w => 0 ≤ u ∧ u < 2 ^ 12 ∧ w = (u : ZMod goldP)) :=
  C58_pow_one (rangeTables_spec _) (by norm_num) (by norm_num) (by norm_num) _ rfl (by decide +kernel)

example : Sound (rangeTables goldP ⟨0, 4⟩) (powLayer ⟨0, 4⟩ 4 12 [2] (castArr goldP powX))
    (IsUnary powX fun u w => ∃ y : Int, w = (y : ZMod goldP) ∧ (y = u * u / 2 ^ 4 ∨ y = u * u / 2 ^ 4 - 1)) :=
  C58_pow_square_sound_partial (rangeTables_spec _) (by norm_num) (by norm_num) (by norm_num) (M := 100) _ rfl
    (by decide +kernel) (by norm_num [slackBits, goldP])

example : Forge (rangeTables goldP ⟨0, 12⟩) (powLayer ⟨0, 12⟩ 4 12 [2] (castArr goldP powX))
    (IsUnary powX fun u w => w = ((u * u / 2 ^ 4 - 1 : Int) : ZMod goldP)) :=
  C58_pow_square_unsound (rangeTables_spec _) (by norm_num) ⟨by norm_num, by norm_num, by norm_num, by norm_num, by norm_num⟩
    ⟨by norm_num, by norm_num, by norm_num, by norm_num, by norm_num⟩ (by norm_num [goldP]) _ rfl (by decide +kernel)

example : Complete (rangeTables goldP ⟨0, 12⟩) (powLayer ⟨0, 12⟩ 4 12 [2] (castArr goldP powX))
    (IsUnary powX fun u w => w = ((u * u / 2 ^ 4 : Int) : ZMod goldP)) :=
  C58_pow_square_complete (rangeTables_spec _) (by norm_num)
    ⟨by norm_num, by norm_num, by norm_num, by norm_num, by norm_num, by norm_num [slackBits, goldP]⟩
    ⟨by norm_num, by norm_num, by norm_num, by norm_num, by norm_num, by norm_num [slackBits, goldP]⟩
    (by norm_num [goldP]) _ rfl (by decide +kernel)

/-- The fifth power of 2 and 1.5. -/
example : Complete (rangeTables goldP ⟨0, 12⟩) (powLayer ⟨0, 12⟩ 4 12 [((5 : Nat) : Int)] (castArr goldP ⟨[2], [32, 24]⟩))
    (IsUnary (⟨[2], [32, 24]⟩ : Arr Int) fun u w => ∃ y : Int, w = (y : ZMod goldP) ∧ 0 ≤ y ∧
      y * (2 ^ 4) ^ 5 ≤ 2 ^ 4 * u ^ 5) :=
  C58_pow_complete (rangeTables_spec _) (by norm_num)
    ⟨by norm_num, by norm_num, by norm_num, by norm_num, by norm_num, by norm_num [slackBits, goldP]⟩
    ⟨by norm_num, by norm_num, by norm_num, by norm_num, by norm_num, by norm_num [slackBits, goldP]⟩
    (by norm_num [goldP]) (by norm_num) (by norm_num) (M := 2 ^ 12) (by norm_num) (by norm_num [goldP]) _ rfl
    (by decide +kernel)

/-- `2^(-1)` proved to be 100. -/
example : Forge (rangeTables goldP ⟨0, 12⟩) (powLayer ⟨0, 12⟩ 4 12 [-1] (castArr goldP powX))
    (IsUnary powX fun _ w => w = ((1600 : Int) : ZMod goldP)) :=
  C58_pow_negative_unsound (rangeTables_spec _) (by norm_num)
    ⟨by norm_num, by norm_num, by norm_num, by norm_num, by norm_num⟩
    ⟨by norm_num, by norm_num, by norm_num, by norm_num, by norm_num⟩ (by norm_num [goldP]) (by norm_num) (by norm_num)
    powX rfl (fun _ => 1600) (by intro u _; norm_num)

example : Sound (rangeTables goldP ⟨0, 12⟩) (powLayer ⟨0, 12⟩ 4 12 [2, 3] (castArr goldP powX)) (fun _ => False) :=
  C58_pow_refuses _ (.inr (.inr (.inr ⟨by decide, by decide⟩)))

end JST.Props
