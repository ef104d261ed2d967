import Verif.Tensor.Function
import Verif.Spec.Function
import Verif.Props.ElementwiseClip
import Verif.Gadgets.Honest

/-!
# C58: the Sqrt layer

The layer accepts exactly the square root rounded down when the digit width of the range check divides
`n_bits + 1`. Its hint rounds to the nearest, so the honest prover fails whenever that rounds up.
-/

set_option linter.unusedSectionVars false

namespace JST.Props

open JST.Shape JST.Layers JST.Spec

variable {p : Nat} [Fact p.Prime] {T : Tables (ZMod p)}

theorem slack_pred_le {chunk n : Nat} (hc : 0 < chunk) (hd : chunk ∣ n + 1) : slackBits chunk n ≤ 1 := by
  obtain ⟨k, hk⟩ := hd
  unfold slackBits
  split_ifs with h
  · omega
  · have h1 : (n + 1) % chunk = 0 := by rw [hk]; simp
    have h2 := Nat.mod_lt n hc
    have h3 := Nat.add_mod n 1 chunk
    rcases Nat.lt_or_ge 1 chunk with h4 | h4
    · rw [Nat.mod_eq_of_lt h4, h1] at h3
      rcases Nat.lt_or_ge (n % chunk + 1) chunk with h5 | h5
      · rw [Nat.mod_eq_of_lt h5] at h3; omega
      · omega
    · omega

/-- With such a digit width the range check of `n` bits accepts at most `-2^n … 2^n - 1`. -/
theorem accepted_pred {chunk n : Nat} (hc : 0 < chunk) (hd : chunk ∣ n + 1) {k : Int}
    (h : AcceptedInt chunk n k) : -2 ^ n ≤ k ∧ k < 2 ^ n := by
  obtain ⟨h1, h2⟩ := h
  refine ⟨?_, h2⟩
  have := pow_le_pow_right₀ (show (1 : Int) ≤ 2 by norm_num) (Nat.add_le_add_left (slack_pred_le hc hd) n)
  rw [pow_succ] at this
  linarith

theorem newHint_one {hint : List (ZMod p) → Except Err (List (ZMod p))} {i : List (ZMod p)} :
    Sound T (newHint hint i 1) (fun _ => True) := fun _ _ _ _ => trivial

theorem sound_sqrtElem {hint : List (ZMod p) → Except Err (List (ZMod p))} {rc : RangeCtx}
    (hT : IsRangeTable T rc) (hc : 0 < rc.chunk) {κ nb : Nat} (hd : rc.chunk ∣ nb + 1) {u : Int}
    (hu : |u| ≤ 2 ^ nb) (hp : 2 ^ (κ + nb) + 2 ^ (2 * nb) + 2 ^ (nb + 3) ≤ p) :
    Sound T (sqrtElem hint rc nb (2 ^ κ) (u : ZMod p)) (fun w => ∃ y, IsFloorRoot κ u y ∧ w = (y : ZMod p)) := by
  unfold sqrtElem
  refine Sound.bind (Sound.conseq (sound_rangeCheckInt hT hc _ _) fun _ _ => trivial) fun _ _ => ?_
  refine Sound.bind newHint_one fun out _ => ?_
  generalize out.headD 0 = y
  dsimp only
  refine Sound.bind (sound_rangeCheckInt hT hc _ _) ?_
  rintro _ ⟨Y, hY, rfl⟩
  refine Sound.bind (sound_rangeCheck_dvd hT hc hd) ?_
  rintro _ ⟨r, hr, er⟩
  refine Sound.bind (sound_rangeCheck_dvd hT hc hd) ?_
  rintro _ ⟨t, ht, et⟩
  obtain ⟨y1, y2⟩ := accepted_pred hc hd hY
  have hp' : (2 : Int) ^ (κ + nb) + 2 ^ (2 * nb) + 2 ^ (nb + 3) ≤ p := by exact_mod_cast hp
  have hr' : (r : Int) < 2 ^ (nb + 1) := by exact_mod_cast hr
  have ht' : (t : Int) < 2 ^ (nb + 1) := by exact_mod_cast ht
  have e1 : (2 : Int) ^ (κ + nb) = 2 ^ κ * 2 ^ nb := pow_add _ _ _
  have e2 : (2 : Int) ^ (2 * nb) = 2 ^ nb * 2 ^ nb := by rw [two_mul, pow_add]
  have e3 : (2 : Int) ^ (nb + 3) = 8 * 2 ^ nb := by rw [pow_add]; ring
  have e4 : (2 : Int) ^ (nb + 1) = 2 * 2 ^ nb := by rw [pow_succ]; ring
  rw [e1, e2, e3] at hp'
  rw [e4] at hr' ht'
  have hK : (0 : Int) < 2 ^ κ := by positivity
  have hN : (0 : Int) < 2 ^ nb := by positivity
  obtain ⟨u1, u2⟩ := abs_le.mp hu
  have a1 : 2 ^ κ * u ≤ 2 ^ κ * 2 ^ nb := mul_le_mul_of_nonneg_left u2 hK.le
  have a2 : -(2 ^ κ * 2 ^ nb) ≤ 2 ^ κ * u := by
    have := mul_le_mul_of_nonneg_left u1 hK.le
    linarith
  have a3 : Y * Y ≤ 2 ^ nb * 2 ^ nb := by nlinarith
  have a4 : 0 ≤ Y * Y := mul_self_nonneg Y
  have r1 : 2 ^ κ * u - Y * Y = (r : Int) := by
    apply int_eq_of_cast_eq (p := p)
    · rw [Int.cast_natCast, ← er]; push_cast; ring
    · rw [abs_lt]; constructor <;> linarith [Int.natCast_nonneg r]
  have r2 : Y + Y - r = (t : Int) := by
    apply int_eq_of_cast_eq (p := p)
    · rw [Int.cast_natCast, ← et, er]; push_cast; ring
    · rw [abs_lt]; constructor <;> linarith [Int.natCast_nonneg r, Int.natCast_nonneg t, mul_pos hN hN, mul_pos hK hN]
  refine Sound.pure ⟨Y, ⟨?_, ?_, ?_⟩, rfl⟩
  · linarith [Int.natCast_nonneg r, Int.natCast_nonneg t]
  · rw [sq]; linarith [Int.natCast_nonneg r]
  · have : (Y + 1) ^ 2 = Y * Y + 2 * Y + 1 := by ring
    rw [this]; linarith [Int.natCast_nonneg t]

/-- **C58, Sqrt is sound**: every output of an accepted execution is the square root of the input rounded down; in
particular no input is negative. Missing: digit widths that do not divide `nb + 1` (`C58_sqrt_unsound`). -/
theorem C58_sqrt_sound_partial {hint : List (ZMod p) → Except Err (List (ZMod p))} {rc : RangeCtx}
    (hT : IsRangeTable T rc) (hc : 0 < rc.chunk) {κ nb : Nat} (hd : rc.chunk ∣ nb + 1)
    (hp : 2 ^ (κ + nb) + 2 ^ (2 * nb) + 2 ^ (nb + 3) ≤ p) (x : Arr Int) (hx : x.WF)
    (hu : ∀ u ∈ x.data, |u| ≤ 2 ^ nb) :
    Sound T (sqrtLayer hint rc κ nb (castArr p x))
      (IsUnary x fun u w => ∃ y, IsFloorRoot κ u y ∧ w = (y : ZMod p)) := by
  unfold sqrtLayer
  split_ifs with h
  · exact Sound.throwErr
  · exact sound_mapLayer hx fun u hm => sound_sqrtElem hT hc hd (hu u hm) hp

/-! ## Forged roots -/

theorem forge_sqrtElem {hint : List (ZMod p) → Except Err (List (ZMod p))} {rc : RangeCtx}
    (hT : IsRangeTable T rc) {κ nb : Nat} (h1 : RangeCallable rc nb) (h2 : RangeCallable rc (nb + 1))
    {u y : Int} (hu : AcceptedInt rc.chunk nb u) (hy : AcceptedInt rc.chunk nb y)
    (hr : AcceptedInt rc.chunk (nb + 1) (2 ^ κ * u - y * y))
    (ht : AcceptedInt rc.chunk (nb + 1) (2 * y - (2 ^ κ * u - y * y))) :
    Forge T (sqrtElem hint rc nb (2 ^ κ) (u : ZMod p)) (fun w => w = (y : ZMod p)) := by
  unfold sqrtElem
  refine Forge.bind (h1.forge hT hu rfl) (a := ()) (fun _ _ => rfl) ?_
  refine Forge.bind (Forge.newHint _ _ [(y : ZMod p)] rfl) (a := [(y : ZMod p)]) (fun _ h => h) ?_
  dsimp only [List.headD_cons]
  refine Forge.bind (h1.forge hT hy rfl) (a := ()) (fun _ _ => rfl) ?_
  have e1 : (u : ZMod p) * ((2 ^ κ : Nat) : ZMod p) - (y : ZMod p) * (y : ZMod p)
      = ((2 ^ κ * u - y * y : Int) : ZMod p) := by push_cast; ring
  have e2 : (y : ZMod p) + (y : ZMod p) - ((2 ^ κ * u - y * y : Int) : ZMod p)
      = ((2 * y - (2 ^ κ * u - y * y) : Int) : ZMod p) := by push_cast; ring
  rw [e1, e2]
  refine Forge.bind (h2.forge hT hr rfl) (a := ()) (fun _ _ => rfl) ?_
  refine Forge.bind (h2.forge hT ht rfl) (a := ()) (fun _ _ => rfl) ?_
  exact Forge.pure rfl

/-- If the digit width does not divide `n`, the range check accepts all of `-2^n … 2^n - 1`. -/
theorem accepted_of_not_dvd {chunk n : Nat} (hc : 0 < chunk) (hnd : ¬ chunk ∣ n) {k : Int} (h1 : -2 ^ n ≤ k)
    (h2 : k < 2 ^ n) : AcceptedInt chunk n k := by
  refine ⟨?_, h2⟩
  have := pow_le_pow_right₀ (show (1 : Int) ≤ 2 by norm_num) (Nat.add_le_add_left (slack_pos hc hnd) n)
  rw [Nat.succ_eq_add_one, zero_add, pow_succ] at this
  linarith

/-- **C58 is false for Sqrt with other digit widths**: for every tensor of non-negative entries there is an accepted
execution in which *every* output is the rounded-down root plus one. -/
theorem C58_sqrt_unsound {hint : List (ZMod p) → Except Err (List (ZMod p))} {rc : RangeCtx}
    (hT : IsRangeTable T rc) {κ nb : Nat} (hκ : κ < 64) (h1 : RangeCallable rc nb)
    (h2 : RangeCallable rc (nb + 1)) (hnd : ¬ rc.chunk ∣ nb + 1) (hn : 2 ≤ nb) (x : Arr Int) (hx : x.WF)
    (root : Int → Int) (hu : ∀ u ∈ x.data, u < 2 ^ nb ∧ IsFloorRoot κ u (root u) ∧ root u < 2 ^ (nb - 1) - 1) :
    Forge T (sqrtLayer hint rc κ nb (castArr p x))
      (IsUnary x fun u w => w = ((root u + 1 : Int) : ZMod p)) := by
  unfold sqrtLayer
  rw [if_neg (by omega)]
  refine forge_mapLayer hx fun u hm => ?_
  obtain ⟨h3, ⟨h4, h5, h6⟩, h7⟩ := hu u hm
  have hK : (0 : Int) < 2 ^ κ := by positivity
  have e4 : (2 : Int) ^ (nb + 1) = 4 * 2 ^ (nb - 1) := by
    rw [show nb + 1 = (nb - 1) + 2 by omega, pow_add]; ring
  have e5 : (2 : Int) ^ nb = 2 * 2 ^ (nb - 1) := by
    conv_lhs => rw [show nb = (nb - 1) + 1 by omega, pow_succ]
    ring
  have hu0 : 0 ≤ u := by
    by_contra hh
    have : 2 ^ κ * u ≤ 2 ^ κ * (-1) := mul_le_mul_of_nonneg_left (by omega) hK.le
    have := sq_nonneg (root u)
    linarith
  have h8 : (root u + 1) ^ 2 = (root u + 1) * (root u + 1) := sq _
  have h9 : (root u + 1) * (root u + 1) = root u ^ 2 + 2 * root u + 1 := by ring
  refine forge_sqrtElem hT h1 h2 (accepted_nonneg hu0 h3) (accepted_nonneg (by omega) (by omega)) ?_ ?_
  · refine accepted_of_not_dvd h2.chunk_pos hnd ?_ ?_ <;> rw [e4] <;> linarith
  · refine accepted_nonneg ?_ ?_
    · linarith
    · rw [e4]; linarith

/-- Sqrt refuses scale exponents of 64 and more. -/
theorem C58_sqrt_refuses {hint : List (ZMod p) → Except Err (List (ZMod p))} {rc : RangeCtx} {κ nb : Nat}
    (x : Arr (ZMod p)) (s : Hints (ZMod p)) (hκ : 64 ≤ κ) :
    sqrtLayer hint rc κ nb x s = .error (.err "scale_exponent is too large to shift u64") := by
  unfold sqrtLayer
  rw [if_pos hκ]
  rfl

/-- For small inputs even zero is accepted as the root. -/
theorem C58_sqrt_zero {hint : List (ZMod p) → Except Err (List (ZMod p))} {rc : RangeCtx}
    (hT : IsRangeTable T rc) {κ nb : Nat} (hκ : κ < 64) (h1 : RangeCallable rc nb)
    (h2 : RangeCallable rc (nb + 1)) (hnd : ¬ rc.chunk ∣ nb + 1) (x : Arr Int) (hx : x.WF)
    (hu : ∀ u ∈ x.data, 0 ≤ u ∧ u < 2 ^ nb ∧ 2 ^ κ * u < 2 ^ (nb + 1)) :
    Forge T (sqrtLayer hint rc κ nb (castArr p x)) (IsUnary x fun _ w => w = 0) := by
  unfold sqrtLayer
  rw [if_neg (by omega)]
  refine forge_mapLayer hx (g := fun _ => 0) fun u hm => ?_
  obtain ⟨h3, h4, h5⟩ := hu u hm
  have h6 : 0 ≤ 2 ^ κ * u := by positivity
  have k := forge_sqrtElem (hint := hint) (κ := κ) hT h1 h2 (u := u) (y := 0) (accepted_nonneg h3 h4)
    (accepted_nonneg (by norm_num) (by positivity)) (accepted_nonneg (by linarith) (by linarith))
    (accepted_of_not_dvd h2.chunk_pos hnd (by linarith) (lt_of_le_of_lt (by linarith) (show (0 : Int) < 2 ^ (nb + 1) by positivity)))
  simpa using k

/-! ## The honest prover -/

/-- The hint of Sqrt returns the root rounded to the nearest on the inputs of the layer
(hints/sqrt.rs:54-77, `f64` arithmetic). -/
def SqrtHint (hint : List (ZMod p) → Except Err (List (ZMod p))) (κ nb : Nat) : Prop :=
  ∀ u y : Int, 0 ≤ u → u < 2 ^ nb → IsNearestRoot κ u y →
    hint [(u : ZMod p), ((2 ^ κ : Nat) : ZMod p)] = .ok [(y : ZMod p)]

/-- **C58, Sqrt completeness, proved part**: the honest prover succeeds when rounding the roots to the nearest
rounds them down. Missing: roots that round up (`C58_sqrt_incomplete`). -/
theorem C58_sqrt_complete_partial {hint : List (ZMod p) → Except Err (List (ZMod p))} {rc : RangeCtx}
    (hT : IsRangeTable T rc) {κ nb : Nat} (hκ : κ < 64) (hh : SqrtHint hint κ nb) (h1 : RangeUsable p rc nb)
    (h2 : RangeUsable p rc (nb + 1)) (x : Arr Int) (hx : x.WF) (root : Int → Int)
    (hu : ∀ u ∈ x.data, u < 2 ^ nb ∧ IsFloorRoot κ u (root u) ∧ root u < 2 ^ nb ∧
      IsNearestRoot κ u (root u)) :
    Complete T (sqrtLayer hint rc κ nb (castArr p x)) (IsUnary x fun u w => w = ((root u : Int) : ZMod p)) := by
  unfold sqrtLayer
  rw [if_neg (by omega)]
  refine complete_mapLayer hx fun u hm => ?_
  obtain ⟨h3, ⟨h4, h5, h6⟩, h7, h8⟩ := hu u hm
  have hK : (0 : Int) < 2 ^ κ := by positivity
  have hu0 : 0 ≤ u := by
    by_contra hh
    have : 2 ^ κ * u ≤ 2 ^ κ * (-1) := mul_le_mul_of_nonneg_left (by omega) hK.le
    have := sq_nonneg (root u)
    linarith
  have e4 : (2 : Int) ^ (nb + 1) = 2 * 2 ^ nb := by rw [pow_succ]; ring
  have e6 : (root u + 1) ^ 2 = root u * root u + 2 * root u + 1 := by ring
  have e7 : root u ^ 2 = root u * root u := sq _
  unfold sqrtElem
  refine Complete.bind (h1.completeInt hT hu0 h3 rfl) fun _ _ => ?_
  refine Complete.bind (Complete.newHint (hh u (root u) hu0 h3 h8) rfl) ?_
  rintro _ rfl
  dsimp only [List.headD_cons]
  refine Complete.bind (h1.completeInt hT h4 h7 rfl) fun _ _ => ?_
  have e1 : (u : ZMod p) * ((2 ^ κ : Nat) : ZMod p) - (root u : ZMod p) * (root u : ZMod p)
      = ((2 ^ κ * u - root u * root u : Int) : ZMod p) := by push_cast; ring
  have e2 : (root u : ZMod p) + (root u : ZMod p) - ((2 ^ κ * u - root u * root u : Int) : ZMod p)
      = ((2 * root u - (2 ^ κ * u - root u * root u) : Int) : ZMod p) := by push_cast; ring
  rw [e1, e2]
  refine Complete.bind (h2.completeInt hT (by linarith) (by linarith) rfl) fun _ _ => ?_
  refine Complete.bind (h2.completeInt hT (by linarith) (by linarith) rfl) fun _ _ => ?_
  exact Complete.pure rfl

theorem honest_sqrtElem {hint : List (ZMod p) → Except Err (List (ZMod p))} {rc : RangeCtx}
    (hT : IsRangeTable T rc) (hc : 0 < rc.chunk) {κ nb : Nat} (hd : rc.chunk ∣ nb + 1)
    (hh : SqrtHint hint κ nb) {u : Int} (hu : 0 ≤ u) (hu' : u < 2 ^ nb)
    (hp : 2 ^ (κ + nb) + 2 ^ (2 * nb) + 2 ^ (nb + 3) ≤ p) {y : Int} (hy : IsNearestRoot κ u y)
    (hy' : ¬ IsFloorRoot κ u y) (hb : y ≤ 2 ^ nb) :
    Honest T (sqrtElem hint rc nb (2 ^ κ) (u : ZMod p)) (fun _ => False) := by
  have hrep : Replay (sqrtElem hint rc nb (2 ^ κ) (u : ZMod p)) := by
    unfold sqrtElem
    exact (Replay.rangeCheck _ _ _).bind fun _ => Replay.newHint.bind fun _ => (Replay.rangeCheck _ _ _).bind fun _ =>
      (Replay.rangeCheck _ _ _).bind fun _ => (Replay.rangeCheck _ _ _).bind fun _ => Replay.pure
  have k1 : Honest T (sqrtElem hint rc nb (2 ^ κ) (u : ZMod p)) (fun w => w = (y : ZMod p)) := by
    unfold sqrtElem
    refine Honest.bind (P := fun _ => True) (Sound.honest (fun _ _ _ _ => trivial) (Replay.rangeCheck _ _ _)) fun _ _ => ?_
    refine Honest.bind (Honest.newHint (hh u y hu hu' hy)) ?_
    rintro _ rfl
    refine Honest.bind (P := fun _ => True) (Sound.honest (fun _ _ _ _ => trivial) (Replay.rangeCheck _ _ _)) fun _ _ => ?_
    refine Honest.bind (P := fun _ => True) (Sound.honest (fun _ _ _ _ => trivial) (Replay.rangeCheck _ _ _)) fun _ _ => ?_
    refine Honest.bind (P := fun _ => True) (Sound.honest (fun _ _ _ _ => trivial) (Replay.rangeCheck _ _ _)) fun _ _ => ?_
    exact Honest.pure rfl
  intro o e hs
  obtain ⟨h1, h2⟩ := k1 o e hs
  refine ⟨h1, ?_⟩
  have hau : |u| ≤ 2 ^ nb := by rw [abs_of_nonneg hu]; exact hu'.le
  obtain ⟨Y, hY, e2⟩ := sound_sqrtElem hT hc hd hau hp _ o e hs
  have hYb : Y ≤ 2 ^ nb + 2 ^ κ := by
    obtain ⟨a1, a2, a3⟩ := hY
    by_contra hcon
    push Not at hcon
    have hK : (0 : Int) < 2 ^ κ := by positivity
    have hN : (0 : Int) < 2 ^ nb := by positivity
    have : 2 ^ κ * u ≤ 2 ^ κ * 2 ^ nb := mul_le_mul_of_nonneg_left hu'.le hK.le
    nlinarith
  have : Y = y := by
    apply int_eq_of_cast_eq (p := p)
    · rw [← e2, h2]
    · have hp' : (2 : Int) ^ (κ + nb) + 2 ^ (2 * nb) + 2 ^ (nb + 3) ≤ p := by exact_mod_cast hp
      have e1 : (2 : Int) ^ κ ≤ 2 ^ (κ + nb) := pow_le_pow_right₀ (by norm_num) (by omega)
      have e3 : (2 : Int) ^ (nb + 3) = 8 * 2 ^ nb := by rw [pow_add]; ring
      have hN : (0 : Int) < 2 ^ nb := by positivity
      have hNN : (0 : Int) < 2 ^ (2 * nb) := by positivity
      rw [abs_lt]
      constructor <;> linarith [hY.1, hy.1]
  exact hy' (this ▸ hY)

/-- **C58, the honest prover of Sqrt fails** as soon as one root rounds up: the hint supplies the rounded-up
root and the constraints demand the rounded-down one. -/
theorem C58_sqrt_incomplete {hint : List (ZMod p) → Except Err (List (ZMod p))} {rc : RangeCtx}
    (hT : IsRangeTable T rc) (hc : 0 < rc.chunk) {κ nb : Nat} (hd : rc.chunk ∣ nb + 1)
    (hp : 2 ^ (κ + nb) + 2 ^ (2 * nb) + 2 ^ (nb + 3) ≤ p) (hh : SqrtHint hint κ nb) (x : Arr Int)
    {u y : Int} (hm : u ∈ x.data) (hu : 0 ≤ u) (hu' : u < 2 ^ nb) (hy : IsNearestRoot κ u y)
    (hy' : ¬ IsFloorRoot κ u y) (hb : y ≤ 2 ^ nb) (Q : Arr (ZMod p) → Prop) :
    ¬ Complete T (sqrtLayer hint rc κ nb (castArr p x)) Q := by
  unfold sqrtLayer
  split_ifs with h
  · rintro ⟨o, e, -⟩; cases e
  · apply Honest.no_proof
    rw [mapLayer_eq]
    refine Honest.bind (honest_collectG_false (fun a => ?_) _ ⟨u, hm, honest_sqrtElem hT hc hd hh hu hu' hp hy hy' hb⟩)
      fun _ h => h.elim
    unfold sqrtElem
    exact (Replay.rangeCheck _ _ _).bind fun _ => Replay.newHint.bind fun _ => (Replay.rangeCheck _ _ _).bind fun _ =>
      (Replay.rangeCheck _ _ _).bind fun _ => (Replay.rangeCheck _ _ _).bind fun _ => Replay.pure

/-! ## The hypotheses are met -/

/-- A hint with the nearest root, computed with integers. -/
def rootHint (inputs : List (ZMod p)) : Except Err (List (ZMod p)) :=
  match inputs with
  | [x, s] => .ok [(((Nat.sqrt (4 * (s.val * x.val)) + 1) / 2 : Nat) : ZMod p)]
  | _ => .error (.hint "arity")

theorem nearest_eq {κ : Nat} {n : Nat} {y : Int} (h : IsNearestRoot κ n y) :
    y = (((Nat.sqrt (4 * (2 ^ κ * n)) + 1) / 2 : Nat) : Int) := by
  obtain ⟨h0, h1, h2⟩ := h
  obtain ⟨m, rfl⟩ := Int.eq_ofNat_of_zero_le h0
  set N := 4 * (2 ^ κ * n) with hN
  have hN' : (4 * (2 ^ κ * (n : Int))) = ((N : Nat) : Int) := by rw [hN]; push_cast; ring
  rw [hN'] at h1 h2
  have a2 : N < (2 * m + 1) ^ 2 := by exact_mod_cast h2
  have b2 : Nat.sqrt N < 2 * m + 1 := Nat.sqrt_lt'.mpr a2
  rcases h1 with h1 | h1
  · have : m = 0 := by exact_mod_cast h1
    subst this
    have : Nat.sqrt N = 0 := by omega
    rw [this]
  · rcases Nat.eq_zero_or_pos m with h3 | h3
    · subst h3
      have : Nat.sqrt N = 0 := by omega
      rw [this]
    · have a1 : (2 * m - 1) ^ 2 ≤ N := by
        have : ((2 * m - 1 : Nat) : Int) = 2 * (m : Int) - 1 := by omega
        have h4 : (((2 * m - 1 : Nat) : Int)) ^ 2 ≤ (N : Int) := by rw [this]; exact h1
        exact_mod_cast h4
      have b1 : 2 * m - 1 ≤ Nat.sqrt N := Nat.le_sqrt'.mpr a1
      have : (Nat.sqrt N + 1) / 2 = m := by omega
      rw [this]

theorem rootHint_ok {κ nb : Nat} (h1 : 2 ^ κ < p) (h2 : 2 ^ nb ≤ p) : SqrtHint (p := p) rootHint κ nb := by
  intro u y h0 hu hy
  obtain ⟨n, rfl⟩ := Int.eq_ofNat_of_zero_le h0
  have hn : n < 2 ^ nb := by exact_mod_cast hu
  have v1 : (((n : Int)) : ZMod p).val = n := by
    rw [Int.cast_natCast, ZMod.val_natCast, Nat.mod_eq_of_lt (by omega)]
  have v2 : (((2 ^ κ : Nat)) : ZMod p).val = 2 ^ κ := by rw [ZMod.val_natCast, Nat.mod_eq_of_lt h1]
  unfold rootHint
  dsimp only [Int.ofNat_eq_natCast]
  have e := nearest_eq hy
  rw [v1, v2, e, Int.cast_natCast]

/-- Scale 16; 16, 64 and 37 stand for 1, 4 and 2.3. -/
def rootX : Arr Int := ⟨[3], [16, 64, 37]⟩

example : Sound (rangeTables goldP ⟨0, 3⟩) (sqrtLayer rootHint ⟨0, 3⟩ 4 8 (castArr goldP rootX))
    (IsUnary rootX fun u w => ∃ y, IsFloorRoot 4 u y ∧ w = (y : ZMod goldP)) :=
  C58_sqrt_sound_partial (rangeTables_spec _) (by norm_num) (by norm_num) (by norm_num [goldP]) _ rfl
    (by decide +kernel)

/-- 1 and 4 have exact roots. -/
example : Complete (rangeTables goldP ⟨0, 3⟩) (sqrtLayer rootHint ⟨0, 3⟩ 4 8 (castArr goldP ⟨[2], [16, 64]⟩))
    (IsUnary (⟨[2], [16, 64]⟩ : Arr Int) fun u w => w = (((if u = 16 then 16 else 32) : Int) : ZMod goldP)) :=
  C58_sqrt_complete_partial (rangeTables_spec _) (by norm_num) (rootHint_ok (by norm_num [goldP]) (by norm_num [goldP]))
    ⟨by norm_num, by norm_num, by norm_num, by norm_num, by norm_num, by norm_num [slackBits, goldP]⟩
    ⟨by norm_num, by norm_num, by norm_num, by norm_num, by norm_num, by norm_num [slackBits, goldP]⟩
    (⟨[2], [16, 64]⟩ : Arr Int) rfl (fun u => if u = 16 then 16 else 32) (by unfold IsFloorRoot IsNearestRoot; decide +kernel)

/-- `√(14·16) = 14.97` rounds up. -/
example : ¬ Complete (rangeTables goldP ⟨0, 3⟩) (sqrtLayer rootHint ⟨0, 3⟩ 4 8 (castArr goldP ⟨[2], [16, 14]⟩))
    (fun _ => True) :=
  C58_sqrt_incomplete (rangeTables_spec _) (by norm_num) (by norm_num) (by norm_num [goldP])
    (rootHint_ok (by norm_num [goldP]) (by norm_num [goldP])) _ (u := 14) (y := 15) (by decide) (by norm_num)
    (by norm_num) (by unfold IsNearestRoot; norm_num) (by unfold IsFloorRoot; norm_num) (by norm_num) _

/-- With twelve-bit digits (the default) and nineteen bits the root of 1 is provably more than 1. -/
example : Forge (rangeTables goldP ⟨0, 12⟩) (sqrtLayer rootHint ⟨0, 12⟩ 4 19 (castArr goldP rootX))
    (IsUnary rootX fun u w => w = (((if u = 16 then 16 else if u = 64 then 32 else 24) + 1 : Int) : ZMod goldP)) :=
  C58_sqrt_unsound (rangeTables_spec _) (by norm_num) ⟨by norm_num, by norm_num, by norm_num, by norm_num, by norm_num⟩
    ⟨by norm_num, by norm_num, by norm_num, by norm_num, by norm_num⟩ (by norm_num) (by norm_num)
    rootX rfl (fun u => if u = 16 then 16 else if u = 64 then 32 else 24) (by unfold IsFloorRoot; decide +kernel)

example : Forge (rangeTables goldP ⟨0, 12⟩) (sqrtLayer rootHint ⟨0, 12⟩ 4 19 (castArr goldP rootX))
    (IsUnary rootX fun _ w => w = 0) :=
  C58_sqrt_zero (rangeTables_spec _) (by norm_num) ⟨by norm_num, by norm_num, by norm_num, by norm_num, by norm_num⟩
    ⟨by norm_num, by norm_num, by norm_num, by norm_num, by norm_num⟩ (by norm_num) _ rfl (by decide +kernel)

end JST.Props
