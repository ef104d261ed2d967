import Verif.Tensor.FunctionExp
import Verif.Props.Trig
import Verif.Props.Exp

/-!
# C60: the Exp, Sigmoid, Tanh and Log layers

Scale `α = 2^κ`. `P X = expProduct f c X` is the product of the two table entries that belong to `X`, which stands for
`α² e^{X/α}`. So Sigmoid should return `y` with `y (α² + P (-x)) = α³`, Tanh `y` with
`y (P (2x) + α²) = α (P (2x) - α²)`, and Log `y` with `P y = α x`. The theorems bound the error of every accepted output
of the first two, and of the third.
-/

set_option linter.unusedSectionVars false

namespace JST.Props

open JST.Shape JST.Layers JST.Spec

variable {p : Nat} [Fact p.Prime] {T : Tables (ZMod p)}

/-- An upper bound for the magnitude of what an `n`-bit range check with `chunk`-bit digits accepts. -/
def reach (chunk n : Nat) : Int := 2 ^ (n + slackBits chunk n)

theorem reach_ge (chunk n : Nat) : (2 : Int) ^ n ≤ reach chunk n :=
  pow_le_pow_right₀ (by norm_num) (by omega)

theorem reach_pos (chunk n : Nat) : 0 < reach chunk n := by unfold reach; positivity

theorem accepted_abs {chunk n : Nat} {k : Int} (h : AcceptedInt chunk n k) : |k| < reach chunk n := by
  have h1 : (0 : Int) < 2 ^ n := by positivity
  have h2 := reach_ge chunk n
  have h3 : -(reach chunk n - 2 ^ n) ≤ k ∧ k < 2 ^ n := h
  rw [abs_lt]
  constructor <;> linarith [h3.1, h3.2]

theorem accepted_iff {chunk n : Nat} {k : Int} :
    AcceptedInt chunk n k ↔ -(reach chunk n - 2 ^ n) ≤ k ∧ k < 2 ^ n := Iff.rfl

theorem abs_mul_le {a b A B : Int} (h1 : |a| ≤ A) (h2 : |b| ≤ B) : |a * b| ≤ A * B := by
  rw [abs_mul]
  exact mul_le_mul h1 h2 (abs_nonneg _) (le_trans (abs_nonneg _) h1)

/-- The exponential gadget on an integer input. -/
theorem sound_expInt {e : ExpCtx} (h : ExpSetting p T e) {u : Int} (hu : |u| + 2 ^ e.totalBits ≤ p) :
    Sound T (verifyExp e (u : ZMod p)) (fun y => InSigned e.totalBits u ∧ ∃ r : Int,
      |r| < reach e.rc.chunk e.scaleBits ∧
      y * (e.scale : ZMod p) + (r : ZMod p) = (expProduct e.f e.chunkBits u : ZMod p)) := by
  refine (C43_exp_sound_partial h (u : ZMod p)).conseq ?_
  rintro y ⟨X, h1, h2, h3, r, r1, r2, hr⟩
  have hb := h.bits
  have et : (2 : Int) ^ e.totalBits = 2 * 2 ^ (e.totalBits - 1) := by
    rw [← pow_succ']; congr 1; omega
  have hpos : (0 : Int) < 2 ^ (e.totalBits - 1) := by positivity
  have hX : u = X := int_eq_of_cast_eq (p := p) h3 (by
    have := abs_sub u X
    have h4 : |X| ≤ 2 ^ (e.totalBits - 1) := abs_le.2 ⟨h1, h2.le⟩
    linarith)
  subst hX
  exact ⟨⟨h1, h2⟩, r, accepted_abs (accepted_iff.2 ⟨r1, r2⟩), hr⟩

/-! ## Sigmoid -/

theorem sound_sigmoidElem {hint : List (ZMod p) → Except Err (List (ZMod p))} {e : ExpCtx} (h : ExpSetting p T e)
    {nb S tol tb : Nat} {u : Int} (hu : |u| + 2 ^ e.totalBits ≤ p)
    (hn : 2 * reach e.rc.chunk nb + e.scale < p)
    (hfit : reach e.rc.chunk nb * (e.scale ^ 2 + expProduct e.f e.chunkBits (-u) + reach e.rc.chunk e.scaleBits) +
      e.scale * (S + tol + reach e.rc.chunk tb) < p) :
    Sound T (sigmoidElem hint e nb S tol tb (u : ZMod p)) (fun y => InSigned e.totalBits (-u) ∧
      ∃ Y r d : Int, y = (Y : ZMod p) ∧ -(reach e.rc.chunk nb - 2 ^ nb) ≤ Y ∧
        Y ≤ e.scale + (reach e.rc.chunk nb - 2 ^ nb) ∧ |r| < reach e.rc.chunk e.scaleBits ∧
        AcceptedInt e.rc.chunk tb (d + tol) ∧
        Y * (e.scale ^ 2 + expProduct e.f e.chunkBits (-u)) = e.scale * (S + d) + Y * r) := by
  have hPn : 0 ≤ expProduct e.f e.chunkBits (-u) := mul_nonneg (h.nonneg _) (h.nonneg _)
  unfold sigmoidElem
  refine Sound.bind newHint_one fun out _ => ?_
  generalize out.headD 0 = y
  dsimp only
  refine Sound.bind (sound_rangeCheckInt h.range h.chunk_pos _ _) ?_
  rintro _ ⟨Y, hY, rfl⟩
  refine Sound.bind (sound_rangeCheckInt h.range h.chunk_pos _ _) ?_
  rintro _ ⟨Z, hZ, eZ⟩
  have hYa := accepted_abs hY
  have hZa := accepted_abs hZ
  have hsc : (0 : Int) ≤ e.scale := by positivity
  have hYZ : (e.scale : Int) - Y = Z := int_eq_of_cast_eq (p := p) (by push_cast; exact eZ) (by
    have h1 := abs_sub ((e.scale : Int) - Y) Z
    have h2 := abs_sub (e.scale : Int) Y
    rw [abs_of_nonneg hsc] at h2
    linarith)
  have hneg : (0 : ZMod p) - (u : ZMod p) = ((-u : Int) : ZMod p) := by push_cast; ring
  rw [hneg]
  refine Sound.bind (sound_expInt h (by rwa [abs_neg])) ?_
  rintro E ⟨hdom, r, hr, hE⟩
  refine Sound.bind (sound_rangeCheckInt h.range h.chunk_pos _ _) ?_
  rintro _ ⟨d, hd, ed⟩
  refine Sound.pure ⟨hdom, Y, r, d - tol, rfl, hY.1, ?_, hr, by simpa using hd, ?_⟩
  · have := hZ.1
    rw [← hYZ] at this
    change -(reach e.rc.chunk nb - 2 ^ nb) ≤ _ at this
    linarith
  have hda := accepted_abs hd
  have key : Y * (e.scale ^ 2 + expProduct e.f e.chunkBits (-u) - r) = e.scale * (S + (d - tol)) := by
    refine int_eq_of_cast_eq (p := p) ?_ ?_
    · simp only [Int.cast_mul, Int.cast_add, Int.cast_sub, Int.cast_pow, Int.cast_natCast]
      linear_combination (-(Y : ZMod p)) * hE + (e.scale : ZMod p) * ed
    · have h1 : |(e.scale : Int) ^ 2 + expProduct e.f e.chunkBits (-u) - r| ≤
          e.scale ^ 2 + expProduct e.f e.chunkBits (-u) + reach e.rc.chunk e.scaleBits := by
        have h0 : (0 : Int) ≤ (e.scale : Int) ^ 2 := by positivity
        have := abs_lt.1 hr
        rw [abs_le]; constructor <;> linarith [this.1, this.2]
      have h2 := abs_mul_le hYa.le h1
      have h3 : |(S : Int) + (d - tol)| ≤ S + tol + reach e.rc.chunk tb := by
        have := abs_lt.1 hda
        have hS : (0 : Int) ≤ S := by positivity
        have ht : (0 : Int) ≤ tol := by positivity
        rw [abs_le]; constructor <;> linarith [this.1, this.2]
      have h4 := abs_mul_le (a := (e.scale : Int)) (by rw [abs_of_nonneg hsc]) h3
      have h5 := abs_sub (Y * (e.scale ^ 2 + expProduct e.f e.chunkBits (-u) - r)) ((e.scale : Int) * (S + (d - tol)))
      linarith
  linear_combination key

theorem scaleBits_pow (f : Int → Int) (rc : RangeCtx) (th tl κ : Nat) : (expCtx f rc th tl κ).scaleBits = κ + 1 := by
  unfold ExpCtx.scaleBits expCtx bitLen
  simp [Nat.log2_two_pow]

theorem sigmoid_consts {κ : Nat} (h : κ < 32) : 2 ^ κ * 2 ^ κ % 2 ^ 64 = (2 ^ κ) ^ 2 ∧ 2 * 2 ^ κ % 2 ^ 64 = 2 * 2 ^ κ ∧
    Nat.clog 2 (2 * (2 * 2 ^ κ % 2 ^ 64) % 2 ^ 64) = κ + 2 := by
  have h1 : (2 : Nat) ^ κ ≤ 2 ^ 31 := Nat.pow_le_pow_right (by norm_num) (by omega)
  have h2 : (2 : Nat) ^ κ * 2 ^ κ ≤ 2 ^ 31 * 2 ^ 31 := Nat.mul_le_mul h1 h1
  refine ⟨?_, ?_, ?_⟩
  · rw [Nat.mod_eq_of_lt (by omega)]; ring
  · exact Nat.mod_eq_of_lt (by omega)
  · rw [Nat.mod_eq_of_lt (b := 2 ^ 64) (a := 2 * 2 ^ κ) (by omega), Nat.mod_eq_of_lt (by omega)]
    rw [show 2 * (2 * 2 ^ κ) = 2 ^ (κ + 2) by ring]
    exact Nat.clog_pow 2 _ (by norm_num)

/-- The product of the two table entries that belong to `X`; it stands for `2^(2κ) · e^{X/2^κ}`. -/
def expVal (f : Int → Int) (κ : Nat) (X : Int) : Int :=
  f (X / 2 ^ (lookupBits κ / 2) * 2 ^ (lookupBits κ / 2)) * f (X % 2 ^ (lookupBits κ / 2))

theorem expVal_eq (f : Int → Int) (rc : RangeCtx) (th tl κ : Nat) (X : Int) :
    expProduct (expCtx f rc th tl κ).f (expCtx f rc th tl κ).chunkBits X = expVal f κ X := rfl

/-- The field is large enough for the equation the Sigmoid layer checks, when the exponential is `P`. -/
structure SigmoidFits (p c nb κ : Nat) (P : Int) : Prop where
  range : 2 * reach c nb + 2 ^ κ < p
  cross : reach c nb * ((2 ^ κ) ^ 2 + P + reach c (κ + 1)) + 2 ^ κ * ((2 ^ κ) ^ 2 + 2 * 2 ^ κ + reach c (κ + 2)) < p

section
variable {hint : List (ZMod p) → Except Err (List (ZMod p))} {f : Int → Int} {rc : RangeCtx} {th tl κ nb : Nat}

theorem sound_sigmoid32 (h : ExpSetting p T (expCtx f rc th tl κ)) (hκ : κ < 32) {u : Int}
    (hu : |u| + 2 ^ lookupBits κ ≤ p) (hf : SigmoidFits p rc.chunk nb κ (expVal f κ (-u))) :
    Sound T (sigmoidElem hint (expCtx f rc th tl κ) nb (2 ^ κ * 2 ^ κ % 2 ^ 64) (2 * 2 ^ κ % 2 ^ 64)
      (Nat.clog 2 (2 * (2 * 2 ^ κ % 2 ^ 64) % 2 ^ 64)) (u : ZMod p))
      (fun y => InSigned (lookupBits κ) (-u) ∧ ∃ Y r d : Int, y = (Y : ZMod p) ∧
        -(reach rc.chunk nb - 2 ^ nb) ≤ Y ∧ Y ≤ 2 ^ κ + (reach rc.chunk nb - 2 ^ nb) ∧
        |r| < reach rc.chunk (κ + 1) ∧ |d| ≤ reach rc.chunk (κ + 2) ∧
        Y * ((2 ^ κ) ^ 2 + expVal f κ (-u)) = 2 ^ κ * ((2 ^ κ) ^ 2 + d) + Y * r) := by
  obtain ⟨c1, c2, c3⟩ := sigmoid_consts hκ
  rw [c1, c3, c2]
  have k := sound_sigmoidElem (hint := hint) h (nb := nb) (S := (2 ^ κ) ^ 2) (tol := 2 * 2 ^ κ) (tb := κ + 2) (u := u) hu
    (by have := hf.range; simp only [expCtx]; push_cast; exact this)
    (by have := hf.cross; rw [scaleBits_pow, expVal_eq]; simp only [expCtx]; push_cast; linarith)
  refine k.conseq ?_
  rintro y ⟨h1, Y, r, d, h2, h3, h4, h5, h6, h7⟩
  rw [scaleBits_pow] at h5
  rw [expVal_eq] at h7
  simp only [expCtx, Nat.cast_pow, Nat.cast_ofNat] at h1 h2 h3 h4 h5 h6 h7
  refine ⟨h1, Y, r, d, h2, h3, h4, h5, ?_, h7⟩
  have h8 : -(reach rc.chunk (κ + 2) - 2 ^ (κ + 2)) ≤ d + ((2 * 2 ^ κ : Nat) : Int) ∧
    d + ((2 * 2 ^ κ : Nat) : Int) < 2 ^ (κ + 2) := h6
  have h9 := reach_ge rc.chunk (κ + 2)
  have e2 : (2 : Int) ^ (κ + 2) = 4 * 2 ^ κ := by rw [pow_add]; ring
  have hpos : (0 : Int) < 2 ^ κ := by positivity
  push_cast at h8
  rw [abs_le]
  constructor <;> linarith [h8.1, h8.2]

/-- **C60, Sigmoid.** Every accepted output `Y` is `α³ / (α² + P(-x))`, the quantised `1 / (1 + e^{-x})`, with an error
of at most `α·reach(κ+2) + |Y|·reach(κ+1)` over the denominator; and the input was in the look-up's domain. -/
theorem C60_sigmoid_sound (h : ExpSetting p T (expCtx f rc th tl κ)) (hκ : κ < 32) (x : Arr Int) (hx : x.WF)
    (hu : ∀ u ∈ x.data, |u| + 2 ^ lookupBits κ ≤ p)
    (hf : ∀ u ∈ x.data, SigmoidFits p rc.chunk nb κ (expVal f κ (-u))) :
    Sound T (sigmoidLayer hint f rc th tl κ nb (castArr p x)) (IsUnary x fun u w =>
      InSigned (lookupBits κ) (-u) ∧ ∃ Y : Int, w = (Y : ZMod p) ∧
        -(reach rc.chunk nb - 2 ^ nb) ≤ Y ∧ Y ≤ 2 ^ κ + (reach rc.chunk nb - 2 ^ nb) ∧
        IsQuotient ((2 ^ κ) ^ 3) ((2 ^ κ) ^ 2 + expVal f κ (-u))
          (2 ^ κ * reach rc.chunk (κ + 2) + |Y| * reach rc.chunk (κ + 1)) Y) := by
  unfold sigmoidLayer
  rw [if_neg (by omega)]
  refine sound_mapLayer hx fun u hm => (sound_sigmoid32 h hκ (hu u hm) (hf u hm)).conseq ?_
  rintro y ⟨h1, Y, r, d, h2, h3, h4, h5, h6, h7⟩
  have hP : 0 ≤ expVal f κ (-u) := mul_nonneg (h.nonneg _) (h.nonneg _)
  have hpos : (0 : Int) < 2 ^ κ := by positivity
  refine ⟨h1, Y, h2, h3, h4, by positivity, ?_⟩
  have e : Y * ((2 ^ κ) ^ 2 + expVal f κ (-u)) - (2 ^ κ) ^ 3 = 2 ^ κ * d + Y * r := by rw [h7]; ring
  rw [e]
  refine le_trans (abs_add_le _ _) (add_le_add ?_ ?_)
  · exact abs_mul_le (by rw [abs_of_pos hpos]) h6
  · exact abs_mul_le le_rfl h5.le

/-- **Findings on C60: no proof exists for strongly negative inputs.** When the quantised `e^{-x}` is large compared
with the scale, the exact quotient is below one unit, every integer multiple of the denominator misses the tolerance
(which does not grow with the denominator), and no assignment of the hints satisfies the circuit. The same holds for
inputs outside the look-up's domain. -/
theorem C60_sigmoid_unprovable (h : ExpSetting p T (expCtx f rc th tl κ)) (hκ : κ < 32) (x : Arr Int)
    {u : Int} (hm : u ∈ x.data) (hu : |u| + 2 ^ lookupBits κ ≤ p)
    (hf : SigmoidFits p rc.chunk nb κ (expVal f κ (-u)))
    (hbad : ¬ InSigned (lookupBits κ) (-u) ∨ (reach rc.chunk (κ + 2) < (2 ^ κ) ^ 2 ∧
      (2 ^ κ) ^ 3 + 2 ^ κ * reach rc.chunk (κ + 2) + reach rc.chunk (κ + 1) ≤ (2 ^ κ) ^ 2 + expVal f κ (-u))) :
    Sound T (sigmoidLayer hint f rc th tl κ nb (castArr p x)) (fun _ => False) := by
  unfold sigmoidLayer
  rw [if_neg (by omega), mapLayer_eq]
  refine Sound.bind (sound_collectG_false _ ⟨u, hm, ?_⟩) fun _ h => h.elim
  refine (sound_sigmoid32 h hκ hu hf).conseq ?_
  rintro y ⟨h1, Y, r, d, -, -, -, h5, h6, h7⟩
  rcases hbad with hb | ⟨b1, b2⟩
  · exact hb h1
  have hpos : (0 : Int) < 2 ^ κ := by positivity
  obtain ⟨r1, r2⟩ := abs_lt.1 h5
  obtain ⟨d1, d2⟩ := abs_le.1 h6
  have e1 : Y * ((2 ^ κ) ^ 2 + expVal f κ (-u) - r) = 2 ^ κ * ((2 ^ κ) ^ 2 + d) := by linear_combination h7
  have hden : 2 ^ κ * ((2 ^ κ) ^ 2 + d) < (2 ^ κ) ^ 2 + expVal f κ (-u) - r := by
    have : 2 ^ κ * d ≤ 2 ^ κ * reach rc.chunk (κ + 2) := mul_le_mul_of_nonneg_left d2 hpos.le
    nlinarith
  have hnum : 0 < 2 ^ κ * ((2 ^ κ) ^ 2 + d) := mul_pos hpos (by linarith)
  have hd0 : 0 < (2 ^ κ) ^ 2 + expVal f κ (-u) - r := lt_trans hnum hden
  have hY : 0 < Y := by
    by_contra hc
    have := mul_nonpos_of_nonpos_of_nonneg (not_lt.1 hc) hd0.le
    linarith
  nlinarith

theorem complete_expInt (h : ExpSetting p T (expCtx f rc th tl κ)) (hκ : κ < 64) (hκp : 2 ^ κ < p)
    (h1 : RangeUsable p rc (lookupBits κ / 2)) (h2 : RangeUsable p rc (κ + 1)) {u : Int}
    (hu : InSigned (lookupBits κ) u) (hP : expVal f κ u < p) :
    Complete T (verifyExp (expCtx f rc th tl κ) (u : ZMod p)) (fun y => y = ((expVal f κ u / 2 ^ κ : Int) : ZMod p)) := by
  have k := C43_exp_complete h (by simp [expCtx]) (Nat.pow_lt_pow_right (by norm_num) hκ) hκp
    (by simp [expCtx, lookupBits]) h1 (by rw [scaleBits_pow]; exact h2) u hu.1 hu.2 (by rw [expVal_eq]; exact hP)
  rw [expVal_eq] at k
  simp only [expCtx, Nat.cast_pow, Nat.cast_ofNat] at k
  exact k

/-- **C60, Sigmoid, completeness.** The honest prover succeeds on `u` when the value of the hint is within `[0, α]` and
its product with the quantised denominator is less than `2α` off `α²`. The nearest value is, if the quantised `e^{-x}`
is below `3α`, see `C60_sigmoid_complete_nearest`. -/
theorem C60_sigmoid_complete (h : ExpSetting p T (expCtx f rc th tl κ)) (hκ : κ < 32) (hκp : 2 ^ κ < p)
    (h1 : RangeUsable p rc (lookupBits κ / 2)) (h2 : RangeUsable p rc (κ + 1)) (h3 : RangeUsable p rc nb)
    (h4 : RangeUsable p rc (κ + 2)) (hnb : κ < nb) (x : Arr Int) (hx : x.WF) (Y : Int → Int)
    (hd : ∀ u ∈ x.data, InSigned (lookupBits κ) (-u) ∧ expVal f κ (-u) < p)
    (hY : ∀ u ∈ x.data, hint [(u : ZMod p), ((2 ^ κ : Nat) : ZMod p)] = .ok [((Y u : Int) : ZMod p)] ∧
      0 ≤ Y u ∧ Y u ≤ 2 ^ κ ∧ -(2 * 2 ^ κ) ≤ Y u * (2 ^ κ + expVal f κ (-u) / 2 ^ κ) - (2 ^ κ) ^ 2 ∧
      Y u * (2 ^ κ + expVal f κ (-u) / 2 ^ κ) - (2 ^ κ) ^ 2 < 2 * 2 ^ κ) :
    Complete T (sigmoidLayer hint f rc th tl κ nb (castArr p x)) (IsUnary x fun u w => w = (Y u : ZMod p)) := by
  obtain ⟨c1, c2, c3⟩ := sigmoid_consts hκ
  unfold sigmoidLayer
  rw [if_neg (by omega), c1, c3, c2]
  refine complete_mapLayer hx fun u hm => ?_
  obtain ⟨y1, y2, y3, y4, y5⟩ := hY u hm
  have ek : (2 : Int) ^ κ < 2 ^ nb := pow_lt_pow_right₀ (by norm_num) hnb
  have e2 : (2 : Int) ^ (κ + 2) = 4 * 2 ^ κ := by rw [pow_add]; ring
  unfold sigmoidElem
  refine Complete.bind (Complete.newHint y1 rfl) ?_
  rintro _ rfl
  simp only [List.headD_cons]
  refine Complete.bind (h3.completeInt h.range y2 (by linarith) rfl) fun _ _ => ?_
  refine Complete.bind (h3.completeInt h.range (k := 2 ^ κ - Y u) (by linarith) (by linarith)
    (by simp only [expCtx]; push_cast; ring)) fun _ _ => ?_
  have hneg : (0 : ZMod p) - (u : ZMod p) = ((-u : Int) : ZMod p) := by push_cast; ring
  rw [hneg]
  refine Complete.bind (complete_expInt h (by omega) hκp h1 h2 (hd u hm).1 (hd u hm).2) ?_
  rintro _ rfl
  refine Complete.bind (h4.completeInt h.range
    (k := Y u * (2 ^ κ + expVal f κ (-u) / 2 ^ κ) - (2 ^ κ) ^ 2 + 2 * 2 ^ κ) (by linarith) (by linarith) ?_) fun _ _ =>
    Complete.pure rfl
  simp only [expCtx, Int.cast_add, Int.cast_sub, Int.cast_mul, Int.cast_pow, Int.cast_ofNat, Nat.cast_mul,
    Nat.cast_pow, Nat.cast_ofNat]

/-- The honest prover succeeds whenever the hint is the nearest integer to `α² / (α + E)` and `E`, the quantised
`e^{-x}`, is below `3α` (that is `x > -ln 3`). -/
theorem C60_sigmoid_complete_nearest (h : ExpSetting p T (expCtx f rc th tl κ)) (hκ : κ < 32) (hκp : 2 ^ κ < p)
    (h1 : RangeUsable p rc (lookupBits κ / 2)) (h2 : RangeUsable p rc (κ + 1)) (h3 : RangeUsable p rc nb)
    (h4 : RangeUsable p rc (κ + 2)) (hnb : κ < nb) (x : Arr Int) (hx : x.WF) (Y : Int → Int)
    (hd : ∀ u ∈ x.data, InSigned (lookupBits κ) (-u) ∧ expVal f κ (-u) < p ∧ expVal f κ (-u) / 2 ^ κ < 3 * 2 ^ κ)
    (hY : ∀ u ∈ x.data, hint [(u : ZMod p), ((2 ^ κ : Nat) : ZMod p)] = .ok [((Y u : Int) : ZMod p)] ∧
      0 ≤ Y u ∧ Y u ≤ 2 ^ κ ∧
      |2 * (Y u * (2 ^ κ + expVal f κ (-u) / 2 ^ κ) - (2 ^ κ) ^ 2)| ≤ 2 ^ κ + expVal f κ (-u) / 2 ^ κ) :
    Complete T (sigmoidLayer hint f rc th tl κ nb (castArr p x)) (IsUnary x fun u w => w = (Y u : ZMod p)) := by
  refine C60_sigmoid_complete h hκ hκp h1 h2 h3 h4 hnb x hx Y (fun u hm => ⟨(hd u hm).1, (hd u hm).2.1⟩) ?_
  intro u hm
  obtain ⟨y1, y2, y3, y4⟩ := hY u hm
  have := (hd u hm).2.2
  obtain ⟨a, b⟩ := abs_le.1 y4
  refine ⟨y1, y2, y3, by linarith, by linarith⟩

theorem Complete.honest {F α : Type} [CommRing F] {T : Tables F} {g : G F α} {Q : α → Prop} (h : Complete T g Q) :
    Honest T g Q := by
  obtain ⟨o, h1, h2, -, h4⟩ := h
  intro o' e _
  rw [h1] at e
  cases e
  exact ⟨h2, h4⟩

theorem replay_verifyExp (e : ExpCtx) (x : ZMod p) : Replay (verifyExp e x) := by
  unfold verifyExp uIntDiv uMod
  exact Replay.hint2.bind fun _ => Replay.hint2.bind fun _ => Replay.assertEq.bind fun _ =>
    (Replay.rangeCheck _ _ _).bind fun _ => Replay.newHint.bind fun _ => Replay.newHint.bind fun _ =>
    Replay.lookup.bind fun _ => Replay.lookup.bind fun _ => Replay.hint2.bind fun _ => Replay.hint2.bind fun _ =>
    Replay.assertEq.bind fun _ => (Replay.rangeCheck _ _ _).bind fun _ => Replay.pure

theorem replay_sigmoidElem (e : ExpCtx) (nb S tol tb : Nat) (x : ZMod p) :
    Replay (sigmoidElem hint e nb S tol tb x) := by
  unfold sigmoidElem
  exact Replay.newHint.bind fun _ => (Replay.rangeCheck _ _ _).bind fun _ => (Replay.rangeCheck _ _ _).bind fun _ =>
    (replay_verifyExp _ _).bind fun _ => (Replay.rangeCheck _ _ _).bind fun _ => Replay.pure

theorem trivial_honest {F α : Type} [CommRing F] {T : Tables F} {g : G F α} (h : Replay g) :
    Honest T g (fun _ => True) := Sound.honest (fun _ _ _ _ => trivial) h

/-- A range check of an integer that is not accepted fails. -/
theorem sound_rangeCheck_false {rc : RangeCtx} (hT : IsRangeTable T rc) (hc : 0 < rc.chunk) {a : ZMod p} {n : Nat}
    {k : Int} (ha : a = (k : ZMod p)) (hk : |k| + reach rc.chunk n ≤ p) (hn : ¬ AcceptedInt rc.chunk n k) :
    Sound T (rangeCheck rc a n) (fun _ => False) := by
  refine (sound_rangeCheckInt hT hc a n).conseq ?_
  rintro _ ⟨j, hj, ej⟩
  have := accepted_abs hj
  have hkj : k = j := int_eq_of_cast_eq (p := p) (ha ▸ ej) (by have := abs_sub k j; linarith)
  exact hn (hkj ▸ hj)

/-- **Findings on C60: the honest prover can fail.** If the hint's value misses the tolerance on some element, the
honest prover has no proof, however accurate that value is; the nearest integer misses it as soon as half the
denominator exceeds `2α`. -/
theorem C60_sigmoid_honest_fails (h : ExpSetting p T (expCtx f rc th tl κ)) (hκ : κ < 32) (hκp : 2 ^ κ < p)
    (h1 : RangeUsable p rc (lookupBits κ / 2)) (h2 : RangeUsable p rc (κ + 1)) (x : Arr Int) {u Y : Int}
    (hm : u ∈ x.data) (hd : InSigned (lookupBits κ) (-u)) (hP : expVal f κ (-u) < p)
    (hY : hint [(u : ZMod p), ((2 ^ κ : Nat) : ZMod p)] = .ok [(Y : ZMod p)])
    (hp : |Y * (2 ^ κ + expVal f κ (-u) / 2 ^ κ) - (2 ^ κ) ^ 2 + 2 * 2 ^ κ| + reach rc.chunk (κ + 2) ≤ p)
    (hmiss : ¬ AcceptedInt rc.chunk (κ + 2) (Y * (2 ^ κ + expVal f κ (-u) / 2 ^ κ) - (2 ^ κ) ^ 2 + 2 * 2 ^ κ)) :
    Honest T (sigmoidLayer hint f rc th tl κ nb (castArr p x)) (fun _ => False) := by
  obtain ⟨c1, c2, c3⟩ := sigmoid_consts hκ
  unfold sigmoidLayer
  rw [if_neg (by omega), c1, c3, c2, mapLayer_eq]
  refine Honest.bind (honest_collectG_false (fun _ => replay_sigmoidElem _ _ _ _ _ _) _ ⟨u, hm, ?_⟩) fun _ h => h.elim
  unfold sigmoidElem
  refine Honest.bind (Honest.newHint hY) ?_
  rintro _ rfl
  simp only [List.headD_cons]
  refine Honest.bind (trivial_honest (Replay.rangeCheck _ _ _)) fun _ _ => ?_
  refine Honest.bind (trivial_honest (Replay.rangeCheck _ _ _)) fun _ _ => ?_
  have hneg : (0 : ZMod p) - (u : ZMod p) = ((-u : Int) : ZMod p) := by push_cast; ring
  rw [hneg]
  refine Honest.bind (Complete.honest (complete_expInt h (by omega) hκp h1 h2 hd hP)) ?_
  rintro _ rfl
  refine Honest.bind (Sound.honest (sound_rangeCheck_false h.range h.chunk_pos ?_ hp hmiss) (Replay.rangeCheck _ _ _))
    fun _ h => h.elim
  simp only [expCtx, Int.cast_add, Int.cast_sub, Int.cast_mul, Int.cast_pow, Int.cast_ofNat, Nat.cast_mul,
    Nat.cast_pow, Nat.cast_ofNat]

/-! ## Tanh -/

theorem clog_three (κ : Nat) : Nat.clog 2 (2 * (3 * 2 ^ κ)) = κ + 3 := by
  have hpos : 0 < 2 ^ κ := by positivity
  refine le_antisymm (Nat.clog_le_of_le_pow ?_) ?_
  · rw [show (2 : Nat) ^ (κ + 3) = 8 * 2 ^ κ by ring]; omega
  · by_contra hc
    have h1 := Nat.le_pow_clog (b := 2) (by norm_num) (2 * (3 * 2 ^ κ))
    have h2 : (2 : Nat) ^ Nat.clog 2 (2 * (3 * 2 ^ κ)) ≤ 2 ^ (κ + 2) := Nat.pow_le_pow_right (by norm_num) (by omega)
    rw [show (2 : Nat) ^ (κ + 2) = 4 * 2 ^ κ by ring] at h2
    omega

/-- Two opposite range checks of `s` and `m - s` confine `s` regardless of the slack. -/
theorem sound_two_sided {rc : RangeCtx} (hT : IsRangeTable T rc) (hc : 0 < rc.chunk) {s : ZMod p} {m n : Nat}
    (hp : m + 2 * reach rc.chunk n < p) {β : Type} {g : G (ZMod p) β} {Q : β → Prop}
    (hg : ∀ d : Int, s = (d : ZMod p) → m - 2 ^ n < d → d < 2 ^ n → Sound T g Q) :
    Sound T (do rangeCheck rc s n; rangeCheck rc ((m : ZMod p) - s) n; g) Q := by
  refine Sound.bind (sound_rangeCheckInt hT hc _ _) ?_
  rintro _ ⟨d, hd, rfl⟩
  refine Sound.bind (sound_rangeCheckInt hT hc _ _) ?_
  rintro _ ⟨k, hk, ek⟩
  have h1 := accepted_abs hd
  have h2 := accepted_abs hk
  have hm : (0 : Int) ≤ m := by positivity
  have e : (m : Int) - d = k := int_eq_of_cast_eq (p := p) (by push_cast; exact ek) (by
    have a := abs_sub ((m : Int) - d) k
    have b := abs_sub (m : Int) d
    rw [abs_of_nonneg hm] at b
    linarith)
  refine hg d rfl ?_ hd.2
  have := hk.2
  linarith

/-- The field is large enough for the equation the Tanh layer checks, when the exponential is `P`. -/
structure TanhFits (p c nb κ : Nat) (P : Int) : Prop where
  range : 2 * reach c (nb + 1) + 2 * 2 ^ κ < p
  tol : 6 * 2 ^ κ + 2 * reach c (κ + 3) < p
  cross : (reach c (nb + 1) + 2 * 2 ^ κ) * (P + (2 ^ κ) ^ 2 + reach c (κ + 1)) + 2 ^ κ * (2 * (2 ^ κ) ^ 2 + 5 * 2 ^ κ) < p

theorem sound_tanhElem (h : ExpSetting p T (expCtx f rc th tl κ)) {u : Int}
    (hu : |2 * u| + 2 ^ lookupBits κ ≤ p) (hf : TanhFits p rc.chunk nb κ (expVal f κ (2 * u))) :
    Sound T (tanhElem hint (expCtx f rc th tl κ) nb (3 * 2 ^ κ) (Nat.clog 2 (2 * (3 * 2 ^ κ))) (u : ZMod p))
      (fun y => InSigned (lookupBits κ) (2 * u) ∧ ∃ Y r d : Int, y = (Y : ZMod p) ∧
        -2 ^ κ - (reach rc.chunk (nb + 1) - 2 ^ (nb + 1)) ≤ Y ∧
        Y ≤ 2 ^ κ + (reach rc.chunk (nb + 1) - 2 ^ (nb + 1)) ∧
        |r| < reach rc.chunk (κ + 1) ∧ |d| < 5 * 2 ^ κ ∧
        Y * (expVal f κ (2 * u) + (2 ^ κ) ^ 2) =
          2 ^ κ * (expVal f κ (2 * u) - (2 ^ κ) ^ 2) + 2 ^ κ * d + (Y - 2 ^ κ) * r) := by
  have hpos : (0 : Int) < 2 ^ κ := by positivity
  have hPn : 0 ≤ expVal f κ (2 * u) := mul_nonneg (h.nonneg _) (h.nonneg _)
  rw [clog_three]
  unfold tanhElem
  refine Sound.bind newHint_one fun out _ => ?_
  generalize out.headD 0 = y
  dsimp only
  refine Sound.bind (sound_rangeCheckInt h.range h.chunk_pos _ _) ?_
  rintro _ ⟨V, hV, eV⟩
  have esc : (((expCtx f rc th tl κ).scale : Nat) : ZMod p) = ((2 ^ κ : Int) : ZMod p) := by simp [expCtx]
  rw [esc] at eV ⊢
  have hy : y = ((V - 2 ^ κ : Int) : ZMod p) := by rw [Int.cast_sub, ← eV]; ring
  refine Sound.bind (sound_rangeCheckInt h.range h.chunk_pos _ _) ?_
  rintro _ ⟨Z, hZ, eZ⟩
  have hVa := accepted_abs hV
  have hZa := accepted_abs hZ
  simp only [expCtx] at hVa hZa hV hZ
  have hVZ : 2 * 2 ^ κ - V = Z := int_eq_of_cast_eq (p := p) (by rw [← eZ, hy]; push_cast; ring) (by
    have h1 := abs_sub (2 * 2 ^ κ - V) Z
    have h2 := abs_sub (2 * 2 ^ κ) V
    rw [abs_of_nonneg (by positivity : (0 : Int) ≤ 2 * 2 ^ κ)] at h2
    have := hf.range
    linarith)
  have h2u : (u : ZMod p) + (u : ZMod p) = ((2 * u : Int) : ZMod p) := by push_cast; ring
  rw [h2u]
  refine Sound.bind (sound_expInt h hu) ?_
  rintro E ⟨hdom, r, hr, hE⟩
  rw [scaleBits_pow] at hr
  rw [expVal_eq, esc] at hE
  refine sound_two_sided h.range h.chunk_pos (by have := hf.tol; simp only [expCtx]; push_cast; linarith) ?_
  intro d ed d1 d2
  have e3 : (2 : Int) ^ (κ + 3) = 8 * 2 ^ κ := by rw [pow_add]; ring
  rw [e3] at d1 d2
  push_cast at d1
  simp only [expCtx] at hr
  have hda : |d - 3 * 2 ^ κ| < 5 * 2 ^ κ := by rw [abs_lt]; constructor <;> linarith
  have v1 := accepted_iff.1 hV
  have v2 := accepted_iff.1 hZ
  refine Sound.pure ⟨hdom, V - 2 ^ κ, r, d - 3 * 2 ^ κ, hy, by linarith [v1.1], by linarith [v2.1], hr, hda, ?_⟩
  have key : (V - 2 * 2 ^ κ) * (expVal f κ (2 * u) + (2 ^ κ) ^ 2 - r) = 2 ^ κ * (-(2 * (2 ^ κ) ^ 2) + (d - 3 * 2 ^ κ)) := by
    refine int_eq_of_cast_eq (p := p) ?_ ?_
    · rw [hy] at ed
      simp only [Int.cast_mul, Int.cast_add, Int.cast_sub, Int.cast_neg, Int.cast_pow, Int.cast_ofNat, Nat.cast_mul,
        Nat.cast_pow, Nat.cast_ofNat] at ed hE ⊢
      linear_combination (-((V : ZMod p) - 2 * 2 ^ κ)) * hE + (2 ^ κ : ZMod p) * ed
    · have h1 : |expVal f κ (2 * u) + (2 ^ κ) ^ 2 - r| ≤ expVal f κ (2 * u) + (2 ^ κ) ^ 2 + reach rc.chunk (κ + 1) := by
        have h0 : (0 : Int) ≤ (2 ^ κ) ^ 2 := by positivity
        have := abs_lt.1 hr
        rw [abs_le]; constructor <;> linarith [this.1, this.2]
      have h0 : |V - 2 * 2 ^ κ| ≤ reach rc.chunk (nb + 1) + 2 * 2 ^ κ := by
        have := abs_sub V (2 * 2 ^ κ)
        rw [abs_of_nonneg (by positivity : (0 : Int) ≤ 2 * 2 ^ κ)] at this
        linarith
      have h2 := abs_mul_le h0 h1
      have h3 : |-(2 * (2 ^ κ) ^ 2) + (d - 3 * 2 ^ κ)| ≤ 2 * (2 ^ κ) ^ 2 + 5 * 2 ^ κ := by
        have h0 : (0 : Int) ≤ (2 ^ κ) ^ 2 := by positivity
        have := abs_lt.1 hda
        rw [abs_le]; constructor <;> linarith [this.1, this.2]
      have h4 := abs_mul_le (a := (2 ^ κ : Int)) (by rw [abs_of_nonneg hpos.le]) h3
      have h5 := abs_sub ((V - 2 * 2 ^ κ) * (expVal f κ (2 * u) + (2 ^ κ) ^ 2 - r))
        (2 ^ κ * (-(2 * (2 ^ κ) ^ 2) + (d - 3 * 2 ^ κ)))
      have := hf.cross
      linarith
  linear_combination key

/-- **C60, Tanh.** Every accepted output `Y` is `α (P(2x) - α²) / (P(2x) + α²)`, the quantised
`(e^{2x} - 1) / (e^{2x} + 1)`, with an error of at most `5α² + |Y - α|·reach(κ+1)` over the denominator. -/
theorem C60_tanh_sound (h : ExpSetting p T (expCtx f rc th tl κ)) (x : Arr Int) (hx : x.WF)
    (hu : ∀ u ∈ x.data, |2 * u| + 2 ^ lookupBits κ ≤ p)
    (hf : ∀ u ∈ x.data, TanhFits p rc.chunk nb κ (expVal f κ (2 * u))) :
    Sound T (tanhLayer hint f rc th tl κ nb (castArr p x)) (IsUnary x fun u w =>
      InSigned (lookupBits κ) (2 * u) ∧ ∃ Y : Int, w = (Y : ZMod p) ∧
        -2 ^ κ - (reach rc.chunk (nb + 1) - 2 ^ (nb + 1)) ≤ Y ∧
        Y ≤ 2 ^ κ + (reach rc.chunk (nb + 1) - 2 ^ (nb + 1)) ∧
        IsQuotient (2 ^ κ * (expVal f κ (2 * u) - (2 ^ κ) ^ 2)) (expVal f κ (2 * u) + (2 ^ κ) ^ 2)
          (5 * (2 ^ κ) ^ 2 + |Y - 2 ^ κ| * reach rc.chunk (κ + 1)) Y) := by
  unfold tanhLayer
  split_ifs with hκ
  · exact Sound.throwErr
  refine sound_mapLayer hx fun u hm => (sound_tanhElem h (hu u hm) (hf u hm)).conseq ?_
  rintro y ⟨h1, Y, r, d, h2, h3, h4, h5, h6, h7⟩
  have hP : 0 ≤ expVal f κ (2 * u) := mul_nonneg (h.nonneg _) (h.nonneg _)
  have hpos : (0 : Int) < 2 ^ κ := by positivity
  refine ⟨h1, Y, h2, h3, h4, by positivity, ?_⟩
  rw [h7, add_assoc, add_sub_cancel_left]
  refine le_trans (abs_add_le _ _) (add_le_add ?_ ?_)
  · have := abs_mul_le (a := (2 ^ κ : Int)) (by rw [abs_of_nonneg hpos.le]) h6.le
    linarith
  · exact abs_mul_le le_rfl h5.le

/-- **Findings on C60: no proof exists for large inputs of Tanh.** When the quantised `e^{2x}` is large compared with
the scale, no integer multiple of the denominator is within the tolerance, although the exact result rounds to `α`. -/
theorem C60_tanh_unprovable (h : ExpSetting p T (expCtx f rc th tl κ)) (x : Arr Int)
    {u : Int} (hm : u ∈ x.data) (hu : |2 * u| + 2 ^ lookupBits κ ≤ p)
    (hf : TanhFits p rc.chunk nb κ (expVal f κ (2 * u)))
    (hbad : ¬ InSigned (lookupBits κ) (2 * u) ∨ (2 < κ ∧
      2 * (2 ^ κ) ^ 3 + 5 * (2 ^ κ) ^ 2 + reach rc.chunk (κ + 1) ≤ (2 ^ κ) ^ 2 + expVal f κ (2 * u))) :
    Sound T (tanhLayer hint f rc th tl κ nb (castArr p x)) (fun _ => False) := by
  unfold tanhLayer
  split_ifs with hκ
  · exact Sound.throwErr
  rw [mapLayer_eq]
  refine Sound.bind (sound_collectG_false _ ⟨u, hm, ?_⟩) fun _ h => h.elim
  refine (sound_tanhElem h hu hf).conseq ?_
  rintro y ⟨h1, Y, r, d, -, -, -, h5, h6, h7⟩
  rcases hbad with hb | ⟨b1, b2⟩
  · exact hb h1
  have hpos : (0 : Int) < 2 ^ κ := by positivity
  have h8 : (2 : Int) ^ 3 ≤ 2 ^ κ := pow_le_pow_right₀ (by norm_num) b1
  obtain ⟨r1, r2⟩ := abs_lt.1 h5
  obtain ⟨d1, d2⟩ := abs_lt.1 h6
  have e1 : (2 ^ κ - Y) * (expVal f κ (2 * u) + (2 ^ κ) ^ 2 - r) = 2 ^ κ * (2 * (2 ^ κ) ^ 2 - d) := by
    linear_combination -h7
  have hden : 2 ^ κ * (2 * (2 ^ κ) ^ 2 - d) < expVal f κ (2 * u) + (2 ^ κ) ^ 2 - r := by nlinarith
  have hnum : 0 < 2 ^ κ * (2 * (2 ^ κ) ^ 2 - d) := mul_pos hpos (by nlinarith)
  have hd0 : 0 < expVal f κ (2 * u) + (2 ^ κ) ^ 2 - r := lt_trans hnum hden
  have hY : 0 < 2 ^ κ - Y := by
    by_contra hc
    have := mul_nonpos_of_nonpos_of_nonneg (not_lt.1 hc) hd0.le
    linarith
  nlinarith

/-- **C60, Tanh, completeness.** The honest prover succeeds when the value of the hint is within `[-α, α]` and meets the
cross-multiplied tolerance of `3α`. -/
theorem C60_tanh_complete (h : ExpSetting p T (expCtx f rc th tl κ)) (hκ : κ < 32) (hκp : 2 ^ κ < p)
    (h1 : RangeUsable p rc (lookupBits κ / 2)) (h2 : RangeUsable p rc (κ + 1)) (h3 : RangeUsable p rc (nb + 1))
    (h4 : RangeUsable p rc (κ + 3)) (hnb : κ < nb) (x : Arr Int) (hx : x.WF) (Y : Int → Int)
    (hd : ∀ u ∈ x.data, InSigned (lookupBits κ) (2 * u) ∧ expVal f κ (2 * u) < p)
    (hY : ∀ u ∈ x.data, hint [(u : ZMod p), ((2 ^ κ : Nat) : ZMod p)] = .ok [((Y u : Int) : ZMod p)] ∧
      |Y u| ≤ 2 ^ κ ∧ |Y u * (expVal f κ (2 * u) / 2 ^ κ + 2 ^ κ) -
        (expVal f κ (2 * u) / 2 ^ κ - 2 ^ κ) * 2 ^ κ| ≤ 3 * 2 ^ κ) :
    Complete T (tanhLayer hint f rc th tl κ nb (castArr p x)) (IsUnary x fun u w => w = (Y u : ZMod p)) := by
  unfold tanhLayer
  rw [if_neg (by omega), clog_three]
  refine complete_mapLayer hx fun u hm => ?_
  obtain ⟨y1, y2, y3⟩ := hY u hm
  obtain ⟨y4, y5⟩ := abs_le.1 y2
  obtain ⟨y6, y7⟩ := abs_le.1 y3
  have hpos : (0 : Int) < 2 ^ κ := by positivity
  have ek : (2 : Int) ^ κ < 2 ^ nb := pow_lt_pow_right₀ (by norm_num) hnb
  have en : (2 : Int) ^ (nb + 1) = 2 * 2 ^ nb := by rw [pow_succ]; ring
  have e3 : (2 : Int) ^ (κ + 3) = 8 * 2 ^ κ := by rw [pow_add]; ring
  unfold tanhElem
  refine Complete.bind (Complete.newHint y1 rfl) ?_
  rintro _ rfl
  simp only [List.headD_cons]
  refine Complete.bind (h3.completeInt h.range (k := Y u + 2 ^ κ) (by linarith) (by linarith)
    (by simp only [expCtx]; push_cast; ring)) fun _ _ => ?_
  refine Complete.bind (h3.completeInt h.range (k := 2 ^ κ - Y u) (by linarith) (by linarith)
    (by simp only [expCtx]; push_cast; ring)) fun _ _ => ?_
  have h2u : (u : ZMod p) + (u : ZMod p) = ((2 * u : Int) : ZMod p) := by push_cast; ring
  rw [h2u]
  refine Complete.bind (complete_expInt h (by omega) hκp h1 h2 (hd u hm).1 (hd u hm).2) ?_
  rintro _ rfl
  refine Complete.bind (h4.completeInt h.range (k := Y u * (expVal f κ (2 * u) / 2 ^ κ + 2 ^ κ) -
        (expVal f κ (2 * u) / 2 ^ κ - 2 ^ κ) * 2 ^ κ + 3 * 2 ^ κ) (by linarith) (by linarith) ?_) fun _ _ => ?_
  · simp only [expCtx, Int.cast_add, Int.cast_sub, Int.cast_mul, Int.cast_pow, Int.cast_ofNat, Nat.cast_mul,
      Nat.cast_pow, Nat.cast_ofNat]
  refine Complete.bind (h4.completeInt h.range (k := 6 * 2 ^ κ - (Y u * (expVal f κ (2 * u) / 2 ^ κ + 2 ^ κ) -
        (expVal f κ (2 * u) / 2 ^ κ - 2 ^ κ) * 2 ^ κ + 3 * 2 ^ κ)) (by linarith) (by linarith) ?_) fun _ _ =>
    Complete.pure rfl
  simp only [expCtx, Int.cast_add, Int.cast_sub, Int.cast_mul, Int.cast_pow, Int.cast_ofNat, Nat.cast_mul,
    Nat.cast_pow, Nat.cast_ofNat]
  ring

/-- The layer refuses scale exponents of 32 and more. -/
theorem C60_tanh_refuses (hκ : 32 ≤ κ) (x : Arr (ZMod p)) (s : Hints (ZMod p)) :
    tanhLayer hint f rc th tl κ nb x s =
      .error (.err "scale_exponent >= 32: scale^2 overflows u64 in Tanh cross-multiplication") := by
  unfold tanhLayer
  rw [if_pos hκ]
  rfl

/-! ## Log -/

/-- **C60, Log.** Every accepted output `Y` is in the look-up's domain and its quantised exponential is the input, with
an error of less than `reach(κ+1) + 6α` in `P Y ≈ α x`; and the input passed the two range checks. -/
theorem C60_log_sound (h : ExpSetting p T (expCtx f rc th tl κ)) (worst : Int) (x : Arr Int) (hx : x.WF)
    {B : Int} (hB : ∀ Y, InSigned (lookupBits κ) Y → expVal f κ Y ≤ B)
    (hu : ∀ u ∈ x.data, |u| + 1 + reach rc.chunk nb ≤ p ∧
      2 ^ κ * |u| + B + reach rc.chunk (κ + 1) + 6 * 2 ^ κ + 2 * reach rc.chunk (κ + 3) < p) :
    Sound T (logLayer hint f rc th tl κ nb worst (castArr p x)) (IsUnary x fun u w =>
      AcceptedInt rc.chunk nb u ∧ AcceptedInt rc.chunk nb (u - 1) ∧
      ∃ Y : Int, w = (Y : ZMod p) ∧ InSigned (lookupBits κ) Y ∧
        |expVal f κ Y - 2 ^ κ * u| < reach rc.chunk (κ + 1) + 6 * 2 ^ κ) := by
  have hpos : (0 : Int) < 2 ^ κ := by positivity
  unfold logLayer
  split_ifs with hκ hw
  · exact Sound.throwErr
  · exact Sound.throwErr
  rw [show Nat.clog 2 (2 * (2 * 2 ^ κ)) + 1 = κ + 3 by
    rw [show 2 * (2 * 2 ^ κ) = 2 ^ (κ + 2) by ring, Nat.clog_pow 2 _ (by norm_num)]]
  refine sound_mapLayer hx fun u hm => ?_
  obtain ⟨hu1, hu2⟩ := hu u hm
  unfold logElem
  refine Sound.bind newHint_one fun out _ => ?_
  generalize out.headD 0 = y
  dsimp only
  refine Sound.bind (sound_rangeCheckInt h.range h.chunk_pos _ _) ?_
  rintro _ ⟨V, hV, eV⟩
  simp only [expCtx] at hV
  have hVa := accepted_abs hV
  have huV : u = V := int_eq_of_cast_eq (p := p) eV (by have := abs_sub u V; linarith)
  subst huV
  refine Sound.bind (sound_rangeCheckInt h.range h.chunk_pos _ _) ?_
  rintro _ ⟨Z, hZ, eZ⟩
  simp only [expCtx] at hZ
  have hZa := accepted_abs hZ
  have huZ : u - 1 = Z := int_eq_of_cast_eq (p := p) (by push_cast; exact eZ) (by
    have h1 := abs_sub (u - 1) Z
    have h2 := abs_sub u 1
    rw [abs_one] at h2
    linarith)
  subst huZ
  refine Sound.bind (C43_exp_sound_partial h y) ?_
  rintro E ⟨Y, Y1, Y2, rfl, r, r1, r2, hE⟩
  have hdom : InSigned (lookupBits κ) Y := ⟨Y1, Y2⟩
  rw [scaleBits_pow] at r1 r2
  rw [expVal_eq] at hE
  have hr : |r| < reach rc.chunk (κ + 1) := accepted_abs (accepted_iff.2 ⟨r1, r2⟩)
  have hP : 0 ≤ expVal f κ Y := mul_nonneg (h.nonneg _) (h.nonneg _)
  have hPB := hB Y hdom
  refine sound_two_sided h.range h.chunk_pos ?_ ?_
  · simp only [expCtx]; push_cast
    have : 0 ≤ 2 ^ κ * |u| := by positivity
    have := reach_pos rc.chunk (κ + 1)
    linarith
  intro d ed d1 d2
  have e3 : (2 : Int) ^ (κ + 3) = 8 * 2 ^ κ := by rw [pow_add]; ring
  rw [e3] at d1 d2
  push_cast at d1
  refine Sound.pure ⟨hV, hZ, Y, rfl, hdom, ?_⟩
  have hd : |d - 2 * 2 ^ κ| < 6 * 2 ^ κ := by rw [abs_lt]; constructor <;> linarith
  have key : expVal f κ Y - 2 ^ κ * u = r + (d - 2 * 2 ^ κ) := by
    refine int_eq_of_cast_eq (p := p) ?_ ?_
    · simp only [expCtx, Int.cast_mul, Int.cast_add, Int.cast_sub, Int.cast_pow, Int.cast_ofNat, Nat.cast_mul,
        Nat.cast_pow, Nat.cast_ofNat] at ed hE ⊢
      linear_combination -hE + ed
    · have a1 : |expVal f κ Y - 2 ^ κ * u| ≤ B + 2 ^ κ * |u| := by
        refine le_trans (abs_sub _ _) ?_
        rw [abs_of_nonneg hP, abs_mul, abs_of_pos hpos]
        linarith
      have a2 := abs_add_le r (d - 2 * 2 ^ κ)
      have a3 := abs_sub (expVal f κ Y - 2 ^ κ * u) (r + (d - 2 * 2 ^ κ))
      have := reach_pos rc.chunk (κ + 3)
      linarith
  rw [key]
  have := abs_add_le r (d - 2 * 2 ^ κ)
  linarith

/-- **C60, Log, completeness.** The honest prover succeeds on a positive input when the quantised exponential of the
hint's value is at most two units off the input. -/
theorem C60_log_complete (h : ExpSetting p T (expCtx f rc th tl κ)) (hκ : κ < 32) (hκp : 2 ^ κ < p)
    (h1 : RangeUsable p rc (lookupBits κ / 2)) (h2 : RangeUsable p rc (κ + 1)) (h3 : RangeUsable p rc nb)
    (h4 : RangeUsable p rc (κ + 3)) {worst : Int} (hw : worst < 2 ^ (lookupBits κ - 1)) (x : Arr Int) (hx : x.WF)
    (Y : Int → Int)
    (hd : ∀ u ∈ x.data, 1 ≤ u ∧ u < 2 ^ nb ∧ InSigned (lookupBits κ) (Y u) ∧ expVal f κ (Y u) < p)
    (hY : ∀ u ∈ x.data, hint [(u : ZMod p), ((2 ^ κ : Nat) : ZMod p)] = .ok [((Y u : Int) : ZMod p)] ∧
      |expVal f κ (Y u) / 2 ^ κ - u| ≤ 2) :
    Complete T (logLayer hint f rc th tl κ nb worst (castArr p x)) (IsUnary x fun u w => w = (Y u : ZMod p)) := by
  have hpos : (0 : Int) < 2 ^ κ := by positivity
  unfold logLayer
  rw [if_neg (by omega), if_neg (by omega), show Nat.clog 2 (2 * (2 * 2 ^ κ)) + 1 = κ + 3 by
    rw [show 2 * (2 * 2 ^ κ) = 2 ^ (κ + 2) by ring, Nat.clog_pow 2 _ (by norm_num)]]
  refine complete_mapLayer hx fun u hm => ?_
  obtain ⟨u1, u2, u3, u4⟩ := hd u hm
  obtain ⟨y1, y2⟩ := hY u hm
  obtain ⟨y3, y4⟩ := abs_le.1 y2
  have e3 : (2 : Int) ^ (κ + 3) = 8 * 2 ^ κ := by rw [pow_add]; ring
  have m1 : -(2 * 2 ^ κ) ≤ (expVal f κ (Y u) / 2 ^ κ - u) * 2 ^ κ := by nlinarith
  have m2 : (expVal f κ (Y u) / 2 ^ κ - u) * 2 ^ κ ≤ 2 * 2 ^ κ := by nlinarith
  unfold logElem
  refine Complete.bind (Complete.newHint y1 rfl) ?_
  rintro _ rfl
  simp only [List.headD_cons]
  refine Complete.bind (h3.completeInt h.range (k := u) (by linarith) u2 rfl) fun _ _ => ?_
  refine Complete.bind (h3.completeInt h.range (k := u - 1) (by linarith) (by linarith) (by push_cast; ring))
    fun _ _ => ?_
  refine Complete.bind (complete_expInt h (by omega) hκp h1 h2 u3 u4) ?_
  rintro _ rfl
  refine Complete.bind (h4.completeInt h.range (k := (expVal f κ (Y u) / 2 ^ κ - u) * 2 ^ κ + 2 * 2 ^ κ)
    (by linarith) (by linarith) ?_) fun _ _ => ?_
  · simp only [expCtx, Int.cast_add, Int.cast_sub, Int.cast_mul, Int.cast_pow, Int.cast_ofNat, Nat.cast_mul,
      Nat.cast_pow, Nat.cast_ofNat]
    ring
  refine Complete.bind (h4.completeInt h.range
    (k := 4 * 2 ^ κ - ((expVal f κ (Y u) / 2 ^ κ - u) * 2 ^ κ + 2 * 2 ^ κ)) (by linarith) (by linarith) ?_) fun _ _ =>
    Complete.pure rfl
  simp only [expCtx, Int.cast_add, Int.cast_sub, Int.cast_mul, Int.cast_pow, Int.cast_ofNat, Nat.cast_mul,
    Nat.cast_pow, Nat.cast_ofNat]
  ring

/-- The layer refuses scale exponents of 32 and more, and those for which logarithms leave the look-up's domain. -/
theorem C60_log_refuses {worst : Int} (hbad : 32 ≤ κ ∨ 2 ^ (lookupBits κ - 1) ≤ worst) (x : Arr (ZMod p))
    (s : Hints (ZMod p)) : ∃ m, logLayer hint f rc th tl κ nb worst x s = .error (.err m) := by
  unfold logLayer
  split_ifs with hκ hw
  · exact ⟨_, rfl⟩
  · exact ⟨_, rfl⟩
  · omega

/-! ## Exp -/

/-- **C60, Exp, proved part.** Every accepted output times the scale is, in the field, the product of the table entries
up to less than `reach(κ+1)`; the input was in the look-up's domain. Missing: the output is never range-checked, so it
need not be an integer near the quotient, see `C60_exp_unsound`. -/
theorem C60_exp_sound_partial (h : ExpSetting p T (expCtx f rc th tl κ)) (x : Arr Int) (hx : x.WF)
    (hu : ∀ u ∈ x.data, |u| + 2 ^ lookupBits κ ≤ p) :
    Sound T (expLayer f rc th tl κ (castArr p x)) (IsUnary x fun u w => InSigned (lookupBits κ) u ∧
      ∃ r : Int, |r| < reach rc.chunk (κ + 1) ∧
        w * ((2 ^ κ : Nat) : ZMod p) + (r : ZMod p) = (expVal f κ u : ZMod p)) := by
  unfold expLayer
  split_ifs with hκ
  · exact Sound.throwErr
  refine sound_mapLayer hx fun u hm => (sound_expInt h (hu u hm)).conseq ?_
  rintro y ⟨h1, r, h2, h3⟩
  rw [scaleBits_pow] at h2
  rw [expVal_eq] at h3
  exact ⟨h1, r, h2, h3⟩

/-- **Findings on C60: no proof exists for large inputs of Exp.** The table has `min (κ + 6) 24` bits, whatever the scale:
inputs of `2^(min (κ+6) 24 - 1)` and more, or below its negative, have no proof. That is 32 in real terms up to
`κ = 18`, and less than that for larger scales. -/
theorem C60_exp_unprovable (h : ExpSetting p T (expCtx f rc th tl κ)) (x : Arr Int) {u : Int} (hm : u ∈ x.data)
    (hu : |u| + 2 ^ min (κ + 6) 24 ≤ p)
    (hbad : 2 ^ (min (κ + 6) 24 - 1) ≤ u ∨ u < -2 ^ (min (κ + 6) 24 - 1)) :
    Sound T (expLayer f rc th tl κ (castArr p x)) (fun _ => False) := by
  unfold expLayer
  split_ifs with hκ
  · exact Sound.throwErr
  rw [mapLayer_eq]
  refine Sound.bind (sound_collectG_false _ ⟨u, hm, ?_⟩) fun _ h => h.elim
  refine (sound_expInt h hu).conseq ?_
  rintro y ⟨⟨h1, h2⟩, -⟩
  change -2 ^ (min (κ + 6) 24 - 1) ≤ u at h1
  change u < 2 ^ (min (κ + 6) 24 - 1) at h2
  omega

/-- The layers refuse scale exponents of 64 and more. -/
theorem C60_exp_refuses (hκ : 64 ≤ κ) (x : Arr (ZMod p)) (s : Hints (ZMod p)) :
    expLayer f rc th tl κ x s = .error (.err "scale_exponent is too large to shift u64") ∧
    sigmoidLayer hint f rc th tl κ nb x s = .error (.err "scale_exponent is too large to shift u64") := by
  unfold expLayer sigmoidLayer
  rw [if_pos hκ, if_pos hκ]
  exact ⟨rfl, rfl⟩

/-- **C60, Exp, completeness.** On inputs in the domain the honest prover gets the quotient, rounded down. -/
theorem C60_exp_complete (h : ExpSetting p T (expCtx f rc th tl κ)) (hκ : κ < 64) (hκp : 2 ^ κ < p)
    (h1 : RangeUsable p rc (lookupBits κ / 2)) (h2 : RangeUsable p rc (κ + 1)) (x : Arr Int) (hx : x.WF)
    (hd : ∀ u ∈ x.data, InSigned (lookupBits κ) u ∧ expVal f κ u < p) :
    Complete T (expLayer f rc th tl κ (castArr p x)) (IsUnary x fun u w =>
      w = ((expVal f κ u / 2 ^ κ : Int) : ZMod p)) := by
  unfold expLayer
  rw [if_neg (by omega)]
  exact complete_mapLayer hx fun u hm => complete_expInt h hκ hκp h1 h2 (hd u hm).1 (hd u hm).2

/-- **C60 is false of Exp.** For every input tensor in the domain the prover can have accepted, at every position, any
of the field elements `(P - r) / α` with `0 ≤ r < 2^(κ+1)`. -/
theorem C60_exp_unsound (h : ExpSetting p T (expCtx f rc th tl κ)) (hκ : κ < 64) (hκp : 2 ^ κ < p)
    (h1 : RangeCallable rc (lookupBits κ / 2)) (h2 : RangeCallable rc (κ + 1)) (x : Arr Int) (hx : x.WF)
    (hd : ∀ u ∈ x.data, InSigned (lookupBits κ) u) (r : Int → Int) (hr : ∀ u ∈ x.data, 0 ≤ r u ∧ r u < 2 ^ (κ + 1)) :
    Forge T (expLayer f rc th tl κ (castArr p x)) (IsUnary x fun u w =>
      w = ((expVal f κ u - r u : Int) : ZMod p) / ((2 ^ κ : Nat) : ZMod p)) := by
  have hs : ((2 ^ κ : Nat) : ZMod p) ≠ 0 := by
    intro hc
    have := congrArg ZMod.val hc
    rw [ZMod.val_natCast, Nat.mod_eq_of_lt hκp, ZMod.val_zero] at this
    have : 0 < 2 ^ κ := by positivity
    omega
  unfold expLayer
  rw [if_neg (by omega)]
  refine forge_mapLayer hx fun u hm => ?_
  have k := forge_exp h hs h1 (by rw [scaleBits_pow]; exact h2) u (hd u hm).1 (hd u hm).2 (r u) (hr u hm).1
    (by rw [scaleBits_pow]; exact (hr u hm).2)
  exact k

end

/-! ## Concrete instances

BN254, 12-bit range digits, scale `2^18`, 40-bit values; the tabulated function is the staircase
`2^18 · 2^⌊x / 2^18⌋`. -/

def stairs (x : Int) : Int := 2 ^ (x / 2 ^ 18 + 18).toNat

def stairTables : Tables (ZMod bn254P) := fun tid r =>
  if tid = 1 then r ∈ signedRows bn254P (fun x => stairs (x * 2 ^ 12)) 12
  else if tid = 2 then r ∈ unsignedRows bn254P stairs 12
  else rangeTables bn254P ⟨0, 12⟩ tid r

theorem stair_setting : ExpSetting bn254P stairTables (expCtx stairs ⟨0, 12⟩ 1 2 18) where
  range := fun q => rangeTables_spec (p := bn254P) ⟨0, 12⟩ q
  chunk_pos := by norm_num [expCtx]
  tables := ⟨fun r => by simp [stairTables, expCtx, ExpCtx.highBits, ExpCtx.chunkBits, lookupBits],
    fun r => by simp [stairTables, expCtx, ExpCtx.chunkBits, lookupBits]⟩
  bits := by norm_num [expCtx, lookupBits]
  fits := by norm_num [expCtx, lookupBits, bn254P]
  nonneg := fun x => by simp only [expCtx, stairs]; positivity
  bounded := fun x _ h2 => by
    simp only [expCtx, lookupBits, stairs] at *
    norm_num at h2
    have h3 : (x / 2 ^ 18 + 18).toNat ≤ 50 := by
      have : x / 2 ^ 18 < 32 := Int.ediv_lt_of_lt_mul (by norm_num) (by omega)
      omega
    exact le_trans (pow_le_pow_right₀ (by norm_num) h3) (by norm_num [bn254P])

/-- The inputs -0.5, 1 and 2 at scale `2^18`. -/
def stairIn : Arr Int := ⟨[3], [-131072, 262144, 524288]⟩

def stairHint (g : Int → Int) (i : List (ZMod bn254P)) : Except Err (List (ZMod bn254P)) :=
  .ok [((g (fieldToI64 (i.headD 0)) : Int) : ZMod bn254P)]

example : Sound stairTables (sigmoidLayer (fun _ => .ok []) stairs ⟨0, 12⟩ 1 2 18 40 (castArr bn254P stairIn))
    (IsUnary stairIn fun u w => InSigned (lookupBits 18) (-u) ∧ ∃ Y : Int, w = (Y : ZMod bn254P) ∧
        -(reach 12 40 - 2 ^ 40) ≤ Y ∧ Y ≤ 2 ^ 18 + (reach 12 40 - 2 ^ 40) ∧
        IsQuotient ((2 ^ 18) ^ 3) ((2 ^ 18) ^ 2 + expVal stairs 18 (-u))
          (2 ^ 18 * reach 12 (18 + 2) + |Y| * reach 12 (18 + 1)) Y) :=
  C60_sigmoid_sound stair_setting (by norm_num) stairIn rfl (by decide +kernel)
    (fun u hm => by
      have : ∀ u ∈ stairIn.data, 2 * reach 12 40 + 2 ^ 18 < (bn254P : Int) ∧
          reach 12 40 * ((2 ^ 18) ^ 2 + expVal stairs 18 (-u) + reach 12 (18 + 1)) +
            2 ^ 18 * ((2 ^ 18) ^ 2 + 2 * 2 ^ 18 + reach 12 (18 + 2)) < (bn254P : Int) := by decide +kernel
      exact ⟨(this u hm).1, (this u hm).2⟩)

/-- No proof of a Sigmoid layer with the input -20. -/
example : Sound stairTables (sigmoidLayer (fun _ => .ok []) stairs ⟨0, 12⟩ 1 2 18 40
    (castArr bn254P ⟨[2], [262144, -5242880]⟩)) (fun _ => False) :=
  C60_sigmoid_unprovable stair_setting (by norm_num) ⟨[2], [262144, -5242880]⟩ (u := -5242880) (by decide)
    (by decide +kernel) ⟨by decide +kernel, by decide +kernel⟩ (.inr ⟨by decide +kernel, by decide +kernel⟩)

/-- With a hint that returns the nearest value, 7944 for `2^18 / 33`, the honest prover fails on the input -5. -/
example : Honest stairTables (sigmoidLayer (fun _ => .ok [((7944 : Int) : ZMod bn254P)]) stairs ⟨0, 12⟩ 1 2 18 40
    (castArr bn254P ⟨[1], [-1310720]⟩)) (fun _ => False) :=
  C60_sigmoid_honest_fails stair_setting (by norm_num) (by norm_num [bn254P])
    ⟨by decide +kernel, by decide +kernel, by decide +kernel, by decide +kernel, by decide +kernel, by decide +kernel⟩
    ⟨by decide +kernel, by decide +kernel, by decide +kernel, by decide +kernel, by decide +kernel, by decide +kernel⟩
    ⟨[1], [-1310720]⟩ (u := -1310720) (Y := 7944) (by decide) ⟨by decide +kernel, by decide +kernel⟩
    (by decide +kernel) rfl (by decide +kernel)
    (by rw [accepted_iff]; decide +kernel)

/-- Nearest values of `α² / (α + α 2^k)` for `k = 0, -1, -2`. -/
def stairSig (u : Int) : Int := if u = -131072 then 131072 else if u = 262144 then 174763 else 209715

example : Complete stairTables (sigmoidLayer (stairHint stairSig) stairs ⟨0, 12⟩ 1 2 18 40 (castArr bn254P stairIn))
    (IsUnary stairIn fun u w => w = (stairSig u : ZMod bn254P)) :=
  C60_sigmoid_complete_nearest stair_setting (by norm_num) (by norm_num [bn254P])
    ⟨by decide +kernel, by decide +kernel, by decide +kernel, by decide +kernel, by decide +kernel, by decide +kernel⟩
    ⟨by decide +kernel, by decide +kernel, by decide +kernel, by decide +kernel, by decide +kernel, by decide +kernel⟩
    ⟨by decide +kernel, by decide +kernel, by decide +kernel, by decide +kernel, by decide +kernel, by decide +kernel⟩
    ⟨by decide +kernel, by decide +kernel, by decide +kernel, by decide +kernel, by decide +kernel, by decide +kernel⟩
    (by norm_num) stairIn rfl stairSig
    (fun u hm => by
      have : ∀ u ∈ stairIn.data, (-2 ^ (lookupBits 18 - 1) ≤ -u ∧ -u < 2 ^ (lookupBits 18 - 1)) ∧
        expVal stairs 18 (-u) < (bn254P : Int) ∧ expVal stairs 18 (-u) / 2 ^ 18 < 3 * 2 ^ 18 := by decide +kernel
      exact this u hm)
    (fun u hm => by
      have : ∀ u ∈ stairIn.data, 0 ≤ stairSig u ∧ stairSig u ≤ 2 ^ 18 ∧
        |2 * (stairSig u * (2 ^ 18 + expVal stairs 18 (-u) / 2 ^ 18) - (2 ^ 18) ^ 2)| ≤
          2 ^ 18 + expVal stairs 18 (-u) / 2 ^ 18 := by decide +kernel
      refine ⟨?_, this u hm⟩
      have hs : ∀ u ∈ stairIn.data, u.natAbs < 2 ^ 63 ∧ 2 * u.natAbs < bn254P := by decide +kernel
      simp only [stairHint, List.headD_cons]
      rw [fieldToI64_cast u (hs u hm).1 (hs u hm).2])

example : Sound stairTables (tanhLayer (fun _ => .ok []) stairs ⟨0, 12⟩ 1 2 18 40 (castArr bn254P stairIn))
    (IsUnary stairIn fun u w => InSigned (lookupBits 18) (2 * u) ∧ ∃ Y : Int, w = (Y : ZMod bn254P) ∧
        -2 ^ 18 - (reach 12 (40 + 1) - 2 ^ (40 + 1)) ≤ Y ∧ Y ≤ 2 ^ 18 + (reach 12 (40 + 1) - 2 ^ (40 + 1)) ∧
        IsQuotient (2 ^ 18 * (expVal stairs 18 (2 * u) - (2 ^ 18) ^ 2)) (expVal stairs 18 (2 * u) + (2 ^ 18) ^ 2)
          (5 * (2 ^ 18) ^ 2 + |Y - 2 ^ 18| * reach 12 (18 + 1)) Y) :=
  C60_tanh_sound stair_setting stairIn rfl (by decide +kernel)
    (fun u hm => by
      have : ∀ u ∈ stairIn.data, 2 * reach 12 (40 + 1) + 2 * 2 ^ 18 < (bn254P : Int) ∧
          6 * 2 ^ 18 + 2 * reach 12 (18 + 3) < (bn254P : Int) ∧
          (reach 12 (40 + 1) + 2 * 2 ^ 18) * (expVal stairs 18 (2 * u) + (2 ^ 18) ^ 2 + reach 12 (18 + 1)) +
            2 ^ 18 * (2 * (2 ^ 18) ^ 2 + 5 * 2 ^ 18) < (bn254P : Int) := by decide +kernel
      exact ⟨(this u hm).1, (this u hm).2.1, (this u hm).2.2⟩)

/-- No proof of a Tanh layer with the input 10. -/
example : Sound stairTables (tanhLayer (fun _ => .ok []) stairs ⟨0, 12⟩ 1 2 18 40
    (castArr bn254P ⟨[2], [262144, 2621440]⟩)) (fun _ => False) :=
  C60_tanh_unprovable stair_setting ⟨[2], [262144, 2621440]⟩ (u := 2621440) (by decide)
    (by decide +kernel) ⟨by decide +kernel, by decide +kernel, by decide +kernel⟩
    (.inr ⟨by decide +kernel, by decide +kernel⟩)

/-- Nearest values of `α (2^k - 1) / (2^k + 1)` for `k = -1, 2, 4`. -/
def stairTanh (u : Int) : Int := if u = -131072 then -87381 else if u = 262144 then 157286 else 231304

example : Complete stairTables (tanhLayer (stairHint stairTanh) stairs ⟨0, 12⟩ 1 2 18 40
    (castArr bn254P ⟨[2], [-131072, 262144]⟩))
    (IsUnary ⟨[2], [-131072, 262144]⟩ fun u w => w = (stairTanh u : ZMod bn254P)) :=
  C60_tanh_complete stair_setting (by norm_num) (by norm_num [bn254P])
    ⟨by decide +kernel, by decide +kernel, by decide +kernel, by decide +kernel, by decide +kernel, by decide +kernel⟩
    ⟨by decide +kernel, by decide +kernel, by decide +kernel, by decide +kernel, by decide +kernel, by decide +kernel⟩
    ⟨by decide +kernel, by decide +kernel, by decide +kernel, by decide +kernel, by decide +kernel, by decide +kernel⟩
    ⟨by decide +kernel, by decide +kernel, by decide +kernel, by decide +kernel, by decide +kernel, by decide +kernel⟩
    (by norm_num) ⟨[2], [-131072, 262144]⟩ rfl stairTanh
    (fun u hm => by
      have : ∀ u ∈ [(-131072 : Int), 262144], (-2 ^ (lookupBits 18 - 1) ≤ 2 * u ∧ 2 * u < 2 ^ (lookupBits 18 - 1)) ∧
        expVal stairs 18 (2 * u) < (bn254P : Int) := by decide +kernel
      exact this u hm)
    (fun u hm => by
      have : ∀ u ∈ [(-131072 : Int), 262144], |stairTanh u| ≤ 2 ^ 18 ∧
        |stairTanh u * (expVal stairs 18 (2 * u) / 2 ^ 18 + 2 ^ 18) -
          (expVal stairs 18 (2 * u) / 2 ^ 18 - 2 ^ 18) * 2 ^ 18| ≤ 3 * 2 ^ 18 := by decide +kernel
      refine ⟨?_, this u hm⟩
      have hs : ∀ u ∈ [(-131072 : Int), 262144], u.natAbs < 2 ^ 63 ∧ 2 * u.natAbs < bn254P := by decide +kernel
      simp only [stairHint, List.headD_cons]
      rw [fieldToI64_cast u (hs u hm).1 (hs u hm).2])

example : Sound stairTables (logLayer (fun _ => .ok []) stairs ⟨0, 12⟩ 1 2 18 40 3270686
    (castArr bn254P ⟨[2], [262144, 1048576]⟩))
    (IsUnary ⟨[2], [262144, 1048576]⟩ fun u w => AcceptedInt 12 40 u ∧ AcceptedInt 12 40 (u - 1) ∧
      ∃ Y : Int, w = (Y : ZMod bn254P) ∧ InSigned (lookupBits 18) Y ∧
        |expVal stairs 18 Y - 2 ^ 18 * u| < reach 12 (18 + 1) + 6 * 2 ^ 18) :=
  C60_log_sound stair_setting 3270686 ⟨[2], [262144, 1048576]⟩ rfl (B := 2 ^ 100)
    (fun Y hY => by
      have h1 : ∀ a : Int, a < 2 ^ 23 → stairs a ≤ 2 ^ 50 := fun a ha => by
        unfold stairs
        refine pow_le_pow_right₀ (by norm_num) ?_
        have : a / 2 ^ 18 < 32 := Int.ediv_lt_of_lt_mul (by norm_num) (by omega)
        omega
      have h0 : ∀ a : Int, 0 ≤ stairs a := fun a => by unfold stairs; positivity
      have hY2 : Y < 2 ^ 23 := hY.2
      have h2 := h1 (Y / 2 ^ 12 * 2 ^ 12) (lt_of_le_of_lt (Int.ediv_mul_le Y (by norm_num)) hY2)
      have h3 := h1 (Y % 2 ^ 12) (lt_trans (Int.emod_lt_of_pos Y (by norm_num)) (by norm_num))
      have := mul_le_mul h2 h3 (h0 _) (by norm_num)
      exact le_trans this (by norm_num))
    (by decide +kernel)

/-- `log 1 = 0` and `log 4 = 2` on the staircase. -/
def stairLog (u : Int) : Int := if u = 262144 then 0 else 524288

example : Complete stairTables (logLayer (stairHint stairLog) stairs ⟨0, 12⟩ 1 2 18 40
    3270686 (castArr bn254P ⟨[2], [262144, 1048576]⟩))
    (IsUnary ⟨[2], [262144, 1048576]⟩ fun u w => w = (stairLog u : ZMod bn254P)) :=
  C60_log_complete (nb := 40) (worst := 3270686) stair_setting (by norm_num) (by norm_num [bn254P])
    ⟨by decide +kernel, by decide +kernel, by decide +kernel, by decide +kernel, by decide +kernel, by decide +kernel⟩
    ⟨by decide +kernel, by decide +kernel, by decide +kernel, by decide +kernel, by decide +kernel, by decide +kernel⟩
    ⟨by decide +kernel, by decide +kernel, by decide +kernel, by decide +kernel, by decide +kernel, by decide +kernel⟩
    ⟨by decide +kernel, by decide +kernel, by decide +kernel, by decide +kernel, by decide +kernel, by decide +kernel⟩
    (by decide +kernel) ⟨[2], [262144, 1048576]⟩ rfl stairLog
    (fun u hm => by
      have : ∀ u ∈ [(262144 : Int), 1048576], 1 ≤ u ∧ u < 2 ^ 40 ∧
        (-2 ^ (lookupBits 18 - 1) ≤ stairLog u ∧ stairLog u < 2 ^ (lookupBits 18 - 1)) ∧
        expVal stairs 18 (stairLog u) < (bn254P : Int) := by decide +kernel
      exact this u hm)
    (fun u hm => by
      have : ∀ u ∈ [(262144 : Int), 1048576], |expVal stairs 18 (stairLog u) / 2 ^ 18 - u| ≤ 2 := by decide +kernel
      refine ⟨?_, this u hm⟩
      have hs : ∀ u ∈ [(262144 : Int), 1048576], u.natAbs < 2 ^ 63 ∧ 2 * u.natAbs < bn254P := by decide +kernel
      simp only [stairHint, List.headD_cons]
      rw [fieldToI64_cast u (hs u hm).1 (hs u hm).2])

example : Forge stairTables (expLayer stairs ⟨0, 12⟩ 1 2 18 (castArr bn254P stairIn)) (IsUnary stairIn fun u w =>
      w = ((expVal stairs 18 u - 1 : Int) : ZMod bn254P) / ((2 ^ 18 : Nat) : ZMod bn254P)) :=
  C60_exp_unsound stair_setting (by norm_num) (by norm_num [bn254P])
    ⟨by decide +kernel, by decide +kernel, by decide +kernel, by decide +kernel, by decide +kernel⟩
    ⟨by decide +kernel, by decide +kernel, by decide +kernel, by decide +kernel, by decide +kernel⟩
    stairIn rfl (fun u hm => by
      have : ∀ u ∈ stairIn.data, -2 ^ (lookupBits 18 - 1) ≤ u ∧ u < 2 ^ (lookupBits 18 - 1) := by decide +kernel
      exact this u hm) (fun _ => 1) (fun _ _ => by decide)

example : Complete stairTables (expLayer stairs ⟨0, 12⟩ 1 2 18 (castArr bn254P stairIn)) (IsUnary stairIn fun u w =>
      w = ((expVal stairs 18 u / 2 ^ 18 : Int) : ZMod bn254P)) :=
  C60_exp_complete stair_setting (by norm_num) (by norm_num [bn254P])
    ⟨by decide +kernel, by decide +kernel, by decide +kernel, by decide +kernel, by decide +kernel, by decide +kernel⟩
    ⟨by decide +kernel, by decide +kernel, by decide +kernel, by decide +kernel, by decide +kernel, by decide +kernel⟩
    stairIn rfl (fun u hm => by
      have : ∀ u ∈ stairIn.data, (-2 ^ (lookupBits 18 - 1) ≤ u ∧ u < 2 ^ (lookupBits 18 - 1)) ∧
        expVal stairs 18 u < (bn254P : Int) := by decide +kernel
      exact this u hm)

/-- 32, at scale `2^18`, has no proof. -/
example : Sound stairTables (expLayer stairs ⟨0, 12⟩ 1 2 18 (castArr bn254P ⟨[1], [8388608]⟩)) (fun _ => False) :=
  C60_exp_unprovable stair_setting ⟨[1], [8388608]⟩ (u := 8388608) (by decide) (by decide +kernel)
    (.inl (by decide +kernel))

end JST.Props
