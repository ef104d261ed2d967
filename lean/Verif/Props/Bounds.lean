import Verif.Quant.BoundProofs
import Verif.Props.Gadgets
import Verif.Zkvm.Canonical

/-!
# C41: activation bounds and bit widths

`JST.Quant.computeBounds` models `compute_bounds`; `JST.Quant.run` (in `Verif/Quant/Sem.lean`) is the
independent meaning of the operators, over real numbers and for inputs in `[-1, 1]`.
-/

namespace JST.Props

open JST.Quant

/-- **C41, positive part.** For every model with distinct layer names, if each layer meets its guard
(see `Guard`: the conditions the bound computation forgets to take into account), then every tensor
stays within its computed bound, and every value `y` produced by a layer that gets a bit width `k`
satisfies `|alpha * y| ≤ 2^(k-1)`. Missing from the full property: the guards, the strict inequality
needed on the positive side, and the rounding of quantised weights. Each is refuted below. -/
theorem C41_bounds_sound_partial {alpha : ℝ} (ha : 0 < alpha) (inputs : List String)
    (layers : List Node) (bounds : Env ℝ) (nbits : Env Nat)
    (hnd : (layers.map (·.name)).Nodup)
    (hc : computeBounds alpha inputs layers = some (bounds, nbits))
    (hg : Guards alpha (inputs.map (fun n => (n, 1)), [])
      (inputs.map (fun n => (n, {x | |x| ≤ 1})), []) layers) :
    (∀ tensor b S, bounds.get tensor = some b → (run alpha inputs layers).1.get tensor = some S →
      ∀ y ∈ S, |y| ≤ b) ∧
    (∀ layer k S, nbits.get layer = some k → (layer, S) ∈ (run alpha inputs layers).2 →
      ∀ y ∈ S, |alpha * y| ≤ 2 ^ (k - 1)) := by
  have hA : Agree (inputs.map (fun n => (n, (1 : ℝ)))) (inputs.map (fun n => (n, {x : ℝ | |x| ≤ 1}))) := by
    have h0 : Agree ([] : Env ℝ) ([] : Env (Set ℝ)) := fun k => .inl ⟨rfl, rfl⟩
    have := h0.outputs (b := 1) (S := {x : ℝ | |x| ≤ 1}) zero_le_one (fun x hx => hx) inputs
    simpa using this
  obtain ⟨h1, h2⟩ := bounds_fold ha layers _ _ _ hA
    (by intro n k S h; simp [Env.get] at h) (by simp) hg hnd (by simp) hc
  refine ⟨fun t b S hb hS y hy => ?_, fun l k S hk hS => h2 l k S hk hS⟩
  rcases h1 t with ⟨h, _⟩ | ⟨b', S', h3, h4, _, h5⟩
  · simp only at h; rw [h] at hb; cases hb
  · simp only at h3; rw [h3] at hb
    cases hb
    have : run alpha inputs layers = _ := rfl
    unfold run at hS
    rw [h4] at hS
    cases hS
    exact h5 y hy

/-- A two-layer model: `y = 3 x₀ - x₁ + 2`, then ReLU. -/
noncomputable def twoLayers : List Node :=
  [⟨"fc", .gemm false [3, -1] 2 1 [2], ["x"], [], ["y"], true⟩,
   ⟨"act", .relu, ["y"], [], ["z"], false⟩]

/-- Hypotheses met: the bounds of `twoLayers` are computed, its guards hold. -/
example {alpha : ℝ} : (computeBounds alpha ["x"] twoLayers).isSome ∧
    (twoLayers.map (·.name)).Nodup ∧
    Guards alpha ([("x", 1)], []) ([("x", {x | |x| ≤ 1})], []) twoLayers := by
  refine ⟨?_, by decide, ?_⟩
  · simp [computeBounds, twoLayers, boundStep, layerBound, List.foldlM]
  · simp [Guards, twoLayers, Guard]

/-- The bound of that first layer is the expected `|3| + |-1| + |2| = 6`. -/
example (alpha : ℝ) : layerBound alpha (fun _ => 1) 1 (.gemm false [3, -1] 2 1 [2]) = some 6 := by
  simp [layerBound, maxOf, maxAbs, l1, colOf, List.range_succ]
  norm_num

/-! ## Bit width -/

/-- The bit width is the least that works, up to one bit: `2^(k-2)` no longer covers the bound. -/
theorem C41_width_tight {alpha b : ℝ} (h : 1 < |alpha * b|) :
    (2 : ℝ) ^ (computeNBits alpha b - 1) < 2 * |alpha * b| := by
  unfold computeNBits
  rw [if_neg (not_le.mpr h), Nat.add_sub_cancel]
  have h0 : 0 < |alpha * b| := by linarith
  have hl : 0 ≤ Real.logb 2 |alpha * b| := Real.logb_nonneg (by norm_num) h.le
  have h1 := Nat.ceil_lt_add_one hl
  calc (2 : ℝ) ^ ⌈Real.logb 2 |alpha * b|⌉₊ = (2 : ℝ) ^ ((⌈Real.logb 2 |alpha * b|⌉₊ : Nat) : ℝ) :=
        (Real.rpow_natCast _ _).symm
    _ < (2 : ℝ) ^ (Real.logb 2 |alpha * b| + 1) :=
        Real.rpow_lt_rpow_of_exponent_lt (by norm_num) h1
    _ = 2 * |alpha * b| := by
        rw [Real.rpow_add (by norm_num), Real.rpow_logb (by norm_num) (by norm_num) h0, Real.rpow_one,
          mul_comm]

/-- The width for a bound that is exactly a power of two after scaling. -/
theorem computeNBits_pow (κ : Nat) (hκ : 0 < κ) : computeNBits (2 ^ κ) 1 = κ + 1 := by
  unfold computeNBits
  have h : |(2 : ℝ) ^ κ * 1| = 2 ^ κ := by rw [mul_one, abs_of_pos (by positivity)]
  rw [h, if_neg (not_le.mpr (one_lt_pow₀ (by norm_num) (by omega)))]
  congr 1
  rw [← Real.rpow_natCast, Real.logb_rpow (by norm_num) (by norm_num), Nat.ceil_natCast]

/-- **The width is one bit short at the boundary.** Rescaling a product whose quotient is exactly
`2^s` is impossible: whatever the hints and the chunk width, no assignment satisfies the constraints. -/
theorem rescale_boundary_unsat {p : Nat} [NeZero p] [Fact p.Prime] {T : Tables (ZMod p)} {rc : RangeCtx}
    (hT : IsRangeTable T rc) (hc : 0 < rc.chunk) (κ s : Nat) (hp : 2 ^ (κ + s + rc.chunk + 2) ≤ p) :
    Sound T (rescaleArray rc [((2 ^ κ * 2 ^ s : Int) : ZMod p)] κ s false) (fun _ => False) := by
  unfold rescaleArray RescaleCtx.new
  split_ifs with h1 h2
  · exact Sound.bind (Sound.throwErr (Q := fun _ => False)) (fun _ h => h.elim)
  · exact Sound.bind (Sound.throwErr (Q := fun _ => False)) (fun _ h => h.elim)
  refine Sound.bind (Sound.pure (Q := fun c => c = (⟨κ, s, ((2 ^ κ : Nat) : ZMod p),
      ((2 ^ s : Nat) : ZMod p), ((2 ^ κ * 2 ^ s : Nat) : ZMod p)⟩ : RescaleCtx p)) rfl) ?_
  rintro _ rfl
  have hmain : Sound T (rescale (⟨κ, s, ((2 ^ κ : Nat) : ZMod p), ((2 ^ s : Nat) : ZMod p),
      ((2 ^ κ * 2 ^ s : Nat) : ZMod p)⟩ : RescaleCtx p) rc ((2 ^ κ * 2 ^ s : Int) : ZMod p) false)
      (fun _ => False) := by
    unfold rescale
    simp only [Bool.not_false, Bool.false_eq_true, if_false]
    refine Sound.bind (Q := fun _ => False) (P := fun _ => False) ?_ (fun _ h => h.elim)
    unfold divPow2Inner
    simp only [if_true]
    refine sound_hint2.bind fun q _ => sound_hint2.bind fun r _ => Sound.assertEq.bind fun _ he => ?_
    refine (sound_rangeCheck_exact hT hc r κ).bind fun _ hr => ?_
    refine (sound_rangeCheck_exact hT hc q (s + 1)).bind fun _ hq => ?_
    obtain ⟨R, hR1, hR2, rfl⟩ := hr
    obtain ⟨Q, hQ1, hQ2, rfl⟩ := hq
    exfalso
    have hslack : ∀ n, slackBits rc.chunk n ≤ rc.chunk - 1 := by
      intro n
      unfold slackBits
      have := Nat.mod_lt n hc
      split_ifs <;> omega
    have e : ((2 ^ κ * 2 ^ (s + 1) : Int) : ZMod p) = ((2 ^ κ * Q + R : Int) : ZMod p) := by
      have := he
      push_cast at this ⊢
      rw [← this]; ring
    have hA : (2 : Int) ^ (s + 1 + slackBits rc.chunk (s + 1)) ≤ 2 ^ (s + rc.chunk) :=
      pow_le_pow_right₀ (by norm_num) (by have := hslack (s + 1); omega)
    have hB : (2 : Int) ^ (κ + slackBits rc.chunk κ) ≤ 2 ^ (κ + (s + rc.chunk)) :=
      pow_le_pow_right₀ (by norm_num) (by have := hslack κ; omega)
    have hC : (2 : Int) ^ (κ + (s + 1)) ≤ 2 ^ (κ + (s + rc.chunk)) :=
      pow_le_pow_right₀ (by norm_num) (by omega)
    have hκ0 : (0 : Int) < 2 ^ κ := by positivity
    have hp' : (4 : Int) * 2 ^ (κ + (s + rc.chunk)) ≤ p := by
      have : (4 : Int) * 2 ^ (κ + (s + rc.chunk)) = ((2 ^ (κ + s + rc.chunk + 2) : Nat) : Int) := by
        push_cast; rw [show κ + s + rc.chunk + 2 = 2 + (κ + (s + rc.chunk)) by omega, pow_add 2 2]; norm_num
      rw [this]; exact_mod_cast hp
    have hQlo : -(2 : Int) ^ (κ + (s + rc.chunk)) ≤ 2 ^ κ * Q := by
      rw [pow_add, ← mul_neg]
      refine mul_le_mul_of_nonneg_left ?_ hκ0.le
      have : (0 : Int) < 2 ^ (s + 1) := by positivity
      linarith
    have hQhi : (2 : Int) ^ κ * Q ≤ 2 ^ κ * 2 ^ (s + 1) - 2 ^ κ := by
      have : (2 : Int) ^ κ * Q ≤ 2 ^ κ * (2 ^ (s + 1) - 1) :=
        mul_le_mul_of_nonneg_left (by linarith) hκ0.le
      linarith
    have hlt : (2 : Int) ^ κ * Q + R < 2 ^ κ * 2 ^ (s + 1) := by linarith
    have hpow : (2 : Int) ^ κ * 2 ^ (s + 1) = 2 ^ (κ + (s + 1)) := (pow_add _ _ _).symm
    have hbig : (0 : Int) < 2 ^ (κ + (s + rc.chunk)) := by positivity
    have := int_eq_of_cast_eq e (by
      rw [abs_lt]
      constructor <;> linarith)
    linarith
  unfold mapG
  exact hmain.bind fun _ h => h.elim

/-- **C41 fails at the boundary.** For `alpha = 2^κ` a product layer with inputs bounded by one gets
the width `κ + 1`. The inputs `1.0` and `1.0` are in range, their product is `1.0`, yet no proof exists:
the layer's rescaling constraints have no satisfying assignment. -/
theorem C41_one_times_one_unprovable {p : Nat} [NeZero p] [Fact p.Prime] {T : Tables (ZMod p)} {rc : RangeCtx}
    (hT : IsRangeTable T rc) (hc : 0 < rc.chunk) (κ : Nat) (hκ : 0 < κ)
    (hp : 2 ^ (κ + κ + rc.chunk + 2) ≤ p) :
    layerBound (2 ^ κ) (fun _ => 1) 2 .mul = some 1 ∧
    OutElem (2 ^ κ) (fun _ => {x | |x| ≤ 1}) 2 .mul 1 ∧
    Sound T (rescaleArray rc [((2 ^ κ * 2 ^ κ : Int) : ZMod p)] κ (computeNBits (2 ^ κ) 1 - 1) false)
      (fun _ => False) := by
  refine ⟨by simp [layerBound], ⟨1, by simp, 1, by simp, by norm_num⟩, ?_⟩
  rw [computeNBits_pow κ hκ, Nat.add_sub_cancel]
  exact rescale_boundary_unsat hT hc κ κ hp

/-- Hypotheses met by the default configuration: `alpha = 2^18`, chunk width 12, BN254. -/
example : Sound (rangeTables bn254P ⟨0, 12⟩)
    (rescaleArray ⟨0, 12⟩ [((2 ^ 18 * 2 ^ 18 : Int) : ZMod bn254P)] 18 (computeNBits (2 ^ 18) 1 - 1) false)
    (fun _ => False) :=
  (C41_one_times_one_unprovable (rangeTables_spec _) (by norm_num) 18 (by norm_num)
    (by norm_num [bn254P])).2.2

/-! ## The guards are necessary -/

/-- **`Max` ignores its other inputs.** Whenever another input can exceed the first input's bound, so can
the output. -/
theorem C41_max_unsound {alpha : ℝ} {m : Nat → ℝ} (h : m 0 < m 1) (h0 : 0 ≤ m 0) :
    ∃ b y, layerBound alpha m 2 .max = some b ∧ OutElem alpha (fun i => {x | |x| ≤ m i}) 2 .max y ∧
      b < |y| := by
  refine ⟨m 0, m 1, rfl, ⟨1, by norm_num, m, ?_, ?_, rfl⟩, ?_⟩
  · intro j hj
    have : j = 0 ∨ j = 1 := by omega
    rcases this with rfl | rfl
    · simp [abs_of_nonneg h0]
    · simp [abs_of_nonneg (h0.trans h.le)]
  · intro j hj
    have : j = 0 ∨ j = 1 := by omega
    rcases this with rfl | rfl
    · exact h.le
    · exact le_rfl
  · exact h.trans_le (le_abs_self _)

/-- **`Min` ignores its other inputs**, likewise. -/
theorem C41_min_unsound {alpha : ℝ} {m : Nat → ℝ} (h : m 0 < m 1) (h0 : 0 ≤ m 0) :
    ∃ b y, layerBound alpha m 2 .min = some b ∧ OutElem alpha (fun i => {x | |x| ≤ m i}) 2 .min y ∧
      b < |y| := by
  refine ⟨m 0, -m 1, rfl, ⟨1, by norm_num, fun i => -m i, ?_, ?_, rfl⟩, ?_⟩
  · intro j hj
    have : j = 0 ∨ j = 1 := by omega
    rcases this with rfl | rfl
    · simp [abs_of_nonneg h0]
    · simp [abs_of_nonneg (h0.trans h.le)]
  · intro j hj
    have : j = 0 ∨ j = 1 := by omega
    rcases this with rfl | rfl
    · simpa using h.le
    · exact le_rfl
  · rw [abs_neg]; exact h.trans_le (le_abs_self _)

/-- **`Clip` ignores its limits**: a lower limit above the input bound is returned. -/
theorem C41_clip_unsound {alpha : ℝ} {m : Nat → ℝ} {lo hi : ℝ} (h0 : 0 ≤ m 0) (h : m 0 < lo)
    (hh : lo ≤ hi) :
    ∃ b y, layerBound alpha m 1 (.clip lo hi) = some b ∧
      OutElem alpha (fun i => {x | |x| ≤ m i}) 1 (.clip lo hi) y ∧ b < |y| :=
  ⟨m 0, lo, rfl, ⟨0, by simpa using h0, by
    rw [max_eq_left (h0.trans h.le), min_eq_right hh]⟩, h.trans_le (le_abs_self _)⟩

/-- **Constants are bounded by one whatever they are.** -/
theorem C41_constant_unsound {alpha : ℝ} {m : Nat → ℝ} {S : Nat → Set ℝ} {v : ℝ} (h : 1 < |v|) :
    (layerBound alpha m 0 (.constant [v]) = some 1 ∧ OutElem alpha S 0 (.constant [v]) v ∧ 1 < |v|) ∧
    (layerBound alpha m 1 (.constantOfShape v) = some 1 ∧ OutElem alpha S 1 (.constantOfShape v) v) :=
  ⟨⟨rfl, List.mem_singleton.mpr rfl, h⟩, rfl, rfl⟩

/-- **`Range` counts beyond its bound.** -/
theorem C41_range_unsound {alpha : ℝ} {m : Nat → ℝ} {S : Nat → Set ℝ} {n : Nat} (h : 2 < n) :
    layerBound alpha m 3 (.range n) = some 1 ∧
    ∃ y, OutElem alpha S 3 (.range n) y ∧ 1 < |y| :=
  ⟨rfl, 2, ⟨2, h, by norm_num⟩, by norm_num⟩

/-- **Division by a run-time tensor amplifies**: the bound stays that of the dividend although the divisor
can be any small non-zero number. -/
theorem C41_div_unsound {alpha : ℝ} {m : Nat → ℝ} (h0 : 0 < m 0) (h1 : 0 < m 1) :
    ∃ b y, layerBound alpha m 2 .divDyn = some b ∧
      OutElem alpha (fun i => {x | |x| ≤ m i}) 2 .divDyn y ∧ b < |y| := by
  have hd : 0 < min (m 1) (1 / 2) := lt_min h1 (by norm_num)
  refine ⟨m 0 / 1, m 0 / min (m 1) (1 / 2), rfl,
    ⟨m 0, by simp [abs_of_pos h0], min (m 1) (1 / 2), ?_, hd.ne', rfl⟩, ?_⟩
  · simp only [Set.mem_ofPred_eq, abs_of_pos hd]
    exact min_le_left _ _
  · rw [abs_of_pos (div_pos h0 hd), div_lt_div_iff_of_pos_left h0 one_pos hd]
    exact lt_of_le_of_lt (min_le_right _ _) (by norm_num)

/-- A whole model whose computed width is too small: a constant `c` followed by ReLU. The ReLU layer is
given the width of the value one. -/
theorem C41_constant_model_unsound {alpha c : ℝ} (hc : 1 < c) :
    ∃ bounds nbits S, computeBounds alpha [] [⟨"c", .constant [c], [], [], ["t"], false⟩,
        ⟨"relu", .relu, ["t"], [], ["y"], false⟩] = some (bounds, nbits) ∧
      nbits.get "relu" = some (computeNBits alpha 1) ∧
      ("relu", S) ∈ (run alpha [] [⟨"c", .constant [c], [], [], ["t"], false⟩,
        ⟨"relu", .relu, ["t"], [], ["y"], false⟩]).2 ∧ c ∈ S := by
  refine ⟨[("y", 1), ("t", 1)], [("relu", computeNBits alpha 1)],
    {y | OutElem alpha (inElems ⟨"relu", .relu, ["t"], [], ["y"], false⟩
      [("t", {y | OutElem alpha (inElems ⟨"c", .constant [c], [], [], ["t"], false⟩ []) 0
        (.constant [c]) y})]) 1 .relu y}, ?_, ?_, ?_, ?_⟩
  · simp [computeBounds, boundStep, layerBound, getInputBound, Env.get, isRangeCheckOp]
  · simp [Env.get]
  · simp only [run, runStep, List.foldl_cons, List.foldl_nil, List.mem_cons]
    exact .inl rfl
  · refine ⟨c, ?_, (max_eq_left (by linarith)).symm⟩
    simp [inElems, Env.get, OutElem]

/-! ## Weight rounding -/

/-- `f64::round`: half away from zero. -/
noncomputable def rustRound (x : ℝ) : ℤ := if 0 ≤ x then ⌊x + 1 / 2⌋ else ⌈x - 1 / 2⌉

/-- `quantize_layer_weights`, `quantizer.rs:153-174`, for one weight and scale factor one. -/
noncomputable def quantizeWeight (alpha w : ℝ) : ℤ := rustRound (w * alpha)

/-- **Rounding the weights breaks the bound.** The bounds are computed from the weights before rounding.
`2^(j+1)` weights of half a quantum each round up to one quantum: the layer's output on the input `1.0`
is twice the computed bound, and its rescaled value is `2^(j+1)` where the width allows at most `2^j`. -/
theorem C41_rounding_unsound {κ j : Nat} (hj : 0 < j) :
    let alpha : ℝ := 2 ^ κ
    let w : List ℝ := List.replicate (2 ^ (j + 1)) (1 / (2 * alpha))
    let xq : List ℤ := List.replicate (2 ^ (j + 1)) (2 ^ κ)
    ∃ b, layerBound alpha (fun _ => 1) 1 (.gemm true w 1 (2 ^ (j + 1)) []) = some b ∧
      computeNBits alpha b = j + 1 ∧
      (List.zipWith (· * ·) xq (w.map (quantizeWeight alpha))).sum / 2 ^ κ = 2 ^ (j + 1) := by
  intro alpha w xq
  have ha : (0 : ℝ) < alpha := by positivity
  have hq : w.map (quantizeWeight alpha) = List.replicate (2 ^ (j + 1)) 1 := by
    simp only [w, List.map_replicate]
    congr 1
    unfold quantizeWeight rustRound
    have : 1 / (2 * alpha) * alpha = 1 / 2 := by field_simp
    rw [this, if_pos (by norm_num)]
    norm_num
  refine ⟨2 ^ j / alpha, ?_, ?_, ?_⟩
  · have hl : w.length = 2 ^ (j + 1) := by simp [w]
    have hne : w ≠ [] := by
      intro h; rw [h] at hl; exact absurd hl (ne_of_lt (by positivity))
    simp only [layerBound, maxOutputChannelL1, hl, Nat.mod_one, Nat.div_one]
    rw [if_neg (by simp [hne]), if_neg (by simp)]
    simp only [Option.map_some, List.range_one, List.map_cons, List.map_nil, maxOf, List.foldr_cons,
      List.foldr_nil, rowOf, Nat.zero_mul, List.drop_zero, maxAbs]
    have : l1 (w.take (2 ^ (j + 1))) = 2 ^ j / alpha := by
      rw [← hl, List.take_length]
      simp only [l1, w, List.map_replicate, List.sum_replicate, nsmul_eq_mul]
      rw [abs_of_pos (by positivity)]
      push_cast
      rw [pow_succ]; field_simp
    rw [this, max_eq_left (by positivity)]
    simp
  · have h : |alpha * (2 ^ j / alpha)| = 2 ^ j := by
      rw [mul_div_cancel₀ _ ha.ne', abs_of_pos (by positivity)]
    unfold computeNBits
    rw [h, if_neg (not_le.mpr (one_lt_pow₀ (by norm_num) (by omega)))]
    congr 1
    rw [← Real.rpow_natCast, Real.logb_rpow (by norm_num) (by norm_num), Nat.ceil_natCast]
  · rw [hq]
    simp only [xq, List.zipWith_replicate, mul_one, min_self, List.sum_replicate, nsmul_eq_mul]
    push_cast
    exact Int.mul_ediv_cancel _ (by positivity)

/-! ## Scale selection -/

/-- **The scale chosen for a target precision can be too large.** `compute_max_bound` resets the bound of
every rescaled layer's output to one, so a second layer is judged as if its input were in `[-1, 1]`.
With weights `c ≥ 1` in both of two `Gemm` layers the reported maximum is `c`, while the second layer's
outputs reach `c²`. -/
theorem C41_max_bound_unsound {alpha c : ℝ} (hc : 1 ≤ c) :
    let layers : List Node := [⟨"a", .gemm true [c] 1 1 [], ["x"], [], ["t"], true⟩,
      ⟨"b", .gemm true [c] 1 1 [], ["t"], [], ["y"], true⟩]
    computeMaxBound alpha ["x"] layers = some c ∧
    ∃ S, (run alpha ["x"] layers).1.get "y" = some S ∧ c * c ∈ S := by
  intro layers
  have hl : l1 (rowOf [c] 1 0) = c := by simp [l1, rowOf]; linarith
  have hb : ∀ m : Nat → ℝ, m 0 = 1 → layerBound alpha m 1 (.gemm true [c] 1 1 []) = some c := by
    intro m hm
    simp only [layerBound, maxOutputChannelL1]
    rw [if_neg (by simp), if_neg (by simp)]
    simp only [List.length_singleton, Nat.div_one, List.range_one, List.map_cons, List.map_nil, maxOf,
      List.foldr_cons, List.foldr_nil, Option.map_some, hl, hm, maxAbs]
    rw [max_eq_left (by linarith)]; simp
  refine ⟨?_, _, rfl, ?_⟩
  · simp only [computeMaxBound, layers, List.foldlM_cons, List.foldlM_nil, maxBoundStep,
      List.length_singleton, List.map_cons, List.map_nil]
    rw [hb _ (by simp [getInputBound, Env.get])]
    simp only [Option.bind_eq_bind, Option.bind_some, List.map_cons, List.map_nil, if_true]
    rw [hb _ (by simp [getInputBound, Env.get])]
    simp [hc]
  · refine ⟨0, by norm_num, c * c, 0, rfl, ⟨[c], by simp [rowOf], ?_, by simp [dot, rowOf]⟩,
      .inr ⟨rfl, rfl⟩, by ring⟩
    intro x hx
    rw [List.mem_singleton] at hx
    subst hx
    left
    change OutElem alpha _ 1 (.gemm true [x] 1 1 []) x
    refine ⟨0, by norm_num, x, 0, rfl, ⟨[1], by simp [rowOf], ?_, by simp [dot, rowOf]⟩,
      .inr ⟨rfl, rfl⟩, by ring⟩
    intro z hz
    rw [List.mem_singleton] at hz
    subst hz
    left
    simp [inElems, Env.get]

/-- A precision the check accepts keeps a single accumulation inside the field's budget: scaled twice, a
value within the bound stays below `2^(n_bits - 1)`. -/
theorem C41_safe_exponent {nBits e : Nat} {maxBound y : ℝ} (he : e ≤ maxSafeExponent nBits maxBound)
    (he0 : 0 < e) (hy : |y| ≤ maxBound) : |(2 : ℝ) ^ e * 2 ^ e * y| ≤ 2 ^ (nBits - 1) := by
  unfold maxSafeExponent at he
  set a := if 1 < maxBound then ⌈Real.logb 2 maxBound⌉₊ else 0 with hadef
  have hm : maxBound ≤ 2 ^ a := by
    rw [hadef]
    split_ifs with h
    · have h0 : 0 < maxBound := by linarith
      calc maxBound = (2 : ℝ) ^ Real.logb 2 maxBound :=
            (Real.rpow_logb (by norm_num) (by norm_num) h0).symm
        _ ≤ (2 : ℝ) ^ ((⌈Real.logb 2 maxBound⌉₊ : Nat) : ℝ) :=
            Real.rpow_le_rpow_of_exponent_le (by norm_num) (Nat.le_ceil _)
        _ = _ := Real.rpow_natCast _ _
    · simpa using h
  have h2 : e + e + a ≤ nBits - 1 := by
    simp only at he
    omega
  rw [abs_mul, abs_of_pos (by positivity), ← pow_add]
  calc (2 : ℝ) ^ (e + e) * |y| ≤ 2 ^ (e + e) * 2 ^ a :=
        mul_le_mul_of_nonneg_left (hy.trans hm) (by positivity)
    _ = 2 ^ (e + e + a) := (pow_add _ _ _).symm
    _ ≤ _ := pow_le_pow_right₀ (by norm_num) h2

/-- Hypotheses met: 64-bit budget, accumulation bound 100, exponent 18 is accepted. -/
example : 18 ≤ maxSafeExponent 64 100 := by
  unfold maxSafeExponent
  rw [if_pos (by norm_num)]
  have : ⌈Real.logb 2 100⌉₊ ≤ 7 := by
    rw [Nat.ceil_le, Real.logb_le_iff_le_rpow (by norm_num) (by norm_num)]
    norm_num
  simp only
  omega

/-! ## The zkVM guest

`JST.Zkvm.computeNbits` models the guest's integer version of the bound computation. It works on the
quantised weights, so rounding is accounted for. -/

open JST.Zkvm in
theorem le_pow_log2Ceil (v : Nat) : v ≤ 2 ^ integerLog2Ceil v := by
  unfold integerLog2Ceil
  split_ifs with h
  · simpa using h
  · have := Nat.lt_log2_self (n := v - 1)
    omega

open JST.Zkvm in
theorem log2Ceil_pow (j : Nat) : integerLog2Ceil (2 ^ j) = j := by
  unfold integerLog2Ceil
  cases j with
  | zero => simp
  | succ j =>
    have h1 : 2 ^ (j + 1) = 2 ^ j * 2 := pow_succ _ _
    have h0 : 0 < 2 ^ j := by positivity
    rw [if_neg (by omega)]
    have : (2 ^ (j + 1) - 1).log2 = j := by
      rw [Nat.log2_eq_iff (by omega)]
      omega
    omega

open JST.Zkvm in
theorem foldlM_max_le {ls : List Nat} {f : Nat → Nat} :
    ∀ {acc r : Nat}, ls.foldlM (fun acc oc => if f oc < 2 ^ 64 then some (max acc (f oc)) else none) acc
      = some r → acc ≤ r ∧ ∀ oc ∈ ls, f oc ≤ r := by
  induction ls with
  | nil => intro acc r h; cases h; simp
  | cons a ls ih =>
    intro acc r h
    simp only [List.foldlM_cons] at h
    split_ifs at h with h64
    · obtain ⟨h1, h2⟩ := ih (by simpa using h)
      refine ⟨(le_max_left _ _).trans h1, fun oc hoc => ?_⟩
      rcases List.mem_cons.mp hoc with rfl | hoc
      · exact (le_max_right _ _).trans h1
      · exact h2 oc hoc
    · simp at h

theorem idot_le {xs ws : List Int} {m : Nat} (hx : ∀ x ∈ xs, x.natAbs ≤ m) :
    ((List.zipWith (· * ·) xs ws).sum).natAbs ≤ (ws.map Int.natAbs).sum * m := by
  induction xs generalizing ws with
  | nil => simp
  | cons x xs ih =>
    cases ws with
    | nil => simp
    | cons w ws =>
      simp only [List.zipWith_cons_cons, List.sum_cons, List.map_cons]
      have h1 := ih (ws := ws) (fun x h => hx x (List.mem_cons_of_mem _ h))
      have h2 : (x * w).natAbs ≤ w.natAbs * m := by
        rw [Int.natAbs_mul, Nat.mul_comm]
        exact Nat.mul_le_mul_left _ (hx x (by simp))
      rw [Nat.add_mul]
      exact (Int.natAbs_add_le _ _).trans (Nat.add_le_add h2 h1)

theorem foldl_max_ge (l : List Nat) : ∀ a, a ≤ l.foldl max a ∧ ∀ x ∈ l, x ≤ l.foldl max a := by
  induction l with
  | nil => simp
  | cons b l ih =>
    intro a
    simp only [List.foldl_cons]
    obtain ⟨h1, h2⟩ := ih (max a b)
    refine ⟨(le_max_left _ _).trans h1, fun x hx => ?_⟩
    rcases List.mem_cons.mp hx with rfl | hx
    · exact (le_max_right _ _).trans h1
    · exact h2 x hx

/-- **C41 for one guest layer.** For a convolution or matrix layer at the start of a model (or right after
a rescaled layer), all of whose inputs are at most `alpha` in magnitude, the rescaled output of every
output channel lies between `-2^(n-1) - 1` and `2^(n-1)`, where `n` is the recorded width. The hypothesis
`hsat` says that the 64-bit arithmetic did not saturate. Missing from the full property: the range check
accepts only `[-2^(n-1), 2^(n-1))`; see the refutations below. -/
theorem C41_guest_layer_partial (l : JST.Zkvm.Layer) (rest : List JST.Zkvm.Layer) (alpha n : Nat)
    (ns : List Nat) (hop : l.opType.toNat = 5 ∨ l.opType.toNat = 4) (ha : 0 < alpha)
    (h : JST.Zkvm.computeNbits (l :: rest) alpha = .ok (n :: ns))
    (outCh per : Nat) (hout : outCh = if l.weightDims.length ≥ 2 then l.weightDims.headD 0 else 1)
    (hper : per * outCh = l.weightData.length) (hne : l.weightData ≠ [])
    (hsat : ∀ l1, JST.Zkvm.maxChannelL1 l.weightData outCh = some l1 →
      l1 + JST.Zkvm.biasMaxAbs l.biasData / alpha < 2 ^ 64)
    (oc : Nat) (hoc : oc < outCh) (xs : List Int) (hx : ∀ x ∈ xs, x.natAbs ≤ alpha)
    (b : Int) (hb : b ∈ l.biasData ∨ b = 0) :
    let acc := (List.zipWith (· * ·) xs ((l.weightData.drop (oc * per)).take per)).sum + b;
    -(2 : Int) ^ (n - 1) - 1 ≤ acc / alpha ∧ acc / alpha ≤ 2 ^ (n - 1) := by
  intro acc
  have hop' : l.opType.toNat = 5 ∨ l.opType.toNat = 4 := hop
  simp only [JST.Zkvm.computeNbits, JST.Zkvm.nbitsLoop] at h
  rw [if_pos hop', if_neg (by omega), ← hout] at h
  rcases hl : JST.Zkvm.maxChannelL1 l.weightData outCh with _ | l1 <;> rw [hl] at h
  · cases h
  simp only at h
  have hs := hsat l1 hl
  rcases hr : JST.Zkvm.nbitsLoop alpha alpha rest with e | r <;> rw [hr] at h
  · cases h
  simp only [Except.ok.injEq, List.cons.injEq] at h
  obtain ⟨hn, -⟩ := h
  have hbias : b.natAbs ≤ JST.Zkvm.biasMaxAbs l.biasData := by
    rcases hb with hb | rfl
    · exact (foldl_max_ge _ 0).2 _ (List.mem_map_of_mem hb)
    · simp
  rw [Nat.div_self ha, Nat.mul_one] at hn
  have hb1 : ∀ q, l1 + q < 2 ^ 64 → JST.Zkvm.sat (JST.Zkvm.sat l1 + q) = l1 + q := by
    intro q hq
    unfold JST.Zkvm.sat; omega
  rw [hb1 _ hs] at hn
  set bound := l1 + JST.Zkvm.biasMaxAbs l.biasData / alpha with hbound
  have hfit : bound ≤ 2 ^ (n - 1) := by
    rw [← hn]
    unfold JST.Zkvm.computeNBits
    split_ifs with h0 h1
    · omega
    · omega
    · rw [Nat.add_sub_cancel]; exact le_pow_log2Ceil _
  have hrow : (((l.weightData.drop (oc * per)).take per).map Int.natAbs).sum ≤ l1 := by
    unfold JST.Zkvm.maxChannelL1 at hl
    rw [if_neg (by push Not; exact ⟨by omega, hne⟩)] at hl
    have hp : l.weightData.length / outCh = per := by
      rw [← hper, Nat.mul_div_cancel _ (by omega)]
    simp only [hp] at hl
    exact (foldlM_max_le hl).2 oc (List.mem_range.mpr hoc)
  have hacc : acc.natAbs ≤ l1 * alpha + JST.Zkvm.biasMaxAbs l.biasData := by
    refine (Int.natAbs_add_le _ _).trans (Nat.add_le_add ?_ hbias)
    exact (idot_le hx).trans (Nat.mul_le_mul_right _ hrow)
  have hB : JST.Zkvm.biasMaxAbs l.biasData < alpha * (JST.Zkvm.biasMaxAbs l.biasData / alpha) + alpha := by
      have := Nat.lt_mul_div_succ (JST.Zkvm.biasMaxAbs l.biasData) ha
      rwa [Nat.mul_add, Nat.mul_one] at this
  have hlt : acc.natAbs < alpha * (bound + 1) := by
    have : alpha * (bound + 1) = l1 * alpha + alpha * (JST.Zkvm.biasMaxAbs l.biasData / alpha) + alpha := by
      rw [hbound]; ring
    omega
  have haI : (0 : Int) < alpha := by exact_mod_cast ha
  have hlt' : |acc| < (alpha : Int) * (bound + 1) := by
    rw [Int.abs_eq_natAbs]; exact_mod_cast hlt
  have hfit' : (bound : Int) ≤ 2 ^ (n - 1) := by exact_mod_cast hfit
  rw [abs_lt] at hlt'
  constructor
  · have : -((bound : Int) + 1) ≤ acc / alpha := by
      rw [Int.le_ediv_iff_mul_le haI]
      nlinarith [hlt'.1]
    linarith
  · have : acc / alpha < (bound : Int) + 1 := by
      rw [Int.ediv_lt_iff_lt_mul haI]
      nlinarith [hlt'.2]
    omega

/-- A guest layer with the given weights, shape and bias. -/
def guestLayer (dims : List Nat) (w bias : List Int) : JST.Zkvm.Layer :=
  ⟨5, true, 3, dims, w, [bias.length], bias, [], []⟩

theorem nbitsLoop_linear {l : JST.Zkvm.Layer} {rest : List JST.Zkvm.Layer} {alpha prev : Nat}
    (hop : l.opType.toNat = 5 ∨ l.opType.toNat = 4) (ha : ¬ alpha = 0) {l1 : Nat}
    (hl : JST.Zkvm.maxChannelL1 l.weightData
      (if l.weightDims.length ≥ 2 then l.weightDims.headD 0 else 1) = some l1) :
    JST.Zkvm.nbitsLoop alpha prev (l :: rest) = (JST.Zkvm.nbitsLoop alpha alpha rest).map
      (fun r => JST.Zkvm.computeNBits (JST.Zkvm.sat (JST.Zkvm.sat (l1 * (prev / alpha)) +
        JST.Zkvm.biasMaxAbs l.biasData / alpha)) :: r) := by
  simp only [JST.Zkvm.nbitsLoop]
  rw [if_pos hop, if_neg ha, hl]
  simp only
  rcases JST.Zkvm.nbitsLoop alpha alpha rest with e | r <;> rfl

theorem guest_one {alpha prev : Nat} (ha : 0 < alpha) (w : Int) (rest : List JST.Zkvm.Layer)
    (hw : w.natAbs * (prev / alpha) < 2 ^ 64) (hw' : w.natAbs < 2 ^ 64) :
    JST.Zkvm.nbitsLoop alpha prev (guestLayer [1, 1] [w] [] :: rest) =
      (JST.Zkvm.nbitsLoop alpha alpha rest).map
        (fun r => JST.Zkvm.computeNBits (w.natAbs * (prev / alpha)) :: r) := by
  have hm : JST.Zkvm.maxChannelL1 [w] 1 = some w.natAbs := by
    simp only [JST.Zkvm.maxChannelL1]
    rw [if_neg (by simp)]
    simpa using hw'
  rw [nbitsLoop_linear (l := guestLayer [1, 1] [w] []) (.inl rfl) (by omega) (l1 := w.natAbs) hm]
  have hs : ∀ q, q < 2 ^ 64 → JST.Zkvm.sat (JST.Zkvm.sat q + 0) = q := by
    intro q hq
    unfold JST.Zkvm.sat; omega
  have e : JST.Zkvm.biasMaxAbs (guestLayer [1, 1] [w] []).biasData / alpha = 0 := Nat.zero_div _
  simp only [e, hs _ hw]

/-- Hypotheses of `C41_guest_layer_partial` met: two channels with weights `(3, -4)` and `(1, 2)`. -/
example : JST.Zkvm.computeNbits [guestLayer [2, 2] [3, -4, 1, 2] [100, -50]] 16 = .ok [5] ∧
    JST.Zkvm.maxChannelL1 [3, -4, 1, 2] 2 = some 7 := by decide +kernel

/-- **The guest's width is one bit short at the boundary**: a weight of `2^j` and an input equal to
`alpha` give the value `2^j`, outside `[-2^j, 2^j)`, while the recorded width is `j + 1`. -/
theorem C41_guest_boundary {alpha j : Nat} (ha : 0 < alpha) (hj : 0 < j) (hj' : j < 64) :
    JST.Zkvm.computeNbits [guestLayer [1, 1] [2 ^ j] []] alpha = .ok [j + 1] ∧
    ((List.zipWith (· * ·) [(alpha : Int)] [2 ^ j]).sum) / (alpha : Int) = 2 ^ ((j + 1) - 1) := by
  have hn : ((2 : Int) ^ j).natAbs = 2 ^ j := by rw [Int.natAbs_pow]; rfl
  have h64 : 2 ^ j < 2 ^ 64 := Nat.pow_lt_pow_right (by norm_num) hj'
  have h2 : 2 ≤ 2 ^ j := by
    calc 2 = 2 ^ 1 := rfl
      _ ≤ 2 ^ j := Nat.pow_le_pow_right (by norm_num) hj
  constructor
  · unfold JST.Zkvm.computeNbits
    rw [guest_one ha _ _ (by rw [hn, Nat.div_self ha]; omega) (by rw [hn]; exact h64), hn,
      Nat.div_self ha, Nat.mul_one]
    simp only [JST.Zkvm.nbitsLoop, Except.map, JST.Zkvm.computeNBits]
    rw [if_neg (by omega), if_neg (by omega), log2Ceil_pow]
  · have haI : (alpha : Int) ≠ 0 := by exact_mod_cast ha.ne'
    simp [Int.mul_ediv_cancel_left _ haI]

/-- **The guest forgets the magnitude of a layer's output.** The bound carried to the next layer is reset
to `alpha`. Two layers with weights `2^t` and `1` (in units of `alpha = 2^κ`): the second layer's output on
the input `1.0` is `2^(κ+t)`, far outside `[-2^κ, 2^κ)`, yet its recorded width is `κ + 1`. -/
theorem C41_guest_two_layers_unsound {κ t : Nat} (hκ : 0 < κ) (ht : 0 < t) (h : κ + t < 64) :
    JST.Zkvm.computeNbits [guestLayer [1, 1] [2 ^ (κ + t)] [], guestLayer [1, 1] [2 ^ κ] []] (2 ^ κ) =
      .ok [κ + t + 1, κ + 1] ∧
    (let y := (2 ^ κ * 2 ^ (κ + t) : Int) / 2 ^ κ
     let z := (y * 2 ^ κ : Int) / 2 ^ κ
     z = 2 ^ (κ + t) ∧ (2 : Int) ^ ((κ + 1) - 1) < z) := by
  have ha : 0 < 2 ^ κ := by positivity
  have hn : ∀ j : Nat, ((2 : Int) ^ j).natAbs = 2 ^ j := fun j => by rw [Int.natAbs_pow]; rfl
  have h64 : ∀ j < 64, 2 ^ j < 2 ^ 64 := fun j hj => Nat.pow_lt_pow_right (by norm_num) hj
  have h2 : ∀ j, 0 < j → 2 ≤ 2 ^ j := fun j hj => by
    calc 2 = 2 ^ 1 := rfl
      _ ≤ 2 ^ j := Nat.pow_le_pow_right (by norm_num) hj
  have hbits : ∀ j, 0 < j → JST.Zkvm.computeNBits (2 ^ j) = j + 1 := fun j hj => by
    unfold JST.Zkvm.computeNBits
    have := h2 j hj
    rw [if_neg (by omega), if_neg (by omega), log2Ceil_pow]
  constructor
  · unfold JST.Zkvm.computeNbits
    have e1 := h64 (κ + t) h
    have e2 := h64 κ (by omega)
    rw [guest_one ha _ _ (by rw [hn, Nat.div_self ha]; omega) (by rw [hn]; exact e1),
      guest_one ha _ _ (by rw [hn, Nat.div_self ha]; omega) (by rw [hn]; exact e2),
      hn, hn, Nat.div_self ha, Nat.mul_one, Nat.mul_one, hbits _ (by omega), hbits _ hκ]
    rfl
  · have h0 : (2 : Int) ^ κ ≠ 0 := by positivity
    intro y z
    have hy : y = 2 ^ (κ + t) := Int.mul_ediv_cancel_left _ h0
    have hz : z = 2 ^ (κ + t) := by
      change y * 2 ^ κ / 2 ^ κ = _
      rw [hy]; exact Int.mul_ediv_cancel _ h0
    refine ⟨hz, ?_⟩
    rw [hz, Nat.add_sub_cancel]
    exact pow_lt_pow_right₀ (by norm_num) (by omega)

/-- **The guest reads matrix weights by rows even when the output channels are columns.** It does not look
at `transB`. A `k × 1` matrix of ones has one output, the sum of its `k` inputs; the guest sees `k` channels
of one weight each and records the smallest width. -/
theorem C41_guest_gemm_unsound {alpha k : Nat} (ha : 0 < alpha) (hk : 0 < k) :
    JST.Zkvm.computeNbits [guestLayer [k, 1] (List.replicate k 1) []] alpha = .ok [2] ∧
    (List.zipWith (· * ·) (List.replicate k (alpha : Int)) (List.replicate k (1 : Int))).sum / (alpha : Int)
      = k := by
  constructor
  · have hfold : ∀ ls : List Nat, (∀ i ∈ ls, i < k) → ∀ acc ≤ 1, ∃ r ≤ 1,
        ls.foldlM (fun acc oc =>
          let l1 := ((((List.replicate k (1 : Int)).drop (oc * 1)).take 1).map Int.natAbs).sum
          if l1 < 2 ^ 64 then some (max acc l1) else none) acc = some r := by
      intro ls
      induction ls with
      | nil => intro _ acc hacc; exact ⟨acc, hacc, rfl⟩
      | cons i ls ih =>
        intro hi acc hacc
        have hik := hi i (by simp)
        have hl : ((((List.replicate k (1 : Int)).drop (i * 1)).take 1).map Int.natAbs).sum = 1 := by
          have : min 1 (k - i) = 1 := by omega
          simp [List.drop_replicate, List.take_replicate, this]
        simp only [List.foldlM_cons, hl]
        rw [if_pos (by norm_num)]
        have : max acc 1 = 1 := by omega
        simp only [this]
        exact ih (fun j hj => hi j (List.mem_cons_of_mem _ hj)) 1 le_rfl
    obtain ⟨r, hr, hm⟩ := hfold (List.range k) (fun i hi => List.mem_range.mp hi) 0 (by norm_num)
    have hmax : JST.Zkvm.maxChannelL1 (List.replicate k 1) k = some r := by
      unfold JST.Zkvm.maxChannelL1
      rw [if_neg (by simp; omega)]
      simp only [List.length_replicate, Nat.div_self hk]
      exact hm
    unfold JST.Zkvm.computeNbits
    rw [nbitsLoop_linear (l := guestLayer [k, 1] (List.replicate k 1) []) (.inl rfl) (by omega)
      (l1 := r) hmax]
    have e : JST.Zkvm.biasMaxAbs (guestLayer [k, 1] (List.replicate k 1) []).biasData / alpha = 0 :=
      Nat.zero_div _
    have hs : JST.Zkvm.sat (JST.Zkvm.sat r + 0) = r := by unfold JST.Zkvm.sat; omega
    simp only [e, Nat.div_self ha, Nat.mul_one, hs]
    have : r = 0 ∨ r = 1 := by omega
    rcases this with rfl | rfl <;> rfl
  · have haI : (alpha : Int) ≠ 0 := by exact_mod_cast ha.ne'
    simp [List.zipWith_replicate, Int.mul_ediv_cancel _ haI]

end JST.Props
