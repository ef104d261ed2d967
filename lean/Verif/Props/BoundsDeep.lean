import Verif.Props.Bounds
import Verif.Props.Gadgets
import Verif.Gadgets.ArithProofs2

/-!
# C41: bit widths that do not fit the field

`compute_bounds` lets the bounds grow from layer to layer and does not compare the widths with the field, whereas the
scale is chosen from `compute_max_bound`, which resets the bounds after every rescaled layer.
-/

namespace JST.Props

open JST.Quant

section forge
variable {p : Nat} [NeZero p] [Fact p.Prime] {T : Tables (ZMod p)}

omit [NeZero p] in
/-- Without the condition on the modulus, the prover may divide the representative `x + p` instead of `x`. -/
theorem forge_divPow2_wide {rc : RangeCtx} (hT : IsRangeTable T rc) {κ s : Nat}
    (huk : RangeCallable rc κ) (hus : RangeCallable rc (s + 1)) {x : Int} (hx : -(p : Int) ≤ x)
    (hx' : x + p < 2 ^ κ * 2 ^ s) (flag : Bool) :
    Forge T (divPow2Inner rc (x : ZMod p) ((2 ^ κ : Nat) : ZMod p)
      ((2 ^ κ * 2 ^ s : Nat) : ZMod p) κ s
      ((2 ^ s : Nat) : ZMod p) flag) (fun out => out = (((x + p) / 2 ^ κ : Int) : ZMod p)) := by
  have hκ : (0 : Int) < 2 ^ κ := by positivity
  have hs2 : (2 : Int) ^ (s + 1) = 2 ^ s * 2 := pow_succ _ _
  have hs0 : (0 : Int) < 2 ^ s := by positivity
  have hq0 : 0 ≤ (x + p) / 2 ^ κ := Int.ediv_nonneg (by linarith) hκ.le
  have hq1 : (x + p) / 2 ^ κ < 2 ^ s := by
    rw [Int.ediv_lt_iff_lt_mul hκ]
    linarith
  have hm0 := Int.emod_nonneg (x + p) hκ.ne'
  have hm1 := Int.emod_lt_of_pos (x + p) hκ
  have hdm := Int.mul_ediv_add_emod (x + p) (2 ^ κ)
  unfold divPow2Inner uIntDiv uMod
  refine (forge_hint2 _ _ _ (((x + p) / 2 ^ κ + 2 ^ s : Int) : ZMod p)).bind (fun _ h => h) ?_
  refine (forge_hint2 _ _ _ (((x + p) % 2 ^ κ : Int) : ZMod p)).bind (fun _ h => h) ?_
  refine Forge.seq (Det.assertEq ?_).forge ?_
  · have : (((2 : Int) ^ κ * ((x + p) / 2 ^ κ) + (x + p) % 2 ^ κ : Int) : ZMod p) = (x : ZMod p) := by
      rw [hdm]; push_cast; simp
    push_cast at this ⊢
    linear_combination -this
  refine Forge.seq (huk.forge hT (accepted_nonneg hm0 hm1) rfl) ?_
  have hout : (((x + p) / 2 ^ κ + 2 ^ s : Int) : ZMod p) - ((2 ^ s : Nat) : ZMod p)
      = (((x + p) / 2 ^ κ : Int) : ZMod p) := by push_cast; ring
  cases flag with
  | true =>
    simp only [if_true]
    refine Forge.seq (hus.forge hT (accepted_nonneg ?_ ?_) rfl) (Forge.pure hout)
    · linarith
    · linarith
  | false =>
    simp only [Bool.false_eq_true, if_false]
    exact Forge.pure hout

/-- **C05 is false of widths beyond the field.** If the scale `2^κ` and the width `s + 1` are together wider than the
modulus, the rescaling of `x` can also be proved to be that of `x + p`, for every digit width. The two values differ. -/
theorem C05_wide_rescale_unsound {rc : RangeCtx} (hT : IsRangeTable T rc) {κ s : Nat}
    (huk : RangeCallable rc κ) (hus : RangeCallable rc (s + 1)) (hκ : κ < 32) (hs64 : s < 64) (h2 : 2 * 2 ^ κ ≤ p)
    (hκ0 : 0 < κ) (x : Int) (hx : -(p : Int) ≤ x) (hx' : x + p < 2 ^ κ * 2 ^ s) :
    Forge T (rescaleArray rc [(x : ZMod p)] κ s false) (fun ys => ys = [(((x + p) / 2 ^ κ : Int) : ZMod p)]) ∧
    (((x + p) / 2 ^ κ : Int) : ZMod p) ≠ ((rescaleSpec κ false x : Int) : ZMod p) := by
  constructor
  · unfold rescaleArray RescaleCtx.new
    rw [if_neg (by omega), if_neg (by omega)]
    refine Forge.bind (Forge.pure (Q := fun c => c = (⟨κ, s, ((2 ^ κ : Nat) : ZMod p),
      ((2 ^ s : Nat) : ZMod p), ((2 ^ κ * 2 ^ s : Nat) : ZMod p)⟩ : RescaleCtx p)) rfl)
      (fun _ h => h) ?_
    change Forge T (do
      let y ← rescale _ rc (x : ZMod p) false
      let ys ← (pure [] : G (ZMod p) (List (ZMod p)))
      pure (y :: ys)) _
    have hr : Forge T (rescale ⟨κ, s, ((2 ^ κ : Nat) : ZMod p), ((2 ^ s : Nat) : ZMod p),
        ((2 ^ κ * 2 ^ s : Nat) : ZMod p)⟩ rc (x : ZMod p) false)
        (fun out => out = (((x + p) / 2 ^ κ : Int) : ZMod p)) := by
      unfold rescale
      exact (forge_divPow2_wide hT huk hus hx hx' true).bind (fun _ h => h) (Forge.pure rfl)
    refine hr.bind (fun _ h => h) ?_
    refine Forge.bind (Forge.pure (Q := fun l => l = ([] : List (ZMod p))) rfl) (fun _ h => h) ?_
    exact Forge.pure rfl
  · have hκp : (0 : Int) < 2 ^ κ := by positivity
    have h2' : 2 * (2 : Int) ^ κ ≤ p := by exact_mod_cast h2
    have hκ2 : (2 : Int) ≤ 2 ^ κ := by
      calc (2 : Int) = 2 ^ 1 := by norm_num
        _ ≤ 2 ^ κ := pow_le_pow_right₀ (by norm_num) hκ0
    intro hc
    rw [ZMod.intCast_eq_intCast_iff, Int.modEq_iff_dvd] at hc
    have hspec : rescaleSpec κ false x = x / 2 ^ κ := by simp [rescaleSpec]
    rw [hspec] at hc
    have e1 := Int.mul_ediv_add_emod (x + p) (2 ^ κ)
    have e2 := Int.mul_ediv_add_emod x (2 ^ κ)
    have m0 := Int.emod_nonneg (x + p) hκp.ne'
    have m1 := Int.emod_lt_of_pos (x + p) hκp
    have n0 := Int.emod_nonneg x hκp.ne'
    have n1 := Int.emod_lt_of_pos x hκp
    set d := (x + p) / 2 ^ κ - x / 2 ^ κ with hd
    have hlo : 2 ^ κ * d > p - 2 ^ κ := by rw [hd, mul_sub]; linarith
    have hhi : 2 ^ κ * d < p + 2 ^ κ := by rw [hd, mul_sub]; linarith
    have hd0 : 0 < d := by
      by_contra hcon
      have : 2 ^ κ * d ≤ 0 := mul_nonpos_of_nonneg_of_nonpos hκp.le (by linarith)
      linarith
    have hdp : d < p := by
      by_contra hcon
      have hcon : (p : Int) ≤ d := by linarith
      have h3 : (2 : Int) ^ κ * p ≤ 2 ^ κ * d := mul_le_mul_of_nonneg_left hcon hκp.le
      have h4 : 2 * (p : Int) ≤ 2 ^ κ * p := mul_le_mul_of_nonneg_right hκ2 (by positivity)
      linarith
    have : (p : Int) ∣ d := by
      have := (dvd_neg).2 hc
      rwa [neg_sub] at this
    have := Int.le_of_dvd hd0 this
    linarith

end forge

/-! ## A deep model -/

/-- The i-th layer of a chain of matrix layers, each with the single weight `c`. -/
def chainNode (nm tn : Nat → String) (c : ℝ) (i : Nat) : JST.Quant.Node :=
  ⟨nm i, .gemm true [c] 1 1 [], [tn i], [], [tn (i + 1)], true⟩

theorem chain_bound {alpha c : ℝ} (hc : 1 ≤ c) (m : Nat → ℝ) :
    layerBound alpha m 1 (.gemm true [c] 1 1 []) = some (c * m 0) := by
  have hl : l1 (rowOf [c] 1 0) = c := by simp [l1, rowOf]; linarith
  simp only [layerBound, maxOutputChannelL1]
  rw [if_neg (by simp), if_neg (by simp)]
  simp only [List.length_singleton, Nat.div_one, List.range_one, List.map_cons, List.map_nil, maxOf,
    List.foldr_cons, List.foldr_nil, Option.map_some, hl, maxAbs]
  rw [max_eq_left (by linarith)]; simp

theorem chain_bounds {alpha c : ℝ} (hc : 1 ≤ c) (nm tn : Nat → String) (k : Nat) :
    ∃ bs ns, computeBounds alpha [tn 0] ((List.range k).map (chainNode nm tn c)) = some (bs, ns) ∧
      Env.get bs (tn k) = some (c ^ k) ∧ ∀ j, k = j + 1 → Env.get ns (nm j) = some (computeNBits alpha (c ^ k)) := by
  induction k with
  | zero => exact ⟨_, _, rfl, by simp [Env.get], by simp⟩
  | succ k ih =>
    obtain ⟨bs, ns, h1, h2, -⟩ := ih
    unfold computeBounds at h1 ⊢
    rw [List.range_succ, List.map_append, List.foldlM_append, h1]
    have hb : layerBound alpha (getInputBound (chainNode nm tn c k) bs) (chainNode nm tn c k).inputs.length
        (chainNode nm tn c k).op = some (c * c ^ k) := by
      have := chain_bound (alpha := alpha) hc (getInputBound (chainNode nm tn c k) bs)
      have hg : getInputBound (chainNode nm tn c k) bs 0 = c ^ k := by
        simp [getInputBound, chainNode, h2]
      rw [hg] at this
      exact this
    simp only [Option.bind_eq_bind, Option.bind_some, List.map_cons, List.map_nil, List.foldlM_cons, List.foldlM_nil, boundStep, hb]
    refine ⟨_, _, rfl, ?_, ?_⟩
    · simp [chainNode, Env.get, pow_succ, mul_comm]
    · rintro j hj
      obtain rfl : k = j := by omega
      simp [chainNode, Env.get, pow_succ, mul_comm]

theorem chain_max {alpha c : ℝ} (hc : 1 ≤ c) (nm tn : Nat → String) (k : Nat) (hk : 0 < k) :
    computeMaxBound alpha [tn 0] ((List.range k).map (chainNode nm tn c)) = some c := by
  have key : ∀ k, ∃ bs M, ((List.range k).map (chainNode nm tn c)).foldlM (maxBoundStep alpha)
      ([tn 0].map (fun n => (n, (1 : ℝ))), (1 : ℝ)) = some (bs, M) ∧ Env.get bs (tn k) = some 1 ∧
      M = if k = 0 then 1 else c := by
    intro k
    induction k with
    | zero => exact ⟨_, _, rfl, by simp [Env.get], by simp⟩
    | succ k ih =>
      obtain ⟨bs, M, h1, h2, h3⟩ := ih
      rw [List.range_succ, List.map_append, List.foldlM_append, h1]
      have hb : layerBound alpha (getInputBound (chainNode nm tn c k) bs) (chainNode nm tn c k).inputs.length
          (chainNode nm tn c k).op = some (c * 1) := by
        have := chain_bound (alpha := alpha) hc (getInputBound (chainNode nm tn c k) bs)
        have hg : getInputBound (chainNode nm tn c k) bs 0 = 1 := by
          simp [getInputBound, chainNode, h2]
        rw [hg] at this
        exact this
      simp only [Option.bind_eq_bind, Option.bind_some, List.map_cons, List.map_nil, List.foldlM_cons, List.foldlM_nil, maxBoundStep, hb]
      refine ⟨_, _, rfl, ?_, ?_⟩
      · simp [chainNode, Env.get]
      · rw [h3]
        by_cases h0 : k = 0
        · simp [chainNode, h0, hc]
        · simp [chainNode, h0]
  obtain ⟨bs, M, h1, -, h3⟩ := key k
  unfold computeMaxBound
  rw [h1, h3, if_neg (by omega)]
  rfl

theorem nbits_pow (κ e : Nat) (h : 0 < κ + e) : computeNBits (2 ^ κ) (2 ^ e) = κ + e + 1 := by
  unfold computeNBits
  rw [← pow_add, abs_of_pos (by positivity), if_neg (by
    have : (1 : ℝ) < 2 ^ (κ + e) := one_lt_pow₀ (by norm_num) (by omega)
    linarith), ← Real.rpow_natCast, Real.logb_rpow (by norm_num) (by norm_num), Nat.ceil_natCast]

theorem safeExponent_pow (n ℓ : Nat) (h : 0 < ℓ) : maxSafeExponent n (2 ^ ℓ) = (n - (ℓ + 1)) / 2 := by
  unfold maxSafeExponent
  rw [if_pos (one_lt_pow₀ (by norm_num) (by omega)), ← Real.rpow_natCast, Real.logb_rpow (by norm_num) (by norm_num),
    Nat.ceil_natCast]

/-- **C41, deep models get widths beyond the field.** `k` matrix layers with the weight `2^ℓ` on Goldilocks: the scale
that the converter picks for the 31-bit tier is `2^κ` with `κ = (30 - ℓ)/2`, the width of the last layer is
`κ + ℓ k + 1`. When the two together exceed the 64 bits of the field, the layer's rescaling proves wrong results for
every small accumulator `x`, whatever the digit width. -/
theorem C41_deep_model_unsound {ℓ k κ : Nat} (hℓ : 0 < ℓ) (hκ : κ = (31 - (ℓ + 1)) / 2) (hκ0 : 0 < κ) (nm tn : Nat → String)
    (hw : 65 ≤ κ + (κ + ℓ * (k + 1))) (hw' : κ + ℓ * (k + 1) < 64)
    {T : Tables (ZMod goldP)} {rc : RangeCtx} (hT : IsRangeTable T rc) (hc0 : 0 < rc.chunk) (hc1 : rc.chunk < 32) :
    (∀ alpha, computeMaxBound alpha [tn 0] ((List.range (k + 1)).map (chainNode nm tn (2 ^ ℓ))) = some (2 ^ ℓ)) ∧
    maxSafeExponent 31 (2 ^ ℓ) = κ ∧
    ∃ bs ns n, computeBounds (2 ^ κ) [tn 0] ((List.range (k + 1)).map (chainNode nm tn (2 ^ ℓ))) = some (bs, ns) ∧
      Env.get ns (nm k) = some n ∧
      ∀ x : Int, -(goldP : Int) ≤ x → x < 2 ^ 64 → ∃ y : ZMod goldP,
        Forge T (rescaleArray rc [(x : ZMod goldP)] κ (n - 1) false) (fun ys => ys = [y]) ∧
        y ≠ ((rescaleSpec κ false x : Int) : ZMod goldP) := by
  have h1 : (1 : ℝ) ≤ 2 ^ ℓ := one_le_pow₀ (by norm_num)
  refine ⟨fun _ => chain_max h1 nm tn (k + 1) (by omega), by rw [safeExponent_pow _ _ hℓ, hκ], ?_⟩
  obtain ⟨bs, ns, e1, -, e3⟩ := chain_bounds (alpha := 2 ^ κ) h1 nm tn (k + 1)
  have en := e3 k rfl
  rw [← pow_mul, nbits_pow _ _ (by omega)] at en
  refine ⟨bs, ns, _, e1, en, fun x hx hx' => ⟨_, C05_wide_rescale_unsound hT ⟨hc0, hc1, hκ0, by omega, by omega⟩
    ⟨hc0, hc1, by omega, by omega, by omega⟩ (by omega) (by omega) ?_ hκ0 x hx ?_⟩⟩
  · calc 2 * 2 ^ κ ≤ 2 * 2 ^ 15 := Nat.mul_le_mul_left _ (Nat.pow_le_pow_right (by norm_num) (by omega))
      _ ≤ goldP := by norm_num [goldP]
  · rw [← pow_add]
    have : (2 : Int) ^ 65 ≤ 2 ^ (κ + (κ + ℓ * (k + 1) + 1 - 1)) := pow_le_pow_right₀ (by norm_num) (by omega)
    have hg : (goldP : Int) < 2 ^ 64 := by norm_num [goldP]
    linarith

/-- Eight layers with the weight 64: scale `2^12`, last width 61. -/
example {T : Tables (ZMod goldP)} (hT : IsRangeTable T ⟨0, 8⟩) (nm tn : Nat → String) :
    maxSafeExponent 31 (2 ^ 6) = 12 ∧
    ∃ bs ns n, computeBounds (2 ^ 12) [tn 0] ((List.range 8).map (chainNode nm tn (2 ^ 6))) = some (bs, ns) ∧
      Env.get ns (nm 7) = some n := by
  obtain ⟨-, h2, bs, ns, n, h3, h4, -⟩ := C41_deep_model_unsound (ℓ := 6) (k := 7) (κ := 12) (by norm_num) rfl (by norm_num) nm tn
    (by norm_num) (by norm_num) hT (by norm_num) (by norm_num)
  exact ⟨h2, bs, ns, n, h3, h4⟩

end JST.Props
