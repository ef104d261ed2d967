import Verif.Tensor.ResizeProofs
import Verif.Tensor.PoolProofs
import Verif.Gadgets.MeanProofs
import Verif.Props.Exp
import Verif.Props.Conv
import Verif.Props.Pool

/-!
# Resize: the constraints of one interpolated output
-/

namespace JST.Layers

open JST.Shape JST.Spec JST.Props

variable {p : Nat} [Fact p.Prime] {T : Tables (ZMod p)}

/-- `Σ x_i * w_i`. -/
def idot (xs ws : List Int) : Int := ((xs.zip ws).map fun q => q.1 * q.2).sum

theorem weightConst_of {w : Int} (h0 : 0 ≤ w) (h1 : w < 2 ^ 64) : (weightConst w : Int) = w := by
  unfold weightConst
  rw [Int.emod_eq_of_lt h0 h1]; omega

/-- The weights as the circuit sees them. -/
def circuitWeights (ws : List Int) : List Int := ws.map fun w => (weightConst w : Int)

theorem circuitWeights_of {ws : List Int} (h : ∀ w ∈ ws, 0 ≤ w ∧ w < 2 ^ 64) : circuitWeights ws = ws := by
  unfold circuitWeights
  conv_rhs => rw [← List.map_id ws]
  exact List.map_congr_left fun w hw => weightConst_of (h w hw).1 (h w hw).2

theorem cellSum (xs ws : List Int) : ∀ acc : Int,
    ((xs.map fun x : Int => (x : ZMod p)).zip (ws.map fun w => (weightConst w : ZMod p))).foldl
      (fun acc q => acc + q.1 * q.2) (acc : ZMod p) = ((acc + idot xs (circuitWeights ws) : Int) : ZMod p) := by
  induction xs generalizing ws with
  | nil => intro acc; simp [idot]
  | cons x xs ih =>
    intro acc
    cases ws with
    | nil => simp [idot, circuitWeights]
    | cons w ws =>
      simp only [List.map_cons, List.zip_cons_cons, List.foldl_cons]
      have := ih ws (acc + x * (weightConst w : Int))
      push_cast at this
      rw [this]
      simp only [idot, circuitWeights, List.map_cons, List.zip_cons_cons, List.sum_cons]
      push_cast; ring

/-- **One output, soundness.** -/
theorem sound_resizeCell {rc : RangeCtx} (hT : IsRangeTable T rc) (hc : 0 < rc.chunk) {κ nb : Nat}
    (hd : rc.chunk ∣ κ) (hdn : rc.chunk ∣ nb) (xs ws : List Int)
    (hp : |idot xs (circuitWeights ws)| + 2 ^ κ * 2 ^ nb + 2 ^ κ ≤ p) :
    Sound T (resizeCell rc κ nb (xs.map fun x : Int => (x : ZMod p)) ws)
      (fun y => ∃ Y : Int, y = (Y : ZMod p) ∧ Y = roundedMean (idot xs (circuitWeights ws)) (2 ^ κ) ∧
        0 ≤ Y ∧ Y < 2 ^ nb) := by
  unfold resizeCell
  have hsum := cellSum (p := p) xs ws 0
  rw [Int.cast_zero, zero_add] at hsum
  simp only [hsum]
  generalize idot xs (circuitWeights ws) = X at *
  refine Sound.newHint.bind fun o _ => ?_
  generalize o.headD 0 = y
  refine (sound_rangeCheckInt hT hc _ _).bind fun _ hr => (sound_rangeCheckInt hT hc _ _).bind fun _ hy =>
    Sound.pure ?_
  obtain ⟨S, hS, eS⟩ := hr
  obtain ⟨Y, hY, rfl⟩ := hy
  rw [acceptedInt_of_dvd hd] at hS
  rw [acceptedInt_of_dvd hdn] at hY
  refine ⟨Y, rfl, ?_, hY⟩
  rw [roundedMean_eq]
  refine mean_forced (p := p) (n := 2 ^ κ) (by positivity) hS.1 (by exact_mod_cast hS.2) (B := 2 ^ nb) ?_ ?_ ?_
  · rw [abs_of_nonneg hY.1]; exact hY.2.le
  · push_cast; exact hp
  · rw [← eS]; ring

/-- **One output, no proof** of a value outside the range of the output. -/
theorem resizeCell_refused {rc : RangeCtx} (hT : IsRangeTable T rc) (hc : 0 < rc.chunk) {κ nb : Nat}
    (hd : rc.chunk ∣ κ) (hdn : rc.chunk ∣ nb) (xs ws : List Int)
    (hp : |idot xs (circuitWeights ws)| + 2 ^ κ * 2 ^ nb + 2 ^ κ ≤ p)
    (hout : roundedMean (idot xs (circuitWeights ws)) (2 ^ κ) < 0 ∨
      2 ^ nb ≤ roundedMean (idot xs (circuitWeights ws)) (2 ^ κ)) :
    Sound T (resizeCell rc κ nb (xs.map fun x : Int => (x : ZMod p)) ws) (fun _ => False) :=
  (sound_resizeCell hT hc hd hdn xs ws hp).conseq fun _ ⟨Y, _, e, h0, h1⟩ => by
    rw [← e] at hout; omega

theorem quot_bounds (X : Int) {n : Nat} (hn : (0 : Int) < (n : Int)) :
    0 ≤ X + ((n / 2 : Nat) : Int) - (X + ((n / 2 : Nat) : Int)) / n * n ∧
    X + ((n / 2 : Nat) : Int) - (X + ((n / 2 : Nat) : Int)) / n * n < n ∧
    (X + ((n / 2 : Nat) : Int)) / n * n = n * ((X + ((n / 2 : Nat) : Int)) / n) := by
  have hdm := Int.mul_ediv_add_emod (X + ((n / 2 : Nat) : Int)) n
  have hr0 := Int.emod_nonneg (X + ((n / 2 : Nat) : Int)) hn.ne'
  have hr1 := Int.emod_lt_of_pos (X + ((n / 2 : Nat) : Int)) hn
  rw [mul_comm _ (n : Int)]
  refine ⟨by linarith, by linarith, rfl⟩

/-- **One output, forgery** when the digit width does not divide the scale exponent. -/
theorem forge_resizeCell {rc : RangeCtx} (hT : IsRangeTable T rc) {κ nb : Nat} (huk : RangeCallable rc κ)
    (hun : RangeCallable rc nb) (hnd : ¬ rc.chunk ∣ κ) (xs ws : List Int)
    (h0 : -1 ≤ roundedMean (idot xs (circuitWeights ws)) (2 ^ κ))
    (h1 : roundedMean (idot xs (circuitWeights ws)) (2 ^ κ) + 1 < 2 ^ nb) :
    Forge T (resizeCell rc κ nb (xs.map fun x : Int => (x : ZMod p)) ws)
      (fun y => y = ((roundedMean (idot xs (circuitWeights ws)) (2 ^ κ) + 1 : Int) : ZMod p)) := by
  unfold resizeCell
  have hsum := cellSum (p := p) xs ws 0
  rw [Int.cast_zero, zero_add] at hsum
  simp only [hsum]
  generalize idot xs (circuitWeights ws) = X at *
  refine (Forge.newHint _ _ [((roundedMean X (2 ^ κ) + 1 : Int) : ZMod p)] rfl).bind (fun _ h => h) ?_
  simp only [List.headD_cons]
  have hn : (0 : Int) < ((2 ^ κ : Nat) : Int) := by positivity
  rw [roundedMean_eq] at h0 h1 ⊢
  obtain ⟨q1, q2, q3⟩ := quot_bounds X hn
  have hpow : (2 : Int) ^ κ = ((2 ^ κ : Nat) : Int) := by push_cast; rfl
  generalize (X + ((2 ^ κ / 2 : Nat) : Int)) / ((2 ^ κ : Nat) : Int) = Y at *
  refine (huk.forge hT (k := X + ((2 ^ κ / 2 : Nat) : Int) - (Y + 1) * ((2 ^ κ : Nat) : Int))
    (accepted_neg huk.chunk_pos hnd ?_ ?_) ?_).bind (a := ()) (fun _ _ => rfl) ?_
  · rw [hpow]; linarith
  · rw [hpow]; linarith
  · simp only [Int.cast_sub, Int.cast_add, Int.cast_mul, Int.cast_natCast, Int.cast_one]
  · exact (hun.forge hT (accepted_nonneg (by linarith) h1) rfl).bind (a := ()) (fun _ _ => rfl) (Forge.pure rfl)

theorem dot_le_abs : ∀ (xs ws : List Int), |idot xs ws| ≤ ((xs.zip ws).map fun q => |q.1 * q.2|).sum
  | [], ws => by simp [idot]
  | x :: xs, [] => by simp [idot]
  | x :: xs, w :: ws => by
    have := dot_le_abs xs ws
    simp only [idot, List.zip_cons_cons, List.map_cons, List.sum_cons] at this ⊢
    exact (abs_add_le _ _).trans (by linarith)

theorem hintSum_ok : ∀ (xs ws : List Int) (acc : Int),
    (∀ x ∈ xs, x.natAbs < 2 ^ 63 ∧ 2 * x.natAbs < p) → (∀ w ∈ ws, 0 ≤ w ∧ w < 2 ^ 64 ∧ w < p) →
    |acc| + ((xs.zip ws).map fun q => |q.1 * q.2|).sum < 2 ^ 127 →
    hintSum ((xs.map fun x : Int => (x : ZMod p)).zip (ws.map fun w : Int => (w : ZMod p))) acc =
      .ok (acc + idot xs ws)
  | [], ws, acc, _, _, _ => by simp [hintSum, idot]
  | x :: xs, [], acc, _, _, _ => by simp [hintSum, idot]
  | x :: xs, w :: ws, acc, hx, hw, hb => by
    obtain ⟨w0, w1, w2⟩ := hw w (by simp)
    obtain ⟨W, rfl⟩ := Int.eq_ofNat_of_zero_le w0
    have hv : (((W : Int) : ZMod p)).val = W := by
      rw [Int.cast_natCast, ZMod.val_natCast, Nat.mod_eq_of_lt (by exact_mod_cast w2)]
    simp only [List.map_cons, List.zip_cons_cons, hintSum]
    simp only [List.zip_cons_cons, List.map_cons, List.sum_cons] at hb
    rw [hv, fieldToI64_cast x (hx x (by simp)).1 (hx x (by simp)).2]
    have hnn : 0 ≤ ((xs.zip ws).map fun q => |q.1 * q.2|).sum := (abs_nonneg _).trans (dot_le_abs xs ws)
    have ha := abs_le.1 (le_refl |acc|)
    have hq := abs_le.1 (le_refl |x * (W : Int)|)
    have h3 := abs_add_le acc (x * (W : Int))
    rw [if_neg (by push_cast at w1; omega), if_neg (by push Not; constructor <;> linarith [abs_nonneg acc]),
      if_neg (by push Not; constructor <;> linarith),
      hintSum_ok xs ws _ (fun y hy => hx y (by simp [hy])) (fun y hy => hw y (by simp [hy])) (by linarith)]
    simp only [idot, List.zip_cons_cons, List.map_cons, List.sum_cons]
    congr 1; ring

/-- The honest hint on integers. -/
theorem resizeHint_ok {κ : Nat} (hκ : κ < 64) (hκp : 2 ^ κ < p) {xs ws : List Int} (hne : xs ≠ [])
    (hl : xs.length = ws.length) (hx : ∀ x ∈ xs, x.natAbs < 2 ^ 63 ∧ 2 * x.natAbs < p)
    (hw : ∀ w ∈ ws, 0 ≤ w ∧ w < 2 ^ 64 ∧ w < p)
    (hb : ((xs.zip ws).map fun q => |q.1 * q.2|).sum < 2 ^ 127) :
    resizeHint ((xs.map fun x : Int => (x : ZMod p)) ++ (ws.map fun w : Int => (w : ZMod p)) ++
      [((2 ^ κ : Nat) : ZMod p)]) = .ok [((hintQuot (idot xs ws) (2 ^ κ) : Int) : ZMod p)] := by
  have hpos : 0 < xs.length := List.length_pos_iff.2 hne
  have hlen : ((xs.map fun x : Int => (x : ZMod p)) ++ (ws.map fun w : Int => (w : ZMod p)) ++
      [((2 ^ κ : Nat) : ZMod p)]).length = 2 * xs.length + 1 := by simp [← hl]; ring
  unfold resizeHint
  rw [hlen, if_neg (by omega), show (2 * xs.length + 1 - 1) / 2 = xs.length by omega]
  have hget : ((xs.map fun x : Int => (x : ZMod p)) ++ (ws.map fun w : Int => (w : ZMod p)) ++
      [((2 ^ κ : Nat) : ZMod p)]).getD (2 * xs.length) 0 = ((2 ^ κ : Nat) : ZMod p) := by
    rw [List.getD_append_right _ _ _ _ (by simp [← hl]; omega)]
    simp [← hl, two_mul]
  have hv : ((2 ^ κ : Nat) : ZMod p).val = 2 ^ κ := by
    rw [ZMod.val_natCast, Nat.mod_eq_of_lt hκp]
  have hlt : 2 ^ κ < 2 ^ 64 := Nat.pow_lt_pow_right (by norm_num) hκ
  have hp2 : 0 < 2 ^ κ := by positivity
  dsimp only
  rw [hget, hv, if_neg (by omega), if_neg (by omega)]
  have h1 : ((xs.map fun x : Int => (x : ZMod p)) ++ (ws.map fun w : Int => (w : ZMod p)) ++
      [((2 ^ κ : Nat) : ZMod p)]).take xs.length = xs.map fun x : Int => (x : ZMod p) := by
    rw [List.append_assoc]; exact List.take_left' (by simp)
  have h2 : (((xs.map fun x : Int => (x : ZMod p)) ++ (ws.map fun w : Int => (w : ZMod p)) ++
      [((2 ^ κ : Nat) : ZMod p)]).drop xs.length).take xs.length = ws.map fun w : Int => (w : ZMod p) := by
    rw [List.append_assoc, List.drop_left' (by simp)]; exact List.take_left' (by simp [hl])
  rw [h1, h2, hintSum_ok xs ws 0 hx hw (by simpa using hb), zero_add]

theorem hintQuot_eq {X : Int} {n : Nat} (hn : 0 < n) (h0 : 0 ≤ roundedMean X n)
    (h1 : roundedMean X n < 2 ^ 63) : hintQuot X n = roundedMean X n := by
  have hn' : (0 : Int) < n := by exact_mod_cast hn
  rw [roundedMean_eq] at *
  unfold hintQuot
  split_ifs with h
  · rw [min_eq_left (by omega)]
  · symm
    refine Int.ediv_eq_zero_of_lt ?_ (by omega)
    by_contra hneg
    have := Int.ediv_lt_of_lt_mul (a := X + (n / 2 : Nat)) (b := 0) hn' (by omega)
    omega

/-- **One output, completeness.** -/
theorem complete_resizeCell {rc : RangeCtx} (hT : IsRangeTable T rc) {κ nb : Nat} (huk : RangeUsable p rc κ)
    (hun : RangeUsable p rc nb) (hκ : κ < 64) (hκp : 2 ^ κ < p) (hnb : nb ≤ 63)
    {xs ws : List Int} (hne : xs ≠ [])
    (hl : xs.length = ws.length) (hx : ∀ x ∈ xs, x.natAbs < 2 ^ 63 ∧ 2 * x.natAbs < p)
    (hw : ∀ w ∈ ws, 0 ≤ w ∧ w < 2 ^ 64 ∧ w < p)
    (hb : ((xs.zip ws).map fun q => |q.1 * q.2|).sum < 2 ^ 127)
    (h0 : 0 ≤ roundedMean (idot xs ws) (2 ^ κ)) (h1 : roundedMean (idot xs ws) (2 ^ κ) < 2 ^ nb) :
    Complete T (resizeCell rc κ nb (xs.map fun x : Int => (x : ZMod p)) ws)
      (fun y => y = ((roundedMean (idot xs ws) (2 ^ κ) : Int) : ZMod p)) := by
  have hcw : circuitWeights ws = ws := circuitWeights_of fun w h => ⟨(hw w h).1, (hw w h).2.1⟩
  have hwc : (ws.map fun w => (weightConst w : ZMod p)) = ws.map fun w : Int => (w : ZMod p) := by
    refine List.map_congr_left fun w h => ?_
    have := weightConst_of (hw w h).1 (hw w h).2.1
    exact_mod_cast congrArg (fun z : Int => (z : ZMod p)) this
  have hh := resizeHint_ok hκ hκp hne hl hx hw hb
  have h63 : roundedMean (idot xs ws) (2 ^ κ) < 2 ^ 63 :=
    lt_of_lt_of_le h1 (pow_le_pow_right₀ (by norm_num) hnb)
  rw [hintQuot_eq (by positivity) h0 h63] at hh
  unfold resizeCell
  have hsum := cellSum (p := p) xs ws 0
  rw [Int.cast_zero, zero_add, hcw] at hsum
  simp only [hsum]
  rw [hwc]
  generalize idot xs ws = X at *
  refine (Complete.newHint hh rfl).bind ?_
  rintro _ rfl
  simp only [List.headD_cons]
  have hn : (0 : Int) < ((2 ^ κ : Nat) : Int) := by positivity
  rw [roundedMean_eq] at h0 h1 ⊢
  obtain ⟨q1, q2, q3⟩ := quot_bounds X hn
  have hpow : (2 : Int) ^ κ = ((2 ^ κ : Nat) : Int) := by push_cast; rfl
  generalize (X + ((2 ^ κ / 2 : Nat) : Int)) / ((2 ^ κ : Nat) : Int) = Y at *
  refine (huk.completeInt hT (k := X + ((2 ^ κ / 2 : Nat) : Int) - Y * ((2 ^ κ : Nat) : Int)) ?_ ?_
    ?_).bind fun _ _ => ?_
  · linarith
  · rw [hpow]; linarith
  · simp only [Int.cast_sub, Int.cast_add, Int.cast_mul, Int.cast_natCast]
  · exact (hun.completeInt hT h0 h1 rfl).bind fun _ _ => Complete.pure rfl

end JST.Layers
