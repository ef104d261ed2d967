import Verif.Tensor.ResizeCell
import Verif.Props.Elementwise

/-!
# Resize: the interpolated tensor
-/

namespace JST.Layers

open JST.Shape JST.Spec JST.Props

/-! ## The specification of one output -/

/-- The clamped coordinate along one axis. -/
def ptAt (cm : CoordMode) (sIn sOut c : List Nat) (d : Nat) : ℚ :=
  clampCoord (sIn.getD d 0) (coordOf cm (c.getD d 0) (sIn.getD d 0) (sOut.getD d 0))

/-- The neighbours along the resized axes. -/
def infoAt (cm : CoordMode) (sIn sOut c : List Nat) : List (Nat × Nat × Nat × ℚ × ℚ) :=
  (resizeDims sIn sOut).map (infoOf (ptAt cm sIn sOut c))

/-- The corners with their exact weights. -/
def cornersAt (cm : CoordMode) (sIn sOut c : List Nat) : List (List Nat × ℚ) :=
  (List.range (2 ^ changedAxes sIn sOut)).map fun m => cornerOf (infoAt cm sIn sOut c) m c 1

theorem infoAt_length (cm : CoordMode) (sIn sOut c : List Nat) :
    (infoAt cm sIn sOut c).length = changedAxes sIn sOut := by
  simp [infoAt, resizeDims, changedAxes]

theorem mem_resizeDims {sIn sOut : List Nat} {d : Nat} :
    d ∈ resizeDims sIn sOut ↔ d < sOut.length ∧ sIn.getD d 0 ≠ sOut.getD d 0 := by
  simp [resizeDims]

theorem dimInfo_ok {cm : CoordMode} {sIn sOut c : List Nat} (hin : ∀ d, d < sOut.length → 0 < sIn.getD d 0) :
    dimInfo cm sIn sOut c = .ok (infoAt cm sIn sOut c) := by
  refine mapM_ok fun d hd => ?_
  rw [linearCorners_ok (hin d (mem_resizeDims.1 hd).1)]
  rfl

theorem frac_bounds {x : ℚ} (h : 0 ≤ x) : 0 ≤ x - ⌊x⌋₊ ∧ 0 ≤ 1 - (x - ⌊x⌋₊) := by
  have h1 := Nat.floor_le h
  have h2 := Nat.lt_floor_add_one x
  constructor <;> linarith

theorem cornerOf_nonneg : ∀ (info : List (Nat × Nat × Nat × ℚ × ℚ)) (m : Nat) (c : List Nat) (w : ℚ), 0 ≤ w →
    (∀ i ∈ info, 0 ≤ i.2.2.2.1 ∧ 0 ≤ i.2.2.2.2) → 0 ≤ (cornerOf info m c w).2
  | [], _, _, _, h, _ => h
  | (d, lo, hi, wl, wh) :: r, m, c, w, h, hi' => by
    obtain ⟨h1, h2⟩ := hi' (d, lo, hi, wl, wh) (by simp)
    unfold cornerOf
    split_ifs
    · exact cornerOf_nonneg r _ _ _ (mul_nonneg h h1) fun i hi => hi' i (by simp [hi])
    · exact cornerOf_nonneg r _ _ _ (mul_nonneg h h2) fun i hi => hi' i (by simp [hi])

theorem iter_one : ∀ (info : List (Nat × Nat × Nat × ℚ × ℚ)) (c : List Nat),
    (∀ i ∈ info, i.2.2.2.1 + i.2.2.2.2 = 1) → iter (fun _ => 1) info c = 1
  | [], _, _ => rfl
  | (d, lo, hi, wl, wh) :: r, c, h => by
    have := h (d, lo, hi, wl, wh) (by simp)
    unfold iter
    rw [iter_one r _ fun i hi => h i (by simp [hi]), iter_one r _ fun i hi => h i (by simp [hi])]
    simpa using this

theorem cornerOf_inRange (sIn : List Nat) : ∀ (info : List (Nat × Nat × Nat × ℚ × ℚ)) (m : Nat) (c : List Nat) (w : ℚ),
    c.length = sIn.length → (∀ i ∈ info, i.2.1 < sIn.getD i.1 0 ∧ i.2.2.1 < sIn.getD i.1 0) →
    (∀ d, d < sIn.length → (∀ i ∈ info, i.1 ≠ d) → c.getD d 0 < sIn.getD d 0) →
    InRange sIn (cornerOf info m c w).1
  | [], _, c, _, hl, _, h => inRange_iff.2 ⟨hl, fun d hd => h d hd (by simp)⟩
  | (d, lo, hi, wl, wh) :: r, m, c, w, hl, hi', h => by
    obtain ⟨h1, h2⟩ := hi' (d, lo, hi, wl, wh) (by simp)
    have key : ∀ v, v < sIn.getD d 0 → ∀ d', d' < sIn.length → (∀ i ∈ r, i.1 ≠ d') →
        (c.set d v).getD d' 0 < sIn.getD d' 0 := by
      intro v hv d' hd' hne
      by_cases e : d = d'
      · subst e
        rw [List.getD_eq_getElem _ _ (by rw [List.length_set, hl]; exact hd'), List.getElem_set_self]
        exact hv
      · rw [List.getD_eq_getElem?_getD, List.getElem?_set_ne e, ← List.getD_eq_getElem?_getD]
        refine h d' hd' fun i hi => ?_
        rcases List.mem_cons.1 hi with rfl | hi
        · exact e
        · exact hne i hi
    unfold cornerOf
    split_ifs
    · exact cornerOf_inRange sIn r _ _ _ (by rw [List.length_set, hl]) (fun i hi => hi' i (by simp [hi])) (key lo h1)
    · exact cornerOf_inRange sIn r _ _ _ (by rw [List.length_set, hl]) (fun i hi => hi' i (by simp [hi])) (key hi h2)

section point
variable {cm : CoordMode} {sIn sOut c : List Nat}

theorem infoAt_mem (hin : ∀ d, d < sOut.length → 0 < sIn.getD d 0) {i : Nat × Nat × Nat × ℚ × ℚ}
    (hi : i ∈ infoAt cm sIn sOut c) :
    (i.2.1 < sIn.getD i.1 0 ∧ i.2.2.1 < sIn.getD i.1 0) ∧ (0 ≤ i.2.2.2.1 ∧ 0 ≤ i.2.2.2.2) ∧
      i.2.2.2.1 + i.2.2.2.2 = 1 := by
  obtain ⟨d, hd, rfl⟩ := List.mem_map.1 hi
  have hpos := hin d (mem_resizeDims.1 hd).1
  obtain ⟨h0, h1⟩ := clampCoord_bounds hpos (coordOf cm (c.getD d 0) (sIn.getD d 0) (sOut.getD d 0))
  have hf := frac_bounds h0
  refine ⟨⟨?_, ?_⟩, ⟨hf.2, hf.1⟩, by simp [infoOf]⟩
  · have : ⌊ptAt cm sIn sOut c d⌋₊ ≤ sIn.getD d 0 - 1 := Nat.floor_le_of_le h1
    simp only [infoOf]; omega
  · have : ⌈ptAt cm sIn sOut c d⌉₊ ≤ sIn.getD d 0 - 1 := Nat.ceil_le.2 h1
    simp only [infoOf]; omega

theorem cornersAt_inRange (hl : sIn.length = sOut.length) (hin : ∀ d, d < sOut.length → 0 < sIn.getD d 0)
    (hc : InRange sOut c) {q : List Nat × ℚ} (hq : q ∈ cornersAt cm sIn sOut c) : InRange sIn q.1 := by
  obtain ⟨m, _, rfl⟩ := List.mem_map.1 hq
  obtain ⟨c1, c2⟩ := inRange_iff.1 hc
  refine cornerOf_inRange sIn _ _ _ _ (c1.trans hl.symm) (fun i hi => (infoAt_mem hin hi).1) fun d hd hne => ?_
  rw [hl] at hd
  by_contra hcon
  have : d ∈ resizeDims sIn sOut := by
    rw [mem_resizeDims]; refine ⟨hd, fun e => ?_⟩
    have := c2 d hd; omega
  exact hne _ (List.mem_map_of_mem this) rfl

theorem cornersAt_nonneg (hin : ∀ d, d < sOut.length → 0 < sIn.getD d 0) {q : List Nat × ℚ}
    (hq : q ∈ cornersAt cm sIn sOut c) : 0 ≤ q.2 := by
  obtain ⟨m, _, rfl⟩ := List.mem_map.1 hq
  exact cornerOf_nonneg _ _ _ _ zero_le_one fun i hi => (infoAt_mem hin hi).2.1

theorem cornersAt_sum (hin : ∀ d, d < sOut.length → 0 < sIn.getD d 0) :
    ((cornersAt cm sIn sOut c).map fun q => q.2).sum = 1 := by
  have := corner_sum (fun _ => 1) (infoAt cm sIn sOut c) c 1
  rw [iter_one _ _ fun i hi => (infoAt_mem hin hi).2.2, infoAt_length] at this
  simpa [cornersAt, Function.comp_def] using this

theorem resizePoint_eq (cm : CoordMode) : ∀ (ins outs os : List Nat), ins.length = outs.length →
    os.length = outs.length → resizePoint cm ins outs os =
      (List.range outs.length).map (ptAt cm ins outs os)
  | [], [], [], _, _ => rfl
  | i :: ins, s :: outs, o :: os, h1, h2 => by
    rw [resizePoint, resizePoint_eq cm ins outs os (by simpa using h1) (by simpa using h2), List.length_cons,
      List.range_succ_eq_map, List.map_cons, List.map_map]
    congr 1
    · simp only [ptAt, List.getD_cons_zero, coordOf_eq]

theorem coordOf_same (hm : cm ≠ .tfHalfPixelForNN) {o i : Nat} (h : o < i) : coordOf cm o i i = o := by
  have hi : (i : ℚ) ≠ 0 := by
    have : 0 < i := by omega
    positivity
  cases cm with
  | halfPixel => simp only [coordOf]; field_simp; ring
  | asymmetric => simp only [coordOf]; field_simp
  | alignCorners =>
    simp only [coordOf]
    split_ifs with h1
    · have : o = 0 := by omega
      simp [this]
    · have h2 : (1 : ℚ) < i := by exact_mod_cast not_le.1 h1
      have : (i : ℚ) - 1 ≠ 0 := by linarith
      field_simp
  | pytorchHalfPixel =>
    simp only [coordOf]
    split_ifs with h1
    · field_simp; ring
    · have : o = 0 := by omega
      simp [this]
  | tfHalfPixelForNN => exact absurd rfl hm

/-- The corners interpolate along every axis. -/
theorem cornersAt_value (f : List Nat → ℚ) (hl : sIn.length = sOut.length) (hc : InRange sOut c)
    (hm : cm ≠ .tfHalfPixelForNN ∨ ∀ d, d < sOut.length → sIn.getD d 0 ≠ sOut.getD d 0) :
    ((cornersAt cm sIn sOut c).map fun q => q.2 * f q.1).sum = multilinear f (resizePoint cm sIn sOut c) := by
  obtain ⟨c1, c2⟩ := inRange_iff.1 hc
  have h := corner_sum f (infoAt cm sIn sOut c) c 1
  rw [infoAt_length, one_mul] at h
  have h2 := iter_multilinear f (fun d => decide (sIn.getD d 0 ≠ sOut.getD d 0)) (ptAt cm sIn sOut c) c [] (by
    intro i hi hs
    simp only [List.length_nil, Nat.zero_add] at hs ⊢
    have hs' : sIn.getD i 0 = sOut.getD i 0 := by simpa using hs
    have hm' : cm ≠ .tfHalfPixelForNN := by
      rcases hm with h | h
      · exact h
      · exact absurd hs' (h i (by omega))
    have hlt := c2 i (by omega)
    rw [ptAt, hs', coordOf_same hm' hlt, clampCoord_int hlt, List.getD_eq_getElem _ _ hi])
  simp only [List.length_nil, List.nil_append, List.range'_eq_map_range, Nat.zero_add, List.map_id'] at h2
  rw [resizePoint_eq cm sIn sOut c hl c1, ← c1, ← h2, c1]
  simp only [cornersAt, List.map_map, Function.comp_def]
  exact h

/-- The exact weights in fixed point. -/
def rawAt (cm : CoordMode) (sIn sOut c : List Nat) (scaling : Nat) : List ℚ :=
  (cornersAt cm sIn sOut c).map fun q => q.2 * scaling

theorem rawAt_nonneg (hin : ∀ d, d < sOut.length → 0 < sIn.getD d 0) (S : Nat) :
    ∀ r ∈ rawAt cm sIn sOut c S, 0 ≤ r := by
  intro r hr
  obtain ⟨q, hq, rfl⟩ := List.mem_map.1 hr
  exact mul_nonneg (cornersAt_nonneg hin hq) (by positivity)

theorem rawAt_sum (hin : ∀ d, d < sOut.length → 0 < sIn.getD d 0) (S : Nat) :
    (rawAt cm sIn sOut c S).sum = S := by
  rw [rawAt, List.sum_map_mul_right, cornersAt_sum hin, one_mul]

theorem rawAt_length (S : Nat) : (rawAt cm sIn sOut c S).length = 2 ^ changedAxes sIn sOut := by
  simp [rawAt, cornersAt]

theorem linearSpec_ok (hl : sIn.length = sOut.length) (hin : ∀ d, d < sOut.length → 0 < sIn.getD d 0)
    (S flat : Nat) (hf : flat < sOut.prod) :
    linearSpec cm sIn sOut S flat = .ok
      ((cornersAt cm sIn sOut (unravel flat sOut)).map fun q => rowMajor sIn q.1,
        quantise (rawAt cm sIn sOut (unravel flat sOut) S) S) := by
  unfold linearSpec
  simp only [dimInfo_ok hin, bind, Except.bind, infoAt_length]
  have : (cornersAt cm sIn sOut (unravel flat sOut)).mapM (fun q => ravelR q.1 sIn) =
      .ok ((cornersAt cm sIn sOut (unravel flat sOut)).map fun q => rowMajor sIn q.1) :=
    mapM_ok fun q hq => ravelR_ok (inRange_iff.1 (cornersAt_inRange hl hin (unravel_inRange hf) hq)).1
  rw [show (List.range (2 ^ changedAxes sIn sOut)).map (fun mask =>
    cornerOf (infoAt cm sIn sOut (unravel flat sOut)) mask (unravel flat sOut) 1) =
    cornersAt cm sIn sOut (unravel flat sOut) from rfl, this]
  rfl

end point

/-! ## Values -/

/-- The corner values of one output. -/
def valsAt (cm : CoordMode) (x : Arr Int) (sOut c : List Nat) : List Int :=
  (cornersAt cm x.shape sOut c).map fun q => (elem x q.1).getD 0

/-- The fixed-point weights of one output. -/
def wtsAt (cm : CoordMode) (sIn sOut c : List Nat) (κ : Nat) : List Int :=
  quantise (rawAt cm sIn sOut c (2 ^ κ)) (2 ^ κ)

theorem dot_err : ∀ (xs ws : List Int) (raw : List ℚ) {M : ℚ}, List.Forall₂ (fun (w : Int) r => |(w : ℚ) - r| ≤ 3 / 2) ws raw →
    xs.length = ws.length → (∀ x ∈ xs, |(x : ℚ)| ≤ M) →
    |(idot xs ws : ℚ) - ((xs.zip raw).map fun q => (q.1 : ℚ) * q.2).sum| ≤ 3 / 2 * M * xs.length
  | [], _, _, _, _, _, _ => by simp [idot]
  | x :: xs, [], _, _, _, h, _ => by simp at h
  | x :: xs, w :: ws, r :: raw, M, h, hl, hx => by
    obtain ⟨h1, h2⟩ := List.forall₂_cons.1 h
    have ih := dot_err xs ws raw h2 (by simpa using hl) fun y hy => hx y (by simp [hy])
    have hxM := hx x (by simp)
    simp only [idot, List.zip_cons_cons, List.map_cons, List.sum_cons, List.length_cons] at ih ⊢
    have h3 : |(x : ℚ) * ((w : ℚ) - r)| ≤ 3 / 2 * M := by
      rw [abs_mul]
      nlinarith [abs_nonneg (x : ℚ), abs_nonneg ((w : ℚ) - r)]
    rw [abs_le] at *
    push_cast at ih ⊢
    constructor <;> nlinarith

theorem dot_exact : ∀ (xs ws : List Int) (raw : List ℚ), List.Forall₂ (fun (w : Int) r => (w : ℚ) = r) ws raw →
    (idot xs ws : ℚ) = ((xs.zip raw).map fun q => (q.1 : ℚ) * q.2).sum
  | [], _, _, _ => by simp [idot]
  | x :: xs, _, _, List.Forall₂.nil => by simp [idot]
  | x :: xs, _, _, List.Forall₂.cons h1 h2 => by
    have ih := dot_exact xs _ _ h2
    simp only [idot, List.zip_cons_cons, List.map_cons, List.sum_cons] at ih ⊢
    push_cast at ih ⊢
    rw [ih, h1]

theorem dotAbs_le : ∀ (xs ws : List Int) {M : Int}, 0 ≤ M → (∀ w ∈ ws, 0 ≤ w) → (∀ x ∈ xs, |x| ≤ M) →
    ((xs.zip ws).map fun q => |q.1 * q.2|).sum ≤ M * ws.sum
  | [], ws, M, hM, hw, _ => by
    have : 0 ≤ ws.sum := List.sum_nonneg hw
    simpa using mul_nonneg hM this
  | x :: xs, [], _, _, _, _ => by simp
  | x :: xs, w :: ws, M, hM, hw, hx => by
    have ih := dotAbs_le xs ws hM (fun y hy => hw y (by simp [hy])) fun y hy => hx y (by simp [hy])
    have h1 := hx x (by simp)
    have h2 := hw w (by simp)
    simp only [List.zip_cons_cons, List.map_cons, List.sum_cons, abs_mul, abs_of_nonneg h2] at ih ⊢
    nlinarith

theorem roundedMean_floor (X : Int) {n : Nat} (hn : 0 < n) : roundedMean X n = ⌊(X : ℚ) / n + 1 / 2⌋ := by
  have hn' : (n : ℚ) ≠ 0 := by positivity
  unfold roundedMean
  have e : (X : ℚ) / n + 1 / 2 = ((2 * X + n : Int) : ℚ) / ((2 * n : Nat) : ℚ) := by
    push_cast; field_simp
  rw [e, Rat.floor_intCast_div_natCast]
  push_cast; rfl

theorem zip_map_eq {α : Type} (l : List α) (f : α → Int) (g : α → ℚ) :
    ((l.map f).zip (l.map g)).map (fun q => (q.1 : ℚ) * q.2) = l.map fun a => (f a : ℚ) * g a := by
  induction l with
  | nil => rfl
  | cons a l ih => simp [ih]

section value
variable {cm : CoordMode} {x : Arr Int} {sOut c : List Nat} {κ : Nat}

theorem exact_value (hl : x.shape.length = sOut.length) (hc : InRange sOut c)
    (hm : cm ≠ .tfHalfPixelForNN ∨ ∀ d, d < sOut.length → x.shape.getD d 0 ≠ sOut.getD d 0) :
    (((valsAt cm x sOut c).zip (rawAt cm x.shape sOut c (2 ^ κ))).map fun q => (q.1 : ℚ) * q.2).sum =
      2 ^ κ * multilinear (fun c => (((elem x c).getD 0 : Int) : ℚ)) (resizePoint cm x.shape sOut c) := by
  rw [valsAt, rawAt, zip_map_eq, ← cornersAt_value _ hl hc hm, ← List.sum_map_mul_left]
  congr 1
  refine List.map_congr_left fun q _ => ?_
  push_cast; ring

theorem wts_forall₂ (hin : ∀ d, d < sOut.length → 0 < x.shape.getD d 0) :
    List.Forall₂ (fun (w : Int) r => |(w : ℚ) - r| ≤ 3 / 2) (wtsAt cm x.shape sOut c κ)
      (rawAt cm x.shape sOut c (2 ^ κ)) := by
  have hlen := quantise_length _ _ (rawAt_nonneg (cm := cm) (c := c) hin (2 ^ κ)) (rawAt_sum hin (2 ^ κ))
  refine List.forall₂_iff_get.2 ⟨hlen, fun i h1 h2 => ?_⟩
  have := quantise_err _ _ (rawAt_nonneg (cm := cm) (c := c) hin (2 ^ κ)) (rawAt_sum hin (2 ^ κ)) i h2
  change |(((wtsAt cm x.shape sOut c κ).getD i 0 : Int) : ℚ) - _| ≤ _ at this
  rw [List.getD_eq_getElem _ _ h1, List.getD_eq_getElem _ _ h2] at this
  exact this

theorem wts_length (hin : ∀ d, d < sOut.length → 0 < x.shape.getD d 0) :
    (valsAt cm x sOut c).length = (wtsAt cm x.shape sOut c κ).length := by
  rw [wtsAt, quantise_length _ _ (rawAt_nonneg hin _) (rawAt_sum hin _)]
  simp [valsAt, rawAt]

theorem vals_bound {M : Int} (hM : 0 ≤ M) (hx : ∀ v ∈ x.data, |v| ≤ M) : ∀ v ∈ valsAt cm x sOut c, |v| ≤ M := by
  intro v hv
  obtain ⟨q, _, rfl⟩ := List.mem_map.1 hv
  cases e : elem x q.1 with
  | none => simpa using hM
  | some v => exact hx v (List.mem_of_getElem? e)

/-- Accuracy of the fixed-point interpolation. -/
theorem value_accuracy (hl : x.shape.length = sOut.length) (hin : ∀ d, d < sOut.length → 0 < x.shape.getD d 0)
    (hc : InRange sOut c)
    (hm : cm ≠ .tfHalfPixelForNN ∨ ∀ d, d < sOut.length → x.shape.getD d 0 ≠ sOut.getD d 0)
    {M : Int} (hM : 0 ≤ M) (hx : ∀ v ∈ x.data, |v| ≤ M) :
    |((roundedMean (idot (valsAt cm x sOut c) (wtsAt cm x.shape sOut c κ)) (2 ^ κ) : Int) : ℚ) -
      multilinear (fun c => (((elem x c).getD 0 : Int) : ℚ)) (resizePoint cm x.shape sOut c)| ≤
      1 / 2 + 3 / 2 * M * 2 ^ changedAxes x.shape sOut / 2 ^ κ := by
  have h1 := dot_err (valsAt cm x sOut c) _ _ (M := (M : ℚ)) (wts_forall₂ (cm := cm) (c := c) (κ := κ) hin)
    (wts_length hin) (fun v hv => by exact_mod_cast vals_bound hM hx v hv)
  rw [exact_value hl hc hm] at h1
  have hlen : ((valsAt cm x sOut c).length : ℚ) = 2 ^ changedAxes x.shape sOut := by
    simp [valsAt, cornersAt]
  rw [hlen] at h1
  rw [roundedMean_floor _ (by positivity)]
  generalize multilinear (fun c => (((elem x c).getD 0 : Int) : ℚ)) (resizePoint cm x.shape sOut c) = I at *
  generalize idot (valsAt cm x sOut c) (wtsAt cm x.shape sOut c κ) = X at *
  have hp : (0 : ℚ) < 2 ^ κ := by positivity
  have h2 : |(X : ℚ) / 2 ^ κ - I| ≤ 3 / 2 * M * 2 ^ changedAxes x.shape sOut / 2 ^ κ := by
    rw [show (X : ℚ) / 2 ^ κ - I = ((X : ℚ) - 2 ^ κ * I) / 2 ^ κ by field_simp, abs_div, abs_of_pos hp]
    gcongr
  have hf1 := Int.floor_le ((X : ℚ) / ((2 ^ κ : Nat) : ℚ) + 1 / 2)
  have hf2 := Int.lt_floor_add_one ((X : ℚ) / ((2 ^ κ : Nat) : ℚ) + 1 / 2)
  push_cast at hf1 hf2 ⊢
  rw [abs_le] at *
  constructor <;> linarith

/-! ### Exact weights -/

theorem cornerOf_dyadic (e : Nat) : ∀ (info : List (Nat × Nat × Nat × ℚ × ℚ)) (m : Nat) (c : List Nat) (w : ℚ),
    (∀ i ∈ info, (∃ n : Nat, 2 ^ e * i.2.2.2.1 = (n : ℚ)) ∧ ∃ n : Nat, 2 ^ e * i.2.2.2.2 = (n : ℚ)) →
    ∃ n : Nat, 2 ^ (e * info.length) * (cornerOf info m c w).2 = w * n
  | [], _, _, w, _ => ⟨1, by simp [cornerOf]⟩
  | (d, lo, hi, wl, wh) :: r, m, c, w, h => by
    obtain ⟨⟨a, ha⟩, ⟨b, hb⟩⟩ := h (d, lo, hi, wl, wh) (by simp)
    have ih := fun m c w => cornerOf_dyadic e r m c w fun i hi => h i (by simp [hi])
    simp only [List.length_cons, Nat.mul_add, pow_add, Nat.mul_one]
    unfold cornerOf
    split_ifs
    · obtain ⟨n, hn⟩ := ih (m / 2) (c.set d lo) (w * wl)
      refine ⟨a * n, ?_⟩
      push_cast
      rw [← ha, mul_comm ((2 : ℚ) ^ (e * r.length)), mul_assoc, hn]; ring
    · obtain ⟨n, hn⟩ := ih (m / 2) (c.set d hi) (w * wh)
      refine ⟨b * n, ?_⟩
      push_cast
      rw [← hb, mul_comm ((2 : ℚ) ^ (e * r.length)), mul_assoc, hn]; ring

theorem frac_dyadic {y : ℚ} (h : 0 ≤ y) {e n : Nat} (hn : 2 ^ e * y = n) :
    (∃ n : Nat, 2 ^ e * (1 - (y - ⌊y⌋₊)) = (n : ℚ)) ∧ ∃ n : Nat, 2 ^ e * (y - ⌊y⌋₊) = (n : ℚ) := by
  obtain ⟨h1, h2⟩ := frac_bounds h
  have key : ∀ z : ℚ, 0 ≤ z → (∃ k : Int, z = k) → ∃ n : Nat, z = n := by
    rintro z hz ⟨k, rfl⟩
    have : 0 ≤ k := by exact_mod_cast hz
    obtain ⟨n, rfl⟩ := Int.eq_ofNat_of_zero_le this
    exact ⟨n, by simp⟩
  refine ⟨key _ (by positivity) ⟨2 ^ e - (n - 2 ^ e * ⌊y⌋₊), ?_⟩, key _ (by positivity) ⟨n - 2 ^ e * ⌊y⌋₊, ?_⟩⟩
  · push_cast; rw [← hn]; ring
  · push_cast; rw [← hn]; ring

theorem raw_integral (hl : x.shape.length = sOut.length) (hin : ∀ d, d < sOut.length → 0 < x.shape.getD d 0)
    (hc : InRange sOut c) {e : Nat}
    (he : ∀ y ∈ resizePoint cm x.shape sOut c, ∃ n : Nat, 2 ^ e * y = (n : ℚ))
    (hκ : e * changedAxes x.shape sOut ≤ κ) :
    ∀ r ∈ rawAt cm x.shape sOut c (2 ^ κ), ∃ k : Nat, r = k := by
  intro r hr
  obtain ⟨q, hq, rfl⟩ := List.mem_map.1 hr
  obtain ⟨m, _, rfl⟩ := List.mem_map.1 hq
  obtain ⟨n, hn⟩ := cornerOf_dyadic e (infoAt cm x.shape sOut c) m c 1 (by
    intro i hi
    obtain ⟨d, hd, rfl⟩ := List.mem_map.1 hi
    have hlt := (mem_resizeDims.1 hd).1
    obtain ⟨n, hn⟩ := he (ptAt cm x.shape sOut c d) (by
      rw [resizePoint_eq cm _ _ _ hl (inRange_iff.1 hc).1]
      exact List.mem_map_of_mem (List.mem_range.2 hlt))
    exact frac_dyadic (clampCoord_bounds (hin d hlt) _).1 hn)
  rw [infoAt_length, one_mul] at hn
  refine ⟨2 ^ (κ - e * changedAxes x.shape sOut) * n, ?_⟩
  push_cast
  rw [← hn, ← mul_assoc, ← pow_add, Nat.sub_add_cancel hκ]; ring

theorem wts_exact (hl : x.shape.length = sOut.length) (hin : ∀ d, d < sOut.length → 0 < x.shape.getD d 0)
    (hc : InRange sOut c) {e : Nat}
    (he : ∀ y ∈ resizePoint cm x.shape sOut c, ∃ n : Nat, 2 ^ e * y = (n : ℚ))
    (hκ : e * changedAxes x.shape sOut ≤ κ) :
    List.Forall₂ (fun (w : Int) r => (w : ℚ) = r) (wtsAt cm x.shape sOut c κ) (rawAt cm x.shape sOut c (2 ^ κ)) ∧
      ∀ w ∈ wtsAt cm x.shape sOut c κ, 0 ≤ w := by
  have hi := raw_integral (κ := κ) hl hin hc he hκ
  rw [wtsAt, quantise_exact _ _ hi (rawAt_sum hin _)]
  constructor
  · rw [List.forall₂_map_left_iff, List.forall₂_same]
    intro r hr
    obtain ⟨k, rfl⟩ := hi r hr
    rw [roundAway_natCast]; simp
  · intro w hw
    obtain ⟨r, hr, rfl⟩ := List.mem_map.1 hw
    exact roundAway_nonneg (rawAt_nonneg hin _ r hr)

theorem value_exact (hl : x.shape.length = sOut.length) (hin : ∀ d, d < sOut.length → 0 < x.shape.getD d 0)
    (hc : InRange sOut c)
    (hm : cm ≠ .tfHalfPixelForNN ∨ ∀ d, d < sOut.length → x.shape.getD d 0 ≠ sOut.getD d 0) {e : Nat}
    (he : ∀ y ∈ resizePoint cm x.shape sOut c, ∃ n : Nat, 2 ^ e * y = (n : ℚ))
    (hκ : e * changedAxes x.shape sOut ≤ κ) :
    roundedMean (idot (valsAt cm x sOut c) (wtsAt cm x.shape sOut c κ)) (2 ^ κ) =
      ⌊multilinear (fun c => (((elem x c).getD 0 : Int) : ℚ)) (resizePoint cm x.shape sOut c) + 1 / 2⌋ := by
  rw [roundedMean_floor _ (by positivity), dot_exact _ _ _ (wts_exact hl hin hc he hκ).1, exact_value hl hc hm]
  push_cast
  rw [mul_div_cancel_left₀ _ (by positivity)]

end value

/-! ## The layer -/

variable {p : Nat} [Fact p.Prime] {T : Tables (ZMod p)}

theorem liftR_ok_bind {F α β : Type} [CommRing F] (a : α) (f : α → G F β) :
    ((liftR (.ok a) : G F α) >>= f) = f a := by
  funext h
  change (match f a h with
    | .error e => .error e
    | .ok o' => .ok ⟨o'.val, Cons.nil.app o'.cons, o'.rest⟩) = f a h
  cases f a h <;> rfl

theorem resizeOut_reads {rc : RangeCtx} {cm : CoordMode} {κ nb : Nat} {x : Arr Int} (hx : x.WF) {sOut : List Nat}
    (hl : x.shape.length = sOut.length) (hin : ∀ d, d < sOut.length → 0 < x.shape.getD d 0) {c : List Nat}
    (hc : InRange sOut c) (ws : List Int) :
    resizeOut rc κ nb (castArr p x) ((cornersAt cm x.shape sOut c).map fun q => rowMajor x.shape q.1, ws) =
      resizeCell rc κ nb ((valsAt cm x sOut c).map fun v : Int => (v : ZMod p)) ws := by
  unfold resizeOut
  have : ((cornersAt cm x.shape sOut c).map fun q => rowMajor x.shape q.1).mapM
      (readAt .panic (castArr p x).data) = .ok ((valsAt cm x sOut c).map fun v : Int => (v : ZMod p)) := by
    rw [mapM_ok (g := fun i => (((x.data.getD i 0 : Int)) : ZMod p))]
    · congr 1
      rw [valsAt, List.map_map, List.map_map]
      refine List.map_congr_left fun q hq => ?_
      simp only [Function.comp_apply, elem, List.getD_eq_getElem?_getD]
    · intro i hi
      obtain ⟨q, hq, rfl⟩ := List.mem_map.1 hi
      have hlt := rowMajor_lt (cornersAt_inRange hl hin hc hq)
      have hlt' : rowMajor x.shape q.1 < x.data.length := by rw [hx]; exact hlt
      apply readAt_ok
      simp only [castArr, List.getElem?_map, List.getElem?_eq_getElem hlt', Option.map_some,
        List.getD_eq_getElem _ _ hlt']
  rw [this, liftR_ok_bind]

/-- The specifications of all outputs. -/
def specsAt (cm : CoordMode) (sIn sOut : List Nat) (κ : Nat) : List (List Nat × List Int) :=
  (List.range sOut.prod).map fun f =>
    ((cornersAt cm sIn sOut (unravel f sOut)).map fun q => rowMajor sIn q.1, wtsAt cm sIn sOut (unravel f sOut) κ)

theorem buildLinear_ok {cm : CoordMode} {sIn sOut : List Nat} {κ : Nat} (hl : sIn.length = sOut.length)
    (hin : ∀ d, d < sOut.length → 0 < sIn.getD d 0) :
    buildLinear cm sIn sOut (2 ^ κ) = .ok (specsAt cm sIn sOut κ) :=
  mapM_ok fun f hf => linearSpec_ok hl hin _ f (List.mem_range.1 hf)

/-- The tensor of the values of a function of the coordinates. -/
def tabulate (sOut : List Nat) (v : List Nat → Int) : Arr Int :=
  ⟨sOut, (List.range sOut.prod).map fun f => v (unravel f sOut)⟩

theorem tabulate_elem {sOut : List Nat} (v : List Nat → Int) {c : List Nat} (hc : InRange sOut c) :
    elem (tabulate sOut v) c = some (v c) := by
  have h := rowMajor_lt hc
  simp only [elem, tabulate]
  rw [List.getElem?_map, List.getElem?_range h, Option.map_some, unravel_rowMajor hc]

theorem sound_resizeLinear {rc : RangeCtx} {cm : CoordMode} {κ nb : Nat} {x : Arr Int} (hx : x.WF)
    {sOut : List Nat} (hl : x.shape.length = sOut.length) (hin : ∀ d, d < sOut.length → 0 < x.shape.getD d 0)
    {v : List Nat → Int} {P : List Nat → Prop}
    (hcell : ∀ c, InRange sOut c → Sound T (resizeCell rc κ nb
      ((valsAt cm x sOut c).map fun v : Int => (v : ZMod p)) (wtsAt cm x.shape sOut c κ))
      (fun y => y = ((v c : Int) : ZMod p) ∧ P c)) :
    Sound T (resizeLinear rc cm κ nb sOut (castArr p x))
      (fun y => y = castArr p (tabulate sOut v) ∧ ∀ c, InRange sOut c → P c) := by
  unfold resizeLinear
  split_ifs with hκ
  · exact Sound.throwErr
  have e : buildLinear cm (castArr p x).shape sOut (2 ^ κ) = .ok (specsAt cm x.shape sOut κ) := buildLinear_ok hl hin
  refine sound_liftR.bind fun specs hs => ?_
  obtain rfl : specsAt cm x.shape sOut κ = specs := Except.ok.inj (e.symm.trans hs)
  refine (sound_collectG (Q := fun s y => ∀ f, f < sOut.prod → s = ((cornersAt cm x.shape sOut (unravel f sOut)).map
      (fun q => rowMajor x.shape q.1), wtsAt cm x.shape sOut (unravel f sOut) κ) →
      y = ((v (unravel f sOut) : Int) : ZMod p) ∧ P (unravel f sOut)) _ ?_).bind fun ys hys => ?_
  · intro s hs hh o ho hsat f hf es
    subst es
    rw [resizeOut_reads hx hl hin (unravel_inRange hf)] at ho
    exact hcell _ (unravel_inRange hf) hh o ho hsat
  · refine sound_liftR.conseq fun y hy => ?_
    have hy' : ys.length = sOut.prod := by rw [← hys.length_eq]; simp [specsAt]
    rw [fromShapeVec_ok hy'] at hy
    obtain rfl := Except.ok.inj hy
    have hall : ∀ f (hf : f < sOut.prod), ys[f]'(by omega) = ((v (unravel f sOut) : Int) : ZMod p) ∧
        P (unravel f sOut) := by
      intro f hf
      have := (List.forall₂_iff_get.1 hys).2 f (by simpa [specsAt] using hf) (by omega)
      exact this f hf (by simp [specsAt])
    constructor
    · simp only [castArr, tabulate, List.map_map]
      congr 1
      refine List.ext_getElem (by simp [hy']) fun f h1 h2 => ?_
      rw [(hall f (by omega)).1]
      simp
    · intro c hc
      have := (hall (rowMajor sOut c) (rowMajor_lt hc)).2
      rwa [unravel_rowMajor hc] at this

theorem complete_resizeLinear {rc : RangeCtx} {cm : CoordMode} {κ nb : Nat} (hκ : κ < 64) {x : Arr Int} (hx : x.WF)
    {sOut : List Nat} (hl : x.shape.length = sOut.length) (hin : ∀ d, d < sOut.length → 0 < x.shape.getD d 0)
    {v : List Nat → Int}
    (hcell : ∀ c, InRange sOut c → Complete T (resizeCell rc κ nb
      ((valsAt cm x sOut c).map fun v : Int => (v : ZMod p)) (wtsAt cm x.shape sOut c κ))
      (fun y => y = ((v c : Int) : ZMod p))) :
    Complete T (resizeLinear rc cm κ nb sOut (castArr p x)) (fun y => y = castArr p (tabulate sOut v)) := by
  unfold resizeLinear
  rw [if_neg (by omega)]
  have e : buildLinear cm (castArr p x).shape sOut (2 ^ κ) = .ok (specsAt cm x.shape sOut κ) := buildLinear_ok hl hin
  refine (complete_liftR e).bind ?_
  rintro _ rfl
  have hcol : Complete T (collectG (resizeOut rc κ nb (castArr p x)) (specsAt cm x.shape sOut κ))
      (fun ys => ys = (List.range sOut.prod).map fun f => ((v (unravel f sOut) : Int) : ZMod p)) := by
    have := complete_collectG (T := T) (f := fun f => resizeOut rc κ nb (castArr p x)
        ((cornersAt cm x.shape sOut (unravel f sOut)).map (fun q => rowMajor x.shape q.1),
          wtsAt cm x.shape sOut (unravel f sOut) κ))
      (Q := fun f y => y = ((v (unravel f sOut) : Int) : ZMod p)) (List.range sOut.prod) (by
        intro f hf
        have hf' := List.mem_range.1 hf
        simp only [resizeOut_reads hx hl hin (unravel_inRange hf')]
        exact hcell _ (unravel_inRange hf'))
    rw [specsAt, collectG_map]
    refine this.conseq fun ys hys => ?_
    refine List.ext_getElem (by simp [← hys.length_eq]) fun f h1 h2 => ?_
    have := (List.forall₂_iff_get.1 hys).2 f (by simpa using h2) h1
    simpa using this
  refine hcol.bind ?_
  rintro _ rfl
  refine (complete_liftR (fromShapeVec_ok (by simp))).conseq ?_
  rintro _ rfl
  simp [castArr, tabulate, Function.comp_def]

end JST.Layers
