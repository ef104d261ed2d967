import Verif.Tensor.ResizeLinear

/-!
# C76: Resize
-/

namespace JST.Props

open JST.Shape JST.Spec JST.Layers

variable {p : Nat} [Fact p.Prime] {T : Tables (ZMod p)}

theorem pos_of_mem {sIn sOut : List Nat} (hl : sIn.length = sOut.length) (hin : ∀ s ∈ sIn, 0 < s) :
    ∀ d, d < sOut.length → 0 < sIn.getD d 0 := fun d hd => by
  rw [List.getD_eq_getElem _ _ (by omega)]; exact hin _ (List.getElem_mem _)

/-! ## Nearest -/

/-- **C76, nearest.** Every output is the element of the input at the nearest point that ONNX defines for
the given sizes, for every coordinate mode, every rounding mode, every rank and every size (up to
5·10^9 per axis, where the tolerance of the tie test starts to matter). -/
theorem C76_nearest {α : Type} (cm : CoordMode) (nm : NearestMode) (x : Arr α) (hx : x.WF) (out : List Nat)
    (hl : x.shape.length = out.length) (hin : ∀ s ∈ x.shape, 0 < s) (hbig : ∀ s ∈ out, s ≤ 5 * 10 ^ 9) :
    ∃ y, resizeNearest cm nm out x = .ok y ∧ y.shape = out ∧ y.WF ∧
      ∀ c, InRange out c → ∃ c', NearestPoint cm nm x.shape out c c' ∧
        (∀ c'', NearestPoint cm nm x.shape out c c'' → c'' = c') ∧
        InRange x.shape c' ∧ elem y c = elem x c' := by
  have hin' := pos_of_mem hl hin
  obtain ⟨y, h1, h2, h3, h4⟩ := applyMap_ok .panic x hx out (nearestSrc cm nm x.shape out)
    fun c _ => nearestSrc_inRange hl hin'
  refine ⟨y, ?_, h2, h3, fun c hc => ?_⟩
  · rw [resizeNearest, buildNearest_ok hl hin']
    exact h1
  · have hp := nearestSrc_point (cm := cm) (nm := nm) hin' hc hbig
    obtain ⟨h5, h6⟩ := h4 c (h2 ▸ hc)
    exact ⟨_, hp, fun c'' h => nearestPoint_unique h hp, h5, h6⟩

/-- **C76, an empty axis is refused** when there is an output to compute. -/
theorem C76_empty_axis {α : Type} (cm : CoordMode) (nm : NearestMode) (x : Arr α) {out : List Nat}
    {d : Nat} (hd : d < out.length) (h0 : x.shape.getD d 0 = 0) (hout : 0 < out.prod) :
    resizeNearest cm nm out x = .error .invalid := by
  have hin : ∀ c : List Nat, (List.range out.length).mapM (fun d => nearestIdx nm
      (coordOf cm (c.getD d 0) (x.shape.getD d 0) (out.getD d 0)) (x.shape.getD d 0)) = .error .invalid := by
    intro c
    have key : ∀ l : List Nat, d ∈ l → l.mapM (fun d => nearestIdx nm
        (coordOf cm (c.getD d 0) (x.shape.getD d 0) (out.getD d 0)) (x.shape.getD d 0)) = .error .invalid := by
      intro l
      induction l with
      | nil => intro h; simp at h
      | cons a l ih =>
        intro h
        rw [List.mapM_cons]
        by_cases ha : x.shape.getD a 0 = 0
        · simp only [nearestIdx, ha, if_true]; rfl
        · have : d ∈ l := by
            rcases List.mem_cons.1 h with rfl | h
            · exact absurd h0 ha
            · exact h
          rw [ih this]
          simp only [nearestIdx, if_neg ha]; rfl
    exact key _ (List.mem_range.2 hd)
  have : buildNearest cm nm x.shape out = .error .invalid := by
    unfold buildNearest
    obtain ⟨n, hn⟩ := Nat.exists_eq_succ_of_ne_zero hout.ne'
    rw [hn, List.range_succ_eq_map, List.mapM_cons]
    simp only [hin, bind, Except.bind]
  rw [resizeNearest, this]; rfl

theorem ok_of_toOption {r : R (Arr Int)} {s : List Nat} {d : List Int}
    (h : r.toOption.map (fun y => (y.shape, y.data)) = some (s, d)) : r = .ok ⟨s, d⟩ := by
  cases r with
  | error e => simp [Except.toOption] at h
  | ok y => cases y; simp [Except.toOption] at h; simp [h]

/-- **C76, the given scale is ignored.** When the node gives `scales` and `in * scale` is not an integer,
ONNX maps coordinates with the given scale. The layer maps with the quotient of the sizes. -/
theorem C76_scales_ignored :
    ∃ (scale : ℚ) (sIn sOut o : Nat), inferResize [sIn] none (some [scale]) = .ok [sOut] ∧ o < sOut ∧
      (∃ i : Int, IsNearest .floor (originalCoord .asymmetric scale sIn sOut o) i ∧ IsClamped sIn i 3) ∧
      resizeNearest .asymmetric .floor [sOut] (⟨[sIn], [0, 1, 2, 3, 4]⟩ : Arr Int) = .ok ⟨[sOut], [0, 0, 1, 2, 3, 4]⟩ ∧
      o = 5 := by
  refine ⟨13 / 10, 5, 6, 5, ?_, by norm_num, ⟨3, ?_, ?_⟩, ?_, rfl⟩
  · decide +kernel
  · simp only [IsNearest, originalCoord]; norm_num
  · simp [IsClamped]
  · exact ok_of_toOption (by decide +kernel)

/-! ## Attributes and shapes -/

/-- The strings that select interpolation. -/
def isLinearName (s : String) : Prop := s = "linear" ∨ s = "bilinear" ∨ s = "trilinear"

/-- **C76, defaults and names.** Without attributes the layer takes the nearest element with half-pixel
coordinates and rounds ties down, as ONNX says; each attribute selects its mode by name. -/
theorem C76_modes (rc : RangeCtx) (κ nb : Nat) (out : List Nat) (x : Arr (ZMod p)) (hl : x.shape.length = out.length) :
    resizeLayer rc κ nb none none none out x = liftR (resizeNearest .halfPixel .roundPreferFloor out x) ∧
    (∀ m c, isLinearName m → parseCoord c = some .halfPixel →
      resizeLayer rc κ nb (some m) (some c) none out x = resizeLinear rc .halfPixel κ nb out x) ∧
    (∀ c cm n nm, parseCoord c = some cm → parseNearest n = some nm →
      resizeLayer rc κ nb (some "nearest") (some c) (some n) out x = liftR (resizeNearest cm nm out x)) ∧
    (∀ m c cm n nm, isLinearName m → parseCoord c = some cm → parseNearest n = some nm →
      resizeLayer rc κ nb (some m) (some c) (some n) out x = resizeLinear rc cm κ nb out x) ∧
    [parseCoord "half_pixel", parseCoord "asymmetric", parseCoord "align_corners",
      parseCoord "pytorch_half_pixel", parseCoord "tf_half_pixel_for_nn"] =
      [some .halfPixel, some .asymmetric, some .alignCorners, some .pytorchHalfPixel, some .tfHalfPixelForNN] ∧
    [parseNearest "round_prefer_floor", parseNearest "round_prefer_ceil", parseNearest "floor", parseNearest "ceil"] =
      [some .roundPreferFloor, some .roundPreferCeil, some .floor, some .ceil] := by
  have hlin : ∀ m, isLinearName m → parseMode m = some .linear := by
    rintro m (rfl | rfl | rfl) <;> decide
  refine ⟨?_, ?_, ?_, ?_, by decide, by decide⟩
  · unfold resizeLayer
    rw [if_neg (by simpa using hl)]
    rfl
  · intro m c hm hc
    unfold resizeLayer
    rw [if_neg (by simpa using hl)]
    simp only [Option.getD_some, Option.getD_none, hlin m hm, hc]
    rfl
  · intro c cm n nm hc hn
    unfold resizeLayer
    rw [if_neg (by simpa using hl)]
    simp only [Option.getD_some, hc, hn]
    rfl
  · intro m c cm n nm hm hc hn
    unfold resizeLayer
    rw [if_neg (by simpa using hl)]
    simp only [Option.getD_some, hlin m hm, hc, hn]

/-- **C76, refusals.** A change of rank, cubic interpolation, and any name that is not in the lists are
refused with an error. -/
theorem C76_refuses (rc : RangeCtx) (κ nb : Nat) (mode cm nm : Option String) (out : List Nat) (x : Arr (ZMod p))
    (h : x.shape.length ≠ out.length ∨
      ¬ (mode = none ∨ mode = some "nearest" ∨ ∃ m, mode = some m ∧ isLinearName m) ∨
      ¬ (cm = none ∨ ∃ c, cm = some c ∧
        c ∈ ["half_pixel", "asymmetric", "align_corners", "pytorch_half_pixel", "tf_half_pixel_for_nn"]) ∨
      ¬ (nm = none ∨ ∃ n, nm = some n ∧ n ∈ ["round_prefer_floor", "round_prefer_ceil", "floor", "ceil"])) :
    ∀ hs, ∃ e, resizeLayer rc κ nb mode cm nm out x hs = .error (.err e) := by
  intro hs
  unfold resizeLayer
  split_ifs with hl
  · exact ⟨_, rfl⟩
  rcases h with h | h | h | h
  · exact absurd h hl
  · have : parseMode (mode.getD "nearest") = none ∨ parseMode (mode.getD "nearest") = some .cubic := by
      cases mode with
      | none => exact absurd (.inl rfl) h
      | some m =>
        simp only [Option.getD_some, parseMode]
        split_ifs with a b c
        · exact absurd (.inr (.inl (by rw [a]))) h
        · exact absurd (.inr (.inr ⟨m, rfl, b⟩)) h
        · exact .inr rfl
        · exact .inl rfl
    rcases this with e | e <;> rw [e] <;> exact ⟨_, rfl⟩
  · have : parseCoord (cm.getD "half_pixel") = none := by
      cases cm with
      | none => exact absurd (.inl rfl) h
      | some m =>
        have h' : m ∉ ["half_pixel", "asymmetric", "align_corners", "pytorch_half_pixel", "tf_half_pixel_for_nn"] :=
          fun hm => h (.inr ⟨m, rfl, hm⟩)
        simp only [List.mem_cons, List.not_mem_nil, or_false, not_or] at h'
        simp [parseCoord, h']
    rw [this]
    rcases parseMode (mode.getD "nearest") with _ | _ | _ | _ <;> exact ⟨_, rfl⟩
  · have : parseNearest (nm.getD "round_prefer_floor") = none := by
      cases nm with
      | none => exact absurd (.inl rfl) h
      | some m =>
        have h' : m ∉ ["round_prefer_floor", "round_prefer_ceil", "floor", "ceil"] :=
          fun hm => h (.inr ⟨m, rfl, hm⟩)
        simp only [List.mem_cons, List.not_mem_nil, or_false, not_or] at h'
        simp [parseNearest, h']
    rw [this]
    rcases parseMode (mode.getD "nearest") with _ | _ | _ | _ <;>
      rcases parseCoord (cm.getD "half_pixel") with _ | _ <;> exact ⟨_, rfl⟩

/-- **C76, shapes.** With constant `sizes` for every axis the output has these sizes (none negative). With
constant `scales` only, each axis has `⌊in * scale⌋` elements and every scale is positive. Otherwise the
node is refused. -/
theorem C76_shape (sIn : List Nat) (out : List Nat) :
    (∀ sizes scales, sizes.length = sIn.length →
      (inferResize sIn (some sizes) scales = .ok out ↔ sizes = out.map fun n : Nat => (n : Int))) ∧
    (∀ scales : List ℚ, scales.length = sIn.length →
      (inferResize sIn none (some scales) = .ok out ↔
        (∀ s ∈ scales, 0 < s) ∧ out = (sIn.zip scales).map fun q => ⌊(q.1 : ℚ) * q.2⌋₊)) ∧
    inferResize sIn none none = .error .invalid := by
  refine ⟨fun sizes scales h => ?_, fun scales h => ?_, rfl⟩
  · have e : inferResize sIn (some sizes) scales = sizesDims sizes := by
      unfold inferResize
      rw [show (some sizes).filter (·.length = sIn.length) = some sizes by simp [Option.filter, h]]
    rw [e, sizesDims, mapM_ok_iff]
    constructor
    · intro hf
      clear h e
      induction hf with
      | nil => rfl
      | cons h1 _ ih =>
        rw [List.map_cons, ← ih]
        split_ifs at h1 with hneg
        have := Except.ok.inj h1
        congr 1; omega
    · rintro rfl
      rw [List.forall₂_map_left_iff, List.forall₂_same]
      intro n _
      rw [if_neg (by omega)]; simp
  · have e : inferResize sIn none (some scales) = scalesDims sIn scales := by
      unfold inferResize
      rw [show (some scales).filter (·.length = sIn.length) = some scales by simp [Option.filter, h]]
      rfl
    rw [e, scalesDims]
    constructor
    · intro hm
      have hpos : ∀ q ∈ sIn.zip scales, 0 < q.2 := by
        intro q hq
        rw [mapM_ok_iff] at hm
        obtain ⟨k, hk, rfl⟩ := List.mem_iff_getElem.1 hq
        have hr := (List.forall₂_iff_get.1 hm).2 k hk (by rw [← hm.length_eq]; exact hk)
        simp only [List.get_eq_getElem] at hr
        by_contra hcon
        rw [if_pos (not_lt.1 hcon)] at hr
        cases hr
      refine ⟨fun s hs => ?_, ?_⟩
      · have : scales = (sIn.zip scales).map Prod.snd := (List.map_snd_zip (by omega)).symm
        rw [this] at hs
        obtain ⟨q, hq, rfl⟩ := List.mem_map.1 hs
        exact hpos q hq
      · rw [mapM_ok (g := fun q => ⌊(q.1 : ℚ) * q.2⌋₊) fun q hq => by rw [if_neg (not_le.2 (hpos q hq))]] at hm
        exact (Except.ok.inj hm).symm
    · rintro ⟨h1, rfl⟩
      exact mapM_ok fun q hq => by rw [if_neg (not_le.2 (h1 _ (List.of_mem_zip hq).2))]

/-! ## Weights -/

/-- **C76, weights.** For every output the corners are elements of the input and the fixed-point weights
sum exactly to the scale; each differs from its exact value by at most 3/2 units; the exact weights
interpolate linearly along every axis. -/
theorem C76_weights (cm : CoordMode) (sIn out : List Nat) (κ : Nat) (hl : sIn.length = out.length)
    (hin : ∀ s ∈ sIn, 0 < s) (hm : cm ≠ .tfHalfPixelForNN ∨ ∀ d, d < out.length → sIn.getD d 0 ≠ out.getD d 0)
    {c : List Nat} (hc : InRange out c) :
    ∃ corners : List (List Nat × ℚ), ∃ ws : List Int,
      linearSpec cm sIn out (2 ^ κ) (rowMajor out c) = .ok (corners.map fun q => rowMajor sIn q.1, ws) ∧
      corners.length = 2 ^ changedAxes sIn out ∧ (∀ q ∈ corners, InRange sIn q.1) ∧
      ws.sum = 2 ^ κ ∧
      List.Forall₂ (fun (w : Int) q => |(w : ℚ) - 2 ^ κ * q.2| ≤ 3 / 2) ws corners ∧
      ∀ f : List Nat → ℚ, (corners.map fun q => q.2 * f q.1).sum = multilinear f (resizePoint cm sIn out c) := by
  have hin' := pos_of_mem hl hin
  refine ⟨cornersAt cm sIn out c, wtsAt cm sIn out c κ, ?_, by simp [cornersAt],
    fun q hq => cornersAt_inRange hl hin' hc hq, ?_, ?_, fun f => cornersAt_value f hl hc hm⟩
  · rw [linearSpec_ok hl hin' _ _ (rowMajor_lt hc), unravel_rowMajor hc]; rfl
  · rw [wtsAt, quantise_sum _ _ (rawAt_nonneg hin' _) (rawAt_sum hin' _)]; push_cast; rfl
  · have := wts_forall₂ (cm := cm) (x := ⟨sIn, []⟩) (c := c) (κ := κ) hin'
    rw [rawAt, List.forall₂_map_right_iff] at this
    refine this.imp fun w q h => ?_
    push_cast at h
    rwa [mul_comm] at h

/-- The weights of every output are non-negative (what the code only asserts in debug builds). -/
def NonnegWeights (cm : CoordMode) (sIn out : List Nat) (κ : Nat) : Prop :=
  ∀ flat, flat < out.prod → ∀ idx ws, linearSpec cm sIn out (2 ^ κ) flat = .ok (idx, ws) → ∀ w ∈ ws, 0 ≤ w

theorem nonneg_wts {cm : CoordMode} {sIn out : List Nat} {κ : Nat} (hl : sIn.length = out.length)
    (hin : ∀ s ∈ sIn, 0 < s) : NonnegWeights cm sIn out κ ↔
      ∀ c, InRange out c → ∀ w ∈ wtsAt cm sIn out c κ, 0 ≤ w := by
  constructor
  · intro h c hc
    have := linearSpec_ok (cm := cm) hl (pos_of_mem hl hin) (2 ^ κ) _ (rowMajor_lt hc)
    rw [unravel_rowMajor hc] at this
    exact h _ (rowMajor_lt hc) _ _ this
  · intro h flat hf idx ws e
    have := linearSpec_ok (cm := cm) hl (pos_of_mem hl hin) (2 ^ κ) _ hf
    rw [this] at e
    obtain ⟨_, rfl⟩ := Prod.mk.inj (Except.ok.inj e)
    exact h _ (unravel_inRange hf)

/-- **C76, non-negative weights** when at most one axis changes, or when the coordinates have few enough
binary digits for the weights to be exact (for instance upsampling by powers of two). -/
theorem C76_weights_nonneg_partial (cm : CoordMode) (sIn out : List Nat) (κ : Nat) (hl : sIn.length = out.length)
    (hin : ∀ s ∈ sIn, 0 < s)
    (h : changedAxes sIn out ≤ 1 ∨ ∃ e, e * changedAxes sIn out ≤ κ ∧
      ∀ c, InRange out c → ∀ y ∈ resizePoint cm sIn out c, ∃ n : Nat, 2 ^ e * y = (n : ℚ)) :
    NonnegWeights cm sIn out κ := by
  have hin' := pos_of_mem hl hin
  rw [nonneg_wts hl hin]
  intro c hc
  rcases h with h | ⟨e, he, h⟩
  · refine quantise_nonneg_pair _ _ ?_ (rawAt_nonneg hin' _) (rawAt_sum hin' _)
    rw [rawAt_length]
    calc 2 ^ changedAxes sIn out ≤ 2 ^ 1 := Nat.pow_le_pow_right (by norm_num) h
      _ = 2 := rfl
  · exact (wts_exact (x := ⟨sIn, []⟩) hl hin' hc (h c hc) he).2

/-- The weights of one output of a half-pixel resize from 2×2×2 to 4×6×10 at scale exponent 18. -/
theorem negative_weight_spec : linearSpec .halfPixel [2, 2, 2] [4, 6, 10] (2 ^ 18) 24 =
    .ok ([0, 0, 2, 2, 1, 1, 3, 3], [104858, -1, 52429, 0, 69905, 0, 34953, 0]) := by
  have : (linearSpec .halfPixel [2, 2, 2] [4, 6, 10] (2 ^ 18) 24).toOption =
      some ([0, 0, 2, 2, 1, 1, 3, 3], [104858, -1, 52429, 0, 69905, 0, 34953, 0]) := by decide +kernel
  revert this
  cases linearSpec .halfPixel [2, 2, 2] [4, 6, 10] (2 ^ 18) 24 with
  | error e => simp [Except.toOption]
  | ok q => simp [Except.toOption]

/-- **C76, negative weights.** The correction that makes the weights sum to the scale can turn a zero weight
into `-1`, in the default coordinate mode and at the usual scale exponent 18. -/
theorem C76_negative_weight : ¬ NonnegWeights .halfPixel [2, 2, 2] [4, 6, 10] 18 := by
  intro h
  have := h 24 (by decide) _ _ negative_weight_spec (-1) (by simp)
  omega

/-! ## Interpolation -/

/-- What an interpolated output is: the value of the exact interpolation up to the stated error. -/
def IsInterpolated (cm : CoordMode) (x : Arr Int) (out : List Nat) (κ nb : Nat) (M : Int) (y : Arr Int) : Prop :=
  y.shape = out ∧ y.WF ∧ ∀ c, InRange out c → ∃ v, elem y c = some v ∧ 0 ≤ v ∧ v < 2 ^ nb ∧
    |(v : ℚ) - multilinear (fun c => (((elem x c).getD 0 : Int) : ℚ)) (resizePoint cm x.shape out c)| ≤
      1 / 2 + 3 / 2 * M * 2 ^ changedAxes x.shape out / 2 ^ κ

/-- The result of the fixed-point interpolation of one output. -/
def fixedVal (cm : CoordMode) (x : Arr Int) (out : List Nat) (κ : Nat) (c : List Nat) : Int :=
  roundedMean (idot (valsAt cm x out c) (wtsAt cm x.shape out c κ)) (2 ^ κ)

theorem tabulate_wf (out : List Nat) (v : List Nat → Int) : (tabulate out v).WF := by
  simp [tabulate, Arr.WF]

theorem wts_small {cm : CoordMode} {sIn out c : List Nat} {κ : Nat} (hκ : κ < 64) (hin : ∀ d, d < out.length → 0 < sIn.getD d 0)
    (h : ∀ w ∈ wtsAt cm sIn out c κ, 0 ≤ w) : ∀ w ∈ wtsAt cm sIn out c κ, 0 ≤ w ∧ w < 2 ^ 64 ∧ w ≤ 2 ^ κ := by
  intro w hw
  have hs : (wtsAt cm sIn out c κ).sum = 2 ^ κ := by
    rw [wtsAt, quantise_sum _ _ (rawAt_nonneg hin _) (rawAt_sum hin _)]; push_cast; rfl
  have hle : w ≤ 2 ^ κ := by
    rw [← hs]; exact List.single_le_sum h w hw
  have : (2 : Int) ^ κ < 2 ^ 64 := pow_lt_pow_right₀ (by norm_num) hκ
  exact ⟨h w hw, by omega, hle⟩

theorem dot_bound {cm : CoordMode} {x : Arr Int} {out c : List Nat} {κ : Nat}
    (hin : ∀ d, d < out.length → 0 < x.shape.getD d 0) {M : Int} (hM : 0 ≤ M) (hx : ∀ v ∈ x.data, |v| ≤ M)
    (h : ∀ w ∈ wtsAt cm x.shape out c κ, 0 ≤ w) :
    (((valsAt cm x out c).zip (wtsAt cm x.shape out c κ)).map fun q => |q.1 * q.2|).sum ≤ M * 2 ^ κ := by
  have hs : (wtsAt cm x.shape out c κ).sum = 2 ^ κ := by
    rw [wtsAt, quantise_sum _ _ (rawAt_nonneg hin _) (rawAt_sum hin _)]; push_cast; rfl
  rw [← hs]
  exact dotAbs_le _ _ hM h (vals_bound hM hx)

theorem linear_sound_core {rc : RangeCtx} (hT : IsRangeTable T rc) (hc : 0 < rc.chunk) (cm : CoordMode)
    (x : Arr Int) (hx : x.WF) (out : List Nat) (hl : x.shape.length = out.length) (hin : ∀ s ∈ x.shape, 0 < s)
    {κ nb : Nat} (hd : rc.chunk ∣ κ) (hdn : rc.chunk ∣ nb) (hnn : NonnegWeights cm x.shape out κ)
    {M : Int} (hM : 0 ≤ M) (hxM : ∀ v ∈ x.data, |v| ≤ M) (hp : M * 2 ^ κ + 2 ^ κ * 2 ^ nb + 2 ^ κ ≤ p) :
    Sound T (resizeLinear rc cm κ nb out (castArr p x)) (fun y => y = castArr p (tabulate out (fixedVal cm x out κ)) ∧
      ∀ c, InRange out c → 0 ≤ fixedVal cm x out κ c ∧ fixedVal cm x out κ c < 2 ^ nb) := by
  have hin' := pos_of_mem hl hin
  rw [nonneg_wts hl hin] at hnn
  by_cases hκ : κ < 64
  · refine sound_resizeLinear hx hl hin' fun c hc' => ?_
    have hw := wts_small hκ hin' (hnn c hc')
    have hcw := circuitWeights_of fun w h => ⟨(hw w h).1, (hw w h).2.1⟩
    have hb := (dot_le_abs (valsAt cm x out c) (wtsAt cm x.shape out c κ)).trans (dot_bound hin' hM hxM (hnn c hc'))
    refine (sound_resizeCell hT hc hd hdn _ _ (by rw [hcw]; linarith)).conseq fun y hy => ?_
    obtain ⟨Y, h1, h2, h3, h4⟩ := hy
    rw [hcw] at h2
    subst h2
    exact ⟨h1, h3, h4⟩
  · unfold resizeLinear
    rw [if_pos (by omega)]
    exact Sound.throwErr

/-- **C76, interpolation is sound.** Whatever hints the prover supplies, every proved output is the linear
interpolation of the input along every axis, up to half a unit and the stated weight error, when the
weights are non-negative and the digit width divides both checked widths. Missing: other digit widths
(`C76_linear_unsound`), negative weights (`C76_negative_weight`), axes of equal size in the mode
`tf_half_pixel_for_nn`. -/
theorem C76_linear_sound_partial {rc : RangeCtx} (hT : IsRangeTable T rc) (hc : 0 < rc.chunk) (cm : CoordMode)
    (x : Arr Int) (hx : x.WF) (out : List Nat) (hl : x.shape.length = out.length) (hin : ∀ s ∈ x.shape, 0 < s)
    (hm : cm ≠ .tfHalfPixelForNN ∨ ∀ d, d < out.length → x.shape.getD d 0 ≠ out.getD d 0)
    {κ nb : Nat} (hd : rc.chunk ∣ κ) (hdn : rc.chunk ∣ nb) (hnn : NonnegWeights cm x.shape out κ)
    {M : Int} (hM : 0 ≤ M) (hxM : ∀ v ∈ x.data, |v| ≤ M) (hp : M * 2 ^ κ + 2 ^ κ * 2 ^ nb + 2 ^ κ ≤ p) :
    Sound T (resizeLinear rc cm κ nb out (castArr p x))
      (fun y => ∃ yi, y = castArr p yi ∧ IsInterpolated cm x out κ nb M yi) := by
  have hin' := pos_of_mem hl hin
  refine (linear_sound_core hT hc cm x hx out hl hin hd hdn hnn hM hxM hp).conseq fun y hy => ?_
  refine ⟨_, hy.1, rfl, tabulate_wf _ _, fun c hc' => ⟨_, tabulate_elem _ hc', (hy.2 c hc').1, (hy.2 c hc').2, ?_⟩⟩
  exact value_accuracy hl hin' hc' hm hM hxM

/-- **C76, exact interpolation.** When the coordinates have at most `e` binary digits after the point and
`e` times the number of changed axes is at most the scale exponent, every proved output is the exact
interpolation rounded to the nearest integer. -/
theorem C76_linear_exact {rc : RangeCtx} (hT : IsRangeTable T rc) (hc : 0 < rc.chunk) (cm : CoordMode)
    (x : Arr Int) (hx : x.WF) (out : List Nat) (hl : x.shape.length = out.length) (hin : ∀ s ∈ x.shape, 0 < s)
    (hm : cm ≠ .tfHalfPixelForNN ∨ ∀ d, d < out.length → x.shape.getD d 0 ≠ out.getD d 0)
    {κ nb : Nat} (hd : rc.chunk ∣ κ) (hdn : rc.chunk ∣ nb) {e : Nat} (he : e * changedAxes x.shape out ≤ κ)
    (hdy : ∀ c, InRange out c → ∀ y ∈ resizePoint cm x.shape out c, ∃ n : Nat, 2 ^ e * y = (n : ℚ))
    {M : Int} (hM : 0 ≤ M) (hxM : ∀ v ∈ x.data, |v| ≤ M) (hp : M * 2 ^ κ + 2 ^ κ * 2 ^ nb + 2 ^ κ ≤ p) :
    Sound T (resizeLinear rc cm κ nb out (castArr p x))
      (fun y => ∃ yi, y = castArr p yi ∧ yi.shape = out ∧ yi.WF ∧ ∀ c, InRange out c →
        elem yi c = some ⌊multilinear (fun c => (((elem x c).getD 0 : Int) : ℚ))
          (resizePoint cm x.shape out c) + 1 / 2⌋) := by
  have hin' := pos_of_mem hl hin
  refine (linear_sound_core hT hc cm x hx out hl hin hd hdn
    (C76_weights_nonneg_partial cm x.shape out κ hl hin (.inr ⟨e, he, hdy⟩)) hM hxM hp).conseq fun y hy => ?_
  refine ⟨_, hy.1, rfl, tabulate_wf _ _, fun c hc' => ?_⟩
  rw [tabulate_elem _ hc', fixedVal, value_exact hl hin' hc' hm (hdy c hc') he]

/-- **C76, interpolation is complete.** Non-negative weights and values in range: the honest prover
satisfies the constraints, for every digit width, and proves a value with the same accuracy. -/
theorem C76_linear_complete {rc : RangeCtx} (hT : IsRangeTable T rc) (cm : CoordMode)
    (x : Arr Int) (hx : x.WF) (out : List Nat) (hl : x.shape.length = out.length) (hin : ∀ s ∈ x.shape, 0 < s)
    (hm : cm ≠ .tfHalfPixelForNN ∨ ∀ d, d < out.length → x.shape.getD d 0 ≠ out.getD d 0)
    {κ nb : Nat} (hκ : κ < 64) (hnb : nb ≤ 63) (huk : RangeUsable p rc κ) (hun : RangeUsable p rc nb)
    (hκp : 2 ^ κ < p) (hnn : NonnegWeights cm x.shape out κ)
    {M : Int} (hM : 0 ≤ M) (hM63 : M < 2 ^ 63) (hM' : M * 2 ^ κ < 2 ^ 127) (hMp : 2 * M < p) (hMnb : M < 2 ^ nb)
    (hx0 : ∀ v ∈ x.data, 0 ≤ v ∧ v ≤ M) :
    Complete T (resizeLinear rc cm κ nb out (castArr p x))
      (fun y => ∃ yi, y = castArr p yi ∧ IsInterpolated cm x out κ nb M yi) := by
  have hin' := pos_of_mem hl hin
  have hxM : ∀ v ∈ x.data, |v| ≤ M := fun v hv => by rw [abs_of_nonneg (hx0 v hv).1]; exact (hx0 v hv).2
  rw [nonneg_wts hl hin] at hnn
  have hrange : ∀ c, InRange out c → 0 ≤ fixedVal cm x out κ c ∧ fixedVal cm x out κ c < 2 ^ nb := by
    intro c hc'
    have h1 := dot_bound hin' hM hxM (hnn c hc')
    have h2 := abs_le.1 ((dot_le_abs (valsAt cm x out c) (wtsAt cm x.shape out c κ)).trans h1)
    have h0 : 0 ≤ idot (valsAt cm x out c) (wtsAt cm x.shape out c κ) := by
      refine List.sum_nonneg fun z hz => ?_
      obtain ⟨q, hq, rfl⟩ := List.mem_map.1 hz
      obtain ⟨a, b⟩ := List.of_mem_zip hq
      refine mul_nonneg ?_ (hnn c hc' _ b)
      obtain ⟨r, _, hr⟩ := List.mem_map.1 a
      rw [← hr]
      cases e : elem x r.1 with
      | none => simp
      | some v => exact (hx0 v (List.mem_of_getElem? e)).1
    unfold fixedVal
    rw [roundedMean_floor _ (by positivity)]
    have hp2 : (0 : ℚ) < ((2 ^ κ : Nat) : ℚ) := by positivity
    refine ⟨Int.floor_nonneg.2 (by positivity), ?_⟩
    have hle : (idot (valsAt cm x out c) (wtsAt cm x.shape out c κ) : ℚ) / ((2 ^ κ : Nat) : ℚ) ≤ M := by
      rw [div_le_iff₀ hp2]; exact_mod_cast h2.2
    have : ⌊(idot (valsAt cm x out c) (wtsAt cm x.shape out c κ) : ℚ) / ((2 ^ κ : Nat) : ℚ) + 1 / 2⌋ < M + 1 := by
      rw [Int.floor_lt]; push_cast at hle ⊢; linarith
    omega
  refine (complete_resizeLinear hκ hx hl hin' (v := fixedVal cm x out κ) fun c hc' => ?_).conseq ?_
  · have hw := wts_small hκ hin' (hnn c hc')
    have h1 := dot_bound hin' hM hxM (hnn c hc')
    refine complete_resizeCell hT huk hun hκ hκp hnb ?_ (wts_length hin') ?_ ?_ (by omega)
      (hrange c hc').1 (hrange c hc').2
    · simp [valsAt, cornersAt]
    · intro v hv
      have := vals_bound (cm := cm) (sOut := out) (c := c) hM hxM v hv
      rw [Int.abs_eq_natAbs] at this
      constructor <;> omega
    · intro w h
      obtain ⟨a, b, c⟩ := hw w h
      have : (2 : Int) ^ κ < p := by exact_mod_cast hκp
      exact ⟨a, b, by omega⟩
  · rintro _ rfl
    exact ⟨_, rfl, rfl, tabulate_wf _ _, fun c hc' => ⟨_, tabulate_elem _ hc', (hrange c hc').1, (hrange c hc').2,
      value_accuracy hl hin' hc' hm hM hxM⟩⟩

/-- **C76, constant images** are kept exactly. -/
theorem C76_constant_image {rc : RangeCtx} (hT : IsRangeTable T rc) (hc : 0 < rc.chunk) (cm : CoordMode)
    (x : Arr Int) (hx : x.WF) (out : List Nat) (hl : x.shape.length = out.length) (hin : ∀ s ∈ x.shape, 0 < s)
    {κ nb : Nat} (hd : rc.chunk ∣ κ) (hdn : rc.chunk ∣ nb) (hnn : NonnegWeights cm x.shape out κ)
    {v : Int} (hv : ∀ u ∈ x.data, u = v) (hp : |v| * 2 ^ κ + 2 ^ κ * 2 ^ nb + 2 ^ κ ≤ p) :
    Sound T (resizeLinear rc cm κ nb out (castArr p x))
      (fun y => ∃ yi, y = castArr p yi ∧ yi.shape = out ∧ yi.WF ∧ ∀ c, InRange out c → elem yi c = some v) := by
  have hin' := pos_of_mem hl hin
  refine (linear_sound_core hT hc cm x hx out hl hin hd hdn hnn (abs_nonneg v)
    (fun u hu => by rw [hv u hu]) hp).conseq fun y hy => ?_
  refine ⟨_, hy.1, rfl, tabulate_wf _ _, fun c hc' => ?_⟩
  rw [tabulate_elem _ hc', fixedVal]
  congr 1
  have hvals : ∀ u ∈ valsAt cm x out c, u = v := by
    intro u hu
    obtain ⟨q, hq, rfl⟩ := List.mem_map.1 hu
    have hlt := rowMajor_lt (cornersAt_inRange hl hin' hc' hq)
    rw [← hx] at hlt
    simp only [elem, List.getElem?_eq_getElem hlt, Option.getD_some]
    exact hv _ (List.getElem_mem _)
  have hdot : ∀ (xs ws : List Int), xs.length = ws.length → (∀ u ∈ xs, u = v) → idot xs ws = v * ws.sum := by
    intro xs
    induction xs with
    | nil => intro ws h _; rw [List.length_nil] at h; simp [idot, List.eq_nil_of_length_eq_zero h.symm]
    | cons u xs ih =>
      intro ws h hu
      cases ws with
      | nil => simp at h
      | cons w ws =>
        have := ih ws (by simpa using h) fun y hy => hu y (by simp [hy])
        simp only [idot, List.zip_cons_cons, List.map_cons, List.sum_cons] at this ⊢
        rw [this, hu u (by simp)]; ring
  rw [hdot _ _ (wts_length hin') hvals, wtsAt, quantise_sum _ _ (rawAt_nonneg hin' _) (rawAt_sum hin' _),
    roundedMean_floor _ (by positivity)]
  push_cast
  rw [mul_div_cancel_right₀ _ (by positivity), Int.floor_eq_iff]
  constructor <;> norm_num

/-- **C76, negative results cannot be proved.** An output whose interpolated value rounds to a negative
number (any input with a negative region) makes the layer unsatisfiable. -/
theorem C76_negative_refused {rc : RangeCtx} (hT : IsRangeTable T rc) (hc : 0 < rc.chunk) (cm : CoordMode)
    (x : Arr Int) (hx : x.WF) (out : List Nat) (hl : x.shape.length = out.length) (hin : ∀ s ∈ x.shape, 0 < s)
    (hm : cm ≠ .tfHalfPixelForNN ∨ ∀ d, d < out.length → x.shape.getD d 0 ≠ out.getD d 0)
    {κ nb : Nat} (hd : rc.chunk ∣ κ) (hdn : rc.chunk ∣ nb) (hnn : NonnegWeights cm x.shape out κ)
    {M : Int} (hM : 0 ≤ M) (hxM : ∀ v ∈ x.data, |v| ≤ M) (hp : M * 2 ^ κ + 2 ^ κ * 2 ^ nb + 2 ^ κ ≤ p)
    {c : List Nat} (hc' : InRange out c)
    (hneg : multilinear (fun c => (((elem x c).getD 0 : Int) : ℚ)) (resizePoint cm x.shape out c) <
      -(1 / 2 + 3 / 2 * M * 2 ^ changedAxes x.shape out / 2 ^ κ)) :
    Sound T (resizeLinear rc cm κ nb out (castArr p x)) (fun _ => False) := by
  refine (C76_linear_sound_partial hT hc cm x hx out hl hin hm hd hdn hnn hM hxM hp).conseq fun y hy => ?_
  obtain ⟨yi, _, _, _, h⟩ := hy
  obtain ⟨v, _, h0, _, h1⟩ := h c hc'
  have : (0 : ℚ) ≤ v := by exact_mod_cast h0
  have := (abs_le.1 h1).2
  linarith

/-- **C76, a constant image that cannot be resized.** With the negative weight of `C76_negative_weight`, the
circuit constant is `2^64 - 1`, and the image whose 8 pixels are all `v ≥ 1` has no proof. -/
theorem C76_negative_weight_refused {rc : RangeCtx} (hT : IsRangeTable T rc) (hc : 0 < rc.chunk)
    (hd : rc.chunk ∣ 18) {nb : Nat} (hdn : rc.chunk ∣ nb) (hnb : nb ≤ 46) {v : Int} (hv : 1 ≤ v)
    (hp : v * 2 ^ 65 + 2 ^ 65 ≤ p) :
    Sound T (resizeLinear rc .halfPixel 18 nb [4, 6, 10] (castArr p ⟨[2, 2, 2], List.replicate 8 v⟩))
      (fun _ => False) := by
  have e : buildLinear .halfPixel [2, 2, 2] [4, 6, 10] (2 ^ 18) = .ok (specsAt .halfPixel [2, 2, 2] [4, 6, 10] 18) :=
    buildLinear_ok rfl (by decide)
  have hmem : (([0, 0, 2, 2, 1, 1, 3, 3], [104858, -1, 52429, 0, 69905, 0, 34953, 0]) : List Nat × List Int) ∈
      specsAt .halfPixel [2, 2, 2] [4, 6, 10] 18 := by
    have h := linearSpec_ok (cm := .halfPixel) (sIn := [2, 2, 2]) (sOut := [4, 6, 10]) rfl (by decide) (2 ^ 18) 24
      (by decide)
    rw [negative_weight_spec] at h
    rw [specsAt, List.mem_map]
    exact ⟨24, by decide, (Except.ok.inj h).symm⟩
  unfold resizeLinear
  rw [if_neg (by norm_num)]
  refine sound_liftR.bind fun specs hs => ?_
  obtain rfl : specsAt .halfPixel [2, 2, 2] [4, 6, 10] 18 = specs := Except.ok.inj (e.symm.trans hs)
  refine (sound_collectG_false _ ⟨_, hmem, ?_⟩).bind fun _ h => h.elim
  have hr : resizeOut rc 18 nb (castArr p ⟨[2, 2, 2], List.replicate 8 v⟩)
      ([0, 0, 2, 2, 1, 1, 3, 3], [104858, -1, 52429, 0, 69905, 0, 34953, 0]) =
      resizeCell rc 18 nb ((List.replicate 8 v).map fun v : Int => (v : ZMod p))
        [104858, -1, 52429, 0, 69905, 0, 34953, 0] := by
    unfold resizeOut
    exact liftR_ok_bind _ _
  rw [hr]
  have hdot : idot (List.replicate 8 v) (circuitWeights [104858, -1, 52429, 0, 69905, 0, 34953, 0]) =
      v * (2 ^ 18 + 2 ^ 64) := by
    have : circuitWeights [104858, -1, 52429, 0, 69905, 0, 34953, 0] =
        [104858, 2 ^ 64 - 1, 52429, 0, 69905, 0, 34953, 0] := by decide +kernel
    rw [this]
    simp [idot, List.replicate]
    ring
  have hnb2 : (2 : Int) ^ nb ≤ 2 ^ 46 := pow_le_pow_right₀ (by norm_num) hnb
  refine resizeCell_refused hT hc hd hdn _ _ ?_ (.inr ?_)
  · rw [hdot, abs_of_nonneg (by positivity)]; norm_num at *; linarith
  · rw [hdot, roundedMean_eq]
    refine le_trans hnb2 (Int.le_ediv_of_mul_le (by norm_num) ?_)
    norm_num; linarith

theorem resizeCell_congr {rc : RangeCtx} {κ nb : Nat} {xs : List (ZMod p)} {ws ws' : List Int}
    (h : (ws.map fun w => (weightConst w : ZMod p)) = ws'.map fun w => (weightConst w : ZMod p)) :
    resizeCell rc κ nb xs ws = resizeCell rc κ nb xs ws' := by
  unfold resizeCell; simp only [h]

/-- **C76, a wrong pixel.** Over the Goldilocks field the same constant is `2^32 - 2` and the constraints of
that pixel hold: for the image whose 8 pixels are all `v`, the honest prover proves `16385 * v`. -/
theorem C76_negative_weight_wrong [Fact (Nat.Prime (2 ^ 64 - 2 ^ 32 + 1))] {T : Tables (ZMod (2 ^ 64 - 2 ^ 32 + 1))}
    {rc : RangeCtx} (hT : IsRangeTable T rc) {nb : Nat} (huk : RangeUsable (2 ^ 64 - 2 ^ 32 + 1) rc 18)
    (hun : RangeUsable (2 ^ 64 - 2 ^ 32 + 1) rc nb) (hnb : nb ≤ 63) {v : Int} (hv : 1 ≤ v) (hv' : v < 2 ^ 17)
    (hr : 16385 * v < 2 ^ nb) {idx : List Nat} {ws : List Int}
    (hs : linearSpec .halfPixel [2, 2, 2] [4, 6, 10] (2 ^ 18) (rowMajor [4, 6, 10] [0, 2, 4]) = .ok (idx, ws)) :
    Complete T (resizeOut rc 18 nb (castArr (2 ^ 64 - 2 ^ 32 + 1) ⟨[2, 2, 2], List.replicate 8 v⟩) (idx, ws))
      (fun y => y = ((16385 * v : Int) : ZMod (2 ^ 64 - 2 ^ 32 + 1))) := by
  rw [show rowMajor [4, 6, 10] [0, 2, 4] = 24 from rfl, negative_weight_spec] at hs
  obtain ⟨rfl, rfl⟩ := Prod.mk.inj (Except.ok.inj hs)
  have hro : resizeOut rc 18 nb (castArr (2 ^ 64 - 2 ^ 32 + 1) ⟨[2, 2, 2], List.replicate 8 v⟩)
      ([0, 0, 2, 2, 1, 1, 3, 3], [104858, -1, 52429, 0, 69905, 0, 34953, 0]) =
      resizeCell rc 18 nb ((List.replicate 8 v).map fun v : Int => (v : ZMod (2 ^ 64 - 2 ^ 32 + 1)))
        [104858, -1, 52429, 0, 69905, 0, 34953, 0] := by
    unfold resizeOut
    exact liftR_ok_bind _ _
  have hcong : (([104858, -1, 52429, 0, 69905, 0, 34953, 0] : List Int).map fun w =>
      (weightConst w : ZMod (2 ^ 64 - 2 ^ 32 + 1))) = ([104858, 2 ^ 32 - 2, 52429, 0, 69905, 0, 34953, 0] : List Int).map
      fun w => (weightConst w : ZMod (2 ^ 64 - 2 ^ 32 + 1)) := by
    have e1 : weightConst (-1) = (2 ^ 64 - 2 ^ 32 + 1) + (2 ^ 32 - 2) := by decide +kernel
    have e2 : weightConst (2 ^ 32 - 2) = 2 ^ 32 - 2 := by decide +kernel
    have e3 : ((weightConst (-1) : Nat) : ZMod (2 ^ 64 - 2 ^ 32 + 1)) =
        ((weightConst (2 ^ 32 - 2) : Nat) : ZMod (2 ^ 64 - 2 ^ 32 + 1)) := by
      rw [e1, e2, Nat.cast_add, ZMod.natCast_self, zero_add]
    simp only [List.map_cons, List.map_nil, e3]
  rw [hro, resizeCell_congr hcong]
  have hdot : idot (List.replicate 8 v) [104858, 2 ^ 32 - 2, 52429, 0, 69905, 0, 34953, 0] =
      v * (2 ^ 18 + 2 ^ 32 - 1) := by
    simp [idot, List.replicate]
    ring
  have hmean : roundedMean (idot (List.replicate 8 v) [104858, 2 ^ 32 - 2, 52429, 0, 69905, 0, 34953, 0]) (2 ^ 18) =
      16385 * v := by
    rw [hdot, roundedMean_eq]
    norm_num
    omega
  rw [← hmean]
  have h63 : (2 : Int) ^ nb ≤ 2 ^ 63 := pow_le_pow_right₀ (by norm_num) hnb
  refine complete_resizeCell hT huk hun (by norm_num) (by norm_num) hnb (by simp) (by simp) ?_ ?_ ?_
    (by rw [hmean]; omega) (by rw [hmean]; exact hr)
  · intro x hx
    obtain ⟨_, rfl⟩ := List.mem_replicate.1 hx
    constructor <;> omega
  · intro w hw
    simp only [List.mem_cons, List.not_mem_nil, or_false] at hw
    rcases hw with rfl | rfl | rfl | rfl | rfl | rfl | rfl | rfl <;> norm_num
  · simp only [List.replicate, List.zip_cons_cons, List.map_cons, List.sum_cons, abs_mul, abs_of_nonneg (by omega : (0:Int) ≤ v)]
    norm_num
    omega

/-- **C76, forged interpolation.** When the digit width does not divide the scale exponent, a prover can make
every output one unit too large. -/
theorem C76_linear_unsound {rc : RangeCtx} (hT : IsRangeTable T rc) (cm : CoordMode)
    (x : Arr Int) (hx : x.WF) (out : List Nat) (hl : x.shape.length = out.length) (hin : ∀ s ∈ x.shape, 0 < s)
    {κ nb : Nat} (hκ : κ < 64) (huk : RangeCallable rc κ) (hun : RangeCallable rc nb) (hnd : ¬ rc.chunk ∣ κ)
    (hnn : NonnegWeights cm x.shape out κ)
    (hr : ∀ c, InRange out c → -1 ≤ fixedVal cm x out κ c ∧ fixedVal cm x out κ c + 1 < 2 ^ nb) :
    Forge T (resizeLinear rc cm κ nb out (castArr p x))
      (fun y => y = castArr p (tabulate out fun c => fixedVal cm x out κ c + 1)) := by
  have hin' := pos_of_mem hl hin
  rw [nonneg_wts hl hin] at hnn
  unfold resizeLinear
  rw [if_neg (by omega)]
  have e : buildLinear cm (castArr p x).shape out (2 ^ κ) = .ok (specsAt cm x.shape out κ) := buildLinear_ok hl hin'
  rw [e, liftR_ok_bind, specsAt, collectG_map]
  refine (forge_collectG (g := fun f => ((fixedVal cm x out κ (unravel f out) + 1 : Int) : ZMod p)) _
    fun f hf => ?_).bind (fun _ h => h) ?_
  · have hf' := unravel_inRange (List.mem_range.1 hf)
    simp only [resizeOut_reads hx hl hin' hf']
    have hw := wts_small hκ hin' (hnn _ hf')
    have hcw := circuitWeights_of fun w h => ⟨(hw w h).1, (hw w h).2.1⟩
    have := forge_resizeCell (p := p) hT huk hun hnd (valsAt cm x out (unravel f out))
      (wtsAt cm x.shape out (unravel f out) κ) (by rw [hcw]; exact (hr _ hf').1) (by rw [hcw]; exact (hr _ hf').2)
    rw [hcw] at this
    exact this
  · rw [fromShapeVec_ok (by simp)]
    refine Forge.pure ?_
    simp [castArr, tabulate, Function.comp_def]

/-! ## The hypotheses are met -/

/-- Nearest: a 2×3 image to 4×3. -/
example : ∃ y, resizeNearest .halfPixel .roundPreferFloor [4, 3] (⟨[2, 3], [1, 2, 3, 4, 5, 6]⟩ : Arr Int) = .ok y ∧
    y.shape = [4, 3] ∧ y.data = [1, 2, 3, 1, 2, 3, 4, 5, 6, 4, 5, 6] :=
  ⟨⟨[4, 3], [1, 2, 3, 1, 2, 3, 4, 5, 6, 4, 5, 6]⟩, ok_of_toOption (by decide +kernel), rfl, rfl⟩

/-- Doubling both sides of a 2×2 image: the coordinates have two binary digits. -/
example : changedAxes [2, 2] [4, 4] = 2 ∧
    ∀ c, InRange [4, 4] c → ∀ y ∈ resizePoint .halfPixel [2, 2] [4, 4] c, ∃ n : Nat, 2 ^ 2 * y = (n : ℚ) := by
  refine ⟨by decide, fun c hc y hy => ?_⟩
  have key : ∀ o, o < 4 → ∃ n : Nat, 2 ^ 2 * clampCoord 2 (originalCoord .halfPixel ((4 : Nat) / (2 : Nat) : ℚ) 2 4 o) = (n : ℚ) := by
    intro o ho
    interval_cases o
    · exact ⟨0, by norm_num [clampCoord, originalCoord]⟩
    · exact ⟨1, by norm_num [clampCoord, originalCoord]⟩
    · exact ⟨3, by norm_num [clampCoord, originalCoord]⟩
    · exact ⟨4, by norm_num [clampCoord, originalCoord]⟩
  match c, hc.length_eq with
  | [a, b], _ =>
    simp only [InRange, List.forall₂_cons] at hc
    simp only [resizePoint, List.mem_cons, List.not_mem_nil, or_false] at hy
    rcases hy with rfl | rfl
    · exact key a hc.1
    · exact key b hc.2.1

/-- The interpolation of the point (1/4, 3/4) of a 2×2 image. -/
example : multilinear (fun c => ((([[0, 4], [8, 16]] : List (List Nat)).getD (c.getD 0 0) []).getD (c.getD 1 0) 0 : ℚ))
    [1 / 4, 3 / 4] = 23 / 4 := by
  have h1 : ⌊(1 / 4 : ℚ)⌋₊ = 0 := by rw [Nat.floor_eq_zero]; norm_num
  have h2 : ⌊(3 / 4 : ℚ)⌋₊ = 0 := by rw [Nat.floor_eq_zero]; norm_num
  have h3 : ⌈(1 / 4 : ℚ)⌉₊ = 1 := by rw [Nat.ceil_eq_iff (by norm_num)]; norm_num
  have h4 : ⌈(3 / 4 : ℚ)⌉₊ = 1 := by rw [Nat.ceil_eq_iff (by norm_num)]; norm_num
  simp only [multilinear, lerp, h1, h2, h3, h4]
  norm_num

/-- One changed axis: the weights are non-negative, for every scale exponent. -/
example (κ : Nat) : NonnegWeights .alignCorners [1, 3, 5] [1, 3, 12] κ :=
  C76_weights_nonneg_partial _ _ _ _ rfl (by decide) (.inl (by decide))

/-- A negative region. -/
example : multilinear (fun c => (((elem (⟨[2], [-8, -8]⟩ : Arr Int) c).getD 0 : Int) : ℚ))
    (resizePoint .alignCorners [2] [3] [0]) < -(1 / 2 + 3 / 2 * (8 : Int) * 2 ^ changedAxes [2] [3] / 2 ^ 18) := by
  rw [show changedAxes [2] [3] = 1 from by decide]
  simp only [resizePoint, originalCoord, clampCoord, multilinear, lerp]
  norm_num [elem, rowMajor]

end JST.Props
