import Verif.Tensor.ConvTop
import Verif.Tensor.ConcatProofs
import Verif.Props.Rescale

/-!
# C53: the convolution layer

`convRun` is the layer up to rescaling, over any commutative ring; `conv4dRun` is the whole layer with
its constraints.
-/

set_option linter.unusedSectionVars false

namespace JST.Props

open JST JST.Shape JST.Spec JST.Layers

/-- **C53, value.** For a four-dimensional input, weights with at least as many channels, kernel
attribute equal to the size of the weights, unit dilation, one group, positive strides and padding not
larger than the kernel, the layer returns exactly the convolution sums of the zero-padded input plus
bias. A missing bias (an empty vector) counts as zero. Missing: padding larger than the kernel
(`C53_conv_overpadded_refused`), groups and dilation (`C53_conv_refuses`). -/
theorem C53_conv_value_partial {F : Type} [CommRing F] (x w bias : Arr F)
    {N C H W M kh kw sh sw p0 p1 p2 p3 : Nat} {dil : List Nat}
    (hx : x.shape = [N, C, H, W]) (hw : w.shape = [M, C, kh, kw])
    (hb : bias.WF) (hbs : bias.shape = [0] ∨ bias.shape = [M])
    (hdil : ∀ d ∈ dil, d = 1) (hs : ConvSizes H W kh kw kh kw sh sw p0 p1 p2 p3) :
    ∃ out, convRun x w bias dil [kh, kw] [p0, p1, p2, p3] [sh, sw] 1 = .ok out ∧
      out.shape = [N, M, windows (H + p0 + p2) kh sh, windows (W + p1 + p3) kw sw] ∧ out.WF ∧
      ∀ n m i j, n < N → m < M → i < windows (H + p0 + p2) kh sh → j < windows (W + p1 + p3) kw sw →
        elem out [n, m, i, j] =
          some (convAt x w (fun m => (elem bias [m]).getD 0) kh kw sh sw p0 p1 n m i j) :=
  convRun_ok x w bias hx hw le_rfl hb hbs hdil hs

/-- Inconsistent weights are not noticed: with a kernel attribute smaller than the weights, or with
more weight channels than data channels, the layer silently uses the top-left corner of each kernel and
the first channels. -/
theorem C53_conv_crops_kernel {F : Type} [CommRing F] (x w bias : Arr F)
    {N C H W M C' wh ww kh kw sh sw p0 p1 p2 p3 : Nat} {dil : List Nat}
    (hx : x.shape = [N, C, H, W]) (hw : w.shape = [M, C', wh, ww]) (hC : C ≤ C')
    (hb : bias.WF) (hbs : bias.shape = [0] ∨ bias.shape = [M])
    (hdil : ∀ d ∈ dil, d = 1) (hs : ConvSizes H W kh kw wh ww sh sw p0 p1 p2 p3) :
    ∃ out, convRun x w bias dil [kh, kw] [p0, p1, p2, p3] [sh, sw] 1 = .ok out ∧
      ∀ n m i j, n < N → m < M → i < windows (H + p0 + p2) kh sh → j < windows (W + p1 + p3) kw sw →
        elem out [n, m, i, j] =
          some (convAt x w (fun m => (elem bias [m]).getD 0) kh kw sh sw p0 p1 n m i j) := by
  obtain ⟨out, h1, _, _, h4⟩ := convRun_ok x w bias hx hw hC hb hbs hdil hs
  exact ⟨out, h1, h4⟩

/-- Unspecified attributes mean unit dilation, unit strides and no padding. -/
theorem C53_conv_defaults {F : Type} [CommRing F] (x w bias : Arr F) {N C H W : Nat} (kernel : List Nat)
    (g : Nat) (hx : x.shape = [N, C, H, W]) :
    convRun x w bias [] kernel [] [] g = convRun x w bias [1, 1] kernel [0, 0, 0, 0] [1, 1] g := by
  simp [convRun, setDefaultParams, hx, List.replicate]

/-- **C53, padding larger than the kernel cannot be proved.** When some output position's window ends
before the data begins or starts after it ends, building the circuit fails (with an error or a panic),
although ONNX defines the value there as the bias. -/
theorem C53_conv_overpadded_refused {F : Type} [CommRing F] (x w bias : Arr F)
    {N C H W M C' wh ww kh kw sh sw p0 p1 p2 p3 : Nat} {dil : List Nat}
    (hx : x.shape = [N, C, H, W]) (hw : w.shape = [M, C', wh, ww])
    (hN : 0 < N) (hM : 0 < M) (hC : 0 < C) (hsh : 0 < sh) (hsw : 0 < sw)
    (h : (∃ i < windows (H + p0 + p2) kh sh, (i * sh : Int) + kh < p0 ∨ H + p0 < (i * sh : Int)) ∨
      ∃ j < windows (W + p1 + p3) kw sw, (j * sw : Int) + kw < p1 ∨ W + p1 < (j * sw : Int))
    (out : Arr F) : convRun x w bias dil [kh, kw] [p0, p1, p2, p3] [sh, sw] 1 ≠ .ok out := by
  refine convRun_not_ok x w bias hx hw hN hM hC hsh hsw ?_ out
  rcases h with h | h
  · exact .inl h
  · exact .inr (.inl h)

/-- Weights with fewer channels than the data are not accepted. -/
theorem C53_conv_too_few_channels {F : Type} [CommRing F] (x w bias : Arr F)
    {N C H W M C' wh ww kh kw sh sw p0 p1 p2 p3 g : Nat} {dil : List Nat}
    (hx : x.shape = [N, C, H, W]) (hw : w.shape = [M, C', wh, ww])
    (hN : 0 < N) (hM : 0 < M) (hC : C' < C) (hsh : 0 < sh) (hsw : 0 < sw)
    (out : Arr F) : convRun x w bias dil [kh, kw] [p0, p1, p2, p3] [sh, sw] g ≠ .ok out :=
  convRun_not_ok x w bias hx hw hN hM (by omega) hsh hsw (.inr (.inr hC)) out

/-- **C53, refusals.** Inputs that are not four-dimensional, more than one group, any dilation other
than one, a zero stride and a padding list shorter than four are reported as errors, never computed
wrongly. -/
theorem C53_conv_refuses {F : Type} [CommRing F] (x w bias : Arr F) (dil kernel pads strides : List Nat)
    (g : Nat)
    (h : x.shape.length ≠ 4 ∨ g ≠ 1 ∨ (∃ d ∈ dil, d ≠ 1) ∨ 0 ∈ strides ∨ (pads ≠ [] ∧ pads.length < 4)) :
    convRun x w bias dil kernel pads strides g = .error .invalid := by
  rw [convRun, setDefaultParams]
  by_cases h3 : x.shape.length < 3
  · rw [if_pos h3]; rfl
  rw [if_neg h3]
  simp only [bind, Except.bind]
  rw [notYetImplementedConv, if_neg (by omega)]
  dsimp only [List.head?_cons]
  by_cases g0 : g = 0
  · rw [if_pos g0]
  rw [if_neg g0]
  by_cases c1 : x.shape.getD 1 0 % g ≠ 0
  · rw [if_pos c1]
  rw [if_neg c1]
  by_cases c2 : g > 1
  · rw [if_pos c2]
  rw [if_neg c2]
  by_cases c3 : (if dil.isEmpty = true then (List.drop 2 x.shape).map fun _ => 1 else dil).headD 1 ≠ 1 ∨
      (if dil.isEmpty = true then (List.drop 2 x.shape).map fun _ => 1 else dil).min? ≠
      (if dil.isEmpty = true then (List.drop 2 x.shape).map fun _ => 1 else dil).max?
  · rw [if_pos c3]
  rw [if_neg c3]
  by_cases c4 : x.shape.length ≤ 3
  · rw [if_pos c4]
  rw [if_neg c4]
  by_cases c5 : x.shape.length ≥ 5
  · rw [if_pos c5]
  rw [if_neg c5]
  dsimp only
  push Not at c3
  obtain ⟨e1, e2⟩ := c3
  rw [convShape4, validateConvParams]
  dsimp only
  by_cases hp : (if pads.isEmpty = true then List.replicate ((List.drop 2 x.shape).length * 2) 0
      else pads).length < 4
  · rw [if_pos hp]; rfl
  by_cases hz : 0 ∈ (if strides.isEmpty = true then (List.drop 2 x.shape).map fun _ => 1 else strides)
  · rw [if_neg hp, if_pos hz]; rfl
  exfalso
  rcases h with h | h | ⟨d, hd, h⟩ | h | h
  · omega
  · omega
  · have hne : dil.isEmpty = false := by
      cases dil with
      | nil => simp at hd
      | cons => rfl
    rw [hne] at e1 e2
    simp only [Bool.false_eq_true, if_false] at e1 e2
    obtain ⟨a, l, rfl⟩ : ∃ a l, dil = a :: l := by
      cases dil with
      | nil => simp at hd
      | cons a l => exact ⟨a, l, rfl⟩
    obtain rfl : a = 1 := e1
    obtain ⟨mn, hmn⟩ : ∃ mn, (1 :: l).min? = some mn := ⟨_, rfl⟩
    have h1 := List.min?_eq_some_iff.mp hmn
    have h2 := List.max?_eq_some_iff.mp (e2 ▸ hmn)
    have b1 := h1.2 1 (by simp)
    have b2 := h2.2 1 (by simp)
    have b3 := h1.2 d hd
    have b4 := h2.2 d hd
    omega
  · apply hz
    have hne : strides.isEmpty = false := by
      cases strides with
      | nil => simp at h
      | cons => rfl
    rw [hne]
    simpa using h
  · apply hp
    have hne : pads.isEmpty = false := by
      cases pads with
      | nil => simp at h
      | cons => rfl
    rw [hne]
    simpa using h.2

/-- A bias whose length is neither zero nor the number of output channels is not accepted. -/
theorem C53_conv_bias_mismatch {F : Type} [CommRing F] (x w bias : Arr F) {M b : Nat} {more : List Nat}
    (dil kernel pads strides : List Nat) (g : Nat) (hw : w.shape = M :: more) (hbs : bias.shape = [b])
    (h0 : b ≠ 0) (hM : b ≠ M) (out : Arr F) :
    convRun x w bias dil kernel pads strides g ≠ .ok out := by
  intro e
  rw [convRun] at e
  obtain ⟨c, _, e⟩ := Layers.bind_eq_ok e
  obtain ⟨_, _, e⟩ := Layers.bind_eq_ok e
  rw [convShape4] at e
  iterate 21 obtain ⟨_, _, e⟩ := Layers.bind_eq_ok e
  obtain ⟨m, hm, e⟩ := Layers.bind_eq_ok e
  rw [hw, readAt] at hm
  obtain rfl := Except.ok.inj hm
  obtain ⟨_, hr, e⟩ := Layers.bind_eq_ok e
  rw [convSetupRes, if_neg (by simpa [hbs] using h0), hbs] at hr
  simp [hM] at hr

/-! ## The whole layer -/

/-- An integer tensor as field elements. -/
def castArr (p : Nat) (a : Arr Int) : Arr (ZMod p) := ⟨a.shape, a.data.map fun z : Int => (z : ZMod p)⟩

theorem castArr_elem {p : Nat} (a : Arr Int) (c : List Nat) :
    (elem (castArr p a) c).getD 0 = (((elem a c).getD 0 : Int) : ZMod p) := by
  simp only [elem, castArr, List.getElem?_map]
  cases a.data[rowMajor a.shape c]? <;> simp

theorem castArr_convAt {p : Nat} (x w bias : Arr Int) (kh kw sh sw p0 p1 n m i j : Nat) :
    convAt (castArr p x) (castArr p w) (fun m => (elem (castArr p bias) [m]).getD 0) kh kw sh sw p0 p1 n m i j =
      ((convAt x w (fun m => (elem bias [m]).getD 0) kh kw sh sw p0 p1 n m i j : Int) : ZMod p) := by
  have e : ∀ n c h w', padded (castArr p x) n c h w' = ((padded x n c h w' : Int) : ZMod p) := by
    intro n c h w'
    rw [padded, padded]
    simp only [castArr_elem]
    change (if 0 ≤ h ∧ h < (x.shape.getD 2 0 : Nat) ∧ 0 ≤ w' ∧ w' < (x.shape.getD 3 0 : Nat) then _ else _) = _
    split_ifs
    · rfl
    · simp
  rw [convAt, convAt]
  simp only [castArr_elem, e]
  push_cast
  rfl

variable {p : Nat} [Fact p.Prime] {T : Tables (ZMod p)}

/-- The layer's output as field elements is the cast of its output over the integers. -/
theorem convRun_cast (x w bias : Arr Int)
    {N C H W M kh kw sh sw p0 p1 p2 p3 : Nat} {dil : List Nat}
    (hx : x.shape = [N, C, H, W]) (hw : w.shape = [M, C, kh, kw])
    (hb : bias.WF) (hbs : bias.shape = [0] ∨ bias.shape = [M])
    (hdil : ∀ d ∈ dil, d = 1) (hs : ConvSizes H W kh kw kh kw sh sw p0 p1 p2 p3) :
    ∃ out : Arr Int, convRun x w bias dil [kh, kw] [p0, p1, p2, p3] [sh, sw] 1 = .ok out ∧
      convRun (castArr p x) (castArr p w) (castArr p bias) dil [kh, kw] [p0, p1, p2, p3] [sh, sw] 1 =
        .ok (castArr p out) ∧
      out.shape = [N, M, windows (H + p0 + p2) kh sh, windows (W + p1 + p3) kw sw] ∧ out.WF ∧
      ∀ n m i j, n < N → m < M → i < windows (H + p0 + p2) kh sh → j < windows (W + p1 + p3) kw sw →
        elem out [n, m, i, j] =
          some (convAt x w (fun m => (elem bias [m]).getD 0) kh kw sh sw p0 p1 n m i j) := by
  obtain ⟨o, h1, h2, h3, h4⟩ := C53_conv_value_partial x w bias hx hw hb hbs hdil hs
  obtain ⟨o', g1, g2, g3, g4⟩ := C53_conv_value_partial (castArr p x) (castArr p w) (castArr p bias) hx hw
    (by simpa [Arr.WF, castArr] using hb) hbs hdil hs
  refine ⟨o, h1, ?_, h2, h3, h4⟩
  rw [g1]
  congr 1
  refine arr_ext g3 (by simpa [Arr.WF, castArr] using h3) (by rw [g2]; exact h2.symm) ?_
  intro c hc
  rw [g2] at hc
  obtain ⟨n, m, i, j, rfl⟩ : ∃ n m i j, c = [n, m, i, j] := by
    have := hc.length_eq
    match c, this with
    | [n, m, i, j], _ => exact ⟨n, m, i, j, rfl⟩
  simp only [InRange, List.forall₂_cons] at hc
  rw [g4 n m i j hc.1 hc.2.1 hc.2.2.1 hc.2.2.2.1, castArr_convAt]
  have := h4 n m i j hc.1 hc.2.1 hc.2.2.1 hc.2.2.2.1
  simp only [elem, castArr, List.getElem?_map] at this ⊢
  rw [this]
  rfl

theorem mem_data_elem {α : Type} {a : Arr α} (hw : a.WF) {v : α} (hv : v ∈ a.data) :
    ∃ c, InRange a.shape c ∧ elem a c = some v := by
  obtain ⟨i, hi, e⟩ := List.mem_iff_getElem.mp hv
  have hi' : i < a.shape.prod := by rw [← hw]; exact hi
  refine ⟨unravel i a.shape, unravel_inRange hi', ?_⟩
  rw [elem, rowMajor_unravel hi', List.getElem?_eq_getElem hi, e]

/-- Every entry is the post-processed convolution value. -/
def IsConvLayer (p : Nat) (x w bias : Arr Int) (N M kh kw sh sw p0 p1 hO wO : Nat) (isRescale : Bool) (κ : Nat)
    (relu : Bool) (y : Arr (ZMod p)) : Prop :=
  y.shape = [N, M, hO, wO] ∧ y.WF ∧
  ∀ n m i j, n < N → m < M → i < hO → j < wO →
    elem y [n, m, i, j] = some ((postSpec isRescale κ relu
      (convAt x w (fun m => (elem bias [m]).getD 0) kh kw sh sw p0 p1 n m i j) : Int) : ZMod p)

theorem isConvLayer_of {x w bias : Arr Int} {N M kh kw sh sw p0 p1 hO wO : Nat} {isRescale : Bool}
    {κ : Nat} {relu : Bool} {out : Arr Int} (h2 : out.shape = [N, M, hO, wO]) (h3 : out.WF)
    (h4 : ∀ n m i j, n < N → m < M → i < hO → j < wO →
        elem out [n, m, i, j] =
          some (convAt x w (fun m => (elem bias [m]).getD 0) kh kw sh sw p0 p1 n m i j)) :
    IsConvLayer p x w bias N M kh kw sh sw p0 p1 hO wO isRescale κ relu
      ⟨out.shape, out.data.map fun x : Int => ((postSpec isRescale κ relu x : Int) : ZMod p)⟩ := by
  refine ⟨h2, by simpa [Arr.WF] using h3, fun n m i j hn hm hi hj => ?_⟩
  have := h4 n m i j hn hm hi hj
  simp only [elem, List.getElem?_map] at this ⊢
  rw [this]
  rfl

/-- **C53, the layer is sound.** Whatever hints the prover supplies, if the constraints of the layer
hold then every output is the convolution of the integer tensors, rescaled and clamped as configured,
provided the sums are in the range the layer is configured for and the digit width divides the checked
widths. Missing: other digit widths (`C05_rescale_unsound`), padding larger than the kernel. -/
theorem C53_conv_layer_sound_partial {rc : RangeCtx} (hT : IsRangeTable T rc) (hc : 0 < rc.chunk)
    (x w bias : Arr Int) {N C H W M kh kw sh sw p0 p1 p2 p3 : Nat} {dil : List Nat}
    (hx : x.shape = [N, C, H, W]) (hw : w.shape = [M, C, kh, kw])
    (hb : bias.WF) (hbs : bias.shape = [0] ∨ bias.shape = [M])
    (hdil : ∀ d ∈ dil, d = 1) (hs : ConvSizes H W kh kw kh kw sh sw p0 p1 p2 p3)
    {κ nb : Nat} (hn : 1 ≤ nb) (hd : rc.chunk ∣ κ) (hds : rc.chunk ∣ nb) (hp : 2 ^ κ * 2 ^ (nb + 1) ≤ p)
    (isRescale relu : Bool)
    (hr : ∀ n m i j, n < N → m < M → i < windows (H + p0 + p2) kh sh → j < windows (W + p1 + p3) kw sw →
      postRange isRescale κ nb relu
        (convAt x w (fun m => (elem bias [m]).getD 0) kh kw sh sw p0 p1 n m i j)) :
    Sound T (conv4dRun rc (castArr p x) (castArr p w) (castArr p bias) dil [kh, kw] [p0, p1, p2, p3] [sh, sw] 1
      isRescale κ nb relu)
      (IsConvLayer p x w bias N M kh kw sh sw p0 p1 (windows (H + p0 + p2) kh sh)
        (windows (W + p1 + p3) kw sw) isRescale κ relu) := by
  obtain ⟨out, _, h1, h2, h3, h4⟩ := convRun_cast (p := p) x w bias hx hw hb hbs hdil hs
  rw [conv4dRun, h1]
  refine Sound.bind (P := fun o => o = castArr p out) (Sound.pure rfl) ?_
  rintro _ rfl
  refine Sound.bind (C05_layer_post_sound_partial hT hc hn hd hds hp isRescale relu out.data ?_) ?_
  · intro v hv
    obtain ⟨c, hc', e⟩ := mem_data_elem h3 hv
    rw [h2] at hc'
    obtain ⟨n, m, i, j, rfl⟩ : ∃ n m i j, c = [n, m, i, j] := by
      have := hc'.length_eq
      match c, this with
      | [n, m, i, j], _ => exact ⟨n, m, i, j, rfl⟩
    simp only [InRange, List.forall₂_cons] at hc'
    rw [h4 n m i j hc'.1 hc'.2.1 hc'.2.2.1 hc'.2.2.2.1] at e
    rw [← Option.some.inj e]
    exact hr n m i j hc'.1 hc'.2.1 hc'.2.2.1 hc'.2.2.2.1
  · rintro _ rfl
    exact Sound.pure (isConvLayer_of h2 h3 h4)

/-- **C53, the layer is complete**: the honest prover satisfies the constraints, for every digit
width. -/
theorem C53_conv_layer_complete {rc : RangeCtx} (hT : IsRangeTable T rc)
    (x w bias : Arr Int) {N C H W M kh kw sh sw p0 p1 p2 p3 : Nat} {dil : List Nat}
    (hx : x.shape = [N, C, H, W]) (hw : w.shape = [M, C, kh, kw])
    (hb : bias.WF) (hbs : bias.shape = [0] ∨ bias.shape = [M])
    (hdil : ∀ d ∈ dil, d = 1) (hs : ConvSizes H W kh kw kh kw sh sw p0 p1 p2 p3)
    {κ nb : Nat} (hn : 1 ≤ nb) (hn64 : nb ≤ 64) (hκ : κ < 32) (huk : RangeUsable p rc κ)
    (hun : RangeUsable p rc nb) (hp : 2 ^ κ * 2 ^ nb ≤ p)
    (isRescale relu : Bool)
    (hr : ∀ n m i j, n < N → m < M → i < windows (H + p0 + p2) kh sh → j < windows (W + p1 + p3) kw sw →
      postRange isRescale κ nb relu
        (convAt x w (fun m => (elem bias [m]).getD 0) kh kw sh sw p0 p1 n m i j)) :
    Complete T (conv4dRun rc (castArr p x) (castArr p w) (castArr p bias) dil [kh, kw] [p0, p1, p2, p3]
      [sh, sw] 1 isRescale κ nb relu)
      (IsConvLayer p x w bias N M kh kw sh sw p0 p1 (windows (H + p0 + p2) kh sh)
        (windows (W + p1 + p3) kw sw) isRescale κ relu) := by
  obtain ⟨out, _, h1, h2, h3, h4⟩ := convRun_cast (p := p) x w bias hx hw hb hbs hdil hs
  rw [conv4dRun, h1]
  refine Complete.bind (P := fun o => o = castArr p out) (Complete.pure rfl) ?_
  rintro _ rfl
  refine Complete.bind (C05_layer_post_complete hT hn hn64 hκ huk hun hp isRescale relu out.data ?_) ?_
  · intro v hv
    obtain ⟨c, hc', e⟩ := mem_data_elem h3 hv
    rw [h2] at hc'
    obtain ⟨n, m, i, j, rfl⟩ : ∃ n m i j, c = [n, m, i, j] := by
      have := hc'.length_eq
      match c, this with
      | [n, m, i, j], _ => exact ⟨n, m, i, j, rfl⟩
    simp only [InRange, List.forall₂_cons] at hc'
    rw [h4 n m i j hc'.1 hc'.2.1 hc'.2.2.1 hc'.2.2.2.1] at e
    rw [← Option.some.inj e]
    exact hr n m i j hc'.1 hc'.2.1 hc'.2.2.1 hc'.2.2.2.1
  · rintro _ rfl
    exact Complete.pure (isConvLayer_of h2 h3 h4)

/-! ## The hypotheses are met -/

/-- A 1×2×3×3 image, two 2×2 kernels, stride 1, padding on the top and left: the sizes are accepted,
and the values are those computed by hand. -/
def convX : Arr Int := ⟨[1, 2, 3, 3], [1, 2, 3, 4, 5, 6, 7, 8, 9, -1, 0, 1, 2, -2, 0, 1, 1, 1]⟩
def convW : Arr Int := ⟨[2, 2, 2, 2], [1, 0, 0, 1, 1, 1, 1, 1, 2, 0, 0, 0, 0, 0, 0, -1]⟩
def convB : Arr Int := ⟨[2], [10, -20]⟩

example : ConvSizes 3 3 2 2 2 2 1 1 1 1 0 0 :=
  ⟨by decide, by decide, by decide, by decide, by decide, by decide, by decide, by decide, by decide,
    by decide⟩

example : convRun convX convW convB [] [2, 2] [1, 1, 0, 0] [1, 1] 1 =
    .ok ⟨[1, 2, 3, 3], [10, 11, 14, 15, 15, 17, 20, 24, 24,
      -19, -20, -21, -22, -16, -16, -21, -13, -11]⟩ := by decide +kernel

example : convAt convX convW (fun m => (elem convB [m]).getD 0) 2 2 1 1 1 1 0 1 2 1 = -13 := by decide +kernel

/-- Padding three on a 2×2 kernel: the first window ends before the data. -/
example : ∃ i < windows (3 + 3 + 0) 2 1, (i * (1 : Nat) : Int) + (2 : Nat) < (3 : Nat) ∨ (3 : Nat) + (3 : Nat) < (i * (1 : Nat) : Int) :=
  ⟨0, by decide, by decide⟩

example : convRun convX convW convB [] [2, 2] [3, 0, 0, 0] [1, 1] 1 = .error .invalid := by decide +kernel
example : convRun convX convW convB [] [2, 2] [0, 0, 3, 0] [1, 1] 1 = .error .panic := by decide +kernel

/-- A kernel attribute of 1×1 with 2×2 weights: only the top-left weight is used. -/
example : ConvSizes 3 3 1 1 2 2 1 1 0 0 0 0 :=
  ⟨by decide, by decide, by decide, by decide, by decide, by decide, by decide, by decide, by decide,
    by decide⟩

example : postRange true 4 8 true
    (convAt convX convW (fun m => (elem convB [m]).getD 0) 2 2 1 1 1 1 0 1 2 1) := by
  simp only [postRange]; decide +kernel

end JST.Props
