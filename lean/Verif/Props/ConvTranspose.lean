import Verif.Tensor.ConvTransposeProofs
import Verif.Props.Conv

/-!
# C75: the transposed convolution layer

`ctRun` is the layer up to rescaling, over any commutative ring; `ctLayer` is the whole layer with its
constraints; `ctInfer` is the shape the importer records for its output.
-/

set_option linter.unusedSectionVars false

namespace JST.Props

open JST JST.Shape JST.Spec JST.Layers

/-- The meaning of the attributes of a two-dimensional transposed convolution with one group and unit
dilation; absent attributes have the ONNX defaults. -/
structure CTMeans (a : CTAttrs) (kh kw sh sw p0 p1 p2 p3 o0 o1 : Nat) : Prop where
  kernel : a.kernel = some [kh, kw]
  group : a.group.getD 1 = 1
  dilations : a.dilations.getD [1, 1] = [1, 1]
  strides : a.strides.getD [1, 1] = [sh, sw]
  pads : a.pads.getD [0, 0, 0, 0] = [p0, p1, p2, p3]
  outPad : a.outPad.getD [0, 0] = [o0, o1]

/-- Positive kernel and strides, and a positive output size. -/
structure CTSizes (H W kh kw sh sw p0 p1 p2 p3 o0 o1 : Nat) : Prop where
  kernelH : 0 < kh
  kernelW : 0 < kw
  strideH : 0 < sh
  strideW : 0 < sw
  outH : 0 < convTSize H kh 1 sh o0 p0 p2
  outW : 0 < convTSize W kw 1 sw o1 p1 p3

section Value

variable {F : Type} [CommRing F]

theorem ctBuild_means {a : CTAttrs} {kh kw sh sw p0 p1 p2 p3 o0 o1 : Nat}
    (ha : CTMeans a kh kw sh sw p0 p1 p2 p3 o0 o1) (h1 : 0 < kh) (h2 : 0 < kw) (h3 : 0 < sh) (h4 : 0 < sw) :
    ctBuild a = .ok ⟨[kh, kw], 1, [1, 1], [sh, sw], [p0, p1, p2, p3], [o0, o1]⟩ := by
  have e1 : ¬ (0 = kh ∨ 0 = kw) := by omega
  have e2 : ¬ (0 = sh ∨ 0 = sw) := by omega
  simp [ctBuild, ha.kernel, ha.group, ha.dilations, ha.strides, ha.pads, ha.outPad, e1, e2]

theorem biasInit (bias : Arr F) (hb : bias.WF) {M m : Nat} (hbs : bias.shape = [0] ∨ bias.shape = [M]) :
    ctInit bias m = (elem bias [m]).getD 0 := by
  have hd : bias.data.length = bias.shape.prod := hb
  unfold ctInit
  by_cases h0 : bias.shape.prod = 0
  · rw [if_pos h0]
    rw [h0, List.length_eq_zero_iff] at hd
    simp [elem, hd]
  · rw [if_neg h0]
    rcases hbs with h | h
    · simp [h] at h0
    · simp [elem, h, rowMajor]

/-- **C75, value.** With kernel, strides, padding and output padding as given, one group, unit dilation
and consistent shapes, the layer returns exactly the transposed convolution: every input entry spread
over the output by the kernel, plus the bias. -/
theorem C75_convt_value (a : CTAttrs) (x w bias : Arr F)
    {N C H W M kh kw sh sw p0 p1 p2 p3 o0 o1 : Nat} (ha : CTMeans a kh kw sh sw p0 p1 p2 p3 o0 o1)
    (hs : CTSizes H W kh kw sh sw p0 p1 p2 p3 o0 o1)
    (hx : x.shape = [N, C, H, W]) (hw : w.shape = [C, M, kh, kw])
    (hb : bias.WF) (hbs : bias.shape = [0] ∨ bias.shape = [M]) :
    ∃ out, ctRun a x w bias = .ok out ∧
      out.shape = [N, M, (convTSize H kh 1 sh o0 p0 p2).toNat, (convTSize W kw 1 sw o1 p1 p3).toNat] ∧
      out.WF ∧ ∀ n m i j : Nat, n < N → m < M → (i : Int) < convTSize H kh 1 sh o0 p0 p2 →
        (j : Int) < convTSize W kw 1 sw o1 p1 p3 →
        elem out [n, m, i, j] =
          some (convTAt x w (fun m => (elem bias [m]).getD 0) kh kw 1 1 sh sw p0 p1 n m i j) := by
  have hH := hs.outH
  have hW := hs.outW
  have hbp : ¬ (bias.shape.prod ≠ 0 ∧ bias.shape.length ≠ 1) := by rcases hbs with h | h <;> simp [h]
  have hbq : ¬ (bias.shape.prod ≠ 0 ∧ bias.shape.getD 0 0 ≠ M) := by rcases hbs with h | h <;> simp [h]
  rw [ctRun, ctBuild_means ha hs.kernelH hs.kernelW hs.strideH hs.strideW]
  simp only [bind, Except.bind]
  rw [ctApply_explicit x w bias hx hw]
  rw [if_neg (by simp), if_neg (by simp), if_neg (by omega), if_neg hbp, if_neg hbq]
  refine ⟨_, rfl, by simp, by simp [Arr.WF, length_idx4], fun n m i j hn hm hi hj => ?_⟩
  have hi' : i < (convTSize H kh 1 sh o0 p0 p2).toNat := by omega
  have hj' : j < (convTSize W kw 1 sw o1 p1 p3).toNat := by omega
  rw [elem, List.getElem?_map, idx4_getElem? hn hm hi' hj', Option.map_some,
    ctCell_eq _ _ _ _ _ _ _ _ _ _ _ _ _ (by simpa using hs.strideH) (by simpa using hs.strideW), biasInit bias hb hbs, convTAt]
  simp only [hx, List.getD_cons_zero, List.getD_cons_succ]
  congr 2
  refine Finset.sum_congr rfl fun c _ => Finset.sum_congr rfl fun h _ => Finset.sum_congr rfl fun v _ =>
    Finset.sum_congr rfl fun a' _ => Finset.sum_congr rfl fun b _ => ?_
  rw [get4_eq_elem x hx, get4_eq_elem w hw]

/-- **C75, nothing else is accepted.** Whenever the layer is built and returns a result, its attributes and
shapes are those of `C75_convt_value`, so the result is the transposed convolution. -/
theorem C75_convt_only (a : CTAttrs) (x w bias out : Arr F) (hb : bias.WF)
    (h : ctRun a x w bias = .ok out) :
    ∃ N C H W M kh kw sh sw p0 p1 p2 p3 o0 o1, CTMeans a kh kw sh sw p0 p1 p2 p3 o0 o1 ∧
      CTSizes H W kh kw sh sw p0 p1 p2 p3 o0 o1 ∧ x.shape = [N, C, H, W] ∧ w.shape = [C, M, kh, kw] ∧
      (bias.shape.prod = 0 ∨ bias.shape = [M]) := by
  rw [ctRun] at h
  obtain ⟨L, hL, h⟩ := Layers.bind_eq_ok h
  obtain ⟨kh, kw, sh, sw, p0, p1, p2, p3, o0, o1, rfl, k0, k1, s0, s1, e1, e2, e3, e4, e5, e6⟩ := ctBuild_ok hL
  obtain ⟨N, C, H, W, w0, w1, w2, w3, hx, hw⟩ := ctApply_rank h
  rw [ctApply_explicit x w bias hx hw] at h
  split_ifs at h with g1 g2 g3 g4 g5
  push Not at g1 g2 g3 g4 g5
  obtain ⟨rfl, rfl⟩ := g2
  subst g1
  refine ⟨N, w0, H, W, w1, w2, w3, sh, sw, p0, p1, p2, p3, o0, o1, ⟨e1, e2, e3, e4, e5, e6⟩,
    ⟨k0, k1, s0, s1, g3.1, g3.2⟩, hx, hw, ?_⟩
  by_cases hz : bias.shape.prod = 0
  · exact .inl hz
  · right
    have l := g4 hz
    have m := g5 hz
    match hbs : bias.shape, l, m with
    | [b], _, m => simpa [hbs] using m

/-- **C75, refusals.** More than one group, dilation, a kernel attribute that is missing, not
two-dimensional or unequal to the size of the weights, a zero stride, an input that is not
four-dimensional and an output of no positive size are errors, never computed wrongly. -/
theorem C75_convt_refuses (a : CTAttrs) (x w bias : Arr F)
    (h : a.group.getD 1 ≠ 1 ∨ (∃ d ∈ a.dilations.getD [1, 1], d ≠ 1) ∨ a.kernel = none ∨
      (∃ k, a.kernel = some k ∧ (k.length ≠ 2 ∨ w.shape.drop 2 ≠ k)) ∨ 0 ∈ a.strides.getD [1, 1] ∨
      x.shape.length ≠ 4 ∨ w.shape.length ≠ 4 ∨ w.shape.getD 0 0 ≠ x.shape.getD 1 0) (out : Arr F) :
    ctRun a x w bias ≠ .ok out := by
  intro e
  rw [ctRun] at e
  obtain ⟨L, hL, e⟩ := Layers.bind_eq_ok e
  obtain ⟨kh, kw, sh, sw, p0, p1, p2, p3, o0, o1, rfl, k0, k1, s0, s1, e1, e2, e3, e4, e5, e6⟩ := ctBuild_ok hL
  obtain ⟨N, C, H, W, w0, w1, w2, w3, hx, hw⟩ := ctApply_rank e
  rw [ctApply_explicit x w bias hx hw] at e
  split_ifs at e with g1 g2 g3 g4 g5
  push Not at g1 g2
  rcases h with h | ⟨d, hd, h⟩ | h | ⟨k, hk, h⟩ | h | h | h | h
  · exact h e2
  · rw [e3] at hd; simp at hd; exact h hd
  · rw [e1] at h; simp at h
  · rw [e1] at hk
    obtain rfl := Option.some.inj hk
    rcases h with h | h
    · simp at h
    · rw [hw, g2.1, g2.2] at h; simp at h
  · rw [e4] at h; simp at h; omega
  · rw [hx] at h; simp at h
  · rw [hw] at h; simp at h
  · rw [hw, hx] at h; simp at h; exact h g1

end Value

/-! ## Transposition -/

theorem sum_padded_rows {F : Type} [CommRing F] (S : Nat) (t : Int) (f : Nat → F) :
    (∑ i ∈ Finset.range S, if t = (i : Int) then f i else 0) =
      if 0 ≤ t ∧ t < S then f t.toNat else 0 := by
  by_cases h : 0 ≤ t ∧ t < S
  · rw [if_pos h, Finset.sum_eq_single t.toNat]
    · rw [if_pos (by omega)]
    · intro b _ hb; exact if_neg (by omega)
    · intro hh; exact absurd (Finset.mem_range.mpr (by omega)) hh
  · rw [if_neg h]
    refine Finset.sum_eq_zero fun b hb => if_neg fun e => h ?_
    have := Finset.mem_range.mp hb
    omega

/-- The transposed convolution is the transpose of the convolution: pairing its result with any tensor `y`
of the output's size gives the same number as pairing the input with the convolution of `y`. This is
what the name promises, and involves no inverse index mapping. -/
theorem convT_adjoint {F : Type} [CommRing F] (x w y : Arr F)
    {N C H W M kh kw sh sw p0 p1 OH OW : Nat} (hx : x.shape = [N, C, H, W]) (hy : y.shape = [N, M, OH, OW])
    (n : Nat) :
    (∑ m ∈ Finset.range M, ∑ i ∈ Finset.range OH, ∑ j ∈ Finset.range OW,
      convTAt x w (fun _ => 0) kh kw 1 1 sh sw p0 p1 n m i j * (elem y [n, m, i, j]).getD 0) =
    ∑ c ∈ Finset.range C, ∑ h ∈ Finset.range H, ∑ v ∈ Finset.range W,
      (elem x [n, c, h, v]).getD 0 * convAt y w (fun _ => 0) kh kw sh sw p0 p1 n c h v := by
  have hpad : ∀ (m c h v a b : Nat), (∑ i ∈ Finset.range OH, ∑ j ∈ Finset.range OW,
      (if (h * sh + a - p0 : Int) = i ∧ (v * sw + b - p1 : Int) = j then
        (elem x [n, c, h, v]).getD 0 * (elem w [c, m, a, b]).getD 0 else 0) * (elem y [n, m, i, j]).getD 0) =
      (elem x [n, c, h, v]).getD 0 * (padded y n m (h * sh + a - p0 : Int) (v * sw + b - p1 : Int) *
        (elem w [c, m, a, b]).getD 0) := by
    intro m c h v a b
    have e : ∀ i ∈ Finset.range OH, (∑ j ∈ Finset.range OW,
        (if (h * sh + a - p0 : Int) = i ∧ (v * sw + b - p1 : Int) = j then
          (elem x [n, c, h, v]).getD 0 * (elem w [c, m, a, b]).getD 0 else 0) *
            (elem y [n, m, i, j]).getD 0) =
        if (h * sh + a - p0 : Int) = i then
          (if 0 ≤ (v * sw + b - p1 : Int) ∧ (v * sw + b - p1 : Int) < OW then
            (elem x [n, c, h, v]).getD 0 * (elem w [c, m, a, b]).getD 0 *
              (elem y [n, m, i, (v * sw + b - p1 : Int).toNat]).getD 0 else 0) else 0 := by
      intro i _
      split_ifs with h1 h2
      · have := sum_padded_rows OW (v * sw + b - p1 : Int) fun j =>
          (elem x [n, c, h, v]).getD 0 * (elem w [c, m, a, b]).getD 0 * (elem y [n, m, i, j]).getD 0
        rw [if_pos h2] at this
        rw [← this]
        refine Finset.sum_congr rfl fun j _ => ?_
        by_cases hj : (v * sw + b - p1 : Int) = j
        · rw [if_pos ⟨h1, hj⟩, if_pos hj]
        · rw [if_neg (fun q => hj q.2), if_neg hj, zero_mul]
      · refine Finset.sum_eq_zero fun j hj => ?_
        rw [if_neg, zero_mul]
        rintro ⟨_, q⟩
        have := Finset.mem_range.mp hj
        omega
      · refine Finset.sum_eq_zero fun j _ => ?_
        rw [if_neg (fun q => h1 q.1), zero_mul]
    rw [Finset.sum_congr rfl e, sum_padded_rows OH _ fun i =>
      (if 0 ≤ (v * sw + b - p1 : Int) ∧ (v * sw + b - p1 : Int) < OW then
            (elem x [n, c, h, v]).getD 0 * (elem w [c, m, a, b]).getD 0 *
              (elem y [n, m, i, (v * sw + b - p1 : Int).toNat]).getD 0 else 0)]
    rw [padded]
    simp only [hy, List.getD_cons_zero, List.getD_cons_succ]
    by_cases q1 : 0 ≤ (h * sh + a - p0 : Int) ∧ (h * sh + a - p0 : Int) < OH
    · by_cases q2 : 0 ≤ (v * sw + b - p1 : Int) ∧ (v * sw + b - p1 : Int) < OW
      · rw [if_pos q1, if_pos q2, if_pos ⟨q1.1, q1.2, q2.1, q2.2⟩]; ring
      · rw [if_pos q1, if_neg q2, if_neg (fun q => q2 ⟨q.2.2.1, q.2.2.2⟩)]; ring
    · rw [if_neg q1, if_neg (fun q => q1 ⟨q.1, q.2.1⟩)]; ring
  simp only [convTAt, convAt, hx, hy, List.getD_cons_zero, List.getD_cons_succ, zero_add, Finset.sum_mul,
    Finset.mul_sum, Nat.cast_one, mul_one]
  -- move the sums over the channels and positions of the output inwards
  rw [Finset.sum_congr rfl fun m _ => Finset.sum_congr rfl fun i _ => Finset.sum_comm]
  rw [Finset.sum_congr rfl fun m _ => Finset.sum_comm]
  rw [Finset.sum_comm]
  refine Finset.sum_congr rfl fun c _ => ?_
  rw [Finset.sum_congr rfl fun m _ => Finset.sum_congr rfl fun i _ => Finset.sum_comm]
  rw [Finset.sum_congr rfl fun m _ => Finset.sum_comm]
  rw [Finset.sum_comm]
  refine Finset.sum_congr rfl fun h _ => ?_
  rw [Finset.sum_congr rfl fun m _ => Finset.sum_congr rfl fun i _ => Finset.sum_comm]
  rw [Finset.sum_congr rfl fun m _ => Finset.sum_comm]
  rw [Finset.sum_comm]
  refine Finset.sum_congr rfl fun v _ => ?_
  refine Finset.sum_congr rfl fun m _ => ?_
  rw [Finset.sum_congr rfl fun i _ => Finset.sum_comm]
  rw [Finset.sum_comm]
  refine Finset.sum_congr rfl fun a _ => ?_
  rw [Finset.sum_congr rfl fun i _ => Finset.sum_comm]
  rw [Finset.sum_comm]
  refine Finset.sum_congr rfl fun b _ => ?_
  exact hpad m c h v a b

/-- **C75, the layer transposes convolution.** For every tensor `y` of the output's size, the layer's
output (without bias) paired with `y` equals the input paired with the convolution of `y` by the same
weights, strides and padding. -/
theorem C75_convt_adjoint {F : Type} [CommRing F] (a : CTAttrs) (x w y : Arr F)
    {N C H W M kh kw sh sw p0 p1 p2 p3 o0 o1 OH OW : Nat} (ha : CTMeans a kh kw sh sw p0 p1 p2 p3 o0 o1)
    (hs : CTSizes H W kh kw sh sw p0 p1 p2 p3 o0 o1)
    (hx : x.shape = [N, C, H, W]) (hw : w.shape = [C, M, kh, kw]) (hy : y.shape = [N, M, OH, OW])
    (hOH : (OH : Int) = convTSize H kh 1 sh o0 p0 p2) (hOW : (OW : Int) = convTSize W kw 1 sw o1 p1 p3) :
    ∃ out, ctRun a x w ⟨[0], []⟩ = .ok out ∧ ∀ n < N,
      (∑ m ∈ Finset.range M, ∑ i ∈ Finset.range OH, ∑ j ∈ Finset.range OW,
        (elem out [n, m, i, j]).getD 0 * (elem y [n, m, i, j]).getD 0) =
      ∑ c ∈ Finset.range C, ∑ h ∈ Finset.range H, ∑ v ∈ Finset.range W,
        (elem x [n, c, h, v]).getD 0 * convAt y w (fun _ => 0) kh kw sh sw p0 p1 n c h v := by
  obtain ⟨out, h1, _, _, h4⟩ := C75_convt_value a x w ⟨[0], []⟩ ha hs hx hw rfl (.inl rfl)
  refine ⟨out, h1, fun n hn => ?_⟩
  rw [← convT_adjoint x w y hx hy n]
  refine Finset.sum_congr rfl fun m hm => Finset.sum_congr rfl fun i hi => Finset.sum_congr rfl fun j hj => ?_
  rw [h4 n m i j hn (Finset.mem_range.mp hm) (by have := Finset.mem_range.mp hi; omega)
    (by have := Finset.mem_range.mp hj; omega)]
  simp [convTAt, elem]

/-! ## The recorded shape -/

/-- **C75, the importer records the shape the layer produces**, when the attribute `output_shape` is absent
and the input has no empty axis. -/
theorem C75_convt_shape_partial {F : Type} [CommRing F] (a : CTAttrs) (x w bias out : Arr F) (hb : bias.WF)
    (hx : ∀ d ∈ x.shape, d ≠ 0) (h : ctRun a x w bias = .ok out) :
    ctInfer a none x.shape w.shape = .ok out.shape := by
  obtain ⟨N, C, H, W, M, kh, kw, sh, sw, p0, p1, p2, p3, o0, o1, ha, hs, ex, ew, hbs⟩ :=
    C75_convt_only a x w bias out hb h
  have hsh : out.shape =
      [N, M, (convTSize H kh 1 sh o0 p0 p2).toNat, (convTSize W kw 1 sw o1 p1 p3).toNat] := by
    rw [ctRun, ctBuild_means ha hs.kernelH hs.kernelW hs.strideH hs.strideW] at h
    simp only [bind, Except.bind] at h
    rw [ctApply_explicit x w bias ex ew] at h
    split_ifs at h
    rw [← Except.ok.inj h]
  have hH : H ≠ 0 := hx H (by simp [ex])
  have hW : W ≠ 0 := hx W (by simp [ex])
  have i1 := hs.kernelH
  have i2 := hs.kernelW
  have q1 : a.strides.getD [1, 1] = [sh, sw] := ha.strides
  have e1 : convTSize H kh 1 sh o0 p0 p2 =
      (sh : Int) * ((H : Int) - 1) + ((kh - 1) * 1 + 1 : Nat) - (p0 + p2 : Nat) + o0 := by
    unfold convTSize; push_cast [Nat.cast_sub (show 1 ≤ kh from i1)]; ring
  have e2 : convTSize W kw 1 sw o1 p1 p3 =
      (sw : Int) * ((W : Int) - 1) + ((kw - 1) * 1 + 1 : Nat) - (p1 + p3 : Nat) + o1 := by
    unfold convTSize; push_cast [Nat.cast_sub (show 1 ≤ kw from i2)]; ring
  have g1 := hs.outH
  have g2 := hs.outW
  rw [hsh, e1, e2]
  rw [e1] at g1
  rw [e2] at g2
  unfold ctInfer
  rw [ex, ew, ha.kernel, ha.group]
  simp only [Option.getD_some, List.length_cons, List.length_nil, List.replicate, ha.strides, ha.pads,
    ha.dilations, ha.outPad, List.getD_cons_zero, List.getD_cons_succ]
  simp only [ctInferAxes, List.getD_cons_zero, List.getD_cons_succ, List.length_cons, List.length_nil]
  simp only [List.getD_cons_zero, List.getD_cons_succ, hH, hW, if_false, bind, Except.bind, ge_iff_le,
    Nat.reduceAdd, Nat.reduceMul, le_refl, if_true, Nat.reduceLT, reduceCtorEq, ne_eq, not_true_eq_false,
    and_false, show kh ≠ 0 by omega, show kw ≠ 0 by omega, not_le.mpr g1, not_le.mpr g2, one_ne_zero]
  simp

/-- **C75, an `output_shape` attribute is obeyed by the importer and ignored by the circuit.** The recorded
shape is the attribute's; the layer computes with the given padding, so unless the two sizes happen to
coincide, everything after the layer is built for a shape the layer does not produce. -/
theorem C75_convt_output_shape {F : Type} [CommRing F] (a : CTAttrs) (x w bias : Arr F)
    {N C H W M kh kw sh sw p0 p1 p2 p3 o0 o1 : Nat} (ha : CTMeans a kh kw sh sw p0 p1 p2 p3 o0 o1)
    (hs : CTSizes H W kh kw sh sw p0 p1 p2 p3 o0 o1)
    (hx : x.shape = [N, C, H, W]) (hw : w.shape = [C, M, kh, kw])
    (hb : bias.WF) (hbs : bias.shape = [0] ∨ bias.shape = [M]) (r c : Nat)
    (hne : (r : Int) ≠ convTSize H kh 1 sh o0 p0 p2 ∨ (c : Int) ≠ convTSize W kw 1 sw o1 p1 p3) :
    ∃ out, ctRun a x w bias = .ok out ∧ ctInfer a (some [r, c]) x.shape w.shape = .ok [N, M, r, c] ∧
      out.shape ≠ [N, M, r, c] := by
  obtain ⟨out, h1, h2, _, _⟩ := C75_convt_value a x w bias ha hs hx hw hb hbs
  refine ⟨out, h1, ?_, ?_⟩
  · unfold ctInfer
    rw [hx, hw, ha.kernel, ha.group]
    simp
  · rw [h2]
    have := hs.outH
    have := hs.outW
    intro e
    simp only [List.cons.injEq, and_true, true_and] at e
    omega

/-! ## The whole layer -/

theorem castArr_convTAt {p : Nat} (x w bias : Arr Int) (kh kw dh dw sh sw p0 p1 n m i j : Nat) :
    convTAt (castArr p x) (castArr p w) (fun m => (elem (castArr p bias) [m]).getD 0) kh kw dh dw sh sw p0 p1
      n m i j =
      ((convTAt x w (fun m => (elem bias [m]).getD 0) kh kw dh dw sh sw p0 p1 n m i j : Int) : ZMod p) := by
  rw [convTAt, convTAt]
  simp only [castArr_elem]
  push_cast
  rfl

variable {p : Nat} [Fact p.Prime] {T : Tables (ZMod p)}

/-- Every entry is the post-processed value of the transposed convolution. -/
def IsConvTLayer (p : Nat) (x w bias : Arr Int) (N M kh kw sh sw p0 p1 hO wO : Nat) (isRescale : Bool) (κ : Nat)
    (y : Arr (ZMod p)) : Prop :=
  y.shape = [N, M, hO, wO] ∧ y.WF ∧
  ∀ n m i j, n < N → m < M → i < hO → j < wO →
    elem y [n, m, i, j] = some ((postSpec isRescale κ false
      (convTAt x w (fun m => (elem bias [m]).getD 0) kh kw 1 1 sh sw p0 p1 n m i j) : Int) : ZMod p)

theorem ctRun_cast (a : CTAttrs) (x w bias : Arr Int)
    {N C H W M kh kw sh sw p0 p1 p2 p3 o0 o1 OH OW : Nat} (ha : CTMeans a kh kw sh sw p0 p1 p2 p3 o0 o1)
    (hs : CTSizes H W kh kw sh sw p0 p1 p2 p3 o0 o1)
    (hx : x.shape = [N, C, H, W]) (hw : w.shape = [C, M, kh, kw])
    (hb : bias.WF) (hbs : bias.shape = [0] ∨ bias.shape = [M])
    (hOH : (OH : Int) = convTSize H kh 1 sh o0 p0 p2) (hOW : (OW : Int) = convTSize W kw 1 sw o1 p1 p3) :
    ∃ out : Arr Int, ctRun (F := ZMod p) a (castArr p x) (castArr p w) (castArr p bias) = .ok (castArr p out) ∧
      out.shape = [N, M, OH, OW] ∧ out.WF ∧
      ∀ n m i j, n < N → m < M → i < OH → j < OW → elem out [n, m, i, j] =
          some (convTAt x w (fun m => (elem bias [m]).getD 0) kh kw 1 1 sh sw p0 p1 n m i j) := by
  obtain ⟨o, h1, h2, h3, h4⟩ := C75_convt_value a x w bias ha hs hx hw hb hbs
  obtain ⟨o', g1, g2, g3, g4⟩ := C75_convt_value a (castArr p x) (castArr p w) (castArr p bias) ha hs hx hw
    (by simpa [Arr.WF, castArr] using hb) hbs
  rw [← hOH, ← hOW, Int.toNat_natCast, Int.toNat_natCast] at h2 g2
  refine ⟨o, ?_, h2, h3, fun n m i j hn hm hi hj => h4 n m i j hn hm (by omega) (by omega)⟩
  rw [g1]
  congr 1
  refine arr_ext g3 (by simpa [Arr.WF, castArr] using h3) (by rw [g2]; exact h2.symm) ?_
  intro c hc
  rw [g2] at hc
  obtain ⟨n, m, i, j, rfl⟩ : ∃ n m i j, c = [n, m, i, j] := by
    have := hc.length_eq
    match c, this with
    | [n, m, i, j], _ => exact ⟨n, m, i, j, rfl⟩
  simp only [InRange, List.forall₂_cons] at hc
  rw [g4 n m i j hc.1 hc.2.1 (by omega) (by omega), castArr_convTAt]
  have := h4 n m i j hc.1 hc.2.1 (by omega) (by omega)
  simp only [elem, castArr, List.getElem?_map] at this ⊢
  rw [this]
  rfl

theorem isConvTLayer_of {x w bias : Arr Int} {N M kh kw sh sw p0 p1 hO wO : Nat} {isRescale : Bool}
    {κ : Nat} {out : Arr Int} (h2 : out.shape = [N, M, hO, wO]) (h3 : out.WF)
    (h4 : ∀ n m i j, n < N → m < M → i < hO → j < wO →
        elem out [n, m, i, j] =
          some (convTAt x w (fun m => (elem bias [m]).getD 0) kh kw 1 1 sh sw p0 p1 n m i j)) :
    IsConvTLayer p x w bias N M kh kw sh sw p0 p1 hO wO isRescale κ
      ⟨out.shape, out.data.map fun x : Int => ((postSpec isRescale κ false x : Int) : ZMod p)⟩ := by
  refine ⟨h2, by simpa [Arr.WF] using h3, fun n m i j hn hm hi hj => ?_⟩
  have := h4 n m i j hn hm hi hj
  simp only [elem, List.getElem?_map] at this ⊢
  rw [this]
  rfl

theorem convT_range {x w bias : Arr Int} {N M kh kw sh sw p0 p1 OH OW : Nat} {P : Int → Prop} {out : Arr Int}
    (h2 : out.shape = [N, M, OH, OW]) (h3 : out.WF)
    (h4 : ∀ n m i j, n < N → m < M → i < OH → j < OW →
        elem out [n, m, i, j] =
          some (convTAt x w (fun m => (elem bias [m]).getD 0) kh kw 1 1 sh sw p0 p1 n m i j))
    (hr : ∀ n m i j, n < N → m < M → i < OH → j < OW →
      P (convTAt x w (fun m => (elem bias [m]).getD 0) kh kw 1 1 sh sw p0 p1 n m i j)) :
    ∀ v ∈ out.data, P v := by
  intro v hv
  obtain ⟨c, hc', e⟩ := mem_data_elem h3 hv
  rw [h2] at hc'
  obtain ⟨n, m, i, j, rfl⟩ : ∃ n m i j, c = [n, m, i, j] := by
    have := hc'.length_eq
    match c, this with
    | [n, m, i, j], _ => exact ⟨n, m, i, j, rfl⟩
  simp only [InRange, List.forall₂_cons] at hc'
  rw [h4 n m i j hc'.1 hc'.2.1 hc'.2.2.1 hc'.2.2.2.1] at e
  rw [← Option.some.inj e]
  exact hr n m i j hc'.1 hc'.2.1 hc'.2.2.1 hc'.2.2.2.1

/-- **C75, the layer is sound.** Whatever hints the prover supplies, if the constraints of the layer hold
then every output is the transposed convolution of the integer tensors, rescaled as configured, provided
the sums are in the configured range and the digit width divides the checked widths. Missing: other digit
widths (`C05_rescale_unsound`). -/
theorem C75_convt_layer_sound_partial {rc : RangeCtx} (hT : IsRangeTable T rc) (hc : 0 < rc.chunk)
    (a : CTAttrs) (x w bias : Arr Int)
    {N C H W M kh kw sh sw p0 p1 p2 p3 o0 o1 OH OW : Nat} (ha : CTMeans a kh kw sh sw p0 p1 p2 p3 o0 o1)
    (hs : CTSizes H W kh kw sh sw p0 p1 p2 p3 o0 o1)
    (hx : x.shape = [N, C, H, W]) (hw : w.shape = [C, M, kh, kw])
    (hb : bias.WF) (hbs : bias.shape = [0] ∨ bias.shape = [M])
    (hOH : (OH : Int) = convTSize H kh 1 sh o0 p0 p2) (hOW : (OW : Int) = convTSize W kw 1 sw o1 p1 p3)
    {κ nb : Nat} (hn : 1 ≤ nb) (hd : rc.chunk ∣ κ) (hds : rc.chunk ∣ nb) (hp : 2 ^ κ * 2 ^ (nb + 1) ≤ p)
    (isRescale : Bool)
    (hr : ∀ n m i j, n < N → m < M → i < OH → j < OW → postRange isRescale κ nb false
        (convTAt x w (fun m => (elem bias [m]).getD 0) kh kw 1 1 sh sw p0 p1 n m i j)) :
    Sound T (ctLayer rc a (castArr p x) (castArr p w) (castArr p bias) isRescale κ nb)
      (IsConvTLayer p x w bias N M kh kw sh sw p0 p1 OH OW isRescale κ) := by
  obtain ⟨out, h1, h2, h3, h4⟩ := ctRun_cast (p := p) a x w bias ha hs hx hw hb hbs hOH hOW
  rw [ctLayer, h1]
  refine Sound.bind (P := fun o => o = castArr p out) (Sound.pure rfl) ?_
  rintro _ rfl
  refine Sound.bind (C05_layer_post_sound_partial hT hc hn hd hds hp isRescale false out.data
    (convT_range h2 h3 h4 hr)) ?_
  rintro _ rfl
  exact Sound.pure (isConvTLayer_of h2 h3 h4)

/-- **C75, the layer is complete**: the honest prover satisfies the constraints, for every digit width. -/
theorem C75_convt_layer_complete {rc : RangeCtx} (hT : IsRangeTable T rc)
    (a : CTAttrs) (x w bias : Arr Int)
    {N C H W M kh kw sh sw p0 p1 p2 p3 o0 o1 OH OW : Nat} (ha : CTMeans a kh kw sh sw p0 p1 p2 p3 o0 o1)
    (hs : CTSizes H W kh kw sh sw p0 p1 p2 p3 o0 o1)
    (hx : x.shape = [N, C, H, W]) (hw : w.shape = [C, M, kh, kw])
    (hb : bias.WF) (hbs : bias.shape = [0] ∨ bias.shape = [M])
    (hOH : (OH : Int) = convTSize H kh 1 sh o0 p0 p2) (hOW : (OW : Int) = convTSize W kw 1 sw o1 p1 p3)
    {κ nb : Nat} (hn : 1 ≤ nb) (hn64 : nb ≤ 64) (hκ : κ < 32) (huk : RangeUsable p rc κ)
    (hun : RangeUsable p rc nb) (hp : 2 ^ κ * 2 ^ nb ≤ p) (isRescale : Bool)
    (hr : ∀ n m i j, n < N → m < M → i < OH → j < OW → postRange isRescale κ nb false
        (convTAt x w (fun m => (elem bias [m]).getD 0) kh kw 1 1 sh sw p0 p1 n m i j)) :
    Complete T (ctLayer rc a (castArr p x) (castArr p w) (castArr p bias) isRescale κ nb)
      (IsConvTLayer p x w bias N M kh kw sh sw p0 p1 OH OW isRescale κ) := by
  obtain ⟨out, h1, h2, h3, h4⟩ := ctRun_cast (p := p) a x w bias ha hs hx hw hb hbs hOH hOW
  rw [ctLayer, h1]
  refine Complete.bind (P := fun o => o = castArr p out) (Complete.pure rfl) ?_
  rintro _ rfl
  refine Complete.bind (C05_layer_post_complete hT hn hn64 hκ huk hun hp isRescale false out.data
    (convT_range h2 h3 h4 hr)) ?_
  rintro _ rfl
  exact Complete.pure (isConvTLayer_of h2 h3 h4)

/-! ## The hypotheses are met -/

/-- A 1×2×2×2 input, one output channel, a 2×2 kernel, strides 2 and 1, one row of padding removed at the
top and one row of output padding. -/
def ctX : Arr Int := ⟨[1, 2, 2, 2], [1, 2, 3, 4, 5, 6, 7, -8]⟩
def ctW : Arr Int := ⟨[2, 1, 2, 2], [1, 10, 100, 1000, -1, 2, 0, 3]⟩
def ctB : Arr Int := ⟨[1], [7]⟩
def ctA : CTAttrs := { kernel := some [2, 2], strides := some [2, 1], pads := some [1, 0, 0, 0], outPad := some [1, 0] }

example : CTMeans ctA 2 2 2 1 1 0 0 0 1 0 := ⟨rfl, rfl, rfl, rfl, rfl, rfl⟩
example : CTSizes 2 2 2 2 2 1 1 0 0 0 1 0 :=
  ⟨by decide, by decide, by decide, by decide, by decide, by decide⟩

example : ctRun ctA ctX ctW ctB = .ok ⟨[1, 1, 4, 3],
    [107, 1222, 2025, 3, 63, 31, 307, 3428, 3983, 7, 7, 7]⟩ := by decide +kernel

example : convTAt ctX ctW (fun m => (elem ctB [m]).getD 0) 2 2 1 1 2 1 1 0 0 0 2 1 = 3428 := by decide +kernel

example : ctInfer ctA none ctX.shape ctW.shape = .ok [1, 1, 4, 3] := by decide +kernel
example : ctInfer ctA (some [4, 4]) ctX.shape ctW.shape = .ok [1, 1, 4, 4] := by decide +kernel

example : postRange true 4 16 false
    (convTAt ctX ctW (fun m => (elem ctB [m]).getD 0) 2 2 1 1 2 1 1 0 0 0 2 1) := by
  simp only [postRange]; decide +kernel

end JST.Props
