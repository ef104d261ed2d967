import Verif.Remainder.Images
import Mathlib.Tactic.IntervalCases

/-!
# C77: what the second backend proves about a model
-/

namespace JST.Props

open JST.Remainder

/-! ## Example models -/

/-- A Gemm. -/
def rGemm (name x y : String) (shape : List Nat) (w b : List Int) : Layer :=
  { name := name, op := .gemm, inputs := [x, "w", "b"], outputs := [y],
    weights := fun n => if n = "w" then some ⟨shape, w⟩ else if n = "b" then some ⟨[b.length], b⟩ else none }

/-- A Relu. -/
def rRelu (name x y : String) (n : Nat) : Layer :=
  { name := name, op := .relu, inputs := [x], outputs := [y], nBits := some n }

/-- Two inputs, a Gemm, a Relu and a Gemm, at scale 16. -/
def rMlp : Model :=
  { inputNames := ["x"], inputShapes := fun n => if n = "x" then some [2] else none, outputNames := ["z"],
    layers := [rGemm "g" "x" "h" [2, 3] [16, -16, 8, 5, 16, 3] [0, 7, -3], rRelu "r" "h" "a" 14,
      rGemm "k" "a" "z" [3, 1] [16, 3, -16] [1]],
    exponent := 4, alpha := 16 }

/-- Two Gemms at scale 2 with nothing between them, both with factor one. -/
def rChain : Model :=
  { inputNames := ["x"], inputShapes := fun n => if n = "x" then some [1] else none, outputNames := ["z"],
    layers := [rGemm "g" "x" "h" [1, 1] [2] [], rGemm "k" "h" "z" [1, 1] [2] []], exponent := 1, alpha := 2 }

/-- A 1×1 convolution with factors 1 and 10. -/
def rConv : Layer :=
  { name := "c", op := .conv, inputs := ["x", "w"], outputs := ["y"],
    weights := fun n => if n = "w" then some ⟨[2, 1, 1, 1], [16, 160]⟩ else none }

/-- A 1×2 image, a 1×1 convolution with factors 1 and 10, a Relu, a Flatten and a Gemm that picks entry 1. -/
def rFlat : Model :=
  { inputNames := ["x"], inputShapes := fun n => if n = "x" then some [1, 1, 2] else none, outputNames := ["z"],
    layers := [rConv,
      rRelu "r" "y" "a" 14,
      { name := "f", op := .flatten, inputs := ["a"], outputs := ["v"], outputShape := [4] },
      rGemm "g" "v" "z" [4, 1] [0, 16, 0, 0] []],
    exponent := 4, alpha := 16 }

/-- The identity convolution on two channels. -/
def rConvId : Layer :=
  { name := "c", op := .conv, inputs := ["x", "w"], outputs := ["y"],
    weights := fun n => if n = "w" then some ⟨[2, 2, 1, 1], [16, 0, 0, 16]⟩ else none }

/-- A Split into one entry and three. -/
def rSplitL : Layer :=
  { name := "s", op := .split, inputs := ["x"], outputs := ["y", "z"],
    intsAttr := fun n => if n = "split" then some [1, 3] else none }

/-- A Split of four entries into one and three, of which the second part is the output. -/
def rSplit : Model :=
  { inputNames := ["x"], inputShapes := fun n => if n = "x" then some [4] else none, outputNames := ["z"],
    layers := [rSplitL], exponent := 4, alpha := 16 }

/-- A Transpose of a 2×2 matrix. -/
def rTrans : Model :=
  { inputNames := ["x"], inputShapes := fun n => if n = "x" then some [4] else none, outputNames := ["z"],
    layers := [{ name := "t", op := .transpose, inputs := ["x"], outputs := ["z"], outputShape := [2, 2] }],
    exponent := 4, alpha := 16 }

/-! ## What holds -/

theorem exists_ok {α : Type} {x : R α} (h : x.toOption.isSome = true) : ∃ a, x = .ok a := by
  cases x with
  | error _ => simp [Except.toOption] at h
  | ok a => exact ⟨a, rfl⟩

theorem eq_ok {α : Type} {x : R α} {a : α} (h : x.toOption = some a) : x = .ok a := by
  cases x with
  | error _ => simp [Except.toOption] at h
  | ok b => simp [Except.toOption] at h; rw [h]

/-- **C77, what holds of soundness.** If every rescaled tensor is the input of a Relu or the output of the
model, every Relu and MaxPool of the model has a width, and only constrained operators occur, then a verified
proof shows that the claimed output is the fixed-point evaluation of the model on the input, whatever widths
the proof brings along. -/
theorem C77_sound_partial {p : Nat} [Fact p.Prime] {m : Model} {input expected out : List Int}
    {obs : String → Option Nat} (h : Accepts p m input expected obs) (hp : 2 ^ 100 < p)
    (hα : m.alpha = 2 ^ m.exponent) (hnd : (m.layers.map (·.name)).Nodup)
    (hout : (m.layers.flatMap (·.outputs)).Nodup)
    (hb : ∀ l ∈ m.layers, (l.op = .relu ∨ l.op = .maxPool) → l.nBits ≠ none)
    (hg : Guarded (m.outputNames.headD "") m.layers) (he : ∀ v ∈ expected, InI64 v)
    (hr : refOutput m input = .ok out) : padded expected = out := by
  obtain ⟨nv, f, h1, rfl⟩ := refOutput_ok hr
  exact padded_eq.2 (accepts_sound h hp hα hnd hout hb hg he h1)

/-- **C77, completeness.** The fixed-point evaluation of a model is accepted, if the circuit can be built and the
inputs of Relus and the differences in MaxPools fit their widths. -/
theorem C77_complete {p : Nat} {m : Model} {input expected : List Int}
    (hpub : ∃ pub, publicShreds m input expected = .ok pub) (hC : ∃ C, build m (nextPow2 input.length) = .ok C)
    (hnd : (m.layers.map (·.name)).Nodup) (hα : m.alpha = 2 ^ m.exponent)
    (hbd : BoundedSteps m.exponent m.alpha m.layers (refInit m input))
    (hr : refOutput m input = .ok (padded expected)) : Accepts p m input expected (fun _ => none) := by
  obtain ⟨nv, f, h1, h2⟩ := refOutput_ok hr
  obtain ⟨h3, h4⟩ := padded_eq.1 h2
  exact accepts_complete hpub hC hnd hα h1 hbd h3 h4

example (p : Nat) [Fact p.Prime] (hp : 2 ^ 100 < p) : Accepts p rMlp [5, -7] [1] (fun _ => none) ∧
    ∀ e obs, (∀ v ∈ e, InI64 v) → Accepts p rMlp [5, -7] e obs → padded e = [1] := by
  have hr : refOutput rMlp [5, -7] = .ok [1] := eq_ok (by decide +kernel)
  refine ⟨C77_complete (exists_ok (by decide +kernel)) (exists_ok (by decide +kernel)) (by decide +kernel) rfl
    (boundedCheck_ok (by decide +kernel)) (eq_ok (by decide +kernel)), fun e obs he h => ?_⟩
  exact C77_sound_partial h hp rfl (by decide +kernel) (by decide +kernel) (by decide +kernel) (by decide +kernel)
    he hr

/-! The evaluation that C77_sound_partial speaks of, for images: it does what ONNX says, whatever the layout in
which the circuit keeps them. -/

/-- **C77, inputs** of shape `[C, H, W]` are images in ONNX order. -/
theorem C77_input_image {m : Model} {x : String} {input : List Int} {C H W : Nat} (hx : x ∈ m.inputNames)
    (hs : m.inputShapes x = some [C, H, W]) (hl : input.length = C * H * W) :
    (refInit m input).IsImage x C H W fun c h w => input.getD ((c * H + h) * W + w) 0 := input_image hx hs hl

/-- **C77, Conv** with padding and strides. -/
theorem C77_conv_image {α : Int} {l : Layer} {st st' : RSt} {x t wn : String} {C H W : Nat} {g : ConvAttrs}
    {data : List Int} {X : Nat → Nat → Nat → Int} (h : refStep α l st = .ok st') (hl : IsConv l g wn data)
    (hx : l.inputs[0]? = some x) (ht : t ∈ l.outputs) (hi : st.IsImage x C H W X) :
    C = g.cIn ∧ st'.IsImage t g.cOut ((H + g.pt + g.pb - g.kh) / g.sh + 1) ((W + g.pl + g.pr - g.kw) / g.sw + 1)
      fun co oh ow => (convAt g H W data X co oh ow + (biasList l).getD co 0) / α := conv_image h hl hx ht hi

/-- **C77, MaxPool.** -/
theorem C77_pool_image {α : Int} {l : Layer} {st st' : RSt} {x t : String} {C H W a b sh sw : Nat}
    {X : Nat → Nat → Nat → Int} (h : refStep α l st = .ok st') (hop : l.op = .maxPool)
    (hk : l.intsAttr "kernel_shape" = some ([a, b].map Int.ofNat))
    (hs : l.intsAttr "strides" = some ([sh, sw].map Int.ofNat))
    (hx : l.inputs[0]? = some x) (ht : t ∈ l.outputs) (hi : st.IsImage x C H W X) :
    ∃ Y, st'.IsImage t C ((H - a) / sh + 1) ((W - b) / sw + 1) Y ∧
      ∀ c < C, ∀ oh < (H - a) / sh + 1, ∀ ow < (W - b) / sw + 1,
        IsGreatest {y | ∃ kr < a, ∃ kc < b, y = X c (oh * sh + kr) (ow * sw + kc)} (Y c oh ow) :=
  pool_image h hop hk hs hx ht hi

/-- **C77, Relu.** -/
theorem C77_relu_image {α : Int} {l : Layer} {st st' : RSt} {x t : String} {C H W : Nat} {X : Nat → Nat → Nat → Int}
    (h : refStep α l st = .ok st') (hop : l.op = .relu) (hx : l.inputs[0]? = some x) (ht : t ∈ l.outputs)
    (hi : st.IsImage x C H W X) : st'.IsImage t C H W fun c h w => max (X c h w) 0 := relu_image h hop hx ht hi

/-- **C77, BatchNormalization** with a factor and an addend for each channel. -/
theorem C77_bn_image {α : Int} {l : Layer} {st st' : RSt} {x t sn bn : String} {C H W : Nat} {mul add : Weight}
    {X : Nat → Nat → Nat → Int} (h : refStep α l st = .ok st') (hop : l.op = .batchNorm)
    (hx : l.inputs[0]? = some x) (hs : l.inputs[1]? = some sn) (hb : l.inputs[2]? = some bn)
    (hm : l.weights sn = some mul) (ha : l.weights bn = some add) (hml : mul.data.length = C)
    (hal : add.data.length = C) (ht : t ∈ l.outputs) (hi : st.IsImage x C H W X) :
    st'.IsImage t C H W fun c h w => (X c h w * mul.data.getD c 0 + add.data.getD c 0) / α :=
  bn_image h hop hx hs hb hm ha hml hal ht hi

/-- **C77, Add**, for images in the same layout; C77_residual_wrong is about others. -/
theorem C77_add_image_partial {α : Int} {l : Layer} {st st' : RSt} {a b t : String} {C H W : Nat}
    {X Y : Nat → Nat → Nat → Int} (h : refStep α l st = .ok st') (hop : l.op = .add)
    (ha : l.inputs[0]? = some a) (hb : l.inputs[1]? = some b) (ht : t ∈ l.outputs)
    (hl : st.layout a = st.layout b) (hi : st.IsImage a C H W X) (hj : st.IsImage b C H W Y) :
    st'.IsImage t C H W fun c h w => X c h w + Y c h w := add_image h hop ha hb ht hl hi hj

/-- Two channels of 3×3, a convolution to three channels with padding 1 and stride 2, and a MaxPool. -/
def rConvP : Layer :=
  { name := "c", op := .conv, inputs := ["x", "w"], outputs := ["y"],
    weights := fun n => if n = "w" then some ⟨[3, 2, 2, 2], (List.range 24).map fun i => (i : Int) - 7⟩ else none
    intsAttr := fun n => if n = "pads" then some ([1, 1, 1, 1].map Int.ofNat) else
      if n = "strides" then some ([2, 1].map Int.ofNat) else none }

/-- The pooling. -/
def rPoolP : Layer :=
  { name := "p", op := .maxPool, inputs := ["y"], outputs := ["z"], nBits := some 12,
    intsAttr := fun n => if n = "kernel_shape" then some ([1, 3].map Int.ofNat) else
      if n = "strides" then some ([1, 1].map Int.ofNat) else none }

/-- The model of both. -/
def rImg : Model :=
  { inputNames := ["x"], inputShapes := fun n => if n = "x" then some [2, 3, 3] else none, outputNames := ["z"],
    layers := [rConvP, rPoolP], exponent := 4, alpha := 16 }

example : ∃ st' st'' Y, refStep 16 rConvP (refInit rImg ((List.range 18).map fun i => (i : Int) * 3)) = .ok st' ∧
    refStep 16 rPoolP st' = .ok st'' ∧ st''.IsImage "z" 3 2 2 Y := by
  have h0 := C77_input_image (m := rImg) (x := "x") (input := (List.range 18).map fun i => (i : Int) * 3)
    (by decide) rfl rfl
  have hs : (refSteps 16 rImg.layers (refInit rImg ((List.range 18).map fun i => (i : Int) * 3))).toOption.isSome =
    true := by decide +kernel
  obtain ⟨s, hs⟩ := exists_ok hs
  simp only [rImg, refSteps, bind_ok] at hs
  obtain ⟨s1, h1, s2, h2, -⟩ := hs
  obtain ⟨-, h3⟩ := C77_conv_image (g := ⟨3, 2, 2, 2, 1, 1, 1, 1, 2, 1⟩) h1 ⟨rfl, rfl, rfl, rfl, rfl⟩ rfl
    (t := "y") (by decide) h0
  obtain ⟨Y, h4, -⟩ := C77_pool_image h2 rfl rfl rfl rfl (t := "z") (by decide) h3
  exact ⟨s1, s2, Y, h1, h2, h4⟩

/-- **C77, the honest prover's quotients.** As long as the value shifted by `alpha * offset` is not negative,
quotient and remainder are those of the division that rounds down. -/
theorem C77_rescale {v α offset : Int} (hα : 0 < α) (h : 0 ≤ α * offset + v) :
    computeRescale v α offset = .ok (v / α, v % α) := by
  have hd : (α * offset + v).tdiv α = offset + v / α := by
    rw [Int.tdiv_eq_ediv_of_nonneg h, Int.add_comm, Int.add_mul_ediv_left _ _ hα.ne', Int.add_comm]
  have := Int.emod_add_mul_ediv v α
  unfold computeRescale
  rw [if_neg hα.ne', hd]
  simp only [Except.ok.injEq, Prod.mk.injEq]
  constructor
  · ring
  · linarith [mul_add α offset (v / α)]

example : computeRescale (-35) 16 (2 ^ 30) = .ok (-3, 13) := C77_rescale (by norm_num) (by norm_num)

/-- Below that the remainder of a value that is no multiple of the scale is negative: it is in no table, and there
is no proof. -/
theorem C77_rescale_low {v α offset : Int} (hα : 0 < α) (h : α * offset + v < 0) (hv : v % α ≠ 0) :
    ∃ q r, computeRescale v α offset = .ok (q, r) ∧ r < 0 := by
  refine ⟨(α * offset + v).tdiv α - offset, α * offset + v - α * (α * offset + v).tdiv α, ?_, ?_⟩
  · unfold computeRescale
    rw [if_neg hα.ne']
  · have h1 := Int.mul_tdiv_add_tmod (α * offset + v) α
    have h2 : 0 ≤ (-(α * offset + v)).tmod α := Int.tmod_nonneg α (by omega)
    rw [Int.neg_tmod] at h2
    have h3 : (α * offset + v).tmod α ≠ 0 := by
      intro h0
      have := Int.dvd_of_tmod_eq_zero h0
      exact hv (Int.emod_eq_zero_of_dvd ((Int.dvd_add_right (Dvd.intro _ rfl)).1 this))
    omega

example : ∃ q r, computeRescale (-35) 16 2 = .ok (q, r) ∧ r < 0 :=
  C77_rescale_low (by norm_num) (by norm_num) (by norm_num)

/-! ## What fails -/

/-- **C77, operators without constraints.** If the last layer is a Gather, LayerNormalization, Resize, GridSample,
Transpose, Concat, Slice, Where or Constant, and gives the output of the model, then whenever one output is
accepted, every other of the same padded length is. -/
theorem C77_unchecked_output {p : Nat} {m : Model} {ls : List Layer} {l : Layer} {input e0 e : List Int}
    {obs : String → Option Nat} (hm : m.layers = ls ++ [l]) (hu : l.Unchecked) (hn : l.name ∉ ls.map (·.name))
    (ho : m.outputNames.headD "" ∈ l.outputs) (hlen : nextPow2 e.length = nextPow2 e0.length)
    (h : Accepts p m input e0 obs) : Accepts p m input e obs :=
  accepts_free hm hu hn ho hlen h

/-- The circuit of the Transpose. -/
def rTransC : Circuit :=
  ⟨[⟨.input "x", 2, true⟩, ⟨.expected, 2, true⟩, ⟨.out "t", 2, false⟩],
    [(2, .sub (.node (.shred (.out "t"))) (.node (.shred .expected)))], []⟩

/-- Every matrix is accepted as the transpose of `[[1, 2], [3, 4]]`. -/
theorem C77_transpose_free (p : Nat) (a b c d : Int) : Accepts p rTrans [1, 2, 3, 4] [a, b, c, d] (fun _ => none) := by
  refine C77_unchecked_output (ls := []) (e0 := [1, 3, 2, 4]) rfl (Or.inl (by decide)) (by decide) (by decide)
    rfl ?_
  refine accepts_of (C := rTransC) (fun s => match s with
    | .input _ => [1, 2, 3, 4]
    | _ => [1, 3, 2, 4]) (fun s i => match s with
    | .input _ => (([1, 2, 3, 4] : List Int).getD i 0 : Int)
    | _ => (([1, 3, 2, 4] : List Int).getD i 0 : Int)) (by decide +kernel) (by decide +kernel) ?_ ?_ ?_
  · intro s hs _ i _
    simp only [rTransC, List.mem_cons, List.not_mem_nil, or_false] at hs
    rcases hs with rfl | rfl | rfl <;> rfl
  · intro x hx i _
    simp only [rTransC, List.mem_singleton] at hx
    subst hx
    simp [Expr.eval, Node.eval]
  · intro q hq
    simp [rTransC] at hq

/-- The circuit of the two Gemms. -/
def rChainC : Circuit :=
  let g := fun (l : String) (x : Node) => ((0, .sub (.sub (.add (.node (.matmul x 0 (.shred (.weight l)) 0))
    (.node (.shred (.bias l)))) (.scaled (.node (.shred (.q l))) 2)) (.node (.shred (.r l)))) : Nat × Expr)
  ⟨[⟨.input "x", 0, true⟩, ⟨.expected, 0, true⟩,
      ⟨.weight "g", 0, true⟩, ⟨.bias "g", 0, true⟩, ⟨.q "g", 0, false⟩, ⟨.r "g", 0, false⟩,
      ⟨.weight "k", 0, true⟩, ⟨.bias "k", 0, true⟩, ⟨.q "k", 0, false⟩, ⟨.r "k", 0, false⟩,
      ⟨.table 1, 1, true⟩, ⟨.table 1, 1, true⟩],
    [(0, .sub (.node (.shred (.q "k"))) (.node (.shred .expected))), g "g" (.shred (.input "x")),
      g "k" (.shred (.q "g"))],
    [(.shred (.r "g"), 0, 1), (.shred (.r "k"), 0, 1)]⟩

/-- **C77, quotients are not bounded.** In a chain of two Gemms with factor one the input zero has the output
zero, and the output minus one is accepted too: the quotient between the Gemms is not shown to be small and
may be a fraction modulo the field. -/
theorem C77_rounding_free {p : Nat} [Fact p.Prime] (hp : 2 ^ 100 < p) :
    refOutput rChain [0] = .ok [0] ∧ Accepts p rChain [0] [-1] (fun _ => none) := by
  refine ⟨eq_ok (by decide +kernel), ?_⟩
  have h2 : (2 : ZMod p) ≠ 0 := by
    intro h
    have : ((2 : Nat) : ZMod p) = 0 := by exact_mod_cast h
    rw [ZMod.natCast_eq_zero_iff] at this
    have := Nat.le_of_dvd (by norm_num) this
    norm_num at hp
    omega
  refine accepts_of (C := rChainC) (fun s => match s with
    | .input _ | .bias _ => [0]
    | .expected => [-1]
    | .weight _ => [2]
    | .table _ => [0, 1]
    | _ => []) (fun s i => match s with
    | .input _ | .bias _ => 0
    | .expected => -1
    | .weight _ => 2
    | .table _ => i
    | .q l => if l = "g" then -(2 : ZMod p)⁻¹ else -1
    | _ => 1) (by decide +kernel) (by decide +kernel) ?_ ?_ ?_
  · intro s hs hq i hi
    simp only [rChainC, List.mem_cons, List.not_mem_nil, or_false] at hs
    rcases hs with rfl | rfl | rfl | rfl | rfl | rfl | rfl | rfl | rfl | rfl | rfl | rfl <;>
      first
      | exact absurd hq (by decide)
      | (dsimp only at hi ⊢
         norm_num at hi
         have hi' : i < 2 := by omega
         interval_cases i <;> simp at hi ⊢)
  · intro x hx i hi
    simp only [rChainC, List.mem_cons, List.not_mem_nil, or_false] at hx
    rcases hx with rfl | rfl | rfl
    · simp [Expr.eval, Node.eval]
    · simp [Expr.eval, Node.eval, h2]
    · simp [Expr.eval, Node.eval, h2]
      norm_num
  · intro q hq i hi
    simp only [rChainC, List.mem_cons, List.not_mem_nil, or_false] at hq
    rcases hq with rfl | rfl <;> exact ⟨1, by norm_num, by simp [Node.eval]⟩

/-- **C77 fails as stated**: an accepted output need not be that of the model. -/
theorem C77_not_sound {p : Nat} [Fact p.Prime] (hp : 2 ^ 100 < p) :
    ¬ ∀ (m : Model) (input e out : List Int) (obs : String → Option Nat), m.alpha = 2 ^ m.exponent →
      (∀ v ∈ e, InI64 v) → refOutput m input = .ok out → Accepts p m input e obs → padded e = out := by
  intro h
  obtain ⟨h1, h2⟩ := C77_rounding_free hp
  have := h rChain [0] [-1] [0] _ rfl (by decide) h1 h2
  revert this
  decide +kernel

/-- **C77, Flatten after Conv.** The circuit flattens the image position by position while the weights of the
Gemm that follows count channel by channel as ONNX does: for factors 1 and 10 and the image `[1, 2]` the
second entry is 2, but only 10 is accepted. -/
theorem C77_flatten_order {p : Nat} [Fact p.Prime] (hp : 2 ^ 100 < p) :
    (flatImage 2 1 2 fun co _ w => max (([16, 160].getD co 0 * [1, 2].getD w 0) / 16) 0) = [1, 2, 10, 20] ∧
    Accepts p rFlat [1, 2] [10] (fun _ => none) ∧ ∀ obs, ¬ Accepts p rFlat [1, 2] [2] obs := by
  refine ⟨by decide, C77_complete (exists_ok (by decide +kernel)) (exists_ok (by decide +kernel)) (by decide +kernel)
    rfl (boundedCheck_ok (by decide +kernel)) (eq_ok (by decide +kernel)), fun obs h => ?_⟩
  have := C77_sound_partial (out := [10]) h hp rfl (by decide +kernel) (by decide +kernel) (by decide +kernel)
    (by decide +kernel) (by decide) (eq_ok (by decide +kernel))
  revert this
  decide +kernel

/-- A residual connection: two channels of 1×2, an identity convolution, a Relu and the sum with the input. -/
def rRes : Model :=
  { inputNames := ["x"], inputShapes := fun n => if n = "x" then some [2, 1, 2] else none, outputNames := ["z"],
    layers := [rConvId, rRelu "r" "y" "a" 14, { name := "s", op := .add, inputs := ["x", "a"], outputs := ["z"] }],
    exponent := 4, alpha := 16 }

/-- **C77, Add of images in different layouts.** The input lies channel by channel and the output of a convolution
position by position; Add adds the vectors. For the identity convolution and the channels `[1, 2]` and `[3, 4]`
the sum is twice the input, `[2, 4, 6, 8]` or in the other order `[2, 6, 4, 8]`; only `[2, 5, 5, 8]` is accepted. -/
theorem C77_residual_wrong {p : Nat} [Fact p.Prime] (hp : 2 ^ 100 < p) :
    Accepts p rRes [1, 2, 3, 4] [2, 5, 5, 8] (fun _ => none) ∧
    ∀ obs, ¬ Accepts p rRes [1, 2, 3, 4] [2, 4, 6, 8] obs ∧ ¬ Accepts p rRes [1, 2, 3, 4] [2, 6, 4, 8] obs := by
  have hr : refOutput rRes [1, 2, 3, 4] = .ok [2, 5, 5, 8] := eq_ok (by decide +kernel)
  have hs : ∀ e obs, (∀ v ∈ e, InI64 v) → Accepts p rRes [1, 2, 3, 4] e obs → padded e = [2, 5, 5, 8] :=
    fun e obs he h => C77_sound_partial h hp rfl (by decide +kernel) (by decide +kernel) (by decide +kernel)
      (by decide +kernel) he hr
  refine ⟨C77_complete (exists_ok (by decide +kernel)) (exists_ok (by decide +kernel)) (by decide +kernel)
    rfl (boundedCheck_ok (by decide +kernel)) (eq_ok (by decide +kernel)), fun obs => ⟨fun h => ?_, fun h => ?_⟩⟩
  · exact absurd (hs _ _ (by decide) h) (by decide +kernel)
  · exact absurd (hs _ _ (by decide) h) (by decide +kernel)

/-- The circuit of the Split. -/
def rSplitC : Circuit :=
  ⟨[⟨.input "x", 2, true⟩, ⟨.expected, 2, true⟩],
    [(2, .sub (.node (.shred (.input "x"))) (.node (.shred .expected)))], []⟩

/-- **C77, Split.** Every part of a Split is the whole input: of `[1, 2, 3, 4]`, split into one and three
entries, the second part is accepted as `[1, 2, 3, 4]` and not as `[2, 3, 4]`. -/
theorem C77_split_whole {p : Nat} [Fact p.Prime] (hp : 2 ^ 100 < p) :
    Accepts p rSplit [1, 2, 3, 4] [1, 2, 3, 4] (fun _ => none) ∧
    ¬ Accepts p rSplit [1, 2, 3, 4] [2, 3, 4] (fun _ => none) := by
  constructor
  · refine accepts_of (C := rSplitC) (fun _ => [1, 2, 3, 4]) (fun _ i => (([1, 2, 3, 4] : List Int).getD i 0 : Int))
      (by decide +kernel) (by decide +kernel) ?_ ?_ ?_
    · intro s _ _ i _
      rfl
    · intro x hx i _
      simp only [rSplitC, List.mem_singleton] at hx
      subst hx
      simp [Expr.eval, Node.eval]
    · intro q hq
      simp [rSplitC] at hq
  · rintro ⟨pub, C, h1, h2, h3⟩
    have hw : rSplit.withBits (fun _ => none) = rSplit := by simp [Model.withBits]
    rw [hw] at h1 h2
    obtain ⟨env, inp, bs, st, vs, ps, node, ov, P⟩ := parts_of_holds h1 h2 h3 (by decide +kernel)
    have hn := P.names
    simp only [rSplit, List.cons.injEq, and_true] at hn
    subst hn
    have hs : (steps rSplit rSplit.layers (initSt rSplit (numVars (nextPow2 [1, 2, 3, 4].length)))).toOption.map
      (fun r => r.2.node "z") = some (some (.shred (.input "x"), 2)) := by decide +kernel
    have hst := P.steps
    simp only [List.length_cons, List.length_nil] at hst hs
    rw [hst] at hs
    have ho := P.out
    simp only [Except.toOption, Option.map_some, Option.some.injEq] at hs
    simp only [rSplit, List.headD_cons] at ho
    rw [hs] at ho
    simp only [Option.some.injEq, Prod.mk.injEq] at ho
    obtain ⟨rfl, rfl⟩ := ho
    have e1 := P.eval 0 (by norm_num)
    have e2 := P.inputs 0 (Nat.two_pow_pos _)
    simp only [Node.eval] at e1
    rw [e1] at e2
    have hp1 : (2 : Nat) < p := by norm_num at hp; omega
    simp only [List.getD_cons_zero] at e2
    have := int_eq_of_cast e2 (by norm_num; omega) (by norm_num; omega)
    norm_num at this

end JST.Props
