import Verif.Remainder.Check
import Mathlib.Order.Bounds.Defs

/-!
# The Remainder backend: layers on images

The reference keeps a tensor as a vector with a layout. Here the layers are stated for the image behind the
vector, so that the layouts do not matter.
-/

namespace JST.Remainder

/-- The image of a tensor: sizes and entries, when its layout is known. -/
def RSt.IsImage (st : RSt) (t : String) (C H W : Nat) (X : Nat → Nat → Nat → Int) : Prop :=
  ∃ lay nv f, st.layout t = some lay ∧ st.val t = some (nv, f) ∧ lay.dims = (C, H, W) ∧ lay.Fits nv ∧
    (∀ h w s, lay = .hwc h w C s → C ≤ s) ∧
    ∀ c < C, ∀ h < H, ∀ w < W, f (lay.index c h w) = X c h w

theorem setAll_mem {α : Type} {t : Tab α} {names : List String} {n : String} {v : α} (h : n ∈ names) :
    setAll t names v n = some v := by simp [setAll, h]

theorem le_np (n : Nat) : n ≤ nextPow2 n := le_nextPow2 n

/-- An image of the input. -/
theorem input_image {m : Model} {x : String} {input : List Int} {C H W : Nat} (hx : x ∈ m.inputNames)
    (hs : m.inputShapes x = some [C, H, W]) (hl : input.length = C * H * W) :
    (refInit m input).IsImage x C H W fun c h w => input.getD ((c * H + h) * W + w) 0 := by
  refine ⟨.chw C H W, _, _, by simp [refInit, inputLayouts, hs], by simp only [refInit, if_pos hx]; rfl, rfl, ?_,
    by simp, ?_⟩
  · intro c hc h hh w hw
    have h1 : numVars (nextPow2 input.length) = Nat.clog 2 input.length := by rw [numVars_nextPow2, numVars_eq]
    rw [h1]
    have h2 : input.length ≤ 2 ^ Nat.clog 2 input.length := Nat.le_pow_clog (by norm_num) _
    simp only [Layout.dims] at hc hh hw
    simp only [Layout.index]
    refine lt_of_lt_of_le ?_ h2
    rw [hl]
    calc c * H * W + h * W + w < c * H * W + h * W + W := by omega
      _ = (c * H + (h + 1)) * W := by ring
      _ ≤ (C * H) * W := by
        apply Nat.mul_le_mul_right
        calc c * H + (h + 1) ≤ c * H + H := by omega
          _ = (c + 1) * H := by ring
          _ ≤ C * H := Nat.mul_le_mul_right _ hc
  · intro c _ h _ w _
    simp only [Layout.index]
    congr 1
    ring


theorem relu_image {α : Int} {l : Layer} {st st' : RSt} {x t : String} {C H W : Nat} {X : Nat → Nat → Nat → Int}
    (h : refStep α l st = .ok st') (hop : l.op = .relu) (hx : l.inputs[0]? = some x) (ht : t ∈ l.outputs)
    (hi : st.IsImage x C H W X) : st'.IsImage t C H W fun c h w => max (X c h w) 0 := by
  obtain ⟨lay, nv, f, h1, h2, h3, h4, h5, h6⟩ := hi
  simp only [refStep, hop, bind_ok, need_ok] at h
  obtain ⟨x', hx', ⟨nv', f'⟩, hf, h⟩ := h
  rw [hx] at hx'
  obtain rfl := Option.some.inj hx'
  rw [h2] at hf
  simp only [Option.some.injEq, Prod.mk.injEq] at hf
  obtain ⟨rfl, rfl⟩ := hf
  obtain rfl := Except.ok.inj h
  refine ⟨lay, nv, _, ?_, setAll_mem ht, h3, h4, h5, ?_⟩
  · simp only [h1, setOpt]; exact setAll_mem ht
  · intro c hc h hh w hw
    simp only
    rw [h6 c hc h hh w hw]

/-- Entries of a product layout. -/
theorem index_div {s a c : Nat} (hc : c < s) : (a * s + c) / s = a ∧ (a * s + c) % s = c := by
  constructor
  · rw [Nat.mul_comm, Nat.mul_add_div (by omega), Nat.div_eq_of_lt hc, Nat.add_zero]
  · rw [Nat.mul_comm, Nat.mul_add_mod, Nat.mod_eq_of_lt hc]

theorem cell_lt {a b H W : Nat} (ha : a < H) (hb : b < W) : a * W + b < H * W := by
  calc a * W + b < a * W + W := by omega
    _ = (a + 1) * W := by ring
    _ ≤ H * W := Nat.mul_le_mul_right _ ha

theorem two_pow_numVars (n : Nat) : 2 ^ numVars n = nextPow2 n := by rw [numVars_eq]; rfl

theorem natAt_of {l : Layer} {a : String} {v : List Nat} {i : Nat} {d : Int}
    (h : l.intsAttr a = some (v.map Int.ofNat)) (hi : i < v.length) : l.natAt a i d = .ok (v.getD i 0) := by
  unfold Layer.natAt
  rw [h]
  simp only [Option.getD_some, List.getElem?_map]
  rw [List.getElem?_eq_getElem hi]
  simp only [Option.map_some, Option.getD_some]
  rw [if_neg (by simp)]
  simp [List.getD, hi]

/-- The geometry of a convolution, as ONNX gives it. -/
structure ConvAttrs where
  cOut : Nat
  cIn : Nat
  kh : Nat
  kw : Nat
  pt : Nat
  pl : Nat
  pb : Nat
  pr : Nat
  sh : Nat
  sw : Nat

/-- A convolution with these attributes and this weight. -/
def IsConv (l : Layer) (g : ConvAttrs) (wn : String) (data : List Int) : Prop :=
  l.op = .conv ∧ l.inputs[1]? = some wn ∧ l.weights wn = some ⟨[g.cOut, g.cIn, g.kh, g.kw], data⟩ ∧
  l.intsAttr "pads" = some ([g.pt, g.pl, g.pb, g.pr].map Int.ofNat) ∧
  l.intsAttr "strides" = some ([g.sh, g.sw].map Int.ofNat)

/-- The sum of a convolution at one output place. -/
def convAt (g : ConvAttrs) (H W : Nat) (data : List Int) (X : Nat → Nat → Nat → Int) (co oh ow : Nat) : Int :=
  ∑ c ∈ Finset.range g.cIn, ∑ kr ∈ Finset.range g.kh, ∑ kc ∈ Finset.range g.kw,
    (if g.pt ≤ oh * g.sh + kr ∧ oh * g.sh + kr < g.pt + H ∧ g.pl ≤ ow * g.sw + kc ∧ ow * g.sw + kc < g.pl + W
      then X c (oh * g.sh + kr - g.pt) (ow * g.sw + kc - g.pl) else 0) *
      data.getD (((co * g.cIn + c) * g.kh + kr) * g.kw + kc) 0

theorem conv_image {α : Int} {l : Layer} {st st' : RSt} {x t wn : String} {C H W : Nat} {g : ConvAttrs}
    {data : List Int} {X : Nat → Nat → Nat → Int} (h : refStep α l st = .ok st') (hl : IsConv l g wn data)
    (hx : l.inputs[0]? = some x) (ht : t ∈ l.outputs) (hi : st.IsImage x C H W X) :
    C = g.cIn ∧ st'.IsImage t g.cOut ((H + g.pt + g.pb - g.kh) / g.sh + 1) ((W + g.pl + g.pr - g.kw) / g.sw + 1)
      fun co oh ow => (convAt g H W data X co oh ow + (biasList l).getD co 0) / α := by
  obtain ⟨lay, nv, f, h1, h2, h3, h4, h5, h6⟩ := hi
  obtain ⟨hop, hw1, hw2, hp, hs⟩ := hl
  simp only [refStep, hop, bind_ok, need_ok] at h
  obtain ⟨x', hx', inp, hinp, ⟨d, w⟩, hd, ⟨nv', f'⟩, hf, h⟩ := h
  rw [hx] at hx'
  obtain rfl := Option.some.inj hx'
  rw [h1] at hinp
  obtain rfl := Option.some.inj hinp
  rw [h2] at hf
  simp only [Option.some.injEq, Prod.mk.injEq] at hf
  obtain ⟨rfl, rfl⟩ := hf
  rw [if_neg (not_not.2 h4)] at h
  simp only [bind_ok] at h
  obtain ⟨v, hv, h⟩ := h
  unfold rescaleAll at hv
  rw [ite_eq_iff] at hv
  rcases hv with ⟨-, hv⟩ | ⟨-, hv⟩
  swap
  · simp at hv
  obtain rfl := Except.ok.inj hv
  obtain rfl := Except.ok.inj h
  simp only [convDims, bind_ok, need_ok, hw1, hw2, h3,
    natAt_of (i := 0) hp (by simp), natAt_of (i := 1) hp (by simp), natAt_of (i := 2) hp (by simp),
    natAt_of (i := 3) hp (by simp), natAt_of (i := 0) hs (by simp), natAt_of (i := 1) hs (by simp),
    Option.some.injEq, Except.ok.injEq, exists_eq_left', List.getD_cons_zero, List.getD_cons_succ] at hd
  rw [ite_eq_iff] at hd
  rcases hd with ⟨-, hd⟩ | ⟨hs0, hd⟩
  · simp at hd
  rw [ite_eq_iff] at hd
  rcases hd with ⟨-, hd⟩ | ⟨hc, hd⟩
  · simp at hd
  rw [ite_eq_iff] at hd
  rcases hd with ⟨-, hd⟩ | ⟨hk, hd⟩
  · simp at hd
  obtain ⟨rfl, rfl⟩ := Prod.mk.inj (Except.ok.inj hd)
  push_neg at hc
  refine ⟨hc, _, _, _, setAll_mem ht, setAll_mem ht, rfl, ?_, ?_, ?_⟩
  · intro c hc h hh w hw
    simp only [ConvDims.layout, Layout.dims, Layout.index] at hc hh hw ⊢
    rw [pow_add, two_pow_numVars, two_pow_numVars]
    refine cell_lt (lt_of_lt_of_le (cell_lt hh hw) (le_nextPow2 _)) (lt_of_lt_of_le hc (le_nextPow2 _))
  · intro a b s hs'
    simp only [ConvDims.layout, Layout.hwc.injEq] at hs'
    rw [← hs'.2.2.2]
    exact le_nextPow2 _
  · intro co hco oh hoh ow how
    simp only [ConvDims.layout, Layout.index]
    have hco' : co < nextPow2 g.cOut := lt_of_lt_of_le hco (le_nextPow2 _)
    obtain ⟨i1, i2⟩ := index_div (a := oh * ((W + g.pl + g.pr - g.kw) / g.sw + 1) + ow) hco'
    obtain ⟨i3, i4⟩ := index_div (a := oh) how
    simp only [i1, i2, i3, i4]
    rw [if_pos ⟨cell_lt hoh how, hco⟩, if_pos hco]
    congr 2
    unfold convSum convAt
    refine Finset.sum_congr rfl fun c hc' => Finset.sum_congr rfl fun kr _ => Finset.sum_congr rfl fun kc _ => ?_
    simp only [paddedImage, convWeight, imageOf]
    congr 1
    · split_ifs with hb
      · exact h6 c (by rw [hc]; exact Finset.mem_range.1 hc') _ (by omega) _ (by omega)
      · rfl
    · congr 1
      ring

/-- Pooling: the outputs are the greatest elements of the windows. -/
theorem pool_image {α : Int} {l : Layer} {st st' : RSt} {x t : String} {C H W a b sh sw : Nat}
    {X : Nat → Nat → Nat → Int} (h : refStep α l st = .ok st') (hop : l.op = .maxPool)
    (hk : l.intsAttr "kernel_shape" = some ([a, b].map Int.ofNat))
    (hs : l.intsAttr "strides" = some ([sh, sw].map Int.ofNat))
    (hx : l.inputs[0]? = some x) (ht : t ∈ l.outputs) (hi : st.IsImage x C H W X) :
    ∃ Y, st'.IsImage t C ((H - a) / sh + 1) ((W - b) / sw + 1) Y ∧
      ∀ c < C, ∀ oh < (H - a) / sh + 1, ∀ ow < (W - b) / sw + 1,
        IsGreatest {y | ∃ kr < a, ∃ kc < b, y = X c (oh * sh + kr) (ow * sw + kc)} (Y c oh ow) := by
  obtain ⟨lay, nv, f, h1, h2, h3, h4, h5, h6⟩ := hi
  simp only [refStep, hop, bind_ok, need_ok] at h
  obtain ⟨x', hx', inp, hinp, d, hd, ⟨nv', f'⟩, hf, h⟩ := h
  rw [hx] at hx'
  obtain rfl := Option.some.inj hx'
  rw [h1] at hinp
  obtain rfl := Option.some.inj hinp
  rw [h2] at hf
  simp only [Option.some.injEq, Prod.mk.injEq] at hf
  obtain ⟨rfl, rfl⟩ := hf
  rw [if_neg (not_not.2 h4)] at h
  obtain rfl := Except.ok.inj h
  simp only [poolDims, bind_ok, need_ok, hk, h3, List.map_cons, List.map_nil, Option.some.injEq, exists_eq_left',
    natAt_of (i := 0) hs (by simp), natAt_of (i := 1) hs (by simp), Except.ok.injEq, List.getD_cons_zero,
    List.getD_cons_succ] at hd
  rw [ite_eq_iff] at hd
  rcases hd with ⟨-, hd⟩ | ⟨hpos, hd⟩
  · simp at hd
  simp only [bind_ok, Except.ok.injEq, exists_eq_left'] at hd
  rw [ite_eq_iff] at hd
  rcases hd with ⟨-, hd⟩ | ⟨hs0, hd⟩
  · simp at hd
  rw [ite_eq_iff] at hd
  rcases hd with ⟨-, hd⟩ | ⟨hsz, hd⟩
  · simp at hd
  obtain rfl := Except.ok.inj hd
  simp only [Int.ofNat_eq_natCast, Int.toNat_natCast] at *
  refine ⟨fun c oh ow => maxOf (window ⟨C, a, b, sh, sw, (H - a) / sh + 1, (W - b) / sw + 1⟩ (imageOf lay f) c oh ow),
    ⟨_, _, _, setAll_mem ht, setAll_mem ht, rfl, ?_, ?_, ?_⟩, ?_⟩
  · intro c hc h hh w hw
    simp only [PoolDims.layout, Layout.dims, Layout.index] at hc hh hw ⊢
    rw [two_pow_numVars]
    exact lt_of_lt_of_le (cell_lt (cell_lt hh hw) hc) (le_nextPow2 _)
  · intro p q s hs'
    simp only [PoolDims.layout, Layout.hwc.injEq] at hs'
    omega
  · intro c hc oh hoh ow how
    simp only [PoolDims.layout, Layout.index]
    obtain ⟨i1, i2⟩ := index_div (a := oh * ((W - b) / sw + 1) + ow) hc
    obtain ⟨i3, i4⟩ := index_div (a := oh) how
    simp only [i1, i2, i3, i4]
    rw [if_pos (cell_lt (cell_lt hoh how) hc)]
  · intro c hc oh hoh ow how
    have hb0 : 0 < b := by omega
    have ha0 : 0 < a := by omega
    have hin : ∀ kr < a, ∀ kc < b, lay.index c (oh * sh + kr) (ow * sw + kc) = lay.index c (oh * sh + kr) (ow * sw + kc) ∧
        f (lay.index c (oh * sh + kr) (ow * sw + kc)) = X c (oh * sh + kr) (ow * sw + kc) := by
      intro kr hkr kc hkc
      have e1 : oh * sh ≤ H - a := le_trans (Nat.mul_le_mul_right _ (by omega)) (Nat.div_mul_le_self _ sh)
      have e2 : ow * sw ≤ W - b := le_trans (Nat.mul_le_mul_right _ (by omega)) (Nat.div_mul_le_self _ sw)
      exact ⟨rfl, h6 c hc _ (by omega) _ (by omega)⟩
    have hmem : ∀ y, y ∈ window ⟨C, a, b, sh, sw, (H - a) / sh + 1, (W - b) / sw + 1⟩ (imageOf lay f) c oh ow ↔
        ∃ kr < a, ∃ kc < b, y = X c (oh * sh + kr) (ow * sw + kc) := by
      intro y
      simp only [window, List.mem_map, List.mem_range, imageOf]
      constructor
      · rintro ⟨i, hi, rfl⟩
        have q1 : i / b < a := Nat.div_lt_of_lt_mul (by rwa [Nat.mul_comm])
        have q2 : i % b < b := Nat.mod_lt _ hb0
        exact ⟨i / b, q1, i % b, q2, (hin _ q1 _ q2).2⟩
      · rintro ⟨kr, hkr, kc, hkc, rfl⟩
        obtain ⟨j1, j2⟩ := index_div (a := kr) hkc
        exact ⟨kr * b + kc, cell_lt hkr hkc, by rw [j1, j2]; exact (hin _ hkr _ hkc).2⟩
    constructor
    · apply (hmem _).1
      apply maxOf_mem
      intro h0
      have := (hmem (X c (oh * sh + 0) (ow * sw + 0))).2 ⟨0, ha0, 0, hb0, rfl⟩
      rw [h0] at this
      simp at this
    · intro y hy
      exact le_maxOf ((hmem y).2 hy)

theorem bn_image {α : Int} {l : Layer} {st st' : RSt} {x t sn bn : String} {C H W : Nat} {mul add : Weight}
    {X : Nat → Nat → Nat → Int} (h : refStep α l st = .ok st') (hop : l.op = .batchNorm)
    (hx : l.inputs[0]? = some x) (hs : l.inputs[1]? = some sn) (hb : l.inputs[2]? = some bn)
    (hm : l.weights sn = some mul) (ha : l.weights bn = some add) (hml : mul.data.length = C)
    (hal : add.data.length = C) (ht : t ∈ l.outputs) (hi : st.IsImage x C H W X) :
    st'.IsImage t C H W fun c h w => (X c h w * mul.data.getD c 0 + add.data.getD c 0) / α := by
  obtain ⟨lay, nv, f, h1, h2, h3, h4, h5, h6⟩ := hi
  simp only [refStep, hop, bind_ok, need_ok, hs, hb, hm, ha, Option.bind_some, Option.some.injEq,
    exists_eq_left'] at h
  obtain ⟨x', hx', ⟨nv', f'⟩, hf, fm, hfm, fa, hfa, v, hv, h⟩ := h
  rw [hx] at hx'
  obtain rfl := Option.some.inj hx'
  rw [h2] at hf
  simp only [Option.some.injEq, Prod.mk.injEq] at hf
  obtain ⟨rfl, rfl⟩ := hf
  unfold rescaleAll at hv
  rw [ite_eq_iff] at hv
  rcases hv with ⟨-, hv⟩ | ⟨-, hv⟩
  swap
  · simp at hv
  obtain rfl := Except.ok.inj hv
  obtain rfl := Except.ok.inj h
  have key : ∀ (v : List Int) (g : Nat → Int), v.length = C → broadcastCh v (st.layout x) (2 ^ nv) = .ok g →
      ∀ c < C, ∀ h < H, ∀ w < W, g (lay.index c h w) = v.getD c 0 := by
    intro v g hvl hg c hc h hh w hw
    rw [h1] at hg
    cases lay with
    | chw c' h' w' =>
      simp only [Layout.dims, Prod.mk.injEq] at h3
      obtain ⟨rfl, rfl, rfl⟩ := h3
      obtain rfl := Except.ok.inj hg
      have e : (Layout.chw c' h' w').index c h w = c * (h' * w') + (h * w' + w) := by simp only [Layout.index]; ring
      rw [e]
      dsimp only
      rw [if_pos (by rw [hvl]; exact cell_lt hc (cell_lt hh hw)), (index_div (cell_lt hh hw)).1]
    | hwc h' w' c' s =>
      simp only [Layout.dims, Prod.mk.injEq] at h3
      obtain ⟨rfl, rfl, rfl⟩ := h3
      have hcs := h5 _ _ _ rfl
      obtain rfl := Except.ok.inj hg
      have hlt := cell_lt hh hw
      have e : (Layout.hwc h' w' c' s).index c h w = (h * w' + w) * s + c := rfl
      rw [e]
      simp only [(index_div (a := h * w' + w) (lt_of_lt_of_le hc hcs)).1]
      rw [if_neg (by omega), min_eq_right (by omega)]
      simp only [Nat.add_sub_cancel_left]
      rw [if_pos (by omega)]
  refine ⟨lay, nv, _, ?_, setAll_mem ht, h3, h4, h5, ?_⟩
  · simp only [h1, setOpt]; exact setAll_mem ht
  · intro c hc h hh w hw
    simp only
    rw [h6 c hc h hh w hw, key _ _ hml hfm c hc h hh w hw, key _ _ hal hfa c hc h hh w hw]

theorem add_image {α : Int} {l : Layer} {st st' : RSt} {a b t : String} {C H W : Nat}
    {X Y : Nat → Nat → Nat → Int} (h : refStep α l st = .ok st') (hop : l.op = .add)
    (ha : l.inputs[0]? = some a) (hb : l.inputs[1]? = some b) (ht : t ∈ l.outputs)
    (hl : st.layout a = st.layout b) (hi : st.IsImage a C H W X) (hj : st.IsImage b C H W Y) :
    st'.IsImage t C H W fun c h w => X c h w + Y c h w := by
  obtain ⟨lay, nv, f, h1, h2, h3, h4, h5, h6⟩ := hi
  obtain ⟨lay', nv', f', h1', h2', -, -, -, h6'⟩ := hj
  rw [← hl, h1] at h1'
  obtain rfl := Option.some.inj h1'
  simp only [refStep, hop, bind_ok, need_ok, ha, hb, Option.some.injEq, exists_eq_left', operandVal, h2, h2',
    Except.ok.injEq] at h
  rw [ite_eq_iff] at h
  rcases h with ⟨-, h⟩ | ⟨-, h⟩
  swap
  · simp at h
  obtain rfl := Except.ok.inj h
  refine ⟨lay, nv, _, ?_, setAll_mem ht, h3, h4, h5, ?_⟩
  · simp only [h1, Option.some_or, setOpt]; exact setAll_mem ht
  · intro c hc h hh w hw
    simp only [if_true]
    rw [h6 c hc h hh w hw, h6' c hc h hh w hw]

end JST.Remainder
