import Verif.Tensor.ConvProofs
import Verif.Tensor.LayerNoPanic

/-! # Convolution: the whole layer up to rescaling -/

namespace JST.Layers

open JST.Shape JST.Spec

variable {F : Type} [CommRing F]

theorem minmax_ones : ∀ {l : List Nat}, (∀ d ∈ l, d = 1) → l.min? = l.max?
  | [], _ => rfl
  | a :: l, h => by
    have h1 : (a :: l).min? = some 1 := List.min?_eq_some_iff.mpr
      ⟨by rw [h a (by simp)]; simp, fun b hb => by rw [h b hb]⟩
    have h2 : (a :: l).max? = some 1 := List.max?_eq_some_iff.mpr
      ⟨by rw [h a (by simp)]; simp, fun b hb => by rw [h b hb]⟩
    rw [h1, h2]

theorem headD_ones {l : List Nat} (h : ∀ d ∈ l, d = 1) : l.headD 1 = 1 := by
  cases l with
  | nil => rfl
  | cons a l => exact h a (by simp)

theorem notYet_ok {N C H W : Nat} {dil : List Nat} (h : ∀ d ∈ dil, d = 1) :
    notYetImplementedConv [N, C, H, W] [1] dil = .ok () := by
  simp [notYetImplementedConv, minmax_ones h, Nat.mod_one]
  simpa using headD_ones h

theorem asI32_ok {n : Nat} (h : n < 2 ^ 31) : asI32 n = .ok (n : Int) := by
  rw [asI32, if_pos h]

theorem windows_bound {H p q k s i : Nat} (hs : 0 < s) (hq : q ≤ k) (hi : i < windows (H + p + q) k s) :
    i * s ≤ H + p := by
  have h1 : i ≤ (H + p + q - k) / s := by unfold windows at hi; omega
  have h2 : i * s ≤ H + p + q - k := (Nat.le_div_iff_mul_le hs).mp h1
  omega

theorem windows_mul {P k s : Nat} : windows P k s * s ≤ P + s := by
  unfold windows
  have := Nat.div_mul_le_self (P - k) s
  calc ((P - k) / s + 1) * s = (P - k) / s * s + s := by ring
    _ ≤ P - k + s := by omega
    _ ≤ P + s := by omega

/-- The sizes of a convolution the layer can compute: the kernel attribute is not larger than the
weights, strides are positive, padding is at most the kernel, and nothing exceeds the range of `i32`. -/
structure ConvSizes (H W kh kw wh ww sh sw p0 p1 p2 p3 : Nat) : Prop where
  hkh : kh ≤ wh
  hkw : kw ≤ ww
  hsh : 0 < sh
  hsw : 0 < sw
  hp0 : p0 ≤ kh
  hp1 : p1 ≤ kw
  hp2 : p2 ≤ kh
  hp3 : p3 ≤ kw
  hsize : H + p0 + p2 + kh + sh < 2 ^ 31
  wsize : W + p1 + p3 + kw + sw < 2 ^ 31

theorem convShape4_ok (x w bias : Arr F) {N C H W M C' wh ww kh kw sh sw p0 p1 p2 p3 : Nat}
    {dil groups : List Nat}
    (hx : x.shape = [N, C, H, W]) (hw : w.shape = [M, C', wh, ww]) (hC : C ≤ C')
    (hb : bias.WF) (hbs : bias.shape = [0] ∨ bias.shape = [M])
    (hs : ConvSizes H W kh kw wh ww sh sw p0 p1 p2 p3) :
    ∃ out, convShape4 x ⟨dil, [kh, kw], [p0, p1, p2, p3], [sh, sw], [N, C, H, W], groups⟩ w bias =
        .ok out ∧
      out.shape = [N, M, windows (H + p0 + p2) kh sh, windows (W + p1 + p3) kw sw] ∧ out.WF ∧
      ∀ n m i j, n < N → m < M → i < windows (H + p0 + p2) kh sh → j < windows (W + p1 + p3) kw sw →
        elem out [n, m, i, j] = some (convAt x w (biasAt bias) kh kw sh sw p0 p1 n m i j) := by
  have b1 := windows_mul (P := H + p0 + p2) (k := kh) (s := sh)
  have b2 := windows_mul (P := W + p1 + p3) (k := kw) (s := sw)
  have c1 := hs.hsize
  have c2 := hs.wsize
  obtain ⟨res, hres, hlen, hval⟩ := convSetupRes_ok bias hb N M (windows (H + p0 + p2) kh sh)
    (windows (W + p1 + p3) kw sw) hbs
  let d : ConvDims := ⟨M, H, W, kh, kw, wh, ww, sh, sw, windows (H + p0 + p2) kh sh,
    windows (W + p1 + p3) kw sw, -(p0 : Int), -(p1 : Int)⟩
  have ok : ConvOk d p0 p1 := ⟨hs.hkh, hs.hkw, hs.hsh, hs.hsw, rfl, rfl, hs.hp0,
    fun k hk => windows_bound hs.hsh hs.hp2 hk, hs.hp1, fun k hk => windows_bound hs.hsw hs.hp3 hk⟩
  obtain ⟨K, L, hK, hL, hloop⟩ := convLoops_ok x w d p0 p1 ok hx hw hC
  refine ⟨⟨[N, M, windows (H + p0 + p2) kh sh, windows (W + p1 + p3) kw sw],
    addAll res ((List.range N).flatMap fun n => (List.range d.m).flatMap fun m =>
        (List.range C).flatMap fun c => chanOps x w d K L n m c)⟩, ?_, rfl, ?_, ?_⟩
  · have e : ∀ (a b : Nat), windows a b sh = (a - b) / sh + 1 := fun _ _ => rfl
    have e' : ∀ (a b : Nat), windows a b sw = (a - b) / sw + 1 := fun _ _ => rfl
    have hl := hloop res hlen
    rw [convShape4]
    have v : validateConvParams ⟨dil, [kh, kw], [p0, p1, p2, p3], [sh, sw], [N, C, H, W], groups⟩ =
        .ok () := by
      have := hs.hsh
      have := hs.hsw
      simp [validateConvParams]; omega
    rw [v]
    simp only [readAt, List.getElem?_cons_zero, List.getElem?_cons_succ, bind, Except.bind]
    rw [← e, ← e', asI32_ok (by omega), asI32_ok (by omega), asI32_ok (by omega), asI32_ok (by omega),
      asI32_ok (by omega), asI32_ok (by omega), asI32_ok (by omega), asI32_ok (by omega)]
    simp only [hw, List.getElem?_cons_zero, List.getD_cons_succ, List.getD_cons_zero, hres]
    rw [show (⟨M, H, W, kh, kw, wh, ww, sh, sw, windows (H + p0 + p2) kh sh,
      windows (W + p1 + p3) kw sw, -(p0 : Int), -(p1 : Int)⟩ : ConvDims) = d from rfl]
    have hl' : List.foldlM (fun res n => List.foldlM (fun res nw =>
        List.foldlM (convChan x w d n nw) res (List.range C)) res (List.range M)) res (List.range N) = _ := hl
    rw [hl']
  · change (addAll _ _).length = _
    rw [addAll_length, hlen]
    simp
  · intro n m i j hn hm hi hj
    have hlt := pos4_lt hn hm hi hj
    have hq : pos4 M (windows (H + p0 + p2) kh sh) (windows (W + p1 + p3) kw sw) n m i j < res.length := by
      rw [hlen]; exact hlt
    have hv : res.getD (pos4 M (windows (H + p0 + p2) kh sh) (windows (W + p1 + p3) kw sw) n m i j) 0 =
        biasAt bias m := by
      have hr : i * windows (W + p1 + p3) kw sw + j <
          windows (H + p0 + p2) kh sh * windows (W + p1 + p3) kw sw := by
        calc i * windows (W + p1 + p3) kw sw + j
            < i * windows (W + p1 + p3) kw sw + windows (W + p1 + p3) kw sw := by omega
          _ = (i + 1) * windows (W + p1 + p3) kw sw := by ring
          _ ≤ _ := Nat.mul_le_mul_right _ hi
      rw [← hval n m _ hn hm hr]
      congr 1
      rw [pos4]; ring
    have key := addAll_getD ((List.range N).flatMap fun n => (List.range d.m).flatMap fun m =>
        (List.range C).flatMap fun c => chanOps x w d K L n m c) res _ hq
    rw [hv, show pos4 M (windows (H + p0 + p2) kh sh) (windows (W + p1 + p3) kw sw) n m i j =
      pos4 d.m d.hOut d.wOut n m i j from rfl, allOps_sum x w d hK hL hn hm hi hj] at key
    rw [elem]
    have e : rowMajor [N, M, windows (H + p0 + p2) kh sh, windows (W + p1 + p3) kw sw] [n, m, i, j] =
        pos4 d.m d.hOut d.wOut n m i j := (pos4_eq N _ _ _ n m i j).symm
    dsimp only
    rw [e]
    have hq' : pos4 d.m d.hOut d.wOut n m i j < (addAll res ((List.range N).flatMap fun n =>
        (List.range d.m).flatMap fun m => (List.range C).flatMap fun c => chanOps x w d K L n m c)).length := by
      rw [addAll_length]; exact hq
    rw [List.getElem?_eq_getElem hq', ← List.getD_eq_getElem _ 0 hq', key, convAt, hx]
    refine congrArg (fun z => some (biasAt bias m + z)) (Finset.sum_congr rfl fun c _ => ?_)
    rw [contrib, dotSpec]
    refine Finset.sum_congr rfl fun a _ => Finset.sum_congr rfl fun b _ => ?_
    have e1 : d.bh + (i : Int) * d.strideH + a = i * sh + a - p0 := by
      change -(p0 : Int) + i * sh + a = _
      ring
    have e2 : d.bw + (j : Int) * d.strideW + b = j * sw + b - p1 := by
      change -(p1 : Int) + j * sw + b = _
      ring
    rw [e1, e2]

theorem convRun_ok (x w bias : Arr F) {N C H W M C' wh ww kh kw sh sw p0 p1 p2 p3 : Nat}
    {dil : List Nat}
    (hx : x.shape = [N, C, H, W]) (hw : w.shape = [M, C', wh, ww]) (hC : C ≤ C')
    (hb : bias.WF) (hbs : bias.shape = [0] ∨ bias.shape = [M])
    (hdil : ∀ d ∈ dil, d = 1) (hs : ConvSizes H W kh kw wh ww sh sw p0 p1 p2 p3) :
    ∃ out, convRun x w bias dil [kh, kw] [p0, p1, p2, p3] [sh, sw] 1 = .ok out ∧
      out.shape = [N, M, windows (H + p0 + p2) kh sh, windows (W + p1 + p3) kw sw] ∧ out.WF ∧
      ∀ n m i j, n < N → m < M → i < windows (H + p0 + p2) kh sh → j < windows (W + p1 + p3) kw sw →
        elem out [n, m, i, j] = some (convAt x w (biasAt bias) kh kw sh sw p0 p1 n m i j) := by
  obtain ⟨out, h1, h2⟩ := convShape4_ok (dil := if dil.isEmpty then [1, 1] else dil) (groups := [1])
    x w bias hx hw hC hb hbs hs
  refine ⟨out, ?_, h2⟩
  rw [convRun, setDefaultParams]
  simp only [hx, List.length_cons, List.length_nil, bind, Except.bind, List.drop_succ_cons, List.drop_zero,
    List.map_cons, List.map_nil, List.isEmpty_cons, Bool.false_eq_true, if_false]
  rw [if_neg (by omega)]
  dsimp only
  rw [notYet_ok]
  · exact h1
  · intro d hd
    split_ifs at hd with h
    · simp at hd; exact hd
    · exact hdil d hd

/-! ## What is refused -/

theorem foldlM_not_ok {α σ : Type} {f : σ → α → R σ} {l : List α} {a : α} (ha : a ∈ l)
    (h : ∀ s r, f s a ≠ .ok r) : ∀ s r, l.foldlM f s ≠ .ok r := by
  induction l with
  | nil => simp at ha
  | cons b l ih =>
    intro s r e
    rw [List.foldlM_cons] at e
    obtain ⟨s', h1, h2⟩ := bind_eq_ok e
    rcases List.mem_cons.mp ha with rfl | hm
    · exact h s s' h1
    · exact ih hm s' r h2

theorem convDot_not_ok (x w : Arr F) (d : ConvDims) (n nw c : Nat) (io jo : Int)
    (hx : x.shape.getD 2 0 = d.sH) (h : io + d.kh < 0 ∨ (d.sH : Int) < io) (r : F) :
    convDot x w d n nw c io jo ≠ .ok r := by
  intro e
  have a1 : io + (d.kh : Int) % 2 + -((d.kh : Int) % 2) = io := by ring
  rw [convDot] at e
  simp only [a1] at e
  obtain ⟨h1, e1, e⟩ := bind_eq_ok e
  obtain ⟨h2, e2, e⟩ := bind_eq_ok e
  rcases h with h | h
  · rw [i32ToUsize, if_pos (by omega)] at e2
    cases e2
  · obtain ⟨_, _, e⟩ := bind_eq_ok e
    obtain ⟨_, _, e⟩ := bind_eq_ok e
    obtain ⟨_, _, e⟩ := bind_eq_ok e
    obtain ⟨_, _, e⟩ := bind_eq_ok e
    obtain ⟨_, e3, e⟩ := bind_eq_ok e
    rw [i32ToUsize_ok (by omega)] at e1
    have := Except.ok.inj e1
    rw [sliceAxis, hx, if_neg (by omega)] at e3
    cases e3

theorem convDot_not_ok' (x w : Arr F) (d : ConvDims) (n nw c : Nat) (io jo : Int)
    (hx : x.shape.getD 3 0 = d.sW) (h : jo + d.kw < 0 ∨ (d.sW : Int) < jo) (r : F) :
    convDot x w d n nw c io jo ≠ .ok r := by
  intro e
  have a1 : jo + (d.kw : Int) % 2 + -((d.kw : Int) % 2) = jo := by ring
  rw [convDot] at e
  simp only [a1] at e
  obtain ⟨_, _, e⟩ := bind_eq_ok e
  obtain ⟨_, _, e⟩ := bind_eq_ok e
  obtain ⟨h1, e1, e⟩ := bind_eq_ok e
  obtain ⟨h2, e2, e⟩ := bind_eq_ok e
  rcases h with h | h
  · rw [i32ToUsize, if_pos (by omega)] at e2
    cases e2
  · obtain ⟨_, _, e⟩ := bind_eq_ok e
    obtain ⟨_, _, e⟩ := bind_eq_ok e
    obtain ⟨_, _, e⟩ := bind_eq_ok e
    obtain ⟨_, e3, e⟩ := bind_eq_ok e
    rw [i32ToUsize_ok (by omega)] at e1
    have := Except.ok.inj e1
    rw [sliceAxis, hx, if_neg (by omega)] at e3
    cases e3

theorem mem_stepRange {p H s k : Nat} (hs : 0 < s) (hk : k < H) :
    (-(p : Int) + k * s) ∈ stepRange (-(p : Int)) (H * s : Nat) s := by
  obtain ⟨K, hK, e⟩ := stepRange_eq p H s hs
  rw [e]
  exact List.mem_map_of_mem (List.mem_range.mpr (by omega))

theorem asI32_eq {n : Nat} {z : Int} (h : asI32 n = .ok z) : z = n := by
  rw [asI32] at h
  split_ifs at h
  exact (Except.ok.inj h).symm

/-- If a window of the output lies wholly outside the padded-free data by more than touching it, or the
weights have too few channels, no output is produced. -/
theorem convShape4_not_ok (x w bias : Arr F) {N C H W M kh kw sh sw p0 p1 p2 p3 : Nat} {more : List Nat}
    {dil groups : List Nat} (hx : x.shape = [N, C, H, W]) (hw : w.shape = M :: more) (hN : 0 < N)
    (hM : 0 < M) (hC : 0 < C) (hsh : 0 < sh) (hsw : 0 < sw)
    (h : (∃ i < windows (H + p0 + p2) kh sh, (i * sh : Int) + kh < p0 ∨ H + p0 < (i * sh : Int)) ∨
      (∃ j < windows (W + p1 + p3) kw sw, (j * sw : Int) + kw < p1 ∨ W + p1 < (j * sw : Int)) ∨
      more.getD 0 0 < C) (out : Arr F) :
    convShape4 x ⟨dil, [kh, kw], [p0, p1, p2, p3], [sh, sw], [N, C, H, W], groups⟩ w bias ≠ .ok out := by
  intro e
  rw [convShape4] at e
  obtain ⟨_, _, e⟩ := bind_eq_ok e
  simp only [readAt, List.getElem?_cons_zero, List.getElem?_cons_succ, hw] at e
  iterate 12 obtain ⟨_, z, e⟩ := bind_eq_ok e; obtain rfl := Except.ok.inj z; clear z
  obtain ⟨_, _, e⟩ := bind_eq_ok e
  obtain ⟨_, _, e⟩ := bind_eq_ok e
  obtain ⟨_, _, e⟩ := bind_eq_ok e
  obtain ⟨_, _, e⟩ := bind_eq_ok e
  obtain ⟨q0, z0, e⟩ := bind_eq_ok e
  obtain ⟨q1, z1, e⟩ := bind_eq_ok e
  obtain rfl := asI32_eq z0
  obtain rfl := asI32_eq z1
  obtain ⟨_, _, e⟩ := bind_eq_ok e
  obtain ⟨_, _, e⟩ := bind_eq_ok e
  obtain ⟨_, z, e⟩ := bind_eq_ok e
  obtain rfl := Except.ok.inj z
  obtain ⟨res, _, e⟩ := bind_eq_ok e
  obtain ⟨data, e, _⟩ := bind_eq_ok e
  refine foldlM_not_ok (List.mem_range.mpr hN) (fun s r => ?_) _ _ e
  refine foldlM_not_ok (List.mem_range.mpr hM) (fun s r => ?_) _ _
  refine foldlM_not_ok (a := C - 1) (List.mem_range.mpr (by omega)) (fun s r e => ?_) _ _
  rw [convChan] at e
  split_ifs at e with hr
  obtain ⟨_, _, e⟩ := bind_eq_ok e
  obtain ⟨_, ec, e⟩ := bind_eq_ok e
  rcases h with ⟨i, hi, h⟩ | ⟨j, hj, h⟩ | h
  · refine foldlM_not_ok (mem_stepRange (p := p0) hsh hi) (fun s r e => ?_) _ _ e
    rw [convRow] at e
    dsimp only at e
    rw [step_index _ _ _ hsh] at e
    simp only [bind, Except.bind] at e
    rw [if_neg (by unfold windows at hi; omega)] at e
    refine foldlM_not_ok (mem_stepRange (p := p1) (k := 0) hsw (Nat.succ_pos _)) (fun s r e => ?_) _ _ e
    rw [convInner] at e
    dsimp only at e
    rw [step_index _ _ _ hsw] at e
    simp only [bind, Except.bind] at e
    rw [if_neg (Nat.not_le.mpr (Nat.succ_pos _))] at e
    obtain ⟨v, ev, _⟩ := bind_eq_ok e
    refine convDot_not_ok x w _ _ _ _ _ _ (by rw [hx]; rfl) ?_ v ev
    dsimp only
    omega
  · refine foldlM_not_ok (mem_stepRange (p := p0) (k := 0) hsh (Nat.succ_pos _)) (fun s r e => ?_) _ _ e
    rw [convRow] at e
    dsimp only at e
    rw [step_index _ _ _ hsh] at e
    simp only [bind, Except.bind] at e
    rw [if_neg (Nat.not_le.mpr (Nat.succ_pos _))] at e
    refine foldlM_not_ok (mem_stepRange (p := p1) hsw hj) (fun s r e => ?_) _ _ e
    rw [convInner] at e
    dsimp only at e
    rw [step_index _ _ _ hsw] at e
    simp only [bind, Except.bind] at e
    rw [if_neg (by unfold windows at hj; omega)] at e
    obtain ⟨v, ev, _⟩ := bind_eq_ok e
    refine convDot_not_ok' x w _ _ _ _ _ _ (by rw [hx]; rfl) ?_ v ev
    dsimp only
    omega
  · rw [hw, sliceAxis, if_neg] at ec
    · cases ec
    · simp only [List.getD_cons_succ]
      omega

theorem convRun_not_ok (x w bias : Arr F) {N C H W M kh kw sh sw p0 p1 p2 p3 g : Nat} {more : List Nat}
    {dil : List Nat} (hx : x.shape = [N, C, H, W]) (hw : w.shape = M :: more) (hN : 0 < N)
    (hM : 0 < M) (hC : 0 < C) (hsh : 0 < sh) (hsw : 0 < sw)
    (h : (∃ i < windows (H + p0 + p2) kh sh, (i * sh : Int) + kh < p0 ∨ H + p0 < (i * sh : Int)) ∨
      (∃ j < windows (W + p1 + p3) kw sw, (j * sw : Int) + kw < p1 ∨ W + p1 < (j * sw : Int)) ∨
      more.getD 0 0 < C) (out : Arr F) :
    convRun x w bias dil [kh, kw] [p0, p1, p2, p3] [sh, sw] g ≠ .ok out := by
  intro e
  rw [convRun, setDefaultParams] at e
  simp only [hx, List.length_cons, List.length_nil, List.isEmpty_cons, Bool.false_eq_true, if_false] at e
  rw [if_neg (by omega)] at e
  obtain ⟨c, ec, e⟩ := bind_eq_ok e
  obtain rfl := (Except.ok.inj ec).symm
  obtain ⟨_, _, e⟩ := bind_eq_ok e
  exact convShape4_not_ok x w bias hx hw hN hM hC hsh hsw h out e

end JST.Layers
