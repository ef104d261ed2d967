import Verif.Props.MatMulLayer

/-!
# C63: the Gemm layer
-/

set_option linter.unusedSectionVars false

namespace JST.Props

open JST.Shape JST.Layers JST.Spec

variable {p : Nat} [Fact p.Prime] {T : Tables (ZMod p)}

/-- A matrix or its transpose: shape and entries. -/
theorem applyTranspose_cast (x : Arr Int) (t : Bool) {M K : Nat} (hs : x.shape = if t then [K, M] else [M, K])
    (hw : x.WF) : ∃ A : Arr (ZMod p), applyTranspose (if t then 1 else 0) (castArr p x) = .ok A ∧ A.shape = [M, K] ∧
      ∀ i k, i < M → k < K → A.data.getD (i * K + k) 0 = ((opAt x t i k : Int) : ZMod p) := by
  cases t with
  | false =>
    refine ⟨castArr p x, rfl, hs, fun i k _ _ => ?_⟩
    have hs' : x.shape = [M, K] := hs
    have h := castArr_elem (p := p) x [i, k]
    simp only [elem, castArr, hs', rowMajor_pair] at h
    simp only [opAt, entry, elem, hs', rowMajor_pair, List.getD_eq_getElem?_getD, castArr]
    exact h
  | true =>
    have hs' : x.shape = [K, M] := hs
    have hs2 : (castArr p x).shape = [K, M] := hs
    refine ⟨⟨[M, K], (List.range M).flatMap fun j => (List.range K).map fun i => (castArr p x).at2 M i j⟩, ?_, rfl,
      fun i k hi hk => ?_⟩
    · unfold applyTranspose
      rw [hs2]
      rfl
    · rw [getD_rows (fun j i => (castArr p x).at2 M i j) hi hk]
      have h := castArr_elem (p := p) x [k, i]
      simp only [elem, castArr, hs', rowMajor_pair] at h
      simp only [opAt, entry, elem, hs', rowMajor_pair, Arr.at2, List.getD_eq_getElem?_getD, castArr, if_true]
      exact h

/-- The bias after broadcasting: entry `(i, j)` is `β i j`. -/
structure BiasIs (p : Nat) (bias : Arr Int) (M N : Nat) (β : Nat → Nat → Int) : Prop where
  ok : ∃ B : Arr (ZMod p), gemmBias (castArr p bias) M N = .ok B ∧ B.shape = [M, N] ∧ B.data.length = M * N ∧
    ∀ i j, i < M → j < N → B.data[i * N + j]? = some ((β i j : Int) : ZMod p)

theorem getElem?_flatMap_const {α : Type} (l : List α) {M i j : Nat} (hi : i < M) (hj : j < l.length) :
    ((List.range M).flatMap fun _ => l)[i * l.length + j]? = l[j]? := by
  have h := getElem?_flatMap_rows (fun _ j => l[j]?) l.length M i j hi hj
  have e : ((List.range M).flatMap fun _ => l).map some =
      (List.range M).flatMap fun _ => (List.range l.length).map fun j => l[j]? := by
    rw [List.map_flatMap]
    congr 1
    funext _
    refine List.ext_getElem (by simp) fun k h1 h2 => ?_
    simp at h1
    simp [h1]
  rw [← e, List.getElem?_map] at h
  rcases hq : ((List.range M).flatMap fun _ => l)[i * l.length + j]? with _ | v
  · rw [hq] at h; cases h
  · rw [hq] at h
    exact Option.some.inj h

theorem length_flatMap_const {α : Type} (l : List α) (M : Nat) :
    ((List.range M).flatMap fun _ => l).length = M * l.length := by
  simp

/-- A bias with one entry per column is repeated in every row. -/
theorem bias_row (bias : Arr Int) {M N : Nat} (hs : bias.shape ≠ [M, N]) (hl : bias.data.length = N) :
    BiasIs p bias M N fun _ j => bias.data.getD j 0 := by
  have hl' : (castArr p bias).data.length = N := by simp [castArr, hl]
  refine ⟨⟨[M, N], (List.range M).flatMap fun _ => (castArr p bias).data⟩, ?_, rfl, ?_, fun i j hi hj => ?_⟩
  · unfold gemmBias
    rw [if_neg (show (castArr p bias).shape ≠ [M, N] from hs), if_pos hl']
    exact fromShapeVec_ok (by rw [length_flatMap_const, hl']; simp)
  · rw [length_flatMap_const, hl']
  · have := getElem?_flatMap_const (castArr p bias).data hi (j := j) (by rw [hl']; exact hj)
    rw [hl'] at this
    rw [this]
    have hj' : j < bias.data.length := by omega
    simp [castArr, List.getElem?_eq_getElem hj', List.getD_eq_getElem _ _ hj']

/-- A bias with a single entry is repeated everywhere. -/
theorem bias_scalar (bias : Arr Int) {M N : Nat} (hs : bias.shape ≠ [M, N]) (hl : bias.data.length = 1) :
    BiasIs p bias M N fun _ _ => bias.data.getD 0 0 := by
  by_cases hN : N = 1
  · subst hN
    obtain ⟨B, h1, h2, h3, h4⟩ := (bias_row (p := p) bias hs hl).ok
    exact ⟨B, h1, h2, h3, fun i j hi hj => by rw [h4 i j hi hj, Nat.lt_one_iff.1 hj]⟩
  have hl' : (castArr p bias).data.length = 1 := by simp [castArr, hl]
  refine ⟨⟨[M, N], (List.range M).flatMap fun _ => List.replicate N ((castArr p bias).data.headD 0)⟩, ?_, rfl, ?_,
    fun i j hi hj => ?_⟩
  · unfold gemmBias
    rw [if_neg (show (castArr p bias).shape ≠ [M, N] from hs), if_neg (by omega), if_pos hl']
    exact fromShapeVec_ok (by rw [length_flatMap_const]; simp)
  · rw [length_flatMap_const]; simp
  · have := getElem?_flatMap_const (List.replicate N ((castArr p bias).data.headD 0)) hi (j := j)
      (by simpa using hj)
    rw [List.length_replicate] at this
    rw [this]
    obtain ⟨v, hv⟩ := List.length_eq_one_iff.1 hl
    simp [castArr, hv, List.getElem?_replicate, hj]

/-- A bias of the shape of the product. -/
theorem bias_full (bias : Arr Int) {M N : Nat} (hs : bias.shape = [M, N]) (hw : bias.WF) :
    BiasIs p bias M N fun i j => entry bias [i, j] := by
  have hl : bias.data.length = M * N := by rw [hw, hs]; simp
  refine ⟨castArr p bias, ?_, hs, by simp [castArr, hl], fun i j hi hj => ?_⟩
  · unfold gemmBias
    rw [if_pos (show (castArr p bias).shape = [M, N] from hs)]
  · have hlt : i * N + j < bias.data.length := by
      have : (i + 1) * N ≤ M * N := Nat.mul_le_mul_right _ hi
      rw [Nat.add_mul, Nat.one_mul] at this
      omega
    simp only [castArr, List.getElem?_map, entry, elem, hs, rowMajor_pair, List.getElem?_eq_getElem hlt]
    rfl

/-- The biases the layer broadcasts as ONNX does. -/
theorem bias_onnx (bias : Arr Int) {M N : Nat} (hw : bias.WF)
    (hs : bias.shape ∈ [[], [1], [N], [1, 1], [1, N], [M, N]]) : BiasIs p bias M N (biasEntry bias) := by
  have hwl : bias.data.length = bias.shape.prod := hw
  have scalar : bias.shape ≠ [M, N] → bias.data.length = 1 →
      (∀ i j, i < M → j < N → biasEntry bias i j = bias.data.getD 0 0) → BiasIs p bias M N (biasEntry bias) := by
    intro h1 h2 h3
    obtain ⟨B, q1, q2, q3, q4⟩ := (bias_scalar (p := p) bias h1 h2).ok
    exact ⟨B, q1, q2, q3, fun i j hi hj => by rw [q4 i j hi hj, h3 i j hi hj]⟩
  have row : bias.shape ≠ [M, N] → bias.data.length = N →
      (∀ i j, i < M → j < N → biasEntry bias i j = bias.data.getD j 0) → BiasIs p bias M N (biasEntry bias) := by
    intro h1 h2 h3
    obtain ⟨B, q1, q2, q3, q4⟩ := (bias_row (p := p) bias h1 h2).ok
    exact ⟨B, q1, q2, q3, fun i j hi hj => by rw [q4 i j hi hj, h3 i j hi hj]⟩
  by_cases hfull : bias.shape = [M, N]
  · obtain ⟨B, q1, q2, q3, q4⟩ := (bias_full (p := p) bias hfull hw).ok
    refine ⟨B, q1, q2, q3, fun i j hi hj => ?_⟩
    rw [q4 i j hi hj]
    have e1 : (if M = 1 then 0 else i) = i := by split_ifs <;> omega
    have e2 : (if N = 1 then 0 else j) = j := by split_ifs <;> omega
    simp only [biasEntry, hfull, e1, e2]
  simp only [List.mem_cons, List.not_mem_nil, or_false] at hs
  rcases hs with h | h | h | h | h | h
  · refine scalar hfull (by rw [hwl, h]; rfl) fun i j _ _ => ?_
    simp [biasEntry, entry, elem, h, rowMajor, List.getD_eq_getElem?_getD]
  · refine scalar hfull (by rw [hwl, h]; rfl) fun i j _ _ => ?_
    simp [biasEntry, entry, elem, h, rowMajor, List.getD_eq_getElem?_getD]
  · refine row hfull (by rw [hwl, h]; simp) fun i j _ hj => ?_
    have e2 : (if N = 1 then 0 else j) = j := by split_ifs <;> omega
    simp [biasEntry, entry, elem, h, rowMajor, List.getD_eq_getElem?_getD, e2]
  · refine scalar hfull (by rw [hwl, h]; rfl) fun i j _ _ => ?_
    simp [biasEntry, entry, elem, h, rowMajor, List.getD_eq_getElem?_getD]
  · refine row hfull (by rw [hwl, h]; simp) fun i j _ hj => ?_
    have e2 : (if N = 1 then 0 else j) = j := by split_ifs <;> omega
    simp [biasEntry, entry, elem, h, rowMajor, List.getD_eq_getElem?_getD, e2]
  · exact absurd h hfull

/-- What a configuration has to satisfy: the flags are `ta` and `tb`, `alpha` and `beta` are one. -/
structure GemmCfgOk (cfg : GemmCfg) (ta tb : Bool) : Prop where
  transA : cfg.transA = if ta then 1 else 0
  transB : cfg.transB = if tb then 1 else 0
  alpha : cfg.alphaOk = true
  beta : cfg.betaOk = true

theorem gemmOperands_cast {cfg : GemmCfg} {ta tb : Bool} (hcfg : GemmCfgOk cfg ta tb) {x w : Arr Int} {M K N : Nat}
    (hx : x.shape = if ta then [K, M] else [M, K]) (hwx : x.WF)
    (hw : w.shape = if tb then [N, K] else [K, N]) (hww : w.WF) :
    ∃ A B : Arr (ZMod p), gemmOperands cfg (castArr p x) (castArr p w) = .ok (A, B) ∧ A.shape = [M, K] ∧
      B.shape = [K, N] ∧
      (∀ i k, i < M → k < K → A.data.getD (i * K + k) 0 = ((opAt x ta i k : Int) : ZMod p)) ∧
      (∀ k j, k < K → j < N → B.data.getD (k * N + j) 0 = ((opAt w tb k j : Int) : ZMod p)) := by
  obtain ⟨A, a1, a2, a3⟩ := applyTranspose_cast (p := p) x ta hx hwx
  obtain ⟨B, b1, b2, b3⟩ := applyTranspose_cast (p := p) w tb hw hww
  refine ⟨A, B, ?_, a2, b2, a3, b3⟩
  have p1 : promote2d (castArr p x) false = .ok (castArr p x) := by
    unfold promote2d
    have : (castArr p x).shape = if ta then [K, M] else [M, K] := hx
    rw [this]
    cases ta <;> rfl
  have p2 : gemmWeights (castArr p w) cfg.expected = .ok (castArr p w) := by
    unfold gemmWeights promote2d
    have : (castArr p w).shape = if tb then [N, K] else [K, N] := hw
    rw [this]
    cases tb <;> rfl
  unfold gemmOperands
  rw [p1, p2, hcfg.transA, hcfg.transB]
  change (applyTranspose (if ta then 1 else 0) (castArr p x) >>= fun a =>
    applyTranspose (if tb then 1 else 0) (castArr p w) >>= fun b =>
      if cfg.alphaOk = true ∧ cfg.betaOk = true then pure (a, b) else .error .invalid) = _
  rw [a1, b1]
  change (if cfg.alphaOk = true ∧ cfg.betaOk = true then pure (A, B) else .error .invalid : R _) = _
  rw [if_pos ⟨hcfg.alpha, hcfg.beta⟩]
  rfl

/-- The sum of the product and the bias. -/
theorem gemm_sum {x w : Arr Int} {ta tb : Bool} {β : Nat → Nat → Int} {M K N : Nat} {A B c D : Arr (ZMod p)}
    (hP : IsProduct A B c M K N)
    (hA : ∀ i k, i < M → k < K → A.data.getD (i * K + k) 0 = ((opAt x ta i k : Int) : ZMod p))
    (hB : ∀ k j, k < K → j < N → B.data.getD (k * N + j) 0 = ((opAt w tb k j : Int) : ZMod p))
    (hDl : D.data.length = M * N)
    (hD : ∀ i j, i < M → j < N → D.data[i * N + j]? = some ((β i j : Int) : ZMod p)) :
    IsGemm x w β ta tb M K N (fun z : Int => (z : ZMod p))
      ⟨c.shape, List.zipWith (fun u v => u + v) c.data D.data⟩ := by
  refine ⟨hP.shape, ?_, fun i j hi hj => ?_⟩
  · simp [Arr.WF, hP.shape, hP.len, hDl]
  · simp only [elem, hP.shape, rowMajor_pair]
    rw [List.getElem?_zipWith, product_getElem? hP hi hj, hD i j hi hj]
    dsimp only
    congr 1
    rw [gemmAt, Int.cast_add, Int.cast_sum]
    congr 1
    refine Finset.sum_congr rfl fun k hk => ?_
    have hk' := Finset.mem_range.1 hk
    rw [hA i k hi hk', hB k j hk' hj, Int.cast_mul]

theorem almost_gemmCore (toNat : ZMod p → Nat) {cfg : GemmCfg} {ta tb : Bool} (hcfg : GemmCfgOk cfg ta tb)
    {x w bias : Arr Int} {M K N : Nat} {β : Nat → Nat → Int}
    (hx : x.shape = if ta then [K, M] else [M, K]) (hwx : x.WF)
    (hw : w.shape = if tb then [N, K] else [K, N]) (hww : w.WF) (hb : BiasIs p bias M N β) :
    AlmostSound T (fun r : Fin cfg.reps → Fin N → ZMod p =>
      gemmCore toNat cfg (castArr p x) (castArr p w) (castArr p bias) (challenges r)) 1 (p ^ cfg.reps)
      (IsGemm x w β ta tb M K N fun z : Int => (z : ZMod p)) := by
  obtain ⟨A, B, e, a1, b1, a2, b2⟩ := gemmOperands_cast (p := p) hcfg hx hwx hw hww
  obtain ⟨D, d1, d2, d3, d4⟩ := hb.ok
  unfold gemmCore
  refine AlmostSound.after sound_liftR fun ab hab => ?_
  rw [e] at hab
  have hab' := (Except.ok.inj hab).symm
  subst hab'
  dsimp only
  refine AlmostSound.bind (P := fun c => IsProduct A B c M K N) ?_ ?_
  · intro h
    obtain ⟨bad, h1, h2⟩ := C12_gemm_core_sound (T := T) toNat A B cfg.reps M K N a1 b1 h
    rw [ZMod.card] at h1
    exact ⟨bad, by rw [one_mul]; exact h1, fun r hr o ho hs => h2 r o ho hs hr⟩
  · intro _ c hP
    have es : c.shape.getD 0 0 = M ∧ c.shape.getD 1 0 = N := by rw [hP.shape]; exact ⟨rfl, rfl⟩
    rw [es.1, es.2]
    refine Sound.bind sound_liftR fun D' hD' => ?_
    rw [d1] at hD'
    have hD'' := (Except.ok.inj hD').symm
    subst hD''
    unfold elementwiseOp
    rw [if_neg (by rw [d3, hP.len]; simp)]
    exact Sound.pure (gemm_sum hP a2 b2 d3 d4)

/-- From the coordinates of a matrix to the entries. -/
theorem isGemm_of {x w : Arr Int} {ta tb : Bool} {β : Nat → Nat → Int} {M K N : Nat} {g : Int → ZMod p}
    {f : List Nat → Int} (hf : ∀ i j, f [i, j] = gemmAt x w ta tb K i j + β i j) {z : Arr (ZMod p)}
    (h : z.shape = [M, N] ∧ z.WF ∧ ∀ c, InRange [M, N] c → elem z c = some (g (f c))) :
    IsGemm x w β ta tb M K N g z :=
  ⟨h.1, h.2.1, fun i j hi hj => by rw [h.2.2 [i, j] (.cons hi (.cons hj .nil)), hf]⟩

/-- Soundness of Gemm for a bias with the given entries after broadcasting. -/
theorem almost_gemmLayer {rc : RangeCtx} (hT : IsRangeTable T rc) (hch : 0 < rc.chunk) (toNat : ZMod p → Nat)
    {cfg : GemmCfg} {ta tb : Bool} (hcfg : GemmCfgOk cfg ta tb)
    {x w bias : Arr Int} {M K N : Nat} {β : Nat → Nat → Int}
    (hx : x.shape = if ta then [K, M] else [M, K]) (hwx : x.WF)
    (hw : w.shape = if tb then [N, K] else [K, N]) (hww : w.WF) (hb : BiasIs p bias M N β)
    {κ nb : Nat} (hn : 1 ≤ nb) (hd : rc.chunk ∣ κ) (hds : rc.chunk ∣ nb) (hp : 2 ^ κ * 2 ^ (nb + 1) ≤ p)
    (isRescale relu : Bool)
    (hr : ∀ i j, i < M → j < N → postRange isRescale κ nb relu (gemmAt x w ta tb K i j + β i j)) :
    AlmostSound T (fun r : Fin cfg.reps → Fin N → ZMod p =>
      gemmLayer toNat rc cfg (castArr p x) (castArr p w) (castArr p bias) (challenges r) isRescale κ nb relu)
      1 (p ^ cfg.reps)
      (IsGemm x w β ta tb M K N fun z => ((postSpec isRescale κ relu z : Int) : ZMod p)) := by
  unfold gemmLayer
  by_cases h0 : cfg.reps = 0
  · simp only [if_pos h0]
    exact almost_of_sound fun _ => Sound.throwErr
  simp only [if_neg h0]
  refine AlmostSound.bind (almost_gemmCore toNat hcfg hx hwx hw hww hb) ?_
  rintro - y ⟨h1, h2, h3⟩
  refine (sound_post hT hch hn hd hds hp isRescale relu
    (f := fun c => gemmAt x w ta tb K (c.getD 0 0) (c.getD 1 0) + β (c.getD 0 0) (c.getD 1 0)) h1 h2 ?_ ?_).conseq
    fun z hz => isGemm_of (fun i j => rfl) hz
  · intro c hc
    obtain ⟨i, j, rfl, hi, hj⟩ := inRange_pair hc
    exact h3 i j hi hj
  · intro c hc
    obtain ⟨i, j, rfl, hi, hj⟩ := inRange_pair hc
    exact hr i j hi hj

/-- **C63, Gemm is sound.** The prover fixes all hints, then the challenges are drawn. But for a fraction of at most
`1 / p^reps` of the challenges, if the constraints hold then the output is `op(A) * op(B) + C`, with `C` broadcast as in
ONNX, rescaled and clamped as configured. Missing: digit widths that do not divide the checked widths
(`C05_rescale_unsound`), and biases of one column (`C63_gemm_bias_unsound`, `C63_gemm_refuses`). -/
theorem C63_gemm_sound_partial {rc : RangeCtx} (hT : IsRangeTable T rc) (hch : 0 < rc.chunk) (toNat : ZMod p → Nat)
    {cfg : GemmCfg} {ta tb : Bool} (hcfg : GemmCfgOk cfg ta tb) {x w bias : Arr Int} {M K N : Nat}
    (hx : x.shape = if ta then [K, M] else [M, K]) (hwx : x.WF)
    (hw : w.shape = if tb then [N, K] else [K, N]) (hww : w.WF)
    (hb : bias.shape ∈ [[], [1], [N], [1, 1], [1, N], [M, N]]) (hwb : bias.WF)
    {κ nb : Nat} (hn : 1 ≤ nb) (hd : rc.chunk ∣ κ) (hds : rc.chunk ∣ nb) (hp : 2 ^ κ * 2 ^ (nb + 1) ≤ p)
    (isRescale relu : Bool)
    (hr : ∀ i j, i < M → j < N → postRange isRescale κ nb relu (gemmAt x w ta tb K i j + biasEntry bias i j)) :
    AlmostSound T (fun r : Fin cfg.reps → Fin N → ZMod p =>
      gemmLayer toNat rc cfg (castArr p x) (castArr p w) (castArr p bias) (challenges r) isRescale κ nb relu)
      1 (p ^ cfg.reps)
      (IsGemm x w (biasEntry bias) ta tb M K N fun z => ((postSpec isRescale κ relu z : Int) : ZMod p)) :=
  almost_gemmLayer hT hch toNat hcfg hx hwx hw hww (bias_onnx bias hwb hb) hn hd hds hp isRescale relu hr

/-- Completeness of Gemm for a bias with the given entries after broadcasting. -/
theorem complete_gemmLayer {rc : RangeCtx} (hT : IsRangeTable T rc) (toNat : ZMod p → Nat)
    {cfg : GemmCfg} {ta tb : Bool} (hcfg : GemmCfgOk cfg ta tb) (h0 : 1 ≤ cfg.reps)
    {x w bias : Arr Int} {M K N : Nat} {β : Nat → Nat → Int}
    (hx : x.shape = if ta then [K, M] else [M, K]) (hwx : x.WF)
    (hw : w.shape = if tb then [N, K] else [K, N]) (hww : w.WF) (hb : BiasIs p bias M N β)
    (ht : ∀ d ∈ [M, K, N], toNat ((d : Nat) : ZMod p) = d) (hsz : ∀ d ∈ [M, K, N], d < 2 ^ 64)
    (h64 : M * K + K * N + 3 < 2 ^ 64) (h64' : M * N < 2 ^ 64) (chal : Nat → Nat → ZMod p)
    {κ nb : Nat} (hn : 1 ≤ nb) (hn64 : nb ≤ 64) (hκ : κ < 32) (huk : RangeUsable p rc κ)
    (hun : RangeUsable p rc nb) (hp : 2 ^ κ * 2 ^ nb ≤ p) (isRescale relu : Bool)
    (hr : ∀ i j, i < M → j < N → postRange isRescale κ nb relu (gemmAt x w ta tb K i j + β i j)) :
    Complete T (gemmLayer toNat rc cfg (castArr p x) (castArr p w) (castArr p bias) chal isRescale κ nb relu)
      (IsGemm x w β ta tb M K N fun z => ((postSpec isRescale κ relu z : Int) : ZMod p)) := by
  obtain ⟨A, B, e, a1, b1, a2, b2⟩ := gemmOperands_cast (p := p) hcfg hx hwx hw hww
  obtain ⟨D, d1, d2, d3, d4⟩ := hb.ok
  unfold gemmLayer
  rw [if_neg (by omega)]
  refine Complete.bind (P := IsGemm x w β ta tb M K N fun z : Int => (z : ZMod p)) ?_ ?_
  · unfold gemmCore
    refine Complete.bind (complete_liftR e) ?_
    rintro _ rfl
    dsimp only
    refine Complete.bind (C12_gemm_core_complete toNat A B M K N cfg.reps chal a1 b1 ht hsz h64 h64') ?_
    intro c hP
    have es : c.shape.getD 0 0 = M ∧ c.shape.getD 1 0 = N := by rw [hP.shape]; exact ⟨rfl, rfl⟩
    rw [es.1, es.2]
    refine Complete.bind (complete_liftR d1) ?_
    intro D' hD'
    subst hD'
    unfold elementwiseOp
    rw [if_neg (by rw [d3, hP.len]; simp)]
    exact Complete.pure (gemm_sum hP a2 b2 d3 d4)
  · rintro y ⟨h1, h2, h3⟩
    refine (complete_post hT hn hn64 hκ huk hun hp isRescale relu
      (f := fun c => gemmAt x w ta tb K (c.getD 0 0) (c.getD 1 0) + β (c.getD 0 0) (c.getD 1 0)) h1 h2 ?_ ?_).conseq
      fun z hz => isGemm_of (fun i j => rfl) hz
    · intro c hc
      obtain ⟨i, j, rfl, hi, hj⟩ := inRange_pair hc
      exact h3 i j hi hj
    · intro c hc
      obtain ⟨i, j, rfl, hi, hj⟩ := inRange_pair hc
      exact hr i j hi hj

/-- **C63, Gemm is complete**: run honestly, the layer succeeds for all challenges, and the result is
`op(A) * op(B) + C`. -/
theorem C63_gemm_complete {rc : RangeCtx} (hT : IsRangeTable T rc) (toNat : ZMod p → Nat)
    {cfg : GemmCfg} {ta tb : Bool} (hcfg : GemmCfgOk cfg ta tb) (h0 : 1 ≤ cfg.reps)
    {x w bias : Arr Int} {M K N : Nat}
    (hx : x.shape = if ta then [K, M] else [M, K]) (hwx : x.WF)
    (hw : w.shape = if tb then [N, K] else [K, N]) (hww : w.WF)
    (hb : bias.shape ∈ [[], [1], [N], [1, 1], [1, N], [M, N]]) (hwb : bias.WF)
    (ht : ∀ d ∈ [M, K, N], toNat ((d : Nat) : ZMod p) = d) (hsz : ∀ d ∈ [M, K, N], d < 2 ^ 64)
    (h64 : M * K + K * N + 3 < 2 ^ 64) (h64' : M * N < 2 ^ 64) (chal : Nat → Nat → ZMod p)
    {κ nb : Nat} (hn : 1 ≤ nb) (hn64 : nb ≤ 64) (hκ : κ < 32) (huk : RangeUsable p rc κ)
    (hun : RangeUsable p rc nb) (hp : 2 ^ κ * 2 ^ nb ≤ p) (isRescale relu : Bool)
    (hr : ∀ i j, i < M → j < N → postRange isRescale κ nb relu (gemmAt x w ta tb K i j + biasEntry bias i j)) :
    Complete T (gemmLayer toNat rc cfg (castArr p x) (castArr p w) (castArr p bias) chal isRescale κ nb relu)
      (IsGemm x w (biasEntry bias) ta tb M K N fun z => ((postSpec isRescale κ relu z : Int) : ZMod p)) :=
  complete_gemmLayer hT toNat hcfg h0 hx hwx hw hww (bias_onnx bias hwb hb) ht hsz h64 h64' chal hn hn64 hκ huk hun hp
    isRescale relu hr

/-- **C63 is false of biases of one column.** ONNX adds entry `i` of a bias of shape `[N, 1]` to row `i`. When the product
is square the layer takes it for a row and adds entry `j` to column `j`: with two different entries, the honest prover's
output, accepted for all challenges, is not the sum. -/
theorem C63_gemm_bias_unsound {rc : RangeCtx} (hT : IsRangeTable T rc) (toNat : ZMod p → Nat)
    {cfg : GemmCfg} {ta tb : Bool} (hcfg : GemmCfgOk cfg ta tb) (h0 : 1 ≤ cfg.reps)
    {x w bias : Arr Int} {K N : Nat}
    (hx : x.shape = if ta then [K, N] else [N, K]) (hwx : x.WF)
    (hw : w.shape = if tb then [N, K] else [K, N]) (hww : w.WF)
    (hb : bias.shape = [N, 1]) (hwb : bias.WF)
    (ht : ∀ d ∈ [N, K, N], toNat ((d : Nat) : ZMod p) = d) (hsz : ∀ d ∈ [N, K, N], d < 2 ^ 64)
    (h64 : N * K + K * N + 3 < 2 ^ 64) (h64' : N * N < 2 ^ 64) (chal : Nat → Nat → ZMod p)
    {κ nb : Nat} (hn : 1 ≤ nb) (hn64 : nb ≤ 64) (hκ : κ < 32) (huk : RangeUsable p rc κ)
    (hun : RangeUsable p rc nb) (hp : 2 ^ κ * 2 ^ nb ≤ p)
    {i j : Nat} (hi : i < N) (hj : j < N) (hne : entry bias [i, 0] ≠ entry bias [j, 0])
    (hlt : |entry bias [i, 0] - entry bias [j, 0]| < p) :
    Complete T (gemmLayer toNat rc cfg (castArr p x) (castArr p w) (castArr p bias) chal false κ nb false)
      (fun y => IsGemm x w (fun _ j => entry bias [j, 0]) ta tb N K N (fun z : Int => (z : ZMod p)) y ∧
        ¬ IsGemm x w (biasEntry bias) ta tb N K N (fun z : Int => (z : ZMod p)) y) := by
  have hN : N ≠ 1 := by
    rintro rfl
    exact hne (by rw [Nat.lt_one_iff.1 hi, Nat.lt_one_iff.1 hj])
  have hB : BiasIs p bias N N fun _ j => entry bias [j, 0] := by
    have hl : bias.data.length = N := by rw [hwb, hb]; simp
    obtain ⟨B, q1, q2, q3, q4⟩ := (bias_row (p := p) (M := N) bias (by
      rw [hb]; intro h; exact hN (by simpa using h.symm)) hl).ok
    refine ⟨B, q1, q2, q3, fun i j hi hj => ?_⟩
    rw [q4 i j hi hj]
    simp [entry, elem, hb, rowMajor, List.getD_eq_getElem?_getD]
  refine (complete_gemmLayer hT toNat hcfg h0 hx hwx hw hww hB ht hsz h64 h64' chal hn hn64 hκ huk hun hp
    false false (fun _ _ _ _ => by simp [postRange])).conseq fun y hy => ?_
  have hy' : IsGemm x w (fun _ j => entry bias [j, 0]) ta tb N K N (fun z : Int => (z : ZMod p)) y := by
    simpa [postSpec] using hy
  refine ⟨hy', fun hcon => ?_⟩
  have e1 := hy'.2.2 i j hi hj
  have e2 := hcon.2.2 i j hi hj
  rw [e1] at e2
  have e3 := Option.some.inj e2
  have hba : biasEntry bias i j = entry bias [i, 0] := by
    unfold biasEntry
    rw [hb]
    simp [hN]
  dsimp only at e3
  rw [hba] at e3
  have e4 : ((entry bias [i, 0] : Int) : ZMod p) = ((entry bias [j, 0] : Int) : ZMod p) := by
    simp only [Int.cast_add] at e3
    exact (add_left_cancel e3).symm
  exact hne (int_eq_of_cast_eq (p := p) e4 hlt)

/-- **C63, what Gemm refuses**: whatever the hints, success means at least one repetition, transposition flags of zero or
one, `alpha` and `beta` of one, and a bias of the shape of the output, or with as many entries as the output has columns,
or with one entry, and flat weights of exactly the expected size. In particular a bias of one column is refused unless the
output is square or has one row. -/
theorem C63_gemm_refuses {toNat : ZMod p → Nat} {rc : RangeCtx} {cfg : GemmCfg} {x w bias : Arr (ZMod p)}
    {chal : Nat → Nat → ZMod p} {isRescale relu : Bool} {κ nb : Nat} {h : Hints (ZMod p)}
    {o : Out (ZMod p) (Arr (ZMod p))}
    (ho : gemmLayer toNat rc cfg x w bias chal isRescale κ nb relu h = .ok o) :
    1 ≤ cfg.reps ∧ cfg.transA ≤ 1 ∧ cfg.transB ≤ 1 ∧ cfg.alphaOk = true ∧ cfg.betaOk = true ∧
    (∀ n r c, w.shape = [n] → cfg.expected = some (r, c) → w.data.length = r * c) ∧
    ∃ M N, o.val.shape = [M, N] ∧
      (bias.shape = [M, N] ∨ bias.data.length = N ∨ bias.data.length = 1) := by
  unfold gemmLayer at ho
  by_cases h0 : cfg.reps = 0
  · rw [if_pos h0] at ho
    cases ho
  rw [if_neg h0] at ho
  obtain ⟨o1, o2, e1, e2, rfl⟩ := JST.bind_eq_ok ho
  obtain ⟨o3, o4, e3, e4, rfl⟩ := JST.bind_eq_ok e2
  have e5 : (Except.ok ⟨⟨o1.val.shape, o3.val⟩, Cons.nil, o3.rest⟩ : Except Err (Out (ZMod p) (Arr (ZMod p)))) =
    .ok o4 := e4
  cases Except.ok.inj e5
  unfold gemmCore at e1
  obtain ⟨o5, o6, e6, e7, rfl⟩ := JST.bind_eq_ok e1
  obtain ⟨o7, o8, e8, e9, rfl⟩ := JST.bind_eq_ok e7
  obtain ⟨o9, o10, e10, e11, rfl⟩ := JST.bind_eq_ok e9
  have hops : gemmOperands cfg x w = .ok o5.val := by
    revert e6
    unfold liftR
    rcases gemmOperands cfg x w with (_ | _) | ab
    · intro e; cases e
    · intro e; cases e
    · intro e
      have e' : (Except.ok ⟨ab, Cons.nil, h⟩ : Except Err (Out (ZMod p) (Arr (ZMod p) × Arr (ZMod p)))) = .ok o5 := e
      cases Except.ok.inj e'
      rfl
  have hbias : gemmBias bias (o7.val.shape.getD 0 0) (o7.val.shape.getD 1 0) = .ok o9.val := by
    revert e10
    unfold liftR
    rcases gemmBias bias (o7.val.shape.getD 0 0) (o7.val.shape.getD 1 0) with (_ | _) | ab
    · intro e; cases e
    · intro e; cases e
    · intro e
      have e' : (Except.ok ⟨ab, Cons.nil, o7.rest⟩ : Except Err (Out (ZMod p) (Arr (ZMod p)))) = .ok o9 := e
      cases Except.ok.inj e'
      rfl
  have flag : ∀ f (a a' : Arr (ZMod p)), applyTranspose f a = .ok a' → f ≤ 1 := by
    intro f a a' hf
    rcases f with _ | _ | f
    · omega
    · omega
    · cases hf
  obtain ⟨t0, t1, t2, t3⟩ : (∀ n r c, w.shape = [n] → cfg.expected = some (r, c) → w.data.length = r * c) ∧
      cfg.transA ≤ 1 ∧ cfg.transB ≤ 1 ∧ cfg.alphaOk = true ∧ cfg.betaOk = true := by
    unfold gemmOperands at hops
    obtain ⟨a, -, q1⟩ := Layers.bind_eq_ok hops
    obtain ⟨b, r0, q2⟩ := Layers.bind_eq_ok q1
    obtain ⟨a', r1, q3⟩ := Layers.bind_eq_ok q2
    obtain ⟨b', r2, q4⟩ := Layers.bind_eq_ok q3
    refine ⟨fun n r c hn hc => ?_, flag _ _ _ r1, flag _ _ _ r2, ?_⟩
    · unfold gemmWeights at r0
      rw [hn, hc] at r0
      dsimp only at r0
      by_contra hl
      rw [if_pos hl] at r0
      cases r0
    by_contra hc
    rw [if_neg hc] at q4
    cases q4
  refine ⟨by omega, t1, t2, t3.1, t3.2, t0, ?_⟩
  have hshape : ∃ M N, o7.val.shape = [M, N] := by
    unfold computeCoreProduct at e8
    rcases ha : o5.val.1.shape with _ | ⟨M, _ | ⟨K, _ | ⟨_, _⟩⟩⟩ <;> rw [ha] at e8
    · cases e8
    · cases e8
    · rcases hb : o5.val.2.shape with _ | ⟨K2, _ | ⟨N, _ | ⟨_, _⟩⟩⟩ <;> rw [hb] at e8
      · cases e8
      · cases e8
      · dsimp only at e8
        by_cases hk : K ≠ K2
        · rw [if_pos hk] at e8
          cases e8
        rw [if_neg hk] at e8
        by_cases hu : shouldUseFreivalds M K N cfg.reps = true
        · rw [if_pos hu] at e8
          obtain ⟨u1, u2, v1, v2, rfl⟩ := JST.bind_eq_ok e8
          obtain ⟨u3, u4, v3, v4, rfl⟩ := JST.bind_eq_ok v2
          have v5 : (Except.ok ⟨u1.val, Cons.nil, u3.rest⟩ : Except Err (Out (ZMod p) (Arr (ZMod p)))) = .ok u4 := v4
          cases Except.ok.inj v5
          obtain ⟨l, m, n, -, -, w1, -⟩ := unconstrained_ok toNat _ _ _ _ v1
          exact ⟨l, n, w1⟩
        · rw [if_neg hu] at e8
          obtain ⟨l, m, n, w1, w2⟩ := C12_matrix_multiplication_rejects _ _ _ _ e8
          obtain ⟨o', w3, w4, -⟩ := C12_matrix_multiplication _ _ l m n w1 w2 o5.rest
          rw [w3] at e8
          cases Except.ok.inj e8
          exact ⟨l, n, w4.shape⟩
      · cases e8
    · cases e8
  obtain ⟨M, N, hs⟩ := hshape
  refine ⟨M, N, ?_, ?_⟩
  · unfold elementwiseOp at e11
    by_cases hq : o9.val.shape ≠ o7.val.shape ∧ o9.val.data.length ≠ o7.val.data.length
    · rw [if_pos hq] at e11
      cases e11
    · rw [if_neg hq] at e11
      have v5 : (Except.ok ⟨⟨o7.val.shape, List.zipWith (fun u v => u + v) o7.val.data o9.val.data⟩, Cons.nil, o9.rest⟩ :
        Except Err (Out (ZMod p) (Arr (ZMod p)))) = .ok o10 := e11
      cases Except.ok.inj v5
      exact hs
  · rw [hs] at hbias
    unfold gemmBias at hbias
    by_cases q1 : bias.shape = [M, N]
    · exact .inl q1
    rw [if_neg (by simpa using q1)] at hbias
    by_cases q2 : bias.data.length = N
    · exact .inr (.inl q2)
    rw [if_neg (by simpa using q2)] at hbias
    by_cases q3 : bias.data.length = 1
    · exact .inr (.inr q3)
    rw [if_neg q3] at hbias
    cases hbias

/-- **C63, operands of rank 1.** A vector input is a row, a vector of weights has the announced shape if there is one
(and the right length) and is a column otherwise: the circuit is that of the matrix. -/
theorem C63_gemm_vectors (toNat : ZMod p → Nat) (rc : RangeCtx) (cfg : GemmCfg) (x w bias : Arr (ZMod p))
    (chal : Nat → Nat → ZMod p) (isRescale relu : Bool) (κ nb n : Nat) :
    (x.shape = [n] → gemmLayer toNat rc cfg x w bias chal isRescale κ nb relu =
      gemmLayer toNat rc cfg ⟨[1, n], x.data⟩ w bias chal isRescale κ nb relu) ∧
    (w.shape = [n] → cfg.expected = none → gemmLayer toNat rc cfg x w bias chal isRescale κ nb relu =
      gemmLayer toNat rc cfg x ⟨[n, 1], w.data⟩ bias chal isRescale κ nb relu) ∧
    (∀ r c, w.shape = [n] → cfg.expected = some (r, c) → w.data.length = r * c →
      gemmLayer toNat rc cfg x w bias chal isRescale κ nb relu =
      gemmLayer toNat rc cfg x ⟨[r, c], w.data⟩ bias chal isRescale κ nb relu) := by
  refine ⟨fun h => ?_, fun h h2 => ?_, fun r c h h2 h3 => ?_⟩
  · have e : promote2d x false = promote2d ⟨[1, n], x.data⟩ false := by
      unfold promote2d
      rw [h]
      rfl
    unfold gemmLayer gemmCore gemmOperands
    rw [e]
  · have e : gemmWeights w cfg.expected = gemmWeights ⟨[n, 1], w.data⟩ cfg.expected := by
      unfold gemmWeights promote2d
      rw [h, h2]
      rfl
    unfold gemmLayer gemmCore gemmOperands
    rw [e]
  · have e : gemmWeights w cfg.expected = gemmWeights ⟨[r, c], w.data⟩ cfg.expected := by
      unfold gemmWeights promote2d
      rw [h, h2]
      dsimp only
      rw [if_neg (by rw [h3]; simp)]
    unfold gemmLayer gemmCore gemmOperands
    rw [e]

/-! ## The hypotheses are met -/

/-- Two 2×3 matrices. -/
def mmA : Arr Int := ⟨[2, 2, 3], [1, -2, 3, 0, 5, -1, 2, 2, -3, 7, 0, 4]⟩
/-- Two 3×2 matrices, and one. -/
def mmB : Arr Int := ⟨[2, 3, 2], [1, 0, -1, 2, 4, 1, 0, 3, -2, 5, 1, 1]⟩
def mmB1 : Arr Int := ⟨[3, 2], [1, 0, -1, 2, 4, 1]⟩

example : matmulAt mmA mmB [1] [1] 3 0 1 = 13 := by decide +kernel
example : matmulAt mmA mmB1 [1] [] 3 0 1 = 1 := by decide +kernel

theorem mm_toNat : ∀ d ∈ [2, 3, 2], ZMod.val ((d : Nat) : ZMod goldP) = d := by
  intro d hd
  refine ZMod.val_natCast_of_lt ?_
  fin_cases hd <;> norm_num [goldP]

theorem mm_usable : ∀ n : Nat, 0 < n → n < 40 → RangeUsable goldP ⟨0, 4⟩ n := fun n h h' =>
  ⟨by norm_num, by norm_num, h, by omega, fun _ => by omega,
    le_trans (Nat.pow_le_pow_right (by norm_num) (show n + slackBits 4 n ≤ 44 by
      have : ∀ m < 40, m + slackBits 4 m ≤ 44 := by decide +kernel
      exact this n h')) (by norm_num [goldP])⟩

theorem mm_range : ∀ c i j, InRange [2] c → i < 2 → j < 2 →
    postRange true 4 8 false (matmulAt mmA mmB c c 3 i j) := by
  intro c i j hc hi hj
  have hc' : c = [0] ∨ c = [1] := by
    obtain _ | @⟨a, b, l, m, h1, h2⟩ := hc
    cases h2
    have : a = 0 ∨ a = 1 := by omega
    rcases this with rfl | rfl <;> simp
  have key : ∀ c ∈ [[0], [1]], ∀ i < 2, ∀ j < 2, |matmulAt mmA mmB c c 3 i j| ≤ 100 := by decide +kernel
  have k := abs_le.1 (key c (by simpa using hc') i hi j hj)
  simp only [postRange]
  norm_num
  omega

example : AlmostSound (rangeTables goldP ⟨0, 4⟩) (fun xs : Fin (slices [2] [2]) → Fin 1 → Fin 2 → ZMod goldP =>
      matmulLayer ZMod.val ⟨0, 4⟩ (castArr goldP mmA) (castArr goldP mmB) (sliceChallenges xs) 1 true 4 8)
      (slices [2] [2]) (goldP ^ 1)
      (IsMatMul mmA mmB [2] [2] 2 3 2 fun z => ((postSpec true 4 false z : Int) : ZMod goldP)) :=
  C63_matmul_sound_partial (a := mmA) (b := mmB) (ba := [2]) (bb := [2]) (rangeTables_spec _) (by norm_num) _ rfl rfl rfl (by simp) 1 (by norm_num) (by norm_num)
    (by norm_num) (by norm_num [goldP]) true mm_range

example (chal : Nat → Nat → Nat → ZMod goldP) : Complete (rangeTables goldP ⟨0, 4⟩)
      (matmulLayer ZMod.val ⟨0, 4⟩ (castArr goldP mmA) (castArr goldP mmB) chal 1 true 4 8)
      (IsMatMul mmA mmB [2] [2] 2 3 2 fun z => ((postSpec true 4 false z : Int) : ZMod goldP)) :=
  C63_matmul_complete_partial (a := mmA) (b := mmB) (ba := [2]) (bb := [2]) (rangeTables_spec _) _ rfl rfl rfl rfl (by simp) (by norm_num) (by norm_num) (by norm_num)
    mm_toNat (by norm_num) (by norm_num) (by norm_num) 1 chal (by norm_num) (by norm_num) (by norm_num)
    (mm_usable _ (by norm_num) (by norm_num)) (mm_usable _ (by norm_num) (by norm_num)) (by norm_num [goldP]) true mm_range

/-- Broadcasting `[1, 3, 2]` against `[2, 2, 3]` is refused. -/
example (chal : Nat → Nat → Nat → ZMod goldP) (h : Hints (ZMod goldP)) (o : Out (ZMod goldP) (Arr (ZMod goldP))) :
    matmulLayer ZMod.val ⟨0, 4⟩ (castArr goldP mmA) (castArr goldP ⟨[1, 3, 2], mmB1.data⟩) chal 1 true 4 8 h ≠ .ok o := by
  intro ho
  obtain ⟨ba, bb, M, K, N, e1, e2, e3⟩ := C63_matmul_refuses ho
  have l1 : ba = [2] := by
    rcases ba with _ | ⟨x, _ | ⟨y, t⟩⟩
    · simp [castArr, mmA] at e1
    · simp [castArr, mmA] at e1; simp [e1.1]
    · have := congrArg List.length e1; simp [castArr, mmA] at this
  have l2 : bb = [1] := by
    rcases bb with _ | ⟨x, _ | ⟨y, t⟩⟩
    · simp [castArr] at e2
    · simp [castArr] at e2; simp [e2.1]
    · have := congrArg List.length e2; simp [castArr] at this
  subst l1 l2
  simp at e3

/-- `A` (2×3) times the transpose of `B` (2×3), plus a row. -/
def gmX : Arr Int := ⟨[2, 3], [1, -2, 3, 0, 5, -1]⟩
def gmW : Arr Int := ⟨[2, 3], [1, -1, 4, 0, 2, 1]⟩
def gmB : Arr Int := ⟨[2], [10, -20]⟩
def gmCfg : GemmCfg := ⟨some (2, 3), 0, 1, true, true, 1⟩

example : gemmAt gmX gmW false true 3 0 1 + biasEntry gmB 0 1 = -21 := by decide +kernel

theorem gm_cfg : GemmCfgOk gmCfg false true := ⟨rfl, rfl, rfl, rfl⟩

theorem gm_range : ∀ i j, i < 2 → j < 2 → postRange true 4 8 true (gemmAt gmX gmW false true 3 i j + biasEntry gmB i j) := by
  intro i j hi hj
  have key : ∀ i < 2, ∀ j < 2, |gemmAt gmX gmW false true 3 i j + biasEntry gmB i j| ≤ 100 := by decide +kernel
  have k := abs_le.1 (key i hi j hj)
  simp only [postRange]
  norm_num
  omega

example : AlmostSound (rangeTables goldP ⟨0, 4⟩) (fun r : Fin 1 → Fin 2 → ZMod goldP =>
      gemmLayer ZMod.val ⟨0, 4⟩ gmCfg (castArr goldP gmX) (castArr goldP gmW) (castArr goldP gmB) (challenges r) true 4 8 true)
      1 (goldP ^ 1)
      (IsGemm gmX gmW (biasEntry gmB) false true 2 3 2 fun z => ((postSpec true 4 true z : Int) : ZMod goldP)) :=
  C63_gemm_sound_partial (x := gmX) (w := gmW) (bias := gmB) (rangeTables_spec _) (by norm_num) _ gm_cfg rfl rfl rfl rfl (by decide) rfl (by norm_num)
    (by norm_num) (by norm_num) (by norm_num [goldP]) true true gm_range

example (chal : Nat → Nat → ZMod goldP) : Complete (rangeTables goldP ⟨0, 4⟩)
      (gemmLayer ZMod.val ⟨0, 4⟩ gmCfg (castArr goldP gmX) (castArr goldP gmW) (castArr goldP gmB) chal true 4 8 true)
      (IsGemm gmX gmW (biasEntry gmB) false true 2 3 2 fun z => ((postSpec true 4 true z : Int) : ZMod goldP)) :=
  C63_gemm_complete (x := gmX) (w := gmW) (bias := gmB) (rangeTables_spec _) _ gm_cfg (by decide) rfl rfl rfl rfl (by decide) rfl
    mm_toNat (by norm_num) (by norm_num) (by norm_num) chal (by norm_num) (by norm_num) (by norm_num)
    (mm_usable _ (by norm_num) (by norm_num)) (mm_usable _ (by norm_num) (by norm_num)) (by norm_num [goldP]) true true gm_range

/-- The same weights with the bias `[[10], [-20]]`. -/
def gmC : Arr Int := ⟨[2, 1], [10, -20]⟩

example (chal : Nat → Nat → ZMod goldP) : Complete (rangeTables goldP ⟨0, 4⟩)
      (gemmLayer ZMod.val ⟨0, 4⟩ gmCfg (castArr goldP gmX) (castArr goldP gmW) (castArr goldP gmC) chal false 4 8 false)
      (fun y => IsGemm gmX gmW (fun _ j => entry gmC [j, 0]) false true 2 3 2 (fun z : Int => (z : ZMod goldP)) y ∧
        ¬ IsGemm gmX gmW (biasEntry gmC) false true 2 3 2 (fun z : Int => (z : ZMod goldP)) y) :=
  C63_gemm_bias_unsound (x := gmX) (w := gmW) (bias := gmC) (rangeTables_spec _) _ gm_cfg (by decide) rfl rfl rfl rfl rfl rfl
    mm_toNat (by norm_num) (by norm_num) (by norm_num) chal (by norm_num) (by norm_num) (by norm_num)
    (mm_usable _ (by norm_num) (by norm_num)) (mm_usable _ (by norm_num) (by norm_num)) (by norm_num [goldP])
    (i := 0) (j := 1) (by decide) (by decide) (by decide +kernel) (by decide +kernel)

end JST.Props
