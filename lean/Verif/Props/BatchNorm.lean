import Verif.Tensor.BatchNorm
import Verif.Spec.BatchNorm
import Verif.Props.Convert

/-!
# C72: BatchNormalization

The specification is in `Verif/Spec/BatchNorm.lean`.
-/

set_option linter.unusedSectionVars false

namespace JST.Props

open JST.Shape JST.Layers JST.Spec JST.Convert

/-! ## The channel vectors -/

/-- The shape the channel vectors are given: the channel first, then ones. -/
def chanShape (target : List Nat) : List Nat := target.getD 1 0 :: List.replicate (target.length - 2) 1

theorem fromRight_chanShape {t : List Nat} (h : 2 ≤ t.length) (i : Nat) :
    fromRight (chanShape t) i = 1 ∨ fromRight (chanShape t) i = fromRight t i := by
  unfold fromRight chanShape
  rw [List.reverse_cons, List.reverse_replicate]
  by_cases h1 : i < t.length - 2
  · left
    rw [List.getD_append _ _ _ _ (by simpa using h1), List.getD_eq_getElem _ _ (by simpa using h1),
      List.getElem_replicate]
  · by_cases h2 : i = t.length - 2
    · right
      subst h2
      rw [List.getD_append_right _ _ _ _ (by simp)]
      simp only [List.length_replicate, Nat.sub_self, List.getD_cons_zero]
      rw [List.getD_eq_getElem (l := t.reverse) _ (by rw [List.length_reverse]; omega), List.getElem_reverse,
        List.getD_eq_getElem _ _ (by omega)]
      congr 1
      omega
    · left
      rw [List.getD_eq_default]
      simp only [List.length_append, List.length_replicate, List.length_singleton]
      omega

theorem chanShape_length {t : List Nat} (h : 2 ≤ t.length) : (chanShape t).length = t.length - 1 := by
  unfold chanShape; simp; omega

theorem chanShape_prod (t : List Nat) : (chanShape t).prod = t.getD 1 0 := by
  unfold chanShape; simp

/-- Broadcasting a tensor with a channel vector keeps its shape. -/
theorem isBroadcast_chan {t out : List Nat} (h : 2 ≤ t.length) : IsBroadcast t (chanShape t) out ↔ out = t := by
  have hl := chanShape_length h
  constructor
  · rintro ⟨h1, h2⟩
    have hlen : out.length = t.length := by omega
    apply List.ext_getElem hlen
    intro i hi hi'
    have h3 := h2 (out.length - 1 - i) (by omega)
    have e1 := Layers.fromRight_eq_getElem (s := out) (i := i) hi
    have e2 := Layers.fromRight_eq_getElem (s := t) (i := i) hi'
    have h4 := fromRight_chanShape h (out.length - 1 - i)
    rw [← e1, ← e2, ← hlen]
    rcases h3 with ⟨_, h3⟩ | ⟨h5, h3⟩ | ⟨_, h3⟩
    · exact h3
    · rcases h4 with h4 | h4 <;> omega
    · exact h3
  · rintro rfl
    refine ⟨by omega, fun i _ => ?_⟩
    rcases fromRight_chanShape h i with h4 | h4
    · exact .inr (.inr ⟨h4, rfl⟩)
    · exact .inl ⟨h4.symm, rfl⟩

/-- The entry broadcasting reads from a channel vector is that of the channel. -/
theorem elem_chan {α : Type} {t c : List Nat} (h : 2 ≤ t.length) (hc : InRange t c) (d : List α) :
    ∃ ch, c[1]? = some ch ∧ ch < t.getD 1 0 ∧
      elem (⟨chanShape t, d⟩ : Arr α) (srcCoords (chanShape t) c) = d[ch]? := by
  match t, c, h, hc with
  | t0 :: t1 :: ts, c0 :: c1 :: cs, _, hc =>
    simp only [InRange, List.forall₂_cons] at hc
    obtain ⟨_, h1, h2⟩ := hc
    have hl := h2.length_eq
    refine ⟨c1, rfl, h1, ?_⟩
    have key : ∀ (n : Nat) (cs : List Nat), cs.length = n →
        rowMajor (List.replicate n 1) (List.zipWith (fun c s => if s = 1 then 0 else c) cs (List.replicate n 1)) = 0 := by
      intro n
      induction n with
      | zero => intro cs _; cases cs <;> rfl
      | succ n ih =>
        intro cs hcs
        match cs with
        | c :: cs =>
          rw [List.replicate_succ, List.zipWith_cons_cons, rowMajor, ih cs (by simpa using hcs)]
          simp
    unfold elem srcCoords chanShape
    simp only [List.getD_cons_succ, List.getD_cons_zero, List.length_cons, List.length_replicate]
    have e1 : cs.length + 1 + 1 - (ts.length + 1 + 1 - 2 + 1) = 1 := by omega
    have e2 : ts.length + 1 + 1 - 2 = ts.length := by omega
    rw [e1, e2, List.drop_succ_cons, List.drop_zero, List.zipWith_cons_cons, rowMajor, key _ _ hl]
    simp only [List.prod_replicate, one_pow, mul_one, Nat.add_zero]
    congr 1
    split_ifs with h0
    · omega
    · rfl
  | [_], _, h, _ => simp at h
  | [], _, h, _ => simp at h
  | _ :: _ :: _, [_], _, hc => simp [InRange] at hc
  | _ :: _ :: _, [], _, hc => simp [InRange] at hc

section
variable {p : Nat} [Fact p.Prime] {T : Tables (ZMod p)}

theorem reshapeChannel_ok {m : Arr Int} {t : List Nat} {r : Arr (ZMod p)}
    (h : reshapeChannel (castArr p m) t = .ok r) :
    m.shape.length = 1 ∧ 2 ≤ t.length ∧ t.getD 1 0 = m.data.length ∧ r = castArr p ⟨chanShape t, m.data⟩ := by
  unfold reshapeChannel castArr at h
  simp only [List.length_map] at h
  split_ifs at h with h1 h2 h3
  have h3 := not_not.1 h3
  refine ⟨not_not.1 h1, by omega, h3, ?_⟩
  rw [← Except.ok.inj h, ← h3]
  rfl

theorem reshapeChannel_eq {m : Arr Int} {t : List Nat} (h1 : m.shape.length = 1) (h2 : 2 ≤ t.length)
    (h3 : t.getD 1 0 = m.data.length) :
    reshapeChannel (castArr p m) t = .ok (castArr p ⟨chanShape t, m.data⟩) := by
  unfold reshapeChannel castArr
  simp only [List.length_map]
  rw [if_neg (not_not.2 h1), if_neg (by omega), if_neg (not_not.2 h3), ← h3]
  rfl

/-- What the layer computes before the rescaling, as integers. -/
def bnSum (x m b : Arr Int) : List Int :=
  (List.range x.shape.prod).map fun k => valAt x (unravel k x.shape) *
    valAt ⟨chanShape x.shape, m.data⟩ (unravel k x.shape) + valAt ⟨chanShape x.shape, b.data⟩ (unravel k x.shape)

/-- The product, as an integer array. -/
def bnProd (x m : Arr Int) : Arr Int :=
  ⟨x.shape, (List.range x.shape.prod).map fun k => valAt x (unravel k x.shape) *
    valAt ⟨chanShape x.shape, m.data⟩ (unravel k x.shape)⟩

theorem bnProd_WF (x m : Arr Int) : (bnProd x m).WF := by unfold bnProd Arr.WF; simp

theorem bnProd_valAt {x m : Arr Int} {k : Nat} (hk : k < x.shape.prod) :
    valAt (bnProd x m) (unravel k x.shape) = valAt x (unravel k x.shape) *
      valAt ⟨chanShape x.shape, m.data⟩ (unravel k x.shape) := by
  refine valAt_some ?_
  have : (bnProd x m).shape = x.shape := rfl
  rw [this, srcCoords_self' (unravel_inRange hk)]
  unfold elem bnProd
  rw [rowMajor_unravel hk, List.getElem?_map, List.getElem?_range hk]
  rfl

theorem elementwise_prod {x m : Arr Int} {r : Arr (ZMod p) × Arr (ZMod p)}
    (hr : Aligned x ⟨chanShape x.shape, m.data⟩ x.shape r) :
    elementwiseOp (fun u v => u * v) r.1 r.2 = pure (castArr p (bnProd x m)) := by
  rw [elementwise_aligned hr]
  unfold castArr bnProd
  congr 2
  rw [List.map_map]
  refine List.map_congr_left fun k _ => ?_
  simp

theorem elementwise_sum {x m b : Arr Int} {r : Arr (ZMod p) × Arr (ZMod p)}
    (hr : Aligned (bnProd x m) ⟨chanShape x.shape, b.data⟩ x.shape r) :
    elementwiseOp (fun u v => u + v) r.1 r.2 =
      pure ⟨x.shape, (bnSum x m b).map fun z : Int => (z : ZMod p)⟩ := by
  rw [elementwise_aligned hr]
  congr 2
  unfold bnSum
  rw [List.map_map]
  refine List.map_congr_left fun k hk => ?_
  rw [bnProd_valAt (List.mem_range.1 hk)]
  simp

theorem isPerChannel_of {x m b : Arr Int} {t : List Nat} (ht : x.shape = t) (hx : x.WF) (h2 : 2 ≤ t.length)
    (hm : t.getD 1 0 = m.data.length) (hb : t.getD 1 0 = b.data.length) (f : Int → Int) :
    IsPerChannel x m.data b.data (fun u v g w => w = ((f (u * v + g) : Int) : ZMod p))
      ⟨t, (bnSum x m b).map fun z : Int => ((f z : Int) : ZMod p)⟩ := by
  subst ht
  refine ⟨rfl, by unfold Arr.WF bnSum; simp, fun c hc => ?_⟩
  obtain ⟨u, hu⟩ := elem_isSome hx hc
  obtain ⟨ch, c1, c2, c3⟩ := elem_chan h2 hc m.data
  obtain ⟨ch', c1', _, c3'⟩ := elem_chan h2 hc b.data
  obtain rfl : ch = ch' := Option.some.inj (c1.symm.trans c1')
  have em : m.data[ch]? = some (m.data[ch]'(by omega)) := List.getElem?_eq_getElem (by omega)
  have eb : b.data[ch]? = some (b.data[ch]'(by omega)) := List.getElem?_eq_getElem (by omega)
  refine ⟨ch, u, _, _, ((f (u * m.data[ch]'(by omega) + b.data[ch]'(by omega)) : Int) : ZMod p), c1, hu, em, eb, ?_, rfl⟩
  have hk := rowMajor_lt hc
  have vx : valAt x c = u := valAt_some (by rw [srcCoords_self' hc]; exact hu)
  have vm : valAt ⟨chanShape x.shape, m.data⟩ c = m.data[ch]'(by omega) := valAt_some (c3.trans em)
  have vb : valAt ⟨chanShape x.shape, b.data⟩ c = b.data[ch]'(by omega) := valAt_some (c3'.trans eb)
  unfold elem bnSum
  simp only [List.getElem?_map, List.getElem?_range hk, Option.map_some, unravel_rowMajor hc, vx, vm, vb]

/-- **C72, BatchNormalization is sound.** Every accepted output has the shape of the input; its entries are the
post-processed `x·m + b` with the factor and the summand of the channel. Missing: digit widths that do not divide the bit
widths (`C05_rescale_unsound`). -/
theorem C72_batchnorm_sound_partial {rc : RangeCtx} (hT : IsRangeTable T rc) (hc : 0 < rc.chunk)
    {κ n : Nat} (hn : 1 ≤ n) (hd : rc.chunk ∣ κ) (hds : rc.chunk ∣ n) (hp : 2 ^ κ * 2 ^ (n + 1) ≤ p)
    (isRescale relu : Bool) (x m b : Arr Int) (hx : x.WF)
    (hr : ∀ u ∈ x.data, ∀ v ∈ m.data, ∀ g ∈ b.data, postRange isRescale κ n relu (u * v + g)) :
    Sound T (batchnormLayer rc isRescale κ n relu (castArr p x) (castArr p m) (castArr p b))
      (IsPerChannel x m.data b.data fun u v g w =>
        w = ((postSpec isRescale κ relu (u * v + g) : Int) : ZMod p)) := by
  unfold batchnormLayer
  refine Sound.bind sound_liftR fun m' hm' => Sound.bind sound_liftR fun b' hb' => ?_
  obtain ⟨_, h2, hm, rfl⟩ := reshapeChannel_ok hm'
  obtain ⟨_, _, hb, rfl⟩ := reshapeChannel_ok hb'
  have e : (castArr p x).shape = x.shape := rfl
  rw [e] at h2 hm hb ⊢
  refine sound_broadcast hx (by unfold Arr.WF; rw [chanShape_prod]; exact hm.symm) fun t r hr1 => ?_
  obtain rfl := (isBroadcast_chan h2).1 hr1.broadcast
  rw [elementwise_prod hr1]
  refine Sound.bind (Sound.pure (Q := fun o => o = _) rfl) ?_
  rintro _ rfl
  refine sound_broadcast (bnProd_WF x m) (by unfold Arr.WF; rw [chanShape_prod]; exact hb.symm) fun t r hr2 => ?_
  obtain rfl := (isBroadcast_chan (t := x.shape) h2).1 hr2.broadcast
  rw [elementwise_sum hr2]
  refine Sound.bind (Sound.pure (Q := fun o => o = _) rfl) ?_
  rintro _ rfl
  refine Sound.bind (C05_layer_post_sound_partial hT hc hn hd hds hp isRescale relu _ ?_) fun ys hys => ?_
  · intro z hz
    obtain ⟨k, hk, rfl⟩ := List.mem_map.1 hz
    have hk := unravel_inRange (List.mem_range.1 hk)
    have m1 := valAt_mem (hr1.elem1 _ hk)
    have m2 := valAt_mem (hr1.elem2 _ hk)
    have m3 := valAt_mem (hr2.elem2 _ hk)
    exact hr _ m1 _ m2 _ m3
  · refine Sound.pure ?_
    rw [hys]
    exact isPerChannel_of rfl hx h2 hm hb _

/-- **C72, BatchNormalization is complete** for every digit width. Missing: empty dimensions (`C37_empty_rejected`). -/
theorem C72_batchnorm_complete_partial {rc : RangeCtx} (hT : IsRangeTable T rc)
    {κ n : Nat} (hn : 1 ≤ n) (hn64 : n ≤ 64) (hκ : κ < 32) (huk : RangeUsable p rc κ)
    (hun : RangeUsable p rc n) (hp : 2 ^ κ * 2 ^ n ≤ p)
    (isRescale relu : Bool) (x m b : Arr Int) (hx : x.WF) (zx : ∀ d ∈ x.shape, d ≠ 0) (h2 : 2 ≤ x.shape.length)
    (sm : m.shape.length = 1) (sb : b.shape.length = 1) (hm : x.shape.getD 1 0 = m.data.length)
    (hb : x.shape.getD 1 0 = b.data.length)
    (hr : ∀ u ∈ x.data, ∀ v ∈ m.data, ∀ g ∈ b.data, postRange isRescale κ n relu (u * v + g)) :
    Complete T (batchnormLayer rc isRescale κ n relu (castArr p x) (castArr p m) (castArr p b))
      (IsPerChannel x m.data b.data fun u v g w =>
        w = ((postSpec isRescale κ relu (u * v + g) : Int) : ZMod p)) := by
  unfold batchnormLayer
  have e : (castArr p x).shape = x.shape := rfl
  have zc : ∀ d ∈ chanShape x.shape, d ≠ 0 := by
    intro d hd
    unfold chanShape at hd
    rcases List.mem_cons.1 hd with rfl | hd
    · rw [List.getD_eq_getElem _ _ (by omega)]
      exact zx _ (List.getElem_mem _)
    · rw [List.eq_of_mem_replicate hd]; exact one_ne_zero
  refine Complete.bind (complete_liftR (reshapeChannel_eq sm (by rw [e]; exact h2) (by rw [e]; exact hm))) ?_
  rintro _ rfl
  refine Complete.bind (complete_liftR (reshapeChannel_eq sb (by rw [e]; exact h2) (by rw [e]; exact hb))) ?_
  rintro _ rfl
  rw [e]
  refine complete_broadcast hx (by unfold Arr.WF; rw [chanShape_prod]; exact hm.symm) zx zc
    ⟨_, (isBroadcast_chan h2).2 rfl⟩ fun t r hr1 => ?_
  obtain rfl := (isBroadcast_chan h2).1 hr1.broadcast
  rw [elementwise_prod hr1]
  refine Complete.bind (Complete.pure (Q := fun o => o = _) rfl) ?_
  rintro _ rfl
  refine complete_broadcast (bnProd_WF x m) (by unfold Arr.WF; rw [chanShape_prod]; exact hb.symm) zx zc
    ⟨_, (isBroadcast_chan (t := x.shape) h2).2 rfl⟩ fun t r hr2 => ?_
  obtain rfl := (isBroadcast_chan (t := x.shape) h2).1 hr2.broadcast
  rw [elementwise_sum hr2]
  refine Complete.bind (Complete.pure (Q := fun o => o = _) rfl) ?_
  rintro _ rfl
  refine Complete.bind (C05_layer_post_complete hT hn hn64 hκ huk hun hp isRescale relu _ ?_) fun ys hys => ?_
  · intro z hz
    obtain ⟨k, hk, rfl⟩ := List.mem_map.1 hz
    have hk := unravel_inRange (List.mem_range.1 hk)
    have m1 := valAt_mem (hr1.elem1 _ hk)
    have m2 := valAt_mem (hr1.elem2 _ hk)
    have m3 := valAt_mem (hr2.elem2 _ hk)
    exact hr _ m1 _ m2 _ m3
  · refine Complete.pure ?_
    rw [hys]
    exact isPerChannel_of rfl hx h2 hm hb _

/-- **C72, refusals.** Parameters that are not vectors, and vectors that have not one entry per channel, are refused. -/
theorem C72_batchnorm_refuses (rc : RangeCtx) (isRescale : Bool) (κ n : Nat) (relu : Bool) (x m b : Arr (ZMod p))
    (h2 : 2 ≤ x.shape.length) (h : m.shape.length ≠ 1 ∨ x.shape.getD 1 0 ≠ m.data.length) (hs : Hints (ZMod p)) :
    ∃ msg, batchnormLayer rc isRescale κ n relu x m b hs = .error (.err msg) := by
  have e : reshapeChannel m x.shape = .error .invalid := by
    unfold reshapeChannel
    split_ifs with h1 h3 h4
    · rfl
    · omega
    · rfl
    · rcases h with h | h
      · exact absurd h1 (not_not.2 h)
      · exact absurd h h4
  unfold batchnormLayer
  rw [e]
  exact ⟨_, rfl⟩

/-- **C72, an input without a channel axis panics** instead of being refused: the error message reads the missing
dimension. -/
theorem C72_batchnorm_panics (rc : RangeCtx) (isRescale : Bool) (κ n : Nat) (relu : Bool) (x m b : Arr (ZMod p))
    (h2 : x.shape.length < 2) (hm : m.shape.length = 1) (hs : Hints (ZMod p)) :
    ∃ msg, batchnormLayer rc isRescale κ n relu x m b hs = .error (.panic msg) := by
  have e : reshapeChannel m x.shape = .error .panic := by
    unfold reshapeChannel
    rw [if_neg (not_not.2 hm), if_pos h2]
  unfold batchnormLayer
  rw [e]
  exact ⟨_, rfl⟩

end

/-! ## From the parameters of the model to those of the circuit -/

/-- **C72, folding is exact** over the reals: `x·m + b` with the folded parameters is batch normalisation. -/
theorem C72_fold_exact {eps : ℝ} {scale bias mean var mul add : List ℝ}
    (h : foldBatchnorm eps scale bias mean var = some (mul, add)) {i : Nat} (hi : i < scale.length) (x : ℝ) :
    mul.length = scale.length ∧ add.length = scale.length ∧
    x * mul.getD i 0 + add.getD i 0 =
      batchNorm (scale.getD i 0) (bias.getD i 0) (mean.getD i 0) (var.getD i 0) eps x := by
  unfold foldBatchnorm at h
  split_ifs at h with h1 h2
  obtain ⟨rfl, rfl⟩ := Prod.mk.inj (Option.some.inj h)
  refine ⟨by simp, by simp, ?_⟩
  rw [List.getD_eq_getElem _ _ (by simpa using hi), List.getD_eq_getElem _ _ (by simpa using hi)]
  simp only [List.getElem_map, List.getElem_range]
  unfold batchNorm
  ring

/-- **C72, what folding refuses**: parameters of different lengths and a variance with which the root is not positive. -/
theorem C72_fold_refuses {eps : ℝ} {scale bias mean var : List ℝ} :
    foldBatchnorm eps scale bias mean var = none ↔
      ¬ (bias.length = scale.length ∧ mean.length = scale.length ∧ var.length = scale.length) ∨
        ∃ v ∈ var, v + eps ≤ 0 := by
  unfold foldBatchnorm
  split_ifs with h1 h2
  · simp only [h1, not_true_eq_false, false_or, false_iff, not_exists, not_and, not_le, true_and]
    exact h2
  · simp only [true_iff]
    right
    push Not at h2
    exact h2
  · simp [h1]

/-- **C72, the error of the fixed-point result.** Let `q` stand for the real `x` with an error of at most `e`, and let the
folded factor `m` and summand `b` be rounded to the scales `2^κ` and `2^(2κ)` as in `C71_planned_partial`. Then the
integer the circuit proves differs from `2^κ (x m + b)` by at most one for the final division, plus the error of the
product. -/
theorem C72_fixed_point_error (κ : Nat) (q mq bq : Int) (x m b e : ℝ) (hq : |(q : ℝ) - 2 ^ κ * x| ≤ e)
    (hm : |(mq : ℝ) - (2 ^ κ) ^ 1 * m| ≤ 1 / 2) (hb : |(bq : ℝ) - (2 ^ κ) ^ 2 * b| ≤ 1 / 2) :
    |((postSpec true κ false (q * mq + bq) : Int) : ℝ) - 2 ^ κ * (x * m + b)| ≤
      1 + e * (|m| + 1 / 2 / 2 ^ κ) + |x| / 2 + 1 / 2 / 2 ^ κ := by
  have ha : (0 : ℝ) < 2 ^ κ := by positivity
  rw [pow_one] at hm
  set A : ℝ := 2 ^ κ with hA
  have hfl : ∀ z : Int, |((z / 2 ^ κ : Int) : ℝ) - (z : ℝ) / A| ≤ 1 := by
    intro z
    have h1 : z / 2 ^ κ * 2 ^ κ ≤ z := Int.ediv_mul_le z (by positivity)
    have h2 : z < (z / 2 ^ κ + 1) * 2 ^ κ := Int.lt_ediv_add_one_mul_self z (by positivity)
    have h1' : ((z / 2 ^ κ : Int) : ℝ) * A ≤ z := by rw [hA]; exact_mod_cast h1
    have h2' : (z : ℝ) < (((z / 2 ^ κ : Int) : ℝ) + 1) * A := by rw [hA]; exact_mod_cast h2
    rw [abs_le]
    constructor
    · have : (z : ℝ) / A < ((z / 2 ^ κ : Int) : ℝ) + 1 := by rw [div_lt_iff₀ ha]; exact h2'
      linarith
    · have : ((z / 2 ^ κ : Int) : ℝ) ≤ (z : ℝ) / A := by rw [le_div_iff₀ ha]; exact h1'
      linarith
  have hnum : |((q * mq + bq : Int) : ℝ) - A * (A * (x * m + b))| ≤ e * (A * |m| + 1 / 2) + A * |x| / 2 + 1 / 2 := by
    have e1 : ((q * mq + bq : Int) : ℝ) - A * (A * (x * m + b)) =
        ((q : ℝ) - A * x) * (mq : ℝ) + A * x * ((mq : ℝ) - A * m) + ((bq : ℝ) - A ^ 2 * b) := by push_cast; ring
    rw [e1]
    have hmq : |(mq : ℝ)| ≤ A * |m| + 1 / 2 := by
      calc |(mq : ℝ)| = |((mq : ℝ) - A * m) + A * m| := by ring_nf
        _ ≤ |(mq : ℝ) - A * m| + |A * m| := abs_add_le _ _
        _ ≤ 1 / 2 + A * |m| := by rw [abs_mul, abs_of_pos ha]; linarith
        _ = _ := by ring
    have he : 0 ≤ e := (abs_nonneg _).trans hq
    calc _ ≤ |((q : ℝ) - A * x) * (mq : ℝ) + A * x * ((mq : ℝ) - A * m)| + |(bq : ℝ) - A ^ 2 * b| := abs_add_le _ _
      _ ≤ |((q : ℝ) - A * x) * (mq : ℝ)| + |A * x * ((mq : ℝ) - A * m)| + 1 / 2 := by
          have := abs_add_le (((q : ℝ) - A * x) * (mq : ℝ)) (A * x * ((mq : ℝ) - A * m))
          linarith
      _ ≤ e * (A * |m| + 1 / 2) + A * |x| / 2 + 1 / 2 := by
          have h1 : |((q : ℝ) - A * x) * (mq : ℝ)| ≤ e * (A * |m| + 1 / 2) := by
            rw [abs_mul]; exact mul_le_mul hq hmq (abs_nonneg _) he
          have h2 : |A * x * ((mq : ℝ) - A * m)| ≤ A * |x| * (1 / 2) := by
            rw [abs_mul, abs_mul, abs_of_pos ha]
            exact mul_le_mul_of_nonneg_left hm (by positivity)
          linarith
  have hdiv : |((q * mq + bq : Int) : ℝ) / A - A * (x * m + b)| ≤
      e * (|m| + 1 / 2 / A) + |x| / 2 + 1 / 2 / A := by
    have e1 : ((q * mq + bq : Int) : ℝ) / A - A * (x * m + b) =
        (((q * mq + bq : Int) : ℝ) - A * (A * (x * m + b))) / A := by field_simp
    rw [e1, abs_div, abs_of_pos ha, div_le_iff₀ ha]
    refine hnum.trans (le_of_eq ?_)
    field_simp
  have hps : postSpec true κ false (q * mq + bq) = (q * mq + bq) / 2 ^ κ := by simp [postSpec, rescaleSpec]
  rw [hps]
  have := hfl (q * mq + bq)
  calc _ = |(((q * mq + bq) / 2 ^ κ : Int) : ℝ) - ((q * mq + bq : Int) : ℝ) / A +
        (((q * mq + bq : Int) : ℝ) / A - A * (x * m + b))| := by ring_nf
    _ ≤ _ := by
      refine (abs_add_le _ _).trans ?_
      linarith

/-! ## The hypotheses are met -/

/-- Two channels of 2×2 entries. -/
def bnX : Arr Int := ⟨[1, 2, 2, 2], [1, -2, 3, 4, 5, 6, -7, 8]⟩
def bnM : Arr Int := ⟨[2], [10, -20]⟩
def bnB : Arr Int := ⟨[2], [100, 7]⟩

example : bnX.WF ∧ 2 ≤ bnX.shape.length ∧ bnX.shape.getD 1 0 = bnM.data.length ∧
    (∀ d ∈ bnX.shape, d ≠ 0) ∧
    ∀ u ∈ bnX.data, ∀ v ∈ bnM.data, ∀ g ∈ bnB.data, postRange true 4 8 true (u * v + g) := by
  refine ⟨rfl, by decide, rfl, by decide, ?_⟩
  simp only [postRange]; decide +kernel

example : foldBatchnorm 1 [2] [3] [5] [3] = some ([2 / Real.sqrt 4], [3 - 5 * (2 / Real.sqrt 4)]) := by
  unfold foldBatchnorm
  norm_num

example : |((3 : Int) : ℝ) - 2 ^ 1 * (3 / 2)| ≤ 0 ∧ |((1 : Int) : ℝ) - (2 ^ 1) ^ 1 * (1 / 2)| ≤ 1 / 2 ∧
    |((4 : Int) : ℝ) - (2 ^ 1) ^ 2 * 1| ≤ 1 / 2 := by norm_num

end JST.Props
