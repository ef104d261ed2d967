import Verif.Props.Blocks
import Verif.Props.Softmax

/-!
# LayerNormalization: what an accepted proof fixes, and what it leaves to the prover

`reach` and `AcceptedInt` are those of the earlier layers: a range check of `n` bits with chunks of `c` bits accepts
exactly the integers `k` with `-(reach c n - 2 ^ n) ≤ k < 2 ^ n`, and `reach c n = 2 ^ n` when `c` divides `n`.
-/

set_option linter.unusedSectionVars false

namespace JST.Props

open JST.Shape JST.Layers JST.Spec

section

variable {p : Nat} [Fact p.Prime] {T : Tables (ZMod p)}

/-! ## Statements -/

/-- What is known of one entry: input `t.1` with coefficients `t.2.1` and `t.2.2`, normalised value `w.1`, output `w.2`,
against mean `m` and inverse deviation `s`. -/
structure NormElem (c : Nat) (k : NormConsts) (m s : Int) (t : Int × Int × Int) (w : Int × Int) : Prop where
  out : AcceptedInt c k.nBits (w.2 + 2 ^ (k.nBits - 1))
  norm : AcceptedInt c (k.normBits + 1) (w.1 + 2 ^ k.normBits)
  quot : AcceptedInt c k.kappa ((t.1 - m) * s - 2 ^ k.kappa * w.1)
  close : |w.2 * 2 ^ k.kappa - (w.1 * t.2.1 + t.2.2)| ≤ k.tol + (reach c k.tolBits - 2 ^ k.tolBits)

/-- What is known of one block: the outputs follow the inputs for *some* inverse deviation `s`, tied to the variance
only by an upper bound. -/
def NormRel (p c : Nat) (k : NormConsts) (varBits : Nat) (gamma beta l : List Int) (o : List (ZMod p)) : Prop :=
  o.length = l.length ∧ ∃ (m s : Int) (w : List (Int × Int)),
    AcceptedInt c k.nBits s ∧
    AcceptedInt c (Nat.clog 2 (2 * l.length + 1)) (l.sum - l.length * m + l.length) ∧
    List.Forall₂ (NormElem c k m s) (l.zip (gamma.zip beta)) w ∧
    AcceptedInt c varBits (w.map fun q => q.1 ^ 2).sum ∧
    o = w.map fun q => (q.2 : ZMod p)

/-- The field is large enough for inputs up to `B`, scales up to `Γ` and offsets up to `Β`. -/
structure NormFits (p c : Nat) (k : NormConsts) (n varBits : Nat) (B Γ Β : Int) : Prop where
  mean : n * B + n * (reach c (k.nBits + 1) + 2 ^ k.nBits) + n + reach c (Nat.clog 2 (2 * n + 1)) < p
  quot : (B + (reach c (k.nBits + 1) + 2 ^ k.nBits)) * reach c k.nBits +
    2 ^ k.kappa * (reach c (k.normBits + 1) + 2 ^ k.normBits) + reach c k.kappa < p
  elem : (reach c k.nBits + 2 ^ (k.nBits - 1)) * 2 ^ k.kappa +
    ((reach c (k.normBits + 1) + 2 ^ k.normBits) * Γ + Β) + k.tol + reach c k.tolBits < p
  var : n * (reach c (k.normBits + 1) + 2 ^ k.normBits) ^ 2 + reach c varBits < p

/-! ## Soundness -/

theorem sound_divInner {rc : RangeCtx} (hT : IsRangeTable T rc) (hc : 0 < rc.chunk) {κ s : Nat} (x dv dvs sh : ZMod p) :
    Sound T (divPow2Inner rc x dv dvs κ s sh true) (fun out => ∃ r : Int, AcceptedInt rc.chunk κ r ∧
      dvs + x = dv * (out + sh) + (r : ZMod p)) := by
  unfold divPow2Inner uIntDiv uMod
  refine sound_hint2.bind fun q _ => sound_hint2.bind fun r _ => Sound.assertEq.bind fun _ he =>
    (sound_rangeCheckInt hT hc _ _).bind fun _ hr => ?_
  obtain ⟨k, hk, e⟩ := hr
  simp only [if_true]
  refine (sound_rangeCheckInt hT hc _ _).bind fun _ _ => Sound.pure ⟨k, hk, ?_⟩
  rw [he, e]; ring

theorem accepted_shift {c n : Nat} {k d : Int} (hd : 0 ≤ d) (h : AcceptedInt c n k) : |k - d| ≤ reach c n + d := by
  have := accepted_abs h
  have h2 := abs_sub k d
  rw [abs_of_nonneg hd] at h2
  linarith

theorem NormConsts.shift_eq (k : NormConsts) : (2 : Nat) ^ k.shiftTotal = 2 ^ k.kappa * 2 ^ k.shiftExp := by
  rw [← pow_add]; congr 1; unfold NormConsts.shiftExp NormConsts.shiftTotal; omega

theorem sound_normElem {rc : RangeCtx} (hT : IsRangeTable T rc) (hc : 0 < rc.chunk) {k : NormConsts} {n vb : Nat}
    {B Γ Β : Int} (hF : NormFits p rc.chunk k n vb B Γ Β) {m s : Int} (hs : |s| ≤ reach rc.chunk k.nBits)
    (hm : |m| ≤ reach rc.chunk (k.nBits + 1) + 2 ^ k.nBits) (y : ZMod p) {t : Int × Int × Int} (h1 : |t.1| ≤ B)
    (h2 : |t.2.1| ≤ Γ) (h3 : |t.2.2| ≤ Β) :
    Sound T (normElem rc k (m : ZMod p) (s : ZMod p) (y, (t.1 : ZMod p), (t.2.1 : ZMod p), (t.2.2 : ZMod p)))
      (fun q => ∃ w : Int × Int, NormElem rc.chunk k m s t w ∧ y = (w.2 : ZMod p) ∧ q = ((w.1 ^ 2 : Int) : ZMod p)) := by
  unfold normElem
  dsimp only
  refine (sound_rangeCheckInt hT hc _ _).bind fun _ ⟨a, ha, ea⟩ => ?_
  refine (sound_divInner hT hc _ _ _ _).bind fun N ⟨r, hr, er⟩ => ?_
  refine (sound_rangeCheckInt hT hc _ _).bind fun _ ⟨b, hb, eb⟩ => ?_
  refine (sound_rangeCheckInt hT hc _ _).bind fun _ ⟨d, hd, ed⟩ => ?_
  refine (sound_rangeCheckInt hT hc _ _).bind fun _ ⟨e, he, ee⟩ => Sound.pure ?_
  have hy : y = ((a - 2 ^ (k.nBits - 1) : Int) : ZMod p) := by
    push_cast; push_cast at ea; rw [← ea]; ring
  have hN : N = ((b - 2 ^ k.normBits : Int) : ZMod p) := by
    push_cast; push_cast at eb; rw [← eb]; ring
  have by' := accepted_shift (d := 2 ^ (k.nBits - 1)) (by positivity) ha
  have bN := accepted_shift (d := 2 ^ k.normBits) (by positivity) hb
  generalize hYe : a - 2 ^ (k.nBits - 1) = Y at *
  generalize hWe : b - 2 ^ k.normBits = W at *
  subst hy hN
  have hα : (0 : Int) ≤ 2 ^ k.kappa := by positivity
  have br := accepted_abs hr
  have b1 : |(t.1 - m) * s| ≤ (B + (reach rc.chunk (k.nBits + 1) + 2 ^ k.nBits)) * reach rc.chunk k.nBits :=
    abs_mul_le (le_trans (abs_sub _ _) (by linarith)) hs
  have b2 : |2 ^ k.kappa * W| ≤ 2 ^ k.kappa * (reach rc.chunk (k.normBits + 1) + 2 ^ k.normBits) :=
    abs_mul_le (abs_of_nonneg hα).le bN
  have b3 : |Y * 2 ^ k.kappa| ≤ (reach rc.chunk k.nBits + 2 ^ (k.nBits - 1)) * 2 ^ k.kappa :=
    abs_mul_le by' (abs_of_nonneg hα).le
  have b4 : |W * t.2.1| ≤ (reach rc.chunk (k.normBits + 1) + 2 ^ k.normBits) * Γ := abs_mul_le bN h2
  have hq : (t.1 - m) * s - 2 ^ k.kappa * W = r := by
    refine int_eq_of_cast_eq (p := p) ?_ ?_
    · rw [NormConsts.shift_eq] at er
      push_cast at er ⊢
      linear_combination er
    · have := abs_sub ((t.1 - m) * s - 2 ^ k.kappa * W) r
      have := abs_sub ((t.1 - m) * s) (2 ^ k.kappa * W)
      linarith [hF.quot]
  have bt : |((k.tol : Nat) : Int)| = k.tol := abs_of_nonneg (by positivity)
  have bd := abs_sub (Y * 2 ^ k.kappa) (W * t.2.1 + t.2.2)
  have bd' := abs_add_le (W * t.2.1) t.2.2
  have hd' : Y * 2 ^ k.kappa - (W * t.2.1 + t.2.2) + k.tol = d := by
    refine int_eq_of_cast_eq (p := p) ?_ ?_
    · push_cast at ed ⊢
      linear_combination ed
    · have := abs_sub (Y * 2 ^ k.kappa - (W * t.2.1 + t.2.2) + k.tol) d
      have := abs_add_le (Y * 2 ^ k.kappa - (W * t.2.1 + t.2.2)) k.tol
      have := accepted_abs hd
      linarith [hF.elem]
  have he' : k.tol - (Y * 2 ^ k.kappa - (W * t.2.1 + t.2.2)) = e := by
    refine int_eq_of_cast_eq (p := p) ?_ ?_
    · push_cast at ee ⊢
      linear_combination ee
    · have := abs_sub (k.tol - (Y * 2 ^ k.kappa - (W * t.2.1 + t.2.2))) e
      have := abs_sub (k.tol : Int) (Y * 2 ^ k.kappa - (W * t.2.1 + t.2.2))
      have := accepted_abs he
      linarith [hF.elem]
  refine ⟨(W, Y), ⟨?_, ?_, ?_, ?_⟩, rfl, ?_⟩
  · rwa [← hYe, sub_add_cancel]
  · rwa [← hWe, sub_add_cancel]
  · rwa [hq]
  · have hd1 := (accepted_iff.1 hd).1
    have he1 := (accepted_iff.1 he).1
    dsimp only
    rw [abs_le]
    constructor <;> linarith
  · push_cast; ring

theorem unzip_norm {c : Nat} {k : NormConsts} {m s : Int} : ∀ {t : List (Int × Int × Int)} {ys sq : List (ZMod p)}
    (_ : ys.length = t.length), List.Forall₂ (fun (a : ZMod p × Int × Int × Int) q => ∃ w : Int × Int,
      NormElem c k m s a.2 w ∧ a.1 = (w.2 : ZMod p) ∧ q = ((w.1 ^ 2 : Int) : ZMod p)) (ys.zip t) sq →
    ∃ w : List (Int × Int), List.Forall₂ (NormElem c k m s) t w ∧ ys = (w.map fun q => (q.2 : ZMod p)) ∧
      sq.sum = (((w.map fun q => q.1 ^ 2).sum : Int) : ZMod p)
  | [], [], _, _, h => by
    cases h
    exact ⟨[], .nil, rfl, by simp⟩
  | t :: ts, y :: ys, _, hl, h => by
    rw [List.zip_cons_cons] at h
    obtain ⟨q, sq, ⟨w, h1, h2, h3⟩, h', rfl⟩ := List.forall₂_cons_left_iff.1 h
    obtain ⟨ws, k1, k2, k3⟩ := unzip_norm (by simpa using hl) h'
    dsimp only at h2
    refine ⟨w :: ws, .cons h1 k1, by rw [h2, k2]; rfl, ?_⟩
    rw [List.sum_cons, List.map_cons, List.sum_cons, k3, h3, Int.cast_add]

theorem cast_zip3 (l g b : List Int) :
    (l.map fun z : Int => (z : ZMod p)).zip ((g.map fun z : Int => (z : ZMod p)).zip (b.map fun z : Int => (z : ZMod p))) =
      (l.zip (g.zip b)).map fun t => ((t.1 : ZMod p), (t.2.1 : ZMod p), (t.2.2 : ZMod p)) := by
  rw [List.zip_map, List.zip_map]; rfl

theorem sum_sq_le {c : Nat} {k : NormConsts} {m s : Int} : ∀ {t : List (Int × Int × Int)} {w : List (Int × Int)},
    List.Forall₂ (NormElem c k m s) t w →
    |(w.map fun q => q.1 ^ 2).sum| ≤ t.length * (reach c (k.normBits + 1) + 2 ^ k.normBits) ^ 2
  | [], [], _ => by simp
  | t :: ts, w :: ws, h => by
    obtain ⟨h1, h2⟩ := List.forall₂_cons.1 h
    have ih := sum_sq_le h2
    have hb := accepted_shift (d := 2 ^ k.normBits) (by positivity) h1.norm
    rw [add_sub_cancel_right] at hb
    have hb2 := abs_mul_le hb hb
    simp only [List.map_cons, List.sum_cons, List.length_cons]
    have := abs_add_le (w.1 ^ 2) (ws.map fun q => q.1 ^ 2).sum
    rw [← pow_two, ← pow_two] at hb2
    push_cast
    linarith

theorem sound_normBlock {hint : List (ZMod p) → Except Err (List (ZMod p))} {rc : RangeCtx} (hT : IsRangeTable T rc)
    (hc : 0 < rc.chunk) {k : NormConsts} {vt vb : Nat} {B Γ Β : Int} {gamma beta l : List Int}
    (hF : NormFits p rc.chunk k l.length vb B Γ Β) (hg : gamma.length = l.length) (hb : beta.length = l.length)
    (hB : ∀ u ∈ l, |u| ≤ B) (hΓ : ∀ u ∈ gamma, |u| ≤ Γ) (hΒ : ∀ u ∈ beta, |u| ≤ Β) :
    Sound T (normBlock hint rc k vt vb (gamma.map fun z : Int => (z : ZMod p)) (beta.map fun z : Int => (z : ZMod p))
      (l.map fun z : Int => (z : ZMod p))) (NormRel p rc.chunk k vb gamma beta l) := by
  unfold normBlock
  dsimp only
  refine Sound.newHint.bind fun out hout => ?_
  rw [List.length_map] at hout
  refine (sound_rangeCheckInt hT hc _ _).bind fun _ ⟨s, hs, es⟩ => ?_
  refine (sound_rangeCheckInt hT hc _ _).bind fun _ ⟨d, hd, ed⟩ => ?_
  refine (sound_rangeCheckInt hT hc _ _).bind fun _ ⟨a, ha, ea⟩ => ?_
  rw [List.length_map] at *
  generalize hme : out.getD l.length 0 = mean at *
  generalize hie : out.getD (l.length + 1) 0 = inv at *
  have hmean : mean = ((a - 2 ^ k.nBits : Int) : ZMod p) := by
    push_cast; push_cast at ea; rw [← ea]; ring
  have bm := accepted_shift (d := 2 ^ k.nBits) (by positivity) ha
  generalize a - 2 ^ k.nBits = m at hmean bm
  clear ea ha hme hie
  subst hmean es
  rw [cast_zip3, ← List.map_id (out.take l.length), List.zip_map, List.map_id, collectG_map]
  have hlen : (out.take l.length).length = (l.zip (gamma.zip beta)).length := by
    simp only [List.length_take, List.length_zip, hg, hb]; omega
  refine Sound.bind (sound_collectG (Q := fun (q : ZMod p × Int × Int × Int) z => ∃ w : Int × Int,
    NormElem rc.chunk k m s q.2 w ∧ q.1 = (w.2 : ZMod p) ∧ z = ((w.1 ^ 2 : Int) : ZMod p)) _ ?_) ?_
  · rintro ⟨y, t⟩ hq
    have ht := (List.of_mem_zip hq).2
    have h1 := (List.of_mem_zip ht).1
    have h2 := List.of_mem_zip (List.of_mem_zip ht).2
    exact sound_normElem hT hc hF (accepted_abs hs).le bm y (hB _ h1) (hΓ _ h2.1) (hΒ _ h2.2)
  intro sq hsq
  obtain ⟨w, k1, k2, k3⟩ := unzip_norm hlen hsq
  refine (sound_rangeCheckInt hT hc _ _).bind fun _ ⟨e, he, ee⟩ => Sound.pure ?_
  have hzl : (l.zip (gamma.zip beta)).length = l.length := by simp [hg, hb]
  refine ⟨by rw [hlen, hzl], m, s, w, hs, ?_, k1, ?_, k2⟩
  · have : l.sum - l.length * m + l.length = d := by
      refine int_eq_of_cast_eq (p := p) ?_ ?_
      · rw [sum_cast] at ed
        push_cast; push_cast at ed; exact ed
      · have h1 := abs_sub (l.sum - l.length * m + l.length) d
        have h2 := abs_add_le (l.sum - l.length * m) (l.length : Int)
        have h3 := abs_sub l.sum (l.length * m)
        have hn : |(l.length : Int)| = l.length := abs_of_nonneg (by positivity)
        have h4 := abs_mul_le hn.le bm
        have h5 := sum_abs_le hB
        have := accepted_abs hd
        linarith [hF.mean]
    rwa [this]
  · have : (w.map fun q => q.1 ^ 2).sum = e := by
      refine int_eq_of_cast_eq (p := p) ?_ ?_
      · rw [← k3, ← ee]; ring
      · have h1 := abs_sub (w.map fun q => q.1 ^ 2).sum e
        have h2 := sum_sq_le k1
        rw [hzl] at h2
        have := accepted_abs he
        linarith [hF.var]
    rwa [this]

/-- The layer once its parameters are accepted. -/
theorem layerNorm_eq {hint : List (ZMod p) → Except Err (List (ZMod p))} {rc : RangeCtx} {κ nb mnb ax : Nat} {axis : Int}
    {gamma beta : List Int} {x : Arr (ZMod p)} (hκ : κ < 64) (hax : AxisOf x.shape.length axis ax)
    (hg : gamma.length = (x.shape.drop ax).prod) (hb : beta.length = (x.shape.drop ax).prod)
    (ht : normTol κ gamma * 2 + 1 ≤ 2 ^ 63) {Q : Arr (ZMod p) → Prop} :
    let f : Arr (ZMod p) → G (ZMod p) (Arr (ZMod p)) := blockMap (normBlock hint rc ⟨κ, nb, mnb, normTol κ gamma⟩
      (normVarTol κ (x.shape.drop ax).prod) (normVarBits κ (x.shape.drop ax).prod) (gamma.map fun z : Int => (z : ZMod p))
      (beta.map fun z : Int => (z : ZMod p))) ax
    (Sound T (f x) Q → Sound T (layerNormLayer hint rc κ nb mnb axis gamma beta x) Q) ∧
    (Complete T (f x) Q → Complete T (layerNormLayer hint rc κ nb mnb axis gamma beta x) Q) ∧
    (Forge T (f x) Q → Forge T (layerNormLayer hint rc κ nb mnb axis gamma beta x) Q) := by
  intro f
  have hn := (normAxis_ok' _ _ _).2 hax
  have e : (liftR (normAxis x.shape.length axis) : G (ZMod p) Nat) = Pure.pure ax := by rw [hn]; rfl
  have ht1 : normTol κ gamma * 2 + 1 < 2 ^ 64 := lt_of_le_of_lt ht (by norm_num)
  have ht2 : normTol κ gamma < 2 ^ 64 := lt_of_le_of_lt (by omega) ht1
  have hstep : ∀ b, b = ax → (if gamma.length ≠ (x.shape.drop b).prod ∨ beta.length ≠ (x.shape.drop b).prod then
        throwErr "gamma/beta length mismatch"
      else if normTol κ gamma ≥ 2 ^ 64 then throwErr "per-element tolerance overflow"
      else if normTol κ gamma * 2 + 1 ≥ 2 ^ 64 then throwErr "per-element tolerance bit-width overflow"
      else if normTol κ gamma * 2 + 1 > 2 ^ 63 then throwErr "per-element tolerance bit-width exceeds 63 bits"
      else blockMap (normBlock hint rc ⟨κ, nb, mnb, normTol κ gamma⟩ (normVarTol κ (x.shape.drop b).prod)
        (normVarBits κ (x.shape.drop b).prod) (gamma.map fun z : Int => (z : ZMod p))
        (beta.map fun z : Int => (z : ZMod p))) b x) = f x := by
    rintro b rfl
    rw [if_neg (by rw [hg, hb]; simp), if_neg (not_le.2 ht2), if_neg (not_le.2 ht1), if_neg (not_lt.2 ht)]
  unfold layerNormLayer
  rw [if_neg (by omega), e]
  refine ⟨fun h => ?_, fun h => ?_, fun h => ?_⟩
  · exact Sound.bind (P := fun b => b = ax) (Sound.pure rfl) fun b hb' => by rw [hstep b hb']; exact h
  · exact Complete.bind (P := fun b => b = ax) (Complete.pure rfl) fun b hb' => by rw [hstep b hb']; exact h
  · exact Forge.bind (P := fun b => b = ax) (Forge.pure rfl) (fun b hb' => hb') (by rw [hstep ax rfl]; exact h)

/-- **C62.** What a proof of LayerNormalization establishes: in every block the outputs are within the tolerance of
`γ N + β`, where `N` is `(x - mean) · s` rounded down after scaling, the mean is right to within one unit, and `s` is
*some* number of the permitted width for which the sum of squares stays below `2 ^ varBits`. Missing from the property as
users read it: `s` need not be the inverse standard deviation; see `C62_layernorm_unsound`. -/
theorem C62_layernorm_sound_partial {hint : List (ZMod p) → Except Err (List (ZMod p))} {rc : RangeCtx}
    (hT : IsRangeTable T rc) (hc : 0 < rc.chunk) {κ nb mnb ax : Nat} {axis : Int} {gamma beta : List Int} (hκ : κ < 64)
    (x : Arr Int) (hw : x.WF) (hax : AxisOf x.shape.length axis ax) (hg : gamma.length = (x.shape.drop ax).prod)
    (hb : beta.length = (x.shape.drop ax).prod) (ht : normTol κ gamma * 2 + 1 ≤ 2 ^ 63) {B Γ Β : Int}
    (hF : NormFits p rc.chunk ⟨κ, nb, mnb, normTol κ gamma⟩ (x.shape.drop ax).prod (normVarBits κ (x.shape.drop ax).prod) B Γ Β)
    (hB : ∀ u ∈ x.data, |u| ≤ B) (hΓ : ∀ u ∈ gamma, |u| ≤ Γ) (hΒ : ∀ u ∈ beta, |u| ≤ Β) :
    Sound T (layerNormLayer hint rc κ nb mnb axis gamma beta (castArr p x))
      (IsBlockwise ax x (NormRel p rc.chunk ⟨κ, nb, mnb, normTol κ gamma⟩ (normVarBits κ (x.shape.drop ax).prod) gamma beta)) := by
  refine (layerNorm_eq (x := castArr p x) hκ hax hg hb ht).1 ?_
  refine sound_blockMap hw (fun _ _ h => h.1) fun l hl hm => ?_
  exact sound_normBlock hT hc (by rw [hl]; exact hF) (by rw [hg, hl]) (by rw [hb, hl]) (fun u hu => hB u (hm u hu)) hΓ hΒ

/-! ## The forgery -/

theorem forge_divInner_zero {rc : RangeCtx} (hT : IsRangeTable T rc) {κ s : Nat} (h1 : RangeCallable rc κ)
    (h2 : RangeCallable rc (s + 1)) {x dvs : ZMod p} (hx : x = 0) (hd : dvs = ((2 ^ κ * 2 ^ s : Nat) : ZMod p)) :
    Forge T (divPow2Inner rc x ((2 ^ κ : Nat) : ZMod p) dvs κ s ((2 ^ s : Nat) : ZMod p) true) (fun out => out = 0) := by
  subst hx hd
  unfold divPow2Inner uIntDiv uMod
  refine (forge_hint2 _ _ _ ((2 ^ s : Nat) : ZMod p)).bind (fun _ h => h) ?_
  refine (forge_hint2 _ _ _ 0).bind (fun _ h => h) ?_
  refine Forge.seq (Det.assertEq (by push_cast; ring)).forge ?_
  refine Forge.seq (h1.forge hT (k := 0) (accepted_nonneg le_rfl (by positivity)) (by simp)) ?_
  simp only [if_true]
  refine Forge.seq (h2.forge hT (k := 2 ^ s) (accepted_nonneg (by positivity) ?_) (by push_cast; rfl)) (Forge.pure (sub_self _))
  exact pow_lt_pow_right₀ (by norm_num) (by omega)

theorem NormConsts.tol_lt (k : NormConsts) : (2 * (k.tol : Int)) + 1 ≤ 2 ^ k.tolBits := by
  have := Nat.le_pow_clog (b := 2) (by norm_num) (2 * k.tol + 1)
  unfold NormConsts.tolBits
  exact_mod_cast this

/-- The range checks of the layer are within the limits of the range check. -/
structure NormCallable (rc : RangeCtx) (k : NormConsts) (n varBits : Nat) : Prop where
  bits : RangeCallable rc k.nBits
  bits1 : RangeCallable rc (k.nBits + 1)
  mean : RangeCallable rc (Nat.clog 2 (2 * n + 1))
  scale : RangeCallable rc k.kappa
  shift : RangeCallable rc (k.shiftExp + 1)
  norm : RangeCallable rc (k.normBits + 1)
  tol : RangeCallable rc k.tolBits
  var : RangeCallable rc varBits

theorem half_pow {n : Nat} (h : 0 < n) : (2 : Int) ^ n = 2 ^ (n - 1) + 2 ^ (n - 1) := by
  obtain ⟨m, rfl⟩ := Nat.exists_eq_add_of_lt h
  simp [pow_succ]; ring

theorem forge_normElem {rc : RangeCtx} (hT : IsRangeTable T rc) {k : NormConsts} {n vb : Nat} (hC : NormCallable rc k n vb)
    {mean x g : ZMod p} {b y : Int} (h1 : -2 ^ (k.nBits - 1) ≤ y) (h2 : y < 2 ^ (k.nBits - 1))
    (h3 : |y * 2 ^ k.kappa - b| ≤ k.tol) :
    Forge T (normElem rc k mean 0 ((y : ZMod p), x, g, (b : ZMod p))) (fun q => q = 0) := by
  have ht := NormConsts.tol_lt k
  have hh := half_pow hC.bits.n_pos
  obtain ⟨h4, h5⟩ := abs_le.1 h3
  unfold normElem
  dsimp only
  refine Forge.seq (hC.bits.forge hT (k := y + 2 ^ (k.nBits - 1)) (accepted_nonneg (by linarith) (by linarith))
    (by push_cast; ring)) ?_
  refine (forge_divInner_zero hT hC.scale hC.shift (by ring) (by rw [NormConsts.shift_eq])).bind (fun _ h => h) ?_
  refine Forge.seq (hC.norm.forge hT (k := 2 ^ k.normBits) (accepted_nonneg (by positivity)
    (pow_lt_pow_right₀ (by norm_num) (by omega))) (by push_cast; ring)) ?_
  refine Forge.seq (hC.tol.forge hT (k := y * 2 ^ k.kappa - b + k.tol) (accepted_nonneg (by linarith) (by linarith))
    (by push_cast; ring)) ?_
  refine Forge.seq (hC.tol.forge hT (k := k.tol - (y * 2 ^ k.kappa - b)) (accepted_nonneg (by linarith) (by linarith))
    (by push_cast; ring)) ?_
  exact Forge.pure (by ring)

/-- The rounded-down mean passes both checks on it. -/
theorem floor_mean {l : List Int} {A : Int} (h : ∀ u ∈ l, -A ≤ u ∧ u < A) (hpos : 0 < A) :
    ∃ m : Int, -A ≤ m ∧ m < A ∧ 0 ≤ l.sum - l.length * m + l.length ∧ l.sum - l.length * m + l.length ≤ 2 * l.length := by
  have hlo : ∀ {l : List Int}, (∀ u ∈ l, -A ≤ u ∧ u < A) → -A * l.length ≤ l.sum ∧ l.sum ≤ (A - 1) * l.length := by
    intro l
    induction l with
    | nil => simp
    | cons u l ih =>
      intro h
      have h1 := h u (by simp)
      have h2 := ih fun v hv => h v (by simp [hv])
      simp only [List.sum_cons, List.length_cons]
      push_cast
      constructor <;> nlinarith [h1.1, h1.2, h2.1, h2.2]
  obtain ⟨h1, h2⟩ := hlo h
  rcases Nat.eq_zero_or_pos l.length with h0 | h0
  · have : l = [] := List.length_eq_zero_iff.1 h0
    subst this
    exact ⟨0, by linarith, hpos, by simp, by simp⟩
  have hn : (0 : Int) < l.length := by exact_mod_cast h0
  refine ⟨l.sum / l.length, (Int.le_ediv_iff_mul_le hn).2 h1, ?_, ?_, ?_⟩
  · have : l.sum / l.length ≤ A - 1 := Int.lt_add_one_iff.1 ((Int.ediv_lt_iff_lt_mul hn).2 (by nlinarith))
    linarith
  · have := Int.mul_ediv_add_emod l.sum l.length
    have := Int.emod_nonneg l.sum hn.ne'
    linarith
  · have := Int.mul_ediv_add_emod l.sum l.length
    have := Int.emod_lt_of_pos l.sum hn
    linarith

theorem forge_normBlock {hint : List (ZMod p) → Except Err (List (ZMod p))} {rc : RangeCtx} (hT : IsRangeTable T rc)
    {k : NormConsts} {vt vb : Nat} {gamma beta l Y : List Int} (hC : NormCallable rc k l.length vb)
    (hB : ∀ u ∈ l, -2 ^ k.nBits ≤ u ∧ u < 2 ^ k.nBits) (hl : Y.length = l.length) (hg : gamma.length = l.length)
    (hY : List.Forall₂ (fun b y : Int => -2 ^ (k.nBits - 1) ≤ y ∧ y < 2 ^ (k.nBits - 1) ∧ |y * 2 ^ k.kappa - b| ≤ k.tol) beta Y) :
    Forge T (normBlock hint rc k vt vb (gamma.map fun z : Int => (z : ZMod p)) (beta.map fun z : Int => (z : ZMod p))
      (l.map fun z : Int => (z : ZMod p))) (fun o => o = Y.map fun z : Int => (z : ZMod p)) := by
  obtain ⟨m, m1, m2, m3, m4⟩ := floor_mean (A := 2 ^ k.nBits) hB (by positivity)
  unfold normBlock
  dsimp only
  refine (Forge.newHint hint _ ((Y.map fun z : Int => (z : ZMod p)) ++ [(m : ZMod p), 0]) (by simp [hl])).bind
    (fun _ h => h) ?_
  have e1 : ((Y.map fun z : Int => (z : ZMod p)) ++ [(m : ZMod p), 0]).take (l.map fun z : Int => (z : ZMod p)).length =
      Y.map fun z : Int => (z : ZMod p) := by
    rw [List.take_append_of_le_length (by simp [hl]), List.take_of_length_le (by simp [hl])]
  have e2 : ((Y.map fun z : Int => (z : ZMod p)) ++ [(m : ZMod p), 0]).getD (l.map fun z : Int => (z : ZMod p)).length 0 =
      (m : ZMod p) := by
    rw [List.getD_append_right _ _ _ _ (by simp [hl])]; simp [hl]
  have e3 : ((Y.map fun z : Int => (z : ZMod p)) ++ [(m : ZMod p), 0]).getD ((l.map fun z : Int => (z : ZMod p)).length + 1) 0 =
      0 := by
    rw [List.getD_append_right _ _ _ _ (by simp [hl])]; simp [hl]
  rw [e1, e2, e3, List.length_map]
  refine Forge.seq (hC.bits.forge hT (k := 0) (accepted_nonneg le_rfl (by positivity)) (by simp)) ?_
  have hcl : (2 * (l.length : Int)) + 1 ≤ 2 ^ Nat.clog 2 (2 * l.length + 1) := by
    exact_mod_cast Nat.le_pow_clog (b := 2) (by norm_num) (2 * l.length + 1)
  refine Forge.seq (hC.mean.forge hT (k := l.sum - l.length * m + l.length) (accepted_nonneg m3 (by linarith))
    (by rw [sum_cast]; push_cast; ring)) ?_
  refine Forge.seq (hC.bits1.forge hT (k := m + 2 ^ k.nBits) (accepted_nonneg (by linarith) (by rw [pow_succ]; linarith))
    (by push_cast; ring)) ?_
  rw [cast_zip3, List.zip_map, collectG_map]
  refine (forge_collectG (g := fun _ => (0 : ZMod p)) _ ?_).bind (fun _ h => h) ?_
  · intro q hq
    obtain ⟨i, hi, rfl⟩ := List.getElem_of_mem hq
    have hi' : i < Y.length ∧ i < beta.length := by
      simp only [List.length_zip] at hi; omega
    obtain ⟨k1, k2, k3⟩ := (List.forall₂_iff_get.1 hY).2 i hi'.2 hi'.1
    simp only [List.get_eq_getElem] at k1 k2 k3
    simp only [List.getElem_zip, Prod.map]
    exact forge_normElem hT hC k1 k2 k3
  refine Forge.seq (hC.var.forge hT (k := 0) (accepted_nonneg le_rfl (by positivity)) ?_) (Forge.pure rfl)
  have : ∀ n : Nat, (List.replicate n (0 : ZMod p)).sum = 0 := by intro n; simp
  rw [List.map_const', this]
  simp

/-- **C62 fails.** The check of the variance allows a deviation as large as the variance itself, so a prover may set the
inverse deviation to zero. Then, for every input tensor of the permitted width, the same output can be proved: any `Y`
with `|Y α - β| ≤ tolerance`, whatever the input is. -/
theorem C62_layernorm_unsound {hint : List (ZMod p) → Except Err (List (ZMod p))} {rc : RangeCtx}
    (hT : IsRangeTable T rc) {κ nb mnb ax : Nat} {axis : Int} {gamma beta Y : List Int} (hκ : κ < 64)
    (x : Arr Int) (hw : x.WF) (hax : AxisOf x.shape.length axis ax) (hg : gamma.length = (x.shape.drop ax).prod)
    (hb : beta.length = (x.shape.drop ax).prod) (ht : normTol κ gamma * 2 + 1 ≤ 2 ^ 63)
    (hC : NormCallable rc ⟨κ, nb, mnb, normTol κ gamma⟩ (x.shape.drop ax).prod (normVarBits κ (x.shape.drop ax).prod))
    (hB : ∀ u ∈ x.data, -2 ^ nb ≤ u ∧ u < 2 ^ nb)
    (hY : List.Forall₂ (fun b y : Int => -2 ^ (nb - 1) ≤ y ∧ y < 2 ^ (nb - 1) ∧ |y * 2 ^ κ - b| ≤ normTol κ gamma) beta Y) :
    Forge T (layerNormLayer hint rc κ nb mnb axis gamma beta (castArr p x))
      (IsBlockwise ax x fun l o => o = (Y.map fun z : Int => (z : ZMod p)) ∧ o.length = l.length) := by
  refine (layerNorm_eq (x := castArr p x) hκ hax hg hb ht).2.2 ?_
  have hYl : Y.length = (x.shape.drop ax).prod := by rw [← hb, hY.length_eq]
  refine forge_blockMap (g := fun _ => Y.map fun z : Int => (z : ZMod p)) hw (fun l hl => by simp [hYl, hl]) fun l hl hm => ?_
  exact forge_normBlock hT (by rw [hl]; exact hC) (fun u hu => hB u (hm u hu)) (by rw [hYl, hl]) (by rw [hg, hl]) hY

/-! ## Completeness -/

/-- The range checks of the layer are within the limits of the range check and of the field. -/
structure NormUsable (p : Nat) (rc : RangeCtx) (k : NormConsts) (n varBits : Nat) : Prop where
  bits : RangeUsable p rc k.nBits
  bits1 : RangeUsable p rc (k.nBits + 1)
  mean : RangeUsable p rc (Nat.clog 2 (2 * n + 1))
  scale : RangeUsable p rc k.kappa
  shift : RangeUsable p rc (k.shiftExp + 1)
  norm : RangeUsable p rc (k.normBits + 1)
  tol : RangeUsable p rc k.tolBits
  var : RangeUsable p rc varBits
  div : 2 ^ k.kappa * 2 ^ (k.shiftExp + 1) ≤ p

/-- The hint returns outputs `Y`, a mean `m` and an inverse deviation `s` that meet the stated tolerances. -/
structure HonestNorm (hint : List (ZMod p) → Except Err (List (ZMod p))) (k : NormConsts) (varBits : Nat)
    (gamma beta l Y : List Int) (m s : Int) : Prop where
  ret : hint ((l.map fun z : Int => (z : ZMod p)) ++ (gamma.map fun z : Int => (z : ZMod p)) ++
    (beta.map fun z : Int => (z : ZMod p)) ++ [((2 ^ k.kappa : Nat) : ZMod p)]) =
    .ok ((Y.map fun z : Int => (z : ZMod p)) ++ [(m : ZMod p), (s : ZMod p)])
  inv : 0 ≤ s ∧ s < 2 ^ k.nBits
  mean : |l.sum - l.length * m| ≤ l.length
  meanBits : -2 ^ k.nBits ≤ m ∧ m < 2 ^ k.nBits
  elems : List.Forall₂ (fun (t : Int × Int × Int) y => -2 ^ (k.nBits - 1) ≤ y ∧ y < 2 ^ (k.nBits - 1) ∧
    -2 ^ k.normBits ≤ (t.1 - m) * s / 2 ^ k.kappa ∧ (t.1 - m) * s / 2 ^ k.kappa < 2 ^ k.normBits ∧
    |y * 2 ^ k.kappa - ((t.1 - m) * s / 2 ^ k.kappa * t.2.1 + t.2.2)| ≤ k.tol) (l.zip (gamma.zip beta)) Y
  var : (l.map fun u => ((u - m) * s / 2 ^ k.kappa) ^ 2).sum < 2 ^ varBits

theorem complete_normElem {rc : RangeCtx} (hT : IsRangeTable T rc) {k : NormConsts} {n vb : Nat}
    (hC : NormUsable p rc k n vb) {m s x g b y : Int} (hx : -2 ^ k.nBits ≤ x ∧ x < 2 ^ k.nBits)
    (hs : 0 ≤ s ∧ s < 2 ^ k.nBits) (hm : -2 ^ k.nBits ≤ m ∧ m < 2 ^ k.nBits)
    (h : -2 ^ (k.nBits - 1) ≤ y ∧ y < 2 ^ (k.nBits - 1) ∧
      -2 ^ k.normBits ≤ (x - m) * s / 2 ^ k.kappa ∧ (x - m) * s / 2 ^ k.kappa < 2 ^ k.normBits ∧
      |y * 2 ^ k.kappa - ((x - m) * s / 2 ^ k.kappa * g + b)| ≤ k.tol) :
    Complete T (normElem rc k (m : ZMod p) (s : ZMod p) ((y : ZMod p), (x : ZMod p), (g : ZMod p), (b : ZMod p)))
      (fun q => q = ((((x - m) * s / 2 ^ k.kappa) ^ 2 : Int) : ZMod p)) := by
  obtain ⟨h1, h2, h3, h4, h5⟩ := h
  have ht := NormConsts.tol_lt k
  have hh := half_pow hC.bits.n_pos
  obtain ⟨h6, h7⟩ := abs_le.1 h5
  have hE : (2 : Int) ^ (2 * k.nBits + 1) ≤ 2 ^ k.kappa * 2 ^ k.shiftExp := by
    have : (2 : Nat) ^ (2 * k.nBits + 1) ≤ 2 ^ k.kappa * 2 ^ k.shiftExp := by
      rw [← NormConsts.shift_eq]
      exact Nat.pow_le_pow_right (by norm_num) (le_max_left _ _)
    exact_mod_cast this
  have hq : (2 : Int) ^ (2 * k.nBits + 1) = 2 * (2 ^ k.nBits * 2 ^ k.nBits) := by
    rw [pow_succ, two_mul k.nBits, pow_add]; ring
  have hd : |(x - m) * s| ≤ (2 * 2 ^ k.nBits - 1) * 2 ^ k.nBits :=
    abs_mul_le (abs_le.2 ⟨by linarith [hx.1, hm.2], by linarith [hx.2, hm.1]⟩) (by rw [abs_of_nonneg hs.1]; linarith [hs.2])
  have hpow : (0 : Int) < 2 ^ k.nBits := by positivity
  obtain ⟨d1, d2⟩ := abs_le.1 hd
  unfold normElem
  dsimp only
  refine (hC.bits.completeInt hT (k := y + 2 ^ (k.nBits - 1)) (by linarith) (by linarith) (by push_cast; ring)).bind
    fun _ _ => ?_
  have e : ((x : ZMod p) - (m : ZMod p)) * (s : ZMod p) = (((x - m) * s : Int) : ZMod p) := by push_cast; ring
  rw [e, NormConsts.shift_eq]
  have hdv := complete_divPow2Inner (T := T) hT hC.scale hC.shift hC.div (x := (x - m) * s) (by nlinarith) (by nlinarith) true
  refine hdv.bind ?_
  intro N hN
  rw [hN]
  generalize (x - m) * s / 2 ^ k.kappa = W at *
  refine (hC.norm.completeInt hT (k := W + 2 ^ k.normBits) (by linarith) (by rw [pow_succ]; linarith)
    (by push_cast; ring)).bind fun _ _ => ?_
  refine (hC.tol.completeInt hT (k := y * 2 ^ k.kappa - (W * g + b) + k.tol) (by linarith) (by linarith)
    (by push_cast; ring)).bind fun _ _ => ?_
  refine (hC.tol.completeInt hT (k := k.tol - (y * 2 ^ k.kappa - (W * g + b))) (by linarith) (by linarith)
    (by push_cast; ring)).bind fun _ _ => ?_
  exact Complete.pure (by push_cast; ring)

theorem forall₂_eq_map {α β : Type} {f : α → β} : ∀ {l : List α} {o : List β}, List.Forall₂ (fun a b => b = f a) l o →
    o = l.map f
  | [], [], _ => rfl
  | a :: l, b :: o, h => by
    obtain ⟨h1, h2⟩ := List.forall₂_cons.1 h
    rw [h1, forall₂_eq_map h2]; rfl

theorem complete_normBlock {hint : List (ZMod p) → Except Err (List (ZMod p))} {rc : RangeCtx} (hT : IsRangeTable T rc)
    {k : NormConsts} {vt vb : Nat} {gamma beta l Y : List Int} {m s : Int} (hC : NormUsable p rc k l.length vb)
    (hB : ∀ u ∈ l, -2 ^ k.nBits ≤ u ∧ u < 2 ^ k.nBits) (hg : gamma.length = l.length) (hb : beta.length = l.length)
    (hH : HonestNorm hint k vb gamma beta l Y m s) :
    Complete T (normBlock hint rc k vt vb (gamma.map fun z : Int => (z : ZMod p)) (beta.map fun z : Int => (z : ZMod p))
      (l.map fun z : Int => (z : ZMod p))) (fun o => o = Y.map fun z : Int => (z : ZMod p)) := by
  have hzl : (l.zip (gamma.zip beta)).length = l.length := by simp [hg, hb]
  have hl : Y.length = l.length := by rw [← hH.elems.length_eq, hzl]
  unfold normBlock
  dsimp only
  refine (Complete.newHint hH.ret (by simp [hl])).bind ?_
  intro out hout
  rw [hout]
  have e1 : ((Y.map fun z : Int => (z : ZMod p)) ++ [(m : ZMod p), (s : ZMod p)]).take
      (l.map fun z : Int => (z : ZMod p)).length = Y.map fun z : Int => (z : ZMod p) := by
    rw [List.take_append_of_le_length (by simp [hl]), List.take_of_length_le (by simp [hl])]
  have e2 : ((Y.map fun z : Int => (z : ZMod p)) ++ [(m : ZMod p), (s : ZMod p)]).getD
      (l.map fun z : Int => (z : ZMod p)).length 0 = (m : ZMod p) := by
    rw [List.getD_append_right _ _ _ _ (by simp [hl])]; simp [hl]
  have e3 : ((Y.map fun z : Int => (z : ZMod p)) ++ [(m : ZMod p), (s : ZMod p)]).getD
      ((l.map fun z : Int => (z : ZMod p)).length + 1) 0 = (s : ZMod p) := by
    rw [List.getD_append_right _ _ _ _ (by simp [hl])]; simp [hl]
  rw [e1, e2, e3, List.length_map]
  refine (hC.bits.completeInt hT (k := s) hH.inv.1 hH.inv.2 rfl).bind fun _ _ => ?_
  have hcl : (2 * (l.length : Int)) + 1 ≤ 2 ^ Nat.clog 2 (2 * l.length + 1) := by
    exact_mod_cast Nat.le_pow_clog (b := 2) (by norm_num) (2 * l.length + 1)
  obtain ⟨a1, a2⟩ := abs_le.1 hH.mean
  refine (hC.mean.completeInt hT (k := l.sum - l.length * m + l.length) (by linarith) (by linarith)
    (by rw [sum_cast]; push_cast; ring)).bind fun _ _ => ?_
  refine (hC.bits1.completeInt hT (k := m + 2 ^ k.nBits) (by linarith [hH.meanBits.1])
    (by rw [pow_succ]; linarith [hH.meanBits.2]) (by push_cast; ring)).bind fun _ _ => ?_
  rw [cast_zip3, List.zip_map, collectG_map]
  refine Complete.bind (complete_collectG (Q := fun (q : Int × Int × Int × Int) (z : ZMod p) =>
    z = ((((q.2.1 - m) * s / 2 ^ k.kappa) ^ 2 : Int) : ZMod p)) _ ?_) ?_
  · intro q hq
    obtain ⟨i, hi, rfl⟩ := List.getElem_of_mem hq
    have hi' : i < Y.length ∧ i < (l.zip (gamma.zip beta)).length := by
      simp only [List.length_zip] at hi ⊢; omega
    have k1 := (List.forall₂_iff_get.1 hH.elems).2 i hi'.2 hi'.1
    have hi2 : i < l.length := by rw [← hzl]; exact hi'.2
    simp only [List.get_eq_getElem, List.getElem_zip] at k1
    simp only [List.getElem_zip, Prod.map]
    exact complete_normElem hT hC (hB _ (List.getElem_mem hi2)) hH.inv hH.meanBits k1
  intro sq hsq
  have hsum : sq.sum = (((l.map fun u => ((u - m) * s / 2 ^ k.kappa) ^ 2).sum : Int) : ZMod p) := by
    rw [forall₂_eq_map hsq, ← sum_cast]
    congr 1
    have e : (fun q : Int × Int × Int × Int => ((((q.2.1 - m) * s / 2 ^ k.kappa) ^ 2 : Int) : ZMod p)) =
      (fun u : Int => ((((u - m) * s / 2 ^ k.kappa) ^ 2 : Int) : ZMod p)) ∘ Prod.fst ∘ Prod.snd := rfl
    rw [e, ← List.map_map, ← List.map_map, List.map_snd_zip (by rw [hzl, hl]), List.map_fst_zip (by simp [hg, hb]),
      List.map_map]
    rfl
  refine (hC.var.completeInt hT (k := (l.map fun u => ((u - m) * s / 2 ^ k.kappa) ^ 2).sum) ?_ hH.var
    (by rw [hsum]; ring)).bind fun _ _ => Complete.pure rfl
  exact List.sum_nonneg fun a ha => by
    obtain ⟨u, -, rfl⟩ := List.mem_map.1 ha
    positivity

/-- **C62.** The honest prover succeeds, with the hint's output, on every tensor of the permitted width whose blocks the
hint handles within the stated tolerances. -/
theorem C62_layernorm_complete {hint : List (ZMod p) → Except Err (List (ZMod p))} {rc : RangeCtx}
    (hT : IsRangeTable T rc) {κ nb mnb ax : Nat} {axis : Int} {gamma beta : List Int} (hκ : κ < 64)
    (x : Arr Int) (hw : x.WF) (hax : AxisOf x.shape.length axis ax) (hg : gamma.length = (x.shape.drop ax).prod)
    (hb : beta.length = (x.shape.drop ax).prod) (ht : normTol κ gamma * 2 + 1 ≤ 2 ^ 63)
    (hC : NormUsable p rc ⟨κ, nb, mnb, normTol κ gamma⟩ (x.shape.drop ax).prod (normVarBits κ (x.shape.drop ax).prod))
    (hB : ∀ u ∈ x.data, -2 ^ nb ≤ u ∧ u < 2 ^ nb)
    (hH : ∀ lead l, InRange (x.shape.take ax) lead → IsBlock ax x lead l → ∃ Y m s,
      HonestNorm hint ⟨κ, nb, mnb, normTol κ gamma⟩ (normVarBits κ (x.shape.drop ax).prod) gamma beta l Y m s) :
    Complete T (layerNormLayer hint rc κ nb mnb axis gamma beta (castArr p x))
      (IsBlockwise ax x fun l o => o.length = l.length ∧ ∃ Y m s,
        HonestNorm hint ⟨κ, nb, mnb, normTol κ gamma⟩ (normVarBits κ (x.shape.drop ax).prod) gamma beta l Y m s ∧
        o = Y.map fun z : Int => (z : ZMod p)) := by
  refine (layerNorm_eq (x := castArr p x) hκ hax hg hb ht).2.1 ?_
  refine complete_blockMap hw (fun _ _ h => h.1) fun lead l hlead hl => ?_
  obtain ⟨Y, m, s, hh⟩ := hH lead l hlead hl
  have hlen : x.data.length = (x.shape.take ax).prod * (x.shape.drop ax).prod := by rw [take_drop_prod]; exact hw
  have hle := isBlock_unique hl (chunkAt_isBlock hw hlead)
  have hll : l.length = (x.shape.drop ax).prod := by rw [hle]; exact chunkAt_length hlen (rowMajor_lt hlead)
  have hBl : ∀ u ∈ l, -2 ^ nb ≤ u ∧ u < 2 ^ nb := fun u hu => hB u (chunkAt_mem (hle ▸ hu))
  refine (complete_normBlock hT (by rw [hll]; exact hC) hBl (by rw [hg, hll]) (by rw [hb, hll]) hh).conseq ?_
  intro o ho
  refine ⟨?_, Y, m, s, hh, ho⟩
  rw [ho, List.length_map, ← hh.elems.length_eq]
  simp [hg, hb, hll]

/-! ## Refusals -/

/-- **C62.** When the product of the block length and the squared scale is a multiple of `2 ^ 63`, it wraps to nothing in
64 bits and the layer asks for a range check of no bits: no proof exists, for any input with at least one block. -/
theorem C62_layernorm_unprovable {hint : List (ZMod p) → Except Err (List (ZMod p))} {rc : RangeCtx} {κ nb mnb ax : Nat}
    {axis : Int} {gamma beta : List Int} (hκ : κ < 64) (x : Arr (ZMod p)) (hax : AxisOf x.shape.length axis ax)
    (hg : gamma.length = (x.shape.drop ax).prod) (hb : beta.length = (x.shape.drop ax).prod)
    (ht : normTol κ gamma * 2 + 1 ≤ 2 ^ 63) (hne : ∀ d ∈ x.shape.take ax, d ≠ 0)
    (hbig : 2 ^ 63 ∣ (x.shape.drop ax).prod * 2 ^ κ * 2 ^ κ) :
    Sound T (layerNormLayer hint rc κ nb mnb axis gamma beta x) (fun _ => False) := by
  refine (layerNorm_eq (x := x) hκ hax hg hb ht).1 (sound_blockMap_false hne fun l => ?_)
  have hv : normVarBits κ (x.shape.drop ax).prod = 0 := by
    unfold normVarBits normVarTol
    obtain ⟨q, hq⟩ := hbig
    rw [hq]
    have : 2 * (2 ^ 63 * q % 2 ^ 64) % 2 ^ 64 = 0 := by omega
    rw [this]
    rfl
  unfold normBlock
  dsimp only
  rw [hv]
  refine Sound.bind (P := fun _ => True) (fun _ _ _ _ => trivial) fun _ _ => ?_
  refine Sound.bind (P := fun _ => True) (fun _ _ _ _ => trivial) fun _ _ => ?_
  refine Sound.bind (P := fun _ => True) (fun _ _ _ _ => trivial) fun _ _ => ?_
  refine Sound.bind (P := fun _ => True) (fun _ _ _ _ => trivial) fun _ _ => ?_
  refine Sound.bind (P := fun _ => True) (fun _ _ _ _ => trivial) fun _ _ => ?_
  refine Sound.bind (P := fun _ => False) ?_ fun _ h => h.elim
  unfold rangeCheck
  rw [if_pos rfl]
  exact Sound.throwErr

/-- **C62.** A scale of 64 bits or more, an axis outside the rank, coefficients of the wrong length, or coefficients too
large for the tolerance to fit 63 bits, are refused. -/
theorem C62_layernorm_refuses {hint : List (ZMod p) → Except Err (List (ZMod p))} {rc : RangeCtx} {κ nb mnb : Nat}
    {axis : Int} {gamma beta : List Int} (x : Arr (ZMod p))
    (hbad : 64 ≤ κ ∨ axis < -x.shape.length ∨ (x.shape.length : Int) ≤ axis ∨
      (∃ ax, AxisOf x.shape.length axis ax ∧
        (gamma.length ≠ (x.shape.drop ax).prod ∨ beta.length ≠ (x.shape.drop ax).prod)) ∨
      ∃ g ∈ gamma, 2 ^ 63 ≤ (g.natAbs * 2 + 2 ^ κ + 4) * 2) (hs : Hints (ZMod p)) :
    ∃ msg, layerNormLayer hint rc κ nb mnb axis gamma beta x hs = .error (.err msg) := by
  unfold layerNormLayer
  by_cases k1 : κ ≥ 64
  · rw [if_pos k1]; exact ⟨_, rfl⟩
  rw [if_neg k1]
  have hc := normAxis_cases x.shape.length axis
  refine liftR_bind_refuses hc.1 fun a ha => ?_
  have hno : ¬ (axis < -x.shape.length ∨ (x.shape.length : Int) ≤ axis) := fun hb => by
    rw [hc.2 hb] at ha; cases ha
  have hA := (normAxis_ok' _ _ _).1 ha
  by_cases k2 : gamma.length ≠ (x.shape.drop a).prod ∨ beta.length ≠ (x.shape.drop a).prod
  · rw [if_pos k2]; exact ⟨_, rfl⟩
  rw [if_neg k2]
  by_cases k3 : normTol κ gamma ≥ 2 ^ 64
  · rw [if_pos k3]; exact ⟨_, rfl⟩
  rw [if_neg k3]
  by_cases k4 : normTol κ gamma * 2 + 1 ≥ 2 ^ 64
  · rw [if_pos k4]; exact ⟨_, rfl⟩
  rw [if_neg k4, if_pos]
  · exact ⟨_, rfl⟩
  rcases hbad with h | h | h | ⟨b, h, h'⟩ | ⟨g, h, h'⟩
  · exact absurd h k1
  · exact absurd (.inl h) hno
  · exact absurd (.inr h) hno
  · rw [AxisOf_unique h hA] at h'; exact absurd h' k2
  · have : g.natAbs ≤ maxAbs gamma := by
      unfold maxAbs
      have : ∀ {l : List Nat} {a : Nat}, a ∈ l → a ≤ l.foldr max 0 := by
        intro l
        induction l with
        | nil => simp
        | cons b l ih =>
          intro a ha
          rcases List.mem_cons.1 ha with rfl | ha
          · exact le_max_left _ _
          · exact le_trans (ih ha) (le_max_right _ _)
      exact this (List.mem_map.2 ⟨g, h, rfl⟩)
    unfold normTol
    omega

end

/-! ## The hypotheses are met -/

/-- Two blocks of two entries; scale `2 ^ 4`. -/
def normX : Arr Int := ⟨[2, 2], [16, -16, 32, 0]⟩

/-- Outputs, mean and inverse deviation for the blocks of `normX`. -/
def normHint (xs : List (ZMod goldP)) : Except Err (List (ZMod goldP)) :=
  .ok [((16 : Int) : ZMod goldP), ((-16 : Int) : ZMod goldP), xs.headD 0 - 16, ((16 : Int) : ZMod goldP)]

theorem normX_consts : normTol 4 [16, 16] = 52 ∧ normVarBits 4 2 = 10 ∧ Nat.clog 2 (2 * 2 + 1) = 3 ∧
    (⟨4, 8, 6, 52⟩ : NormConsts).tolBits = 7 ∧ (⟨4, 8, 6, 52⟩ : NormConsts).shiftExp = 13 := by decide +kernel

theorem normX_axis : AxisOf 2 (-1) 1 := (normAxis_ok' _ _ _).1 rfl

/-- The scaling by an arbitrary factor is all that soundness gives. -/
example : Sound (rangeTables goldP ⟨0, 4⟩) (layerNormLayer normHint ⟨0, 4⟩ 4 8 6 (-1) [16, 16] [0, 0] (castArr goldP normX))
    (IsBlockwise 1 normX (NormRel goldP 4 ⟨4, 8, 6, 52⟩ 10 [16, 16] [0, 0])) := by
  have h := C62_layernorm_sound_partial (hint := normHint) (nb := 8) (mnb := 6) (B := 32) (Γ := 16) (Β := 0)
    (rangeTables_spec (p := goldP) ⟨0, 4⟩) (by norm_num) (κ := 4) (gamma := [16, 16]) (beta := [0, 0]) (by norm_num) normX rfl
    normX_axis rfl rfl (by rw [normX_consts.1]; norm_num)
    ⟨by decide +kernel, by decide +kernel, by decide +kernel, by decide +kernel⟩ (by decide) (by decide) (by decide)
  exact h

/-- Zero is provable for every entry of `normX`, although the entries are one standard deviation from their means. -/
example : Forge (rangeTables goldP ⟨0, 4⟩) (layerNormLayer normHint ⟨0, 4⟩ 4 8 6 (-1) [16, 16] [0, 0] (castArr goldP normX))
    (IsBlockwise 1 normX fun l o => o = ([0, 0].map fun z : Int => (z : ZMod goldP)) ∧ o.length = l.length) := by
  obtain ⟨h1, h2, h3, h4, h5⟩ := normX_consts
  have hc : ∀ n : Nat, 0 < n → n < 128 → RangeCallable ⟨0, 4⟩ n := fun n h h' =>
    ⟨by norm_num, by norm_num, h, by omega, fun _ => h'⟩
  refine C62_layernorm_unsound (rangeTables_spec _) (by norm_num) normX rfl normX_axis rfl rfl
    (by rw [h1]; norm_num) ?_ (by decide) (.cons (by rw [h1]; norm_num) (.cons (by rw [h1]; norm_num) .nil))
  rw [h1]
  exact ⟨hc _ (by decide) (by decide), hc _ (by decide) (by decide), hc _ (by decide +kernel) (by decide +kernel),
    hc _ (by decide) (by decide), hc _ (by decide +kernel) (by decide +kernel), hc _ (by decide) (by decide),
    hc _ (by decide +kernel) (by decide +kernel), hc _ (by decide +kernel) (by decide +kernel)⟩

/-- The honest prover proves one and minus one. -/
example : Complete (rangeTables goldP ⟨0, 4⟩) (layerNormLayer normHint ⟨0, 4⟩ 4 8 6 (-1) [16, 16] [0, 0] (castArr goldP normX))
    (IsBlockwise 1 normX fun l o => o.length = l.length ∧ ∃ Y m s,
      HonestNorm (p := goldP) normHint ⟨4, 8, 6, 52⟩ 10 [16, 16] [0, 0] l Y m s ∧ o = Y.map fun z : Int => (z : ZMod goldP)) := by
  obtain ⟨h1, h2, h3, h4, h5⟩ := normX_consts
  have hu : ∀ n : Nat, 0 < n → n < 40 → RangeUsable goldP ⟨0, 4⟩ n := fun n h h' =>
    ⟨by norm_num, by norm_num, h, by omega, fun _ => by omega,
      le_trans (Nat.pow_le_pow_right (by norm_num) (show n + slackBits 4 n ≤ 44 by
        have : ∀ m < 40, m + slackBits 4 m ≤ 44 := by decide +kernel
        exact this n h')) (by norm_num [goldP])⟩
  have h := C62_layernorm_complete (hint := normHint) (rangeTables_spec (p := goldP) ⟨0, 4⟩) (κ := 4) (nb := 8) (mnb := 6)
    (gamma := [16, 16]) (beta := [0, 0]) (by norm_num) normX rfl normX_axis rfl rfl (by rw [h1]; norm_num)
    (by
      rw [h1]
      exact ⟨hu _ (by decide) (by decide), hu _ (by decide) (by decide), hu _ (by decide +kernel) (by decide +kernel),
        hu _ (by decide) (by decide), hu _ (by decide +kernel) (by decide +kernel), hu _ (by decide) (by decide),
        hu _ (by decide +kernel) (by decide +kernel), hu _ (by decide +kernel) (by decide +kernel), by decide +kernel⟩)
    (by decide)
    (by
      rw [h1]
      intro lead l hl hb
      have hv : normVarBits 4 (normX.shape.drop 1).prod = 10 := h2
      rw [hv]
      have hlead : lead = [0] ∨ lead = [1] := by
        have hmem := mem_coordsOf.2 hl
        have : coordsOf (normX.shape.take 1) = [[0], [1]] := by decide
        rw [this] at hmem
        simpa using hmem
      rcases hlead with rfl | rfl
      · have hl' := isBlock_unique hb (show IsBlock 1 normX [0] [16, -16] from rfl)
        subst hl'
        refine ⟨[16, -16], 0, 16, ?_, by norm_num, by norm_num, by norm_num, ?_, by norm_num⟩
        · simp [normHint]
        · exact .cons (by norm_num) (.cons (by norm_num) .nil)
      · have hl' := isBlock_unique hb (show IsBlock 1 normX [1] [32, 0] from rfl)
        subst hl'
        refine ⟨[16, -16], 16, 16, ?_, by norm_num, by norm_num, by norm_num, ?_, by norm_num⟩
        · simp only [normHint, List.map_cons, List.cons_append, List.headD_cons]
          congr 4
        · exact .cons (by norm_num) (.cons (by norm_num) .nil))
  exact h

/-- Two entries per block at scale `2 ^ 31`. -/
example : Sound (rangeTables goldP ⟨0, 4⟩) (layerNormLayer normHint ⟨0, 4⟩ 31 40 33 (-1) [16, 16] [0, 0] (castArr goldP normX))
    (fun _ => False) :=
  C62_layernorm_unprovable (by norm_num) (castArr goldP normX) normX_axis rfl rfl (by decide +kernel) (by decide)
    (by decide +kernel)

example (hs : Hints (ZMod goldP)) : ∃ msg,
    layerNormLayer normHint ⟨0, 4⟩ 4 8 6 (-1) [16] [0] (castArr goldP normX) hs = .error (.err msg) :=
  C62_layernorm_refuses (axis := -1) (castArr goldP normX) (.inr (.inr (.inr (.inl ⟨1, normX_axis, .inl (by decide)⟩)))) hs

end JST.Props
