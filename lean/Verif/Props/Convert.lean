import Verif.Quant.Convert
import Verif.Props.Elementwise
import Verif.Props.ElementwiseClip
import Mathlib.Tactic.Linarith

/-!
# C71: the constants of a model enter the circuit at the scale of the data

A circuit computes with integers that stand for real numbers at the scale `α`: data `x` is the integer nearest to `α x`.
A constant that is added to data, compared with it or selected instead of it has to be given at the scale `α` too, a
factor at the scale `α` if the product is divided by `α` afterwards, and a bias of such a product at `α²`.
-/

namespace JST.Props

open JST.Convert JST.Layers JST.Spec JST.Shape

/-- The integers `qs` stand for the reals `vs` at the scale `s`: they differ from the exact multiples by at most one half. -/
def AtScale (s : ℝ) (vs : List ℝ) (qs : List Int) : Prop :=
  List.Forall₂ (fun (v : ℝ) (q : Int) => |(q : ℝ) - s * v| ≤ 1 / 2) vs qs

/-- Rounding is exact to one half as long as the result fits into 64 bits. -/
theorem roundI64_near {x : ℝ} (h : |x| ≤ 2 ^ 62) : |(roundI64 x : ℝ) - x| ≤ 1 / 2 := by
  have h' := abs_le.1 h
  have key : ∀ z : Int, |(z : ℝ) - x| ≤ 1 / 2 → satI64 z = z := by
    intro z hz
    have hz := abs_le.1 hz
    have h1 : (z : ℝ) ≤ 2 ^ 62 + 1 := by linarith
    have h2 : -(2 ^ 62 + 1) ≤ (z : ℝ) := by linarith
    have h3 : z ≤ 2 ^ 62 + 1 := by exact_mod_cast h1
    have h4 : -(2 ^ 62 + 1) ≤ z := by exact_mod_cast h2
    unfold satI64
    omega
  have near : |(((if 0 ≤ x then ⌊x + 1 / 2⌋ else ⌈x - 1 / 2⌉ : Int)) : ℝ) - x| ≤ 1 / 2 := by
    rw [abs_le]
    split_ifs with h0
    · have h1 := Int.floor_le (x + 1 / 2)
      have h2 := Int.lt_floor_add_one (x + 1 / 2)
      constructor <;> linarith
    · have h1 := Int.le_ceil (x - 1 / 2)
      have h2 := Int.ceil_lt_add_one (x - 1 / 2)
      constructor <;> linarith
  unfold roundI64
  rw [key _ near]
  exact near

theorem scaleOne_other {alpha : ℝ} {l : Layer} {e : Nat × Nat} {n : String} (h : l.inputs[e.1]? ≠ some n) :
    (scaleOne alpha l e).weights n = l.weights n := by
  unfold scaleOne
  split
  · rfl
  · next m hm =>
    split
    · rfl
    · split
      · rfl
      · have : n ≠ m := by rintro rfl; exact h hm
        simp [this]

theorem scaleOne_inputs (alpha : ℝ) (l : Layer) (e : Nat × Nat) : (scaleOne alpha l e).inputs = l.inputs := by
  unfold scaleOne
  split
  · rfl
  · split
    · rfl
    · split <;> rfl

theorem foldl_scaleOne_other {alpha : ℝ} {n : String} : ∀ (es : List (Nat × Nat)) {l : Layer},
    (∀ e ∈ es, l.inputs[e.1]? ≠ some n) → (es.foldl (scaleOne alpha) l).weights n = l.weights n
  | [], _, _ => rfl
  | e :: es, l, h => by
    rw [List.foldl_cons, foldl_scaleOne_other es (by
      intro e' he'
      rw [scaleOne_inputs]
      exact h e' (List.mem_cons_of_mem _ he')), scaleOne_other (h e (by simp))]

/-- The converter leaves alone what its plan does not mention. -/
theorem quantizeLayer_other {alpha : ℝ} {l : Layer} {n : String} (h : ∀ e ∈ scalePlan l.op, l.inputs[e.1]? ≠ some n) :
    (quantizeLayer alpha l).weights n = l.weights n := foldl_scaleOne_other _ h

theorem scaleOne_hit {alpha : ℝ} {l : Layer} {e : Nat × Nat} {n : String} {w : TD} (h : l.inputs[e.1]? = some n)
    (hw : l.weights n = some w) (hf : w.floats ≠ []) :
    (scaleOne alpha l e).weights n = some ⟨[], w.floats.map fun v => roundI64 (v * alpha ^ e.2)⟩ := by
  unfold scaleOne
  simp [h, hw, hf]

/-- A tensor at a planned position, read by the node at no other planned position, is scaled by the planned power. -/
theorem quantizeLayer_hit {alpha : ℝ} {l : Layer} {i k : Nat} {n : String} {w : TD} (hp : (i, k) ∈ scalePlan l.op)
    (h : l.inputs[i]? = some n) (hu : ∀ e ∈ scalePlan l.op, l.inputs[e.1]? = some n → e = (i, k))
    (hw : l.weights n = some w) (hf : w.floats ≠ []) :
    (quantizeLayer alpha l).weights n = some ⟨[], w.floats.map fun v => roundI64 (v * alpha ^ k)⟩ := by
  have key : ∀ (es : List (Nat × Nat)) (l : Layer), es.Nodup → (i, k) ∈ es → l.inputs[i]? = some n →
      (∀ e ∈ es, l.inputs[e.1]? = some n → e = (i, k)) → l.weights n = some w →
      (es.foldl (scaleOne alpha) l).weights n = some ⟨[], w.floats.map fun v => roundI64 (v * alpha ^ k)⟩ := by
    intro es
    induction es with
    | nil => intro l _ hm; simp at hm
    | cons e es ih =>
      intro l hnd hm h hu hw
      rw [List.foldl_cons]
      rcases List.mem_cons.1 hm with rfl | hm'
      · rw [foldl_scaleOne_other es (by
          intro e' he' hcon
          rw [scaleOne_inputs] at hcon
          have := hu e' (List.mem_cons_of_mem _ he') hcon
          subst this
          exact (List.nodup_cons.1 hnd).1 he')]
        exact scaleOne_hit h hw hf
      · refine ih _ (List.nodup_cons.1 hnd).2 hm' (by rw [scaleOne_inputs]; exact h) ?_ ?_
        · intro e' he'
          rw [scaleOne_inputs]
          exact hu e' (List.mem_cons_of_mem _ he')
        · rw [scaleOne_other, hw]
          intro hcon
          have := hu e (by simp) hcon
          subst this
          exact (List.nodup_cons.1 hnd).1 hm'
  refine key _ l ?_ hp h hu hw
  unfold scalePlan
  split_ifs <;> decide

theorem wandb_first {alpha : ℝ} {before after : List Layer} {l : Layer} {n : String} {w : TD}
    (hb : ∀ l' ∈ before, l'.weights n = none) (hw : (quantizeLayer alpha l).weights n = some w) :
    wandb alpha (before ++ l :: after) n = some w.asI64 := by
  unfold wandb
  induction before with
  | nil => simp [hw]
  | cons b bs ih =>
    have hb' : (quantizeLayer alpha b).weights n = none := by
      have key : ∀ (es : List (Nat × Nat)) (l : Layer), l.weights n = none →
          (es.foldl (scaleOne alpha) l).weights n = none := by
        intro es
        induction es with
        | nil => intro l h; exact h
        | cons e es ih =>
          intro l h
          rw [List.foldl_cons]
          refine ih _ ?_
          by_cases he : l.inputs[e.1]? = some n
          · unfold scaleOne
            simp [he, h]
          · rw [scaleOne_other he, h]
      exact key _ _ (hb b (by simp))
    simp only [List.cons_append, List.map_cons, List.findSome?_cons, hb', Option.map_none]
    exact ih fun l' hl' => hb l' (List.mem_cons_of_mem _ hl')

/-- **C71 for the operators of the scale plan.** The constants at the planned positions of Conv, Gemm,
BatchNormalization, LayerNormalization, ConvTranspose, MatMul and GridSample reach the circuit at the planned power of the
scale, if no earlier node of the model has the tensor among its inputs, the node reads it at no other planned position,
and the results fit. Missing: all other operators (`C71_unplanned_unscaled`) and shared tensors (`C71_shared_unsound`). -/
theorem C71_planned_partial {alpha : ℝ} {before after : List Layer} {l : Layer} {i k : Nat} {n : String} {w : TD}
    (hp : (i, k) ∈ scalePlan l.op) (h : l.inputs[i]? = some n)
    (hu : ∀ e ∈ scalePlan l.op, l.inputs[e.1]? = some n → e = (i, k))
    (hw : l.weights n = some w) (hf : w.floats ≠ []) (hb : ∀ l' ∈ before, l'.weights n = none)
    (hr : ∀ v ∈ w.floats, |alpha ^ k * v| ≤ 2 ^ 62) :
    ∃ qs, wandb alpha (before ++ l :: after) n = some qs ∧ AtScale (alpha ^ k) w.floats qs := by
  refine ⟨_, wandb_first hb (quantizeLayer_hit hp h hu hw hf), ?_⟩
  have hne : w.floats.map (fun v => roundI64 (v * alpha ^ k)) ≠ [] := by simpa using hf
  unfold TD.asI64 AtScale
  rw [if_pos hne, List.forall₂_map_right_iff, List.forall₂_same]
  intro v hv
  rw [mul_comm v]
  exact roundI64_near (hr v hv)

/-- **C71, every other constant is truncated to an integer and not scaled at all.** -/
theorem C71_unplanned_unscaled {alpha : ℝ} {before after : List Layer} {l : Layer} {n : String} {w : TD}
    (hp : ∀ e ∈ scalePlan l.op, l.inputs[e.1]? ≠ some n) (hw : l.weights n = some w) (hi : w.ints = [])
    (hb : ∀ l' ∈ before, l'.weights n = none) :
    wandb alpha (before ++ l :: after) n = some (w.floats.map castI64) := by
  rw [wandb_first hb ((quantizeLayer_other hp).trans hw)]
  simp [TD.asI64, hi]

theorem castI64_small {v : ℝ} (h : |v| < 1) : castI64 v = 0 := by
  have h := abs_lt.1 h
  unfold castI64
  split_ifs with h0
  · rw [Int.floor_eq_zero_iff.2 ⟨h0, h.2⟩]; decide
  · have e : ⌈v⌉ = 0 := Int.ceil_eq_iff.2 ⟨by push_cast; linarith, by push_cast; linarith⟩
    rw [e]; decide

theorem castI64_intCast (z : Int) (h1 : -2 ^ 63 ≤ z) (h2 : z < 2 ^ 63) : castI64 (z : ℝ) = z := by
  unfold castI64
  rw [Int.floor_intCast, Int.ceil_intCast, ite_self]
  unfold satI64
  omega

/-- A model with one node which reads the data `x` and the constant `c`. -/
def oneNode (op : String) (vs : List ℝ) : List Layer :=
  [⟨op, ["x", "c"], fun n => if n = "c" then some ⟨vs, []⟩ else none⟩]

theorem wandb_oneNode {op : String} (h : scalePlan op = []) (alpha : ℝ) (vs : List ℝ) :
    wandb alpha (oneNode op vs) "c" = some (vs.map castI64) :=
  C71_unplanned_unscaled (before := []) (after := []) (w := ⟨vs, []⟩) (by simp [h]) (by simp) rfl (by simp)

section layers
variable {p : Nat} [Fact p.Prime] {T : Tables (ZMod p)}

theorem isZip_const {β γ : Type} {a : Arr Int} {b : Arr β} {Q : Int → β → γ → Prop} {Q' : Int → β → γ → Prop}
    {out : Arr γ} (h : IsBinary a b Q out) (hq : ∀ u, ∀ v ∈ b.data, ∀ w, Q u v w → Q' u v w) : IsBinary a b Q' out := by
  obtain ⟨h1, h2, h3, h4⟩ := h
  refine ⟨h1, h2, h3, fun c hc => ?_⟩
  obtain ⟨u, v, w, e1, e2, e3, e4⟩ := h4 c hc
  exact ⟨u, v, w, e1, e2, e3, hq u v (by unfold elem at e2; exact List.mem_of_getElem? e2) w e4⟩

/-- **C71 is false for Add and Sub**: adding or subtracting constants between -1 and 1 does nothing. Nothing but
the unchanged input is accepted. -/
theorem C71_add_constant_unsound (alpha : ℝ) (x : Arr Int) (hx : x.WF) (s : List Nat) (vs : List ℝ)
    (hs : vs.length = s.prod) (hv : ∀ v ∈ vs, |v| < 1) :
    ∃ qs, wandb alpha (oneNode "Add" vs) "c" = some qs ∧ wandb alpha (oneNode "Sub" vs) "c" = some qs ∧
      Sound T (addLayer (castArr p x) (castArr p ⟨s, qs⟩)) (IsBinary x ⟨s, vs⟩ fun u _ w => w = ((u : Int) : ZMod p)) ∧
      Sound T (subLayer (castArr p x) (castArr p ⟨s, qs⟩)) (IsBinary x ⟨s, vs⟩ fun u _ w => w = ((u : Int) : ZMod p)) := by
  have hz : vs.map castI64 = vs.map fun _ => 0 := List.map_congr_left fun v hv' => castI64_small (hv v hv')
  have hb : (⟨s, vs.map castI64⟩ : Arr Int).WF := by unfold Arr.WF; simpa using hs
  have key : ∀ {out : Arr (ZMod p)}, IsBinary x (⟨s, vs.map castI64⟩ : Arr Int) (fun u _ w => w = ((u : Int) : ZMod p)) out →
      IsBinary x (⟨s, vs⟩ : Arr ℝ) (fun u _ w => w = ((u : Int) : ZMod p)) out := by
    rintro out ⟨h1, h2, h3, h4⟩
    refine ⟨h1, h2, h3, fun c hc => ?_⟩
    obtain ⟨u, v, w, e1, e2, e3, e4⟩ := h4 c hc
    simp only [elem, List.getElem?_map, Option.map_eq_some_iff] at e2
    obtain ⟨v', e2, _⟩ := e2
    exact ⟨u, v', w, e1, e2, e3, e4⟩
  refine ⟨_, wandb_oneNode (by decide) alpha vs, wandb_oneNode (by decide) alpha vs, ?_, ?_⟩
  · refine (C56_add_sub_sound x _ hx hb).1.conseq fun out h => key (isZip_const h fun u v hv w e => ?_)
    simp only [hz, List.mem_map] at hv
    obtain ⟨_, _, rfl⟩ := hv
    simpa using e
  · refine (C56_add_sub_sound x _ hx hb).2.conseq fun out h => key (isZip_const h fun u v hv w e => ?_)
    simp only [hz, List.mem_map] at hv
    obtain ⟨_, _, rfl⟩ := hv
    simpa using e

/-- **C71 is false for Mul**: the product with constants between -1 and 1 is zero everywhere. -/
theorem C71_mul_constant_unsound {rc : RangeCtx} (hT : IsRangeTable T rc) (hc : 0 < rc.chunk)
    {κ n : Nat} (hn : 1 ≤ n) (hd : rc.chunk ∣ κ) (hds : rc.chunk ∣ n) (hp : 2 ^ κ * 2 ^ (n + 1) ≤ p)
    (x : Arr Int) (hx : x.WF) (s : List Nat) (vs : List ℝ) (hs : vs.length = s.prod) (hv : ∀ v ∈ vs, |v| < 1) :
    ∃ qs, wandb (2 ^ κ) (oneNode "Mul" vs) "c" = some qs ∧
      Sound T (mulLayer rc true κ n false (castArr p x) (castArr p ⟨s, qs⟩))
        (fun out => ∀ w ∈ out.data, w = 0) := by
  have hz : vs.map castI64 = vs.map fun _ => 0 := List.map_congr_left fun v hv' => castI64_small (hv v hv')
  have hb : (⟨s, vs.map castI64⟩ : Arr Int).WF := by unfold Arr.WF; simpa using hs
  have h0 : ∀ v ∈ vs.map castI64, v = 0 := by
    rw [hz]
    intro v hv
    obtain ⟨_, _, rfl⟩ := List.mem_map.1 hv
    rfl
  refine ⟨_, wandb_oneNode (by decide) _ vs, ?_⟩
  refine (C56_mul_sound_partial hT hc hn hd hds hp true false x _ hx hb ?_).conseq fun out h => ?_
  · intro u _ v hv
    rw [h0 v hv, mul_zero]
    simp only [postRange, if_true]
    constructor
    · have : (0 : Int) ≤ 2 ^ κ * 2 ^ (n - 1) := by positivity
      omega
    · positivity
  · obtain ⟨-, h2, h3, h4⟩ := h
    intro w hw
    obtain ⟨k, hk, rfl⟩ := List.getElem_of_mem hw
    have hk' : k < out.shape.prod := by rw [← h3]; exact hk
    obtain ⟨u, v, w, _, e2, e3, e4⟩ := h4 _ (unravel_inRange hk')
    have hv' := h0 v (by unfold elem at e2; exact List.mem_of_getElem? e2)
    unfold elem at e3
    rw [rowMajor_unravel hk', List.getElem?_eq_getElem hk] at e3
    rw [Option.some.inj e3, e4, hv', mul_zero]
    simp [postSpec, rescaleSpec]

/-- **C71 is false for Clip**: the upper bound of ReLU6 is the integer 6, that is `6/α`. For data at the scale `2^κ`,
everything from `6 / 2^κ` on is proved to be `6 / 2^κ`. -/
theorem C71_clip_unsound {rc : RangeCtx} (hT : IsRangeTable T rc) (hc : 0 < rc.chunk) {nb : Nat} (hb : 4 ≤ nb)
    (hd : rc.chunk ∣ nb) (hp : 2 ^ (nb + 1) ≤ p) (alpha : ℝ) (x : Arr Int) (hx : x.WF) (rx : Signed nb x) :
    ∃ lo hi, wandb alpha [⟨"Clip", ["x", "lo", "hi"], fun n => if n = "lo" then some ⟨[0], []⟩ else
        if n = "hi" then some ⟨[6], []⟩ else none⟩] "lo" = some lo ∧
      wandb alpha [⟨"Clip", ["x", "lo", "hi"], fun n => if n = "lo" then some ⟨[0], []⟩ else
        if n = "hi" then some ⟨[6], []⟩ else none⟩] "hi" = some hi ∧
      Sound T (clipLayer rc nb (castArr p x) (some (castArr p ⟨[1], lo⟩)) (some (castArr p ⟨[1], hi⟩)))
        (IsBounded x (some ⟨[1], lo⟩) (some ⟨[1], hi⟩) fun _ _ u w => w = ((min 6 (max 0 u) : Int) : ZMod p)) := by
  have e0 : castI64 (0 : ℝ) = 0 := castI64_small (by norm_num)
  have e6 : castI64 (6 : ℝ) = 6 := by exact_mod_cast castI64_intCast 6 (by norm_num) (by norm_num)
  have hpow : (8 : Int) ≤ 2 ^ (nb - 1) := by
    calc (8 : Int) = 2 ^ 3 := by norm_num
      _ ≤ 2 ^ (nb - 1) := pow_le_pow_right₀ (by norm_num) (by omega)
  refine ⟨[0], [6], ?_, ?_, ?_⟩
  · have := C71_unplanned_unscaled (alpha := alpha) (before := []) (after := []) (n := "lo") (w := ⟨[0], []⟩)
      (l := ⟨"Clip", ["x", "lo", "hi"], fun n => if n = "lo" then some ⟨[0], []⟩ else
        if n = "hi" then some ⟨[6], []⟩ else none⟩) (by simp [scalePlan]) (by simp) rfl (by simp)
    simpa [e0] using this
  · have := C71_unplanned_unscaled (alpha := alpha) (before := []) (after := []) (n := "hi") (w := ⟨[6], []⟩)
      (l := ⟨"Clip", ["x", "lo", "hi"], fun n => if n = "lo" then some ⟨[0], []⟩ else
        if n = "hi" then some ⟨[6], []⟩ else none⟩) (by simp [scalePlan]) (by simp) rfl (by simp)
    simpa [e6] using this
  · refine (C56_clip_sound_partial hT hc hd hp x (some ⟨[1], [0]⟩) (some ⟨[1], [6]⟩) hx (by simp [Arr.WF])
      (by simp [Arr.WF]) rx ?_ ?_).conseq fun out h => ?_
    · simp only [Option.mem_def, Option.some.injEq, forall_eq', Signed, List.mem_singleton, forall_eq]
      omega
    · simp only [Option.mem_def, Option.some.injEq, forall_eq', Signed, List.mem_singleton, forall_eq]
      omega
    · obtain ⟨h1, h2, h3⟩ := h
      refine ⟨h1, h2, fun c hc => ?_⟩
      obtain ⟨i1, i2, u, w, e1, e2, e3⟩ := h3 c hc
      refine ⟨i1, i2, u, w, e1, e2, ?_⟩
      simp only [optElem, Option.isSome_some, Option.bind_some, elem] at i1 i2 e3
      obtain ⟨a, ha⟩ := Option.isSome_iff_exists.1 i1
      obtain ⟨b, hb⟩ := Option.isSome_iff_exists.1 i2
      rw [ha, hb] at e3
      have := List.mem_of_getElem? ha
      have := List.mem_of_getElem? hb
      simp_all [clipSpec, atMost, atLeast, max_comm, min_comm]

end layers

/-- **C71 is false for shared constants**: a tensor read at two positions with different powers of the scale, or by an
operator of the plan after another one, is given to both as the first of them needs it. -/
theorem C71_shared_unsound {alpha : ℝ} {l1 l2 : Layer} {n : String} {w : TD} (hw : l1.weights n = some w) :
    wandb alpha [l1, l2] n = wandb alpha [l1] n := by
  cases h : (quantizeLayer alpha l1).weights n with
  | some w' =>
    exact (wandb_first (before := []) (after := [l2]) (by simp) h).trans
      (wandb_first (before := []) (after := []) (by simp) h).symm
  | none =>
    exfalso
    have key : ∀ (es : List (Nat × Nat)) (l : Layer), l.weights n ≠ none →
        (es.foldl (scaleOne alpha) l).weights n ≠ none := by
      intro es
      induction es with
      | nil => intro l h; exact h
      | cons e es ih =>
        intro l h
        rw [List.foldl_cons]
        refine ih _ ?_
        by_cases he : l.inputs[e.1]? = some n
        · obtain ⟨w, hw⟩ := Option.ne_none_iff_exists'.1 h
          unfold scaleOne
          simp only [he, hw]
          split_ifs <;> simp [hw]
        · rw [scaleOne_other he]; exact h
    exact key _ l1 (by rw [hw]; simp) h

/-- The embedding table of a language model with tied weights: looked up by Gather, used again as the factor of MatMul.
MatMul gets the truncated table, which is zero for entries below one. -/
theorem C71_tied_embedding (alpha : ℝ) (vs : List ℝ) (hv : ∀ v ∈ vs, |v| < 1) :
    wandb alpha [⟨"Gather", ["e", "ids"], fun n => if n = "e" then some ⟨vs, []⟩ else none⟩,
      ⟨"MatMul", ["h", "e"], fun n => if n = "e" then some ⟨vs, []⟩ else none⟩] "e" = some (vs.map fun _ => 0) := by
  rw [C71_shared_unsound (w := ⟨vs, []⟩) (by simp)]
  refine (C71_unplanned_unscaled (before := []) (after := []) (w := ⟨vs, []⟩) (by simp [scalePlan]) (by simp) rfl
    (by simp)).trans ?_
  congr 1
  exact List.map_congr_left fun v hv' => castI64_small (hv v hv')

/-! ## The hypotheses are met -/

/-- A Gemm node with a weight matrix and a bias, after a node with other constants. -/
example : ∃ qs, wandb (2 ^ 18) [⟨"Add", ["x", "c"], fun n => if n = "c" then some ⟨[1 / 2], []⟩ else none⟩,
      ⟨"Gemm", ["y", "w", "b"], fun n => if n = "w" then some ⟨[1 / 3, -2 / 7], []⟩ else
        if n = "b" then some ⟨[5 / 9], []⟩ else none⟩] "b" = some qs ∧ AtScale ((2 ^ 18) ^ 2) [5 / 9] qs :=
  C71_planned_partial (before := [_]) (after := []) (i := 2) (k := 2) (w := ⟨[5 / 9], []⟩) (by decide) rfl
    (by simp [scalePlan]) rfl (by simp) (by simp) (by simp only [List.mem_singleton, forall_eq]; norm_num [abs_of_pos])

/-- Adding one half at the default scale: the integer added is 0, not 131072. -/
example : wandb (2 ^ 18) (oneNode "Add" [1 / 2]) "c" = some [0] ∧ ¬ AtScale (2 ^ 18) [1 / 2] [0] := by
  constructor
  · rw [wandb_oneNode (by decide), List.map_singleton, castI64_small (by norm_num [abs_of_pos])]
  · unfold AtScale
    rw [List.forall₂_cons]
    rintro ⟨h, -⟩
    norm_num [abs_of_neg] at h

example : (⟨[2], [3, -8]⟩ : Arr Int).WF ∧ [(1 : ℝ) / 2, 1 / 4].length = [2].prod ∧
    ∀ v ∈ [(1 : ℝ) / 2, 1 / 4], |v| < 1 := by
  refine ⟨rfl, rfl, ?_⟩
  simp only [List.mem_cons, List.not_mem_nil, or_false, forall_eq_or_imp, forall_eq]
  norm_num [abs_of_pos]

end JST.Props
