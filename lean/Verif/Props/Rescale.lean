import Verif.Props.Gadgets

/-!
# C05/C06 at the level of a layer: `maybe_rescale` and the clip gadget's completeness
-/

set_option linter.unusedSectionVars false

namespace JST.Props

open JST

variable {p : Nat} [Fact p.Prime] {T : Tables (ZMod p)}

/-- What a layer's post-processing computes on each element. -/
def postSpec (isRescale : Bool) (κ : Nat) (relu : Bool) (x : Int) : Int :=
  if isRescale then rescaleSpec κ relu x else if relu then max 0 x else x

/-- The inputs for which a layer with `n_bits = n` is specified. -/
def postRange (isRescale : Bool) (κ n : Nat) (relu : Bool) (x : Int) : Prop :=
  if isRescale then -((2 : Int) ^ κ * 2 ^ (n - 1)) ≤ x ∧ x < 2 ^ κ * 2 ^ (n - 1)
  else relu = true → -(2 : Int) ^ (n - 1) ≤ x ∧ x < 2 ^ (n - 1)

/-- **C05, a layer's post-processing is sound** (`maybe_rescale`): whatever combination of rescaling
and fused ReLU is configured, every accepted output is the specified one, for signed `n`-bit results
and digit widths dividing `κ` and `n`. Missing: other digit widths (`C05_rescale_unsound`). -/
theorem C05_layer_post_sound_partial {rc : RangeCtx} (hT : IsRangeTable T rc) (hc : 0 < rc.chunk)
    {κ n : Nat} (hn : 1 ≤ n) (hd : rc.chunk ∣ κ) (hds : rc.chunk ∣ n) (hp : 2 ^ κ * 2 ^ (n + 1) ≤ p)
    (isRescale relu : Bool) (xs : List Int) (hx : ∀ x ∈ xs, postRange isRescale κ n relu x) :
    Sound T (maybeRescale rc (xs.map fun x : Int => (x : ZMod p)) isRescale κ n relu)
      (fun ys => ys = xs.map fun x : Int => ((postSpec isRescale κ relu x : Int) : ZMod p)) := by
  obtain ⟨s, rfl⟩ : ∃ s, n = s + 1 := ⟨n - 1, by omega⟩
  unfold maybeRescale
  simp only [Nat.add_eq_zero_iff, one_ne_zero, and_false, if_false, Nat.add_sub_cancel]
  cases isRescale with
  | true =>
    simp only [postRange, if_true, Nat.add_sub_cancel] at hx
    exact C05_rescale_sound_partial hT hc hd hds hp xs hx relu
  | false =>
    cases relu with
    | false => exact Sound.pure (by simp [postSpec])
    | true =>
      simp only [postRange, Bool.false_eq_true, if_false, forall_const, Nat.add_sub_cancel] at hx
      simp only [Bool.not_false, if_true, reluArray, ShiftCtx.new]
      split_ifs
      · exact Sound.bind (Sound.throwErr (Q := fun _ => False)) (fun _ h => h.elim)
      · refine Sound.bind (Sound.pure (Q := fun c => c = (⟨s, ((2 ^ s : Nat) : ZMod p)⟩ : ShiftCtx p))
          rfl) ?_
        rintro _ rfl
        have hp' : 2 ^ (s + 2) ≤ p := le_trans (Nat.le_mul_of_pos_left _ (by positivity)) hp
        exact sound_mapG_int (F := fun x => max 0 x) xs fun x hxm =>
          C06_relu_sound_partial hT hc hds hp' x (hx x hxm).1 (hx x hxm).2

/-- **C05, a layer's post-processing is complete** for every digit width. -/
theorem C05_layer_post_complete {rc : RangeCtx} (hT : IsRangeTable T rc)
    {κ n : Nat} (hn : 1 ≤ n) (hn64 : n ≤ 64) (hκ : κ < 32) (huk : RangeUsable p rc κ)
    (hun : RangeUsable p rc n) (hp : 2 ^ κ * 2 ^ n ≤ p)
    (isRescale relu : Bool) (xs : List Int) (hx : ∀ x ∈ xs, postRange isRescale κ n relu x) :
    Complete T (maybeRescale rc (xs.map fun x : Int => (x : ZMod p)) isRescale κ n relu)
      (fun ys => ys = xs.map fun x : Int => ((postSpec isRescale κ relu x : Int) : ZMod p)) := by
  obtain ⟨s, rfl⟩ : ∃ s, n = s + 1 := ⟨n - 1, by omega⟩
  unfold maybeRescale
  simp only [Nat.add_eq_zero_iff, one_ne_zero, and_false, if_false, Nat.add_sub_cancel]
  cases isRescale with
  | true =>
    simp only [postRange, if_true, Nat.add_sub_cancel] at hx
    exact C05_rescale_complete hT huk hun hκ (by omega) hp xs hx relu
  | false =>
    cases relu with
    | false => exact Complete.pure (by simp [postSpec])
    | true =>
      simp only [postRange, Bool.false_eq_true, if_false, forall_const, Nat.add_sub_cancel] at hx
      simp only [Bool.not_false, if_true, reluArray, ShiftCtx.new]
      rw [if_neg (by omega)]
      refine Complete.bind (Complete.pure
        (Q := fun c => c = (⟨s, ((2 ^ s : Nat) : ZMod p)⟩ : ShiftCtx p)) rfl) ?_
      rintro _ rfl
      exact complete_mapG_int (F := fun x => max 0 x) xs fun x hxm =>
        complete_relu hT hun (hx x hxm).1 (hx x hxm).2

/-- **C06, clip completeness** for every digit width. -/
theorem C06_clip_complete {rc : RangeCtx} (hT : IsRangeTable T rc) {s : Nat}
    (hu : RangeUsable p rc (s + 1)) (x : Int) (lo hi : Option Int)
    (hx : -2 ^ s ≤ x ∧ x < 2 ^ s) (hlo : ∀ a ∈ lo, -2 ^ s ≤ a ∧ a < 2 ^ s)
    (hhi : ∀ a ∈ hi, -2 ^ s ≤ a ∧ a < 2 ^ s) :
    Complete T (constrainedClip ⟨s, ((2 ^ s : Nat) : ZMod p)⟩ rc (x : ZMod p)
      (lo.map fun a : Int => (a : ZMod p)) (hi.map fun a : Int => (a : ZMod p)))
      (fun r => r = ((clipSpec lo hi x : Int) : ZMod p)) := by
  have h2 : ∀ y : Int, -2 ^ s ≤ y ∧ y < 2 ^ s →
      Complete T (match (hi.map fun a : Int => (a : ZMod p)) with
        | some b => min2 ⟨s, ((2 ^ s : Nat) : ZMod p)⟩ rc (y : ZMod p) b
        | none => pure (y : ZMod p)) (fun r => r = ((atMost y hi : Int) : ZMod p)) := by
    intro y hy
    cases hi with
    | none => exact Complete.pure rfl
    | some b => exact complete_min2 hT hu hy.1 hy.2 (hhi b rfl).1 (hhi b rfl).2
  unfold constrainedClip clipSpec
  cases lo with
  | none => exact Complete.bind (Complete.pure (Q := fun c => c = (x : ZMod p)) rfl) (by
      rintro _ rfl; exact h2 x hx)
  | some a =>
    have ha := hlo a rfl
    refine Complete.bind (complete_max2 hT hu hx.1 hx.2 ha.1 ha.2) ?_
    rintro _ rfl
    refine h2 (max x a) ?_
    rcases max_choice x a with h | h <;> rw [h] <;> assumption

example : Complete (rangeTables bn254P ⟨0, 12⟩)
    (maybeRescale ⟨0, 12⟩ ([-700000, 3].map fun x : Int => (x : ZMod bn254P)) true 18 64 true)
    (fun ys => ys = [-700000, 3].map fun x : Int =>
      ((postSpec true 18 true x : Int) : ZMod bn254P)) :=
  C05_layer_post_complete (rangeTables_spec _) (by norm_num) (by norm_num) (by norm_num)
    ⟨by norm_num, by norm_num, by norm_num, by norm_num, by norm_num, by norm_num [slackBits, bn254P]⟩
    ⟨by norm_num, by norm_num, by norm_num, by norm_num, by norm_num, by norm_num [slackBits, bn254P]⟩
    (by norm_num [bn254P]) true true _ (by simp [postRange])

end JST.Props
