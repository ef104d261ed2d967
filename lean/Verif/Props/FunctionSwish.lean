import Verif.Props.FunctionRoot
import Verif.Props.Exp

/-!
# C58: the HardSwish layer

The output is a hint that is never range-checked: it only has to satisfy `6α·y = x·clip + e` in the field for
some `|e| ≤ 6α`.
-/

set_option linter.unusedSectionVars false

namespace JST.Props

open JST.Shape JST.Layers JST.Spec

variable {p : Nat} [Fact p.Prime] {T : Tables (ZMod p)}

/-! ## Clipping outside the nominal range -/

/-- Clip is sound for every input, and an accepted input is within `2^(s+1)` of the lower bound. -/
theorem sound_clip_wide {rc : RangeCtx} (hT : IsRangeTable T rc) (hc : 0 < rc.chunk) {s : Nat} {off : ZMod p}
    (hd : rc.chunk ∣ s + 1) {x lo hi : Int} (h1 : lo ≤ hi) (h2 : hi - lo < 2 ^ (s + 1))
    (hp : |x - lo| + 2 ^ (s + 2) ≤ p) :
    Sound T (constrainedClip ⟨s, off⟩ rc (x : ZMod p) (some (lo : ZMod p)) (some (hi : ZMod p)))
      (fun r => r = ((min (max x lo) hi : Int) : ZMod p) ∧ |x - lo| < 2 ^ (s + 1)) := by
  have e0 : (2 : Int) ^ (s + 2) = 2 * 2 ^ (s + 1) := by rw [pow_succ]; ring
  have hpos : (0 : Int) < 2 ^ (s + 1) := by positivity
  unfold constrainedClip
  refine Sound.bind (sound_max2 hT hc hd _ _) ?_
  rintro _ ⟨K, hK, e, rfl⟩
  have k1 : x - lo = K := int_eq_of_cast_eq (p := p) (by push_cast; exact e) (by
    have := abs_sub (x - lo) K
    dsimp only at hK
    linarith)
  subst k1
  have e2 : (lo : ZMod p) + ((max 0 (x - lo) : Int) : ZMod p) = ((max x lo : Int) : ZMod p) := by
    have : max x lo = lo + max 0 (x - lo) := by rw [max_def, max_def]; split_ifs <;> omega
    rw [this]; push_cast; ring
  rw [e2]
  refine (sound_min2_int hT hc hd ?_ ?_).conseq fun r hr => ⟨hr, hK⟩
  · have : (2 : Int) ^ (s + 2) ≤ p := by linarith [abs_nonneg (x - lo)]
    dsimp only; exact_mod_cast this
  · dsimp only at hK ⊢
    rw [abs_lt] at hK ⊢
    rcases le_total x lo with h | h
    · rw [max_eq_right h]; constructor <;> omega
    · rw [max_eq_left h]; constructor <;> omega

theorem complete_cmp_wide {x y : Int} {s : Nat} (hx : -2 ^ s ≤ x) (hx' : x + 2 ^ s < p)
    (hy : -2 ^ s ≤ y) (hy' : y + 2 ^ s < p) :
    Complete T (uGreaterEq ((x : ZMod p) + ((2 ^ s : Nat) : ZMod p))
      ((y : ZMod p) + ((2 ^ s : Nat) : ZMod p))) (fun b => b = if y ≤ x then 1 else 0) := by
  have e : ∀ z : Int, (z : ZMod p) + ((2 ^ s : Nat) : ZMod p) = ((z + 2 ^ s : Int) : ZMod p) := by
    intro z; push_cast; ring
  have v : ∀ z : Int, -2 ^ s ≤ z → z + 2 ^ s < p →
      (((z : ZMod p) + ((2 ^ s : Nat) : ZMod p)).val : Int) = z + 2 ^ s := by
    intro z h1 h2
    rw [e z]; exact val_intCast_small (by linarith) (by linarith)
  unfold uGreaterEq
  refine (complete_hint2 rfl).conseq ?_
  rintro b rfl
  have := v x hx hx'
  have := v y hy hy'
  by_cases h : y ≤ x
  · rw [if_pos h]; unfold boolF; rw [if_pos]; simp only [decide_eq_true_eq]; omega
  · rw [if_neg h]; unfold boolF; rw [if_neg]; simp only [decide_eq_true_eq]; omega

/-- Clip to `0 … hi` is complete for inputs from `-2^s` up to `2^(s+1)`. -/
theorem complete_clip_wide {s : Nat} {rc : RangeCtx} (hT : IsRangeTable T rc)
    (hu : RangeUsable p rc (s + 1)) {x hi : Int} (hx : -2 ^ s ≤ x) (hx' : x < 2 ^ (s + 1)) (h0 : 0 ≤ hi)
    (hh : hi < 2 ^ (s + 1)) (hp : 2 ^ (s + 1) + 2 ^ s ≤ p) :
    Complete T (constrainedClip ⟨s, ((2 ^ s : Nat) : ZMod p)⟩ rc (x : ZMod p) (some ((0 : Int) : ZMod p))
      (some (hi : ZMod p))) (fun r => r = ((min (max x 0) hi : Int) : ZMod p)) := by
  have hs : (2 : Int) ^ (s + 1) = 2 ^ s * 2 := pow_succ _ _
  have hpos : (0 : Int) < 2 ^ s := by positivity
  have hp' : (2 : Int) ^ (s + 1) + 2 ^ s ≤ p := by exact_mod_cast hp
  unfold constrainedClip
  refine Complete.bind (P := fun r => r = ((max x 0 : Int) : ZMod p)) ?_ ?_
  · unfold max2
    refine (complete_cmp_wide (x := x) (y := 0) hx (by linarith) (by linarith) (by linarith)).bind ?_
    rintro b rfl
    refine (Det.assertBool ?_).complete.bind fun _ _ => ?_
    · split_ifs <;> simp
    by_cases h : 0 ≤ x
    · simp only [h, if_true]
      refine (hu.completeInt hT (k := x) (by omega) (by linarith) (by push_cast; ring)).bind
        fun _ _ => Complete.pure ?_
      rw [max_eq_left h]; push_cast; ring
    · simp only [h, if_false]
      refine (hu.completeInt hT (k := -x) (by omega) (by linarith) (by push_cast; ring)).bind
        fun _ _ => Complete.pure ?_
      rw [max_eq_right (by omega)]; ring
  · rintro _ rfl
    have hm0 : 0 ≤ max x 0 := le_max_right _ _
    have hm1 : max x 0 < 2 ^ (s + 1) := max_lt hx' (by positivity)
    generalize max x 0 = m at hm0 hm1
    dsimp only
    unfold min2
    refine (complete_cmp_wide (x := hi) (y := m) (by linarith) (by linarith) (by linarith) (by linarith)).bind ?_
    rintro b rfl
    refine (Det.assertBool ?_).complete.bind fun _ _ => ?_
    · split_ifs <;> simp
    by_cases h : m ≤ hi
    · simp only [h, if_true]
      refine (hu.completeInt hT (k := hi - m) (by omega) (by linarith) (by push_cast; ring)).bind
        fun _ _ => Complete.pure ?_
      rw [min_eq_left h]; ring
    · simp only [h, if_false]
      refine (hu.completeInt hT (k := m - hi) (by omega) (by linarith) (by push_cast; ring)).bind
        fun _ _ => Complete.pure ?_
      rw [min_eq_right (by omega)]; ring

theorem Replay.max2 (sc : ShiftCtx p) (rc : RangeCtx) (x a : ZMod p) : Replay (max2 sc rc x a) := by
  unfold JST.max2 uGreaterEq
  exact Replay.hint2.bind fun _ => Replay.assertBool.bind fun _ => (Replay.rangeCheck _ _ _).bind fun _ => Replay.pure

theorem Replay.min2 (sc : ShiftCtx p) (rc : RangeCtx) (x a : ZMod p) : Replay (min2 sc rc x a) := by
  unfold JST.min2 uGreaterEq
  exact Replay.hint2.bind fun _ => Replay.assertBool.bind fun _ => (Replay.rangeCheck _ _ _).bind fun _ => Replay.pure

theorem Replay.clip (sc : ShiftCtx p) (rc : RangeCtx) (x a b : ZMod p) :
    Replay (constrainedClip sc rc x (some a) (some b)) := by
  unfold constrainedClip
  exact (Replay.max2 sc rc x a).bind fun _ => Replay.min2 sc rc _ b

/-! ## HardSwish -/

/-- The number of bits of the tolerance check. -/
theorem hard_bits (κ : Nat) : Nat.clog 2 (2 * (6 * 2 ^ κ)) = κ + 4 := by
  have h1 : (2 : Nat) ^ (κ + 4) = 16 * 2 ^ κ := by rw [pow_add]; ring
  have h2 : (2 : Nat) ^ (κ + 3) = 8 * 2 ^ κ := by rw [pow_add]; ring
  have hpos : 0 < 2 ^ κ := by positivity
  apply le_antisymm
  · exact (Nat.clog_le_iff_le_pow (by norm_num)).2 (by omega)
  · by_contra h
    have := (Nat.clog_le_iff_le_pow (b := 2) (x := 2 * (6 * 2 ^ κ)) (y := κ + 3) (by norm_num)).1 (by omega)
    omega

theorem sound_hardElem {hint : List (ZMod p) → Except Err (List (ZMod p))} {rc : RangeCtx}
    (hT : IsRangeTable T rc) (hc : 0 < rc.chunk) {κ : Nat} {off : ZMod p} (hd : rc.chunk ∣ κ + 4) {u : Int}
    (hp : |u| + 64 * 2 ^ κ ≤ p) :
    Sound T (hardElem hint rc ⟨κ + 3, off⟩ (2 ^ κ) (κ + 4) (u : ZMod p))
      (fun w => -(19 * 2 ^ κ) < u ∧ u < 13 * 2 ^ κ ∧ ∃ e : Int, |e| ≤ 6 * 2 ^ κ ∧
        ((6 * 2 ^ κ : Int) : ZMod p) * w = ((hardProduct κ u + e : Int) : ZMod p)) := by
  have hK : (0 : Int) < 2 ^ κ := by positivity
  have e4 : (2 : Int) ^ (κ + 4) = 16 * 2 ^ κ := by rw [pow_add]; ring
  have e5 : (2 : Int) ^ (κ + 5) = 32 * 2 ^ κ := by rw [pow_add]; ring
  unfold hardElem
  refine Sound.bind newHint_one fun out _ => ?_
  generalize out.headD 0 = y
  dsimp only
  have c1 : (u : ZMod p) + ((3 * 2 ^ κ : Nat) : ZMod p) = ((u + 3 * 2 ^ κ : Int) : ZMod p) := by push_cast; ring
  have c2 : (0 : ZMod p) = ((0 : Int) : ZMod p) := by simp
  have c3 : ((6 * 2 ^ κ : Nat) : ZMod p) = ((6 * 2 ^ κ : Int) : ZMod p) := by push_cast; ring
  rw [c1, c2, c3]
  have hab : |u + 3 * 2 ^ κ| ≤ |u| + 3 * 2 ^ κ := by
    have := abs_add_le u (3 * 2 ^ κ)
    rwa [abs_of_pos (show (0 : Int) < 3 * 2 ^ κ by linarith)] at this
  refine Sound.bind (sound_clip_wide hT hc hd (x := u + 3 * 2 ^ κ) (lo := 0) (hi := 6 * 2 ^ κ) (by linarith)
    (by rw [e4]; linarith) (by rw [sub_zero, e5]; linarith)) ?_
  rintro _ ⟨rfl, hlt⟩
  rw [sub_zero, e4] at hlt
  obtain ⟨l1, l2⟩ := abs_lt.mp hlt
  refine Sound.bind (sound_rangeCheck_dvd hT hc hd) ?_
  rintro _ ⟨k1, hk1, f1⟩
  refine Sound.bind (sound_rangeCheck_dvd hT hc hd) ?_
  rintro _ ⟨k2, hk2, f2⟩
  have hk1' : (k1 : Int) < 2 ^ (κ + 4) := by exact_mod_cast hk1
  have hk2' : (k2 : Int) < 2 ^ (κ + 4) := by exact_mod_cast hk2
  rw [e4] at hk1' hk2'
  have t : 12 * 2 ^ κ - (k1 : Int) = (k2 : Int) := by
    apply int_eq_of_cast_eq (p := p)
    · rw [Int.cast_natCast, ← f2, f1]; push_cast; ring
    · rw [abs_lt]; constructor <;> linarith [Int.natCast_nonneg k1, Int.natCast_nonneg k2, abs_nonneg u]
  refine Sound.pure ⟨by linarith, by linarith, (k1 : Int) - 6 * 2 ^ κ, ?_, ?_⟩
  · rw [abs_le]; constructor <;> linarith [Int.natCast_nonneg k1, Int.natCast_nonneg k2]
  · unfold hardProduct
    push_cast at f1 ⊢
    rw [← f1]; ring

/-- **C58, HardSwish, proved part**: an accepted execution has all its inputs strictly between `-19` and `13`, and an
output that is an integer of at most `B` in absolute value is within 1 of HardSwish of its input. Missing:
nothing makes the output such an integer (`C58_hardswish_unsound`), inputs of 13 and more have no proof
(`C58_hardswish_unprovable`), and digit widths that do not divide `κ + 4`. -/
theorem C58_hardswish_sound_partial {hint : List (ZMod p) → Except Err (List (ZMod p))} {rc : RangeCtx}
    (hT : IsRangeTable T rc) (hc : 0 < rc.chunk) {κ : Nat} (hd : rc.chunk ∣ κ + 4) {B : Int}
    (x : Arr Int) (hx : x.WF) (hp : ∀ u ∈ x.data, |u| + 64 * 2 ^ κ ≤ p)
    (hB : 6 * 2 ^ κ * B + 120 * 2 ^ (2 * κ) + 6 * 2 ^ κ < p) :
    Sound T (hardLayer hint rc κ (castArr p x)) (IsUnary x fun u w =>
      -(19 * 2 ^ κ) < u ∧ u < 13 * 2 ^ κ ∧
      ∀ Y : Int, |Y| ≤ B → w = (Y : ZMod p) → |6 * 2 ^ κ * Y - hardProduct κ u| ≤ 6 * 2 ^ κ) := by
  unfold hardLayer
  split_ifs with h
  · exact Sound.throwErr
  refine Sound.bind sound_shiftCtx ?_
  rintro _ rfl
  rw [hard_bits]
  refine sound_mapLayer hx fun u hm => (sound_hardElem hT hc hd (hp u hm)).conseq ?_
  rintro w ⟨h1, h2, e, he, hw⟩
  refine ⟨h1, h2, ?_⟩
  rintro Y hY rfl
  have hK : (0 : Int) < 2 ^ κ := by positivity
  have e2 : (2 : Int) ^ (2 * κ) = 2 ^ κ * 2 ^ κ := by rw [two_mul, pow_add]
  rw [e2] at hB
  have key : 6 * 2 ^ κ * Y = hardProduct κ u + e := by
    apply int_eq_of_cast_eq (p := p)
    · rw [← hw]; push_cast; ring
    · have b1 : |6 * 2 ^ κ * Y| ≤ 6 * 2 ^ κ * B := by
        rw [abs_mul, abs_of_pos (show (0 : Int) < 6 * 2 ^ κ by linarith)]
        exact mul_le_mul_of_nonneg_left hY (by linarith)
      have b2 : |hardProduct κ u| ≤ 19 * 2 ^ κ * (6 * 2 ^ κ) := by
        unfold hardProduct
        rw [abs_mul]
        refine mul_le_mul (abs_le.mpr ⟨by linarith, by linarith⟩) ?_ (abs_nonneg _) (by linarith)
        rw [abs_of_nonneg (le_min (le_max_right _ _) (by linarith))]
        exact min_le_right _ _
      have b3 := abs_sub (6 * 2 ^ κ * Y) (hardProduct κ u + e)
      have b4 := abs_add_le (hardProduct κ u) e
      nlinarith
  rw [key, add_sub_cancel_left]
  exact he

/-- **C58, HardSwish cannot be proved for inputs of 13 and more**, nor for inputs of -19 and less: no execution is
accepted. -/
theorem C58_hardswish_unprovable {hint : List (ZMod p) → Except Err (List (ZMod p))} {rc : RangeCtx}
    (hT : IsRangeTable T rc) (hc : 0 < rc.chunk) {κ : Nat} (hd : rc.chunk ∣ κ + 4) (x : Arr Int)
    {u : Int} (hm : u ∈ x.data) (hp : |u| + 64 * 2 ^ κ ≤ p)
    (hu : 13 * 2 ^ κ ≤ u ∨ u ≤ -(19 * 2 ^ κ)) :
    Sound T (hardLayer hint rc κ (castArr p x)) (fun _ => False) := by
  unfold hardLayer
  split_ifs with h
  · exact Sound.throwErr
  refine Sound.bind sound_shiftCtx ?_
  rintro _ rfl
  rw [hard_bits, mapLayer_eq]
  refine Sound.bind (sound_collectG_false _ ⟨u, hm, ?_⟩) fun _ h => h.elim
  refine (sound_hardElem hT hc hd hp).conseq ?_
  rintro w ⟨h1, h2, -⟩
  rcases hu with hu | hu <;> linarith

theorem forge_hardElem {hint : List (ZMod p) → Except Err (List (ZMod p))} {rc : RangeCtx}
    (hT : IsRangeTable T rc) {κ : Nat} (hu : RangeUsable p rc (κ + 4)) (h4 : RangeCallable rc (κ + 4)) {u : Int}
    (h1 : -(11 * 2 ^ κ) ≤ u) (h2 : u < 13 * 2 ^ κ) (hp : 24 * 2 ^ κ ≤ p) (h6 : ((6 * 2 ^ κ : Int) : ZMod p) ≠ 0)
    {e : Int} (he : |e| ≤ 6 * 2 ^ κ) :
    Forge T (hardElem hint rc ⟨κ + 3, ((2 ^ (κ + 3) : Nat) : ZMod p)⟩ (2 ^ κ) (κ + 4) (u : ZMod p))
      (fun w => w = ((hardProduct κ u + e : Int) : ZMod p) / ((6 * 2 ^ κ : Int) : ZMod p)) := by
  have hK : (0 : Int) < 2 ^ κ := by positivity
  have e3 : (2 : Int) ^ (κ + 3) = 8 * 2 ^ κ := by rw [pow_add]; ring
  have e4 : (2 : Int) ^ (κ + 4) = 16 * 2 ^ κ := by rw [pow_add]; ring
  obtain ⟨he1, he2⟩ := abs_le.mp he
  set y := ((hardProduct κ u + e : Int) : ZMod p) / ((6 * 2 ^ κ : Int) : ZMod p) with hy
  have hy' : ((6 * 2 ^ κ : Int) : ZMod p) * y = ((hardProduct κ u + e : Int) : ZMod p) := by
    rw [hy]; field_simp
  unfold hardElem
  refine Forge.bind (Forge.newHint _ _ [y] rfl) (a := [y]) (fun _ h => h) ?_
  dsimp only [List.headD_cons]
  have c1 : (u : ZMod p) + ((3 * 2 ^ κ : Nat) : ZMod p) = ((u + 3 * 2 ^ κ : Int) : ZMod p) := by push_cast; ring
  have c2 : (0 : ZMod p) = ((0 : Int) : ZMod p) := by simp
  have c3 : ((6 * 2 ^ κ : Nat) : ZMod p) = ((6 * 2 ^ κ : Int) : ZMod p) := by push_cast; ring
  rw [c1, c2, c3]
  have hp' : 2 ^ (κ + 3 + 1) + 2 ^ (κ + 3) ≤ p := by
    have a1 : (2 : Nat) ^ (κ + 3 + 1) = 16 * 2 ^ κ := by rw [pow_add, pow_add]; ring
    have a2 : (2 : Nat) ^ (κ + 3) = 8 * 2 ^ κ := by rw [pow_add]; ring
    omega
  refine Forge.bind ((complete_clip_wide hT hu (x := u + 3 * 2 ^ κ) (hi := 6 * 2 ^ κ) (by linarith)
    (by rw [e4]; linarith) (by linarith) (by rw [e4]; linarith) hp').forge (Replay.clip _ _ _ _ _)) (fun _ h => h) ?_
  have f1 : 6 * y * ((2 ^ κ : Nat) : ZMod p) - (u : ZMod p) * ((min (max (u + 3 * 2 ^ κ) 0) (6 * 2 ^ κ) : Int) : ZMod p)
      + ((6 * 2 ^ κ : Int) : ZMod p) = ((e + 6 * 2 ^ κ : Int) : ZMod p) := by
    have := hy'
    unfold hardProduct at this
    push_cast at this ⊢
    linear_combination this
  rw [f1]
  refine Forge.bind (h4.forge hT (accepted_nonneg (k := e + 6 * 2 ^ κ) (by linarith) (by rw [e4]; linarith)) rfl)
    (a := ()) (fun _ _ => rfl) ?_
  refine Forge.bind (h4.forge hT (accepted_nonneg (k := 6 * 2 ^ κ - e) (by linarith) (by rw [e4]; linarith))
    (by push_cast; ring)) (a := ()) (fun _ _ => rfl) ?_
  exact Forge.pure rfl

/-- HardSwish refuses scale exponents of 32 and more. -/
theorem C58_hardswish_refuses {hint : List (ZMod p) → Except Err (List (ZMod p))} {rc : RangeCtx} {κ : Nat}
    (x : Arr (ZMod p)) (s : Hints (ZMod p)) (hκ : 32 ≤ κ) :
    hardLayer hint rc κ x s =
      .error (.err "scale_exponent >= 32: overflows u64 in HardSwish verification") := by
  unfold hardLayer
  rw [if_pos hκ]
  rfl

/-- **C58 is false for HardSwish**, for every digit width: for every tensor of entries from `-11` up to `13` there is
an accepted execution in which *no* output is the image of an integer of at most `B` in absolute value. -/
theorem C58_hardswish_unsound {hint : List (ZMod p) → Except Err (List (ZMod p))} {rc : RangeCtx}
    (hT : IsRangeTable T rc) {κ : Nat} (hκ : κ < 32) (hu : RangeUsable p rc (κ + 4))
    (h4 : RangeCallable rc (κ + 4)) {B : Int} (hB0 : 0 ≤ B)
    (hB : 6 * 2 ^ κ * B + 120 * 2 ^ (2 * κ) + 24 * 2 ^ κ < p) (x : Arr Int) (hx : x.WF)
    (hr : ∀ u ∈ x.data, -(11 * 2 ^ κ) ≤ u ∧ u < 13 * 2 ^ κ) :
    Forge T (hardLayer hint rc κ (castArr p x)) (IsUnary x fun _ w => ∀ Y : Int, |Y| ≤ B → w ≠ (Y : ZMod p)) := by
  have hK : (0 : Int) < 2 ^ κ := by positivity
  have e2 : (2 : Int) ^ (2 * κ) = 2 ^ κ * 2 ^ κ := by rw [two_mul, pow_add]
  rw [e2] at hB
  have hKB : 0 ≤ 6 * 2 ^ κ * B := by positivity
  have h24 : (24 : Int) * 2 ^ κ ≤ p := by nlinarith
  have h24' : 24 * 2 ^ κ ≤ p := by exact_mod_cast h24
  have h6 : ((6 * 2 ^ κ : Int) : ZMod p) ≠ 0 := by
    intro h
    have : (6 * 2 ^ κ : Int) = 0 := by
      apply int_eq_of_cast_eq (p := p)
      · rw [h]; simp
      · rw [sub_zero, abs_of_pos (by linarith)]; linarith
    linarith
  unfold hardLayer
  rw [if_neg (by omega)]
  refine Forge.bind (forge_shiftCtx (by omega)) (fun _ h => h) ?_
  rw [hard_bits]
  refine Forge.conseq (forge_mapLayer hx (g := fun u => ((hardProduct κ u + (if (6 * 2 ^ κ : Int) ∣ hardProduct κ u
    then 1 else 0) : Int) : ZMod p) / ((6 * 2 ^ κ : Int) : ZMod p)) fun u hm => ?_) ?_
  · refine forge_hardElem hT hu h4 (hr u hm).1 (hr u hm).2 h24' h6 ?_
    split_ifs <;> simp <;> omega
  · rintro out ⟨o1, o2, o3⟩
    refine ⟨o1, o2, fun c hc => ?_⟩
    obtain ⟨u, w, hu1, hw1, rfl⟩ := o3 c hc
    refine ⟨u, _, hu1, hw1, ?_⟩
    intro Y hY hcon
    have hmem : u ∈ x.data := List.mem_of_getElem? hu1
    obtain ⟨r1, r2⟩ := hr u hmem
    set d : Int := if (6 * 2 ^ κ : Int) ∣ hardProduct κ u then 1 else 0 with hdd
    have hd01 : 0 ≤ d ∧ d ≤ 1 := by rw [hdd]; split_ifs <;> simp
    have key : hardProduct κ u + d = 6 * 2 ^ κ * Y := by
      apply int_eq_of_cast_eq (p := p)
      · rw [div_eq_iff h6] at hcon
        rw [hcon]; push_cast; ring
      · have b1 : |6 * 2 ^ κ * Y| ≤ 6 * 2 ^ κ * B := by
          rw [abs_mul, abs_of_pos (show (0 : Int) < 6 * 2 ^ κ by linarith)]
          exact mul_le_mul_of_nonneg_left hY (by linarith)
        have b2 : |hardProduct κ u| ≤ 19 * 2 ^ κ * (6 * 2 ^ κ) := by
          unfold hardProduct
          rw [abs_mul]
          refine mul_le_mul (abs_le.mpr ⟨by linarith, by linarith⟩) ?_ (abs_nonneg _) (by linarith)
          rw [abs_of_nonneg (le_min (le_max_right _ _) (by linarith))]
          exact min_le_right _ _
        have b3 := abs_sub (hardProduct κ u + d) (6 * 2 ^ κ * Y)
        have b4 := abs_add_le (hardProduct κ u) d
        rw [abs_of_nonneg hd01.1] at b4
        nlinarith
    by_cases hdv : (6 * 2 ^ κ : Int) ∣ hardProduct κ u
    · rw [if_pos hdv] at hdd
      have : (6 * 2 ^ κ : Int) ∣ 1 := by
        have h1 : (6 * 2 ^ κ : Int) ∣ hardProduct κ u + d := ⟨Y, key⟩
        rw [hdd] at h1
        exact (dvd_add_right hdv).mp h1
      have := Int.le_of_dvd (by norm_num) this
      linarith
    · rw [if_neg hdv, ] at hdd
      exact hdv ⟨Y, by rw [← key, hdd, add_zero]⟩

/-- The hint of HardSwish is within 1 of the exact value on the inputs of the layer (hints/hardswish.rs:15-58: the exact
value, rounded; `f64` arithmetic). -/
def HardHint (hint : List (ZMod p) → Except Err (List (ZMod p))) (κ : Nat) (Y : Int → Int) : Prop :=
  ∀ u : Int, -(11 * 2 ^ κ) ≤ u → u < 13 * 2 ^ κ →
    hint [(u : ZMod p), ((2 ^ κ : Nat) : ZMod p)] = .ok [((Y u : Int) : ZMod p)] ∧
    |6 * 2 ^ κ * Y u - hardProduct κ u| ≤ 6 * 2 ^ κ

/-- **C58, HardSwish completeness, proved part**: the honest prover succeeds for entries from `-11` up to `13`, for every
digit width. Missing: other entries (`C58_hardswish_unprovable`). -/
theorem C58_hardswish_complete_partial {hint : List (ZMod p) → Except Err (List (ZMod p))} {rc : RangeCtx}
    (hT : IsRangeTable T rc) {κ : Nat} (hκ : κ < 32) (hu : RangeUsable p rc (κ + 4)) {Y : Int → Int}
    (hh : HardHint hint κ Y) (hp : 24 * 2 ^ κ ≤ p) (x : Arr Int) (hx : x.WF)
    (hr : ∀ u ∈ x.data, -(11 * 2 ^ κ) ≤ u ∧ u < 13 * 2 ^ κ) :
    Complete T (hardLayer hint rc κ (castArr p x)) (IsUnary x fun u w => w = ((Y u : Int) : ZMod p)) := by
  have hK : (0 : Int) < 2 ^ κ := by positivity
  have e3 : (2 : Int) ^ (κ + 3) = 8 * 2 ^ κ := by rw [pow_add]; ring
  have e4 : (2 : Int) ^ (κ + 4) = 16 * 2 ^ κ := by rw [pow_add]; ring
  have hp' : 2 ^ (κ + 3 + 1) + 2 ^ (κ + 3) ≤ p := by
    have a1 : (2 : Nat) ^ (κ + 3 + 1) = 16 * 2 ^ κ := by rw [pow_add, pow_add]; ring
    have a2 : (2 : Nat) ^ (κ + 3) = 8 * 2 ^ κ := by rw [pow_add]; ring
    omega
  unfold hardLayer
  rw [if_neg (by omega)]
  refine Complete.bind (complete_shiftCtx (by omega)) ?_
  rintro _ rfl
  rw [hard_bits]
  refine complete_mapLayer hx fun u hm => ?_
  obtain ⟨h1, h2⟩ := hr u hm
  obtain ⟨g1, g2⟩ := hh u h1 h2
  obtain ⟨g3, g4⟩ := abs_le.mp g2
  unfold hardElem
  refine Complete.bind (Complete.newHint g1 rfl) ?_
  rintro _ rfl
  dsimp only [List.headD_cons]
  have c1 : (u : ZMod p) + ((3 * 2 ^ κ : Nat) : ZMod p) = ((u + 3 * 2 ^ κ : Int) : ZMod p) := by push_cast; ring
  have c2 : (0 : ZMod p) = ((0 : Int) : ZMod p) := by simp
  have c3 : ((6 * 2 ^ κ : Nat) : ZMod p) = ((6 * 2 ^ κ : Int) : ZMod p) := by push_cast; ring
  rw [c1, c2, c3]
  refine Complete.bind (complete_clip_wide hT hu (x := u + 3 * 2 ^ κ) (hi := 6 * 2 ^ κ) (by linarith)
    (by rw [e4]; linarith) (by linarith) (by rw [e4]; linarith) hp') ?_
  rintro _ rfl
  refine Complete.bind (hu.completeInt hT (k := 6 * 2 ^ κ * Y u - hardProduct κ u + 6 * 2 ^ κ) (by linarith)
    (by rw [e4]; linarith) (by unfold hardProduct; push_cast; ring)) fun _ _ => ?_
  refine Complete.bind (hu.completeInt hT (k := 6 * 2 ^ κ - (6 * 2 ^ κ * Y u - hardProduct κ u)) (by linarith)
    (by rw [e4]; linarith) (by unfold hardProduct; push_cast; ring)) fun _ _ => ?_
  exact Complete.pure rfl

/-! ## The hypotheses are met -/

/-- A hint with the exact value rounded down. -/
def hardHint (inputs : List (ZMod p)) : Except Err (List (ZMod p)) :=
  match inputs with
  | [x, s] => .ok [((fieldToI64 x * min (max (fieldToI64 x + 3 * s.val) 0) (6 * s.val) / (6 * s.val) : Int) : ZMod p)]
  | _ => .error (.hint "arity")

theorem hardHint_ok {κ : Nat} (hκ : κ < 32) (hp : 2 ^ (κ + 6) ≤ p) :
    HardHint (p := p) hardHint κ (fun u => hardProduct κ u / (6 * 2 ^ κ)) := by
  intro u h1 h2
  have hK : (0 : Int) < 2 ^ κ := by positivity
  have hpos : (0 : Nat) < 2 ^ κ := by positivity
  have e6 : (2 : Nat) ^ (κ + 6) = 64 * 2 ^ κ := by rw [pow_add]; ring
  have h32 : (2 : Nat) ^ κ ≤ 2 ^ 32 := Nat.pow_le_pow_right (by norm_num) (by omega)
  have hc : ((2 ^ κ : Nat) : Int) = 2 ^ κ := by push_cast; rfl
  have v : (((2 ^ κ : Nat)) : ZMod p).val = 2 ^ κ := by rw [ZMod.val_natCast, Nat.mod_eq_of_lt (by omega)]
  constructor
  · unfold hardHint
    dsimp only
    rw [v, fieldToI64_cast u (by omega) (by omega), hc]
    rfl
  · have hdm := Int.ediv_mul_add_emod (hardProduct κ u) (6 * 2 ^ κ)
    have m0 := Int.emod_nonneg (hardProduct κ u) (show (6 * 2 ^ κ : Int) ≠ 0 by positivity)
    have m1 := Int.emod_lt_of_pos (hardProduct κ u) (show (0 : Int) < 6 * 2 ^ κ by positivity)
    rw [abs_le]; constructor <;> linarith

/-- Scale 256; entries -1, 0.5, 3.9 and 10. -/
def hardX : Arr Int := ⟨[2, 2], [-256, 128, 1000, 2560]⟩

example : Sound (rangeTables goldP ⟨0, 4⟩) (hardLayer hardHint ⟨0, 4⟩ 8 (castArr goldP hardX))
    (IsUnary hardX fun u w => -(19 * 2 ^ 8) < u ∧ u < 13 * 2 ^ 8 ∧ ∀ Y : Int, |Y| ≤ 2 ^ 40 →
      w = (Y : ZMod goldP) → |6 * 2 ^ 8 * Y - hardProduct 8 u| ≤ 6 * 2 ^ 8) :=
  C58_hardswish_sound_partial (rangeTables_spec _) (by norm_num) (by norm_num) _ rfl (by decide +kernel)
    (by norm_num [goldP])

/-- An entry of 13 has no proof. -/
example : Sound (rangeTables goldP ⟨0, 4⟩) (hardLayer hardHint ⟨0, 4⟩ 8 (castArr goldP ⟨[2], [5, 13 * 256]⟩))
    (fun _ => False) :=
  C58_hardswish_unprovable (rangeTables_spec _) (by norm_num) (by norm_num) _ (u := 13 * 256) (by simp)
    (by decide +kernel) (.inl (by norm_num))

example : Forge (rangeTables goldP ⟨0, 12⟩) (hardLayer hardHint ⟨0, 12⟩ 8 (castArr goldP hardX))
    (IsUnary hardX fun _ w => ∀ Y : Int, |Y| ≤ 2 ^ 40 → w ≠ (Y : ZMod goldP)) :=
  C58_hardswish_unsound (rangeTables_spec _) (by norm_num)
    ⟨by norm_num, by norm_num, by norm_num, by norm_num, by norm_num, by norm_num [slackBits, goldP]⟩
    ⟨by norm_num, by norm_num, by norm_num, by norm_num, by norm_num⟩ (by norm_num) (by norm_num [goldP]) _ rfl
    (by decide +kernel)

example : Complete (rangeTables goldP ⟨0, 12⟩) (hardLayer hardHint ⟨0, 12⟩ 8 (castArr goldP hardX))
    (IsUnary hardX fun u w => w = ((hardProduct 8 u / (6 * 2 ^ 8) : Int) : ZMod goldP)) :=
  C58_hardswish_complete_partial (rangeTables_spec _) (by norm_num)
    ⟨by norm_num, by norm_num, by norm_num, by norm_num, by norm_num, by norm_num [slackBits, goldP]⟩
    (hardHint_ok (by norm_num) (by norm_num [goldP])) (by norm_num [goldP]) _ rfl (by decide +kernel)

end JST.Props
