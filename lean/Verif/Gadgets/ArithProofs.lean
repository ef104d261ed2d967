import Verif.Gadgets.Arith
import Verif.Gadgets.RangeCheckProofs
import Mathlib.Tactic.Positivity

/-! # Helper lemmas about the arithmetic gadgets -/

set_option linter.unusedSectionVars false

namespace JST

variable {p : Nat} [Fact p.Prime] {T : Tables (ZMod p)}

/-- Two integers less than `p` apart with the same residue are equal. -/
theorem int_eq_of_cast_eq {a b : Int} (h : (a : ZMod p) = (b : ZMod p)) (hlt : |a - b| < p) :
    a = b := by
  have hd : (p : Int) ∣ a - b := (ZMod.intCast_eq_intCast_iff_dvd_sub b a p).mp h.symm
  have := Int.eq_zero_of_abs_lt_dvd hd hlt
  omega

theorem sound_hint2 {f : ZMod p → ZMod p → Except Err (ZMod p)} {x y : ZMod p} :
    Sound T (hint2 f x y) (fun _ => True) := fun _ _ _ _ => trivial

theorem complete_hint2 {f : ZMod p → ZMod p → Except Err (ZMod p)} {x y v : ZMod p}
    (h : f x y = .ok v) : Complete T (hint2 f x y) (fun r => r = v) := by
  unfold hint2
  refine (Complete.newHint (outs := [v]) ?_ rfl).bind ?_
  · simp [h, Except.map]
  · rintro l rfl; exact Complete.pure rfl

theorem forge_hint2 (f : ZMod p → ZMod p → Except Err (ZMod p)) (x y v : ZMod p) :
    Forge T (hint2 f x y) (fun r => r = v) := by
  unfold hint2
  exact (Forge.newHint _ _ [v] rfl).bind (a := [v]) (fun _ h => h)
    (Det.pure (F := ZMod p) (T := T) (Q := fun r => r = v) (a := v) rfl).forge

/-- The parameters under which honest range checks of `n` bits succeed. -/
structure RangeUsable (p : Nat) (rc : RangeCtx) (n : Nat) : Prop where
  chunk_pos : 0 < rc.chunk
  chunk_lt : rc.chunk < 32
  n_pos : 0 < n
  n_le : n ≤ 128
  n_128 : n % rc.chunk ≠ 0 → n < 128
  fits : 2 ^ (n + slackBits rc.chunk n) ≤ p

theorem RangeUsable.complete {rc : RangeCtx} {n : Nat} (h : RangeUsable p rc n)
    (hT : IsRangeTable T rc) {a : ZMod p} {k : Nat} (hk : k < 2 ^ n) (ha : a = (k : ZMod p)) :
    Complete T (rangeCheck rc a n) (fun _ => True) :=
  complete_rangeCheck hT h.chunk_pos h.chunk_lt h.n_pos h.n_le h.n_128 h.fits hk ha

theorem RangeUsable.pow_le {rc : RangeCtx} {n : Nat} (h : RangeUsable p rc n) : 2 ^ n ≤ p :=
  le_trans (Nat.pow_le_pow_right (by norm_num) (by omega)) h.fits

/-- Integer version of range-check completeness. -/
theorem RangeUsable.completeInt {rc : RangeCtx} {n : Nat} (h : RangeUsable p rc n)
    (hT : IsRangeTable T rc) {a : ZMod p} {k : Int} (h0 : 0 ≤ k) (hk : k < 2 ^ n)
    (ha : a = (k : ZMod p)) : Complete T (rangeCheck rc a n) (fun _ => True) := by
  obtain ⟨K, rfl⟩ := Int.eq_ofNat_of_zero_le h0
  exact h.complete hT (k := K) (by exact_mod_cast hk) (by simpa using ha)

/-! ### ReLU -/

theorem sound_relu {sc : ShiftCtx p} {rc : RangeCtx} (hT : IsRangeTable T rc) (hc : 0 < rc.chunk)
    (hd : rc.chunk ∣ sc.shiftExp + 1) (x : ZMod p) :
    Sound T (constrainedRelu sc rc x) (fun r => ∃ K : Int, |K| < 2 ^ (sc.shiftExp + 1) ∧
      x = (K : ZMod p) ∧ r = ((max 0 K : Int) : ZMod p)) := by
  unfold constrainedRelu uGreaterEq
  refine sound_hint2.bind fun b _ => Sound.assertBool.bind fun _ hb => ?_
  refine (sound_rangeCheck_dvd hT hc hd).bind fun _ hk => Sound.pure ?_
  obtain ⟨k, hk, e⟩ := hk
  have hk' : (k : Int) < 2 ^ (sc.shiftExp + 1) := by exact_mod_cast hk
  rcases hb with rfl | rfl
  · refine ⟨-(k : Int), by simpa using hk', ?_, ?_⟩
    · push_cast; linear_combination -e
    · rw [max_eq_left (by omega)]; simp
  · refine ⟨(k : Int), by simpa using hk', ?_, ?_⟩
    · push_cast; linear_combination e
    · rw [max_eq_right (by omega)]; push_cast; linear_combination e

theorem val_intCast_small {k : Int} (h0 : 0 ≤ k) (hk : k < p) : ((k : ZMod p).val : Int) = k := by
  obtain ⟨K, rfl⟩ := Int.eq_ofNat_of_zero_le h0
  rw [Int.cast_natCast, val_natCast_small (by exact_mod_cast hk)]

/-- Honest comparison of offset values. -/
theorem complete_cmp {x y : Int} {s : Nat} (hp : 2 ^ (s + 1) ≤ p) (hx : -2 ^ s ≤ x) (hx' : x < 2 ^ s)
    (hy : -2 ^ s ≤ y) (hy' : y < 2 ^ s) :
    Complete T (uGreaterEq ((x : ZMod p) + ((2 ^ s : Nat) : ZMod p))
      ((y : ZMod p) + ((2 ^ s : Nat) : ZMod p))) (fun b => b = if y ≤ x then 1 else 0) := by
  have e : ∀ z : Int, (z : ZMod p) + ((2 ^ s : Nat) : ZMod p) = ((z + 2 ^ s : Int) : ZMod p) := by
    intro z; push_cast; ring
  have hp' : (2 : Int) ^ s * 2 ≤ p := by rw [← pow_succ]; exact_mod_cast hp
  have v : ∀ z : Int, -2 ^ s ≤ z → z < 2 ^ s →
      (((z : ZMod p) + ((2 ^ s : Nat) : ZMod p)).val : Int) = z + 2 ^ s := by
    intro z h1 h2
    rw [e z]; exact val_intCast_small (by linarith) (by linarith)
  unfold uGreaterEq
  refine (complete_hint2 rfl).conseq ?_
  rintro b rfl
  have := v x hx hx'
  have := v y hy hy'
  by_cases h : y ≤ x
  · rw [if_pos h]; unfold boolF; rw [if_pos]; simp only [decide_eq_true_eq]; omega
  · rw [if_neg h]; unfold boolF; rw [if_neg]; simp only [decide_eq_true_eq]; omega

theorem complete_relu {s : Nat} {rc : RangeCtx} (hT : IsRangeTable T rc)
    (hu : RangeUsable p rc (s + 1)) {x : Int} (hx : -2 ^ s ≤ x) (hx' : x < 2 ^ s) :
    Complete T (constrainedRelu ⟨s, ((2 ^ s : Nat) : ZMod p)⟩ rc (x : ZMod p))
      (fun r => r = ((max 0 x : Int) : ZMod p)) := by
  have h2 : (0 : Int) < 2 ^ s := by positivity
  have hs : (2 : Int) ^ (s + 1) = 2 ^ s * 2 := pow_succ _ _
  unfold constrainedRelu
  have hcmp := complete_cmp (T := T) (x := x) (y := 0) hu.pow_le hx hx' (by linarith) h2
  rw [Int.cast_zero, zero_add] at hcmp
  refine hcmp.bind ?_
  rintro b rfl
  refine (Det.assertBool ?_).complete.bind fun _ _ => ?_
  · split_ifs <;> simp
  by_cases h : 0 ≤ x
  · simp only [h, if_true]
    refine (hu.completeInt hT (k := x) h (by linarith) (by ring)).bind fun _ _ => Complete.pure ?_
    rw [max_eq_right h]; ring
  · simp only [h, if_false]
    refine (hu.completeInt hT (k := -x) (by omega) (by linarith) (by push_cast; ring)).bind
      fun _ _ => Complete.pure ?_
    rw [max_eq_left (by omega)]; simp

/-! ### Two-argument max and min -/

theorem sound_max2 {sc : ShiftCtx p} {rc : RangeCtx} (hT : IsRangeTable T rc) (hc : 0 < rc.chunk)
    (hd : rc.chunk ∣ sc.shiftExp + 1) (x a : ZMod p) :
    Sound T (max2 sc rc x a) (fun r => ∃ K : Int, |K| < 2 ^ (sc.shiftExp + 1) ∧
      x - a = (K : ZMod p) ∧ r = a + ((max 0 K : Int) : ZMod p)) := by
  unfold max2 uGreaterEq
  refine sound_hint2.bind fun b _ => Sound.assertBool.bind fun _ hb => ?_
  refine (sound_rangeCheck_dvd hT hc hd).bind fun _ hk => Sound.pure ?_
  obtain ⟨k, hk, e⟩ := hk
  have hk' : (k : Int) < 2 ^ (sc.shiftExp + 1) := by exact_mod_cast hk
  rcases hb with rfl | rfl
  · refine ⟨-(k : Int), by simpa using hk', ?_, ?_⟩
    · push_cast; linear_combination -e
    · rw [max_eq_left (by omega)]; simp
  · refine ⟨(k : Int), by simpa using hk', ?_, ?_⟩
    · push_cast; linear_combination e
    · rw [max_eq_right (by omega)]; push_cast; linear_combination e

theorem sound_min2 {sc : ShiftCtx p} {rc : RangeCtx} (hT : IsRangeTable T rc) (hc : 0 < rc.chunk)
    (hd : rc.chunk ∣ sc.shiftExp + 1) (x a : ZMod p) :
    Sound T (min2 sc rc x a) (fun r => ∃ K : Int, |K| < 2 ^ (sc.shiftExp + 1) ∧
      a - x = (K : ZMod p) ∧ r = a - ((max 0 K : Int) : ZMod p)) := by
  unfold min2 uGreaterEq
  refine sound_hint2.bind fun b _ => Sound.assertBool.bind fun _ hb => ?_
  refine (sound_rangeCheck_dvd hT hc hd).bind fun _ hk => Sound.pure ?_
  obtain ⟨k, hk, e⟩ := hk
  have hk' : (k : Int) < 2 ^ (sc.shiftExp + 1) := by exact_mod_cast hk
  rcases hb with rfl | rfl
  · refine ⟨-(k : Int), by simpa using hk', ?_, ?_⟩
    · push_cast; linear_combination -e
    · rw [max_eq_left (by omega)]; simp
  · refine ⟨(k : Int), by simpa using hk', ?_, ?_⟩
    · push_cast; linear_combination e
    · rw [max_eq_right (by omega)]; push_cast; linear_combination -e

/-- With integers for both inputs, `max2` returns their maximum. -/
theorem sound_max2_int {sc : ShiftCtx p} {rc : RangeCtx} (hT : IsRangeTable T rc)
    (hc : 0 < rc.chunk) (hd : rc.chunk ∣ sc.shiftExp + 1) (hp : 2 ^ (sc.shiftExp + 2) ≤ p)
    {x a : Int} (hlt : |x - a| < 2 ^ (sc.shiftExp + 1)) :
    Sound T (max2 sc rc (x : ZMod p) (a : ZMod p)) (fun r => r = ((max x a : Int) : ZMod p)) := by
  refine (sound_max2 hT hc hd _ _).conseq ?_
  rintro r ⟨K, hK, e, rfl⟩
  have hp' : (2 : Int) ^ (sc.shiftExp + 1) * 2 ≤ p := by rw [← pow_succ]; exact_mod_cast hp
  have : x - a = K := int_eq_of_cast_eq (p := p) (by push_cast; exact e) (by
    rw [abs_lt] at *; constructor <;> linarith [hK.1, hK.2, hlt.1, hlt.2])
  subst this
  have e2 : max x a = a + max 0 (x - a) := by rw [max_def, max_def]; split_ifs <;> omega
  rw [e2]; push_cast; ring

theorem sound_min2_int {sc : ShiftCtx p} {rc : RangeCtx} (hT : IsRangeTable T rc)
    (hc : 0 < rc.chunk) (hd : rc.chunk ∣ sc.shiftExp + 1) (hp : 2 ^ (sc.shiftExp + 2) ≤ p)
    {x a : Int} (hlt : |x - a| < 2 ^ (sc.shiftExp + 1)) :
    Sound T (min2 sc rc (x : ZMod p) (a : ZMod p)) (fun r => r = ((min x a : Int) : ZMod p)) := by
  refine (sound_min2 hT hc hd _ _).conseq ?_
  rintro r ⟨K, hK, e, rfl⟩
  have hp' : (2 : Int) ^ (sc.shiftExp + 1) * 2 ≤ p := by rw [← pow_succ]; exact_mod_cast hp
  have : a - x = K := int_eq_of_cast_eq (p := p) (by push_cast; exact e) (by
    rw [abs_lt] at *; constructor <;> linarith [hK.1, hK.2, hlt.1, hlt.2])
  subst this
  have e2 : min x a = a - max 0 (a - x) := by rw [max_def, min_def]; split_ifs <;> omega
  rw [e2]; push_cast; ring

theorem complete_max2 {s : Nat} {rc : RangeCtx} (hT : IsRangeTable T rc)
    (hu : RangeUsable p rc (s + 1)) {x a : Int} (hx : -2 ^ s ≤ x) (hx' : x < 2 ^ s)
    (ha : -2 ^ s ≤ a) (ha' : a < 2 ^ s) :
    Complete T (max2 ⟨s, ((2 ^ s : Nat) : ZMod p)⟩ rc (x : ZMod p) (a : ZMod p))
      (fun r => r = ((max x a : Int) : ZMod p)) := by
  have hs : (2 : Int) ^ (s + 1) = 2 ^ s * 2 := pow_succ _ _
  unfold max2
  refine (complete_cmp hu.pow_le hx hx' ha ha').bind ?_
  rintro b rfl
  refine (Det.assertBool ?_).complete.bind fun _ _ => ?_
  · split_ifs <;> simp
  by_cases h : a ≤ x
  · simp only [h, if_true]
    refine (hu.completeInt hT (k := x - a) (by omega) (by linarith) (by push_cast; ring)).bind
      fun _ _ => Complete.pure ?_
    rw [max_eq_left h]; ring
  · simp only [h, if_false]
    refine (hu.completeInt hT (k := a - x) (by omega) (by linarith) (by push_cast; ring)).bind
      fun _ _ => Complete.pure ?_
    rw [max_eq_right (by omega)]; ring

theorem complete_min2 {s : Nat} {rc : RangeCtx} (hT : IsRangeTable T rc)
    (hu : RangeUsable p rc (s + 1)) {x a : Int} (hx : -2 ^ s ≤ x) (hx' : x < 2 ^ s)
    (ha : -2 ^ s ≤ a) (ha' : a < 2 ^ s) :
    Complete T (min2 ⟨s, ((2 ^ s : Nat) : ZMod p)⟩ rc (x : ZMod p) (a : ZMod p))
      (fun r => r = ((min x a : Int) : ZMod p)) := by
  have hs : (2 : Int) ^ (s + 1) = 2 ^ s * 2 := pow_succ _ _
  unfold min2
  refine (complete_cmp hu.pow_le ha ha' hx hx').bind ?_
  rintro b rfl
  refine (Det.assertBool ?_).complete.bind fun _ _ => ?_
  · split_ifs <;> simp
  by_cases h : x ≤ a
  · simp only [h, if_true]
    refine (hu.completeInt hT (k := a - x) (by omega) (by linarith) (by push_cast; ring)).bind
      fun _ _ => Complete.pure ?_
    rw [min_eq_left h]; ring
  · simp only [h, if_false]
    refine (hu.completeInt hT (k := x - a) (by omega) (by linarith) (by push_cast; ring)).bind
      fun _ _ => Complete.pure ?_
    rw [min_eq_right (by omega)]; ring

/-! ### Max and min of a list -/

theorem sound_maxLoop {rc : RangeCtx} (hT : IsRangeTable T rc) (hc : 0 < rc.chunk) {n : Nat}
    (hd : rc.chunk ∣ n) (m : ZMod p) (xs : List (ZMod p)) (prod : ZMod p) :
    Sound T (maxLoop rc n m xs prod) (fun r =>
      (∀ x ∈ xs, ∃ k : Nat, k < 2 ^ n ∧ m - x = (k : ZMod p)) ∧
      (r = 0 → prod = 0 ∨ m ∈ xs)) := by
  induction xs generalizing prod with
  | nil => exact Sound.pure ⟨by simp, fun h => .inl h⟩
  | cons x xs ih =>
    unfold maxLoop
    refine (sound_rangeCheck_dvd hT hc hd).bind fun _ hk => (ih _).conseq ?_
    rintro r ⟨h1, h2⟩
    refine ⟨?_, ?_⟩
    · intro y hy
      rcases List.mem_cons.mp hy with rfl | hy
      · exact hk
      · exact h1 y hy
    · intro hr
      rcases h2 hr with h | h
      · rcases mul_eq_zero.mp h with h | h
        · exact .inl h
        · right; rw [sub_eq_zero.mp h]; simp
      · right; simp [h]

theorem sound_minLoop {rc : RangeCtx} (hT : IsRangeTable T rc) (hc : 0 < rc.chunk) {n : Nat}
    (hd : rc.chunk ∣ n) (m : ZMod p) (xs : List (ZMod p)) (prod : ZMod p) :
    Sound T (minLoop rc n m xs prod) (fun r =>
      (∀ x ∈ xs, ∃ k : Nat, k < 2 ^ n ∧ x - m = (k : ZMod p)) ∧
      (r = 0 → prod = 0 ∨ m ∈ xs)) := by
  induction xs generalizing prod with
  | nil => exact Sound.pure ⟨by simp, fun h => .inl h⟩
  | cons x xs ih =>
    unfold minLoop
    refine (sound_rangeCheck_dvd hT hc hd).bind fun _ hk => (ih _).conseq ?_
    rintro r ⟨h1, h2⟩
    refine ⟨?_, ?_⟩
    · intro y hy
      rcases List.mem_cons.mp hy with rfl | hy
      · exact hk
      · exact h1 y hy
    · intro hr
      rcases h2 hr with h | h
      · rcases mul_eq_zero.mp h with h | h
        · exact .inl h
        · right; rw [← sub_eq_zero.mp h]; simp
      · right; simp [h]

theorem complete_maxLoop {rc : RangeCtx} (hT : IsRangeTable T rc) {n : Nat}
    (hu : RangeUsable p rc n) (m : Int) (xs : List Int)
    (h : ∀ x ∈ xs, 0 ≤ m - x ∧ m - x < 2 ^ n) (prod : ZMod p) :
    Complete T (maxLoop rc n (m : ZMod p) (xs.map fun x : Int => (x : ZMod p)) prod)
      (fun r => prod = 0 ∨ m ∈ xs → r = 0) := by
  induction xs generalizing prod with
  | nil => exact Complete.pure (by simp)
  | cons x xs ih =>
    change Complete T (maxLoop rc n (m : ZMod p) ((x : ZMod p) :: xs.map fun x : Int => (x : ZMod p)) prod) _
    unfold maxLoop
    obtain ⟨h1, h2⟩ := h x (by simp)
    refine (hu.completeInt hT h1 h2 (by push_cast; ring)).bind fun _ _ =>
      (ih (fun y hy => h y (by simp [hy])) _).conseq ?_
    intro r hr hyp
    apply hr
    rcases hyp with rfl | hm
    · left; simp
    · rcases List.mem_cons.mp hm with rfl | hm
      · left; simp
      · right; exact hm

theorem complete_minLoop {rc : RangeCtx} (hT : IsRangeTable T rc) {n : Nat}
    (hu : RangeUsable p rc n) (m : Int) (xs : List Int)
    (h : ∀ x ∈ xs, 0 ≤ x - m ∧ x - m < 2 ^ n) (prod : ZMod p) :
    Complete T (minLoop rc n (m : ZMod p) (xs.map fun x : Int => (x : ZMod p)) prod)
      (fun r => prod = 0 ∨ m ∈ xs → r = 0) := by
  induction xs generalizing prod with
  | nil => exact Complete.pure (by simp)
  | cons x xs ih =>
    change Complete T (minLoop rc n (m : ZMod p) ((x : ZMod p) :: xs.map fun x : Int => (x : ZMod p)) prod) _
    unfold minLoop
    obtain ⟨h1, h2⟩ := h x (by simp)
    refine (hu.completeInt hT h1 h2 (by push_cast; ring)).bind fun _ _ =>
      (ih (fun y hy => h y (by simp [hy])) _).conseq ?_
    intro r hr hyp
    apply hr
    rcases hyp with rfl | hm
    · left; simp
    · rcases List.mem_cons.mp hm with rfl | hm
      · left; simp
      · right; exact hm

/-- Honest `unconstrained_max` on naturals below `p`. -/
theorem complete_uMaxLoop (vs : List Nat) (cur : Nat) (hc : cur < p) (h : ∀ v ∈ vs, v < p) :
    Complete T (uMaxLoop (vs.map fun v => ((v : Nat) : ZMod p)) (cur : ZMod p))
      (fun r => r = ((vs.foldl max cur : Nat) : ZMod p)) := by
  induction vs generalizing cur with
  | nil => exact Complete.pure rfl
  | cons v vs ih =>
    have hv := h v (by simp)
    simp only [List.map_cons, uMaxLoop, List.foldl_cons]
    unfold uGreater uLesserEq uMul uAdd
    refine (complete_hint2 rfl).bind ?_; rintro _ rfl
    refine (complete_hint2 rfl).bind ?_; rintro _ rfl
    refine (complete_hint2 rfl).bind ?_; rintro _ rfl
    refine (complete_hint2 rfl).bind ?_; rintro _ rfl
    refine (complete_hint2 rfl).bind ?_; rintro _ rfl
    have e : (v : ZMod p) * boolF (decide ((cur : ZMod p).val < (v : ZMod p).val)) +
        (cur : ZMod p) * boolF (decide ((v : ZMod p).val ≤ (cur : ZMod p).val))
        = ((max cur v : Nat) : ZMod p) := by
      rw [val_natCast_small hc, val_natCast_small hv]
      rcases Nat.lt_or_ge cur v with hlt | hge
      · rw [max_eq_right hlt.le]; simp [boolF, hlt]
      · rw [max_eq_left hge]; simp [boolF, hge, Nat.not_lt.mpr hge]
    rw [e]
    exact ih _ (by rw [max_def]; split_ifs <;> assumption) fun w hw => h w (by simp [hw])

theorem complete_uMinLoop (vs : List Nat) (cur : Nat) (hc : cur < p) (h : ∀ v ∈ vs, v < p) :
    Complete T (uMinLoop (vs.map fun v => ((v : Nat) : ZMod p)) (cur : ZMod p))
      (fun r => r = ((vs.foldl min cur : Nat) : ZMod p)) := by
  induction vs generalizing cur with
  | nil => exact Complete.pure rfl
  | cons v vs ih =>
    have hv := h v (by simp)
    simp only [List.map_cons, uMinLoop, List.foldl_cons]
    unfold uLesser uGreaterEq uMul uAdd
    refine (complete_hint2 rfl).bind ?_; rintro _ rfl
    refine (complete_hint2 rfl).bind ?_; rintro _ rfl
    refine (complete_hint2 rfl).bind ?_; rintro _ rfl
    refine (complete_hint2 rfl).bind ?_; rintro _ rfl
    refine (complete_hint2 rfl).bind ?_; rintro _ rfl
    have e : (v : ZMod p) * boolF (decide ((v : ZMod p).val < (cur : ZMod p).val)) +
        (cur : ZMod p) * boolF (decide ((cur : ZMod p).val ≤ (v : ZMod p).val))
        = ((min cur v : Nat) : ZMod p) := by
      rw [val_natCast_small hc, val_natCast_small hv]
      rcases Nat.lt_or_ge v cur with hlt | hge
      · rw [min_eq_right hlt.le]; simp [boolF, hlt]
      · rw [min_eq_left hge]; simp [boolF, hge, Nat.not_lt.mpr hge]
    rw [e]
    exact ih _ (by rw [min_def]; split_ifs <;> assumption) fun w hw => h w (by simp [hw])

end JST
