import Verif.Gadgets.ArithProofs

/-! # Helper lemmas: list max/min, clip, division, rescaling, and forged executions -/

set_option linter.unusedSectionVars false

namespace JST

variable {p : Nat} [Fact p.Prime] {T : Tables (ZMod p)}

/-! ### Max and min of a list -/

theorem sound_constrainedMax {sc : ShiftCtx p} {rc : RangeCtx} (hT : IsRangeTable T rc)
    (hc : 0 < rc.chunk) (hd : rc.chunk ∣ sc.shiftExp + 1) (hp : 2 ^ (sc.shiftExp + 2) ≤ p)
    (xs : List Int) (hx : ∀ x ∈ xs, -2 ^ sc.shiftExp ≤ x ∧ x < 2 ^ sc.shiftExp) :
    Sound T (constrainedMax sc rc (xs.map fun x : Int => (x : ZMod p)))
      (fun r => ∃ M ∈ xs, (∀ x ∈ xs, x ≤ M) ∧ r = (M : ZMod p)) := by
  have hp' : (2 : Int) ^ sc.shiftExp * 4 ≤ p := by
    have : (2 : Int) ^ sc.shiftExp * 4 = 2 ^ (sc.shiftExp + 2) := by rw [pow_add]; norm_num
    rw [this]; exact_mod_cast hp
  have hs1 : (2 : Int) ^ (sc.shiftExp + 1) = 2 ^ sc.shiftExp * 2 := pow_succ _ _
  have big : ∀ values : List (ZMod p), values = (xs.map fun x : Int => (x : ZMod p)) →
      Sound T (do
        let maxOffset ← uMax (values.map (· + sc.offset))
        let maxRaw := maxOffset - sc.offset
        let prod ← maxLoop rc (sc.shiftExp + 1) maxRaw values 1
        assertZero prod
        pure maxRaw) (fun r => ∃ M ∈ xs, (∀ x ∈ xs, x ≤ M) ∧ r = (M : ZMod p)) := by
    rintro values rfl
    have hu : Sound T (uMax ((xs.map fun x : Int => (x : ZMod p)).map (· + sc.offset))) (fun _ => True) :=
      fun _ _ _ _ => trivial
    refine hu.bind fun mo _ => (sound_maxLoop hT hc hd _ _ _).bind fun prod h =>
      Sound.assertZero.bind fun _ h0 => Sound.pure ?_
    obtain ⟨h1, h2⟩ := h
    rcases h2 h0 with h | h
    · exact absurd h one_ne_zero
    · obtain ⟨M, hM, e⟩ := List.mem_map.mp h
      refine ⟨M, hM, fun x hxs => ?_, e.symm⟩
      obtain ⟨k, hk, e2⟩ := h1 (x : ZMod p) (List.mem_map_of_mem hxs)
      have hk' : (k : Int) < 2 ^ (sc.shiftExp + 1) := by exact_mod_cast hk
      have : M - x = (k : Int) := int_eq_of_cast_eq (p := p) (by
        push_cast; rw [← e2, ← e]) (by
        have := hx M hM; have := hx x hxs
        rw [abs_lt]; constructor <;> linarith)
      omega
  match xs, hx, big with
  | [], _, _ => exact Sound.throwErr
  | [x], _, big => exact big _ rfl
  | [x, a], hx, _ =>
    have h1 := hx x (by simp)
    have h2 := hx a (by simp)
    refine (sound_max2_int hT hc hd hp (x := x) (a := a) (by
      rw [abs_lt]; constructor <;> linarith)).conseq ?_
    rintro r rfl
    refine ⟨max x a, ?_, ?_, rfl⟩
    · rcases max_choice x a with h | h <;> simp [h]
    · simp
  | x :: y :: z :: t, _, big => exact big _ rfl

theorem sound_constrainedMin {sc : ShiftCtx p} {rc : RangeCtx} (hT : IsRangeTable T rc)
    (hc : 0 < rc.chunk) (hd : rc.chunk ∣ sc.shiftExp + 1) (hp : 2 ^ (sc.shiftExp + 2) ≤ p)
    (xs : List Int) (hx : ∀ x ∈ xs, -2 ^ sc.shiftExp ≤ x ∧ x < 2 ^ sc.shiftExp) :
    Sound T (constrainedMin sc rc (xs.map fun x : Int => (x : ZMod p)))
      (fun r => ∃ M ∈ xs, (∀ x ∈ xs, M ≤ x) ∧ r = (M : ZMod p)) := by
  have hp' : (2 : Int) ^ sc.shiftExp * 4 ≤ p := by
    have : (2 : Int) ^ sc.shiftExp * 4 = 2 ^ (sc.shiftExp + 2) := by rw [pow_add]; norm_num
    rw [this]; exact_mod_cast hp
  have hs1 : (2 : Int) ^ (sc.shiftExp + 1) = 2 ^ sc.shiftExp * 2 := pow_succ _ _
  have big : ∀ values : List (ZMod p), values = (xs.map fun x : Int => (x : ZMod p)) →
      Sound T (do
        let minOffset ← uMin (values.map (· + sc.offset))
        let minRaw := minOffset - sc.offset
        let prod ← minLoop rc (sc.shiftExp + 1) minRaw values 1
        assertZero prod
        pure minRaw) (fun r => ∃ M ∈ xs, (∀ x ∈ xs, M ≤ x) ∧ r = (M : ZMod p)) := by
    rintro values rfl
    have hu : Sound T (uMin ((xs.map fun x : Int => (x : ZMod p)).map (· + sc.offset))) (fun _ => True) :=
      fun _ _ _ _ => trivial
    refine hu.bind fun mo _ => (sound_minLoop hT hc hd _ _ _).bind fun prod h =>
      Sound.assertZero.bind fun _ h0 => Sound.pure ?_
    obtain ⟨h1, h2⟩ := h
    rcases h2 h0 with h | h
    · exact absurd h one_ne_zero
    · obtain ⟨M, hM, e⟩ := List.mem_map.mp h
      refine ⟨M, hM, fun x hxs => ?_, e.symm⟩
      obtain ⟨k, hk, e2⟩ := h1 (x : ZMod p) (List.mem_map_of_mem hxs)
      have hk' : (k : Int) < 2 ^ (sc.shiftExp + 1) := by exact_mod_cast hk
      have : x - M = (k : Int) := int_eq_of_cast_eq (p := p) (by
        push_cast; rw [← e2, ← e]) (by
        have := hx M hM; have := hx x hxs
        rw [abs_lt]; constructor <;> linarith)
      omega
  match xs, hx, big with
  | [], _, _ => exact Sound.throwErr
  | [x], _, big => exact big _ rfl
  | [x, a], hx, _ =>
    have h1 := hx x (by simp)
    have h2 := hx a (by simp)
    refine (sound_min2_int hT hc hd hp (x := x) (a := a) (by
      rw [abs_lt]; constructor <;> linarith)).conseq ?_
    rintro r rfl
    refine ⟨min x a, ?_, ?_, rfl⟩
    · rcases min_choice x a with h | h <;> simp [h]
    · simp
  | x :: y :: z :: t, _, big => exact big _ rfl

theorem foldl_max_spec (vs : List Nat) (cur : Nat) :
    vs.foldl max cur ∈ cur :: vs ∧ ∀ v ∈ cur :: vs, v ≤ vs.foldl max cur := by
  induction vs generalizing cur with
  | nil => simp
  | cons v vs ih =>
    obtain ⟨h1, h2⟩ := ih (max cur v)
    have hm : max cur v ≤ List.foldl max (max cur v) vs := h2 _ (by simp)
    simp only [List.foldl_cons]
    constructor
    · rcases List.mem_cons.mp h1 with h | h
      · rw [h]; rcases max_choice cur v with h | h <;> simp [h]
      · simp [h]
    · intro w hw
      simp only [List.mem_cons] at hw
      rcases hw with rfl | rfl | hw
      · exact le_trans (le_max_left _ _) hm
      · exact le_trans (le_max_right _ _) hm
      · exact h2 w (by simp [hw])

theorem foldl_min_spec (vs : List Nat) (cur : Nat) :
    vs.foldl min cur ∈ cur :: vs ∧ ∀ v ∈ cur :: vs, vs.foldl min cur ≤ v := by
  induction vs generalizing cur with
  | nil => simp
  | cons v vs ih =>
    obtain ⟨h1, h2⟩ := ih (min cur v)
    have hm : List.foldl min (min cur v) vs ≤ min cur v := h2 _ (by simp)
    simp only [List.foldl_cons]
    constructor
    · rcases List.mem_cons.mp h1 with h | h
      · rw [h]; rcases min_choice cur v with h | h <;> simp [h]
      · simp [h]
    · intro w hw
      simp only [List.mem_cons] at hw
      rcases hw with rfl | rfl | hw
      · exact le_trans hm (min_le_left _ _)
      · exact le_trans hm (min_le_right _ _)
      · exact h2 w (by simp [hw])

/-- Offset values as naturals. -/
theorem offset_map {s : Nat} (xs : List Int)
    (hx : ∀ x ∈ xs, -2 ^ s ≤ x ∧ x < 2 ^ s) :
    (xs.map fun x : Int => (x : ZMod p)).map (· + (((2 ^ s : Nat)) : ZMod p)) =
      (xs.map fun x => (x + 2 ^ s).toNat).map fun v => ((v : Nat) : ZMod p) := by
  rw [List.map_map, List.map_map]
  refine List.map_congr_left fun x h => ?_
  have := (hx x h).1
  have e : (((x + 2 ^ s).toNat : Nat) : ZMod p) = (((x + 2 ^ s).toNat : Int) : ZMod p) := by
    rw [Int.cast_natCast]
  simp only [Function.comp]
  rw [e, Int.toNat_of_nonneg (by linarith)]
  push_cast; ring

theorem complete_constrainedMax {s : Nat} {rc : RangeCtx} (hT : IsRangeTable T rc)
    (hu : RangeUsable p rc (s + 1)) (xs : List Int) (hne : xs ≠ [])
    (hx : ∀ x ∈ xs, -2 ^ s ≤ x ∧ x < 2 ^ s) :
    Complete T (constrainedMax ⟨s, ((2 ^ s : Nat) : ZMod p)⟩ rc (xs.map fun x : Int => (x : ZMod p)))
      (fun r => ∃ M ∈ xs, (∀ x ∈ xs, x ≤ M) ∧ r = (M : ZMod p)) := by
  have hs : (2 : Int) ^ (s + 1) = 2 ^ s * 2 := pow_succ _ _
  have hp' : (2 : Int) ^ s * 2 ≤ p := by rw [← hs]; exact_mod_cast hu.pow_le
  have big : ∀ values : List (ZMod p), values = (xs.map fun x : Int => (x : ZMod p)) →
      Complete T (do
        let maxOffset ← uMax (values.map (· + ((2 ^ s : Nat) : ZMod p)))
        let maxRaw := maxOffset - ((2 ^ s : Nat) : ZMod p)
        let prod ← maxLoop rc (s + 1) maxRaw values 1
        assertZero prod
        pure maxRaw) (fun r => ∃ M ∈ xs, (∀ x ∈ xs, x ≤ M) ∧ r = (M : ZMod p)) := by
    rintro values rfl
    rw [offset_map xs hx]
    obtain ⟨y, ys, rfl⟩ := List.exists_cons_of_ne_nil hne
    have hlt : ∀ v ∈ (y :: ys).map fun x => (x + 2 ^ s).toNat, v < p := by
      intro v hv
      obtain ⟨x, hxm, rfl⟩ := List.mem_map.mp hv
      have := hx x hxm
      have h3 : ((x + 2 ^ s).toNat : Int) = x + 2 ^ s := Int.toNat_of_nonneg (by linarith)
      have : ((x + 2 ^ s).toNat : Int) < p := by rw [h3]; linarith
      exact_mod_cast this
    simp only [List.map_cons, uMax] at hlt ⊢
    refine (complete_uMaxLoop (T := T) _ _ (hlt _ (by simp)) fun v hv => hlt v (by simp [hv])).bind ?_
    rintro r rfl
    obtain ⟨hm1, hm2⟩ := foldl_max_spec (ys.map fun x => (x + 2 ^ s).toNat) (y + 2 ^ s).toNat
    generalize hN : List.foldl max (y + 2 ^ s).toNat (ys.map fun x => (x + 2 ^ s).toNat) = N at *
    have hm1' : N ∈ (y :: ys).map fun x => (x + 2 ^ s).toNat := by simpa using hm1
    obtain ⟨M, hM, rfl⟩ := List.mem_map.mp hm1'
    have hMr := hx M hM
    have hle : ∀ x ∈ y :: ys, x ≤ M := by
      intro x hxm
      have h1 := hm2 (x + 2 ^ s).toNat (by
        have : (x + 2 ^ s).toNat ∈ (y :: ys).map fun x => (x + 2 ^ s).toNat :=
          List.mem_map_of_mem (f := fun x : Int => (x + 2 ^ s).toNat) hxm
        simpa using this)
      have hxr := hx x hxm
      have h3 : ((x + 2 ^ s).toNat : Int) = x + 2 ^ s := Int.toNat_of_nonneg (by linarith)
      have h4 : ((M + 2 ^ s).toNat : Int) = M + 2 ^ s := Int.toNat_of_nonneg (by linarith)
      have : ((x + 2 ^ s).toNat : Int) ≤ ((M + 2 ^ s).toNat : Int) := by exact_mod_cast h1
      linarith
    have eM : (((M + 2 ^ s).toNat : Nat) : ZMod p) - ((2 ^ s : Nat) : ZMod p) = (M : ZMod p) := by
      have e : (((M + 2 ^ s).toNat : Nat) : ZMod p) = (((M + 2 ^ s).toNat : Int) : ZMod p) := by
        rw [Int.cast_natCast]
      rw [e, Int.toNat_of_nonneg (by linarith)]; push_cast; ring
    simp only [eM]
    refine (complete_maxLoop hT hu M (y :: ys) (fun x hxm => ?_) 1).bind ?_
    · have := hle x hxm; have := hx x hxm; constructor <;> linarith
    · intro prod hprod
      refine (Det.assertZero (hprod (.inr hM))).complete.bind fun _ _ => Complete.pure ?_
      exact ⟨M, hM, hle, rfl⟩
  match xs, hne, hx, big with
  | [x], _, _, big => exact big _ rfl
  | [x, a], _, hx, _ =>
    have h1 := hx x (by simp)
    have h2 := hx a (by simp)
    refine (complete_max2 hT hu h1.1 h1.2 h2.1 h2.2).conseq ?_
    rintro r rfl
    refine ⟨max x a, ?_, ?_, rfl⟩
    · rcases max_choice x a with h | h <;> simp [h]
    · simp
  | x :: y :: z :: t, _, _, big => exact big _ rfl

theorem complete_constrainedMin {s : Nat} {rc : RangeCtx} (hT : IsRangeTable T rc)
    (hu : RangeUsable p rc (s + 1)) (xs : List Int) (hne : xs ≠ [])
    (hx : ∀ x ∈ xs, -2 ^ s ≤ x ∧ x < 2 ^ s) :
    Complete T (constrainedMin ⟨s, ((2 ^ s : Nat) : ZMod p)⟩ rc (xs.map fun x : Int => (x : ZMod p)))
      (fun r => ∃ M ∈ xs, (∀ x ∈ xs, M ≤ x) ∧ r = (M : ZMod p)) := by
  have hs : (2 : Int) ^ (s + 1) = 2 ^ s * 2 := pow_succ _ _
  have hp' : (2 : Int) ^ s * 2 ≤ p := by rw [← hs]; exact_mod_cast hu.pow_le
  have big : ∀ values : List (ZMod p), values = (xs.map fun x : Int => (x : ZMod p)) →
      Complete T (do
        let minOffset ← uMin (values.map (· + ((2 ^ s : Nat) : ZMod p)))
        let minRaw := minOffset - ((2 ^ s : Nat) : ZMod p)
        let prod ← minLoop rc (s + 1) minRaw values 1
        assertZero prod
        pure minRaw) (fun r => ∃ M ∈ xs, (∀ x ∈ xs, M ≤ x) ∧ r = (M : ZMod p)) := by
    rintro values rfl
    rw [offset_map xs hx]
    obtain ⟨y, ys, rfl⟩ := List.exists_cons_of_ne_nil hne
    have hlt : ∀ v ∈ (y :: ys).map fun x => (x + 2 ^ s).toNat, v < p := by
      intro v hv
      obtain ⟨x, hxm, rfl⟩ := List.mem_map.mp hv
      have := hx x hxm
      have h3 : ((x + 2 ^ s).toNat : Int) = x + 2 ^ s := Int.toNat_of_nonneg (by linarith)
      have : ((x + 2 ^ s).toNat : Int) < p := by rw [h3]; linarith
      exact_mod_cast this
    simp only [List.map_cons, uMin] at hlt ⊢
    refine (complete_uMinLoop (T := T) _ _ (hlt _ (by simp)) fun v hv => hlt v (by simp [hv])).bind ?_
    rintro r rfl
    obtain ⟨hm1, hm2⟩ := foldl_min_spec (ys.map fun x => (x + 2 ^ s).toNat) (y + 2 ^ s).toNat
    generalize hN : List.foldl min (y + 2 ^ s).toNat (ys.map fun x => (x + 2 ^ s).toNat) = N at *
    have hm1' : N ∈ (y :: ys).map fun x => (x + 2 ^ s).toNat := by simpa using hm1
    obtain ⟨M, hM, rfl⟩ := List.mem_map.mp hm1'
    have hMr := hx M hM
    have hle : ∀ x ∈ y :: ys, M ≤ x := by
      intro x hxm
      have h1 := hm2 (x + 2 ^ s).toNat (by
        have : (x + 2 ^ s).toNat ∈ (y :: ys).map fun x => (x + 2 ^ s).toNat :=
          List.mem_map_of_mem (f := fun x : Int => (x + 2 ^ s).toNat) hxm
        simpa using this)
      have hxr := hx x hxm
      have h3 : ((x + 2 ^ s).toNat : Int) = x + 2 ^ s := Int.toNat_of_nonneg (by linarith)
      have h4 : ((M + 2 ^ s).toNat : Int) = M + 2 ^ s := Int.toNat_of_nonneg (by linarith)
      have : ((M + 2 ^ s).toNat : Int) ≤ ((x + 2 ^ s).toNat : Int) := by exact_mod_cast h1
      linarith
    have eM : (((M + 2 ^ s).toNat : Nat) : ZMod p) - ((2 ^ s : Nat) : ZMod p) = (M : ZMod p) := by
      have e : (((M + 2 ^ s).toNat : Nat) : ZMod p) = (((M + 2 ^ s).toNat : Int) : ZMod p) := by
        rw [Int.cast_natCast]
      rw [e, Int.toNat_of_nonneg (by linarith)]; push_cast; ring
    simp only [eM]
    refine (complete_minLoop hT hu M (y :: ys) (fun x hxm => ?_) 1).bind ?_
    · have := hle x hxm; have := hx x hxm; constructor <;> linarith
    · intro prod hprod
      refine (Det.assertZero (hprod (.inr hM))).complete.bind fun _ _ => Complete.pure ?_
      exact ⟨M, hM, hle, rfl⟩
  match xs, hne, hx, big with
  | [x], _, _, big => exact big _ rfl
  | [x, a], _, hx, _ =>
    have h1 := hx x (by simp)
    have h2 := hx a (by simp)
    refine (complete_min2 hT hu h1.1 h1.2 h2.1 h2.2).conseq ?_
    rintro r rfl
    refine ⟨min x a, ?_, ?_, rfl⟩
    · rcases min_choice x a with h | h <;> simp [h]
    · simp
  | x :: y :: z :: t, _, _, big => exact big _ rfl

/-! ### Division -/

/-- What the constraints of the division gadget force, before any size assumption. -/
theorem sound_divPow2Inner_raw {rc : RangeCtx} (hT : IsRangeTable T rc) (hc : 0 < rc.chunk)
    {κ s : Nat} (hd : rc.chunk ∣ κ) (x dv dvs sh : ZMod p) (flag : Bool)
    (hds : flag = true → rc.chunk ∣ s + 1) :
    Sound T (divPow2Inner rc x dv dvs κ s sh flag) (fun out =>
      (∃ r : Nat, r < 2 ^ κ ∧ dvs + x = dv * (out + sh) + (r : ZMod p)) ∧
      (flag = true → ∃ q : Nat, q < 2 ^ (s + 1) ∧ out + sh = (q : ZMod p))) := by
  unfold divPow2Inner uIntDiv uMod
  refine sound_hint2.bind fun q _ => sound_hint2.bind fun r _ => Sound.assertEq.bind fun _ he =>
    (sound_rangeCheck_dvd hT hc hd).bind fun _ hr => ?_
  obtain ⟨k, hk, e⟩ := hr
  have hfirst : ∃ r : Nat, r < 2 ^ κ ∧ dvs + x = dv * (q - sh + sh) + (r : ZMod p) :=
    ⟨k, hk, by rw [he, e]; ring⟩
  cases flag with
  | true =>
    simp only [if_true]
    refine (sound_rangeCheck_dvd hT hc (hds rfl)).bind fun _ hq => Sound.pure ?_
    obtain ⟨k', hk', e'⟩ := hq
    exact ⟨hfirst, fun _ => ⟨k', hk', by rw [← e']; ring⟩⟩
  | false =>
    simp only [Bool.false_eq_true, if_false]
    exact Sound.bind (Sound.pure (a := ()) (Q := fun _ => True) trivial) fun _ _ =>
      Sound.pure ⟨hfirst, by simp⟩

/-- The Euclidean quotient is determined. -/
theorem ediv_of_decomp {x d q r : Int} (hr0 : 0 ≤ r) (hr : r < d) (e : x = d * q + r) :
    x / d = q := by
  have hd : 0 < d := by linarith
  rw [e, Int.add_comm, Int.add_mul_ediv_left _ _ (by omega), Int.ediv_eq_zero_of_lt hr0 hr]
  ring

/-- The arithmetic core: a remainder below `d` and a shifted quotient below `2^(s+1)` force the
floor quotient. -/
theorem quotient_forced {x : Int} {d s r q : Nat} (hp : d * 2 ^ (s + 1) ≤ p)
    (hx : -((d : Int) * 2 ^ s) ≤ x) (hx' : x < d * 2 ^ s) (hr : r < d) (hq : q < 2 ^ (s + 1))
    (e : (((d * 2 ^ s : Nat)) : ZMod p) + (x : ZMod p) = (d : ZMod p) * (q : ZMod p) + (r : ZMod p)) :
    x / (d : Int) = (q : Int) - 2 ^ s := by
  have hs : (2 : Int) ^ (s + 1) = 2 ^ s * 2 := pow_succ _ _
  have hpi : (d : Int) * (2 ^ s * 2) ≤ p := by rw [← hs]; exact_mod_cast hp
  have hri : (r : Int) < d := by exact_mod_cast hr
  have hqi : (q : Int) + 1 ≤ 2 ^ s * 2 := by rw [← hs]; exact_mod_cast hq
  have hdq : (d : Int) * q + r < d * (2 ^ s * 2) := by nlinarith
  have hdq0 : 0 ≤ (d : Int) * q + r := by positivity
  have : (d : Int) * 2 ^ s + x = d * q + r := int_eq_of_cast_eq (p := p) (by push_cast at e ⊢; exact e) (by
    rw [abs_lt]; constructor <;> nlinarith)
  exact ediv_of_decomp (r := (r : Int)) (by positivity) hri (by linarith)

theorem sound_divPow2 {rc : RangeCtx} (hT : IsRangeTable T rc) (hc : 0 < rc.chunk)
    {κ s : Nat} (hd : rc.chunk ∣ κ) (hds : rc.chunk ∣ s + 1) (hp : 2 ^ κ * 2 ^ (s + 1) ≤ p)
    {x : Int} (hx : -((2 : Int) ^ κ * 2 ^ s) ≤ x) (hx' : x < 2 ^ κ * 2 ^ s) :
    Sound T (divPow2 rc (x : ZMod p) ((2 ^ κ : Nat) : ZMod p) ((2 ^ κ * 2 ^ s : Nat) : ZMod p) κ s
      ((2 ^ s : Nat) : ZMod p)) (fun out => out = ((x / 2 ^ κ : Int) : ZMod p)) := by
  refine (sound_divPow2Inner_raw hT hc hd _ _ _ _ true fun _ => hds).conseq ?_
  rintro out ⟨⟨r, hr, e⟩, hq⟩
  obtain ⟨q, hq, eq⟩ := hq rfl
  rw [eq] at e
  have := quotient_forced (x := x) (d := 2 ^ κ) (s := s) hp (by push_cast; exact hx) (by push_cast; exact hx') hr hq e
  push_cast at this
  rw [this]
  push_cast at eq ⊢
  linear_combination eq

theorem lt_bitLen (n : Nat) : n < 2 ^ bitLen n := by
  unfold bitLen
  split_ifs with h
  · simp [h]
  · exact Nat.lt_log2_self

theorem sound_divConst {rc : RangeCtx} (hT : IsRangeTable T rc) (hc : 0 < rc.chunk)
    {d s : Nat} (hd : rc.chunk ∣ bitLen (d - 1)) (hds : rc.chunk ∣ s + 1)
    (hp : d * 2 ^ (s + 1) ≤ p) (hp2 : 2 ^ (bitLen (d - 1) + 1) ≤ p)
    {x : Int} (hx : -((d : Int) * 2 ^ s) ≤ x) (hx' : x < d * 2 ^ s) :
    Sound T (divConst rc (x : ZMod p) (d : ZMod p) d ((d * 2 ^ s : Nat) : ZMod p) s
      ((2 ^ s : Nat) : ZMod p)) (fun out => out = ((x / (d : Int) : Int) : ZMod p)) := by
  unfold divConst
  by_cases h0 : d = 0
  · rw [if_pos h0]; exact Sound.throwErr
  rw [if_neg h0]
  by_cases h1 : d = 1
  · rw [if_pos h1]; subst h1; exact Sound.pure (by simp)
  rw [if_neg h1]
  by_cases h2 : 2 ^ Nat.log2 d = d
  · rw [if_pos h2]
    have hb : bitLen (d - 1) = Nat.log2 d := by
      unfold bitLen; rw [if_neg (by omega)]
      have hl : Nat.log2 d ≠ 0 := by
        intro h; rw [h] at h2; omega
      have : Nat.log2 (d - 1) = Nat.log2 d - 1 := by
        rw [Nat.log2_eq_iff (by omega)]
        have e : 2 ^ (Nat.log2 d - 1) * 2 = d := by
          rw [← pow_succ]; rw [show Nat.log2 d - 1 + 1 = Nat.log2 d by omega]; exact h2
        rw [pow_succ, e]
        have : 1 ≤ 2 ^ (Nat.log2 d - 1) := Nat.one_le_two_pow
        omega
      omega
    rw [hb] at hd
    generalize hk : Nat.log2 d = κ at *
    subst h2
    have := sound_divPow2 (T := T) hT hc hd hds hp (x := x) (by exact_mod_cast hx) (by exact_mod_cast hx')
    simpa using this
  rw [if_neg h2]
  unfold uIntDiv uMod
  refine sound_hint2.bind fun q _ => sound_hint2.bind fun r _ => Sound.assertEq.bind fun _ he =>
    (sound_rangeCheck_dvd hT hc hd).bind fun _ hr => (sound_rangeCheck_dvd hT hc hd).bind fun _ hr' =>
    (sound_rangeCheck_dvd hT hc hds).bind fun _ hq => Sound.pure ?_
  obtain ⟨k, hk, rfl⟩ := hr
  obtain ⟨k', hk', e'⟩ := hr'
  obtain ⟨q, hq, rfl⟩ := hq
  have hb : (2 : Int) ^ (bitLen (d - 1) + 1) = 2 ^ bitLen (d - 1) * 2 := pow_succ _ _
  have hlt : d - 1 < 2 ^ bitLen (d - 1) := lt_bitLen _
  have hkd : k < d := by
    have hp2' : (2 : Int) ^ bitLen (d - 1) * 2 ≤ p := by rw [← hb]; exact_mod_cast hp2
    have hlt' : ((d - 1 : Nat) : Int) < 2 ^ bitLen (d - 1) := by exact_mod_cast hlt
    have hki : (k : Int) < 2 ^ bitLen (d - 1) := by exact_mod_cast hk
    have hki' : (k' : Int) < 2 ^ bitLen (d - 1) := by exact_mod_cast hk'
    have : ((d - 1 : Nat) : Int) - k = k' := int_eq_of_cast_eq (p := p) (by
      push_cast; push_cast at e'; exact e') (by
      rw [abs_lt]; constructor <;> omega)
    omega
  have := quotient_forced (x := x) hp hx hx' hkd hq he
  rw [this]; push_cast; ring

/-- Honest quotient and remainder hints. -/
theorem honest_div {x : Int} {d s : Nat} (hd : 0 < d) (hp : d * 2 ^ (s + 1) ≤ p)
    (hdp : d < p)
    (hx : -((d : Int) * 2 ^ s) ≤ x) (hx' : x < d * 2 ^ s) :
    ∃ q r : Nat, r < d ∧ q < 2 ^ (s + 1) ∧ x / (d : Int) = (q : Int) - 2 ^ s ∧
      (((d * 2 ^ s : Nat)) : ZMod p) + (x : ZMod p) = (d : ZMod p) * (q : ZMod p) + (r : ZMod p) ∧
      Complete T (uIntDiv ((((d * 2 ^ s : Nat)) : ZMod p) + (x : ZMod p)) (d : ZMod p))
        (fun v => v = (q : ZMod p)) ∧
      Complete T (uMod ((((d * 2 ^ s : Nat)) : ZMod p) + (x : ZMod p)) (d : ZMod p))
        (fun v => v = (r : ZMod p)) := by
  have hs : (2 : Int) ^ (s + 1) = 2 ^ s * 2 := pow_succ _ _
  have h0 : 0 ≤ (d : Int) * 2 ^ s + x := by linarith
  obtain ⟨N, hN⟩ := Int.eq_ofNat_of_zero_le h0
  have hNlt : N < d * 2 ^ (s + 1) := by
    have : (N : Int) < d * 2 ^ (s + 1) := by rw [← hN, hs]; nlinarith
    exact_mod_cast this
  have eN : (((d * 2 ^ s : Nat)) : ZMod p) + (x : ZMod p) = (N : ZMod p) := by
    have : (((d : Int) * 2 ^ s + x : Int) : ZMod p) = ((N : Int) : ZMod p) := by rw [hN]
    push_cast at this ⊢; exact this
  refine ⟨N / d, N % d, Nat.mod_lt _ hd, ?_, ?_, ?_, ?_, ?_⟩
  · rw [Nat.div_lt_iff_lt_mul hd, Nat.mul_comm]; exact hNlt
  · refine ediv_of_decomp (r := ((N % d : Nat) : Int)) (by positivity) (by exact_mod_cast Nat.mod_lt _ hd) ?_
    have h1 : (d : Int) * ((N / d : Nat) : Int) + ((N % d : Nat) : Int) = N := by
      exact_mod_cast Nat.div_add_mod N d
    have : x = (N : Int) - d * 2 ^ s := by rw [← hN]; ring
    rw [this, ← h1]; ring
  · rw [eN]
    conv_lhs => rw [← Nat.div_add_mod N d]
    push_cast; ring
  · rw [eN]; unfold uIntDiv
    refine complete_hint2 ?_
    rw [val_natCast_small (N := N) (by omega), val_natCast_small hdp, if_neg (by omega)]
  · rw [eN]; unfold uMod
    refine complete_hint2 ?_
    rw [val_natCast_small (N := N) (by omega), val_natCast_small hdp, if_neg (by omega)]

theorem complete_divPow2Inner {rc : RangeCtx} (hT : IsRangeTable T rc) {κ s : Nat}
    (huk : RangeUsable p rc κ) (hus : RangeUsable p rc (s + 1))
    (hp : 2 ^ κ * 2 ^ (s + 1) ≤ p) {x : Int} (hx : -((2 : Int) ^ κ * 2 ^ s) ≤ x)
    (hx' : x < 2 ^ κ * 2 ^ s) (flag : Bool) :
    Complete T (divPow2Inner rc (x : ZMod p) ((2 ^ κ : Nat) : ZMod p)
      ((2 ^ κ * 2 ^ s : Nat) : ZMod p) κ s
      ((2 ^ s : Nat) : ZMod p) flag) (fun out => out = ((x / 2 ^ κ : Int) : ZMod p)) := by
  have h1 : 1 ≤ 2 ^ κ := Nat.one_le_two_pow
  have h2 : 2 ≤ 2 ^ (s + 1) := by rw [pow_succ]; have : 1 ≤ 2 ^ s := Nat.one_le_two_pow; omega
  obtain ⟨q, r, hr, hq, eq, e, cq, cr⟩ := honest_div (T := T) (p := p) (x := x) (d := 2 ^ κ) (s := s)
    (by positivity) hp (by nlinarith) (by push_cast; exact hx) (by push_cast; exact hx')
  unfold divPow2Inner
  refine cq.bind ?_; rintro _ rfl
  refine cr.bind ?_; rintro _ rfl
  refine (Det.assertEq e).complete.bind fun _ _ => (huk.complete hT hr rfl).bind fun _ _ => ?_
  have hout : (q : ZMod p) - ((2 ^ s : Nat) : ZMod p) = ((x / 2 ^ κ : Int) : ZMod p) := by
    push_cast at eq; rw [eq]; push_cast; ring
  cases flag with
  | true =>
    simp only [if_true]
    exact (hus.complete hT hq rfl).bind fun _ _ => Complete.pure hout
  | false =>
    simp only [Bool.false_eq_true, if_false]
    exact Complete.pure hout

theorem complete_divConst {rc : RangeCtx} (hT : IsRangeTable T rc) {d s : Nat} (hd : 0 < d)
    (huk : d ≠ 1 → RangeUsable p rc (bitLen (d - 1))) (hus : RangeUsable p rc (s + 1))
    (hp : d * 2 ^ (s + 1) ≤ p) {x : Int} (hx : -((d : Int) * 2 ^ s) ≤ x) (hx' : x < d * 2 ^ s) :
    Complete T (divConst rc (x : ZMod p) (d : ZMod p) d ((d * 2 ^ s : Nat) : ZMod p) s
      ((2 ^ s : Nat) : ZMod p)) (fun out => out = ((x / (d : Int) : Int) : ZMod p)) := by
  have h2 : 2 ≤ 2 ^ (s + 1) := by rw [pow_succ]; have : 1 ≤ 2 ^ s := Nat.one_le_two_pow; omega
  unfold divConst
  rw [if_neg (by omega)]
  by_cases h1 : d = 1
  · rw [if_pos h1]; subst h1; exact Complete.pure (by simp)
  rw [if_neg h1]
  replace huk := huk h1
  by_cases h2' : 2 ^ Nat.log2 d = d
  · rw [if_pos h2']
    have hb : bitLen (d - 1) = Nat.log2 d := by
      unfold bitLen; rw [if_neg (by omega)]
      have hl : Nat.log2 d ≠ 0 := by
        intro h; rw [h] at h2'; omega
      have : Nat.log2 (d - 1) = Nat.log2 d - 1 := by
        rw [Nat.log2_eq_iff (by omega)]
        have e : 2 ^ (Nat.log2 d - 1) * 2 = d := by
          rw [← pow_succ]; rw [show Nat.log2 d - 1 + 1 = Nat.log2 d by omega]; exact h2'
        rw [pow_succ, e]
        have : 1 ≤ 2 ^ (Nat.log2 d - 1) := Nat.one_le_two_pow
        omega
      omega
    rw [hb] at huk
    generalize hk : Nat.log2 d = κ at *
    subst h2'
    have := complete_divPow2Inner (T := T) hT huk hus hp (x := x) (by exact_mod_cast hx)
      (by exact_mod_cast hx') true
    unfold divPow2
    simpa using this
  rw [if_neg h2']
  obtain ⟨q, r, hr, hq, eq, e, cq, cr⟩ := honest_div (T := T) (p := p) (x := x) (d := d) (s := s)
    hd hp (by nlinarith) hx hx'
  have hlt : d - 1 < 2 ^ bitLen (d - 1) := lt_bitLen _
  refine cq.bind ?_; rintro _ rfl
  refine cr.bind ?_; rintro _ rfl
  refine (Det.assertEq e).complete.bind fun _ _ => (huk.complete hT (by omega) rfl).bind fun _ _ =>
    (huk.complete hT (k := d - 1 - r) (by omega) ?_).bind fun _ _ =>
    (hus.complete hT hq rfl).bind fun _ _ => Complete.pure ?_
  · rw [Nat.cast_sub (show r ≤ d - 1 by omega)]
  · rw [eq]; push_cast; ring

/-! ### Rescaling -/

theorem sound_rescale_relu {rc : RangeCtx} (hT : IsRangeTable T rc) (hc : 0 < rc.chunk)
    {κ s : Nat} (hd : rc.chunk ∣ κ) (hds : rc.chunk ∣ s + 1) (hp : 2 ^ κ * 2 ^ (s + 2) ≤ p)
    {x : Int} (hx : -((2 : Int) ^ κ * 2 ^ s) ≤ x) (hx' : x < 2 ^ κ * 2 ^ s) :
    Sound T (rescale ⟨κ, s, ((2 ^ κ : Nat) : ZMod p), ((2 ^ s : Nat) : ZMod p),
      ((2 ^ κ * 2 ^ s : Nat) : ZMod p)⟩ rc (x : ZMod p) true)
      (fun out => out = ((max 0 (x / 2 ^ κ) : Int) : ZMod p)) := by
  unfold rescale
  refine (sound_divPow2Inner_raw hT hc hd _ _ _ _ _ (by simp)).bind ?_
  rintro q ⟨⟨r, hr, e⟩, -⟩
  simp only [if_true]
  unfold ShiftCtx.new
  split_ifs with h64
  · exact Sound.bind (Sound.throwErr (Q := fun _ => False)) (fun _ h => h.elim)
  · refine Sound.bind (Sound.pure (Q := fun sc => sc = ⟨s, ((2 ^ s : Nat) : ZMod p)⟩) rfl) ?_
    rintro _ rfl
    refine (sound_relu hT hc hds _).conseq ?_
    rintro out ⟨K, hK, rfl, rfl⟩
    congr 1
    have hs : (2 : Int) ^ (s + 1) = 2 ^ s * 2 := pow_succ _ _
    have hs2 : (2 : Int) ^ (s + 2) = 2 ^ s * 4 := by rw [pow_add]; norm_num
    have hpi : (2 : Int) ^ κ * (2 ^ s * 4) ≤ p := by rw [← hs2]; exact_mod_cast hp
    have hri : (r : Int) < 2 ^ κ := by exact_mod_cast hr
    have hκ : (0 : Int) < 2 ^ κ := by positivity
    rw [hs, abs_lt] at hK
    obtain ⟨hK1, hK2⟩ := hK
    have : x = 2 ^ κ * K + r := int_eq_of_cast_eq (p := p) (by
      push_cast at e ⊢; linear_combination e) (by
      have b1 : (2 : Int) ^ κ * K ≤ 2 ^ κ * (2 ^ s * 2 - 1) := by
        apply mul_le_mul_of_nonneg_left _ hκ.le; omega
      have b2 : (2 : Int) ^ κ * (-(2 ^ s * 2) + 1) ≤ 2 ^ κ * K := by
        apply mul_le_mul_of_nonneg_left _ hκ.le; omega
      rw [abs_lt]; constructor <;> nlinarith)
    rw [ediv_of_decomp (by positivity) hri this]

theorem complete_rescale {rc : RangeCtx} (hT : IsRangeTable T rc) {κ s : Nat}
    (huk : RangeUsable p rc κ) (hus : RangeUsable p rc (s + 1)) (hs64 : s < 64)
    (hp : 2 ^ κ * 2 ^ (s + 1) ≤ p) {x : Int} (hx : -((2 : Int) ^ κ * 2 ^ s) ≤ x)
    (hx' : x < 2 ^ κ * 2 ^ s) (relu : Bool) :
    Complete T (rescale ⟨κ, s, ((2 ^ κ : Nat) : ZMod p), ((2 ^ s : Nat) : ZMod p),
      ((2 ^ κ * 2 ^ s : Nat) : ZMod p)⟩ rc (x : ZMod p) relu)
      (fun out => out = ((if relu then max 0 (x / 2 ^ κ) else x / 2 ^ κ : Int) : ZMod p)) := by
  unfold rescale
  refine (complete_divPow2Inner hT huk hus hp hx hx' _).bind ?_
  rintro _ rfl
  cases relu with
  | false => exact Complete.pure rfl
  | true =>
    simp only [if_true]
    unfold ShiftCtx.new
    rw [if_neg (by omega)]
    refine Complete.bind (Complete.pure (Q := fun sc => sc = ⟨s, ((2 ^ s : Nat) : ZMod p)⟩) rfl) ?_
    rintro _ rfl
    have hκ : (0 : Int) < 2 ^ κ := by positivity
    refine complete_relu hT hus ?_ ?_
    · rw [Int.le_ediv_iff_mul_le hκ]; linarith
    · rw [Int.ediv_lt_iff_lt_mul hκ]; linarith

/-! ### Arrays -/

theorem sound_mapG {f : ZMod p → G (ZMod p) (ZMod p)} {P : ZMod p → ZMod p → Prop} (xs : List (ZMod p))
    (h : ∀ x ∈ xs, Sound T (f x) (P x)) : Sound T (mapG f xs) (List.Forall₂ P xs) := by
  induction xs with
  | nil => exact Sound.pure .nil
  | cons x xs ih =>
    unfold mapG
    exact (h x (by simp)).bind fun y hy => (ih fun z hz => h z (by simp [hz])).bind fun ys hys =>
      Sound.pure (.cons hy hys)

theorem complete_mapG {f : ZMod p → G (ZMod p) (ZMod p)} {P : ZMod p → ZMod p → Prop}
    (xs : List (ZMod p))
    (h : ∀ x ∈ xs, Complete T (f x) (P x)) : Complete T (mapG f xs) (List.Forall₂ P xs) := by
  induction xs with
  | nil => exact Complete.pure .nil
  | cons x xs ih =>
    unfold mapG
    exact (h x (by simp)).bind fun y hy => (ih fun z hz => h z (by simp [hz])).bind fun ys hys =>
      Complete.pure (.cons hy hys)

/-! ### Forged executions when the chunk width does not divide the bit width -/

theorem slack_pos {chunk n : Nat} (hc : 0 < chunk) (hnd : ¬ chunk ∣ n) : 0 < slackBits chunk n := by
  unfold slackBits
  have h : n % chunk ≠ 0 := fun h => hnd (Nat.dvd_of_mod_eq_zero h)
  rw [if_neg h]
  have := Nat.mod_lt n hc
  omega

/-- All negative integers down to `-2^n` are accepted. -/
theorem accepted_neg {chunk n : Nat} (hc : 0 < chunk) (hnd : ¬ chunk ∣ n) {k : Int}
    (h1 : -2 ^ n ≤ k) (h2 : k < 2 ^ n) : AcceptedInt chunk n k := by
  refine ⟨?_, h2⟩
  have hs := slack_pos hc hnd
  have : (2 : Int) ^ (n + 1) ≤ 2 ^ (n + slackBits chunk n) :=
    pow_le_pow_right₀ (by norm_num) (by omega)
  rw [pow_succ] at this
  linarith

/-- The API limits on a range check (no field-size condition). -/
structure RangeCallable (rc : RangeCtx) (n : Nat) : Prop where
  chunk_pos : 0 < rc.chunk
  chunk_lt : rc.chunk < 32
  n_pos : 0 < n
  n_le : n ≤ 128
  n_128 : n % rc.chunk ≠ 0 → n < 128

theorem RangeCallable.forge {rc : RangeCtx} {n : Nat} (h : RangeCallable rc n)
    (hT : IsRangeTable T rc) {a : ZMod p} {k : Int} (hk : AcceptedInt rc.chunk n k)
    (ha : a = (k : ZMod p)) : Forge T (rangeCheck rc a n) (fun _ => True) :=
  forge_rangeCheck_accepted hT h.chunk_pos h.chunk_lt h.n_pos h.n_le h.n_128 hk ha

theorem accepted_nonneg {chunk n : Nat} {k : Int} (h1 : 0 ≤ k) (h2 : k < 2 ^ n) :
    AcceptedInt chunk n k := by
  refine ⟨?_, h2⟩
  have : (2 : Int) ^ n ≤ 2 ^ (n + slackBits chunk n) := pow_le_pow_right₀ (by norm_num) (by omega)
  linarith

/-- `Forge` for unit-valued steps. -/
theorem Forge.seq {β : Type} {g : G (ZMod p) Unit} {f : Unit → G (ZMod p) β} {P : Unit → Prop}
    {Q : β → Prop} (hg : Forge T g P) (hf : Forge T (f ()) Q) : Forge T (g >>= f) Q :=
  hg.bind (fun _ _ => rfl) hf

theorem forge_relu_zero {s : Nat} {rc : RangeCtx} (hT : IsRangeTable T rc)
    (hu : RangeCallable rc (s + 1)) (hnd : ¬ rc.chunk ∣ s + 1) (o : ZMod p) {x : Int} (hx : 0 ≤ x)
    (hx' : x ≤ 2 ^ (s + 1)) :
    Forge T (constrainedRelu ⟨s, o⟩ rc (x : ZMod p)) (fun r => r = 0) := by
  unfold constrainedRelu uGreaterEq
  refine (forge_hint2 _ _ _ 0).bind (fun _ h => h) ?_
  refine Forge.seq (Det.assertBool (.inl rfl)).forge ?_
  refine Forge.seq (hu.forge hT (k := -x) (accepted_neg hu.chunk_pos hnd (by linarith) ?_) (by push_cast; ring)) ?_
  · have : (0 : Int) < 2 ^ (s + 1) := by positivity
    linarith
  · exact Forge.pure (zero_mul _)

theorem forge_max2_snd {s : Nat} {rc : RangeCtx} (hT : IsRangeTable T rc)
    (hu : RangeCallable rc (s + 1)) (hnd : ¬ rc.chunk ∣ s + 1) (o : ZMod p) {x a : Int}
    (hx : a ≤ x) (hx' : x - a ≤ 2 ^ (s + 1)) :
    Forge T (max2 ⟨s, o⟩ rc (x : ZMod p) (a : ZMod p)) (fun r => r = (a : ZMod p)) := by
  unfold max2 uGreaterEq
  refine (forge_hint2 _ _ _ 0).bind (fun _ h => h) ?_
  refine Forge.seq (Det.assertBool (.inl rfl)).forge ?_
  refine Forge.seq (hu.forge hT (k := -(x - a)) (accepted_neg hu.chunk_pos hnd (by linarith) ?_) (by push_cast; ring)) ?_
  · have : (0 : Int) < 2 ^ (s + 1) := by positivity
    linarith
  · exact Forge.pure (by ring)

/-- With a chunk width not dividing `κ`, the quotient `⌊x/2^κ⌋ + 1` is provable. -/
theorem forge_divPow2 {rc : RangeCtx} (hT : IsRangeTable T rc) {κ s : Nat}
    (huk : RangeCallable rc κ) (hus : RangeCallable rc (s + 1)) (hnd : ¬ rc.chunk ∣ κ)
    {x : Int} (hx : -((2 : Int) ^ κ * 2 ^ s) ≤ x) (hx' : x < 2 ^ κ * 2 ^ s)
    (hq : x / 2 ^ κ + 1 < 2 ^ s) (flag : Bool) :
    Forge T (divPow2Inner rc (x : ZMod p) ((2 ^ κ : Nat) : ZMod p)
      ((2 ^ κ * 2 ^ s : Nat) : ZMod p) κ s
      ((2 ^ s : Nat) : ZMod p) flag) (fun out => out = ((x / 2 ^ κ + 1 : Int) : ZMod p)) := by
  have hκ : (0 : Int) < 2 ^ κ := by positivity
  have hs : (2 : Int) ^ (s + 1) = 2 ^ s * 2 := pow_succ _ _
  have hq0 : -2 ^ s ≤ x / 2 ^ κ := by rw [Int.le_ediv_iff_mul_le hκ]; linarith
  have hm0 := Int.emod_nonneg x hκ.ne'
  have hm1 := Int.emod_lt_of_pos x hκ
  have hdm := Int.mul_ediv_add_emod x (2 ^ κ)
  unfold divPow2Inner uIntDiv uMod
  refine (forge_hint2 _ _ _ ((x / 2 ^ κ + 1 + 2 ^ s : Int) : ZMod p)).bind (fun _ h => h) ?_
  refine (forge_hint2 _ _ _ ((x % 2 ^ κ - 2 ^ κ : Int) : ZMod p)).bind (fun _ h => h) ?_
  refine Forge.seq (Det.assertEq ?_).forge ?_
  · have : (((2 : Int) ^ κ * (x / 2 ^ κ) + x % 2 ^ κ : Int) : ZMod p) = (x : ZMod p) := by rw [hdm]
    push_cast at this ⊢
    linear_combination -this
  refine Forge.seq (huk.forge hT (accepted_neg huk.chunk_pos hnd ?_ ?_) rfl) ?_
  · linarith
  · linarith
  have hout : ((x / 2 ^ κ + 1 + 2 ^ s : Int) : ZMod p) - ((2 ^ s : Nat) : ZMod p)
      = ((x / 2 ^ κ + 1 : Int) : ZMod p) := by push_cast; ring
  cases flag with
  | true =>
    simp only [if_true]
    refine Forge.seq (hus.forge hT (accepted_nonneg ?_ ?_) rfl) (Forge.pure hout)
    · linarith
    · linarith
  | false =>
    simp only [Bool.false_eq_true, if_false]
    exact Forge.pure hout

/-- The prover chooses the outcome of `unconstrained_max` on two or more values. -/
theorem forge_uMaxLoop (v : ZMod p) (vs : List (ZMod p)) (cur m : ZMod p) :
    Forge T (uMaxLoop (v :: vs) cur) (fun r => r = m) := by
  induction vs generalizing v cur with
  | nil =>
    unfold uMaxLoop uGreater uLesserEq uMul uAdd uMaxLoop
    refine (forge_hint2 _ _ _ 0).bind (fun _ h => h) ?_
    refine (forge_hint2 _ _ _ 0).bind (fun _ h => h) ?_
    refine (forge_hint2 _ _ _ 0).bind (fun _ h => h) ?_
    refine (forge_hint2 _ _ _ 0).bind (fun _ h => h) ?_
    exact (forge_hint2 _ _ _ m).bind (fun _ h => h) (Forge.pure rfl)
  | cons w vs ih =>
    unfold uMaxLoop uGreater uLesserEq uMul uAdd
    refine (forge_hint2 _ _ _ 0).bind (fun _ h => h) ?_
    refine (forge_hint2 _ _ _ 0).bind (fun _ h => h) ?_
    refine (forge_hint2 _ _ _ 0).bind (fun _ h => h) ?_
    refine (forge_hint2 _ _ _ 0).bind (fun _ h => h) ?_
    exact (forge_hint2 _ _ _ 0).bind (fun _ h => h) (ih w 0)

theorem forge_maxLoop {rc : RangeCtx} (hT : IsRangeTable T rc) {n : Nat}
    (hu : RangeCallable rc n) (m : Int) (xs : List Int)
    (h : ∀ x ∈ xs, AcceptedInt rc.chunk n (m - x)) (prod r : ZMod p)
    (hr : r = xs.foldl (fun a (x : Int) => a * ((m : ZMod p) - (x : ZMod p))) prod) :
    Forge T (maxLoop rc n (m : ZMod p) (xs.map fun x : Int => (x : ZMod p)) prod) (fun v => v = r) := by
  induction xs generalizing prod with
  | nil => exact Forge.pure hr.symm
  | cons x xs ih =>
    change Forge T (maxLoop rc n (m : ZMod p) ((x : ZMod p) :: xs.map fun x : Int => (x : ZMod p)) prod) _
    unfold maxLoop
    refine Forge.seq (hu.forge hT (h x (by simp)) (by push_cast; ring)) ?_
    exact ih (fun y hy => h y (by simp [hy])) _ hr

theorem foldl_mul_zero {m : Int} (xs : List Int) (h : m ∈ xs) (prod : ZMod p) :
    xs.foldl (fun a (x : Int) => a * ((m : ZMod p) - (x : ZMod p))) prod = 0 := by
  have z : ∀ xs : List Int, xs.foldl (fun a (x : Int) => a * ((m : ZMod p) - (x : ZMod p))) 0 = 0 := by
    intro xs; induction xs with
    | nil => rfl
    | cons y ys ih => simp [ih]
  induction xs generalizing prod with
  | nil => simp at h
  | cons x xs ih =>
    simp only [List.foldl_cons]
    rcases List.mem_cons.mp h with rfl | h
    · simp [z]
    · exact ih h _

/-- With a chunk width not dividing `s + 1`, any element of the list can be proved to be its maximum. -/
theorem forge_constrainedMax {s : Nat} {rc : RangeCtx} (hT : IsRangeTable T rc)
    (hu : RangeCallable rc (s + 1)) (hnd : ¬ rc.chunk ∣ s + 1) (o : ZMod p)
    (x y z : Int) (t : List Int) (hx : ∀ v ∈ x :: y :: z :: t, -2 ^ s ≤ v ∧ v < 2 ^ s)
    (m : Int) (hm : m ∈ x :: y :: z :: t) :
    Forge T (constrainedMax ⟨s, o⟩ rc ((x :: y :: z :: t).map fun v : Int => (v : ZMod p)))
      (fun r => r = (m : ZMod p)) := by
  have hs : (2 : Int) ^ (s + 1) = 2 ^ s * 2 := pow_succ _ _
  change Forge T (do
        let maxOffset ← uMax (((x :: y :: z :: t).map fun v : Int => (v : ZMod p)).map (· + o))
        let maxRaw := maxOffset - o
        let prod ← maxLoop rc (s + 1) maxRaw ((x :: y :: z :: t).map fun v : Int => (v : ZMod p)) 1
        assertZero prod
        pure maxRaw) _
  refine (forge_uMaxLoop _ _ _ ((m : ZMod p) + o)).bind (fun _ h => h) ?_
  have e : (m : ZMod p) + o - o = (m : ZMod p) := by ring
  simp only [e]
  refine (forge_maxLoop hT hu m (x :: y :: z :: t) (fun v hv => ?_) 1 0 ?_).bind (fun _ h => h) ?_
  · have := hx m hm; have := hx v hv
    exact accepted_neg hu.chunk_pos hnd (by linarith) (by linarith)
  · exact (foldl_mul_zero _ hm 1).symm
  · exact Forge.seq (Det.assertZero rfl).forge (Forge.pure rfl)

end JST
