import Verif.Gadgets.Ops
import Verif.Primes

/-!
# Properties C14–C16: Boolean gates, comparison, division and is-zero

At the level of the constraints emitted by the lowering pass for operands that are not compile-time
constants. What the later compiler pass does with these constraints is `Verif/Compiler`.
-/

set_option linter.unusedSectionVars false

namespace JST.Props

open JST

section
variable {p : Nat} [Fact p.Prime] {T : Tables (ZMod p)}

/-- `x` is the field encoding of the Boolean `b`. -/
def IsBool (x : ZMod p) (b : Bool) : Prop := x = if b then 1 else 0

theorem isBool_of {x : ZMod p} (h : x = 0 ∨ x = 1) : ∃ b, IsBool x b := by
  rcases h with rfl | rfl
  · exact ⟨false, rfl⟩
  · exact ⟨true, rfl⟩

/-! ## C14 -/

/-- **C14, soundness of the emitted constraints.** Whenever the constraints of an `and`, `or` or `xor`
hold, both operands are Boolean and the result is the Boolean function of them. -/
theorem C14_gates_sound_partial (x y : ZMod p) :
    Sound T (boolAnd x y) (fun r => ∃ a b, IsBool x a ∧ IsBool y b ∧ IsBool r (a && b)) ∧
    Sound T (boolOr x y) (fun r => ∃ a b, IsBool x a ∧ IsBool y b ∧ IsBool r (a || b)) ∧
    Sound T (boolXor x y) (fun r => ∃ a b, IsBool x a ∧ IsBool y b ∧ IsBool r (a != b)) := by
  refine ⟨(sound_boolAnd x y).conseq ?_, (sound_boolOr x y).conseq ?_, (sound_boolXor x y).conseq ?_⟩
  all_goals
    rintro r ⟨hx, hy, rfl⟩
    obtain ⟨a, ha⟩ := isBool_of hx
    obtain ⟨b, hb⟩ := isBool_of hy
    refine ⟨a, b, ha, hb, ?_⟩
    unfold IsBool at *
    subst ha hb
    cases a <;> cases b <;> simp <;> ring

/-- **C14, completeness.** On Boolean operands the constraints hold. -/
theorem C14_gates_complete (x y : ZMod p) (a b : Bool) (hx : IsBool x a) (hy : IsBool y b) :
    Complete T (boolAnd x y) (fun r => IsBool r (a && b)) ∧
    Complete T (boolOr x y) (fun r => IsBool r (a || b)) ∧
    Complete T (boolXor x y) (fun r => IsBool r (a != b)) := by
  have e : ∀ c : Bool, (if c then (1 : ZMod p) else 0) = boolF c := fun c => by cases c <;> rfl
  unfold IsBool at *
  subst hx hy
  simp only [e]
  refine ⟨(det_boolAnd a b).complete, (det_boolOr a b).complete, ?_⟩
  have := (det_boolXor (T := T) (p := p) a b).complete
  exact this.conseq fun r h => by rw [h]

example : Complete (T := (fun _ _ => False : Tables (ZMod m31P))) (boolXor 1 0)
    (fun r => IsBool r true) :=
  (C14_gates_complete 1 0 true false rfl rfl).2.2

/-! ## C15 -/

/-- A natural number below `2^n` congruent to `x` is its canonical representative, provided the next
one, `x + p`, is out of range. -/
theorem rep_unique {n : Nat} {x : ZMod p} {X : Nat} (hX : X < 2 ^ n) (hx : x = (X : ZMod p))
    (h : 2 ^ n ≤ x.val + p) : X = x.val := by
  have hv : x.val = X % p := by rw [hx, ZMod.val_natCast]
  have hlt : X < x.val + p := lt_of_lt_of_le hX h
  have hd := Nat.div_add_mod X p
  have hp : 0 < p := (Fact.out : p.Prime).pos
  by_cases hq : X / p = 0
  · rw [hq] at hd; omega
  · exfalso
    have : p * 1 ≤ p * (X / p) := Nat.mul_le_mul_left p (Nat.one_le_iff_ne_zero.mpr hq)
    omega

/-- **C15, soundness part.** When neither operand has a second `n`-bit representative, `gt` is 1 exactly
when the canonical representative of `x` exceeds that of `y`. Missing: operands below `2^n - p`
(`C15_gt_unsound`). -/
theorem C15_gt_sound_partial (n : Nat) (x y : ZMod p) (hx : 2 ^ n ≤ x.val + p)
    (hy : 2 ^ n ≤ y.val + p) :
    Sound T (gt n x y) (fun r => r = if y.val < x.val then 1 else 0) := by
  refine (sound_gt n x y).conseq ?_
  rintro r ⟨X, Y, hX, hY, ex, ey, rfl⟩
  rw [rep_unique hX ex hx, rep_unique hY ey hy]
  by_cases h : y.val < x.val <;> simp [h, boolF]

/-- **C15, completeness.** With honest hints the comparison succeeds and is right. -/
theorem C15_gt_complete (n : Nat) (x y : ZMod p) (hp : p ≤ 2 ^ n) :
    Complete T (gt n x y) (fun r => r = if y.val < x.val then 1 else 0) := by
  have h1 := ZMod.val_lt x
  have h2 := ZMod.val_lt y
  refine (complete_gt n x y (by omega) (by omega)).conseq ?_
  rintro r rfl
  by_cases h : y.val < x.val <;> simp [h, boolF]

/-- **C15 is false**: an `x` with a second representative compares greater than every `y`, and a `y`
with a second representative compares at least every `x`, for a suitable prover. -/
theorem C15_gt_unsound (n : Nat) (x y : ZMod p) :
    (x.val + p < 2 ^ n → Forge T (gt n x y) (fun r => r = 1)) ∧
    (y.val + p < 2 ^ n → Forge T (gt n x y) (fun r => r = 0)) := by
  have h1 := ZMod.val_lt x
  have h2 := ZMod.val_lt y
  have e : ∀ z : ZMod p, z = ((z.val + p : Nat) : ZMod p) := fun z => by simp
  constructor
  · intro h
    refine (forge_gt n x y (x.val + p) y.val h (by omega) (e x) (by simp)).conseq ?_
    rintro r rfl
    simp [boolF]; omega
  · intro h
    refine (forge_gt n x y x.val (y.val + p) (by omega) h (by simp) (e y)).conseq ?_
    rintro r rfl
    simp [boolF]; omega

/-- The same for `geq`, which is the negation of the swapped comparison. -/
theorem C15_geq (n : Nat) (x y : ZMod p) :
    (2 ^ n ≤ x.val + p → 2 ^ n ≤ y.val + p →
      Sound T (geq n x y) (fun r => r = if y.val ≤ x.val then 1 else 0)) ∧
    (p ≤ 2 ^ n → Complete T (geq n x y) (fun r => r = if y.val ≤ x.val then 1 else 0)) ∧
    (x.val + p < 2 ^ n → Forge T (geq n x y) (fun r => r = 1)) ∧
    (y.val + p < 2 ^ n → Forge T (geq n x y) (fun r => r = 0)) := by
  have e : ∀ r : ZMod p, r = (if x.val < y.val then 1 else 0) →
      1 - r = if y.val ≤ x.val then 1 else 0 := by
    rintro r rfl
    by_cases h : x.val < y.val
    · rw [if_pos h, if_neg (by omega)]; ring
    · rw [if_neg h, if_pos (by omega)]; ring
  refine ⟨fun hx hy => ?_, fun hp => ?_, fun h => ?_, fun h => ?_⟩
  · exact (C15_gt_sound_partial n y x hy hx).bind fun r hr => Sound.pure (e r hr)
  · exact (C15_gt_complete n y x hp).bind fun r hr => Complete.pure (e r hr)
  · exact ((C15_gt_unsound n y x).2 h).bind (fun _ h => h) (Forge.pure (by ring))
  · exact ((C15_gt_unsound n y x).1 h).bind (fun _ h => h) (Forge.pure (by ring))

end

/-- **C15 on BN254** (254 bits): every value below `2^250`, hence every quantised activation in use, can be
"proved" greater than anything, and not smaller than anything. -/
theorem C15_gt_bn254_unsound {T : Tables (ZMod bn254P)} (x y : ZMod bn254P) :
    (x.val < 2 ^ 250 → Forge T (gt 254 x y) (fun r => r = 1)) ∧
    (y.val < 2 ^ 250 → Forge T (gt 254 x y) (fun r => r = 0)) := by
  have h : 2 ^ 250 + bn254P < 2 ^ 254 := by norm_num [bn254P]
  exact ⟨fun hx => (C15_gt_unsound 254 x y).1 (by omega), fun hy => (C15_gt_unsound 254 x y).2 (by omega)⟩

/-- **C15 on Goldilocks** (64 bits): the same for every value below `2^32 - 1`. -/
theorem C15_gt_goldilocks_unsound {T : Tables (ZMod goldP)} (x y : ZMod goldP) :
    (x.val < 2 ^ 32 - 1 → Forge T (gt 64 x y) (fun r => r = 1)) ∧
    (y.val < 2 ^ 32 - 1 → Forge T (gt 64 x y) (fun r => r = 0)) := by
  have h : 2 ^ 32 - 1 + goldP = 2 ^ 64 := by norm_num [goldP]
  exact ⟨fun hx => (C15_gt_unsound 64 x y).1 (by omega), fun hy => (C15_gt_unsound 64 x y).2 (by omega)⟩

/-- **C15 on Mersenne31** (31 bits): only zero has a second representative, and every comparison of
nonzero values is sound. -/
theorem C15_gt_m31 {T : Tables (ZMod m31P)} (x y : ZMod m31P) :
    (x.val ≠ 0 → y.val ≠ 0 → Sound T (gt 31 x y) (fun r => r = if y.val < x.val then 1 else 0)) ∧
    Forge T (gt 31 0 y) (fun r => r = 1) := by
  have h : m31P + 1 = 2 ^ 31 := by norm_num [m31P]
  refine ⟨fun hx hy => C15_gt_sound_partial 31 x y (by omega) (by omega), ?_⟩
  exact (C15_gt_unsound 31 0 y).1 (by rw [ZMod.val_zero]; omega)

section
variable {p : Nat} [Fact p.Prime] {T : Tables (ZMod p)}

/-! ## C16 -/

/-- **C16, checked division**: sound, complete on nonzero divisors, and unsatisfiable on zero. -/
theorem C16_div_checked (x y : ZMod p) :
    Sound T (divChecked x y) (fun r => y ≠ 0 ∧ r * y = x) ∧
    (y ≠ 0 → Complete T (divChecked x y) (fun r => r * y = x)) := by
  constructor
  · unfold divChecked uDivHint
    refine sound_hint2.bind fun inv _ => Sound.assertZero.bind fun _ h => Sound.pure ?_
    have h' : y * inv = 1 := sub_eq_zero.mp h
    refine ⟨by rintro rfl; simp at h', ?_⟩
    rw [mul_assoc, mul_comm inv, h', mul_one]
  · intro hy
    unfold divChecked uDivHint
    refine (complete_hint2 rfl).bind ?_
    rintro inv rfl
    refine (Det.assertZero ?_).complete.bind fun _ _ => Complete.pure ?_
    · rw [one_mul, mul_inv_cancel₀ hy, sub_self]
    · rw [one_mul, mul_assoc, inv_mul_cancel₀ hy, mul_one]

/-- **C16, unchecked division**: the result times the divisor is the dividend, in particular a zero
divisor forces a zero dividend; complete for every nonzero divisor and for `0 / 0`, which honestly
yields 0. -/
theorem C16_div_unchecked (x y : ZMod p) :
    Sound T (divUnchecked x y) (fun r => r * y = x) ∧
    (y ≠ 0 ∨ x = 0 → Complete T (divUnchecked x y) (fun r => r * y = x ∧ (y = 0 → r = 0))) := by
  constructor
  · unfold divUnchecked uDivHint
    refine sound_hint2.bind fun r _ => Sound.assertZero.bind fun _ h => Sound.pure ?_
    rw [mul_comm]; exact sub_eq_zero.mp h
  · intro hy
    unfold divUnchecked uDivHint
    refine (complete_hint2 rfl).bind ?_
    rintro r rfl
    have : y * (x * y⁻¹) = x := by
      rcases eq_or_ne y 0 with rfl | h0
      · simp [hy.resolve_left (by simp)]
      · rw [mul_comm x, ← mul_assoc, mul_inv_cancel₀ h0, one_mul]
    refine (Det.assertZero (by rw [this, sub_self])).complete.bind fun _ _ => Complete.pure ⟨?_, ?_⟩
    · rw [mul_comm]; exact this
    · rintro rfl; simp

/-- Unchecked `0 / 0` is unconstrained: any result is accepted. The caller must exclude it. -/
theorem C16_div_unchecked_zero_free (r : ZMod p) :
    Forge T (divUnchecked (0 : ZMod p) 0) (fun v => v = r) := by
  unfold divUnchecked uDivHint
  refine (forge_hint2 _ _ _ r).bind (fun _ h => h) ?_
  exact Forge.seq (Det.assertZero (by ring)).forge (Forge.pure rfl)

/-- **C16, is-zero**: in every accepted run, and in the honest run, the result is 1 on zero and 0
elsewhere. -/
theorem C16_is_zero (x : ZMod p) :
    Sound T (isZero x) (fun m => m = if x = 0 then 1 else 0) ∧
    Complete T (isZero x) (fun m => m = if x = 0 then 1 else 0) :=
  ⟨sound_isZero x, complete_isZero x⟩

/-- **C16, non-zero assertion**: satisfiable exactly on nonzero values. -/
theorem C16_assert_non_zero (x : ZMod p) :
    Sound T (assertNonZero x) (fun _ => x ≠ 0) ∧
    (x ≠ 0 → Complete T (assertNonZero x) (fun _ => True)) := by
  constructor
  · unfold assertNonZero uDivHint
    refine sound_hint2.bind fun inv _ => Sound.assertZero.conseq ?_
    rintro _ h rfl
    simp at h
  · intro hx
    unfold assertNonZero uDivHint
    refine (complete_hint2 rfl).bind ?_
    rintro inv rfl
    exact ((Det.assertZero (by rw [one_mul, mul_inv_cancel₀ hx, sub_self])).complete).conseq
      fun _ _ => trivial

/-- **C16, bit decomposition**: accepted outputs are `n` Booleans denoting an integer congruent to the
input, and the honest outputs are the bits of the canonical representative when it fits. -/
theorem C16_to_binary (x : ZMod p) (n : Nat) :
    Sound T (toBinary x n) (fun bits => ∃ b : List Bool, b.length = n ∧
      bits = b.map (fun c : Bool => if c then (1 : ZMod p) else 0) ∧
      x = ((Nat.ofBits fun i : Fin n => b.getD i false : Nat) : ZMod p)) ∧
    (x.val < 2 ^ n → Complete T (toBinary x n) (fun bits =>
      bits = (List.range n).map fun i : Nat => if x.val.testBit i then (1 : ZMod p) else 0)) := by
  have e : ∀ c : Bool, (if c then (1 : ZMod p) else 0) = boolF c := fun c => by cases c <;> rfl
  have hb : ∀ (n : Nat) (b : List Bool), b.length = n →
      bitsVal b = Nat.ofBits fun i : Fin n => b.getD i false := by
    intro n
    induction n with
    | zero => intro b hb; rw [List.length_eq_zero_iff] at hb; subst hb; rfl
    | succ n ih =>
      intro b hb
      cases b with
      | nil => simp at hb
      | cons c b =>
        rw [Nat.ofBits_succ, bitsVal, ih b (by simpa using hb)]
        simp [Function.comp_def]
        ring
  constructor
  · refine (sound_toBinary x n).conseq ?_
    rintro bits ⟨b, hl, rfl, hx⟩
    refine ⟨b, hl, ?_, ?_⟩
    · apply List.map_congr_left; intro c _; exact (e c).symm
    · rw [← hb n b hl]; exact hx
  · intro h
    refine (complete_toBinary x n h).conseq ?_
    rintro bits rfl
    rw [natBits_map]
    apply List.map_congr_left
    intro i _
    rw [Nat.testBit_eq_decide_div_mod_eq]
    rcases Nat.mod_two_eq_zero_or_one (x.val / 2 ^ i) with h | h <;> simp [h]

example : Complete (T := (fun _ _ => False : Tables (ZMod m31P))) (divChecked 6 3)
    (fun r => r * 3 = 6) :=
  (C16_div_checked 6 3).2 (by decide +kernel)

end

end JST.Props
