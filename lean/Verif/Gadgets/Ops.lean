import Verif.Gadgets.RangeCheckProofs
import Verif.Gadgets.ArithProofs2
import Mathlib.Tactic.FieldSimp
import Mathlib.Algebra.Field.ZMod

/-!
# The lowering of the circuit API's composite operations

`api.div`, `is_zero`, `assert_is_non_zero`, `and`/`or`/`xor`, `to_binary`, `gt`, `geq` are emitted by
/repo/compiler/expander_compiler/src/frontend/builder.rs:157-533 as source instructions and lowered to
hints and constraints by /repo/compiler/expander_compiler/src/builder/hint_normalize.rs. This file
models the lowering of each instruction whose operands are not compile-time constants, as the list of
constraints it adds. (Constant operands are folded, `Verif/Compiler`.)
-/

set_option linter.unusedSectionVars false

namespace JST

variable {p : Nat} [Fact p.Prime] {T : Tables (ZMod p)}

/-- The built-in hint `Div`, hints/builtin.rs:182-185: `x / y`, and 0 when `y = 0`. -/
def uDivHint (x y : ZMod p) : G (ZMod p) (ZMod p) := hint2 (fun a b => .ok (a * b⁻¹)) x y

/-- `IsZero` on a non-constant, hint_normalize.rs:169-183. -/
def isZero (x : ZMod p) : G (ZMod p) (ZMod p) := do
  let inv ← uDivHint 1 x
  let prod := x * inv
  let m := 1 - prod
  assertZero (x * m)
  pure m

/-- `Div { checked: true }` by a non-constant, hint_normalize.rs:106-119. -/
def divChecked (x y : ZMod p) : G (ZMod p) (ZMod p) := do
  let inv ← uDivHint 1 y
  assertZero (y * inv - 1)
  pure (x * inv)

/-- `Div { checked: false }` by a non-constant, hint_normalize.rs:120-131. -/
def divUnchecked (x y : ZMod p) : G (ZMod p) (ZMod p) := do
  let r ← uDivHint x y
  assertZero (y * r - x)
  pure r

/-- The `NonZero` constraint, hint_normalize.rs:314-326. -/
def assertNonZero (x : ZMod p) : G (ZMod p) Unit := do
  let inv ← uDivHint 1 x
  assertZero (x * inv - 1)

/-- `BoolBinOp` `And`, hint_normalize.rs:134-140. -/
def boolAnd (x y : ZMod p) : G (ZMod p) (ZMod p) := do
  assertBool x; assertBool y
  pure (x * y)

/-- `BoolBinOp` `Or`, hint_normalize.rs:134-141. -/
def boolOr (x y : ZMod p) : G (ZMod p) (ZMod p) := do
  assertBool x; assertBool y
  pure (x + y - x * y)

/-- `BoolBinOp` `Xor`, hint_normalize.rs:134-157. -/
def boolXor (x y : ZMod p) : G (ZMod p) (ZMod p) := do
  assertBool x; assertBool y
  pure (x + y + -(1 + 1) * (x * y))

/-- The built-in hint `to_binary`, hints/builtin.rs:253-271: an error when the value does not fit. -/
def toBinaryHint (n : Nat) (inputs : List (ZMod p)) : Except Err (List (ZMod p)) :=
  match inputs with
  | [x] =>
    if x.val / 2 ^ n ≠ 0 then .error (.hint "to_binary: value too large")
    else .ok ((List.range n).map fun i : Nat => ((x.val / 2 ^ i % 2 : Nat) : ZMod p))
  | _ => .error (.hint "arity")

/-- The loop of hint_normalize.rs:275-287: every bit is asserted Boolean and added with its weight. -/
def toBinaryLoop : List (ZMod p) → ZMod p → ZMod p → G (ZMod p) (ZMod p)
  | [], _, sum => pure sum
  | b :: bs, coef, sum => do
    assertBool b
    toBinaryLoop bs (coef + coef) (sum + coef * b)

/-- `ToBinary`, hint_normalize.rs:267-303. -/
def toBinary (x : ZMod p) (n : Nat) : G (ZMod p) (List (ZMod p)) := do
  let bits ← newHint (toBinaryHint n) [x] n
  let sum ← toBinaryLoop bits 1 0
  assertZero (x - sum)
  pure bits

/-- The comparison loop of `gt`, builder.rs:497-518, over the bit pairs from the most significant. -/
def gtLoop : List (ZMod p × ZMod p) → ZMod p → ZMod p → G (ZMod p) (ZMod p)
  | [], result, _ => pure result
  | (xb, yb) :: rest, result, stillEqual => do
    let xGreater ← boolAnd xb (1 - yb)
    let shouldSet ← boolAnd stillEqual xGreater
    let result' ← boolOr result shouldSet
    let different ← boolXor xb yb
    let stillEqual' ← boolAnd stillEqual (1 - different)
    gtLoop rest result' stillEqual'

/-- `gt` with `numBits` bits (254, 64 or 31 depending on the field), builder.rs:471-521. -/
def gt (numBits : Nat) (x y : ZMod p) : G (ZMod p) (ZMod p) := do
  let xs ← toBinary x numBits
  let ys ← toBinary y numBits
  gtLoop ((xs.zip ys).reverse) 0 1

/-- `geq`, builder.rs:524-533. -/
def geq (numBits : Nat) (x y : ZMod p) : G (ZMod p) (ZMod p) := do
  let r ← gt numBits y x
  pure (1 - r)

/-! ## Proof rules -/

theorem sound_isZero (x : ZMod p) : Sound T (isZero x) (fun m => m = if x = 0 then 1 else 0) := by
  unfold isZero uDivHint
  refine sound_hint2.bind fun inv _ => Sound.assertZero.bind fun _ h => Sound.pure ?_
  split_ifs with hx
  · simp [hx]
  · rcases mul_eq_zero.mp h with h | h
    · exact absurd h hx
    · exact h

theorem complete_isZero (x : ZMod p) : Complete T (isZero x) (fun m => m = if x = 0 then 1 else 0) := by
  unfold isZero uDivHint
  refine (complete_hint2 rfl).bind ?_
  rintro inv rfl
  refine (Det.assertZero ?_).complete.bind fun _ _ => Complete.pure ?_
  · by_cases hx : x = 0
    · simp [hx]
    · rw [one_mul, mul_inv_cancel₀ hx]; ring
  · split_ifs with hx
    · simp [hx]
    · rw [one_mul, mul_inv_cancel₀ hx]; ring

theorem forge_isZero (x : ZMod p) : Forge T (isZero x) (fun m => m = if x = 0 then 1 else 0) := by
  unfold isZero uDivHint
  refine (forge_hint2 _ _ _ x⁻¹).bind (fun _ h => h) ?_
  refine Forge.seq (Det.assertZero ?_).forge (Forge.pure ?_)
  · by_cases hx : x = 0
    · simp [hx]
    · rw [mul_inv_cancel₀ hx]; ring
  · split_ifs with hx
    · simp [hx]
    · rw [mul_inv_cancel₀ hx]; ring

/-- Weighted sum of a bit list with weights `coef * 2^i`. -/
def weighted (bs : List (ZMod p)) (coef : ZMod p) : ZMod p :=
  match bs with
  | [] => 0
  | b :: bs => coef * b + weighted bs (coef + coef)

/-- The integer denoted by a list of Booleans, least significant first. -/
def bitsVal : List Bool → Nat
  | [] => 0
  | b :: bs => b.toNat + 2 * bitsVal bs

theorem bitsVal_lt (bs : List Bool) : bitsVal bs < 2 ^ bs.length := by
  induction bs with
  | nil => simp [bitsVal]
  | cons b bs ih =>
    simp only [bitsVal, List.length_cons, pow_succ]
    have : b.toNat ≤ 1 := Bool.toNat_le b
    omega

theorem boolF_cases (b : Bool) : (boolF b : ZMod p) = ((b.toNat : Nat) : ZMod p) := by
  cases b <;> simp [boolF]

theorem weighted_boolF (bs : List Bool) (c : Nat) :
    weighted (bs.map (boolF (p := p))) ((c : Nat) : ZMod p) = ((c * bitsVal bs : Nat) : ZMod p) := by
  induction bs generalizing c with
  | nil => simp [weighted, bitsVal]
  | cons b bs ih =>
    simp only [List.map_cons, weighted, bitsVal]
    have := ih (c + c)
    push_cast at this
    rw [this, boolF_cases]
    push_cast
    ring

theorem sound_toBinaryLoop (bs : List (ZMod p)) (coef sum : ZMod p) :
    Sound T (toBinaryLoop bs coef sum) (fun r => ∃ b : List Bool, bs = b.map boolF ∧
      r = sum + weighted bs coef) := by
  induction bs generalizing coef sum with
  | nil => exact Sound.pure ⟨[], rfl, by simp [weighted]⟩
  | cons b bs ih =>
    refine Sound.assertBool.bind fun _ hb => (ih _ _).conseq ?_
    rintro r ⟨l, hl, hr⟩
    refine ⟨(if b = 1 then true else false) :: l, ?_, ?_⟩
    · rw [List.map_cons, ← hl]
      rcases hb with rfl | rfl <;> simp [boolF]
    · rw [hr, weighted]; ring

theorem det_toBinaryLoop (l : List Bool) (coef sum : ZMod p) :
    Det T (toBinaryLoop (l.map boolF) coef sum)
      (fun r => r = sum + weighted (l.map boolF) coef) := by
  induction l generalizing coef sum with
  | nil => exact Det.pure (by simp [weighted])
  | cons b bs ih =>
    refine (Det.assertBool ?_).bind fun _ _ => (ih _ _).conseq ?_
    · cases b <;> simp [boolF]
    · rintro r rfl
      simp only [List.map_cons, weighted]; ring

/-- What a satisfied `to_binary` says: the outputs are `n` bits of an integer congruent to `x`. -/
theorem sound_toBinary (x : ZMod p) (n : Nat) :
    Sound T (toBinary x n) (fun bits => ∃ b : List Bool, b.length = n ∧ bits = b.map boolF ∧
      x = ((bitsVal b : Nat) : ZMod p)) := by
  unfold toBinary
  refine Sound.newHint.bind fun bits hl => (sound_toBinaryLoop bits 1 0).bind ?_
  rintro sum ⟨b, hb, hs⟩
  refine Sound.assertZero.bind fun _ h => Sound.pure ⟨b, ?_, hb, ?_⟩
  · rw [← hl, hb, List.length_map]
  · rw [sub_eq_zero.mp h, hs, hb]
    have := weighted_boolF (p := p) b 1
    simpa using this

/-- Any bit string of the right length whose value is congruent to `x` is accepted. -/
theorem forge_toBinary (x : ZMod p) (b : List Bool) (hx : x = ((bitsVal b : Nat) : ZMod p)) :
    Forge T (toBinary x b.length) (fun bits => bits = b.map boolF) := by
  unfold toBinary
  refine (Forge.newHint _ _ (b.map boolF) (by simp)).bind (fun _ h => h) ?_
  refine (det_toBinaryLoop b 1 0).forge.bind (fun _ h => h) ?_
  refine Forge.seq (Det.assertZero ?_).forge (Forge.pure rfl)
  have := weighted_boolF (p := p) b 1
  simp only [Nat.cast_one, one_mul] at this
  rw [this, hx]; ring

/-- The bits of `a`, least significant first. -/
def natBits : Nat → Nat → List Bool
  | 0, _ => []
  | n + 1, a => (a % 2 == 1) :: natBits n (a / 2)

theorem natBits_length (n a : Nat) : (natBits n a).length = n := by
  induction n generalizing a with
  | zero => rfl
  | succ n ih => simp [natBits, ih]

theorem bitsVal_natBits (n a : Nat) (h : a < 2 ^ n) : bitsVal (natBits n a) = a := by
  induction n generalizing a with
  | zero => simp at h; simp [natBits, bitsVal, h]
  | succ n ih =>
    simp only [natBits, bitsVal]
    rw [ih (a / 2) (by rw [pow_succ] at h; omega)]
    have : (a % 2 == 1).toNat = a % 2 := by
      rcases Nat.mod_two_eq_zero_or_one a with h | h <;> simp [h]
    omega

theorem natBits_map (n a : Nat) : (natBits n a).map (boolF (p := p)) =
    (List.range n).map fun i : Nat => ((a / 2 ^ i % 2 : Nat) : ZMod p) := by
  induction n generalizing a with
  | zero => rfl
  | succ n ih =>
    rw [natBits, List.map_cons, ih, List.range_succ_eq_map, List.map_cons, List.map_map]
    congr 1
    · rw [boolF_cases]
      congr 1
      rcases Nat.mod_two_eq_zero_or_one a with h | h <;> simp [h]
    · apply List.map_congr_left
      intro i _
      simp only [Function.comp, Nat.succ_eq_add_one]
      rw [Nat.div_div_eq_div_mul, pow_succ, Nat.mul_comm (2 ^ i) 2]

theorem complete_toBinary (x : ZMod p) (n : Nat) (h : x.val < 2 ^ n) :
    Complete T (toBinary x n) (fun bits => bits = (natBits n x.val).map boolF) := by
  unfold toBinary
  refine (Complete.newHint (outs := (natBits n x.val).map boolF) ?_ (by simp [natBits_length])).bind ?_
  · rw [natBits_map]
    simp [toBinaryHint, Nat.div_eq_of_lt h]
  · rintro bits rfl
    refine (det_toBinaryLoop _ 1 0).complete.bind ?_
    rintro s rfl
    refine (Det.assertZero ?_).complete.bind fun _ _ => Complete.pure rfl
    have := weighted_boolF (p := p) (natBits n x.val) 1
    simp only [Nat.cast_one, one_mul] at this
    rw [this, bitsVal_natBits n _ h, zero_add, ZMod.natCast_zmod_val, sub_self]

/-- Lexicographic comparison, most significant bit first. -/
def gtBits : List (Bool × Bool) → Bool → Bool → Bool
  | [], r, _ => r
  | (a, b) :: rest, r, e => gtBits rest (r || (e && (a && !b))) (e && !(xor a b))

theorem boolF_bool (b : Bool) : (boolF b : ZMod p) = 0 ∨ (boolF b : ZMod p) = 1 := by
  cases b <;> simp [boolF]

theorem sound_boolAnd (x y : ZMod p) : Sound T (boolAnd x y) (fun r =>
    (x = 0 ∨ x = 1) ∧ (y = 0 ∨ y = 1) ∧ r = x * y) :=
  Sound.assertBool.bind fun _ hx => Sound.assertBool.bind fun _ hy => Sound.pure ⟨hx, hy, rfl⟩
theorem sound_boolOr (x y : ZMod p) : Sound T (boolOr x y) (fun r =>
    (x = 0 ∨ x = 1) ∧ (y = 0 ∨ y = 1) ∧ r = x + y - x * y) :=
  Sound.assertBool.bind fun _ hx => Sound.assertBool.bind fun _ hy => Sound.pure ⟨hx, hy, rfl⟩
theorem sound_boolXor (x y : ZMod p) : Sound T (boolXor x y) (fun r =>
    (x = 0 ∨ x = 1) ∧ (y = 0 ∨ y = 1) ∧ r = x + y + -(1 + 1) * (x * y)) :=
  Sound.assertBool.bind fun _ hx => Sound.assertBool.bind fun _ hy => Sound.pure ⟨hx, hy, rfl⟩

theorem det_boolAnd (a b : Bool) :
    Det T (boolAnd (boolF a : ZMod p) (boolF b)) (fun r => r = boolF (a && b)) :=
  (Det.assertBool (boolF_bool a)).bind fun _ _ => (Det.assertBool (boolF_bool b)).bind fun _ _ =>
    Det.pure (by cases a <;> cases b <;> simp [boolF])
theorem det_boolOr (a b : Bool) :
    Det T (boolOr (boolF a : ZMod p) (boolF b)) (fun r => r = boolF (a || b)) :=
  (Det.assertBool (boolF_bool a)).bind fun _ _ => (Det.assertBool (boolF_bool b)).bind fun _ _ =>
    Det.pure (by cases a <;> cases b <;> simp [boolF])
theorem det_boolXor (a b : Bool) :
    Det T (boolXor (boolF a : ZMod p) (boolF b)) (fun r => r = boolF (xor a b)) :=
  (Det.assertBool (boolF_bool a)).bind fun _ _ => (Det.assertBool (boolF_bool b)).bind fun _ _ =>
    Det.pure (by cases a <;> cases b <;> simp [boolF] <;> ring)

theorem one_sub_boolF (a : Bool) : (1 : ZMod p) - boolF a = boolF (!a) := by
  cases a <;> simp [boolF]

/-- On Boolean inputs the loop is deterministic and computes the lexicographic comparison. -/
theorem det_gtLoop (l : List (Bool × Bool)) (r e : Bool) :
    Det T (gtLoop (l.map fun ab : Bool × Bool => ((boolF ab.1 : ZMod p), (boolF ab.2 : ZMod p)))
      (boolF r) (boolF e)) (fun v => v = boolF (gtBits l r e)) := by
  induction l generalizing r e with
  | nil => exact Det.pure rfl
  | cons ab l ih =>
    obtain ⟨a, b⟩ := ab
    simp only [List.map_cons, gtLoop, gtBits]
    rw [one_sub_boolF]
    refine (det_boolAnd a (!b)).bind ?_
    rintro _ rfl
    refine (det_boolAnd e (a && !b)).bind ?_
    rintro _ rfl
    refine (det_boolOr r _).bind ?_
    rintro _ rfl
    refine (det_boolXor a b).bind ?_
    rintro _ rfl
    rw [one_sub_boolF]
    refine (det_boolAnd e _).bind ?_
    rintro _ rfl
    exact ih _ _

/-- A deterministic gadget is also sound: every run has the stated result. -/
theorem Det.sound {α : Type} {g : G (ZMod p) α} {Q : α → Prop} (h : Det T g Q) : Sound T g Q := by
  intro hh o ho _
  obtain ⟨o', h1, -, -, h4⟩ := h hh
  rw [h1] at ho; cases ho; exact h4

/-- The comparison of the integers denoted by two bit strings. -/
theorem gtBits_eq (l : List (Bool × Bool)) (r e : Bool) :
    gtBits l r e = (r || (e && decide
      (bitsVal ((l.map Prod.snd).reverse) < bitsVal ((l.map Prod.fst).reverse)))) := by
  have bv_append : ∀ (u : List Bool) (c : Bool), bitsVal (u ++ [c]) = bitsVal u + 2 ^ u.length * c.toNat := by
    intro u c
    induction u with
    | nil => simp [bitsVal]
    | cons d u ih => simp only [List.cons_append, bitsVal, ih, List.length_cons, pow_succ]; ring
  induction l generalizing r e with
  | nil => simp [gtBits, bitsVal]
  | cons ab l ih =>
    obtain ⟨a, b⟩ := ab
    rw [gtBits, ih]
    simp only [List.map_cons, List.reverse_cons, bv_append, List.length_reverse, List.length_map]
    have h1 := bitsVal_lt ((l.map Prod.fst).reverse)
    have h2 := bitsVal_lt ((l.map Prod.snd).reverse)
    simp only [List.length_reverse, List.length_map] at h1 h2
    cases a <;> cases b <;> cases r <;> cases e <;> simp <;> omega

theorem gtLoop_bits (bx by' : List Bool) (hl : bx.length = by'.length) :
    Det T (gtLoop (((bx.map (boolF (p := p))).zip (by'.map boolF)).reverse) 0 1)
      (fun v => v = boolF (decide (bitsVal by' < bitsVal bx))) := by
  have e : ((bx.map (boolF (p := p))).zip (by'.map boolF)).reverse =
      ((bx.zip by').reverse).map fun ab : Bool × Bool => ((boolF ab.1 : ZMod p), (boolF ab.2 : ZMod p)) := by
    rw [List.map_reverse, List.zip_map]; rfl
  rw [e]
  have := det_gtLoop (T := T) (p := p) ((bx.zip by').reverse) false true
  refine Det.conseq (P := fun v => v = boolF (gtBits ((bx.zip by').reverse) false true)) ?_ ?_
  · simpa [boolF] using this
  · rintro v rfl
    rw [gtBits_eq]
    simp [List.map_reverse, List.map_fst_zip (by omega : bx.length ≤ by'.length),
      List.map_snd_zip (by omega : by'.length ≤ bx.length)]

/-- What a satisfied `gt` says: the result compares *some* `numBits`-bit integers congruent to the
operands. -/
theorem sound_gt (n : Nat) (x y : ZMod p) :
    Sound T (gt n x y) (fun r => ∃ X Y : Nat, X < 2 ^ n ∧ Y < 2 ^ n ∧ x = (X : ZMod p) ∧
      y = (Y : ZMod p) ∧ r = boolF (decide (Y < X))) := by
  unfold gt
  refine (sound_toBinary x n).bind ?_
  rintro xs ⟨bx, hlx, rfl, hx⟩
  refine (sound_toBinary y n).bind ?_
  rintro ys ⟨by', hly, rfl, hy⟩
  refine (gtLoop_bits bx by' (by omega)).sound.conseq ?_
  rintro v rfl
  exact ⟨bitsVal bx, bitsVal by', hlx ▸ bitsVal_lt bx, hly ▸ bitsVal_lt by', hx, hy, rfl⟩

/-- Every pair of congruent integers can be used by a cheating prover. -/
theorem forge_gt (n : Nat) (x y : ZMod p) (X Y : Nat) (hX : X < 2 ^ n) (hY : Y < 2 ^ n)
    (hx : x = (X : ZMod p)) (hy : y = (Y : ZMod p)) :
    Forge T (gt n x y) (fun r => r = boolF (decide (Y < X))) := by
  unfold gt
  have fx := forge_toBinary (T := T) x (natBits n X) (by rw [bitsVal_natBits n X hX]; exact hx)
  have fy := forge_toBinary (T := T) y (natBits n Y) (by rw [bitsVal_natBits n Y hY]; exact hy)
  rw [natBits_length] at fx fy
  refine fx.bind (fun _ h => h) (fy.bind (fun _ h => h) ?_)
  refine ((gtLoop_bits _ _ (by rw [natBits_length, natBits_length])).forge).conseq ?_
  rintro v rfl
  rw [bitsVal_natBits n X hX, bitsVal_natBits n Y hY]

theorem complete_gt (n : Nat) (x y : ZMod p) (hx : x.val < 2 ^ n) (hy : y.val < 2 ^ n) :
    Complete T (gt n x y) (fun r => r = boolF (decide (y.val < x.val))) := by
  unfold gt
  refine (complete_toBinary x n hx).bind ?_
  rintro _ rfl
  refine (complete_toBinary y n hy).bind ?_
  rintro _ rfl
  refine ((gtLoop_bits _ _ (by rw [natBits_length, natBits_length])).complete).conseq ?_
  rintro v rfl
  rw [bitsVal_natBits n _ hx, bitsVal_natBits n _ hy]

end JST
