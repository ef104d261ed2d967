import Verif.Compiler.Builder
import Mathlib.Algebra.Field.ZMod
import Mathlib.Data.Nat.Bitwise

/-!
# Operations on constants

The circuit API computes an operation on constants when the circuit is written, the first pass does
so for some more, and the witness solver computes the others at run time, either as a source
instruction or, after the first pass, as a hint.  This file models all of these computations over
the prime fields.  `none` is an error or a panic: the program does not go on.

`U256` values are natural numbers; where a shift drops bits, the model reduces modulo `2^256`.
-/

namespace JST.Comp

open JST.Circ

variable {p : Nat} [Fact p.Prime]

/-! ## The circuit API -/

/-- Calls of the circuit API with constant operands. -/
inductive ApiOp where
  | add | sub | neg | mul
  | div (checked : Bool)
  | xor | or | and
  | isZero
  | toBinary (n : Nat)
  deriving DecidableEq, Repr

/-- `F::from(b as u32)`. -/
def bit (b : Bool) : ZMod p := if b then 1 else 0

/-- `frontend/builder.rs:413-425` `assert_is_bool` on a constant: a panic if it is no bit. -/
def needBool (v : ZMod p) : Option Unit := if v ≠ 0 ∧ v ≠ 1 then none else some ()

/-- `hints/builtin.rs:253-266` `to_binary`. -/
def toBinaryLoop : Nat → Nat → List (ZMod p) × Nat
  | 0, y => ([], y)
  | n + 1, y =>
      let (r, z) := toBinaryLoop n (y / 2)
      (((y % 2 : Nat) : ZMod p) :: r, z)

def toBinaryHint (x : ZMod p) (n : Nat) : Option (List (ZMod p)) :=
  let (r, z) := toBinaryLoop n x.val
  if z ≠ 0 then none else some r

/-- `frontend/builder.rs:158-383`: what the circuit API returns when all operands are constants. -/
def apiFold (op : ApiOp) (x y : ZMod p) : Option (List (ZMod p)) :=
  match op with
  | .add => some [x + y]                                                   -- 158-170
  | .sub => some [x - y]                                                   -- 188-200
  | .neg => some [-x]                                                      -- 216-220
  | .mul => some [x * y]                                                   -- 231-243
  | .div checked =>                                                        -- 251-272
      if y = 0 then if checked || decide (x ≠ 0) then none else some [0]
      else some [x * y⁻¹]
  | .xor => do needBool x; needBool y; some [bit (decide (x ≠ y))]         -- 283-296
  | .or => do needBool x; needBool y; some [bit (decide (x ≠ 0) || decide (y ≠ 0))]   -- 307-322
  | .and => do needBool x; needBool y; some [bit (decide (x ≠ 0) && decide (y ≠ 0))]  -- 333-348
  | .isZero => some [bit (decide (x = 0))]                                 -- 359-363
  | .toBinary n => toBinaryHint x n                                        -- 369-378

/-- `frontend/builder.rs:158-383`: the instruction which is recorded when an operand is no
constant; `x` and `y` are the variables of the operands. -/
def apiInsn (op : ApiOp) (x y : Nat) : SInsn (ZMod p) :=
  match op with
  | .add => .linComb ⟨[(x, 1), (y, 1)], 0⟩
  | .sub => .linComb ⟨[(x, 1), (y, -1)], 0⟩
  | .neg => .linComb ⟨[(x, -1)], 0⟩
  | .mul => .mul [x, y]
  | .div checked => .div x y checked
  | .xor => .boolBin x y .xor
  | .or => .boolBin x y .or
  | .and => .boolBin x y .and
  | .isZero => .isZero x
  | .toBinary n => .toBinary x n

/-! ## Source instructions at run time -/

/-- The loop of `source/mod.rs:423-435` and `builtin.rs:191-202`; 256 rounds empty any `U256`. -/
def powLoop : Nat → ZMod p → ZMod p → Nat → ZMod p
  | 0, _, res, _ => res
  | n + 1, t, res, y =>
      if y = 0 then res
      else powLoop n (t * t) (if y % 2 = 1 then res * t else res) (y / 2)

/-- `builtin.rs:315-317` `u256_bit_length`. -/
def bitLength (n : Nat) : Nat := n.size

/-- `builtin.rs:322-326`. -/
def shiftAmount (p k : Nat) : Nat := if k / 2 ^ 64 = 0 then k else bitLength p

/-- `builtin.rs:319-357` `circom_shift_l_impl` (`left`) and `circom_shift_r_impl`; the first
argument bounds the number of mutual calls, see `circomShift_fuel`. -/
def circomShift (p : Nat) : Nat → Bool → Nat → Nat → Nat
  | 0, _, _, _ => 0
  | n + 1, left, x, k =>
      if k ≤ p / 2 then
        let s := shiftAmount p k
        if 256 ≤ s then 0
        else if left then (x * 2 ^ s % 2 ^ 256) % 2 ^ bitLength p
        else x / 2 ^ s
      else circomShift p n (!left) x (p - k)

/-- For an odd modulus the two functions call each other at most once. -/
theorem circomShift_fuel (p n : Nat) (left : Bool) (x k : Nat) (hp : p % 2 = 1) (hk : k < p) :
    circomShift p (n + 2) left x k = circomShift p 2 left x k := by
  by_cases h : k ≤ p / 2
  · simp only [circomShift, h, if_true]
  · have h2 : p - k ≤ p / 2 := by omega
    simp only [circomShift, h, if_false, h2, if_true]

/-- `source/mod.rs:413-485` `UnconstrainedBinOpType::eval`. -/
def uEval (op : UOp) (x y : ZMod p) : Option (ZMod p) :=
  match op with
  | .div => if y = 0 then none else some (x * y⁻¹)
  | .pow => some (powLoop 256 x 1 y.val)
  | .intDiv => if y.val = 0 then none else some ((x.val / y.val : Nat) : ZMod p)
  | .mod => if y.val = 0 then none else some ((x.val % y.val : Nat) : ZMod p)
  | .shiftL => some (circomShift p 2 true x.val y.val : Nat)
  | .shiftR => some (circomShift p 2 false x.val y.val : Nat)
  | .lesserEq => some (bit (decide (x.val ≤ y.val)))
  | .greaterEq => some (bit (decide (x.val ≥ y.val)))
  | .lesser => some (bit (decide (x.val < y.val)))
  | .greater => some (bit (decide (x.val > y.val)))
  | .eq => some (bit (decide (x = y)))
  | .notEq => some (bit (decide (x ≠ y)))
  | .boolOr => some (bit (decide (x ≠ 0) || decide (y ≠ 0)))
  | .boolAnd => some (bit (decide (x ≠ 0) && decide (y ≠ 0)))
  | .bitOr => some ((x.val ||| y.val : Nat) : ZMod p)
  | .bitAnd => some ((x.val &&& y.val : Nat) : ZMod p)
  | .bitXor => some ((x.val ^^^ y.val : Nat) : ZMod p)

/-- `source/mod.rs:344-358`. -/
def boolEval (op : BoolOp) (x y : ZMod p) : Option (ZMod p) :=
  if x ≠ 0 ∧ x ≠ 1 then none
  else if y ≠ 0 ∧ y ≠ 1 then none
  else match op with
    | .xor => some (x + y - 2 * x * y)
    | .or => some (x + y - x * y)
    | .and => some (x * y)

/-- `source/mod.rs:320-409` `eval_unsafe`, for the instructions with which constants can be folded;
the others (calls, hints, random values, public inputs, custom gates) are `none` here. -/
def runInsn (a : Nat → ZMod p) : SInsn (ZMod p) → Option (List (ZMod p))
  | .linComb lc => some [lc.eval a]
  | .mul xs => some [xs.foldl (fun r i => r * a i) 1]
  | .div x y checked =>
      if a y = 0 then if decide (a x = 0) && !checked then some [0] else none
      else some [a x * (a y)⁻¹]
  | .boolBin x y op => (boolEval op (a x) (a y)).map fun v => [v]
  | .isZero x => some [bit (decide (a x = 0))]
  | .constant c => some [c]
  | .uBin x y op => (uEval op (a x) (a y)).map fun v => [v]
  | .uSelect c t f => some [if a c = 0 then a f else a t]
  | .toBinary x n => toBinaryHint (a x) n
  | _ => none

/-! ## Hints at run time -/

/-- `builtin.rs:159-238` `impl_builtin_hint`, for the hint the first pass puts in the place of an
unconstrained operation (`hint_normalize.rs:218-236`).  The comparisons of `F` go by the reduced
representative. -/
def hintEval (op : UOp) (x y : ZMod p) : ZMod p :=
  match op with
  | .div => if y = 0 then 0 else x * y⁻¹
  | .pow => powLoop 256 x 1 y.val
  | .intDiv => ((if y.val = 0 then 0 else x.val / y.val : Nat) : ZMod p)
  | .mod => ((if y.val = 0 then 0 else x.val % y.val : Nat) : ZMod p)
  | .shiftL => (circomShift p 2 true x.val y.val : Nat)
  | .shiftR => (circomShift p 2 false x.val y.val : Nat)
  | .lesserEq => bit (decide (x.val ≤ y.val))
  | .greaterEq => bit (decide (x.val ≥ y.val))
  | .lesser => bit (decide (x.val < y.val))
  | .greater => bit (decide (x.val > y.val))
  | .eq => bit (decide (x = y))
  | .notEq => bit (decide (x ≠ y))
  | .boolOr => bit (decide (x ≠ 0) || decide (y ≠ 0))
  | .boolAnd => bit (decide (x ≠ 0) && decide (y ≠ 0))
  | .bitOr => ((x.val ||| y.val : Nat) : ZMod p)
  | .bitAnd => ((x.val &&& y.val : Nat) : ZMod p)
  | .bitXor => ((x.val ^^^ y.val : Nat) : ZMod p)

/-! ## Facts -/

theorem powLoop_eq (n : Nat) (t res : ZMod p) (y : Nat) (h : y < 2 ^ n) :
    powLoop n t res y = res * t ^ y := by
  induction n generalizing t res y with
  | zero => simp at h; subst h; simp [powLoop]
  | succ n ih =>
      unfold powLoop
      by_cases h0 : y = 0
      · simp [h0]
      · rw [if_neg h0, ih _ _ _ (by rw [pow_succ] at h; omega)]
        have hy : y = y / 2 + y / 2 + y % 2 := by omega
        rcases Nat.mod_two_eq_zero_or_one y with h1 | h1
        · rw [if_neg (by omega)]
          conv_rhs => rw [hy, h1, add_zero, pow_add]
          rw [mul_pow]
        · rw [if_pos h1]
          conv_rhs => rw [hy, h1, pow_add, pow_add, pow_one]
          rw [mul_pow]; ring

theorem toBinaryLoop_eq (n y : Nat) :
    toBinaryLoop (p := p) n y =
      ((List.range n).map (fun i => ((y / 2 ^ i % 2 : Nat) : ZMod p)), y / 2 ^ n) := by
  induction n generalizing y with
  | zero => simp [toBinaryLoop]
  | succ n ih =>
      unfold toBinaryLoop
      rw [ih]
      refine Prod.ext ?_ ?_
      · simp only [List.range_succ_eq_map, List.map_cons, List.map_map, pow_zero, Nat.div_one]
        congr 1
        apply List.map_congr_left
        intro i _
        simp only [Function.comp, Nat.div_div_eq_div_mul, pow_succ', Nat.succ_eq_add_one]
      · simp only [Nat.div_div_eq_div_mul, pow_succ']

/-- `to_binary` gives the binary digits, and refuses a value with more of them. -/
theorem toBinaryHint_eq (x : ZMod p) (n : Nat) :
    toBinaryHint x n = if x.val < 2 ^ n then
      some ((List.range n).map fun i => ((x.val / 2 ^ i % 2 : Nat) : ZMod p)) else none := by
  unfold toBinaryHint
  rw [toBinaryLoop_eq]
  simp only [ne_eq]
  by_cases h : x.val < 2 ^ n
  · rw [if_pos h, if_neg (by simp [Nat.div_eq_of_lt h])]
  · rw [if_neg h, if_pos]
    intro h0
    rw [Nat.div_eq_zero_iff] at h0
    rcases h0 with h0 | h0
    · exact absurd h0 (pow_ne_zero _ two_ne_zero)
    · exact h h0

end JST.Comp
