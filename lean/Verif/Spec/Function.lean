import Verif.Spec.Elementwise

/-!
# Specification of the function layers

What a quantised function should return. Values are fixed point with scale `2^κ`; nothing here models
code.
-/

namespace JST.Spec

/-- `y` is the square root of the fixed-point number `x`, rounded down: `⌊√(x/2^κ)·2^κ⌋`. -/
def IsFloorRoot (κ : Nat) (x y : Int) : Prop := 0 ≤ y ∧ y ^ 2 ≤ 2 ^ κ * x ∧ 2 ^ κ * x < (y + 1) ^ 2

/-- `y` is the square root of the fixed-point number `x`, rounded to the nearest: `|y - √(2^κ x)| ≤ 1/2`,
with the square root eliminated. -/
def IsNearestRoot (κ : Nat) (x y : Int) : Prop :=
  0 ≤ y ∧ (y = 0 ∨ (2 * y - 1) ^ 2 ≤ 4 * (2 ^ κ * x)) ∧ 4 * (2 ^ κ * x) < (2 * y + 1) ^ 2

/-- `6·2^κ` times HardSwish of the fixed-point number `x`: `x · min(max(x + 3, 0), 6)`. -/
def hardProduct (κ : Nat) (x : Int) : Int := x * min (max (x + 3 * 2 ^ κ) 0) (6 * 2 ^ κ)

/-- `x` clamped to the `n`-bit signed integers. -/
def saturate (n : Nat) (x : Int) : Int := min (max x (-2 ^ (n - 1))) (2 ^ (n - 1) - 1)

/-- `y` is the quotient `num / den`, off by at most `err / den`. -/
def IsQuotient (num den err y : Int) : Prop := 0 < den ∧ |y * den - num| ≤ err

/-- The `n`-bit signed integers. -/
def InSigned (n : Nat) (x : Int) : Prop := -2 ^ (n - 1) ≤ x ∧ x < 2 ^ (n - 1)

/-- The quantised `2·√(2/π)·(x + 0.044715·x³)`, every product rescaled by rounding down; `coef` and `outer` are the
quantised coefficients. -/
def geluArg (κ : Nat) (coef outer x : Int) : Int :=
  outer * (x + coef * (x ^ 2 / 2 ^ κ * x) / (2 ^ κ) ^ 2) / 2 ^ κ

end JST.Spec
