import Mathlib.Algebra.BigOperators.Group.Finset.Basic
import Mathlib.Algebra.Field.Basic

/-!
# Specification: discrete Fourier transform and Reed-Solomon code

The value at `x` of the polynomial whose coefficients, lowest degree first, are the entries of a list, and the
number whose `bits` low bits are those of another number in the opposite order.
-/

namespace JST.Spec

/-- The polynomial with coefficients `a`, at `x`. -/
def polyAt {K : Type} [Field K] (a : List K) (x : K) : K := ∑ t ∈ Finset.range a.length, a.getD t 0 * x ^ t

/-- The low `bits` bits of `x` in the opposite order: bit `i` is bit `bits - 1 - i` of `x`. -/
def mirror (bits x : Nat) : Nat := ∑ i ∈ Finset.range bits, if x.testBit (bits - 1 - i) then 2 ^ i else 0

end JST.Spec
