import Mathlib.Algebra.BigOperators.Group.Finset.Basic
import Mathlib.Algebra.Module.Basic
import Mathlib.Algebra.Field.Basic

/-!
# Specification: the multilinear extension

The multilinear extension of the vector `f 0, f 1, ..., f (2 ^ n - 1)` at the point `r` (of length `n`) is
the sum of `f i` weighted by the product over the variables `j` of `r j` if bit `j` of `i` is set and of
`1 - r j` otherwise.
-/

namespace JST.Spec

variable {K : Type} [Field K] {V : Type} [AddCommGroup V] [Module K V]

/-- The weight of vertex `i` at the point `r`: variable `j` is bit `j` of `i`. -/
def chi : List K → Nat → K
  | [], _ => 1
  | r :: rs, i => (if i.testBit 0 then r else 1 - r) * chi rs (i / 2)

/-- The multilinear extension. -/
def mle (f : Nat → V) (r : List K) : V := ∑ i ∈ Finset.range (2 ^ r.length), chi r i • f i

end JST.Spec
