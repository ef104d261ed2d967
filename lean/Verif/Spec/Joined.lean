import Mathlib.Logic.Relation

/-!
# Sets joined by pairs

What a user of a union-find structure expects: two numbers are together if a chain of joined pairs connects them.
-/

namespace JST.Spec

/-- The least equivalence relation which contains the pairs. -/
def Together (pairs : List (Nat × Nat)) : Nat → Nat → Prop := Relation.EqvGen fun x y => (x, y) ∈ pairs

end JST.Spec
