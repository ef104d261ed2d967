import Mathlib.Algebra.BigOperators.Group.List.Basic
import Mathlib.Algebra.BigOperators.Intervals
import Mathlib.Tactic.Ring
import Verif.Gadgets.Monad

/-!
# Dense arrays

`ndarray::ArrayD<T>` in standard (row-major) layout: a shape and the elements in iteration order.
-/

namespace JST

/-- `ndarray::ArrayD<T>`: shape and row-major data. Simplification: strides and memory order are not
modelled; every array in the modelled code is used through its logical index order. -/
structure Arr (α : Type) where
  shape : List Nat
  data : List α
deriving Repr, DecidableEq

/-- The `ndarray` invariant. -/
def Arr.WF {α : Type} (a : Arr α) : Prop := a.data.length = a.shape.prod

/-- `a[(i, j)]` for a 2-D array with `cols` columns. -/
def Arr.at2 {F : Type} [Zero F] (a : Arr F) (cols i j : Nat) : F := a.data.getD (i * cols + j) 0

/-- Reading a row-major list built from an entry function. -/
theorem getElem?_flatMap_rows {α : Type} (f : Nat → Nat → α) (p : Nat) :
    ∀ (m i j : Nat), i < m → j < p →
      ((List.range m).flatMap fun i => (List.range p).map (f i))[i * p + j]? = some (f i j) := by
  intro m
  induction m with
  | zero => intro i j hi; omega
  | succ m ih =>
    intro i j hi hj
    have hlen : ((List.range m).flatMap fun i => (List.range p).map (f i)).length = m * p := by
      simp [List.length_flatMap]
    rw [List.range_succ, List.flatMap_append]
    by_cases him : i < m
    · rw [List.getElem?_append_left]
      · exact ih i j him hj
      · rw [hlen]
        calc i * p + j < i * p + p := by omega
          _ = (i + 1) * p := by ring
          _ ≤ m * p := Nat.mul_le_mul_right _ him
    · obtain rfl : i = m := by omega
      rw [List.getElem?_append_right (by rw [hlen]; omega), hlen]
      simp [hj]

theorem length_flatMap_rows {α : Type} (f : Nat → Nat → α) (m p : Nat) :
    ((List.range m).flatMap fun i => (List.range p).map (f i)).length = m * p := by
  simp [List.length_flatMap]

theorem foldl_add_eq_sum {F : Type} [AddCommMonoid F] (f : Nat → F) (n : Nat) (z : F) :
    (List.range n).foldl (fun acc k => acc + f k) z = z + ∑ k ∈ Finset.range n, f k := by
  induction n with
  | zero => simp
  | succ n ih => rw [List.range_succ, List.foldl_append, ih, Finset.sum_range_succ]; simp [add_assoc]

end JST
