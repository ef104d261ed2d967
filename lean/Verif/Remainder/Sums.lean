import Verif.Remainder.Circuit
import Verif.Spec.Remainder
import Mathlib.Algebra.Field.ZMod
import Mathlib.Algebra.BigOperators.Ring.Finset
import Mathlib.Tactic.Ring
import Mathlib.Tactic.Linarith

/-!
# The Remainder backend: sums, selections and products
-/

namespace JST.Remainder

open scoped BigOperators

/-! ## Sizes -/

theorem numVars_eq (n : Nat) : numVars n = Nat.clog 2 n := by
  have key : ∀ a, log2Ceil (2 ^ a) = a := by
    intro a
    unfold log2Ceil
    split_ifs with h
    · by_contra hne
      have : 2 ^ 1 ≤ 2 ^ a := Nat.pow_le_pow_right (by norm_num) (by omega)
      omega
    · apply le_antisymm
      · rw [Nat.size_le]; have := Nat.two_pow_pos a; omega
      · have ha : a ≠ 0 := by rintro rfl; simp at h
        obtain ⟨b, rfl⟩ := Nat.exists_eq_succ_of_ne_zero ha
        rw [Nat.succ_le_iff, Nat.lt_size]
        have := Nat.two_pow_pos b
        rw [pow_succ]; omega
  unfold numVars nextPow2
  exact key _

theorem nextPow2_eq (n : Nat) : nextPow2 n = 2 ^ numVars n := by rw [numVars_eq]; rfl

theorem le_nextPow2 (n : Nat) : n ≤ nextPow2 n := Nat.le_pow_clog (by norm_num) n

theorem nextPow2_two_pow (a : Nat) : nextPow2 (2 ^ a) = 2 ^ a := by
  unfold nextPow2; rw [Nat.clog_pow 2 a (by norm_num)]

theorem numVars_two_pow (a : Nat) : numVars (2 ^ a) = a := by
  rw [numVars_eq, Nat.clog_pow 2 a (by norm_num)]

theorem numVars_nextPow2 (n : Nat) : numVars (nextPow2 n) = numVars n := by
  rw [nextPow2_eq, numVars_two_pow]

theorem two_pow_inj {a b : Nat} (h : 2 ^ a = 2 ^ b) : a = b := Nat.pow_right_injective (le_refl 2) h

/-! ## Sums of lists -/

section

variable {F : Type} [CommRing F]

theorem sum_flatMap' {α β : Type} (l : List α) (f : α → List β) (h : β → F) :
    ((l.flatMap f).map h).sum = (l.map fun a => ((f a).map h).sum).sum := by
  induction l with
  | nil => rfl
  | cons a l ih => simp [List.flatMap_cons, ih]

theorem sum_filterMap' {α β : Type} (l : List α) (f : α → Option β) (h : β → F) :
    ((l.filterMap f).map h).sum = (l.map fun a => ((f a).map h).getD 0).sum := by
  induction l with
  | nil => rfl
  | cons a l ih => cases hf : f a <;> simp [List.filterMap_cons, hf, ih]

theorem sum_range' (n : Nat) (f : Nat → F) : ((List.range n).map f).sum = ∑ i ∈ Finset.range n, f i := by
  induction n with
  | zero => rfl
  | succ n ih => rw [List.range_succ, Finset.sum_range_succ]; simp [ih]

theorem sum_swap (K A : Nat) (f : Nat → Nat → F) (W : Nat → F) :
    (∑ k ∈ Finset.range K, (∑ a ∈ Finset.range A, f a k) * W k) =
      ∑ a ∈ Finset.range A, ∑ k ∈ Finset.range K, f a k * W k := by
  simp_rw [Finset.sum_mul]; exact Finset.sum_comm

/-- A double sum with one place that counts. -/
theorem sum_pick (A B n : Nat) (g : Nat → Nat → F) :
    (∑ a ∈ Finset.range A, ∑ b ∈ Finset.range B, if a * B + b = n then g a b else 0) =
      if n < A * B then g (n / B) (n % B) else 0 := by
  rcases Nat.eq_zero_or_pos B with rfl | hB
  · simp
  · have h : ∀ a ∈ Finset.range A, (∑ b ∈ Finset.range B, if a * B + b = n then g a b else 0) =
        if a = n / B then g a (n % B) else 0 := by
      intro a _
      have h2 : ∀ b ∈ Finset.range B, (if a * B + b = n then g a b else 0) =
          if b = n % B then (if a = n / B then g a (n % B) else 0) else 0 := by
        intro b hb
        have hb := Finset.mem_range.1 hb
        by_cases hn : a * B + b = n
        · subst hn
          have e1 : (a * B + b) % B = b := by rw [Nat.mul_comm, Nat.mul_add_mod, Nat.mod_eq_of_lt hb]
          have e2 : (a * B + b) / B = a := by
            rw [Nat.add_comm, Nat.add_mul_div_right _ _ hB, Nat.div_eq_of_lt hb]; omega
          rw [e1, e2]; simp
        · rw [if_neg hn]
          split_ifs with h1 h3
          · exfalso; apply hn; subst h1 h3
            rw [Nat.mul_comm]; exact Nat.div_add_mod n B
          · rfl
          · rfl
      rw [Finset.sum_congr rfl h2, Finset.sum_ite_eq' (Finset.range B) (n % B)]
      rw [if_pos (Finset.mem_range.2 (Nat.mod_lt n hB))]
    rw [Finset.sum_congr rfl h, Finset.sum_ite_eq' (Finset.range A) (n / B)]
    simp only [Finset.mem_range, Nat.div_lt_iff_lt_mul hB]

end

end JST.Remainder
