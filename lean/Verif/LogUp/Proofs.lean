import Verif.LogUp.Model
import Mathlib.Algebra.Polynomial.Roots
import Mathlib.Algebra.BigOperators.Intervals
import Mathlib.Tactic.LinearCombination
import Mathlib.Tactic.ComputeDegree

/-! # Helper lemmas for the LogUp argument -/

namespace JST

open Polynomial

section ring
variable {F : Type} [CommRing F]

instance : Add (Rat2 F) := ⟨addRational⟩
instance : Zero (Rat2 F) := ⟨⟨0, 1⟩⟩

instance : AddCommMonoid (Rat2 F) where
  add_assoc a b c := by
    change addRational (addRational a b) c = addRational a (addRational b c)
    simp only [addRational, Rat2.mk.injEq]; constructor <;> ring
  zero_add a := by
    change addRational ⟨0, 1⟩ a = a
    simp [addRational]
  add_zero a := by
    change addRational a ⟨0, 1⟩ = a
    simp [addRational]
  add_comm a b := by
    change addRational a b = addRational b a
    simp only [addRational, Rat2.mk.injEq]; constructor <;> ring
  nsmul := nsmulRec

theorem rat2_add (a b : Rat2 F) : a + b = addRational a b := rfl
theorem rat2_zero : (0 : Rat2 F) = ⟨0, 1⟩ := rfl

/-- Total access. -/
def at' (vs : List (Rat2 F)) (i : Nat) : Rat2 F := vs.getD i 0

theorem at'_set (vs : List (Rat2 F)) (i j : Nat) (x : Rat2 F) (hi : i < vs.length) :
    at' (vs.set i x) j = if i = j then x else at' vs j := by
  unfold at'
  simp only [List.getD_eq_getElem?_getD, List.getElem?_set]
  by_cases h : i = j
  · subst h; simp [hi]
  · simp [h]

theorem sumLevel_spec (vs : List (Rat2 F)) (half : Nat) (h : 2 * half ≤ vs.length) :
    ∀ k ≤ half, ((List.range k).foldl
      (fun vs i => vs.set i (addRational (vs.getD i ⟨0, 1⟩) (vs.getD (i + half) ⟨0, 1⟩))) vs).length
        = vs.length ∧
      ∀ j, at' ((List.range k).foldl
      (fun vs i => vs.set i (addRational (vs.getD i ⟨0, 1⟩) (vs.getD (i + half) ⟨0, 1⟩))) vs) j
        = if j < k then at' vs j + at' vs (j + half) else at' vs j := by
  intro k
  induction k with
  | zero => simp
  | succ k ih =>
    intro hk
    obtain ⟨hl, hj⟩ := ih (by omega)
    rw [List.range_succ, List.foldl_append]
    simp only [List.foldl_cons, List.foldl_nil]
    generalize (List.range k).foldl
      (fun vs i => vs.set i (addRational (vs.getD i ⟨0, 1⟩) (vs.getD (i + half) ⟨0, 1⟩))) vs = w at *
    refine ⟨by simp [hl], fun j => ?_⟩
    rw [at'_set _ _ _ _ (by omega)]
    have e1 : w.getD k ⟨0, 1⟩ = at' vs k := by
      have := hj k; simp at this; exact this
    have e2 : w.getD (k + half) ⟨0, 1⟩ = at' vs (k + half) := by
      have := hj (k + half)
      rw [if_neg (by omega)] at this; exact this
    rw [e1, e2, hj]
    by_cases h1 : k = j
    · subst h1; simp; rfl
    · rw [if_neg h1]
      by_cases h2 : j < k
      · rw [if_pos h2, if_pos (by omega)]
      · rw [if_neg h2, if_neg (by omega)]

theorem sumLoop_spec (n : Nat) : ∀ vs : List (Rat2 F), 0 < n → n ≤ vs.length →
    at' (sumLoop vs n) 0 = ∑ i ∈ Finset.range n, at' vs i := by
  induction n using Nat.strong_induction_on with
  | _ n ih =>
    intro vs hn hle
    unfold sumLoop
    by_cases h : n > 1
    · rw [dif_pos h]
      dsimp only
      obtain ⟨hl, hj⟩ := sumLevel_spec vs (n / 2) (by omega) (n / 2) le_rfl
      change (sumLevel vs (n / 2)).length = _ at hl
      change ∀ j, at' (sumLevel vs (n / 2)) j = _ at hj
      generalize sumLevel vs (n / 2) = w at *
      have hsplit : ∑ i ∈ Finset.range (n / 2), (at' vs i + at' vs (i + n / 2))
          = ∑ i ∈ Finset.range (2 * (n / 2)), at' vs i := by
        rw [Finset.sum_add_distrib, two_mul, Finset.sum_range_add]
        congr 1
        exact Finset.sum_congr rfl fun i _ => by rw [add_comm]
      by_cases ho : n % 2 ≠ 0
      · rw [if_pos ho, ih _ (by omega) _ (by omega) (by simp; omega)]
        rw [show (n + 1) / 2 = n / 2 + 1 by omega, Finset.sum_range_succ]
        have e : w.getD (n - 1) ⟨0, 1⟩ = at' vs (n - 1) := by
          have := hj (n - 1)
          rw [if_neg (by omega)] at this; exact this
        rw [at'_set _ _ _ _ (by omega), if_pos rfl, e]
        have : ∑ i ∈ Finset.range (n / 2), at' (w.set (n / 2) (at' vs (n - 1))) i =
            ∑ i ∈ Finset.range (n / 2), (at' vs i + at' vs (i + n / 2)) := by
          refine Finset.sum_congr rfl fun i hi => ?_
          have := Finset.mem_range.mp hi
          rw [at'_set _ _ _ _ (by omega), if_neg (by omega), hj, if_pos this]
        rw [this, hsplit]
        conv_rhs => rw [show n = 2 * (n / 2) + 1 by omega, Finset.sum_range_succ]
        rw [show n - 1 = 2 * (n / 2) by omega]
      · rw [if_neg ho, ih _ (by omega) _ (by omega) (by omega)]
        rw [show (n + 1) / 2 = n / 2 by omega]
        have : ∑ i ∈ Finset.range (n / 2), at' w i =
            ∑ i ∈ Finset.range (n / 2), (at' vs i + at' vs (i + n / 2)) := by
          refine Finset.sum_congr rfl fun i hi => ?_
          rw [hj, if_pos (Finset.mem_range.mp hi)]
        rw [this, hsplit, show 2 * (n / 2) = n by omega]
    · rw [dif_neg h, show n = 1 by omega]
      simp

theorem sum_range_at' (vs : List (Rat2 F)) :
    ∑ i ∈ Finset.range vs.length, at' vs i = vs.sum := by
  induction vs with
  | nil => simp
  | cons v vs ih =>
    rw [List.length_cons, Finset.sum_range_succ', List.sum_cons, add_comm, ← ih]
    rfl

/-- The summation tree computes the monoid sum. -/
theorem sumRationalVec_eq (vs : List (Rat2 F)) : sumRationalVec vs = vs.sum := by
  unfold sumRationalVec
  cases vs with
  | nil => rfl
  | cons v vs =>
    have := sumLoop_spec (v :: vs).length (v :: vs) (by simp) le_rfl
    rw [sum_range_at'] at this
    rw [if_neg (by simp)]
    exact this

/-- Numerator and denominator of a sum of `c / (x - t)`, as ring expressions. -/
def listNum (x : F) : List (F × F) → F
  | [] => 0
  | (t, c) :: l => c * (l.map fun u => x - u.1).prod + (x - t) * listNum x l

theorem sum_terms (x : F) (l : List (F × F)) :
    (l.map fun vc => (⟨vc.2, x - vc.1⟩ : Rat2 F)).sum
      = ⟨listNum x l, (l.map fun u => x - u.1).prod⟩ := by
  induction l with
  | nil => rfl
  | cons a l ih =>
    simp only [List.map_cons, List.sum_cons, ih, List.prod_cons, rat2_add, addRational, listNum]

theorem logupPolyVal_eq (vals counts : List F) (x : F) :
    logupPolyVal vals counts x
      = ⟨listNum x (vals.zip counts), ((vals.zip counts).map fun u => x - u.1).prod⟩ := by
  unfold logupPolyVal
  rw [sumRationalVec_eq, sum_terms]

theorem listNum_append (x : F) (l m : List (F × F)) :
    listNum x (l ++ m) = listNum x l * (m.map fun u => x - u.1).prod +
      (l.map fun u => x - u.1).prod * listNum x m := by
  induction l with
  | nil => simp [listNum]
  | cons a l ih =>
    simp only [List.cons_append, listNum, ih, List.map_append, List.prod_append, List.map_cons,
      List.prod_cons]
    ring

theorem listNum_neg (x : F) (l : List (F × F)) :
    listNum x (l.map fun u => (u.1, -u.2)) = -listNum x l := by
  induction l with
  | nil => simp [listNum]
  | cons a l ih =>
    simp only [List.map_cons, listNum, ih, List.map_map]
    have : (List.map ((fun u : F × F => x - u.1) ∘ fun u => (u.1, -u.2)) l) = l.map fun u => x - u.1 := rfl
    rw [this]; ring

theorem listNum_perm (x : F) {l m : List (F × F)} (h : l.Perm m) : listNum x l = listNum x m := by
  have e1 := sum_terms x l
  have e2 := sum_terms x m
  rw [(h.map _).sum_eq, e2] at e1
  exact ((Rat2.mk.injEq _ _ _ _).mp e1).1.symm

/-- The LogUp equation as one numerator. -/
theorem eq_iff_listNum (x : F) (l m : List (F × F)) :
    listNum x l * (m.map fun u => x - u.1).prod = (l.map fun u => x - u.1).prod * listNum x m ↔
      listNum x (l ++ m.map fun u => (u.1, -u.2)) = 0 := by
  rw [listNum_append, listNum_neg, List.map_map]
  have : (List.map ((fun u : F × F => x - u.1) ∘ fun u => (u.1, -u.2)) m) = m.map fun u => x - u.1 := rfl
  rw [this, mul_neg, ← sub_eq_add_neg, sub_eq_zero]

end ring

section field
variable {K : Type} [Field K]

/-- The numerator as a polynomial in the challenge. -/
noncomputable def numPoly (l : List (K × K)) : K[X] :=
  listNum (X : K[X]) (l.map fun u => (C u.1, C u.2))

theorem eval_listNum (x : K) (l : List (K × K)) : (numPoly l).eval x = listNum x l := by
  unfold numPoly
  induction l with
  | nil => simp [listNum]
  | cons a l ih =>
    simp only [List.map_cons, listNum, eval_add, eval_mul, eval_C, eval_sub, eval_X, ih]
    congr 2
    rw [eval_list_prod, List.map_map, List.map_map]
    congr 1
    refine List.map_congr_left fun u _ => ?_
    simp

theorem prod_natDegree (l : List (K × K)) :
    ((l.map fun u : K × K => (C u.1, C u.2)).map fun u : K[X] × K[X] => X - u.1).prod.natDegree ≤ l.length := by
  induction l with
  | nil => simp
  | cons a l ih =>
    simp only [List.map_cons, List.prod_cons, List.length_cons]
    refine le_trans natDegree_mul_le ?_
    have : (X - C a.1 : K[X]).natDegree ≤ 1 := by compute_degree
    omega

theorem numPoly_natDegree (l : List (K × K)) : (numPoly l).natDegree ≤ l.length - 1 := by
  unfold numPoly
  induction l with
  | nil => simp [listNum]
  | cons a l ih =>
    simp only [List.map_cons, listNum, List.length_cons, Nat.add_sub_cancel]
    refine le_trans (natDegree_add_le _ _) (max_le ?_ ?_)
    · refine le_trans natDegree_mul_le ?_
      rw [natDegree_C, zero_add]
      exact prod_natDegree l
    · cases l with
      | nil => simp [listNum]
      | cons b l =>
        refine le_trans natDegree_mul_le ?_
        have : (X - C a.1 : K[X]).natDegree ≤ 1 := by compute_degree
        simp only [List.length_cons] at *
        omega

/-- Evaluation of the product of `X - t` away from the points. -/
theorem prod_ne_zero_of_notMem (v : K) (l : List (K × K)) (h : ∀ u ∈ l, u.1 ≠ v) :
    (l.map fun u => v - u.1).prod ≠ 0 := by
  intro h0
  obtain ⟨u, hu, e⟩ := List.mem_map.mp (List.prod_eq_zero_iff.mp h0)
  exact h u hu (sub_eq_zero.mp e).symm

/-- A list whose points are all `v`. -/
theorem listNum_const (v : K) (l : List (K × K)) (h : ∀ u ∈ l, u.1 = v) (hne : l ≠ []) :
    numPoly l = C ((l.map Prod.snd).sum) * (X - C v) ^ (l.length - 1) ∧
    ((l.map fun u => (C u.1, C u.2)).map fun u : K[X] × K[X] => X - u.1).prod = (X - C v) ^ l.length := by
  unfold numPoly
  induction l with
  | nil => exact absurd rfl hne
  | cons a l ih =>
    have ha : a.1 = v := h a (by simp)
    cases l with
    | nil => simp [listNum, ha]
    | cons b l =>
      obtain ⟨h1, h2⟩ := ih (fun u hu => h u (by simp [hu])) (by simp)
      constructor
      · rw [List.map_cons, listNum, h1, h2, ha]
        simp only [List.length_cons, List.map_cons, List.sum_cons, Nat.add_sub_cancel, C_add, pow_succ]
        ring
      · rw [List.map_cons, List.map_cons, List.prod_cons, h2, ha]
        rw [List.length_cons (as := b :: l), pow_succ]; ring

/-- If the numerator vanishes identically, the coefficients at each point add up to zero. -/
theorem coeffs_zero_of_numPoly [DecidableEq K] (l : List (K × K)) (h0 : numPoly l = 0) (v : K) :
    ((l.filter fun u => decide (u.1 = v)).map Prod.snd).sum = 0 := by
  set A := l.filter fun u => decide (u.1 = v) with hA
  set B := l.filter fun u => !decide (u.1 = v) with hB
  have hperm : (A ++ B).Perm l := List.filter_append_perm _ l
  have hAv : ∀ u ∈ A, u.1 = v := by
    intro u hu; simpa using (List.mem_filter.mp hu).2
  have hBv : ∀ u ∈ B, u.1 ≠ v := by
    intro u hu; simpa using (List.mem_filter.mp hu).2
  by_cases hne : A = []
  · rw [hne]; simp
  have e : numPoly (A ++ B) = 0 := by
    rw [← h0]; unfold numPoly
    exact listNum_perm _ (hperm.map _)
  obtain ⟨h1, h2⟩ := listNum_const v A hAv hne
  have hnum : numPoly (A ++ B) = (X - C v) ^ (A.length - 1) *
      (C ((A.map Prod.snd).sum) *
        ((B.map fun u => (C u.1, C u.2)).map fun u : K[X] × K[X] => X - u.1).prod +
        (X - C v) * numPoly B) := by
    have : numPoly (A ++ B) = numPoly A *
        ((B.map fun u => (C u.1, C u.2)).map fun u : K[X] × K[X] => X - u.1).prod +
        ((A.map fun u => (C u.1, C u.2)).map fun u : K[X] × K[X] => X - u.1).prod * numPoly B := by
      unfold numPoly; rw [List.map_append, listNum_append]
    have hl : A.length = A.length - 1 + 1 := by
      have : A.length ≠ 0 := fun h => hne (List.length_eq_zero_iff.mp h)
      omega
    rw [this, h1, h2]
    conv_lhs => rw [hl, pow_succ]
    simp only [Nat.add_sub_cancel]
    ring
  rw [e] at hnum
  rcases mul_eq_zero.mp hnum.symm with hz | hz
  · exact absurd hz (pow_ne_zero _ (X_sub_C_ne_zero v))
  · have hev := congrArg (Polynomial.eval v) hz
    rw [eval_add, eval_mul, eval_mul, eval_sub, eval_X, eval_C, eval_C, sub_self, zero_mul, add_zero,
      eval_zero, eval_list_prod, List.map_map, List.map_map] at hev
    rcases mul_eq_zero.mp hev with h | h
    · exact h
    · exfalso
      refine prod_ne_zero_of_notMem v B hBv ?_
      rw [← h]
      congr 1
      refine List.map_congr_left fun u _ => ?_
      simp

/-- Either the polynomial is zero or it has at most `length - 1` roots. -/
theorem bad_challenges (l : List (K × K)) (h : numPoly l ≠ 0) :
    ∃ bad : Finset K, bad.card ≤ l.length - 1 ∧ ∀ x, listNum x l = 0 → x ∈ bad := by
  classical
  refine ⟨(numPoly l).roots.toFinset, ?_, fun x hx => ?_⟩
  · refine le_trans (Multiset.toFinset_card_le _) (le_trans (card_roots' _) (numPoly_natDegree l))
  · rw [Multiset.mem_toFinset, mem_roots h, IsRoot.def, eval_listNum, hx]

end field

end JST
