import Mathlib.Data.Matrix.Mul
import Mathlib.Data.Fintype.BigOperators
import Mathlib.Data.Fintype.Card
import Mathlib.LinearAlgebra.Matrix.DotProduct
import Mathlib.Algebra.BigOperators.Fin
import Mathlib.Data.List.GetD
import Verif.Gadgets.LinAlg

/-!
# Properties C11, C12: Freivalds' check and the matrix products

Specification: Mathlib's matrix product of the matrices stored in the arrays.
-/

set_option linter.unusedSectionVars false

namespace JST.Props

open JST

/-- The `r × c` matrix stored in a row-major array. -/
def Arr.mat {F : Type} [Zero F] (a : Arr F) (r c : Nat) : Matrix (Fin r) (Fin c) F :=
  Matrix.of fun i j => a.data.getD (i * c + j) 0

/-- `c` is the product of `a : ell × m` and `b : m × n`, with the right shape. -/
structure IsProduct {F : Type} [CommRing F] (a b c : Arr F) (ell m n : Nat) : Prop where
  shape : c.shape = [ell, n]
  len : c.data.length = ell * n
  eq : Arr.mat c ell n = Arr.mat a ell m * Arr.mat b m n

section
variable {F : Type} [CommRing F] {T : Tables F}

theorem dot_eq_sum (n : Nat) (f g : Nat → F) : dot n f g = ∑ k : Fin n, f k * g k := by
  unfold dot
  rw [foldl_add_eq_sum (fun k => f k * g k), zero_add, Finset.sum_range]

theorem at2_eq (a : Arr F) (r c : Nat) (i : Fin r) (j : Fin c) : a.at2 c i j = Arr.mat a r c i j :=
  rfl

theorem getD_rows (f : Nat → Nat → F) {m p i j : Nat} (hi : i < m) (hj : j < p) :
    ((List.range m).flatMap fun i => (List.range p).map (f i)).getD (i * p + j) 0 = f i j := by
  rw [List.getD_eq_getElem?_getD, getElem?_flatMap_rows f p m i j hi hj, Option.getD_some]

theorem product_of_rows (a b : Arr F) (ell m n : Nat) :
    IsProduct a b ⟨[ell, n], (List.range ell).flatMap fun i => (List.range n).map fun j =>
      dot m (fun k => a.at2 m i k) (fun k => b.at2 n k j)⟩ ell m n := by
  refine ⟨rfl, length_flatMap_rows _ _ _, ?_⟩
  ext i j
  simp only [Arr.mat, Matrix.of_apply]
  rw [getD_rows _ i.2 j.2, dot_eq_sum, Matrix.mul_apply]
  rfl

/-- **C12, constrained product.** `matrix_multiplication` on a 2-D `ell × m` and `m × n` pair succeeds,
records no constraint, and returns the matrix product. -/
theorem C12_matrix_multiplication (a b : Arr F) (ell m n : Nat) (ha : a.shape = [ell, m])
    (hb : b.shape = [m, n]) (h : Hints F) :
    ∃ o, matrixMultiplication a b h = .ok o ∧ IsProduct a b o.val ell m n ∧ o.cons = Cons.nil ∧
      o.rest = h := by
  unfold matrixMultiplication
  rw [ha, hb]
  simp only [ne_eq, not_true_eq_false, if_false]
  exact ⟨_, rfl, product_of_rows a b ell m n, rfl, rfl⟩

/-- **C12, shape errors.** `matrix_multiplication` fails, rather than returning a result, unless both
arrays are 2-D with equal inner dimension. -/
theorem C12_matrix_multiplication_rejects (a b : Arr F) (h : Hints F) (o : Out F (Arr F))
    (ho : matrixMultiplication a b h = .ok o) :
    ∃ ell m n, a.shape = [ell, m] ∧ b.shape = [m, n] := by
  unfold matrixMultiplication at ho
  rcases hsa : a.shape with _ | ⟨m, _ | ⟨n, _ | ⟨x, y⟩⟩⟩ <;> rw [hsa] at ho <;> try cases ho
  rcases hsb : b.shape with _ | ⟨n2, _ | ⟨p, _ | ⟨x, y⟩⟩⟩ <;> rw [hsb] at ho <;> try cases ho
  dsimp only at ho
  split at ho
  · cases ho
  · next hn => exact ⟨m, n, p, rfl, by simp at hn; rw [hn]⟩

/-- What a satisfied row loop says. -/
theorem sound_assertRows (u w : Nat → F) (k : Nat) :
    Sound T (assertRows u w k) (fun _ => ∀ i < k, u i = w i) := by
  induction k with
  | zero => exact Sound.pure (by intro i hi; omega)
  | succ k ih =>
    refine ih.bind fun _ h1 => Sound.assertEq.conseq fun _ h2 i hi => ?_
    rcases Nat.lt_succ_iff_lt_or_eq.mp hi with h | rfl
    · exact h1 i h
    · exact h2

theorem det_assertRows (u w : Nat → F) (k : Nat) (h : ∀ i < k, u i = w i) :
    Det T (assertRows u w k) (fun _ => True) := by
  induction k with
  | zero => exact Det.pure trivial
  | succ k ih =>
    exact (ih fun i hi => h i (by omega)).bind fun _ _ => Det.assertEq (h k (by omega))

/-- The rowwise comparison of one repetition in matrix terms. -/
theorem rep_iff (a b c : Arr F) (ell m n : Nat) (x : Nat → F) :
    (∀ i < ell, dot m (fun k => a.at2 m i k) (fun r => dot n (fun j => b.at2 n r j) x) =
      dot n (fun j => c.at2 n i j) x) ↔
    Matrix.mulVec (Arr.mat a ell m * Arr.mat b m n - Arr.mat c ell n) (fun j => x j) = 0 := by
  rw [Matrix.sub_mulVec, sub_eq_zero, ← Matrix.mulVec_mulVec]
  constructor
  · intro h
    ext i
    have := h i i.2
    simp only [dot_eq_sum] at this
    simpa [Matrix.mulVec, dotProduct, Arr.mat, Arr.at2] using this
  · intro h i hi
    have := congrFun h ⟨i, hi⟩
    simp only [dot_eq_sum]
    simpa [Matrix.mulVec, dotProduct, Arr.mat, Arr.at2] using this

theorem sound_freivaldsLoop (a b c : Arr F) (ell m n : Nat) (chal : Nat → Nat → F) (reps : Nat) :
    Sound T (freivaldsLoop a b c ell m n chal reps) (fun _ => ∀ r < reps,
      Matrix.mulVec (Arr.mat a ell m * Arr.mat b m n - Arr.mat c ell n) (fun j => chal r j) = 0) := by
  induction reps with
  | zero => exact Sound.pure (by intro i hi; omega)
  | succ k ih =>
    refine ih.bind fun _ h1 => (sound_assertRows _ _ ell).conseq fun _ h2 i hi => ?_
    rcases Nat.lt_succ_iff_lt_or_eq.mp hi with h | rfl
    · exact h1 i h
    · exact (rep_iff a b c ell m n _).mp h2

theorem det_freivaldsLoop (a b c : Arr F) (ell m n : Nat) (chal : Nat → Nat → F) (reps : Nat)
    (hp : Arr.mat c ell n = Arr.mat a ell m * Arr.mat b m n) :
    Det T (freivaldsLoop a b c ell m n chal reps) (fun _ => True) := by
  induction reps with
  | zero => exact Det.pure trivial
  | succ k ih =>
    refine ih.bind fun _ _ => det_assertRows _ _ ell ?_
    rw [rep_iff, ← hp, sub_self, Matrix.zero_mulVec]

/-- Whatever succeeds had the right shapes and at least one repetition. -/
theorem freivaldsVerify_ok (a b c : Arr F) (chal : Nat → Nat → F) (reps : Nat) (h : Hints F)
    (o : Out F Unit) (ho : freivaldsVerify a b c chal reps h = .ok o) :
    ∃ ell m n, a.shape = [ell, m] ∧ b.shape = [m, n] ∧ c.shape = [ell, n] ∧ 1 ≤ reps ∧
      freivaldsLoop a b c ell m n chal reps h = .ok o := by
  unfold freivaldsVerify at ho
  rcases hsa : a.shape with _ | ⟨ell, _ | ⟨m, _ | ⟨x, y⟩⟩⟩ <;> rw [hsa] at ho <;> try cases ho
  rcases hsb : b.shape with _ | ⟨mb, _ | ⟨n, _ | ⟨x, y⟩⟩⟩ <;> rw [hsb] at ho <;> try cases ho
  rcases hsc : c.shape with _ | ⟨rc, _ | ⟨nc, _ | ⟨x, y⟩⟩⟩ <;> rw [hsc] at ho <;> try cases ho
  dsimp only at ho
  split_ifs at ho with h1 h2 h3
  · cases ho
  · cases ho
  · cases ho
  · simp only [ne_eq, not_not, not_or] at h1 h2
    exact ⟨ell, m, n, rfl, by rw [h1], by rw [h2.1, h2.2], by omega, ho⟩

theorem freivaldsVerify_eq (a b c : Arr F) (chal : Nat → Nat → F) (reps ell m n : Nat)
    (ha : a.shape = [ell, m]) (hb : b.shape = [m, n]) (hc : c.shape = [ell, n]) (hr : 1 ≤ reps) :
    freivaldsVerify a b c chal reps = freivaldsLoop a b c ell m n chal reps := by
  unfold freivaldsVerify
  rw [ha, hb, hc]
  have : reps ≠ 0 := by omega
  simp [this]

/-- **C11, completeness.** If `C = A · B` the check is satisfied for every choice of challenges and
every (non-zero) number of repetitions. -/
theorem C11_freivalds_complete (a b c : Arr F) (chal : Nat → Nat → F) (reps ell m n : Nat)
    (ha : a.shape = [ell, m]) (hb : b.shape = [m, n]) (hp : IsProduct a b c ell m n)
    (hr : 1 ≤ reps) (h : Hints F) :
    ∃ o, freivaldsVerify a b c chal reps h = .ok o ∧ o.rest = h ∧ Sat T o.cons := by
  rw [freivaldsVerify_eq a b c chal reps ell m n ha hb hp.shape hr]
  obtain ⟨o, h1, h2, h3, -⟩ := det_freivaldsLoop (T := T) a b c ell m n chal reps hp.eq h
  exact ⟨o, h1, h2, h3⟩

/-- **C11, zero repetitions** never yield an accepting circuit. -/
theorem C11_freivalds_zero_reps (a b c : Arr F) (chal : Nat → Nat → F) (h : Hints F) :
    ∀ o, freivaldsVerify a b c chal 0 h ≠ .ok o := by
  intro o ho
  obtain ⟨_, _, _, -, -, -, h1, -⟩ := freivaldsVerify_ok a b c chal 0 h o ho
  omega

end

/-! ## Counting challenges -/

section
variable {K : Type} [Field K] [Fintype K] {T : Tables K}

/-- Extend a finite table of challenges to the stream read by the circuit. -/
def challenges {reps n : Nat} (c : Fin reps → Fin n → K) : Nat → Nat → K := fun r j =>
  if h : r < reps ∧ j < n then c ⟨r, h.1⟩ ⟨j, h.2⟩ else 0

omit [Fintype K] in
theorem challenges_row {reps n : Nat} (c : Fin reps → Fin n → K) (r : Fin reps) :
    (fun j : Fin n => challenges c r j) = c r := by
  funext j; simp [challenges]

/-- The kernel of a non-zero matrix is at most a `1/|K|` fraction of the space. -/
theorem kernel_count {ell n : Nat} (D : Matrix (Fin ell) (Fin n) K) (hD : D ≠ 0) [DecidableEq K] :
    ((Finset.univ : Finset (Fin n → K)).filter fun x => D.mulVec x = 0).card * Fintype.card K
      ≤ Fintype.card K ^ n := by
  obtain ⟨i, j, hij⟩ : ∃ i j, D i j ≠ 0 := by
    by_contra hcon
    push Not at hcon
    exact hD (by ext i j; exact hcon i j)
  rw [← Finset.card_univ (α := K), ← Finset.card_product]
  have hn : Fintype.card K ^ n = (Finset.univ : Finset (Fin n → K)).card := by
    simp [Finset.card_univ]
  rw [Finset.card_univ (α := K), hn]
  refine Finset.card_le_card_of_injOn (fun xt => xt.1 + Pi.single j xt.2) (by simp) ?_
  rintro ⟨x, s⟩ hx ⟨y, t⟩ hy hxy
  simp only [Finset.coe_product, Set.mem_prod, Finset.mem_coe, Finset.mem_filter, Finset.mem_univ,
    true_and] at hx hy hxy
  have h1 : D.mulVec (x + Pi.single j s) i = D.mulVec (y + Pi.single j t) i := by rw [hxy]
  rw [Matrix.mulVec_add, Matrix.mulVec_add, hx.1, hy.1, zero_add, zero_add] at h1
  simp only [Matrix.mulVec_single] at h1
  have hst : s = t := by
    have : D i j * s = D i j * t := by simpa [Matrix.col, mul_comm] using h1
    exact mul_left_cancel₀ hij this
  subst hst
  simpa using hxy

/-- **C11, soundness.** If `C ≠ A · B` then at most a `(1/|K|)^reps` fraction of the challenges
satisfies the check: the bad challenges, times `|K|^reps`, are at most all challenges. The set does not
depend on hints, because the gadget uses none. -/
theorem C11_freivalds_sound (a b c : Arr K) (reps ell m n : Nat) (ha : a.shape = [ell, m])
    (hb : b.shape = [m, n]) (hne : Arr.mat c ell n ≠ Arr.mat a ell m * Arr.mat b m n) :
    ∃ bad : Finset (Fin reps → Fin n → K),
      bad.card * Fintype.card K ^ reps ≤ Fintype.card (Fin reps → Fin n → K) ∧
      ∀ (x : Fin reps → Fin n → K) (h : Hints K) o,
        freivaldsVerify a b c (challenges x) reps h = .ok o → Sat T o.cons → x ∈ bad := by
  classical
  set D := Arr.mat a ell m * Arr.mat b m n - Arr.mat c ell n with hDdef
  have hD : D ≠ 0 := fun h => hne (sub_eq_zero.mp h).symm
  set S := (Finset.univ : Finset (Fin n → K)).filter fun x => D.mulVec x = 0 with hS
  refine ⟨Fintype.piFinset fun _ => S, ?_, ?_⟩
  · rw [Fintype.card_piFinset_const, ← mul_pow]
    calc (S.card * Fintype.card K) ^ reps ≤ (Fintype.card K ^ n) ^ reps :=
          Nat.pow_le_pow_left (kernel_count D hD) reps
      _ = Fintype.card (Fin reps → Fin n → K) := by simp
  · intro x h o ho hs
    obtain ⟨ell', m', n', ha', hb', -, hr, ho'⟩ := freivaldsVerify_ok a b c _ reps h o ho
    rw [ha] at ha'; rw [hb] at hb'
    cases ha'; cases hb'
    have h1 := sound_freivaldsLoop (T := T) a b c ell m n (challenges x) reps h o ho' hs
    rw [Fintype.mem_piFinset]
    intro r
    have h2 := h1 r r.2
    rw [challenges_row] at h2
    simp only [hS, Finset.mem_filter, Finset.mem_univ, true_and]
    exact h2

/-- The hint-supplied matrix has the announced shape; the hint values come first. -/
theorem unconstrained_ok {F : Type} [CommRing F] (toNat : F → Nat) (a b : Arr F) (h : Hints F)
    (o : Out F (Arr F)) (ho : unconstrainedMatrixMultiplication toNat a b h = .ok o) :
    ∃ ell m n, a.shape = [ell, m] ∧ b.shape = [m, n] ∧ o.val.shape = [ell, n] ∧
      o.val.data.length = ell * n := by
  unfold unconstrainedMatrixMultiplication at ho
  rcases hsa : a.shape with _ | ⟨m, _ | ⟨n, _ | ⟨x, y⟩⟩⟩ <;> rw [hsa] at ho <;> try cases ho
  rcases hsb : b.shape with _ | ⟨n2, _ | ⟨p, _ | ⟨x, y⟩⟩⟩ <;> rw [hsb] at ho <;> try cases ho
  dsimp only at ho
  split at ho
  · cases ho
  · next hn =>
    obtain ⟨o1, o2, -, h2, rfl⟩ := bind_eq_ok ho
    cases h2
    exact ⟨m, n, p, rfl, by simp at hn; rw [hn], rfl, length_flatMap_rows _ _ _⟩

/-- The hint followed by Freivalds' check. -/
theorem hinted_sound (toNat : K → Nat) (a b : Arr K) (reps ell m n : Nat) (ha : a.shape = [ell, m])
    (hb : b.shape = [m, n]) (h : Hints K) :
    ∃ bad : Finset (Fin reps → Fin n → K),
      bad.card * Fintype.card K ^ reps ≤ Fintype.card (Fin reps → Fin n → K) ∧
      ∀ (x : Fin reps → Fin n → K) o,
        (do
          let c ← unconstrainedMatrixMultiplication toNat a b
          freivaldsVerify a b c (challenges x) reps
          pure c : G K (Arr K)) h = .ok o → Sat T o.cons → x ∉ bad →
        IsProduct a b o.val ell m n := by
  cases hrun : unconstrainedMatrixMultiplication toNat a b h with
  | error e =>
    refine ⟨∅, by simp, fun x o ho => ?_⟩
    obtain ⟨o1, o2, h1, -⟩ := bind_eq_ok ho
    rw [hrun] at h1; cases h1
  | ok oc =>
    obtain ⟨ell', m', n', ha', hb', hc', hl⟩ := unconstrained_ok toNat a b h oc hrun
    rw [ha] at ha'; rw [hb] at hb'
    cases ha'; cases hb'
    by_cases hp : Arr.mat oc.val ell n = Arr.mat a ell m * Arr.mat b m n
    · refine ⟨∅, by simp, fun x o ho _ _ => ?_⟩
      obtain ⟨o1, o2, h1, h2, rfl⟩ := bind_eq_ok ho
      rw [hrun] at h1; cases h1
      obtain ⟨o3, o4, -, h4, rfl⟩ := bind_eq_ok h2
      cases h4
      exact ⟨hc', hl, hp⟩
    · obtain ⟨bad, hcard, hbad⟩ := C11_freivalds_sound (T := T) a b oc.val reps ell m n ha hb hp
      refine ⟨bad, hcard, fun x o ho hs hx => absurd ?_ hx⟩
      obtain ⟨o1, o2, h1, h2, rfl⟩ := bind_eq_ok ho
      rw [hrun] at h1; cases h1
      have hs2 := (Sat.app.mp hs).2
      obtain ⟨o3, o4, h3, h4, rfl⟩ := bind_eq_ok h2
      exact hbad x _ o3 h3 (Sat.app.mp hs2).1

/-- **C12, Gemm core product.** For every hint source there is a set of challenges of relative size
at most `|K|^-reps`, outside of which a satisfied `compute_core_product` returns the matrix product,
whichever of the two code paths the cost rule selects. -/
theorem C12_gemm_core_sound (toNat : K → Nat) (a b : Arr K) (reps ell m n : Nat)
    (ha : a.shape = [ell, m]) (hb : b.shape = [m, n]) (h : Hints K) :
    ∃ bad : Finset (Fin reps → Fin n → K),
      bad.card * Fintype.card K ^ reps ≤ Fintype.card (Fin reps → Fin n → K) ∧
      ∀ (x : Fin reps → Fin n → K) o,
        computeCoreProduct toNat a b (challenges x) reps h = .ok o → Sat T o.cons → x ∉ bad →
        IsProduct a b o.val ell m n := by
  unfold computeCoreProduct
  rw [ha, hb]
  simp only [ne_eq, not_true_eq_false, if_false]
  by_cases hf : shouldUseFreivalds ell m n reps
  · simp only [hf, if_true]
    exact hinted_sound toNat a b reps ell m n ha hb h
  · simp only [hf]
    refine ⟨∅, by simp, fun x o ho _ _ => ?_⟩
    obtain ⟨o', h1, h2, -, -⟩ := C12_matrix_multiplication a b ell m n ha hb h
    have : matrixMultiplication a b h = .ok o := ho
    rw [this] at h1; cases h1
    exact h2

/-- **C12, MatMul core product**, as `C12_gemm_core_sound` for `matmul_2d_core`. -/
theorem C12_matmul_core_sound (toNat : K → Nat) (a b : Arr K) (reps ell m n : Nat)
    (ha : a.shape = [ell, m]) (hb : b.shape = [m, n]) (h : Hints K) :
    ∃ bad : Finset (Fin reps → Fin n → K),
      bad.card * Fintype.card K ^ reps ≤ Fintype.card (Fin reps → Fin n → K) ∧
      ∀ (x : Fin reps → Fin n → K) o,
        matmul2dCore toNat a b (challenges x) reps h = .ok o → Sat T o.cons → x ∉ bad →
        IsProduct a b o.val ell m n := by
  unfold matmul2dCore
  rw [ha, hb]
  dsimp only
  cases hf : matmulCostRule ell m n reps with
  | none => exact ⟨∅, by simp, fun x o ho => by cases ho⟩
  | some u =>
    cases u with
    | true => exact hinted_sound toNat a b reps ell m n ha hb h
    | false =>
      refine ⟨∅, by simp, fun x o ho _ _ => ?_⟩
      obtain ⟨o', h1, h2, -, -⟩ := C12_matrix_multiplication a b ell m n ha hb h
      have : matrixMultiplication a b h = .ok o := ho
      rw [this] at h1; cases h1
      exact h2

end

/-! ## Completeness of the hinted product -/

section
variable {F : Type} [CommRing F] {T : Tables F}

/-- The honest hint computes the product. `toNat` only has to invert the embedding of the dimensions. -/
theorem complete_unconstrained (toNat : F → Nat) (a b : Arr F) (ell m n : Nat)
    (ha : a.shape = [ell, m]) (hb : b.shape = [m, n])
    (ht : ∀ d ∈ [ell, m, n], toNat ((d : Nat) : F) = d)
    (hsz : ∀ d ∈ [ell, m, n], d < 2 ^ 64)
    (h64 : ell * m + m * n + 3 < 2 ^ 64) (h64' : ell * n < 2 ^ 64) :
    Complete T (unconstrainedMatrixMultiplication toNat a b) (fun c => IsProduct a b c ell m n) := by
  unfold unconstrainedMatrixMultiplication
  rw [ha, hb]
  simp only [ne_eq, not_true_eq_false, if_false]
  set A := (List.range ell).flatMap fun i => (List.range m).map fun k => a.at2 m i k with hA
  set B := (List.range m).flatMap fun k => (List.range n).map fun j => b.at2 n k j with hB
  have hlA : A.length = ell * m := length_flatMap_rows _ _ _
  have hlB : B.length = m * n := length_flatMap_rows _ _ _
  have hAB : (A ++ B).length = ell * m + m * n := by simp [hlA, hlB]
  have hf : matmulHint toNat (ell * n)
      (A ++ B ++ [((ell : Nat) : F), ((m : Nat) : F), ((n : Nat) : F)]) =
      .ok ((List.range ell).flatMap fun i => (List.range n).map fun j =>
        dot m (fun k => a.at2 m i k) (fun k => b.at2 n k j)) := by
    unfold matmulHint
    have hlen : (A ++ B ++ [((ell : Nat) : F), ((m : Nat) : F), ((n : Nat) : F)]).length =
        ell * m + m * n + 3 := by rw [List.length_append, hAB]; rfl
    have e0 : (A ++ B ++ [((ell : Nat) : F), ((m : Nat) : F), ((n : Nat) : F)]).getD
        (ell * m + m * n + 3 - 3) 0 = ((ell : Nat) : F) := by
      rw [List.getD_append_right _ _ _ _ (by rw [hAB]; omega), hAB]; simp
    have e1 : (A ++ B ++ [((ell : Nat) : F), ((m : Nat) : F), ((n : Nat) : F)]).getD
        (ell * m + m * n + 3 - 2) 0 = ((m : Nat) : F) := by
      rw [List.getD_append_right _ _ _ _ (by rw [hAB]; omega), hAB,
        show ell * m + m * n + 3 - 2 - (ell * m + m * n) = 1 by omega]; rfl
    have e2 : (A ++ B ++ [((ell : Nat) : F), ((m : Nat) : F), ((n : Nat) : F)]).getD
        (ell * m + m * n + 3 - 1) 0 = ((n : Nat) : F) := by
      rw [List.getD_append_right _ _ _ _ (by rw [hAB]; omega), hAB,
        show ell * m + m * n + 3 - 1 - (ell * m + m * n) = 2 by omega]; rfl
    dsimp only
    rw [hlen, e0, e1, e2, ht ell (by simp), ht m (by simp), ht n (by simp)]
    have s1 := hsz ell (by simp)
    have s2 := hsz m (by simp)
    have s3 := hsz n (by simp)
    rw [if_neg (by omega), if_neg (by omega), if_neg (by omega), if_neg (by omega),
      if_neg (by omega)]
    have t1 : List.take (ell * m) (A ++ B ++ [((ell : Nat) : F), ((m : Nat) : F), ((n : Nat) : F)]) =
        A := by
      rw [List.append_assoc, List.take_append_of_le_length (by omega), List.take_of_length_le (by omega)]
    have t2 : List.take (m * n) (List.drop (ell * m)
        (A ++ B ++ [((ell : Nat) : F), ((m : Nat) : F), ((n : Nat) : F)])) = B := by
      rw [List.append_assoc, ← hlA, List.drop_left, ← hlB, List.take_left]
    rw [t1, t2]
    congr 1
    apply List.flatMap_congr
    intro i hi
    apply List.map_congr_left
    intro j hj
    have hi' := List.mem_range.mp hi
    have hj' := List.mem_range.mp hj
    rw [dot_eq_sum, dot_eq_sum]
    apply Finset.sum_congr rfl
    intro k _
    rw [hA, hB, getD_rows (fun i k => a.at2 m i k) hi' k.2, getD_rows (fun k j => b.at2 n k j) k.2 hj']
  refine (Complete.newHint hf (length_flatMap_rows _ _ _)).bind ?_
  rintro outs rfl
  refine Complete.pure ?_
  have := product_of_rows a b ell m n
  refine ⟨rfl, length_flatMap_rows _ _ _, ?_⟩
  rw [← this.eq]
  ext i j
  simp only [Arr.mat, Matrix.of_apply]
  rw [getD_rows _ i.2 j.2]

/-- **C12, completeness (Gemm).** With honest hints every pair of 2-D matrices with matching inner
dimension is accepted for all challenges, and the result is the product. -/
theorem C12_gemm_core_complete (toNat : F → Nat) (a b : Arr F) (ell m n reps : Nat)
    (chal : Nat → Nat → F) (ha : a.shape = [ell, m]) (hb : b.shape = [m, n])
    (ht : ∀ d ∈ [ell, m, n], toNat ((d : Nat) : F) = d)
    (hsz : ∀ d ∈ [ell, m, n], d < 2 ^ 64)
    (h64 : ell * m + m * n + 3 < 2 ^ 64) (h64' : ell * n < 2 ^ 64) :
    Complete T (computeCoreProduct toNat a b chal reps) (fun c => IsProduct a b c ell m n) := by
  unfold computeCoreProduct
  rw [ha, hb]
  simp only [ne_eq, not_true_eq_false, if_false]
  by_cases hf : shouldUseFreivalds ell m n reps
  · simp only [hf, if_true]
    refine (complete_unconstrained toNat a b ell m n ha hb ht hsz h64 h64').bind fun c hc => ?_
    have hr : 1 ≤ reps := by
      by_contra h0
      have : reps = 0 := by omega
      simp [shouldUseFreivalds, this] at hf
    have : Complete T (freivaldsVerify a b c chal reps) (fun _ => True) := by
      obtain ⟨o, h1, h2, h3⟩ := C11_freivalds_complete (T := T) a b c chal reps ell m n ha hb hc hr
        .honest
      exact ⟨o, h1, h2, h3, trivial⟩
    exact this.bind fun _ _ => Complete.pure hc
  · simp only [hf]
    obtain ⟨o, h1, h2, h3, h4⟩ := C12_matrix_multiplication a b ell m n ha hb .honest
    exact ⟨o, h1, h4, by rw [h3]; exact Sat.nil, h2⟩

/-- **C12, completeness (MatMul)** when no dimension is zero. -/
theorem C12_matmul_core_complete_partial (toNat : F → Nat) (a b : Arr F) (ell m n reps : Nat)
    (chal : Nat → Nat → F) (ha : a.shape = [ell, m]) (hb : b.shape = [m, n])
    (hpos : 0 < ell ∧ 0 < m ∧ 0 < n)
    (ht : ∀ d ∈ [ell, m, n], toNat ((d : Nat) : F) = d)
    (hsz : ∀ d ∈ [ell, m, n], d < 2 ^ 64)
    (h64 : ell * m + m * n + 3 < 2 ^ 64) (h64' : ell * n < 2 ^ 64) :
    Complete T (matmul2dCore toNat a b chal reps) (fun c => IsProduct a b c ell m n) := by
  obtain ⟨p1, p2, p3⟩ := hpos
  have hcost : ∃ u, matmulCostRule ell m n reps = some u ∧ (u = true → 1 ≤ reps) := by
    unfold matmulCostRule
    by_cases hr : reps = 0
    · simp [hr]
    · rw [if_neg hr, if_neg, if_neg]
      · exact ⟨_, rfl, fun _ => by omega⟩
      · push Not
        have k1 : ell ≤ ell * n := Nat.le_mul_of_pos_right _ p3
        have k2 : m ≤ m * n := Nat.le_mul_of_pos_right _ p3
        omega
      · push Not
        have : ell * n ≤ ell * m * n := by
          rw [Nat.mul_right_comm]; exact Nat.le_mul_of_pos_right _ p2
        nlinarith
  obtain ⟨u, hu, hr⟩ := hcost
  unfold matmul2dCore
  rw [ha, hb]
  dsimp only
  rw [hu]
  cases u with
  | false =>
    obtain ⟨o, h1, h2, h3, h4⟩ := C12_matrix_multiplication a b ell m n ha hb .honest
    exact ⟨o, h1, h4, by rw [h3]; exact Sat.nil, h2⟩
  | true =>
    refine (complete_unconstrained toNat a b ell m n ha hb ht hsz h64 h64').bind fun c hc => ?_
    have : Complete T (freivaldsVerify a b c chal reps) (fun _ => True) := by
      obtain ⟨o, h1, h2, h3⟩ := C11_freivalds_complete (T := T) a b c chal reps ell m n ha hb hc
        (hr rfl) .honest
      exact ⟨o, h1, h2, h3, trivial⟩
    exact this.bind fun _ _ => Complete.pure hc

/-- **C12, the empty-inner-dimension panic.** With `freivalds_reps ≥ 1`, `MatMul` of an `ell × 0` by a
`0 × n` matrix panics instead of returning the zero matrix. -/
theorem C12_matmul_core_panics (toNat : F → Nat) (a b : Arr F) (ell n reps : Nat)
    (chal : Nat → Nat → F) (ha : a.shape = [ell, 0]) (hb : b.shape = [0, n]) (h1 : 0 < ell)
    (h2 : 0 < n) (hr : 1 ≤ reps) (h : Hints F) :
    ∃ msg, matmul2dCore toNat a b chal reps h = .error (.panic msg) := by
  unfold matmul2dCore
  rw [ha, hb]
  have : matmulCostRule ell 0 n reps = none := by
    unfold matmulCostRule
    rw [if_neg (by omega), if_pos]
    have := Nat.mul_pos h1 h2
    simpa using this
  dsimp only
  rw [this]
  exact ⟨_, rfl⟩

/-- **C12, elementwise operations.** Arrays of equal shape, or of equal length, are combined
elementwise with the shape of the first; everything else is an error. -/
theorem C12_elementwise (op : F → F → F) (a b : Arr F) (h : Hints F) (o : Out F (Arr F))
    (hw : a.WF) (hwb : b.WF) :
    elementwiseOp op a b h = .ok o ↔
      a.data.length = b.data.length ∧ o.rest = h ∧ o.cons = Cons.nil ∧ o.val.shape = a.shape ∧
      o.val.WF ∧ ∀ i : Nat, o.val.data[i]? =
        (a.data[i]?).bind fun x => (b.data[i]?).map fun y => op x y := by
  unfold elementwiseOp
  constructor
  · intro ho
    split at ho
    · cases ho
    · next hc =>
      have hlen : a.data.length = b.data.length := by
        by_contra hne
        apply hc
        refine ⟨fun hs => hne ?_, fun h => hne h.symm⟩
        rw [hw, hwb, hs]
      cases ho
      refine ⟨hlen, rfl, rfl, rfl, ?_, fun i => ?_⟩
      · unfold Arr.WF at *
        simp [List.length_zipWith, ← hlen, hw]
      · rw [List.getElem?_zipWith]
        cases a.data[i]? <;> cases b.data[i]? <;> rfl
  · rintro ⟨hlen, hr, hc, hs, hwf, hd⟩
    rw [if_neg (by rintro ⟨-, h2⟩; exact h2 hlen.symm)]
    obtain ⟨⟨sh, dt⟩, c, r⟩ := o
    simp only at hr hc hs hd
    subst hr hc hs
    have : dt = List.zipWith op a.data b.data := by
      apply List.ext_getElem?
      intro i
      rw [hd, List.getElem?_zipWith]
      cases a.data[i]? <;> cases b.data[i]? <;> rfl
    rw [this]
    rfl

/-! ## Non-vacuity -/

/-- A 2×2 by 2×1 product: the constrained product of concrete matrices. -/
example : (matrixMultiplication (⟨[2, 2], [1, 2, 3, 4]⟩ : Arr (ZMod 101)) ⟨[2, 1], [5, 6]⟩
    .honest).map (fun o => o.val.data) = .ok [17, 39] := by decide +kernel

/-- The cost rule selects Freivalds for 10×10×10 with one repetition. -/
example : shouldUseFreivalds 10 10 10 1 = true ∧ matmulCostRule 10 10 10 1 = some true := by
  decide +kernel

/-- A wrong product meets the hypotheses of `C11_freivalds_sound`. -/
example : Arr.mat (⟨[1, 1], [7]⟩ : Arr (ZMod 101)) 1 1 ≠
    Arr.mat (⟨[1, 1], [2]⟩ : Arr (ZMod 101)) 1 1 * Arr.mat (⟨[1, 1], [3]⟩ : Arr (ZMod 101)) 1 1 := by
  intro h
  have := congrFun (congrFun h 0) 0
  simp [Arr.mat, Matrix.mul_apply] at this
  revert this; decide +kernel

end

end JST.Props
