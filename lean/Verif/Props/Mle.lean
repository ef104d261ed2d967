import Verif.Gkr.MleProofs
import Verif.Primes
import Mathlib.Algebra.Field.ZMod
import Mathlib.Algebra.Field.Rat

/-!
# C22: equality tables and multilinear evaluation

Each routine of /repo/prover/arith/polynomials/src/{eq,mle}.rs against `Spec.chi` and `Spec.mle`
(Verif/Spec/Mle.lean), for every number of variables, vector and point over every field.
-/

namespace JST.Props

open JST.Gkr JST.Spec

variable {K : Type} [Field K] {V : Type} [AddCommGroup V] [Module K V]

/-- C22: `build_eq_x_r_with_buf` writes the scaled table of weights to the first `2 ^ n` entries of the
buffer, whatever the buffer held, and leaves the rest alone. -/
theorem C22_build_eq_table (r : List K) (f : K) (buf : Nat → K) (j : Nat) :
    buildEq r f buf j = if j < 2 ^ r.length then f * chi r j else buf j := buildEq_spec r f buf j

example : (List.range 5).map (buildEq [(2 : ℚ), 3] 1 fun _ => 7) = [2, -4, -3, 6, 7] := by
  decide +kernel

/-- C22: so does `eq_eval_at`, which splits the point in two halves. -/
theorem C22_eq_eval_at (r : List K) (f : K) (buf : Nat → K) (j : Nat) :
    eqEvalAt r f buf j = if j < 2 ^ r.length then f * chi r j else buf j := eqEvalAt_spec r f buf j

example : (List.range 9).map (eqEvalAt [(2 : ℚ), 3, 5] 1 fun _ => 7) =
    [-8, 16, 12, -24, 10, -20, -15, 30, 7] := by
  decide +kernel

/-- C22: `build_eq_x_r` and `evals_jolt` list the same table. -/
theorem C22_eq_lists (r : List K) (f : K) :
    evalsJolt r f = (List.range (2 ^ r.length)).map (fun i => f * chi r i) ∧
      buildEqHelper r = (List.range (2 ^ r.length)).map (chi r) := by
  have key : ∀ f : K, evalsJolt r f = (List.range (2 ^ r.length)).map (fun i => f * chi r i) := by
    intro f
    obtain ⟨hl, hv⟩ := evalsJolt_spec r f
    refine List.ext_getElem (by simp [hl]) fun i h1 h2 => ?_
    have := hv i (by omega)
    rw [List.getD_eq_getElem _ _ h1] at this
    simp [this]
  refine ⟨key f, ?_⟩
  rw [buildEqHelper_eq, key 1]
  simp

example : buildEqHelper [(2 : ℚ), 3] = [2, -4, -3, 6] := by decide +kernel

/-- C22: `ith_eq_vec_elem` is the entry of the table. -/
theorem C22_ith_eq (r : List K) (i : Nat) : ithEq r i = chi r i := ithEq_spec r i

example : ithEq [(2 : ℚ), 3] 1 = -4 := by decide +kernel

/-- C22: `eq_vec` of two points of the same length is the sum over the vertices of the products of the two
tables, so it is symmetric and is the multilinear extension of one table at the other point. -/
theorem C22_eq_vec (xs ys : List K) (h : xs.length = ys.length) :
    eqVec xs ys = ∑ i ∈ Finset.range (2 ^ xs.length), chi xs i * chi ys i := by
  rw [eqVec_spec xs ys h, mle, h]
  exact Finset.sum_congr rfl fun i _ => by rw [smul_eq_mul, mul_comm]

example : eqVec [(2 : ℚ), 3] [5, 7] = 462 := by decide +kernel

/-- C22: `eq_vec` at a vertex is the entry of the table for that vertex. -/
theorem C22_eq_vec_at_vertex (xs : List K) (k : Nat) (hk : k < 2 ^ xs.length) :
    eqVec xs (boolPoint xs.length k) = chi xs k := by
  rw [eqVec_spec _ _ (length_boolPoint _ _).symm, mle_boolPoint _ _ _ hk]

example : eqVec [(2 : ℚ), 3] (boolPoint 2 1) = -4 := by decide +kernel

/-- C22: the weights of a point add up to one. -/
theorem C22_weights_sum (r : List K) : ∑ i ∈ Finset.range (2 ^ r.length), chi r i = 1 := sum_chi r

/-- C22: `evaluate_with_buffer` and `eval_circuit_vals_at_challenge` compute the multilinear extension, for
values in the challenge field and for packed values. -/
theorem C22_evaluate (f : Nat → V) (r : List K) : evalFold r f = mle f r := evalFold_spec f r

example : evalFold [(2 : ℚ), 3] (fun i => ((i : ℚ) + 1) ^ 2) = 55 := by decide +kernel

/-- C22: the multilinear extension agrees with the vector at every vertex. -/
theorem C22_evaluate_at_vertex (f : Nat → V) (n k : Nat) (hk : k < 2 ^ n) :
    evalFold (boolPoint n k : List K) f = f k := by
  rw [evalFold_spec, mle_boolPoint _ _ _ hk]

example : evalFold (boolPoint 2 3 : List ℚ) (fun i => ((i : ℚ) + 1) ^ 2) = 16 := by decide +kernel

/-- C22: folding the lowest variable at a challenge fixes the first coordinate of the multilinear
extension. This is one step of the sumcheck prover's table update. -/
theorem C22_fold_low (f : Nat → V) (r : K) (rs : List K) :
    mle (foldTo (2 ^ rs.length) r f) rs = mle f (r :: rs) := mle_foldTo f r rs _ le_rfl

/-- C22: `fix_variables` fixes the last coordinates: it leaves the table of the remaining ones. -/
theorem C22_fix_variables (rs : List K) (xs : List K) (m : Nat) (hx : xs.length = 2 ^ (m + rs.length)) :
    (fixVariables rs xs).length = 2 ^ m ∧
      ∀ pre : List K, pre.length = m → mle (tab (fixVariables rs xs)) pre = mle (tab xs) (pre ++ rs) :=
  fixVariables_spec rs xs m hx

example : fixVariables [(3 : ℚ)] [1, 4, 9, 16] = [25, 40] := by decide +kernel

/-- C22: `eval_reverse_order` is the multilinear extension at the reversed point. -/
theorem C22_eval_reverse (rs : List K) (xs : List K) (hx : xs.length = 2 ^ rs.length) :
    evalReverse rs xs = mle (tab xs) rs.reverse := evalReverse_spec rs xs hx

example : evalReverse [(3 : ℚ), 2] [1, 4, 9, 16] = 55 := by decide +kernel

/-- C22: `interpolate_over_hypercube` gives the coefficients of the multilinear extension in the monomials
of the point's coordinates. -/
theorem C22_interpolate (f : Nat → K) (r : List K) :
    ∑ i ∈ Finset.range (2 ^ r.length), interpolate r.length f i * mono r i = mle f r :=
  interpolate_spec f r

example : (List.range 4).map (interpolate 2 fun i => ((i : ℚ) + 1) ^ 2) = [1, 3, 8, 4] := by decide +kernel

/-- What `fix_bottom_variable` should return: the table of the remaining variables. -/
def FixesBottom (g : K → List K → List K) : Prop :=
  ∀ (p : K) (xs : List K) (n : Nat), xs.length = 2 ^ (n + 1) → (g p xs).length = 2 ^ n ∧
    ∀ rest : List K, rest.length = n → mle (tab (g p xs)) rest = mle (tab xs) (p :: rest)

/-- C22, negative: `fix_bottom_variable` does not fix the lowest variable, over any field. It reads
`coeffs[i]` where it needs `coeffs[2 * i]`. -/
theorem C22_fix_bottom_wrong : ¬ FixesBottom (K := K) fixBottom := by
  intro h
  have h2 := (h 0 [0, 0, 1, 0] 1 rfl).2 [1] rfl
  simp [mle_cons, mle_nil, fixBottom, fixBottomStep, List.range_succ, tab] at h2

/-- C22, the case in which `fix_bottom_variable` is right: one variable. -/
theorem C22_fix_bottom_partial (p a b : K) : fixBottom p [a, b] = [mle (tab [a, b]) [p]] := by
  simp [fixBottom, fixBottomStep, mle_cons, mle_nil, tab, List.range_succ, mul_comm]

end JST.Props
