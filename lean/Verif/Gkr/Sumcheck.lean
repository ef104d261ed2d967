import Verif.Gkr.Model
import Verif.Gkr.MleProofs
import Mathlib.Algebra.Polynomial.Roots
import Mathlib.Tactic.FieldSimp

/-!
# The rounds of the sumcheck: completeness and soundness
-/

namespace JST.Gkr

open JST.Spec

variable {K : Type} [Field K]

/-! ### Combining lanes -/

theorem combine_add (s : Nat) (p q : Pack K) (c : Nat → K) :
    combine s (p + q) c = combine s p c + combine s q c := by
  simp [combine, add_mul, Finset.sum_add_distrib]

theorem combine_sub (s : Nat) (p q : Pack K) (c : Nat → K) :
    combine s (p - q) c = combine s p c - combine s q c := by
  simp [combine, sub_mul, Finset.sum_sub_distrib]

theorem combine_smul (s : Nat) (a : K) (p : Pack K) (c : Nat → K) :
    combine s (a • p) c = a * combine s p c := by
  simp [combine, Finset.mul_sum, mul_assoc]

theorem combine_zero (s : Nat) (c : Nat → K) : combine s (0 : Pack K) c = 0 := by simp [combine]

theorem combine_congr (s : Nat) (p : Pack K) (c c' : Nat → K) (h : ∀ l < 2 ^ s, c l = c' l) :
    combine s p c = combine s p c' :=
  Finset.sum_congr rfl fun l hl => by rw [h l (Finset.mem_range.mp hl)]

theorem combine_scale (s : Nat) (p : Pack K) (c : Nat → K) (κ : K) :
    combine s p (fun l => κ * c l) = combine s p c * κ := by
  simp only [combine, Finset.sum_mul]
  exact Finset.sum_congr rfl fun l _ => by ring

/-- Combining with a table of weights is evaluating at the point. -/
theorem combine_chi (s : Nat) (p : Pack K) (r : List K) (h : r.length = s) :
    combine s p (chi r) = mle p r := by
  subst h
  exact Finset.sum_congr rfl fun l _ => by rw [smul_eq_mul, mul_comm]

/-! ### Folding -/

/-- Fix the lowest variable of a table at `r`. -/
def foldv {V : Type} [AddCommGroup V] [Module K V] (r : K) (f : Nat → V) : Nat → V :=
  fun i => f (2 * i) + r • (f (2 * i + 1) - f (2 * i))

theorem mle_foldv {V : Type} [AddCommGroup V] [Module K V] (r : K) (f : Nat → V) (rs : List K) :
    mle (foldv r f) rs = mle f (r :: rs) := (mle_cons f r rs).symm

/-- The sum of products of two tables of packed values. -/
def dotSum (n : Nat) (h v : Nat → Pack K) : Pack K := ∑ i ∈ Finset.range (2 ^ n), h i * v i

/-- The sum of products of three tables. -/
def triSum (n : Nat) (e f h : Nat → K) : K := ∑ i ∈ Finset.range (2 ^ n), e i * f i * h i

theorem dotSum_zero (h v : Nat → Pack K) : dotSum 0 h v = h 0 * v 0 := by simp [dotSum]
theorem triSum_zero (e f h : Nat → K) : triSum 0 e f h = e 0 * f 0 * h 0 := by simp [triSum]

theorem dotSum_congr (n : Nat) (h h' v v' : Nat → Pack K) (e1 : ∀ i < 2 ^ n, h i = h' i)
    (e2 : ∀ i < 2 ^ n, v i = v' i) : dotSum n h v = dotSum n h' v' :=
  Finset.sum_congr rfl fun i hi => by rw [e1 i (Finset.mem_range.mp hi), e2 i (Finset.mem_range.mp hi)]

/-- The products of the even entries, of the odd entries, and of the differences. -/
def evenSum (n : Nat) (h v : Nat → Pack K) : Pack K := ∑ i ∈ Finset.range (2 ^ n), h (2 * i) * v (2 * i)
def oddSum (n : Nat) (h v : Nat → Pack K) : Pack K :=
  ∑ i ∈ Finset.range (2 ^ n), h (2 * i + 1) * v (2 * i + 1)
def diffSum (n : Nat) (h v : Nat → Pack K) : Pack K :=
  ∑ i ∈ Finset.range (2 ^ n), (h (2 * i + 1) - h (2 * i)) * (v (2 * i + 1) - v (2 * i))

theorem dotSum_succ (n : Nat) (h v : Nat → Pack K) :
    dotSum (n + 1) h v = evenSum n h v + oddSum n h v := by
  rw [dotSum, pow_succ, mul_comm, sum_range_double, Finset.sum_add_distrib]; rfl

theorem dotSum_foldv (n : Nat) (t : K) (h v : Nat → Pack K) :
    dotSum n (foldv t h) (foldv t v) =
      evenSum n h v + t • (oddSum n h v - evenSum n h v - diffSum n h v) + (t * t) • diffSum n h v := by
  simp only [dotSum, evenSum, oddSum, diffSum, ← Finset.sum_sub_distrib, Finset.smul_sum,
    ← Finset.sum_add_distrib]
  refine Finset.sum_congr rfl fun i _ => ?_
  funext l
  simp only [foldv, Pi.add_apply, Pi.mul_apply, Pi.smul_apply, Pi.sub_apply, smul_eq_mul]
  ring

/-! ### Polynomials of bounded degree -/

/-- `q` is a polynomial function of degree at most `d`. -/
def IsPoly (d : Nat) (q : K → K) : Prop :=
  ∃ f : Polynomial K, f.natDegree ≤ d ∧ ∀ x, f.eval x = q x

open Polynomial in
theorem isPoly_quad (a b c : K) : IsPoly 2 fun x => a + b * x + c * (x * x) := by
  refine ⟨C a + C b * X + C c * X ^ 2, by compute_degree, fun x => ?_⟩
  simp only [eval_add, eval_mul, eval_C, eval_X, eval_pow]; ring

open Polynomial in
theorem isPoly_cubic (a b c d : K) : IsPoly 3 fun x => a + b * x + c * (x * x) + d * (x * x * x) := by
  refine ⟨C a + C b * X + C c * X ^ 2 + C d * X ^ 3, by compute_degree, fun x => ?_⟩
  simp only [eval_add, eval_mul, eval_C, eval_X, eval_pow]; ring

theorem IsPoly.congr {d : Nat} {q q' : K → K} (h : IsPoly d q) (e : ∀ x, q x = q' x) : IsPoly d q' := by
  obtain ⟨f, hf, hq⟩ := h
  exact ⟨f, hf, fun x => (hq x).trans (e x)⟩

/-- Two polynomials of degree at most `d` that differ somewhere agree on at most `d` points. -/
theorem IsPoly.bad {d : Nat} {p q : K → K} (hp : IsPoly d p) (hq : IsPoly d q) {x : K}
    (hne : p x ≠ q x) : ∃ B : Finset K, B.card ≤ d ∧ ∀ r, r ∉ B → p r ≠ q r := by
  classical
  obtain ⟨f, hf, ef⟩ := hp
  obtain ⟨g, hg, eg⟩ := hq
  have hfg : f - g ≠ 0 := by
    intro h
    apply hne
    rw [← ef, ← eg, ← sub_eq_zero, ← Polynomial.eval_sub, h, Polynomial.eval_zero]
  refine ⟨(f - g).roots.toFinset, ?_, fun r hr h => hr ?_⟩
  · calc _ ≤ (f - g).roots.card := Multiset.toFinset_card_le _
      _ ≤ (f - g).natDegree := Polynomial.card_roots' _
      _ ≤ d := (Polynomial.natDegree_sub_le f g).trans (max_le hf hg)
  · rw [Multiset.mem_toFinset, Polynomial.mem_roots hfg, Polynomial.IsRoot, Polynomial.eval_sub, ef, eg, h,
      sub_self]

/-- If the values at 0 and 1 of two polynomials have different sums, the polynomials agree on few points. -/
theorem IsPoly.bad01 {d : Nat} {p q : K → K} (hp : IsPoly d p) (hq : IsPoly d q)
    (hne : p 0 + p 1 ≠ q 0 + q 1) : ∃ B : Finset K, B.card ≤ d ∧ ∀ r, r ∉ B → p r ≠ q r := by
  by_cases h0 : p 0 = q 0
  · refine hp.bad hq (x := 1) fun h1 => hne (by rw [h0, h1])
  · exact hp.bad hq h0

/-! ### Interpolation -/

theorem deg2Eval_poly (p0 p1 p2 : K) : IsPoly 2 (deg2Eval p0 p1 p2) :=
  (isPoly_quad p0 (p1 - p0 - 2⁻¹ * (p2 - p1 - p1 + p0)) (2⁻¹ * (p2 - p1 - p1 + p0))).congr fun x => by
    simp only [deg2Eval]; ring

theorem deg2Eval_zero (p0 p1 p2 : K) : deg2Eval p0 p1 p2 0 = p0 := by simp [deg2Eval]
theorem deg2Eval_one (p0 p1 p2 : K) : deg2Eval p0 p1 p2 1 = p1 := by simp [deg2Eval]

theorem deg2Eval_quad (h2 : (2 : K) ≠ 0) (a b c x : K) :
    deg2Eval a (a + b + c) (a + b * 2 + c * (2 * 2)) x = a + b * x + c * (x * x) := by
  simp only [deg2Eval]; field_simp; ring

theorem lagEval_four (p0 p1 p2 p3 x : K) :
    lagEval [p0, p1, p2, p3] x =
      (x - 1) * (x - 2) * (x - 3) * (-6)⁻¹ * p0 + x * (x - 2) * (x - 3) * 2⁻¹ * p1 +
        x * (x - 1) * (x - 3) * (-2)⁻¹ * p2 + x * (x - 1) * (x - 2) * 6⁻¹ * p3 := by
  have e0 : [0, 1, 2, 3].filter (fun j : Nat => decide (j ≠ 0)) = [1, 2, 3] := by decide
  have e1 : [0, 1, 2, 3].filter (fun j : Nat => decide (j ≠ 1)) = [0, 2, 3] := by decide
  have e2 : [0, 1, 2, 3].filter (fun j : Nat => decide (j ≠ 2)) = [0, 1, 3] := by decide
  have e3 : [0, 1, 2, 3].filter (fun j : Nat => decide (j ≠ 3)) = [0, 1, 2] := by decide
  have r4 : List.range 4 = [0, 1, 2, 3] := by decide
  have i0 : ((0 : K) - 1) * ((0 - 2) * (0 - 3)) = -6 := by ring
  have i1 : ((1 : K) - 2) * (1 - 3) = 2 := by ring
  have i2 : (2 : K) * ((2 - 1) * (2 - 3)) = -2 := by ring
  have i3 : (3 : K) * ((3 - 1) * (3 - 2)) = 6 := by ring
  unfold lagEval
  simp only [List.length_cons, List.length_nil, Nat.reduceAdd, r4, List.map_cons, List.map_nil, e0, e1, e2, e3,
    List.prod_cons, List.prod_nil, List.sum_cons, List.sum_nil, Nat.cast_zero, Nat.cast_one, Nat.cast_ofNat,
    List.getD_cons_zero, List.getD_cons_succ, mul_one, one_mul, sub_zero, add_zero, i0, i1, i2, i3]
  ring

theorem lagEval_poly (p0 p1 p2 p3 : K) : IsPoly 3 (lagEval [p0, p1, p2, p3]) := by
  refine (isPoly_cubic (-6 * (-6)⁻¹ * p0)
    (11 * (-6)⁻¹ * p0 + 6 * 2⁻¹ * p1 + 3 * (-2)⁻¹ * p2 + 2 * 6⁻¹ * p3)
    (-6 * (-6)⁻¹ * p0 - 5 * 2⁻¹ * p1 - 4 * (-2)⁻¹ * p2 - 3 * 6⁻¹ * p3)
    ((-6)⁻¹ * p0 + 2⁻¹ * p1 + (-2)⁻¹ * p2 + 6⁻¹ * p3)).congr fun x => ?_
  rw [lagEval_four]; ring

theorem lagEval_zero (h6 : (6 : K) ≠ 0) (p0 p1 p2 p3 : K) : lagEval [p0, p1, p2, p3] 0 = p0 := by
  rw [lagEval_four]; field_simp; ring

theorem two_ne_of_six (h6 : (6 : K) ≠ 0) : (2 : K) ≠ 0 := fun h => h6 (by
  rw [show (6 : K) = 2 * 3 by norm_num, h, zero_mul])

theorem lagEval_one (h6 : (6 : K) ≠ 0) (p0 p1 p2 p3 : K) : lagEval [p0, p1, p2, p3] 1 = p1 := by
  have h2 := two_ne_of_six h6
  rw [lagEval_four]; field_simp; ring

theorem lagEval_cubic (h6 : (6 : K) ≠ 0) (a b c d x : K) :
    lagEval [a, a + b + c + d, a + b * 2 + c * (2 * 2) + d * (2 * 2 * 2),
      a + b * 3 + c * (3 * 3) + d * (3 * 3 * 3)] x = a + b * x + c * (x * x) + d * (x * x * x) := by
  have h2 := two_ne_of_six h6
  rw [lagEval_four]; field_simp; ring

/-! ### The prover's messages -/

/-- `gate_exists` is set wherever the table is not zero. -/
def GeOk (m : Nat) (b : Bufs K) : Prop := ∀ i < m, b.ge i = false → b.hg i = 0

theorem prodEvaluate_spec (n : Nat) (f : Nat → Pack K) (b : Bufs K) (hg : GeOk (2 * 2 ^ n) b) :
    prodEvaluate (2 ^ n) f b.hg b.ge = (evenSum n b.hg f, oddSum n b.hg f,
      ∑ i ∈ Finset.range (2 ^ n), (b.hg (2 * i) + b.hg (2 * i + 1)) * (f (2 * i) + f (2 * i + 1))) := by
  have live : ∀ i ∈ Finset.range (2 ^ n), (!b.ge (2 * i) && !b.ge (2 * i + 1)) = true →
      b.hg (2 * i) = 0 ∧ b.hg (2 * i + 1) = 0 := by
    intro i hi h
    have hi := Finset.mem_range.mp hi
    simp only [Bool.and_eq_true, Bool.not_eq_true'] at h
    exact ⟨hg _ (by omega) h.1, hg _ (by omega) h.2⟩
  simp only [prodEvaluate, evenSum, oddSum, Prod.mk.injEq]
  refine ⟨Finset.sum_congr rfl fun i hi => ?_, Finset.sum_congr rfl fun i hi => ?_,
    Finset.sum_congr rfl fun i hi => ?_⟩ <;>
  · split_ifs with h
    · simp [live i hi h]
    · rfl

theorem prodPolyEval_spec (n : Nat) (f : Nat → Pack K) (b : Bufs K) (hg : GeOk (2 * 2 ^ n) b) :
    prodPolyEval (2 ^ n) f b.hg b.ge =
      (evenSum n b.hg f, oddSum n b.hg f, dotSum n (foldv (2 : K) b.hg) (foldv (2 : K) f)) := by
  rw [prodPolyEval, prodEvaluate_spec n f b hg]
  simp only [Prod.mk.injEq, true_and]
  simp only [dotSum, evenSum, oddSum, Finset.smul_sum, ← Finset.sum_add_distrib, ← Finset.sum_sub_distrib]
  refine Finset.sum_congr rfl fun i _ => ?_
  funext l
  simp only [foldv, Pi.add_apply, Pi.mul_apply, Pi.smul_apply, Pi.sub_apply, smul_eq_mul]
  ring

theorem prodReceive_hg (n : Nat) (r : K) (src : Nat → Pack K) (b : Bufs K) (hg : GeOk (2 * 2 ^ n) b)
    (i : Nat) (hi : i < 2 ^ n) : (prodReceive (2 ^ n) r src b).hg i = foldv r b.hg i := by
  simp only [prodReceive, if_pos hi, foldv]
  split_ifs with h
  · simp only [Bool.and_eq_true, Bool.not_eq_true'] at h
    rw [hg _ (by omega) h.1, hg _ (by omega) h.2]; simp
  · rfl

theorem prodReceive_v (n : Nat) (r : K) (src : Nat → Pack K) (b : Bufs K)
    (i : Nat) (hi : i < 2 ^ n) : (prodReceive (2 ^ n) r src b).v i = foldv r src i := by
  simp only [prodReceive, if_pos hi, foldv]

theorem prodReceive_ge (n : Nat) (r : K) (src : Nat → Pack K) (b : Bufs K) :
    GeOk (2 ^ n) (prodReceive (2 ^ n) r src b) := by
  intro i hi h
  simp only [prodReceive, if_pos hi] at h ⊢
  rw [if_pos (by simpa using h)]

/-- The coefficients of the cubic of a SIMD round. -/
theorem triSum_foldv (n : Nat) (e f h : Nat → K) : ∃ a b c d : K, ∀ t,
    triSum n (foldv t e) (foldv t f) (foldv t h) = a + b * t + c * (t * t) + d * (t * t * t) := by
  refine ⟨∑ i ∈ Finset.range (2 ^ n), e (2 * i) * f (2 * i) * h (2 * i),
    ∑ i ∈ Finset.range (2 ^ n), ((e (2 * i + 1) - e (2 * i)) * f (2 * i) * h (2 * i) +
      e (2 * i) * (f (2 * i + 1) - f (2 * i)) * h (2 * i) +
      e (2 * i) * f (2 * i) * (h (2 * i + 1) - h (2 * i))),
    ∑ i ∈ Finset.range (2 ^ n), ((e (2 * i + 1) - e (2 * i)) * (f (2 * i + 1) - f (2 * i)) * h (2 * i) +
      (e (2 * i + 1) - e (2 * i)) * f (2 * i) * (h (2 * i + 1) - h (2 * i)) +
      e (2 * i) * (f (2 * i + 1) - f (2 * i)) * (h (2 * i + 1) - h (2 * i))),
    ∑ i ∈ Finset.range (2 ^ n), (e (2 * i + 1) - e (2 * i)) * (f (2 * i + 1) - f (2 * i)) *
      (h (2 * i + 1) - h (2 * i)), fun t => ?_⟩
  simp only [triSum, Finset.sum_mul, ← Finset.sum_add_distrib]
  refine Finset.sum_congr rfl fun i _ => ?_
  simp only [foldv, smul_eq_mul]
  ring

theorem triSum_succ (n : Nat) (e f h : Nat → K) :
    triSum (n + 1) e f h = triSum n (foldv (0 : K) e) (foldv (0 : K) f) (foldv (0 : K) h) +
      triSum n (foldv (1 : K) e) (foldv (1 : K) f) (foldv (1 : K) h) := by
  rw [triSum, pow_succ, mul_comm, sum_range_double, Finset.sum_add_distrib]
  congr 1 <;> refine Finset.sum_congr rfl fun i _ => ?_ <;> simp [foldv]

theorem dotSum_succ' (n : Nat) (h v : Nat → Pack K) :
    dotSum (n + 1) h v = dotSum n (foldv (0 : K) h) (foldv (0 : K) v) +
      dotSum n (foldv (1 : K) h) (foldv (1 : K) v) := by
  rw [dotSum_succ, dotSum_foldv, dotSum_foldv]
  simp only [zero_smul, one_smul, mul_zero, mul_one]
  abel

theorem simdPolyEval_spec (n : Nat) (e f h : Nat → K) :
    simdPolyEval (2 ^ n) e f h =
      (triSum n (foldv (0 : K) e) (foldv (0 : K) f) (foldv (0 : K) h),
       triSum n (foldv (1 : K) e) (foldv (1 : K) f) (foldv (1 : K) h),
       triSum n (foldv (2 : K) e) (foldv (2 : K) f) (foldv (2 : K) h),
       triSum n (foldv (3 : K) e) (foldv (3 : K) f) (foldv (3 : K) h)) := by
  simp only [simdPolyEval, triSum, Prod.mk.injEq]
  refine ⟨?_, ?_, ?_, ?_⟩ <;> refine Finset.sum_congr rfl fun i _ => ?_ <;>
    simp only [foldv, smul_eq_mul] <;> ring

theorem triSum_congr (n : Nat) (e f h e' f' h' : Nat → K) (h1 : ∀ i < 2 ^ n, e i = e' i)
    (h2 : ∀ i < 2 ^ n, f i = f' i) (h3 : ∀ i < 2 ^ n, h i = h' i) :
    triSum n e f h = triSum n e' f' h' :=
  Finset.sum_congr rfl fun i hi => by
    rw [h1 i (Finset.mem_range.mp hi), h2 i (Finset.mem_range.mp hi), h3 i (Finset.mem_range.mp hi)]

end JST.Gkr
