import Verif.Gkr.Mle
import Verif.Spec.Mle

/-!
# Proofs about multilinear extensions and equality tables
-/

namespace JST.Gkr

open JST.Spec

variable {K : Type} [Field K] {V : Type} [AddCommGroup V] [Module K V]

/-! ### Sums over a range of even length -/

theorem sum_range_double {M : Type} [AddCommMonoid M] (m : Nat) (f : Nat → M) :
    ∑ i ∈ Finset.range (2 * m), f i = ∑ i ∈ Finset.range m, (f (2 * i) + f (2 * i + 1)) := by
  induction m with
  | zero => simp
  | succ m ih =>
    rw [show 2 * (m + 1) = 2 * m + 1 + 1 by ring, Finset.sum_range_succ, Finset.sum_range_succ, ih,
      Finset.sum_range_succ]
    abel

theorem sum_range_halves {M : Type} [AddCommMonoid M] (m : Nat) (f : Nat → M) :
    ∑ i ∈ Finset.range (2 * m), f i = ∑ i ∈ Finset.range m, (f i + f (m + i)) := by
  rw [two_mul, Finset.sum_range_add, Finset.sum_add_distrib]

/-! ### Weights -/

theorem chi_even (r : K) (rs : List K) (i : Nat) : chi (r :: rs) (2 * i) = (1 - r) * chi rs i := by
  simp [chi, Nat.testBit_zero]

theorem chi_odd (r : K) (rs : List K) (i : Nat) : chi (r :: rs) (2 * i + 1) = r * chi rs i := by
  have h : (2 * i + 1) / 2 = i := by omega
  simp [chi, Nat.testBit_zero, h, Nat.add_mod]

theorem chi_append (a b : List K) (i : Nat) :
    chi (a ++ b) i = chi a (i % 2 ^ a.length) * chi b (i / 2 ^ a.length) := by
  induction a generalizing i with
  | nil => simp [chi]
  | cons r rs ih =>
    have h1 : (i % 2 ^ (rs.length + 1)) / 2 = (i / 2) % 2 ^ rs.length := by
      rw [pow_succ, mul_comm, Nat.mod_mul_right_div_self]
    have h2 : i / 2 ^ (rs.length + 1) = i / 2 / 2 ^ rs.length := by
      rw [pow_succ, mul_comm, Nat.div_div_eq_div_mul]
    have h3 : (i % 2 ^ (rs.length + 1)).testBit 0 = i.testBit 0 := by
      simp [Nat.testBit_zero, pow_succ, Nat.mod_mul_left_mod]
    simp only [List.cons_append, chi, ih, List.length_cons, h1, h2, h3, mul_assoc]

theorem chi_snoc_lo (a : List K) (r : K) (i : Nat) (h : i < 2 ^ a.length) :
    chi (a ++ [r]) i = chi a i * (1 - r) := by
  rw [chi_append, Nat.mod_eq_of_lt h, Nat.div_eq_of_lt h]
  simp [chi]

theorem chi_snoc_hi (a : List K) (r : K) (i : Nat) (h : i < 2 ^ a.length) :
    chi (a ++ [r]) (2 ^ a.length + i) = chi a i * r := by
  have : (2 ^ a.length + i) / 2 ^ a.length = 1 := by
    rw [Nat.add_div_left _ (by positivity), Nat.div_eq_of_lt h]
  rw [chi_append, Nat.add_mod_left, Nat.mod_eq_of_lt h, this]
  simp [chi, Nat.testBit_zero]

theorem sum_chi (r : List K) : ∑ i ∈ Finset.range (2 ^ r.length), chi r i = 1 := by
  induction r with
  | nil => simp [chi]
  | cons r rs ih =>
    rw [List.length_cons, pow_succ, mul_comm, sum_range_double]
    rw [← ih]
    refine Finset.sum_congr rfl fun i _ => ?_
    rw [chi_even, chi_odd]; ring

/-! ### Equality tables -/

theorem foldl_buildStep_fst (r : List K) (st : Nat × (Nat → K)) :
    (r.foldl buildStep st).1 = 2 ^ r.length * st.1 := by
  induction r generalizing st with
  | nil => simp
  | cons x r ih => rw [List.foldl_cons, ih]; simp [buildStep, pow_succ]; ring

theorem buildEq_spec (r : List K) (f : K) (buf : Nat → K) (j : Nat) :
    buildEq r f buf j = if j < 2 ^ r.length then f * chi r j else buf j := by
  unfold buildEq
  induction r using List.reverseRecOn generalizing j with
  | nil =>
    rcases j with _ | j <;> simp [chi]
  | append_singleton a x ih =>
    have h1 : (a.foldl buildStep (1, fun j => if j = 0 then f else buf j)).1 = 2 ^ a.length := by
      rw [foldl_buildStep_fst]; simp
    rw [List.foldl_append]
    simp only [List.foldl_cons, List.foldl_nil, buildStep, h1, ih]
    rw [List.length_append, List.length_singleton, pow_succ, mul_comm _ 2]
    by_cases hj : j < 2 ^ a.length
    · rw [if_pos hj, if_pos hj, if_pos (by omega), chi_snoc_lo _ _ _ hj]; ring
    · by_cases hj2 : j < 2 * 2 ^ a.length
      · obtain ⟨i, rfl⟩ : ∃ i, j = 2 ^ a.length + i := ⟨j - 2 ^ a.length, by omega⟩
        have hi : i < 2 ^ a.length := by omega
        rw [if_neg hj, if_pos hj2, if_pos hj2, Nat.add_sub_cancel_left, if_pos hi,
          chi_snoc_hi _ _ _ hi]; ring
      · rw [if_neg hj, if_neg hj2, if_neg hj2, if_neg hj]

theorem eqEvalAt_spec (r : List K) (f : K) (buf : Nat → K) (i : Nat) :
    eqEvalAt r f buf i = if i < 2 ^ r.length then f * chi r i else buf i := by
  unfold eqEvalAt
  by_cases h : i < 2 ^ r.length
  · rw [if_pos h, if_pos h, buildEq_spec, buildEq_spec]
    have ht : (r.take (r.length / 2)).length = r.length / 2 := by rw [List.length_take]; omega
    have hd : (r.drop (r.length / 2)).length = r.length - r.length / 2 := by rw [List.length_drop]
    have h1 : i % 2 ^ (r.length / 2) < 2 ^ (r.length / 2) := Nat.mod_lt _ (by positivity)
    have h2 : i / 2 ^ (r.length / 2) < 2 ^ (r.length - r.length / 2) := by
      rw [Nat.div_lt_iff_lt_mul (by positivity), ← pow_add]
      rwa [Nat.sub_add_cancel (by omega)]
    rw [ht, hd, if_pos h1, if_pos h2]
    conv_rhs => rw [← List.take_append_drop (r.length / 2) r, chi_append, ht]
    ring
  · rw [if_neg h, if_neg h]

theorem eqVec_nil (ys : List K) : eqVec [] ys = 1 := by simp [eqVec]
theorem eqVec_cons (x y : K) (xs ys : List K) :
    eqVec (x :: xs) (y :: ys) = eq1 x y * eqVec xs ys := by simp [eqVec]

/-- `eq_vec` is the multilinear extension of either table at the other point. -/
theorem eqVec_spec (xs ys : List K) (h : xs.length = ys.length) :
    eqVec xs ys = mle (chi xs) ys := by
  unfold mle
  induction xs generalizing ys with
  | nil => cases ys with
    | nil => simp [eqVec, chi]
    | cons y ys => simp at h
  | cons x xs ih => cases ys with
    | nil => simp at h
    | cons y ys =>
      have h' : xs.length = ys.length := by simpa using h
      rw [eqVec_cons, ih ys h', List.length_cons, pow_succ, mul_comm _ 2, sum_range_double,
        Finset.mul_sum]
      refine Finset.sum_congr rfl fun i _ => ?_
      rw [chi_even, chi_odd, chi_even, chi_odd]
      simp only [smul_eq_mul, eq1]; ring

theorem getD_flatMap_pair (es : List K) (a b : K → K) (i : Nat) (hi : i < es.length) :
    (es.flatMap fun s => [a s, b s]).getD (2 * i) 0 = a (es.getD i 0) ∧
    (es.flatMap fun s => [a s, b s]).getD (2 * i + 1) 0 = b (es.getD i 0) := by
  induction es generalizing i with
  | nil => simp at hi
  | cons e es ih =>
    rcases i with _ | i
    · simp
    · have := ih i (by simpa using hi)
      simpa [Nat.mul_add, List.flatMap_cons] using this

theorem length_flatMap_pair (es : List K) (a b : K → K) :
    (es.flatMap fun s => [a s, b s]).length = 2 * es.length := by
  induction es with
  | nil => rfl
  | cons e es ih => rw [List.flatMap_cons, List.length_append, ih]; simp; ring

theorem evalsJolt_cons (x : K) (r : List K) (f : K) :
    evalsJolt (x :: r) f = (evalsJolt r f).flatMap fun s => [s - s * x, s * x] := by
  simp [evalsJolt]

theorem evalsJolt_spec (r : List K) (f : K) :
    (evalsJolt r f).length = 2 ^ r.length ∧
      ∀ i < 2 ^ r.length, (evalsJolt r f).getD i 0 = f * chi r i := by
  induction r with
  | nil => simp [evalsJolt, chi]
  | cons x r ih =>
    refine ⟨by rw [evalsJolt_cons, length_flatMap_pair, ih.1, List.length_cons, pow_succ]; ring, ?_⟩
    intro i hi
    rw [List.length_cons, pow_succ] at hi
    have hp := getD_flatMap_pair (evalsJolt r f) (fun s => s - s * x) (fun s => s * x) (i / 2)
      (by rw [ih.1]; omega)
    rw [ih.2 (i / 2) (by omega)] at hp
    rw [evalsJolt_cons]
    rcases Nat.mod_two_eq_zero_or_one i with h0 | h0
    · obtain ⟨k, rfl⟩ : ∃ k, i = 2 * k := ⟨i / 2, by omega⟩
      have hk : 2 * k / 2 = k := by omega
      rw [hk] at hp
      rw [hp.1, chi_even]; ring
    · obtain ⟨k, rfl⟩ : ∃ k, i = 2 * k + 1 := ⟨i / 2, by omega⟩
      have hk : (2 * k + 1) / 2 = k := by omega
      rw [hk] at hp
      rw [hp.2, chi_odd]; ring

theorem buildEqHelper_eq (r : List K) : buildEqHelper r = evalsJolt r 1 := by
  induction r with
  | nil => rfl
  | cons x r ih =>
    rw [evalsJolt_cons, ← ih]
    cases r with
    | nil => simp [buildEqHelper]
    | cons y r => 
      rw [buildEqHelper]
      · congr 1; funext b; simp [mul_comm]
      · simp

theorem ithEq_spec (r : List K) (i : Nat) : ithEq r i = chi r i := by
  induction r generalizing i with
  | nil => rfl
  | cons x r ih =>
    rw [ithEq, chi, ih]
    rcases Nat.mod_two_eq_zero_or_one i with h | h <;> simp [h, Nat.testBit_zero]

/-! ### Evaluation -/

theorem mle_nil (f : Nat → V) : mle f ([] : List K) = f 0 := by simp [mle, chi]

theorem mle_cons (f : Nat → V) (r : K) (rs : List K) :
    mle f (r :: rs) = mle (fun i => f (2 * i) + r • (f (2 * i + 1) - f (2 * i))) rs := by
  unfold mle
  rw [List.length_cons, pow_succ, mul_comm _ 2, sum_range_double]
  refine Finset.sum_congr rfl fun i _ => ?_
  rw [chi_even, chi_odd]
  module

theorem mle_congr (f g : Nat → V) (r : List K) (h : ∀ i < 2 ^ r.length, f i = g i) :
    mle f r = mle g r :=
  Finset.sum_congr rfl fun i hi => by rw [h i (Finset.mem_range.mp hi)]

theorem mle_foldTo (f : Nat → V) (r : K) (rs : List K) (m : Nat) (hm : 2 ^ rs.length ≤ m) :
    mle (foldTo m r f) rs = mle f (r :: rs) := by
  rw [mle_cons]
  refine mle_congr _ _ _ fun i hi => ?_
  rw [foldTo, if_pos (by omega)]

theorem evalFold_spec (f : Nat → V) (r : List K) : evalFold r f = mle f r := by
  induction r generalizing f with
  | nil => rw [evalFold, mle_nil]
  | cons x r ih => rw [evalFold, ih, mle_foldTo _ _ _ _ le_rfl]

theorem mle_append (f : Nat → V) (a b : List K) :
    mle f (a ++ b) = mle (fun j => mle (fun i => f (i + 2 ^ a.length * j)) a) b := by
  induction a generalizing f with
  | nil => simp [mle_nil]
  | cons r rs ih =>
    rw [List.cons_append, mle_cons, ih]
    congr 1; funext j
    rw [mle_cons]
    congr 1; funext i
    have h1 : 2 * (i + 2 ^ rs.length * j) = 2 * i + 2 ^ (r :: rs).length * j := by
      simp [pow_succ]; ring
    rw [h1]
    have h2 : 2 * i + 2 ^ (r :: rs).length * j + 1 = 2 * i + 1 + 2 ^ (r :: rs).length * j := by ring
    rw [h2]

theorem mle_snoc (f : Nat → V) (a : List K) (r : K) :
    mle f (a ++ [r]) = mle (fun i => f i + r • (f (2 ^ a.length + i) - f i)) a := by
  rw [mle_append, mle_cons, mle_nil]
  simp only [mul_zero, add_zero, zero_add, mul_one]
  unfold mle
  rw [← Finset.sum_sub_distrib, Finset.smul_sum, ← Finset.sum_add_distrib]
  refine Finset.sum_congr rfl fun i _ => ?_
  simp only [add_comm (2 ^ a.length) i]
  module

/-- The vertex with index `k`, as a point. -/
def boolPoint (n k : Nat) : List K := (List.range n).map fun j => if k.testBit j then 1 else 0

theorem boolPoint_succ (n k : Nat) :
    (boolPoint (n + 1) k : List K) = (if k.testBit 0 then 1 else 0) :: boolPoint n (k / 2) := by
  simp only [boolPoint, List.range_succ_eq_map, List.map_cons, List.map_map, List.cons.injEq, true_and]
  refine List.map_congr_left fun j _ => ?_
  simp [Nat.testBit_succ]

theorem length_boolPoint (n k : Nat) : (boolPoint n k : List K).length = n := by simp [boolPoint]

theorem mle_boolPoint (f : Nat → V) (n k : Nat) (hk : k < 2 ^ n) :
    mle f (boolPoint n k : List K) = f k := by
  induction n generalizing k f with
  | zero =>
    have : k = 0 := by simpa using hk
    subst this; simp [boolPoint, mle_nil]
  | succ n ih =>
    rw [boolPoint_succ, mle_cons, ih _ _ (by rw [pow_succ] at hk; omega)]
    rcases Nat.mod_two_eq_zero_or_one k with h | h
    · have : 2 * (k / 2) = k := by omega
      simp [Nat.testBit_zero, h, this]
    · have : 2 * (k / 2) + 1 = k := by omega
      simp [Nat.testBit_zero, h, this]

/-! ### Lists of evaluations -/

/-- A list read as a function. -/
def tab (xs : List K) : Nat → K := fun i => xs.getD i 0

theorem fixTop_spec (r : K) (xs : List K) (n : Nat) (hx : xs.length = 2 ^ (n + 1)) :
    (fixTop r xs).length = 2 ^ n ∧
      ∀ i < 2 ^ n, tab (fixTop r xs) i = tab xs i + r * (tab xs (2 ^ n + i) - tab xs i) := by
  have h2 : xs.length / 2 = 2 ^ n := by rw [hx, pow_succ]; omega
  have hlen : (fixTop r xs).length = 2 ^ n := by
    simp [fixTop, h2, hx, pow_succ]
    omega
  refine ⟨hlen, fun i hi => ?_⟩
  unfold tab
  have hi1 : i < xs.length := by rw [hx, pow_succ]; omega
  have hi2 : 2 ^ n + i < xs.length := by rw [hx, pow_succ]; omega
  rw [List.getD_eq_getElem _ _ (by rw [hlen]; exact hi), List.getD_eq_getElem _ _ hi1,
    List.getD_eq_getElem _ _ hi2]
  simp [fixTop, h2]

theorem fixVariables_spec (rs : List K) (xs : List K) (m : Nat) (hx : xs.length = 2 ^ (m + rs.length)) :
    (fixVariables rs xs).length = 2 ^ m ∧
      ∀ pre : List K, pre.length = m → mle (tab (fixVariables rs xs)) pre = mle (tab xs) (pre ++ rs) := by
  induction rs using List.reverseRecOn generalizing xs with
  | nil => simpa [fixVariables] using hx
  | append_singleton a r ih =>
    have e : fixVariables (a ++ [r]) xs = fixVariables a (fixTop r xs) := by simp [fixVariables]
    have hx' : xs.length = 2 ^ (m + a.length + 1) := by
      rw [hx]; congr 1; simp; ring
    obtain ⟨hl, hv⟩ := fixTop_spec r xs (m + a.length) hx'
    obtain ⟨ihl, ihv⟩ := ih (fixTop r xs) hl
    rw [e]
    refine ⟨ihl, fun pre hpre => ?_⟩
    rw [ihv pre hpre, ← List.append_assoc, mle_snoc]
    refine mle_congr _ _ _ fun i hi => ?_
    rw [List.length_append, hpre] at hi ⊢
    rw [hv i hi]; rfl

theorem evalReverse_spec (rs : List K) (xs : List K) (hx : xs.length = 2 ^ rs.length) :
    evalReverse rs xs = mle (tab xs) rs.reverse := by
  have h := fixVariables_spec rs.reverse xs 0 (by simpa using hx)
  have e : evalReverse rs xs = (fixVariables rs.reverse xs).headD 0 := by
    simp [evalReverse, fixVariables]
  have h2 := h.2 [] rfl
  rw [List.nil_append, mle_nil] at h2
  rw [e, ← h2, tab]
  cases fixVariables rs.reverse xs <;> simp

/-! ### Coefficients -/

/-- The monomial with exponent set `i` at the point `r`: the product of the coordinates whose bit is set. -/
def mono : List K → Nat → K
  | [], _ => 1
  | r :: rs, i => (if i.testBit 0 then r else 1) * mono rs (i / 2)

theorem mono_append (a b : List K) (i : Nat) :
    mono (a ++ b) i = mono a (i % 2 ^ a.length) * mono b (i / 2 ^ a.length) := by
  induction a generalizing i with
  | nil => simp [mono]
  | cons r rs ih =>
    have h1 : (i % 2 ^ (rs.length + 1)) / 2 = (i / 2) % 2 ^ rs.length := by
      rw [pow_succ, mul_comm, Nat.mod_mul_right_div_self]
    have h2 : i / 2 ^ (rs.length + 1) = i / 2 / 2 ^ rs.length := by
      rw [pow_succ, mul_comm, Nat.div_div_eq_div_mul]
    have h3 : (i % 2 ^ (rs.length + 1)).testBit 0 = i.testBit 0 := by
      simp [Nat.testBit_zero, pow_succ, Nat.mod_mul_left_mod]
    simp only [List.cons_append, mono, ih, List.length_cons, h1, h2, h3, mul_assoc]

theorem interpolate_succ (n : Nat) (f : Nat → K) :
    interpolate (n + 1) f = interpLevel (2 ^ n) (interpolate n f) := by
  simp [interpolate, List.range_succ]

/-- The levels below `n` act separately on each block of `2 ^ n`. -/
theorem interpolate_shift (n : Nat) (f : Nat → K) (i : Nat) (b : Nat) :
    interpolate n f (i + 2 ^ n * b) = interpolate n (fun j => f (j + 2 ^ n * b)) i := by
  have key : ∀ (m : Nat), m ≤ n → ∀ i, interpolate m f (i + 2 ^ n * b) =
      interpolate m (fun j => f (j + 2 ^ n * b)) i := by
    intro m
    induction m with
    | zero => intro _ i; rfl
    | succ m ih =>
      intro hm i
      rw [interpolate_succ, interpolate_succ]
      unfold interpLevel
      have hd : (i + 2 ^ n * b) % (2 * 2 ^ m) = i % (2 * 2 ^ m) := by
        have : (2 : Nat) ^ n = 2 * 2 ^ m * 2 ^ (n - (m + 1)) := by
          rw [← pow_succ', ← pow_add]; congr 1; omega
        rw [this, mul_assoc, Nat.add_mul_mod_self_left]
      rw [hd]
      by_cases hc : 2 ^ m ≤ i % (2 * 2 ^ m)
      · have hle : 2 ^ m ≤ i := le_trans hc (Nat.mod_le _ _)
        rw [if_pos hc, if_pos hc, ih (by omega), 
          show i + 2 ^ n * b - 2 ^ m = (i - 2 ^ m) + 2 ^ n * b by omega, ih (by omega)]
      · rw [if_neg hc, if_neg hc, ih (by omega)]
  exact key n le_rfl i

theorem interpolate_congr (n : Nat) (f g : Nat → K) (h : ∀ i < 2 ^ n, f i = g i) (i : Nat)
    (hi : i < 2 ^ n) : interpolate n f i = interpolate n g i := by
  have key : ∀ m, ∀ i < 2 ^ n, interpolate m f i = interpolate m g i := by
    intro m
    induction m with
    | zero => exact h
    | succ m ih =>
      intro i hi
      rw [interpolate_succ, interpolate_succ, interpLevel, interpLevel, ih i hi]
      rw [ih (i - 2 ^ m) (Nat.lt_of_le_of_lt (Nat.sub_le _ _) hi)]
  exact key n i hi

theorem interpolate_spec (f : Nat → K) (r : List K) :
    ∑ i ∈ Finset.range (2 ^ r.length), interpolate r.length f i * mono r i = mle f r := by
  induction r using List.reverseRecOn generalizing f with
  | nil => simp [interpolate, mono, mle_nil]
  | append_singleton a x ih =>
    rw [mle_snoc]
    have hl : (a ++ [x]).length = a.length + 1 := by simp
    have hP : (0 : Nat) < 2 ^ a.length := by positivity
    rw [hl, pow_succ, mul_comm _ 2, sum_range_halves, interpolate_succ]
    have e1 : mle (fun i => f i + x • (f (2 ^ a.length + i) - f i)) a
        = mle f a + x * (mle (fun i => f (i + 2 ^ a.length * 1)) a - mle f a) := by
      unfold mle
      rw [← Finset.sum_sub_distrib, Finset.mul_sum, ← Finset.sum_add_distrib]
      refine Finset.sum_congr rfl fun i _ => ?_
      simp only [smul_eq_mul, mul_one, add_comm i]
      ring
    rw [e1, ← ih f, ← ih (fun i => f (i + 2 ^ a.length * 1)), ← Finset.sum_sub_distrib, Finset.mul_sum,
      ← Finset.sum_add_distrib]
    refine Finset.sum_congr rfl fun i hi => ?_
    have hi := Finset.mem_range.mp hi
    rw [mono_append, mono_append]
    have q1 : i % (2 * 2 ^ a.length) = i := Nat.mod_eq_of_lt (by omega)
    have q2 : (2 ^ a.length + i) % (2 * 2 ^ a.length) = 2 ^ a.length + i := Nat.mod_eq_of_lt (by omega)
    have q3 : (2 ^ a.length + i) / 2 ^ a.length = 1 := by
      rw [Nat.add_div_left _ hP, Nat.div_eq_of_lt hi]
    have q4 : interpolate a.length f (2 ^ a.length + i) = 
        interpolate a.length (fun j => f (j + 2 ^ a.length * 1)) i := by
      rw [← interpolate_shift a.length f i 1]; congr 1; ring
    unfold interpLevel
    rw [q1, q2, if_neg (by omega), if_pos (by omega), Nat.mod_eq_of_lt hi, Nat.div_eq_of_lt hi,
      Nat.add_mod_left, Nat.mod_eq_of_lt hi, q3, Nat.add_sub_cancel_left, q4]
    simp [mono, Nat.testBit_zero]
    ring

end JST.Gkr
