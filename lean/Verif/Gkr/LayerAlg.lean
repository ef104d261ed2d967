import Verif.Gkr.Rounds

/-!
# The algebra of one layer
-/

namespace JST.Gkr

open JST.Spec

variable {K : Type} [Field K]

/-! ### Sums over gates -/

section Delta

variable {V U G : Type} [AddCommMonoid V] [AddCommMonoid U]

theorem foldl_addAt (gs : List G) (o : G → Nat) (x : G → V) (init : Nat → V) (j : Nat) :
    gs.foldl (fun res g => addAt res (o g) (x g)) init j =
      init j + (gs.map fun g => if o g = j then x g else 0).sum := by
  induction gs generalizing init with
  | nil => simp
  | cons g gs ih =>
    rw [List.foldl_cons, ih, List.map_cons, List.sum_cons]
    simp only [addAt]
    by_cases h : j = o g
    · subst h; simp [add_assoc]
    · rw [if_neg h, if_neg (Ne.symm h), zero_add]

theorem sum_delta (N : Nat) (gs : List G) (o : G → Nat) (x : G → V) (φ : Nat → V →+ U)
    (ho : ∀ g ∈ gs, o g < N) :
    ∑ j ∈ Finset.range N, φ j (gs.map fun g => if o g = j then x g else 0).sum =
      (gs.map fun g => φ (o g) (x g)).sum := by
  induction gs with
  | nil => simp
  | cons g gs ih =>
    simp only [List.map_cons, List.sum_cons, map_add, Finset.sum_add_distrib]
    rw [ih fun g' h => ho g' (List.mem_cons_of_mem _ h)]
    congr 1
    rw [Finset.sum_eq_single (o g)]
    · rw [if_pos rfl]
    · intro j _ hj
      rw [if_neg (Ne.symm hj), map_zero]
    · intro h
      exact absurd (Finset.mem_range.mpr (ho g List.mem_cons_self)) h

end Delta

/-! ### Well-formed layers -/

/-- The wires of the gates are in range, and there are no unary gates. -/
structure Layer.WF (l : Layer K) : Prop where
  mul : ∀ g ∈ l.mul, g.o < 2 ^ l.outVars ∧ g.i0 < 2 ^ l.inVars ∧ g.i1 < 2 ^ l.inVars
  add : ∀ g ∈ l.add, g.o < 2 ^ l.outVars ∧ g.i < 2 ^ l.inVars
  cst : ∀ g ∈ l.cst, g.o < 2 ^ l.outVars
  uni : l.uni = []

/-! ### The layer's sum -/

/-- The outputs weighted by a table. -/
def weighted (n : Nat) (E : Nat → K) (out : Nat → Pack K) : Pack K :=
  ∑ o ∈ Finset.range (2 ^ n), E o • out o

theorem weighted_chi (n : Nat) (rz : List K) (h : rz.length = n) (out : Nat → Pack K) :
    weighted n (chi rz) out = mle out rz := by subst h; rfl

theorem weighted_congr (n : Nat) (E E' : Nat → K) (out : Nat → Pack K) (h : ∀ o < 2 ^ n, E o = E' o) :
    weighted n E out = weighted n E' out :=
  Finset.sum_congr rfl fun o ho => by rw [h o (Finset.mem_range.mp ho)]

theorem weighted_add (n : Nat) (E E' : Nat → K) (a : K) (out : Nat → Pack K) :
    weighted n (fun o => E o + a * E' o) out = weighted n E out + a • weighted n E' out := by
  simp only [weighted, add_smul, mul_smul, Finset.sum_add_distrib, Finset.smul_sum]

theorem evaluate_spec (l : Layer K) (hu : l.uni = []) (pub w : Nat → Pack K) (j : Nat) :
    l.evaluate pub w j =
      (l.mul.map fun g => if g.o = j then g.coef • (w g.i0 * w g.i1) else 0).sum +
      (l.add.map fun g => if g.o = j then g.coef • w g.i else 0).sum +
      (l.cst.map fun g => if g.o = j then g.val.eval pub else 0).sum := by
  simp only [Layer.evaluate, hu, List.foldl_nil]
  rw [foldl_addAt, foldl_addAt, foldl_addAt, zero_add]

theorem weighted_evaluate (l : Layer K) (hl : l.WF) (E : Nat → K) (pub w : Nat → Pack K) :
    weighted l.outVars E (l.evaluate pub w) =
      (l.mul.map fun g => (E g.o * g.coef) • (w g.i1 * w g.i0)).sum +
      (l.add.map fun g => (E g.o * g.coef) • w g.i).sum +
      (l.cst.map fun g => E g.o • g.val.eval pub).sum := by
  simp only [weighted, evaluate_spec l hl.uni, smul_add, Finset.sum_add_distrib]
  congr 1
  · congr 1
    · refine (sum_delta _ l.mul (fun g => g.o) (fun g => g.coef • (w g.i0 * w g.i1))
        (fun o => DistribSMul.toAddMonoidHom (Pack K) (E o)) fun g hg => (hl.mul g hg).1).trans ?_
      refine congrArg List.sum (List.map_congr_left fun g _ => ?_)
      simp only [DistribSMul.toAddMonoidHom_apply, smul_smul, mul_comm (w g.i0)]
    · refine (sum_delta _ l.add (fun g => g.o) (fun g => g.coef • w g.i)
        (fun o => DistribSMul.toAddMonoidHom (Pack K) (E o)) fun g hg => (hl.add g hg).1).trans ?_
      refine congrArg List.sum (List.map_congr_left fun g _ => ?_)
      simp only [DistribSMul.toAddMonoidHom_apply, smul_smul]
  · exact sum_delta _ l.cst (fun g => g.o) (fun g => g.val.eval pub)
        (fun o => DistribSMul.toAddMonoidHom (Pack K) (E o)) hl.cst

/-! ### Linear maps on packed values -/

theorem mle_add (f g : Nat → K) (r : List K) : mle (f + g) r = mle f r + mle g r := by
  simp [mle, mul_add, Finset.sum_add_distrib]

theorem mle_smul (a : K) (f : Nat → K) (r : List K) : mle (a • f) r = a * mle f r := by
  simp only [mle, Pi.smul_apply, smul_eq_mul, Finset.mul_sum]
  exact Finset.sum_congr rfl fun i _ => by ring

theorem mle_zero (r : List K) : mle (0 : Nat → K) r = 0 := by simp [mle]

theorem mle_list_sum {G : Type} (gs : List G) (x : G → Pack K) (r : List K) :
    mle (gs.map x).sum r = (gs.map fun g => mle (x g) r).sum := by
  induction gs with
  | nil => simp [mle_zero]
  | cons g gs ih => simp [mle_add, ih]

theorem mle_const (a : K) (r : List K) : mle (fun _ => a) r = a := by
  have := sum_chi r
  simp only [mle, smul_eq_mul, ← Finset.sum_mul, this, one_mul]

/-- The constant part of the verifier is the constant gates' contribution. -/
theorem evalCst_spec (s : Nat) (gates : List (CstGate K)) (pub : Nat → Pack K) (E t : Nat → K)
    (rs : List K) (hs : rs.length = s) (ht : ∀ l < 2 ^ s, t l = chi rs l) :
    evalCst s gates pub E t = mle (gates.map fun g => E g.o • g.val.eval pub).sum rs := by
  rw [mle_list_sum, evalCst]
  refine congrArg List.sum (List.map_congr_left fun g _ => ?_)
  rw [mle_smul]
  cases g.val with
  | coef c => simp only [CstVal.eval]; rw [mle_const]
  | pub idx => simp only [CstVal.eval]; rw [combine_congr s _ _ _ ht, combine_chi s _ _ hs]

/-! ### The tables of the two phases -/

/-- The table of phase one: what each input wire is multiplied by. -/
def hgX (l : Layer K) (w : Nat → Pack K) (E : Nat → K) (j : Nat) : Pack K :=
  (l.mul.map fun g => if g.i0 = j then (E g.o * g.coef) • w g.i1 else 0).sum +
  (l.add.map fun g => if g.i = j then (fun _ => E g.o * g.coef : Pack K) else 0).sum

/-- The table of phase two. -/
def hgY (l : Layer K) (E X : Nat → K) (j : Nat) : Pack K :=
  (l.mul.map fun g => if g.i1 = j then (fun _ => E g.o * X g.i0 * g.coef : Pack K) else 0).sum

theorem dotSum_hgX (l : Layer K) (hl : l.WF) (w : Nat → Pack K) (E : Nat → K) :
    dotSum l.inVars (hgX l w E) w =
      (l.mul.map fun g => (E g.o * g.coef) • (w g.i1 * w g.i0)).sum +
      (l.add.map fun g => (E g.o * g.coef) • w g.i).sum := by
  simp only [dotSum, hgX, add_mul, Finset.sum_add_distrib]
  congr 1
  · refine (sum_delta _ l.mul (fun g => g.i0) (fun g => (E g.o * g.coef) • w g.i1)
      (fun j => AddMonoidHom.mulRight (w j)) fun g hg => (hl.mul g hg).2.1).trans ?_
    refine congrArg List.sum (List.map_congr_left fun g _ => ?_)
    simp only [AddMonoidHom.mulRight_apply, smul_mul_assoc]
  · refine (sum_delta _ l.add (fun g => g.i) (fun g => (fun _ => E g.o * g.coef : Pack K))
      (fun j => AddMonoidHom.mulRight (w j)) fun g hg => (hl.add g hg).2).trans ?_
    refine congrArg List.sum (List.map_congr_left fun g _ => ?_)
    funext k
    simp

/-- The claim of the rounds of phase one. -/
theorem layer_sum (s : Nat) (l : Layer K) (hl : l.WF) (pub w : Nat → Pack K) (E t : Nat → K) (rs : List K)
    (hs : rs.length = s) (ht : ∀ k < 2 ^ s, t k = chi rs k) :
    mle (weighted l.outVars E (l.evaluate pub w)) rs - evalCst s l.cst pub E t =
      combine s (dotSum l.inVars (hgX l w E) w) (chi rs) := by
  rw [weighted_evaluate l hl, evalCst_spec s l.cst pub E t rs hs ht, mle_add, add_sub_cancel_right,
    combine_chi s _ _ hs, dotSum_hgX l hl]

theorem mle_hgX (l : Layer K) (hl : l.WF) (w : Nat → Pack K) (E : Nat → K) (rx : List K)
    (hx : rx.length = l.inVars) :
    mle (hgX l w E) rx =
      (l.mul.map fun g => (E g.o * g.coef * chi rx g.i0) • w g.i1).sum +
      (l.add.map fun g => (fun _ => E g.o * g.coef * chi rx g.i : Pack K)).sum := by
  simp only [mle, hgX, smul_add, Finset.sum_add_distrib]
  congr 1
  · refine (sum_delta _ l.mul (fun g => g.i0) (fun g => (E g.o * g.coef) • w g.i1)
      (fun j => DistribSMul.toAddMonoidHom (Pack K) (chi rx j))
      fun g hg => by rw [hx]; exact (hl.mul g hg).2.1).trans ?_
    refine congrArg List.sum (List.map_congr_left fun g _ => ?_)
    simp only [DistribSMul.toAddMonoidHom_apply, smul_smul, mul_comm (chi rx g.i0)]
  · refine (sum_delta _ l.add (fun g => g.i) (fun g => (fun _ => E g.o * g.coef : Pack K))
      (fun j => DistribSMul.toAddMonoidHom (Pack K) (chi rx j))
      fun g hg => by rw [hx]; exact (hl.add g hg).2).trans ?_
    refine congrArg List.sum (List.map_congr_left fun g _ => ?_)
    funext k
    simp only [DistribSMul.toAddMonoidHom_apply, Pi.smul_apply, smul_eq_mul, mul_comm (chi rx g.i)]

/-- The phase-one table at the challenges, as add part and mul part. -/
theorem mle_mle_hgX (l : Layer K) (hl : l.WF) (w : Nat → Pack K) (E : Nat → K) (rx rs : List K)
    (hx : rx.length = l.inVars) :
    mle (mle (hgX l w E) rx) rs =
      (l.mul.map fun g => E g.o * chi rx g.i0 * g.coef * mle (w g.i1) rs).sum +
      (l.add.map fun g => E g.o * chi rx g.i * g.coef).sum := by
  rw [mle_hgX l hl w E rx hx, mle_add, mle_list_sum, mle_list_sum]
  congr 1
  · refine congrArg List.sum (List.map_congr_left fun g _ => ?_)
    rw [mle_smul]; ring
  · refine congrArg List.sum (List.map_congr_left fun g _ => ?_)
    rw [mle_const]; ring

theorem dotSum_hgY (l : Layer K) (hl : l.WF) (w : Nat → Pack K) (E X : Nat → K) :
    dotSum l.inVars (hgY l E X) w = (l.mul.map fun g => (E g.o * X g.i0 * g.coef) • w g.i1).sum := by
  simp only [dotSum, hgY]
  refine (sum_delta _ l.mul (fun g => g.i1) (fun g => (fun _ => E g.o * X g.i0 * g.coef : Pack K))
      (fun j => AddMonoidHom.mulRight (w j)) fun g hg => (hl.mul g hg).2.2).trans ?_
  refine congrArg List.sum (List.map_congr_left fun g _ => ?_)
  funext k
  simp

/-- The claim of the rounds of phase two. -/
theorem mle_dotSum_hgY (l : Layer K) (hl : l.WF) (w : Nat → Pack K) (E X : Nat → K) (rs : List K) :
    mle (dotSum l.inVars (hgY l E X) w) rs =
      (l.mul.map fun g => E g.o * X g.i0 * g.coef * mle (w g.i1) rs).sum := by
  rw [dotSum_hgY l hl, mle_list_sum]
  exact congrArg List.sum (List.map_congr_left fun g _ => mle_smul _ _ _)

theorem list_sum_apply {G : Type} (gs : List G) (x : G → Pack K) (k : Nat) :
    (gs.map x).sum k = (gs.map fun g => x g k).sum := by
  induction gs with
  | nil => simp
  | cons g gs ih => simp [ih]

theorem mle_hgY (l : Layer K) (hl : l.WF) (E X : Nat → K) (ry : List K) (hy : ry.length = l.inVars) :
    mle (hgY l E X) ry =
      fun _ => (l.mul.map fun g => E g.o * (X g.i0 * chi ry g.i1 * g.coef)).sum := by
  simp only [mle, hgY]
  refine (sum_delta _ l.mul (fun g => g.i1) (fun g => (fun _ => E g.o * X g.i0 * g.coef : Pack K))
      (fun j => DistribSMul.toAddMonoidHom (Pack K) (chi ry j))
      fun g hg => by rw [hy]; exact (hl.mul g hg).2.2).trans ?_
  funext k
  rw [list_sum_apply]
  refine congrArg List.sum (List.map_congr_left fun g _ => ?_)
  simp only [DistribSMul.toAddMonoidHom_apply, Pi.smul_apply, smul_eq_mul]
  ring

/-! ### The prover's buffers hold the tables -/

theorem foldl_update_ge {G : Type} (gs : List G) (f : G → Nat) (ge : Nat → Bool) (j : Nat) :
    gs.foldl (fun ge g => Function.update ge (f g) true) ge j = (ge j || gs.any fun g => f g == j) := by
  induction gs generalizing ge with
  | nil => simp
  | cons g gs ih =>
    rw [List.foldl_cons, ih, List.any_cons]
    by_cases h : j = f g
    · subst h; simp
    · have : (f g == j) = false := by simp [Ne.symm h]
      rw [Function.update_of_ne h, this, Bool.false_or]

theorem sum_eq_zero_of_any {G V : Type} [AddCommMonoid V] (gs : List G) (f : G → Nat) (x : G → V) (j : Nat)
    (h : (gs.any fun g => f g == j) = false) : (gs.map fun g => if f g = j then x g else 0).sum = 0 := by
  induction gs with
  | nil => simp
  | cons g gs ih =>
    rw [List.any_cons, Bool.or_eq_false_iff] at h
    have : f g ≠ j := by simpa using h.1
    simp [this, ih h.2]

theorem prepareX_hg (l : Layer K) (w : Nat → Pack K) (E : Nat → K) (b : Bufs K) (j : Nat)
    (hj : j < 2 ^ l.inVars) : (prepareX l w E b).hg j = hgX l w E j := by
  simp only [prepareX, hgX]
  rw [foldl_addAt, foldl_addAt, if_pos hj, zero_add]

theorem prepareX_ge (l : Layer K) (w : Nat → Pack K) (E : Nat → K) (b : Bufs K) :
    GeOk (2 ^ l.inVars) (prepareX l w E b) := by
  intro j hj h
  rw [prepareX_hg l w E b j hj, hgX]
  simp only [prepareX] at h
  rw [foldl_update_ge, foldl_update_ge, if_pos hj, Bool.or_eq_false_iff, Bool.false_or] at h
  rw [sum_eq_zero_of_any _ _ _ _ h.1, sum_eq_zero_of_any _ _ _ _ h.2, add_zero]

theorem prepareY_hg (l : Layer K) (E X : Nat → K) (b : Bufs K) (j : Nat)
    (hj : j < 2 ^ l.inVars) : (prepareY l E X b).hg j = hgY l E X j := by
  simp only [prepareY, hgY]
  rw [foldl_addAt, if_pos hj, zero_add]

theorem prepareY_ge (l : Layer K) (E X : Nat → K) (b : Bufs K) :
    GeOk (2 ^ l.inVars) (prepareY l E X b) := by
  intro j hj h
  rw [prepareY_hg l E X b j hj, hgY]
  simp only [prepareY] at h
  rw [foldl_update_ge, if_pos hj, Bool.false_or] at h
  rw [sum_eq_zero_of_any _ _ _ _ h]

end JST.Gkr
