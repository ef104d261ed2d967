import Verif.Compiler.Root

/-!
# Which expressions the builder computes

The expressions of a variable, of its negation, and of their products with a constant: syntactic
facts, used to follow the mark which overwrites an assertion.
-/

namespace JST.Comp

open JST.Circ

variable {F : Type} [Field F] [DecidableEq F]

/-- The expression `1 - x`. -/
def notx (j : Nat) : Expr F := [⟨1, .const⟩, ⟨-1, .lin j⟩]

/-- The expression `x^2 - x`. -/
def bcx (j : Nat) : Expr F := [⟨-1, .lin j⟩, ⟨1, .quad j j⟩]

theorem const_lt_lin (j : Nat) : (VarSpec.const : VarSpec) < .lin j := by
  show VarSpec.key _ < VarSpec.key _
  simp [VarSpec.key, Prod.Lex.toLex_lt_toLex]

theorem lin_lt_quad (j k l : Nat) : (VarSpec.lin j : VarSpec) < .quad k l := by
  show VarSpec.key _ < VarSpec.key _
  simp [VarSpec.key, Prod.Lex.toLex_lt_toLex]

theorem not_lin_lt_const (j : Nat) : ¬ (VarSpec.lin j : VarSpec) < .const :=
  not_lt.2 (const_lt_lin j).le

theorem lin_le_quad (j k l : Nat) : (VarSpec.lin j : VarSpec) ≤ .quad k l := (lin_lt_quad j k l).le

theorem not_quad_le_lin (j k l : Nat) : ¬ (VarSpec.quad k l : VarSpec) ≤ .lin j :=
  not_le.2 (lin_lt_quad j k l)

/-! ## Linear combinations -/

theorem lin_sub_one_x (P : Pool F) (j : Nat) :
    linCombInner P [(newLinear 1 j, 1), (newConst 1, -1)] =
      some ([⟨-1, .const⟩, ⟨1, .lin j⟩], P) := by
  simp [linCombInner, linOperands, newLinear, newConst, compressThresholdAdd, kmerge, popMin,
    const_lt_lin, not_lin_lt_const, pushTerm, fromTermsSorted, strictly, VarSpec.isNormalized]

theorem lin_sub_one_not (P : Pool F) (j : Nat) :
    linCombInner P [(notx j, 1), (newConst 1, -1)] = some ([⟨-1, .lin j⟩], P) := by
  simp [linCombInner, linOperands, notx, newConst, compressThresholdAdd, kmerge, popMin,
    const_lt_lin, not_lin_lt_const, pushTerm, fromTermsSorted, strictly, VarSpec.isNormalized]

theorem lin_one_sub_x (P : Pool F) (j : Nat) :
    linCombInner P [(newConst 1, 1), (newLinear 1 j, -1)] = some (notx j, P) := by
  simp [linCombInner, linOperands, notx, newLinear, newConst, compressThresholdAdd, kmerge, popMin,
    const_lt_lin, not_lin_lt_const, pushTerm, fromTermsSorted, strictly, VarSpec.isNormalized]

theorem lin_one_sub_not (P : Pool F) (j : Nat) :
    linCombInner P [(newConst 1, 1), (notx j, -1)] = some (newLinear 1 j, P) := by
  simp [linCombInner, linOperands, notx, newLinear, newConst, compressThresholdAdd, kmerge, popMin,
    const_lt_lin, not_lin_lt_const, pushTerm, fromTermsSorted, strictly, VarSpec.isNormalized]

theorem lin_add_zero (P : Pool F) (j : Nat) :
    linCombInner P [(newLinear 1 j, 1), (newConst 0, 1)] = some (newLinear 1 j, P) := by
  simp [linCombInner, linOperands, newLinear, newConst, compressThresholdAdd, kmerge, popMin,
    const_lt_lin, not_lin_lt_const, pushTerm, fromTermsSorted, strictly, VarSpec.isNormalized]

theorem lin_add_one (P : Pool F) (j : Nat) :
    linCombInner P [(newLinear 1 j, 1), (newConst 1, 1)] =
      some ([⟨1, .const⟩, ⟨1, .lin j⟩], P) := by
  simp [linCombInner, linOperands, newLinear, newConst, compressThresholdAdd, kmerge, popMin,
    const_lt_lin, not_lin_lt_const, pushTerm, fromTermsSorted, strictly, VarSpec.isNormalized]

theorem lin_xor_zero (P : Pool F) (j : Nat) (h2 : (1 + 1 : F) ≠ 0) :
    linCombInner P [(newLinear 1 j, 1), (zeroExpr, -(1 + 1))] = some (newLinear 1 j, P) := by
  have h2' : (-1 + -1 : F) ≠ 0 := by
    intro h; apply h2; linear_combination -h
  simp [linCombInner, linOperands, newLinear, zeroExpr, compressThresholdAdd, kmerge, popMin,
    const_lt_lin, not_lin_lt_const, pushTerm, fromTermsSorted, strictly, VarSpec.isNormalized, h2,
    h2']

theorem lin_xor_one (P : Pool F) (j : Nat) (h2 : (1 + 1 : F) ≠ 0) :
    linCombInner P [([⟨1, .const⟩, ⟨1, .lin j⟩], 1), (newLinear 1 j, -(1 + 1))] =
      some (notx j, P) := by
  have h2' : (-1 + -1 : F) ≠ 0 := by
    intro h; apply h2; linear_combination -h
  have h3 : (1 + (-1 + -1) : F) = -1 := by ring
  simp [linCombInner, linOperands, newLinear, notx, compressThresholdAdd, kmerge, popMin,
    const_lt_lin, not_lin_lt_const, pushTerm, fromTermsSorted, strictly, VarSpec.isNormalized, h2,
    h2', h3]

/-! ## Products -/

theorem mul_x_xm (P : Pool F) (j : Nat) :
    mulTwo P (newLinear 1 j) [⟨-1, .const⟩, ⟨1, .lin j⟩] = some (bcx j, P) := by
  simp [mulTwo, newLinear, degree, VarSpec.isQuad, VarSpec.isLin, lowerDeg, compressPair,
    compressThresholdMul, mulRows, mulTerms, Term.mul, VarSpec.mul, fromTerms, Term.normalize,
    VarSpec.normalize, lin_le_quad, compress, mergeAdj, linCombInner, mulConstant,
    fromTermsSorted, strictly, VarSpec.isNormalized, lin_lt_quad, bcx]

theorem mul_xm_x (P : Pool F) (j : Nat) :
    mulTwo P [⟨-1, .const⟩, ⟨1, .lin j⟩] (newLinear 1 j) = some (bcx j, P) := by
  simp [mulTwo, newLinear, degree, VarSpec.isQuad, VarSpec.isLin, lowerDeg, compressPair,
    compressThresholdMul, mulRows, mulTerms, Term.mul, VarSpec.mul, fromTerms, Term.normalize,
    VarSpec.normalize, lin_le_quad, compress, mergeAdj, linCombInner, mulConstant,
    fromTermsSorted, strictly, VarSpec.isNormalized, lin_lt_quad, bcx]

theorem mul_not_nm (P : Pool F) (j : Nat) :
    mulTwo P (notx j) [⟨-1, .lin j⟩] = some (bcx j, P) := by
  simp [mulTwo, notx, degree, VarSpec.isQuad, VarSpec.isLin, lowerDeg, compressPair,
    compressThresholdMul, mulRows, mulTerms, Term.mul, VarSpec.mul, fromTerms, Term.normalize,
    VarSpec.normalize, lin_le_quad, compress, mergeAdj, linCombInner, mulConstant,
    fromTermsSorted, strictly, VarSpec.isNormalized, lin_lt_quad, bcx]

theorem mul_nm_not (P : Pool F) (j : Nat) :
    mulTwo P [⟨-1, .lin j⟩] (notx j) = some (bcx j, P) := by
  simp [mulTwo, notx, degree, VarSpec.isQuad, VarSpec.isLin, lowerDeg, compressPair,
    compressThresholdMul, mulRows, mulTerms, Term.mul, VarSpec.mul, fromTerms, Term.normalize,
    VarSpec.normalize, lin_le_quad, compress, mergeAdj, linCombInner, mulConstant,
    fromTermsSorted, strictly, VarSpec.isNormalized, lin_lt_quad, bcx]

theorem mul_x_const (P : Pool F) (j : Nat) (c : F) :
    mulTwo P (newLinear 1 j) (newConst c) =
      some (if c = 0 then zeroExpr else newLinear c j, P) := by
  by_cases h : c = 0
  · simp [mulTwo, newLinear, newConst, degree, VarSpec.isQuad, VarSpec.isLin, constantValue,
      mulConstant, h]
  · simp [mulTwo, newLinear, newConst, degree, VarSpec.isQuad, VarSpec.isLin, constantValue,
      mulConstant, h, fromTermsSorted, strictly, VarSpec.isNormalized]

theorem mul_const_x (P : Pool F) (j : Nat) (c : F) :
    mulTwo P (newConst c) (newLinear 1 j) =
      some (if c = 0 then zeroExpr else newLinear c j, P) := by
  by_cases h : c = 0
  · simp [mulTwo, newLinear, newConst, degree, VarSpec.isQuad, VarSpec.isLin, constantValue,
      mulConstant, h]
  · simp [mulTwo, newLinear, newConst, degree, VarSpec.isQuad, VarSpec.isLin, constantValue,
      mulConstant, h, fromTermsSorted, strictly, VarSpec.isNormalized]

/-! ## What an instruction adds -/

theorem setLast_same {b b' : B F} {i : OInsn F} (h : setLast b i = .ok b') :
    b'.exprs = b.exprs ∧ b'.cons = b.cons := by
  unfold setLast at h
  split_ifs at h
  cases h; exact ⟨rfl, rfl⟩

theorem fixOne_same {n id : Nat} {b b' : B F} (h : fixOne n id b = .ok b') :
    b'.exprs = b.exprs ∧ b'.cons = b.cons := by
  unfold fixOne at h
  simp only [bind, Except.bind] at h
  cases he : b.exprs[id]? with
  | none => rw [he] at h; cases h
  | some e =>
      rw [he] at h
      simp only [orPanic] at h
      cases hs : toSingleStripped b.pool e with
      | none => rw [hs] at h; cases h
      | some v =>
          obtain ⟨⟨eid, coef, c⟩, P⟩ := v
          rw [hs] at h
          simp only at h
          split_ifs at h
          · have k := setLast_same h
            exact k
          all_goals
            split at h
            · cases h
            · first
                | (have k := setLast_same h; exact k)
                | cases h
            · split at h
              · cases h
              · cases h; exact ⟨rfl, rfl⟩

theorem fixLoop_same {n : Nat} : ∀ {l : List Nat} {b b' : B F}, fixLoop n l b = .ok b' →
    b'.exprs = b.exprs ∧ b'.cons = b.cons
  | [], b, b', h => by cases h; exact ⟨rfl, rfl⟩
  | id :: r, b, b', h => by
      unfold fixLoop at h
      simp only [bind, Except.bind] at h
      cases h1 : fixOne n id b with
      | error e => rw [h1] at h; cases h
      | ok b1 =>
          rw [h1] at h
          have k1 := fixLoop_same h
          have k2 := fixOne_same h1
          exact ⟨k1.1.trans k2.1, k1.2.trans k2.2⟩

theorem push_const_exprs (cfg : Cfg F) {c : F} {b b' : B F} {z : Nat}
    (h : pushConst cfg c b = .ok (z, b')) : b'.exprs = b.exprs ++ [newConst c] := by
  unfold pushConst push at h
  simp only [executeOut, addConst] at h
  split at h
  · rename_i b1 h1
    cases h
    exact (fixLoop_same h1).1
  · cases h

theorem push_lin2_exprs (cfg : Cfg F) {x y : Nat} {k l : F} {b b' : B F} {z : Nat}
    {e1 e2 e : Expr F} {P : Pool F}
    (h : push cfg (.linComb ⟨[(x, k), (y, l)], 0⟩) b = .ok (z, b'))
    (hx : b.exprs[x]? = some e1) (hy : b.exprs[y]? = some e2)
    (hl : linCombInner b.pool [(e1, k), (e2, l)] = some (e, P)) : b'.exprs = b.exprs ++ [e] := by
  unfold push at h
  simp only [executeOut, addLinComb, List.map_cons, List.map_nil, getExprs, hx, hy, orPanic,
    Option.bind_eq_bind, Option.bind_some, bind, Except.bind, List.zip_cons_cons, List.zip_nil_right,
    if_true, List.append_nil, hl] at h
  split at h
  · rename_i b1 h1
    cases h
    exact (fixLoop_same h1).1
  · cases h

theorem push_mul_exprs (cfg : Cfg F) {x y : Nat} {b b' : B F} {z : Nat}
    {e1 e2 e : Expr F} {P : Pool F} (h : pushMul cfg x y b = .ok (z, b'))
    (hx : b.exprs[x]? = some e1) (hy : b.exprs[y]? = some e2)
    (h12 : mulTwo b.pool e1 e2 = some (e, P)) (h21 : mulTwo b.pool e2 e1 = some (e, P)) :
    b'.exprs = b.exprs ++ [e] := by
  unfold pushMul push at h
  simp only [executeOut, addMulVec, List.length_cons, List.length_nil, getExprs, hx, hy, orPanic,
    Option.bind_eq_bind, Option.bind_some, bind, Except.bind, List.insertionSort_cons,
    List.insertionSort_nil, List.orderedInsert] at h
  rw [if_neg (by omega)] at h
  by_cases hle : cfg.le e1 e2 = true
  · simp only [hle, if_true, h12, mulMany] at h
    split at h
    · rename_i b1 h1
      cases h
      exact (fixLoop_same h1).1
    · cases h
  · simp only [hle, Bool.false_eq_true, if_false, h21, mulMany] at h
    split at h
    · rename_i b1 h1
      cases h
      exact (fixLoop_same h1).1
    · cases h

theorem push_hint_exprs (cfg : Cfg F) {N : Nat} {b b' : B F} (hi : Inv N b) {id n z : Nat}
    {xs : List Nat} (h : push cfg (.hint id xs n) b = .ok (z, b')) :
    b'.exprs = b.exprs ++ fresh b.pool.length n := by
  unfold push at h
  simp only [executeOut, addOutVars] at h
  obtain ⟨h1, -⟩ := newVars_ok n { b with insns := b.insns ++ [OInsn.hint id xs n] } hi.wf.pool
  rw [h1] at h
  simp only [bind, Except.bind] at h
  split at h
  · rename_i b1 h1
    cases h
    exact (fixLoop_same h1).1
  · cases h

theorem snoc_get {α : Type} {l l' : List α} {x : α} (h : l' = l ++ [x]) : l'[l.length]? = some x := by
  rw [h]; simp

theorem snoc_prefix {α : Type} {l l' : List α} {x : α} (h : l' = l ++ [x]) : l <+: l' :=
  ⟨_, h.symm⟩

/-- The variable `x` is the intermediate variable `j`, or its negation. -/
def Lit (j : Nat) (b : B F) (x : Nat) : Prop :=
  b.exprs[x]? = some (newLinear 1 j) ∨ b.exprs[x]? = some (notx j)

theorem Lit.prefix {j x : Nat} {b b' : B F} (h : b.exprs <+: b'.exprs) (hl : Lit j b x) :
    Lit j b' x := hl.imp (get?_prefix h) (get?_prefix h)

/-- `bool_cond` of a variable and of its negation is the same expression. -/
theorem boolCond_lit (cfg : Cfg F) {j x t : Nat} {b b' : B F} (hl : Lit j b x)
    (h : boolCond cfg x b = .ok (t, b')) (ht : t = b.exprs.length + 2) :
    b'.exprs[t]? = some (bcx j) := by
  unfold boolCond pushSub at h
  cases h1 : pushConst cfg 1 b with
  | error e => rw [bind_err h1] at h; cases h
  | ok v1 =>
      obtain ⟨o, b1⟩ := v1
      rw [bind_ok h1] at h
      have p1 := push_const_exprs cfg h1
      have ho : o = b.exprs.length := by
        unfold pushConst push at h1
        split at h1
        · rename_i c hc
          cases h1
          rw [p1]; simp [OInsn.numOut]
        · cases h1
      subst ho
      have g1 : b1.exprs[b.exprs.length]? = some (newConst 1) := snoc_get p1
      cases h2 : push cfg (.linComb ⟨[(x, 1), (b.exprs.length, -1)], 0⟩) b1 with
      | error e => rw [bind_err h2] at h; cases h
      | ok v2 =>
          obtain ⟨m, b2⟩ := v2
          rw [bind_ok h2] at h
          have key : ∀ e f : Expr F, b1.exprs[x]? = some e →
              linCombInner b1.pool [(e, 1), (newConst 1, -1)] = some (f, b1.pool) →
              (∀ P : Pool F, mulTwo P e f = some (bcx j, P) ∧ mulTwo P f e = some (bcx j, P)) →
              b'.exprs[t]? = some (bcx j) := by
            intro e f he hf hm
            have p2 := push_lin2_exprs cfg h2 he g1 hf
            have hmv : m = b1.exprs.length := by
              unfold push at h2
              split at h2
              · cases h2
                rw [p2]; simp [OInsn.numOut]
              · cases h2
            subst hmv
            have p3 := push_mul_exprs cfg h (get?_prefix (snoc_prefix p2) he) (snoc_get p2)
              (hm b2.pool).1 (hm b2.pool).2
            have : t = b2.exprs.length := by rw [ht, p2, p1]; simp
            rw [this]; exact snoc_get p3
          rcases hl with hl | hl
          · exact key _ _ (get?_prefix (snoc_prefix p1) hl) (lin_sub_one_x _ _)
              fun P => ⟨mul_x_xm P j, mul_xm_x P j⟩
          · exact key _ _ (get?_prefix (snoc_prefix p1) hl) (lin_sub_one_not _ _)
              fun P => ⟨mul_not_nm P j, mul_nm_not P j⟩

end JST.Comp
