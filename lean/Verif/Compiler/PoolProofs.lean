import Verif.Compiler.ExprProofs

/-!
# The pool of intermediate variables, linear combinations and products
-/

namespace JST.Comp

variable {F : Type*} [Field F] [DecidableEq F]

/-- Index 0 holds the invalid expression, no expression occurs twice, and the expression of a
variable is the variable itself (a variable which stands for an out variable) or mentions only
earlier variables. -/
structure PoolWF (P : Pool F) : Prop where
  head : P[0]? = some []
  nodup : P.Nodup
  entry : ∀ (j : Nat) (e : Expr F), 1 ≤ j → P[j]? = some e →
    e ≠ [] ∧ (e = newLinear 1 j ∨ ∀ t ∈ e, t.vars.Below j)

/-- An assignment of the mid variables in which every variable has the value of its expression. -/
def PoolOk (P : Pool F) (m : Nat → F) : Prop :=
  ∀ (j : Nat) (e : Expr F), 1 ≤ j → P[j]? = some e → Expr.eval m e = m j

theorem PoolWF.length_pos {P : Pool F} (h : PoolWF P) : 1 ≤ P.length := by
  have := h.head
  cases P with
  | nil => cases this
  | cons _ _ => simp

theorem PoolOk.prefix {P P' : Pool F} (h : P <+: P') {m : Nat → F} (hm : PoolOk P' m) :
    PoolOk P m := by
  obtain ⟨q, rfl⟩ := h
  intro j e hj he
  refine hm j e hj ?_
  rw [List.getElem?_append_left (by
    by_contra hlt
    rw [List.getElem?_eq_none (by omega)] at he
    cases he)]
  exact he

theorem PoolWF.push {P : Pool F} (h : PoolWF P) {e : Expr F} (hne : e ≠ []) (hnew : e ∉ P)
    (hb : e = newLinear 1 P.length ∨ ∀ t ∈ e, t.vars.Below P.length) : PoolWF (P ++ [e]) := by
  have hp := h.length_pos
  refine ⟨?_, ?_, ?_⟩
  · rw [List.getElem?_append_left (by omega)]; exact h.head
  · rw [List.nodup_append]
    refine ⟨h.nodup, by simp, ?_⟩
    intro a ha b hb hab
    simp only [List.mem_singleton] at hb
    subst hb; subst hab; exact hnew ha
  · intro j d hj hd
    by_cases hlt : j < P.length
    · rw [List.getElem?_append_left hlt] at hd
      exact h.entry j d hj hd
    · rw [List.getElem?_append_right (by omega)] at hd
      by_cases hjl : j = P.length
      · subst hjl
        simp only [Nat.sub_self, List.getElem?_cons_zero, Option.some.injEq] at hd
        subst hd
        exact ⟨hne, hb⟩
      · rw [List.getElem?_eq_none (by simp; omega)] at hd
        cases hd

theorem Pool.add_ok {P : Pool F} (h : PoolWF P) {e : Expr F} (hne : e ≠ [])
    (hb : ∀ t ∈ e, t.vars.Below P.length) :
    P <+: (P.add e).2 ∧ PoolWF (P.add e).2 ∧ 1 ≤ (P.add e).1 ∧ (P.add e).1 < (P.add e).2.length ∧
      (P.add e).2[(P.add e).1]? = some e := by
  unfold Pool.add
  split_ifs with hm
  · have hlt : P.idxOf e < P.length := List.idxOf_lt_length_iff.2 hm
    have hget : P[P.idxOf e]? = some e := List.getElem?_idxOf hm
    refine ⟨List.prefix_refl _, h, ?_, hlt, hget⟩
    by_contra h0
    have : P.idxOf e = 0 := by omega
    rw [this, h.head] at hget
    exact hne (Option.some.inj hget).symm
  · exact ⟨List.prefix_append _ _, h.push hne hm (Or.inr hb), h.length_pos, by simp, by simp⟩

/-- What an operation which may extend the pool returns: a well-formed expression whose value is
`val`, for every assignment of the mid variables which respects the new pool. -/
structure Returns (P : Pool F) (r : Expr F) (P' : Pool F) (val : (Nat → F) → F) : Prop where
  ext : P <+: P'
  pool : PoolWF P'
  wf : Expr.WF P'.length r
  eval : ∀ m, PoolOk P' m → Expr.eval m r = val m

theorem Returns.len {P P' : Pool F} {r : Expr F} {val : (Nat → F) → F} (h : Returns P r P' val) :
    P.length ≤ P'.length := h.ext.length_le

theorem unstripSingle_ok {L vid : Nat} (h1 : 1 ≤ vid) (h2 : vid < L) {k c : F} (hk : k ≠ 0) :
    ∃ r, unstripSingle vid k c = some r ∧ Expr.WF L r ∧ degree r ≤ 1 ∧
      ∀ m : Nat → F, Expr.eval m r = k * m vid + c := by
  unfold unstripSingle
  rw [if_neg (by omega)]
  refine ⟨_, rfl, fromTerms_wf ?_, ?_, ?_⟩
  · intro t ht
    rcases List.mem_cons.1 ht with rfl | ht
    · exact ⟨h1, h2⟩
    · split_ifs at ht
      · cases ht
      · simp only [List.mem_singleton] at ht
        subst ht; trivial
  · have : degree (fromTerms (⟨k, .lin vid⟩ :: if c = 0 then [] else [⟨c, .const⟩])) < 2 := by
      rw [degree_lt_two_iff]
      intro t ht x y hv
      unfold fromTerms compress at ht
      dsimp only at ht
      split_ifs at ht with ha hb hb
      · simp only [zeroExpr, List.mem_singleton] at ht
        subst ht; cases hv
      · obtain ⟨s, hs, he⟩ := mergeAdj_vars _ t (List.mem_of_mem_filter ht)
        rw [(List.perm_insertionSort _ _).mem_iff] at hs
        simp only [List.map_cons, List.map_nil, List.mem_singleton] at hs
        subst hs
        rw [he] at hv; cases hv
      · simp only [zeroExpr, List.mem_singleton] at ht
        subst ht; cases hv
      · obtain ⟨s, hs, he⟩ := mergeAdj_vars _ t (List.mem_of_mem_filter ht)
        rw [(List.perm_insertionSort _ _).mem_iff] at hs
        simp only [List.map_cons, List.map_nil, List.mem_cons, List.not_mem_nil, or_false] at hs
        rcases hs with rfl | rfl <;> (rw [he] at hv; cases hv)
    omega
  · intro m
    rw [fromTerms_eval, Expr.eval_cons]
    split_ifs with hc
    · rw [Expr.eval_nil, hc]; simp [Term.eval, VarSpec.eval]
    · rw [Expr.eval_cons, Expr.eval_nil]; simp [Term.eval, VarSpec.eval]

theorem toSingle_ok {P : Pool F} (h : PoolWF P) {e : Expr F} (he : Expr.WF P.length e) :
    ∃ r P', toSingle P e = some (r, P') ∧ Returns P r P' (fun m => Expr.eval m e) ∧
      degree r ≤ 1 := by
  obtain ⟨s, k, c, hs, hwf, hev, hcase⟩ := stripConstants_ok he
  unfold toSingle
  rw [hs]
  simp only [Option.bind_eq_bind, Option.bind_some]
  by_cases hsmall : s.length = 1 ∧ degree s ≤ 1
  · rw [if_pos hsmall]
    refine ⟨_, _, rfl, ⟨List.prefix_refl _, h, he, fun _ _ => rfl⟩, ?_⟩
    rcases hcase with ⟨h0, -⟩ | ⟨-, -, -, hd, -⟩
    · omega
    · omega
  · rw [if_neg hsmall]
    rcases hcase with ⟨-, rfl, -⟩ | ⟨-, -, hk, -, -, -⟩
    · exact absurd ⟨rfl, by simp [degree, zeroExpr, VarSpec.isQuad, VarSpec.isLin]⟩ hsmall
    · obtain ⟨hp, hpw, h1, h2, hget⟩ := Pool.add_ok h hwf.ne hwf.below
      obtain ⟨r, hr, hrw, hrd, hre⟩ := unstripSingle_ok (c := c) h1 h2 hk
      rw [hr]
      refine ⟨_, _, rfl, ⟨hp, hpw, hrw, fun m hm => ?_⟩, hrd⟩
      rw [hre m, ← hm _ _ h1 hget, hev m]

theorem toSingleStripped_ok {P : Pool F} (h : PoolWF P) {e : Expr F} (he : Expr.WF P.length e) :
    ∃ idx k c P', toSingleStripped P e = some ((idx, k, c), P') ∧ P <+: P' ∧ PoolWF P' ∧
      ((idx = 0 ∧ k = 0 ∧ e = newConst c) ∨
        (1 ≤ idx ∧ idx < P'.length ∧ k ≠ 0 ∧ degree e ≠ 0 ∧
          ∀ m, PoolOk P' m → Expr.eval m e = k * m idx + c)) := by
  obtain ⟨s, k, c, hs, hwf, hev, hcase⟩ := stripConstants_ok he
  unfold toSingleStripped
  rw [hs]
  simp only [Option.bind_eq_bind, Option.bind_some]
  rcases hcase with ⟨-, rfl, rfl, hc⟩ | ⟨hd0, hd, hk, -, -, -⟩
  · rw [if_pos (by simp [degree, zeroExpr, VarSpec.isQuad, VarSpec.isLin])]
    exact ⟨_, _, _, _, rfl, List.prefix_refl _, h, Or.inl ⟨rfl, rfl, hc⟩⟩
  · rw [if_neg hd]
    obtain ⟨hp, hpw, h1, h2, hget⟩ := Pool.add_ok h hwf.ne hwf.below
    exact ⟨_, _, _, _, rfl, hp, hpw, Or.inr ⟨h1, h2, hk, hd0, fun m hm => by
      rw [hev m, hm _ _ h1 hget]⟩⟩

theorem toReallySingle_ok {P : Pool F} (h : PoolWF P) {e : Expr F} (he : Expr.WF P.length e) :
    P <+: toReallySingle P e ∧ PoolWF (toReallySingle P e) := by
  have hadd := Pool.add_ok h he.ne he.below
  unfold toReallySingle
  split
  · split_ifs
    · exact ⟨List.prefix_refl _, h⟩
    · exact ⟨hadd.1, hadd.2.1⟩
  · exact ⟨hadd.1, hadd.2.1⟩

/-! ## The merge -/

theorem popMin_none {qs : List (List (Term F))} (h : popMin qs = none) : qs.flatten = [] := by
  induction qs with
  | nil => rfl
  | cons q qs ih =>
      cases q with
      | nil => simpa using ih (by simpa [popMin] using h)
      | cons t ts =>
          exfalso
          rw [popMin] at h
          cases hp : popMin qs with
          | none => rw [hp] at h; cases h
          | some uq => rw [hp] at h; dsimp only at h; split_ifs at h

theorem popMin_some {qs qs' : List (List (Term F))} {t : Term F} (h : popMin qs = some (t, qs')) :
    qs.flatten.Perm (t :: qs'.flatten) := by
  induction qs generalizing t qs' with
  | nil => cases h
  | cons q qs ih =>
      cases q with
      | nil => simpa using ih (by simpa [popMin] using h)
      | cons u us =>
          rw [popMin] at h
          cases hp : popMin qs with
          | none =>
              rw [hp] at h
              simp only [Option.some.injEq, Prod.mk.injEq] at h
              obtain ⟨rfl, rfl⟩ := h
              simp [popMin_none hp]
          | some wq =>
              obtain ⟨w, wqs⟩ := wq
              rw [hp] at h
              dsimp only at h
              split_ifs at h with hlt
              · simp only [Option.some.injEq, Prod.mk.injEq] at h
                obtain ⟨rfl, rfl⟩ := h
                have := ih hp
                rw [List.flatten_cons, List.flatten_cons]
                exact (this.append_left (u :: us)).trans List.perm_middle
              · simp only [Option.some.injEq, Prod.mk.injEq] at h
                obtain ⟨rfl, rfl⟩ := h
                simp

/-- With sorted operands the popped term is least and the rest is sorted. -/
theorem popMin_min {qs qs' : List (List (Term F))} {t : Term F} (h : popMin qs = some (t, qs'))
    (hs : ∀ q ∈ qs, q.Pairwise fun a b => a.vars ≤ b.vars) :
    (∀ u ∈ qs'.flatten, t.vars ≤ u.vars) ∧
      ∀ q ∈ qs', q.Pairwise fun a b => a.vars ≤ b.vars := by
  induction qs generalizing t qs' with
  | nil => cases h
  | cons q qs ih =>
      have hs' : ∀ q ∈ qs, q.Pairwise fun a b => a.vars ≤ b.vars :=
        fun q hq => hs q (List.mem_cons_of_mem _ hq)
      cases q with
      | nil => exact ih (by simpa [popMin] using h) hs'
      | cons u us =>
          have hu := List.pairwise_cons.1 (hs _ List.mem_cons_self)
          rw [popMin] at h
          cases hp : popMin qs with
          | none =>
              rw [hp] at h
              simp only [Option.some.injEq, Prod.mk.injEq] at h
              obtain ⟨rfl, rfl⟩ := h
              refine ⟨?_, ?_⟩
              · intro w hw; simp only [List.flatten_cons, List.flatten_nil, List.append_nil] at hw
                exact hu.1 w hw
              · intro q hq; simp only [List.mem_singleton] at hq
                subst hq; exact hu.2
          | some wq =>
              obtain ⟨w, wqs⟩ := wq
              rw [hp] at h
              obtain ⟨hmin, hrest⟩ := ih hp hs'
              have hperm := popMin_some hp
              dsimp only at h
              split_ifs at h with hlt
              · simp only [Option.some.injEq, Prod.mk.injEq] at h
                obtain ⟨rfl, rfl⟩ := h
                refine ⟨?_, ?_⟩
                · intro x hx
                  rw [List.flatten_cons, List.mem_append] at hx
                  rcases hx with hx | hx
                  · rcases List.mem_cons.1 hx with rfl | hx
                    · exact hlt.le
                    · exact hlt.le.trans (hu.1 x hx)
                  · exact hmin x hx
                · intro q hq
                  rcases List.mem_cons.1 hq with rfl | hq
                  · exact hs _ List.mem_cons_self
                  · exact hrest q hq
              · simp only [Option.some.injEq, Prod.mk.injEq] at h
                obtain ⟨rfl, rfl⟩ := h
                refine ⟨?_, ?_⟩
                · intro x hx
                  rw [List.flatten_cons, List.mem_append] at hx
                  rcases hx with hx | hx
                  · exact hu.1 x hx
                  · rcases List.mem_cons.1 (hperm.mem_iff.1 hx) with rfl | hx
                    · exact not_lt.1 hlt
                    · exact (not_lt.1 hlt).trans (hmin x hx)
                · intro q hq
                  rcases List.mem_cons.1 hq with rfl | hq
                  · exact hu.2
                  · exact hs' q hq

theorem kmerge_perm (n : Nat) (qs : List (List (Term F))) (hn : qs.flatten.length ≤ n) :
    (kmerge n qs).Perm qs.flatten := by
  induction n generalizing qs with
  | zero =>
      have : qs.flatten = [] := List.length_eq_zero_iff.1 (by omega)
      rw [this, kmerge]
  | succ n ih =>
      rw [kmerge]
      cases hp : popMin qs with
      | none => rw [popMin_none hp]
      | some tq =>
          obtain ⟨t, qs'⟩ := tq
          have hperm := popMin_some hp
          dsimp only
          have hl := hperm.length_eq
          rw [List.length_cons] at hl
          exact ((ih qs' (by omega)).cons t).trans hperm.symm

theorem kmerge_sorted (n : Nat) (qs : List (List (Term F))) (hn : qs.flatten.length ≤ n)
    (hs : ∀ q ∈ qs, q.Pairwise fun a b => a.vars ≤ b.vars) :
    (kmerge n qs).Pairwise fun a b => a.vars ≤ b.vars := by
  induction n generalizing qs with
  | zero => simp [kmerge]
  | succ n ih =>
      rw [kmerge]
      cases hp : popMin qs with
      | none => simp
      | some tq =>
          obtain ⟨t, qs'⟩ := tq
          have hl := (popMin_some hp).length_eq
          rw [List.length_cons] at hl
          obtain ⟨h1, h2⟩ := popMin_min hp hs
          dsimp only
          rw [List.pairwise_cons]
          refine ⟨fun u hu => h1 u ?_, ih qs' (by omega) h2⟩
          exact (kmerge_perm n qs' (by omega)).mem_iff.1 hu

theorem pushTerm_eval (v : Nat → F) (res : List (Term F)) (t : Term F) :
    Expr.eval v (pushTerm res t) = Expr.eval v res + t.eval v := by
  unfold pushTerm
  by_cases h0 : t.coef = 0
  · rw [if_pos h0]; simp [Term.eval, h0]
  · rw [if_neg h0]
    cases res with
    | nil => simp [Expr.eval]
    | cons l r =>
        dsimp only
        by_cases hv : l.vars = t.vars
        · rw [if_pos hv]
          by_cases hc : l.coef + t.coef = 0
          · rw [if_pos hc, Expr.eval_cons]
            simp only [Term.eval, hv]
            linear_combination (-t.vars.eval v) * hc
          · rw [if_neg hc, Expr.eval_cons, Expr.eval_cons]
            simp only [Term.eval, hv]; ring
        · rw [if_neg hv, Expr.eval_cons (t := t)]; ring

theorem foldl_pushTerm_eval (v : Nat → F) (l res : List (Term F)) :
    Expr.eval v (l.foldl pushTerm res) = Expr.eval v res + Expr.eval v l := by
  induction l generalizing res with
  | nil => simp [Expr.eval_nil]
  | cons t l ih => rw [List.foldl_cons, ih, pushTerm_eval, Expr.eval_cons]; ring

theorem pushTerm_mem {res : List (Term F)} {t u : Term F} (h : u ∈ pushTerm res t) :
    (u.vars = t.vars ∧ u.coef ≠ 0) ∨ u ∈ res := by
  unfold pushTerm at h
  by_cases h0 : t.coef = 0
  · rw [if_pos h0] at h; exact Or.inr h
  · rw [if_neg h0] at h
    cases res with
    | nil => simp only [List.mem_singleton] at h; subst h; exact Or.inl ⟨rfl, h0⟩
    | cons l r =>
        dsimp only at h
        by_cases hv : l.vars = t.vars
        · rw [if_pos hv] at h
          by_cases hc : l.coef + t.coef = 0
          · rw [if_pos hc] at h; exact Or.inr (List.mem_cons_of_mem _ h)
          · rw [if_neg hc] at h
            rcases List.mem_cons.1 h with rfl | h
            · exact Or.inl ⟨hv, hc⟩
            · exact Or.inr (List.mem_cons_of_mem _ h)
        · rw [if_neg hv] at h
          rcases List.mem_cons.1 h with rfl | h
          · exact Or.inl ⟨rfl, h0⟩
          · exact Or.inr h

/-- Pushing a sorted stream leaves strictly increasing monomials (the accumulator is reversed),
non-zero coefficients and only monomials of the stream. -/
theorem foldl_pushTerm_sorted (l res : List (Term F))
    (hl : l.Pairwise fun a b => a.vars ≤ b.vars)
    (hres : res.Pairwise fun a b => b.vars < a.vars) (hc : ∀ u ∈ res, u.coef ≠ 0)
    (hlr : ∀ u ∈ res, ∀ t ∈ l, u.vars ≤ t.vars) :
    (l.foldl pushTerm res).Pairwise (fun a b => b.vars < a.vars) ∧
      (∀ u ∈ l.foldl pushTerm res, u.coef ≠ 0) ∧
      ∀ u ∈ l.foldl pushTerm res, (∃ t ∈ l, u.vars = t.vars) ∨ u ∈ res := by
  induction l generalizing res with
  | nil => exact ⟨hres, hc, fun u hu => Or.inr hu⟩
  | cons t l ih =>
      rw [List.foldl_cons]
      rw [List.pairwise_cons] at hl
      have hc' : ∀ u ∈ pushTerm res t, u.coef ≠ 0 := by
        intro u hu
        rcases pushTerm_mem hu with h | h
        · exact h.2
        · exact hc u h
      have hle : ∀ u ∈ pushTerm res t, ∀ w ∈ l, u.vars ≤ w.vars := by
        intro u hu w hw
        rcases pushTerm_mem hu with h | h
        · rw [h.1]; exact hl.1 w hw
        · exact hlr u h w (List.mem_cons_of_mem _ hw)
      have hp : (pushTerm res t).Pairwise fun a b => b.vars < a.vars := by
        unfold pushTerm
        by_cases h0 : t.coef = 0
        · rw [if_pos h0]; exact hres
        · rw [if_neg h0]
          cases res with
          | nil => simp
          | cons x r =>
              have hx := List.pairwise_cons.1 hres
              dsimp only
              by_cases hv : x.vars = t.vars
              · rw [if_pos hv]
                by_cases hz : x.coef + t.coef = 0
                · rw [if_pos hz]; exact hx.2
                · rw [if_neg hz, List.pairwise_cons]; exact ⟨hx.1, hx.2⟩
              · rw [if_neg hv, List.pairwise_cons]
                have hlt : x.vars < t.vars :=
                  lt_of_le_of_ne (hlr x List.mem_cons_self t List.mem_cons_self) hv
                refine ⟨fun b hb => ?_, hres⟩
                rcases List.mem_cons.1 hb with rfl | hb
                · exact hlt
                · exact (hx.1 b hb).trans hlt
      obtain ⟨h1, h2, h3⟩ := ih (pushTerm res t) hl.2 hp hc' hle
      refine ⟨h1, h2, fun u hu => ?_⟩
      rcases h3 u hu with ⟨w, hw, he⟩ | hm
      · exact Or.inl ⟨w, List.mem_cons_of_mem _ hw, he⟩
      · rcases pushTerm_mem hm with h | h
        · exact Or.inl ⟨t, List.mem_cons_self, h.1⟩
        · exact Or.inr h

/-! ## Linear combinations -/

/-- The value of a linear combination of expressions; specification. -/
def linValue (vars : List (Expr F × F)) (m : Nat → F) : F :=
  (vars.map fun ec => Expr.eval m ec.1 * ec.2).sum

theorem linValue_cons (e : Expr F) (c : F) (r : List (Expr F × F)) (m : Nat → F) :
    linValue ((e, c) :: r) m = Expr.eval m e * c + linValue r m := by simp [linValue]

theorem Expr.eval_flatten_cons (v : Nat → F) (q : List (Term F)) (qs : List (List (Term F))) :
    Expr.eval v (q :: qs).flatten = Expr.eval v q + Expr.eval v qs.flatten := by
  rw [List.flatten_cons, Expr.eval_append]

theorem linOperands_ok {P : Pool F} (h : PoolWF P) {vars : List (Expr F × F)}
    (hv : ∀ ec ∈ vars, Expr.WF P.length ec.1) :
    ∃ qs P', linOperands P vars = some (qs, P') ∧ P <+: P' ∧ PoolWF P' ∧
      (∀ q ∈ qs, (q.Pairwise fun a b => a.vars ≤ b.vars) ∧
        ∀ t ∈ q, t.vars.isNormalized = true ∧ t.vars.Below P'.length) ∧
      ∀ m, PoolOk P' m → Expr.eval m qs.flatten = linValue vars m := by
  induction vars generalizing P with
  | nil => exact ⟨[], P, rfl, List.prefix_refl _, h, by simp, fun m _ => rfl⟩
  | cons ec r ih =>
      obtain ⟨e, c⟩ := ec
      have he := hv (e, c) List.mem_cons_self
      dsimp only at he
      have hr : ∀ ec ∈ r, Expr.WF P.length ec.1 := fun ec hec => hv ec (List.mem_cons_of_mem _ hec)
      rw [linOperands]
      by_cases hc : c = 0
      · rw [if_pos hc]
        obtain ⟨qs, P', h1, h2, h3, h4, h5⟩ := ih h hr
        refine ⟨qs, P', h1, h2, h3, h4, fun m hm => ?_⟩
        rw [h5 m hm, linValue_cons, hc]; ring
      · rw [if_neg hc]
        have scaled : ∀ {L : Nat} {s : Expr F}, Expr.WF L s →
            (s.map fun t => (⟨t.coef * c, t.vars⟩ : Term F)).Pairwise
              (fun a b => a.vars ≤ b.vars) ∧
            ∀ t ∈ s.map (fun t => (⟨t.coef * c, t.vars⟩ : Term F)),
              t.vars.isNormalized = true ∧ t.vars.Below L := by
          intro L s hs
          refine ⟨List.pairwise_map.2 (hs.sorted.imp fun hab => hab.le), ?_⟩
          intro t ht
          obtain ⟨w, hw, rfl⟩ := List.mem_map.1 ht
          exact ⟨hs.norm w hw, hs.below w hw⟩
        by_cases hlen : compressThresholdAdd < e.length
        · rw [if_pos hlen]
          obtain ⟨s, P1, hs, hret, -⟩ := toSingle_ok h he
          obtain ⟨qs, P', h1, h2, h3, h4, h5⟩ :=
            ih hret.pool fun ec hec => (hr ec hec).mono hret.len
          rw [hs]
          simp only [Option.bind_eq_bind, Option.bind_some]
          rw [h1]
          refine ⟨_, _, rfl, hret.ext.trans h2, h3, ?_, fun m hm => ?_⟩
          · intro q hq
            rcases List.mem_cons.1 hq with rfl | hq
            · exact scaled (hret.wf.mono h2.length_le)
            · exact h4 q hq
          · rw [Expr.eval_flatten_cons, h5 m hm, Expr.eval_scale, hret.eval m (hm.prefix h2),
              linValue_cons]
        · rw [if_neg hlen, if_neg he.ne]
          obtain ⟨qs, P', h1, h2, h3, h4, h5⟩ := ih h hr
          rw [h1]
          simp only [Option.bind_eq_bind, Option.bind_some]
          refine ⟨_, _, rfl, h2, h3, ?_, fun m hm => ?_⟩
          · intro q hq
            rcases List.mem_cons.1 hq with rfl | hq
            · exact scaled (he.mono h2.length_le)
            · exact h4 q hq
          · rw [Expr.eval_flatten_cons, h5 m hm, Expr.eval_scale, linValue_cons]

theorem linCombInner_ok {P : Pool F} (h : PoolWF P) {vars : List (Expr F × F)}
    (hv : ∀ ec ∈ vars, Expr.WF P.length ec.1) :
    ∃ r P', linCombInner P vars = some (r, P') ∧ Returns P r P' (linValue vars) := by
  match vars with
  | [] =>
      exact ⟨_, _, rfl, List.prefix_refl _, h, wf_zeroExpr _, fun m _ => by
        rw [Expr.eval_zero]; rfl⟩
  | [(e, c)] =>
      obtain ⟨r, hr, hw, hev⟩ := mulConstant_ok (hv (e, c) List.mem_cons_self) c
      have hr' : mulConstant e c = some r := hr
      simp only [linCombInner, hr', Option.bind_eq_bind, Option.bind_some]
      exact ⟨_, _, rfl, List.prefix_refl _, h, hw, fun m _ => by
        rw [hev m]; simp [linValue]⟩
  | ec :: ed :: rest =>
      obtain ⟨qs, P', h1, h2, h3, h4, h5⟩ := linOperands_ok h hv
      unfold linCombInner
      rw [h1]
      simp only [Option.bind_eq_bind, Option.bind_some]
      have hlen : qs.flatten.length ≤ (qs.map List.length).sum := by
        rw [List.length_flatten]
      have hperm := kmerge_perm _ qs hlen
      have hsort := kmerge_sorted _ qs hlen fun q hq => (h4 q hq).1
      obtain ⟨p1, p2, p3⟩ := foldl_pushTerm_sorted _ [] hsort (by simp) (by simp) (by simp)
      have hval : ∀ m, PoolOk P' m →
          Expr.eval m ((kmerge (qs.map List.length).sum qs).foldl pushTerm []).reverse =
            linValue (ec :: ed :: rest) m := by
        intro m hm
        rw [Expr.eval_reverse, foldl_pushTerm_eval, Expr.eval_nil, zero_add,
          Expr.eval_perm m hperm, h5 m hm]
      by_cases h0 : ((kmerge (qs.map List.length).sum qs).foldl pushTerm []).reverse = []
      · rw [if_pos h0]
        refine ⟨_, _, rfl, h2, h3, wf_zeroExpr _, fun m hm => ?_⟩
        rw [Expr.eval_zero, ← hval m hm, h0]; rfl
      · rw [if_neg h0]
        have hvars : ∀ t ∈ ((kmerge (qs.map List.length).sum qs).foldl pushTerm []).reverse,
            t.vars.isNormalized = true ∧ t.vars.Below P'.length := by
          intro t ht
          rcases p3 t (List.mem_reverse.1 ht) with ⟨w, hw, he⟩ | hm
          · rw [he]
            obtain ⟨q, hq, hwq⟩ := List.mem_flatten.1 (hperm.mem_iff.1 hw)
            exact (h4 q hq).2 w hwq
          · cases hm
        rw [fromTermsSorted_eq h0 (List.pairwise_reverse.2 p1) fun t ht => (hvars t ht).1]
        exact ⟨_, _, rfl, h2, h3, ⟨h0, List.pairwise_reverse.2 p1, fun t ht => (hvars t ht).1,
          fun t ht => (hvars t ht).2, Or.inr fun t ht => p2 t (List.mem_reverse.1 ht)⟩, hval⟩

/-! ## Products -/

theorem Term.mul_ok {L : Nat} {s t : Term F} (hs : s.vars.Below L) (ht : t.vars.Below L)
    (hsq : ∀ x y, s.vars ≠ .quad x y) (htq : ∀ x y, t.vars ≠ .quad x y) :
    ∃ u, s.mul t = some u ∧ u.vars.Below L ∧ ∀ v, u.eval v = s.eval v * t.eval v := by
  obtain ⟨a, sv⟩ := s
  obtain ⟨b, tv⟩ := t
  unfold Term.mul
  cases sv with
  | quad x y => exact absurd rfl (hsq x y)
  | const =>
      cases tv with
      | quad x y => exact absurd rfl (htq x y)
      | const => exact ⟨_, rfl, trivial, fun v => by simp [Term.eval, VarSpec.eval]⟩
      | lin y => exact ⟨_, rfl, ht, fun v => by simp only [Term.eval, VarSpec.eval]; ring⟩
  | lin x =>
      cases tv with
      | quad x y => exact absurd rfl (htq x y)
      | const => exact ⟨_, rfl, hs, fun v => by simp only [Term.eval, VarSpec.eval]; ring⟩
      | lin y => exact ⟨_, rfl, ⟨hs, ht⟩, fun v => by simp only [Term.eval, VarSpec.eval]; ring⟩

theorem mulTerms_ok {L : Nat} {s : Term F} (hs : s.vars.Below L)
    (hsq : ∀ x y, s.vars ≠ .quad x y) (e : List (Term F)) (he : ∀ t ∈ e, t.vars.Below L)
    (heq : ∀ t ∈ e, ∀ x y, t.vars ≠ .quad x y) :
    ∃ us, mulTerms s e = some us ∧ (∀ u ∈ us, u.vars.Below L) ∧
      ∀ v, Expr.eval v us = s.eval v * Expr.eval v e := by
  induction e with
  | nil => exact ⟨[], rfl, by simp, fun v => by simp [Expr.eval_nil]⟩
  | cons t r ih =>
      obtain ⟨u, h1, h2, h3⟩ := Term.mul_ok hs (he t List.mem_cons_self) hsq
        (heq t List.mem_cons_self)
      obtain ⟨us, g1, g2, g3⟩ := ih (fun t ht => he t (List.mem_cons_of_mem _ ht))
        (fun t ht => heq t (List.mem_cons_of_mem _ ht))
      unfold mulTerms
      rw [h1, g1]
      refine ⟨_, rfl, ?_, fun v => ?_⟩
      · intro w hw
        rcases List.mem_cons.1 hw with rfl | hw
        · exact h2
        · exact g2 w hw
      · rw [Expr.eval_cons, h3, g3, Expr.eval_cons]; ring

theorem mulRows_ok {L : Nat} (v2 : Expr F) (h2 : ∀ t ∈ v2, t.vars.Below L)
    (h2q : ∀ t ∈ v2, ∀ x y, t.vars ≠ .quad x y) (v1 : List (Term F))
    (h1 : ∀ t ∈ v1, t.vars.Below L) (h1q : ∀ t ∈ v1, ∀ x y, t.vars ≠ .quad x y) :
    ∃ rows, mulRows v2 v1 = some rows ∧ (∀ ec ∈ rows, Expr.WF L ec.1) ∧
      ∀ m, linValue rows m = Expr.eval m v1 * Expr.eval m v2 := by
  induction v1 with
  | nil => exact ⟨[], rfl, by simp, fun m => by simp [Expr.eval_nil, linValue]⟩
  | cons s r ih =>
      obtain ⟨us, g1, g2, g3⟩ := mulTerms_ok (h1 s List.mem_cons_self) (h1q s List.mem_cons_self)
        v2 h2 h2q
      obtain ⟨rows, k1, k2, k3⟩ := ih (fun t ht => h1 t (List.mem_cons_of_mem _ ht))
        (fun t ht => h1q t (List.mem_cons_of_mem _ ht))
      unfold mulRows
      rw [g1, k1]
      refine ⟨_, rfl, ?_, fun m => ?_⟩
      · intro ec hec
        rcases List.mem_cons.1 hec with rfl | hec
        · exact fromTerms_wf g2
        · exact k2 ec hec
      · rw [linValue_cons, k3, fromTerms_eval, g3, Expr.eval_cons]; ring

theorem lowerDeg_ok {P : Pool F} (h : PoolWF P) {e : Expr F} (he : Expr.WF P.length e) :
    ∃ r P', lowerDeg P e = some (r, P') ∧ Returns P r P' (fun m => Expr.eval m e) ∧
      degree r ≤ 1 := by
  unfold lowerDeg
  split_ifs with hd
  · exact toSingle_ok h he
  · exact ⟨_, _, rfl, ⟨List.prefix_refl _, h, he, fun _ _ => rfl⟩, by
      have := degree_le_two e; omega⟩

/-- `basic.rs:534-587`: the product of two expressions has the product of their values. -/
theorem mulTwo_ok {P : Pool F} (h : PoolWF P) {a b : Expr F} (ha : Expr.WF P.length a)
    (hb : Expr.WF P.length b) :
    ∃ r P', mulTwo P a b = some (r, P') ∧
      Returns P r P' (fun m => Expr.eval m a * Expr.eval m b) := by
  unfold mulTwo
  by_cases hda : degree a = 0
  · rw [if_pos hda]
    obtain ⟨c, -, hcv⟩ := degree_zero_const ha hda
    obtain ⟨r, hr, hw, hev⟩ := mulConstant_ok hb c
    rw [hcv]
    simp only [Option.bind_eq_bind, Option.bind_some]
    rw [hr]
    exact ⟨_, _, rfl, List.prefix_refl _, h, hw, fun m _ => by
      rw [hev m, constantValue_eval hcv m, mul_comm]⟩
  · rw [if_neg hda]
    by_cases hdb : degree b = 0
    · rw [if_pos hdb]
      obtain ⟨c, -, hcv⟩ := degree_zero_const hb hdb
      obtain ⟨r, hr, hw, hev⟩ := mulConstant_ok ha c
      rw [hcv]
      simp only [Option.bind_eq_bind, Option.bind_some]
      rw [hr]
      exact ⟨_, _, rfl, List.prefix_refl _, h, hw, fun m _ => by
        rw [hev m, constantValue_eval hcv m]⟩
    · rw [if_neg hdb]
      obtain ⟨v1, P1, h1, r1, d1⟩ := lowerDeg_ok h ha
      obtain ⟨v2, P2, h2, r2, d2⟩ := lowerDeg_ok r1.pool (hb.mono r1.len)
      rw [h1]
      simp only [Option.bind_eq_bind, Option.bind_some]
      rw [h2]
      simp only [Option.bind_some]
      have w1 : Expr.WF P2.length v1 := r1.wf.mono r2.len
      have e1 : ∀ m, PoolOk P2 m → Expr.eval m v1 = Expr.eval m a :=
        fun m hm => r1.eval m (hm.prefix r2.ext)
      have e2 : ∀ m, PoolOk P2 m → Expr.eval m v2 = Expr.eval m b := r2.eval
      -- the swap
      obtain ⟨x, y, hxy, wx, wy, dx, dy, exy⟩ : ∃ x y : Expr F,
          (if v2.length < v1.length then (v2, v1) else (v1, v2)) = (x, y) ∧
          Expr.WF P2.length x ∧ Expr.WF P2.length y ∧ degree x ≤ 1 ∧ degree y ≤ 1 ∧
          ∀ m, PoolOk P2 m → Expr.eval m x * Expr.eval m y = Expr.eval m a * Expr.eval m b := by
        split_ifs
        · exact ⟨_, _, rfl, r2.wf, w1, d2, d1, fun m hm => by
            rw [e1 m hm, e2 m hm, mul_comm]⟩
        · exact ⟨_, _, rfl, w1, r2.wf, d1, d2, fun m hm => by rw [e1 m hm, e2 m hm]⟩
      rw [hxy]
      dsimp only
      -- the compression
      obtain ⟨x', y', P3, hc, hext, hpool, wx', wy', dx', dy', exy'⟩ :
          ∃ (x' y' : Expr F) (P3 : Pool F), compressPair P2 x y = some ((x', y'), P3) ∧
          P2 <+: P3 ∧ PoolWF P3 ∧
          Expr.WF P3.length x' ∧ Expr.WF P3.length y' ∧ degree x' ≤ 1 ∧ degree y' ≤ 1 ∧
          ∀ m, PoolOk P3 m →
            Expr.eval m x' * Expr.eval m y' = Expr.eval m x * Expr.eval m y := by
        unfold compressPair
        split_ifs
        · obtain ⟨s, Q1, hs, rs, ds⟩ := toSingle_ok r2.pool wx
          obtain ⟨t, Q2, ht, rt, dt⟩ := toSingle_ok rs.pool (wy.mono rs.len)
          rw [hs]
          simp only [Option.bind_eq_bind, Option.bind_some]
          rw [ht]
          exact ⟨_, _, _, rfl, rs.ext.trans rt.ext, rt.pool, rs.wf.mono rt.len, rt.wf, ds, dt,
            fun m hm => by rw [rt.eval m hm, rs.eval m (hm.prefix rt.ext)]⟩
        · obtain ⟨t, Q2, ht, rt, dt⟩ := toSingle_ok r2.pool wy
          rw [ht]
          exact ⟨_, _, _, rfl, rt.ext, rt.pool, wx.mono rt.len, rt.wf, dx, dt,
            fun m hm => by rw [rt.eval m hm]⟩
        · exact ⟨_, _, _, rfl, List.prefix_refl _, r2.pool, wx, wy, dx, dy, fun _ _ => rfl⟩
      rw [hc]
      simp only [Option.bind_some]
      obtain ⟨rows, hrows, wrows, erows⟩ := mulRows_ok y' wy'.below
        ((degree_lt_two_iff y').1 (by omega)) x' wx'.below ((degree_lt_two_iff x').1 (by omega))
      rw [hrows]
      simp only [Option.bind_some]
      obtain ⟨r, P4, hr, rr⟩ := linCombInner_ok hpool wrows
      refine ⟨r, P4, hr, (r1.ext.trans r2.ext).trans (hext.trans rr.ext), rr.pool, rr.wf,
        fun m hm => ?_⟩
      rw [rr.eval m hm, erows, exy' m (hm.prefix rr.ext), exy m (hm.prefix (hext.trans rr.ext))]

theorem mulMany_ok {P : Pool F} (h : PoolWF P) {cur : Expr F} (hc : Expr.WF P.length cur)
    {es : List (Expr F)} (hes : ∀ e ∈ es, Expr.WF P.length e) :
    ∃ r P', mulMany P cur es = some (r, P') ∧
      Returns P r P' (fun m => Expr.eval m cur * (es.map (Expr.eval m)).prod) := by
  induction es generalizing P cur with
  | nil => exact ⟨_, _, rfl, List.prefix_refl _, h, hc, fun m _ => by simp⟩
  | cons e es ih =>
      obtain ⟨c', P1, h1, r1⟩ := mulTwo_ok h hc (hes e List.mem_cons_self)
      obtain ⟨r, P', h2, r2⟩ := ih r1.pool r1.wf
        fun x hx => (hes x (List.mem_cons_of_mem _ hx)).mono r1.len
      unfold mulMany
      rw [h1]
      refine ⟨r, P', h2, r1.ext.trans r2.ext, r2.pool, r2.wf, fun m hm => ?_⟩
      rw [r2.eval m hm, r1.eval m (hm.prefix r2.ext), List.map_cons, List.prod_cons]; ring

end JST.Comp
