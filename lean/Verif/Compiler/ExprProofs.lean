import Verif.Compiler.Expr

/-!
# Combining expressions preserves their value
-/

namespace JST.Comp

variable {F : Type*} [Field F] [DecidableEq F]

/-! ## Evaluation -/

theorem Expr.eval_nil (v : Nat → F) : Expr.eval v [] = 0 := rfl

theorem Expr.eval_cons (v : Nat → F) (t : Term F) (e : Expr F) :
    Expr.eval v (t :: e) = t.eval v + Expr.eval v e := by simp [Expr.eval]

theorem Expr.eval_append (v : Nat → F) (d e : Expr F) :
    Expr.eval v (d ++ e) = Expr.eval v d + Expr.eval v e := by simp [Expr.eval]

theorem Expr.eval_perm (v : Nat → F) {d e : Expr F} (h : d.Perm e) :
    Expr.eval v d = Expr.eval v e := (h.map _).sum_eq

theorem Expr.eval_reverse (v : Nat → F) (e : Expr F) :
    Expr.eval v e.reverse = Expr.eval v e := Expr.eval_perm v (List.reverse_perm e)

theorem Expr.eval_scale (v : Nat → F) (c : F) (e : Expr F) :
    Expr.eval v (e.map fun t => ⟨t.coef * c, t.vars⟩) = Expr.eval v e * c := by
  induction e with
  | nil => simp [Expr.eval]
  | cons t r ih =>
      rw [List.map_cons, Expr.eval_cons, Expr.eval_cons, ih]
      simp only [Term.eval]; ring

theorem Expr.eval_filter_coef (v : Nat → F) (e : Expr F) :
    Expr.eval v (e.filter fun t => t.coef ≠ 0) = Expr.eval v e := by
  induction e with
  | nil => rfl
  | cons t r ih =>
      by_cases h : t.coef = 0
      · rw [List.filter_cons_of_neg (by simp [h]), Expr.eval_cons, ih]
        simp [Term.eval, h]
      · rw [List.filter_cons_of_pos (by simp [h]), Expr.eval_cons, Expr.eval_cons, ih]

theorem Expr.eval_zero (v : Nat → F) : Expr.eval v zeroExpr = 0 := by
  simp [Expr.eval, zeroExpr, Term.eval]

theorem Expr.eval_newConst (v : Nat → F) (c : F) : Expr.eval v (newConst c) = c := by
  simp [Expr.eval, newConst, Term.eval, VarSpec.eval]

theorem Expr.eval_newLinear (v : Nat → F) (c : F) (x : Nat) :
    Expr.eval v (newLinear c x) = c * v x := by
  simp [Expr.eval, newLinear, Term.eval, VarSpec.eval]

theorem VarSpec.eval_normalize (v : Nat → F) (s : VarSpec) : s.normalize.eval v = s.eval v := by
  cases s <;> simp only [VarSpec.normalize]
  split_ifs <;> simp [VarSpec.eval, mul_comm]

theorem VarSpec.isNormalized_normalize (s : VarSpec) : s.normalize.isNormalized = true := by
  cases s with
  | const => rfl
  | lin x => rfl
  | quad x y =>
      simp only [VarSpec.normalize]
      split_ifs with h <;> simp [VarSpec.isNormalized] <;> omega

theorem VarSpec.Below.normalize {L : Nat} {s : VarSpec} (h : s.Below L) : s.normalize.Below L := by
  cases s with
  | const => trivial
  | lin x => exact h
  | quad x y =>
      simp only [VarSpec.normalize]
      split_ifs
      · exact ⟨h.2, h.1⟩
      · exact h

theorem VarSpec.Below.mono {L L' : Nat} (hL : L ≤ L') {s : VarSpec} (h : s.Below L) :
    s.Below L' := by
  cases s with
  | const => trivial
  | lin x => exact ⟨h.1, by have := h.2; omega⟩
  | quad x y => exact ⟨⟨h.1.1, by have := h.1.2; omega⟩, h.2.1, by have := h.2.2; omega⟩

theorem VarSpec.eval_congr {L : Nat} {v w : Nat → F} (hvw : ∀ x, x < L → v x = w x)
    {s : VarSpec} (h : s.Below L) : s.eval v = s.eval w := by
  cases s with
  | const => rfl
  | lin x => exact hvw x h.2
  | quad x y => simp only [VarSpec.eval]; rw [hvw x h.1.2, hvw y h.2.2]

theorem Expr.eval_congr {L : Nat} {v w : Nat → F} (hvw : ∀ x, x < L → v x = w x)
    {e : Expr F} (h : ∀ t ∈ e, t.vars.Below L) : Expr.eval v e = Expr.eval w e := by
  induction e with
  | nil => rfl
  | cons t r ih =>
      rw [Expr.eval_cons, Expr.eval_cons, ih fun u hu => h u (List.mem_cons_of_mem _ hu)]
      simp only [Term.eval]
      rw [VarSpec.eval_congr hvw (h t List.mem_cons_self)]

/-! ## Well-formed expressions -/

/-- The invariant of every expression the builder stores: a non-empty list of normalized monomials
in strictly increasing order, with non-zero coefficients, over the mid variables `1 .. L-1`; or the
single term `0`. -/
structure Expr.WF (L : Nat) (e : Expr F) : Prop where
  ne : e ≠ []
  sorted : e.Pairwise fun s t => s.vars < t.vars
  norm : ∀ t ∈ e, t.vars.isNormalized = true
  below : ∀ t ∈ e, t.vars.Below L
  coef : e = zeroExpr ∨ ∀ t ∈ e, t.coef ≠ 0

theorem Expr.WF.mono {L L' : Nat} (hL : L ≤ L') {e : Expr F} (h : Expr.WF L e) : Expr.WF L' e :=
  ⟨h.ne, h.sorted, h.norm, fun t ht => (h.below t ht).mono hL, h.coef⟩

theorem wf_zeroExpr (L : Nat) : Expr.WF L (zeroExpr : Expr F) :=
  ⟨by simp [zeroExpr], by simp [zeroExpr], by simp [zeroExpr, VarSpec.isNormalized],
    by simp [zeroExpr, VarSpec.Below], Or.inl rfl⟩

theorem wf_newConst (L : Nat) (c : F) : Expr.WF L (newConst c) := by
  by_cases h : c = 0
  · subst h; exact wf_zeroExpr L
  · exact ⟨by simp [newConst], by simp [newConst], by simp [newConst, VarSpec.isNormalized],
      by simp [newConst, VarSpec.Below], Or.inr (by simp [newConst, h])⟩

theorem wf_newLinear {L x : Nat} (h1 : 1 ≤ x) (h2 : x < L) {c : F} (hc : c ≠ 0) :
    Expr.WF L (newLinear c x) :=
  ⟨by simp [newLinear], by simp [newLinear], by simp [newLinear, VarSpec.isNormalized],
    by simp [newLinear, VarSpec.Below, h1, h2], Or.inr (by simp [newLinear, hc])⟩

theorem strictly_iff (e : List (Term F)) :
    strictly e = true ↔ e.Pairwise fun s t => s.vars < t.vars := by
  induction e with
  | nil => simp [strictly]
  | cons t r ih =>
      cases r with
      | nil => simp [strictly]
      | cons u r =>
          rw [strictly, Bool.and_eq_true, ih, decide_eq_true_eq, List.pairwise_cons (a := t)]
          constructor
          · rintro ⟨h1, h2⟩
            refine ⟨fun a ha => ?_, h2⟩
            rcases List.mem_cons.1 ha with rfl | ha
            · exact h1
            · exact h1.trans (List.rel_of_pairwise_cons h2 ha)
          · rintro ⟨h1, h2⟩
            exact ⟨h1 u List.mem_cons_self, h2⟩

theorem fromTermsSorted_eq {ts : List (Term F)} (hne : ts ≠ [])
    (hs : ts.Pairwise fun s t => s.vars < t.vars) (hn : ∀ t ∈ ts, t.vars.isNormalized = true) :
    fromTermsSorted ts = some ts := by
  unfold fromTermsSorted
  rw [if_neg hne]
  dsimp only
  rw [if_pos]
  rw [Bool.and_eq_true, strictly_iff, List.all_eq_true]
  exact ⟨hn, hs⟩

/-! ## `from_terms` -/

theorem mergeAdj_eval (v : Nat → F) (l : List (Term F)) :
    Expr.eval v (mergeAdj l) = Expr.eval v l := by
  induction l using mergeAdj.induct with
  | case1 => simp [mergeAdj]
  | case2 t => simp [mergeAdj]
  | case3 t u r h ih =>
      rw [mergeAdj, if_pos h, ih, Expr.eval_cons, Expr.eval_cons, Expr.eval_cons]
      simp only [Term.eval, h]; ring
  | case4 t u r h ih =>
      rw [mergeAdj, if_neg h, Expr.eval_cons, ih, ← Expr.eval_cons]

theorem mergeAdj_vars (l : List (Term F)) :
    ∀ t ∈ mergeAdj l, ∃ s ∈ l, t.vars = s.vars := by
  induction l using mergeAdj.induct with
  | case1 => simp [mergeAdj]
  | case2 t => simp [mergeAdj]
  | case3 t u r h ih =>
      rw [mergeAdj, if_pos h]
      intro w hw
      obtain ⟨s, hs, he⟩ := ih w hw
      rcases List.mem_cons.1 hs with rfl | hs
      · exact ⟨t, List.mem_cons_self, he⟩
      · exact ⟨s, List.mem_cons_of_mem _ (List.mem_cons_of_mem _ hs), he⟩
  | case4 t u r h ih =>
      rw [mergeAdj, if_neg h]
      intro w hw
      rcases List.mem_cons.1 hw with rfl | hw
      · exact ⟨w, List.mem_cons_self, rfl⟩
      · obtain ⟨s, hs, he⟩ := ih w hw
        exact ⟨s, List.mem_cons_of_mem _ hs, he⟩

theorem mergeAdj_sorted (l : List (Term F)) (hl : l.Pairwise fun s t => s.vars ≤ t.vars) :
    (mergeAdj l).Pairwise fun s t => s.vars < t.vars := by
  induction l using mergeAdj.induct with
  | case1 => simp [mergeAdj]
  | case2 t => simp [mergeAdj]
  | case3 t u r h ih =>
      rw [mergeAdj, if_pos h]
      refine ih ?_
      rw [List.pairwise_cons] at hl ⊢
      exact ⟨fun a ha => hl.1 a (List.mem_cons_of_mem _ ha), (List.pairwise_cons.1 hl.2).2⟩
  | case4 t u r h ih =>
      rw [mergeAdj, if_neg h]
      rw [List.pairwise_cons] at hl ⊢
      refine ⟨fun a ha => ?_, ih hl.2⟩
      obtain ⟨s, hs, he⟩ := mergeAdj_vars _ a ha
      rw [he]
      have htu : t.vars < u.vars := lt_of_le_of_ne (hl.1 u List.mem_cons_self) h
      rcases List.mem_cons.1 hs with rfl | hs
      · exact htu
      · exact htu.trans_le (List.rel_of_pairwise_cons hl.2 hs)

theorem compress_eval (v : Nat → F) (l : List (Term F)) :
    Expr.eval v (compress l) = Expr.eval v l := by
  unfold compress
  dsimp only
  have h := Expr.eval_filter_coef v (mergeAdj l)
  rw [mergeAdj_eval] at h
  split_ifs with h0
  · rw [h0] at h
    rw [← h, Expr.eval_zero]; rfl
  · exact h

theorem compress_wf {L : Nat} {l : List (Term F)} (hl : l.Pairwise fun s t => s.vars ≤ t.vars)
    (hn : ∀ t ∈ l, t.vars.isNormalized = true) (hb : ∀ t ∈ l, t.vars.Below L) :
    Expr.WF L (compress l) := by
  unfold compress
  dsimp only
  split_ifs with h0
  · exact wf_zeroExpr L
  · refine ⟨h0, (mergeAdj_sorted l hl).sublist List.filter_sublist, ?_, ?_, Or.inr ?_⟩
    · intro t ht
      obtain ⟨s, hs, he⟩ := mergeAdj_vars l t (List.mem_of_mem_filter ht)
      rw [he]; exact hn s hs
    · intro t ht
      obtain ⟨s, hs, he⟩ := mergeAdj_vars l t (List.mem_of_mem_filter ht)
      rw [he]; exact hb s hs
    · intro t ht
      simpa using (List.mem_filter.1 ht).2

instance : Std.Total fun (s t : Term F) => s.vars ≤ t.vars := ⟨fun s t => le_total _ _⟩
instance : IsTrans (Term F) fun (s t : Term F) => s.vars ≤ t.vars := ⟨fun _ _ _ => le_trans⟩

theorem fromTerms_eval (v : Nat → F) (l : List (Term F)) :
    Expr.eval v (fromTerms l) = Expr.eval v l := by
  unfold fromTerms
  rw [compress_eval, Expr.eval_perm v (List.perm_insertionSort _ _)]
  induction l with
  | nil => rfl
  | cons t r ih =>
      rw [List.map_cons, Expr.eval_cons, Expr.eval_cons, ih]
      simp only [Term.eval, Term.normalize, VarSpec.eval_normalize]

theorem fromTerms_wf {L : Nat} {l : List (Term F)} (hb : ∀ t ∈ l, t.vars.Below L) :
    Expr.WF L (fromTerms l) := by
  unfold fromTerms
  refine compress_wf (List.pairwise_insertionSort _ _) ?_ ?_
  · intro t ht
    rw [(List.perm_insertionSort _ _).mem_iff] at ht
    obtain ⟨s, _, rfl⟩ := List.mem_map.1 ht
    exact VarSpec.isNormalized_normalize _
  · intro t ht
    rw [(List.perm_insertionSort _ _).mem_iff] at ht
    obtain ⟨s, hs, rfl⟩ := List.mem_map.1 ht
    exact (hb s hs).normalize

/-! ## Multiplication by a constant -/

theorem mulConstant_ok {L : Nat} {e : Expr F} (he : Expr.WF L e) (c : F) :
    ∃ r, mulConstant e c = some r ∧ Expr.WF L r ∧ ∀ v, Expr.eval v r = Expr.eval v e * c := by
  unfold mulConstant
  by_cases hc : c = 0
  · rw [if_pos hc]
    exact ⟨_, rfl, wf_zeroExpr L, fun v => by rw [Expr.eval_zero, hc, mul_zero]⟩
  · rw [if_neg hc]
    have hs : (e.map fun t => (⟨t.coef * c, t.vars⟩ : Term F)).Pairwise
        fun s t => s.vars < t.vars := List.pairwise_map.2 he.sorted
    have hn : ∀ t ∈ e.map (fun t => (⟨t.coef * c, t.vars⟩ : Term F)),
        t.vars.isNormalized = true := by
      intro t ht
      obtain ⟨s, hs, rfl⟩ := List.mem_map.1 ht
      exact he.norm s hs
    have hne : e.map (fun t => (⟨t.coef * c, t.vars⟩ : Term F)) ≠ [] := by
      simpa using he.ne
    refine ⟨_, fromTermsSorted_eq hne hs hn, ⟨hne, hs, hn, ?_, ?_⟩, fun v => Expr.eval_scale v c e⟩
    · intro t ht
      obtain ⟨s, hs, rfl⟩ := List.mem_map.1 ht
      exact he.below s hs
    · rcases he.coef with h | h
      · left; subst h; simp [zeroExpr]
      · right
        intro t ht
        obtain ⟨s, hs, rfl⟩ := List.mem_map.1 ht
        exact mul_ne_zero (h s hs) hc

/-! ## Constants -/

theorem Expr.WF.const_head {L : Nat} {e : Expr F} (he : Expr.WF L e) :
    (∀ t ∈ e, t.vars ≠ .const) ∨
      ∃ c r, e = ⟨c, .const⟩ :: r ∧ ∀ t ∈ r, t.vars ≠ .const := by
  obtain ⟨hne, hs, -, -, -⟩ := he
  cases e with
  | nil => exact absurd rfl hne
  | cons t r =>
      have hr : ∀ u ∈ r, u.vars ≠ .const := by
        intro u hu h0
        have hlt := List.rel_of_pairwise_cons hs hu
        rw [h0] at hlt
        have : VarSpec.key t.vars < VarSpec.key .const := hlt
        cases hv : t.vars <;> rw [hv] at this <;>
          simp [VarSpec.key, Prod.Lex.toLex_lt_toLex] at this
      by_cases h0 : t.vars = .const
      · exact Or.inr ⟨t.coef, r, by cases t; simp_all, hr⟩
      · left
        intro u hu
        rcases List.mem_cons.1 hu with rfl | hu
        · exact h0
        · exact hr u hu

theorem foldl_const_skip (r : Expr F) (c : F) (hr : ∀ t ∈ r, t.vars ≠ .const) :
    r.foldl (fun c t => if t.vars = .const then t.coef else c) c = c := by
  induction r generalizing c with
  | nil => rfl
  | cons t r ih =>
      rw [List.foldl_cons, if_neg (hr t List.mem_cons_self)]
      exact ih c fun u hu => hr u (List.mem_cons_of_mem _ hu)

/-- The non-constant part and the constant part add up to the expression. -/
theorem const_split {L : Nat} {e : Expr F} (he : Expr.WF L e) (v : Nat → F) :
    Expr.eval v e = Expr.eval v (e.filter fun t => t.vars ≠ .const) + constPart e := by
  rcases he.const_head with h | ⟨c, r, rfl, hr⟩
  · rw [List.filter_eq_self.2 (by simpa using h)]
    unfold constPart
    rw [foldl_const_skip e 0 h, add_zero]
  · rw [List.filter_cons_of_neg (by simp), List.filter_eq_self.2 (by simpa using hr)]
    unfold constPart
    rw [List.foldl_cons, if_pos rfl, foldl_const_skip r c hr, Expr.eval_cons]
    simp only [Term.eval, VarSpec.eval]; ring

theorem constantValue_eval {e : Expr F} {c : F} (h : constantValue e = some c) (v : Nat → F) :
    Expr.eval v e = c := by
  unfold constantValue at h
  split at h
  · cases h
    simp [Expr.eval, Term.eval, VarSpec.eval]
  · cases h

theorem degree_zero_iff (e : Expr F) : degree e = 0 ↔ ∀ t ∈ e, t.vars = .const := by
  unfold degree
  constructor
  · intro h t ht
    split_ifs at h with h1 h2
    cases hv : t.vars with
    | const => rfl
    | lin x => exact absurd (List.any_eq_true.2 ⟨t, ht, by rw [hv]; rfl⟩) h2
    | quad x y => exact absurd (List.any_eq_true.2 ⟨t, ht, by rw [hv]; rfl⟩) h1
  · intro h
    rw [if_neg, if_neg]
    · intro hx
      obtain ⟨t, ht, h1⟩ := List.any_eq_true.1 hx
      rw [h t ht] at h1
      cases h1
    · intro hx
      obtain ⟨t, ht, h1⟩ := List.any_eq_true.1 hx
      rw [h t ht] at h1
      cases h1

theorem degree_le_two (e : Expr F) : degree e ≤ 2 := by
  unfold degree; split_ifs <;> omega

theorem degree_lt_two_iff (e : Expr F) :
    degree e < 2 ↔ ∀ t ∈ e, ∀ x y, t.vars ≠ .quad x y := by
  unfold degree
  constructor
  · intro h t ht x y hv
    rw [if_pos (List.any_eq_true.2 ⟨t, ht, by rw [hv]; rfl⟩)] at h
    omega
  · intro h
    rw [if_neg]
    · split_ifs <;> omega
    · intro hx
      obtain ⟨t, ht, h1⟩ := List.any_eq_true.1 hx
      cases hv : t.vars with
      | const => rw [hv] at h1; cases h1
      | lin x => rw [hv] at h1; cases h1
      | quad x y => exact h t ht x y hv

/-- A well-formed expression of degree zero is a single constant. -/
theorem degree_zero_const {L : Nat} {e : Expr F} (he : Expr.WF L e) (h : degree e = 0) :
    ∃ c, e = newConst c ∧ constantValue e = some c := by
  rw [degree_zero_iff] at h
  rcases he.const_head with h1 | ⟨c, r, rfl, hr⟩
  · obtain ⟨t, ht⟩ := List.exists_mem_of_ne_nil e he.ne
    exact absurd (h t ht) (h1 t ht)
  · cases r with
    | nil => exact ⟨c, rfl, rfl⟩
    | cons t r => exact absurd (h t (by simp)) (hr t List.mem_cons_self)

/-! ## `strip_constants` -/

/-- What `strip_constants` returns: a constant, or a non-constant expression with leading
coefficient 1 and without constant term. -/
theorem stripConstants_ok {L : Nat} {e : Expr F} (he : Expr.WF L e) :
    ∃ s k c, stripConstants e = some (s, k, c) ∧ Expr.WF L s ∧
      (∀ v, Expr.eval v e = k * Expr.eval v s + c) ∧
      ((degree e = 0 ∧ s = zeroExpr ∧ k = 0 ∧ e = newConst c) ∨
        (degree e ≠ 0 ∧ degree s ≠ 0 ∧ k ≠ 0 ∧ degree s = degree e ∧
          (∀ t ∈ s, t.vars ≠ .const) ∧ (∀ t ∈ s, t.coef ≠ 0))) := by
  unfold stripConstants
  dsimp only
  have hsplit := const_split he
  cases hr : e.filter (fun t => t.vars ≠ .const) with
  | nil =>
      have hall : ∀ t ∈ e, t.vars = .const := by
        intro t ht
        by_contra hv
        have : t ∈ e.filter (fun t => t.vars ≠ .const) := List.mem_filter.2 ⟨ht, by simpa using hv⟩
        rw [hr] at this; cases this
      have hd := (degree_zero_iff e).2 hall
      obtain ⟨c, hc, _⟩ := degree_zero_const he hd
      refine ⟨_, _, _, rfl, wf_zeroExpr L, fun v => ?_, Or.inl ⟨hd, rfl, rfl, ?_⟩⟩
      · rw [hsplit v, hr, Expr.eval_nil]; ring
      · rw [hc]; simp [constPart, newConst]
  | cons t r =>
      have hmem : ∀ u ∈ t :: r, u ∈ e ∧ u.vars ≠ .const := by
        intro u hu
        rw [← hr] at hu
        have := List.mem_filter.1 hu
        exact ⟨this.1, by simpa using this.2⟩
      have hcoef : ∀ u ∈ e, u.coef ≠ 0 := by
        rcases he.coef with h | h
        · exfalso
          have := hmem t List.mem_cons_self
          rw [h] at this
          simp only [zeroExpr, List.mem_singleton] at this
          rw [this.1] at this
          exact this.2 rfl
        · exact h
      have ht0 : t.coef ≠ 0 := hcoef t (hmem t List.mem_cons_self).1
      have hne : (t :: r).map (fun s => (⟨s.coef * t.coef⁻¹, s.vars⟩ : Term F)) ≠ [] := by simp
      have hs : ((t :: r).map fun s => (⟨s.coef * t.coef⁻¹, s.vars⟩ : Term F)).Pairwise
          fun s t => s.vars < t.vars := by
        rw [List.pairwise_map, ← hr]
        exact he.sorted.sublist List.filter_sublist
      have hn : ∀ u ∈ (t :: r).map (fun s => (⟨s.coef * t.coef⁻¹, s.vars⟩ : Term F)),
          u.vars.isNormalized = true := by
        intro u hu
        obtain ⟨w, hw, rfl⟩ := List.mem_map.1 hu
        exact he.norm w (hmem w hw).1
      simp only [invOrPanic, if_neg ht0, Option.bind_eq_bind, Option.bind_some,
        fromTermsSorted_eq hne hs hn]
      have hc' : ∀ u ∈ (t :: r).map (fun s => (⟨s.coef * t.coef⁻¹, s.vars⟩ : Term F)),
          u.coef ≠ 0 := by
        intro u hu
        obtain ⟨w, hw, rfl⟩ := List.mem_map.1 hu
        exact mul_ne_zero (hcoef w (hmem w hw).1) (inv_ne_zero ht0)
      have hv' : ∀ u ∈ (t :: r).map (fun s => (⟨s.coef * t.coef⁻¹, s.vars⟩ : Term F)),
          u.vars ≠ .const := by
        intro u hu
        obtain ⟨w, hw, rfl⟩ := List.mem_map.1 hu
        exact (hmem w hw).2
      refine ⟨_, _, _, rfl, ⟨hne, hs, hn, ?_, Or.inr hc'⟩, ?_, Or.inr ⟨?_, ?_, ht0, ?_, hv', hc'⟩⟩
      · intro u hu
        obtain ⟨w, hw, rfl⟩ := List.mem_map.1 hu
        exact he.below w (hmem w hw).1
      · intro v
        rw [hsplit v, hr, Expr.eval_scale]
        field_simp
      · intro h0
        exact (hmem t List.mem_cons_self).2 ((degree_zero_iff e).1 h0 t (hmem t List.mem_cons_self).1)
      · intro h0
        exact hv' _ (by simp) ((degree_zero_iff _).1 h0 ⟨t.coef * t.coef⁻¹, t.vars⟩ (by simp))
      · have hany : ∀ p : VarSpec → Bool, p .const = false →
            ((t :: r).map (fun s => (⟨s.coef * t.coef⁻¹, s.vars⟩ : Term F))).any
              (fun u => p u.vars) = e.any fun u => p u.vars := by
          intro p hp
          rw [Bool.eq_iff_iff, List.any_eq_true, List.any_eq_true]
          constructor
          · rintro ⟨u, hu, h⟩
            obtain ⟨w, hw, rfl⟩ := List.mem_map.1 hu
            exact ⟨w, (hmem w hw).1, h⟩
          · rintro ⟨u, hu, h⟩
            have hu' : u ∈ t :: r := by
              rw [← hr]
              refine List.mem_filter.2 ⟨hu, ?_⟩
              simp only [ne_eq, decide_not, Bool.not_eq_eq_eq_not, Bool.not_true,
                decide_eq_false_iff_not]
              intro h0; rw [h0, hp] at h; cases h
            exact ⟨_, List.mem_map_of_mem hu', h⟩
        have h1 := hany VarSpec.isQuad rfl
        have h2 := hany VarSpec.isLin rfl
        unfold degree
        rw [h1, h2]

end JST.Comp
