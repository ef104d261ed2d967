import Verif.Compiler.BuilderFresh

/-!
# Pushing an instruction
-/

namespace JST.Comp

open JST.Circ

variable {F : Type} [Field F] [DecidableEq F]

/-- Variables an instruction of the target language reads. -/
def _root_.JST.Circ.OInsn.inputs : OInsn F → List Nat
  | .linComb lc => lc.terms.map Prod.fst
  | .mul xs => xs
  | .hint _ xs _ => xs
  | .constant _ => []
  | .random => []
  | .publicInput _ => []
  | .call _ xs _ => xs
  | .gate _ xs => xs

/-- The instruction reads variables `1 .. n-1`, and a product has at least two factors. -/
def InRange (n : Nat) (i : OInsn F) : Prop :=
  (∀ x ∈ i.inputs, 1 ≤ x ∧ x < n) ∧ ∀ xs, i = .mul xs → 2 ≤ xs.length

theorem outs_congr {a a' : Nat → F} {n k : Nat} (h : ∀ x, x < n + k → a x = a' x) :
    outs a n k = outs a' n k := by
  unfold outs
  apply List.map_congr_left
  intro i hi
  rw [List.mem_range] at hi
  exact h _ (by omega)

theorem LinComb.eval_congr {lc : LinComb F} {a a' : Nat → F} {n : Nat}
    (hr : ∀ x ∈ lc.terms.map Prod.fst, x < n) (h : ∀ x, x < n → a x = a' x) :
    lc.eval a = lc.eval a' := by
  unfold LinComb.eval
  congr 2
  apply List.map_congr_left
  intro t ht
  rw [h t.1 (hr _ (List.mem_map.2 ⟨t, ht, rfl⟩))]

/-- Whether an instruction holds depends only on the variables it reads and writes. -/
theorem holds_local {i : OInsn F} {n : Nat} (hr : InRange n i) (env : Env F) (a a' : Nat → F)
    (h : ∀ x, x < n + i.numOut → a x = a' x) (hh : i.Holds env a n) : i.Holds env a' n := by
  have hmap : ∀ xs : List Nat, (∀ x ∈ xs, x < n) → xs.map a' = xs.map a := by
    intro xs hx
    exact List.map_congr_left fun x hx' => (h x (by have := hx x hx'; omega)).symm
  have hin : ∀ x ∈ i.inputs, x < n := fun x hx => (hr.1 x hx).2
  cases i with
  | linComb lc =>
      simp only [OInsn.Holds, OInsn.numOut] at hh h ⊢
      rw [← h n (by omega), hh]
      exact LinComb.eval_congr hin fun x hx => h x (by omega)
  | mul xs =>
      simp only [OInsn.Holds, OInsn.numOut] at hh h ⊢
      rw [← h n (by omega), hh, hmap xs hin]
  | hint id xs k => trivial
  | constant c =>
      simp only [OInsn.Holds, OInsn.numOut] at hh h ⊢
      rw [← h n (by omega), hh]
  | random => trivial
  | publicInput k =>
      simp only [OInsn.Holds, OInsn.numOut] at hh h ⊢
      rw [← h n (by omega), hh]
  | call id xs k =>
      simp only [OInsn.Holds, OInsn.numOut] at hh h ⊢
      rw [hmap xs hin, ← outs_congr h]; exact hh
  | gate ty xs =>
      simp only [OInsn.Holds, OInsn.numOut] at hh h ⊢
      rw [← h n (by omega), hh, hmap xs hin]

theorem getExprs_ok {b : B F} {xs : List Nat} (h : ∀ x ∈ xs, x < b.exprs.length) :
    ∃ es, getExprs b xs = some es ∧ List.Forall₂ (fun x e => b.exprs[x]? = some e) xs es := by
  induction xs with
  | nil => exact ⟨[], rfl, .nil⟩
  | cons x xs ih =>
      obtain ⟨es, h1, h2⟩ := ih fun y hy => h y (List.mem_cons_of_mem _ hy)
      have hx := h x List.mem_cons_self
      refine ⟨b.exprs[x] :: es, ?_, .cons (List.getElem?_eq_getElem hx) h2⟩
      rw [getExprs, List.getElem?_eq_getElem hx, h1]
      rfl

theorem forall₂_mem {b : B F} {xs : List Nat} {es : List (Expr F)}
    (h : List.Forall₂ (fun x e => b.exprs[x]? = some e) xs es) : ∀ e ∈ es, e ∈ b.exprs := by
  induction h with
  | nil => simp
  | cons hx _ ih =>
      intro e he
      rcases List.mem_cons.1 he with rfl | he
      · exact List.mem_of_getElem? hx
      · exact ih e he

theorem forall₂_eval {b : B F} {xs : List Nat} {es : List (Expr F)} {a m : Nat → F}
    (h : List.Forall₂ (fun x e => b.exprs[x]? = some e) xs es) (h1 : ∀ x ∈ xs, 1 ≤ x)
    (hv : ∀ (x : Nat) (d : Expr F), 1 ≤ x → b.exprs[x]? = some d → a x = Expr.eval m d) :
    es.map (Expr.eval m) = xs.map a := by
  induction h with
  | nil => rfl
  | cons hx _ ih =>
      rw [List.map_cons, List.map_cons, ih fun y hy => h1 y (List.mem_cons_of_mem _ hy),
        hv _ _ (h1 _ List.mem_cons_self) hx]

theorem linValue_zip {m a : Nat → F} (ts : List (Nat × F)) (es : List (Expr F))
    (h : es.map (Expr.eval m) = (ts.map Prod.fst).map a) :
    linValue (es.zip (ts.map Prod.snd)) m = (ts.map fun t => a t.1 * t.2).sum := by
  induction ts generalizing es with
  | nil =>
      simp only [List.map_nil, List.map_eq_nil_iff] at h
      subst h; rfl
  | cons t ts ih =>
      cases es with
      | nil => simp at h
      | cons e es =>
          simp only [List.map_cons, List.cons.injEq] at h
          rw [List.map_cons, List.zip_cons_cons, linValue_cons, ih es h.2, h.1, List.map_cons,
            List.sum_cons]

theorem addLinComb_ok {N : Nat} {b : B F} (h : Inv N b) {lc : LinComb F}
    (hr : InRange b.exprs.length (.linComb lc)) :
    ∃ b', addLinComb lc { b with insns := b.insns ++ [.linComb lc] } = .ok b' ∧
      Pushed N b (.linComb lc) b' := by
  obtain ⟨es, h1, h2⟩ := getExprs_ok (b := { b with insns := b.insns ++ [.linComb lc] })
    (xs := lc.terms.map Prod.fst) (fun x hx => (hr.1 x hx).2)
  have hes := forall₂_mem h2
  obtain ⟨r, P', hr1, hr2⟩ := linCombInner_ok h.wf.pool (vars := es.zip (lc.terms.map Prod.snd) ++
    (if lc.constant = 0 then [] else [(newConst lc.constant, 1)])) (by
      intro ec hec
      rcases List.mem_append.1 hec with hec | hec
      · exact h.wf.wf _ (hes _ (List.of_mem_zip (show (ec.1, ec.2) ∈ _ from hec)).1)
      · split_ifs at hec
        · simp at hec
        · simp only [List.mem_singleton] at hec
          subst hec
          exact wf_newConst _ _)
  obtain ⟨b', h3, h4⟩ := fix_one_ok h (i := .linComb lc) (e := r) (P := P') rfl hr2.ext hr2.pool
    hr2.wf (fun env a m hm hv => by
      have hev : Expr.eval m r = lc.eval a := by
        rw [hr2.eval m hm]
        unfold linValue
        rw [List.map_append, List.sum_append]
        have hz := linValue_zip lc.terms es (forall₂_eval h2 (fun x hx => (hr.1 x hx).1) hv)
        unfold linValue at hz
        rw [hz]
        unfold LinComb.eval
        congr 1
        split_ifs with h0
        · simp [h0]
        · simp [Expr.eval_newConst]
      rw [hev]; rfl)
    (fun env a a' hag => holds_local hr env a a' fun x hx => hag x (by
      simp only [OInsn.numOut] at hx; omega))
  refine ⟨b', ?_, h4⟩
  unfold addLinComb
  rw [h1]
  simp only [orPanic, bind, Except.bind, hr1]
  exact h3

theorem addMulVec_ok {N : Nat} {b : B F} (h : Inv N b) (le : Expr F → Expr F → Bool) {xs : List Nat}
    (hr : InRange b.exprs.length (.mul xs : OInsn F)) :
    ∃ b', addMulVec le xs { b with insns := b.insns ++ [.mul xs] } = .ok b' ∧
      Pushed N b (.mul xs) b' := by
  have hl2 := hr.2 xs rfl
  obtain ⟨es, h1, h2⟩ := getExprs_ok (b := { b with insns := b.insns ++ [.mul xs] })
    (xs := xs) (fun x hx => (hr.1 x hx).2)
  have hes := forall₂_mem h2
  have hperm := List.perm_insertionSort (fun s t => le s t = true) es
  have hlen : (es.insertionSort fun s t => le s t = true).length = xs.length := by
    rw [hperm.length_eq, h2.length_eq]
  unfold addMulVec
  rw [if_neg (by omega), h1]
  simp only [orPanic, bind, Except.bind]
  rcases hs : es.insertionSort (fun s t => le s t = true) with _ | ⟨e1, _ | ⟨e2, r⟩⟩
  · rw [hs] at hlen; simp at hlen; omega
  · rw [hs] at hlen; simp at hlen; omega
  · rw [hs] at hperm
    have hmem : ∀ e ∈ e1 :: e2 :: r, Expr.WF b.pool.length e := fun e he =>
      h.wf.wf e (hes e (hperm.subset he))
    obtain ⟨c1, P1, g1, r1⟩ := mulTwo_ok h.wf.pool (hmem e1 (by simp)) (hmem e2 (by simp))
    obtain ⟨c2, P2, g2, r2⟩ := mulMany_ok r1.pool r1.wf (es := r)
      fun e he => (hmem e (by simp [he])).mono r1.len
    obtain ⟨b', h3, h4⟩ := fix_one_ok h (i := .mul xs) (e := c2) (P := P2) rfl
      (r1.ext.trans r2.ext) r2.pool r2.wf (fun env a m hm hv => by
        have hev : Expr.eval m c2 = (xs.map a).prod := by
          rw [r2.eval m hm, r1.eval m (hm.prefix r2.ext),
            ← forall₂_eval h2 (fun x hx => (hr.1 x hx).1) hv,
            ← (hperm.map (Expr.eval m)).prod_eq]
          simp only [List.map_cons, List.prod_cons]
          ring
        rw [hev]; rfl)
      (fun env a a' hag => holds_local hr env a a' fun x hx => hag x (by
        simp only [OInsn.numOut] at hx; omega))
    refine ⟨b', ?_, h4⟩
    simp only [g1, g2]
    exact h3

theorem reallySingles_ok {P : Pool F} (h : PoolWF P) {es : List (Expr F)}
    (hes : ∀ e ∈ es, Expr.WF P.length e) :
    P <+: reallySingles P es ∧ PoolWF (reallySingles P es) := by
  induction es generalizing P with
  | nil => exact ⟨List.prefix_refl _, h⟩
  | cons e es ih =>
      obtain ⟨h1, h2⟩ := toReallySingle_ok h (hes e List.mem_cons_self)
      obtain ⟨h3, h4⟩ := ih h2 fun x hx =>
        (hes x (List.mem_cons_of_mem _ hx)).mono h1.length_le
      exact ⟨h1.trans h3, h4⟩

/-- `push_insn` never panics on variables which exist, keeps the invariant, and adds exactly the
condition of the pushed instruction, even when it stores another instruction in its place. -/
theorem push_ok (cfg : Cfg F) {N : Nat} {b : B F} (h : Inv N b) {i : OInsn F}
    (hr : InRange b.exprs.length i) :
    ∃ b', push cfg i b = .ok (b.exprs.length, b') ∧ Pushed N b i b' := by
  suffices hs : ∃ b', executeOut cfg i { b with insns := b.insns ++ [i] } = .ok b' ∧
      Pushed N b i b' by
    obtain ⟨b', h1, h2⟩ := hs
    refine ⟨b', ?_, h2⟩
    unfold push
    rw [h1]
    simp only [h2.len, Nat.add_sub_cancel]
  have hfresh : ∃ b', addOutVars i.numOut { b with insns := b.insns ++ [i] } = .ok b' ∧
      Pushed N b i b' :=
    push_fresh h (List.prefix_refl _) h.wf.pool (fun env a a' hag => holds_local hr env a a' hag)
  cases i with
  | linComb lc => exact addLinComb_ok h hr
  | mul xs => exact addMulVec_ok h cfg.le hr
  | hint id xs n => exact hfresh
  | constant c =>
      exact fix_one_ok h (i := .constant c) (e := newConst c) (P := b.pool) rfl
        (List.prefix_refl _) h.wf.pool (wf_newConst _ _) (fun env a m hm hv => by
          rw [Expr.eval_newConst]; rfl)
        (fun env a a' hag => holds_local hr env a a' fun x hx => hag x (by
          simp only [OInsn.numOut] at hx; omega))
  | random => exact hfresh
  | publicInput k => exact hfresh
  | call id xs n =>
      obtain ⟨es, h1, h2⟩ := getExprs_ok (b := { b with insns := b.insns ++ [.call id xs n] })
        (xs := xs) (fun x hx => (hr.1 x hx).2)
      obtain ⟨g1, g2⟩ := reallySingles_ok h.wf.pool (es := es)
        fun e he => h.wf.wf e (forall₂_mem h2 e he)
      obtain ⟨b', h3, h4⟩ := push_fresh h (i := .call id xs n) g1 g2
        (fun env a a' hag => holds_local hr env a a' hag)
      refine ⟨b', ?_, h4⟩
      unfold executeOut subCircuitCall
      simp only
      rw [h1]
      exact h3
  | gate ty xs => exact hfresh

end JST.Comp
