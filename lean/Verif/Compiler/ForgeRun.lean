import Verif.Compiler.Forge

/-!
# Forged runs, one source instruction at a time
-/

namespace JST.Comp

open JST.Circ

variable {F : Type} [Field F] [DecidableEq F]

def B.setIto (b : B F) (l : List Nat) : B F := { b with inToOut := l }

theorem inv_setIto {N : Nat} {b : B F} (h : Inv N b) (l : List Nat) :
    Inv N { b with inToOut := l } :=
  ⟨⟨h.wf.pool, h.wf.zero, h.wf.wf, h.wf.len, h.wf.mto, h.wf.mtoRef, h.wf.e2o, h.wf.e2oRef,
    h.wf.cons⟩, h.loc, h.val, h.marked⟩

/-- An instruction all of whose steps are known: the values of the source side are carried over. -/
theorem processInsn_via (cfg : Cfg F) {X : Expr F → Prop} {N : Nat} {b b1 : B F}
    (hito : ItoOk b) {i : SInsn F} {xs : List Nat}
    (hin : ∀ x ∈ i.inputs, 1 ≤ x ∧ x < b.inToOut.length)
    (ht : (transform cfg (SInsn.replace (fun x => b.inToOut.getD x 0) i) >>=
      finishLowered cfg i.numOut) b = .ok (xs, b1))
    (inv1 : Inv N b1) (hex : b.exprs <+: b1.exprs) (hi : b1.inToOut = b.inToOut)
    (hn : xs.length = i.numOut) (hr : ∀ x ∈ xs, 1 ≤ x ∧ x < b1.exprs.length) :
    ∃ b', processInsn cfg i b = .ok ((), b') ∧ Inv N b' ∧ b.exprs <+: b'.exprs ∧
      b'.exprs = b1.exprs ∧ b'.cons = b1.cons ∧ b'.inToOut = b.inToOut ++ xs ∧ ItoOk b' ∧
      ∀ (env : Env F) (a2 s : Nat → F), Full X env N a2 b1 →
        (∀ x, 1 ≤ x → x < b.inToOut.length → s x = a2 (b.inToOut.getD x 0)) →
        (∀ k, k < i.numOut → s (b.inToOut.length + k) = a2 (xs.getD k 0)) →
        Full X env N a2 b' ∧ Match a2 s b' := by
  refine ⟨{ b1 with inToOut := b.inToOut ++ xs }, ?_, inv_setIto inv1 _, hex, rfl, rfl, rfl, ?_, ?_⟩
  · rw [processInsn_eq cfg i b fun x hx => (hin x hx).2, ht]
    simp only [hi]
  · intro x hx1 hx2
    show 1 ≤ (b.inToOut ++ xs).getD x 0 ∧ (b.inToOut ++ xs).getD x 0 < b1.exprs.length
    change x < (b.inToOut ++ xs).length at hx2
    by_cases hlt : x < b.inToOut.length
    · rw [getD_prefix (List.prefix_append _ _) hlt]
      have := hito x hx1 hlt
      have := hex.length_le
      omega
    · rw [List.length_append] at hx2
      have hg : (b.inToOut ++ xs).getD x 0 ∈ xs := by
        rw [List.getD_eq_getElem?_getD, List.getElem?_append_right (by omega),
          List.getElem?_eq_getElem (by omega)]
        exact List.getElem_mem _
      exact hr _ hg
  · intro env a2 s hf hold hnew
    refine ⟨hf, ?_⟩
    intro x hx1 hx2
    show s x = a2 ((b.inToOut ++ xs).getD x 0)
    change x < (b.inToOut ++ xs).length at hx2
    by_cases hlt : x < b.inToOut.length
    · rw [getD_prefix (List.prefix_append _ _) hlt]; exact hold x hx1 hlt
    · rw [List.length_append] at hx2
      have := hnew (x - b.inToOut.length) (by omega)
      rw [show b.inToOut.length + (x - b.inToOut.length) = x by omega] at this
      rw [this, List.getD_eq_getElem?_getD, List.getD_eq_getElem?_getD,
        List.getElem?_append_right (by omega)]

/-- The source variable `x` is the intermediate variable `j`, or its negation. -/
def SLit (j : Nat) (b : B F) (x : Nat) : Prop := Lit j b (b.inToOut.getD x 0)

theorem SLit.prefix {j x : Nat} {b b' : B F} (h : b.exprs <+: b'.exprs)
    (hi : b.inToOut <+: b'.inToOut) (hx : x < b.inToOut.length) (hl : SLit j b x) :
    SLit j b' x := by
  unfold SLit at *
  rw [getD_prefix hi hx]
  exact hl.prefix h

/-- The expression of a source variable. -/
def SExpr (b : B F) (x : Nat) (e : Expr F) : Prop := b.exprs[b.inToOut.getD x 0]? = some e

theorem SExpr.prefix {x : Nat} {e : Expr F} {b b' : B F} (h : b.exprs <+: b'.exprs)
    (hi : b.inToOut <+: b'.inToOut) (hx : x < b.inToOut.length) (hl : SExpr b x e) :
    SExpr b' x e := by
  unfold SExpr at *
  rw [getD_prefix hi hx]
  exact get?_prefix h hl

/-- What is known after a source instruction: `C` is what the values have to satisfy. -/
structure Fwd (j N : Nat) (b b' : B F) (C : (Nat → F) → Prop) : Prop where
  inv : Inv N b'
  exprs : b.exprs <+: b'.exprs
  ito : b.inToOut <+: b'.inToOut
  itoOk : ItoOk b'
  go : ∀ (env : Env F) (a s : Nat → F), Full (Only j) env N a b → Match a s b → C s →
    ∃ a', (∀ x, x < b.exprs.length → a' x = a x) ∧ Full (Only j) env N a' b' ∧ Match a' s b'

theorem Ran.fwd {j N : Nat} {b b' : B F} {R : Env F → (Nat → F) → Prop} {H : (Nat → F) → Prop}
    (h : Ran (Only j) N b b' R H) : Fwd j N b b' fun s => (∀ env, R env s) ∧ H s :=
  ⟨h.inv, h.exprs, h.ito, h.itoOk, fun env a s hf hm hC => h.complete env a s hf hm (hC.1 env) hC.2⟩

theorem getD_snoc (l : List Nat) (r : Nat) : (l ++ [r]).getD l.length 0 = r := by
  simp [List.getD]

theorem bool_fwd (cfg : Cfg F) {j N : Nat} {b : B F} (h : Inv N b) (hito : ItoOk b) {x y : Nat}
    (op : BoolOp) (hx : 1 ≤ x ∧ x < b.inToOut.length) (hy : 1 ≤ y ∧ y < b.inToOut.length)
    (h2 : (1 + 1 : F) ≠ 0) :
    ∃ b', processInsn cfg (.boolBin x y op) b = .ok ((), b') ∧
      b'.inToOut.length = b.inToOut.length + 1 ∧
      Fwd j N b b' (fun s => (SLit j b x ∨ s x = 0 ∨ s x = 1) ∧ (SLit j b y ∨ s y = 0 ∨ s y = 1) ∧
        s b.inToOut.length = boolPoly op (s x) (s y)) ∧
      (SLit j b' b.inToOut.length → lookup (bcx j) b'.cons = some .marked) ∧
      (∀ c, SExpr b x (newLinear 1 j) → SExpr b y (newConst c) → c = 0 ∨ c = 1 → op ≠ .or →
        SExpr b' b.inToOut.length (resExpr j c op)) := by
  obtain ⟨r, b1, e1, L, hgo, hmk, hre⟩ := lowerBool_forge (j := j) cfg h op (hito x hx.1 hx.2)
    (hito y hy.1 hy.2) h2
  obtain ⟨b', k1, k2, k3, k4, k4', k5, k6, k7⟩ := processInsn_via cfg (X := Only j) (N := N)
    (i := .boolBin x y op) (xs := [r]) (b1 := b1) hito (by
      intro z hz
      simp only [SInsn.inputs, List.mem_cons, List.not_mem_nil, or_false] at hz
      rcases hz with rfl | rfl <;> assumption) e1 L.inv L.exprs L.ito rfl L.range
  have hnew : b'.inToOut.getD b.inToOut.length 0 = r := by rw [k5, getD_snoc]
  refine ⟨b', k1, by rw [k5]; simp, ⟨k2, k3, by rw [k5]; exact List.prefix_append _ _, k6, ?_⟩,
    ?_, ?_⟩
  · rintro env a s hf hm ⟨c1, c2, c3⟩
    obtain ⟨a2, p, q, v⟩ := hgo env a hf
      (by rw [← hm x hx.1 hx.2]; exact c1) (by rw [← hm y hy.1 hy.2]; exact c2)
    refine ⟨a2, p, k7 env a2 s q ?_ ?_⟩
    · intro z h1 h2
      rw [p _ (hito z h1 h2).2, hm z h1 h2]
    · intro k hk
      simp only [SInsn.numOut] at hk
      have hk0 : k = 0 := by omega
      subst hk0
      show s b.inToOut.length = a2 r
      rw [c3, v, hm x hx.1 hx.2, hm y hy.1 hy.2]
  · intro hl
    rw [k4']
    apply hmk
    unfold SLit at hl
    rw [hnew] at hl
    unfold Lit at hl ⊢
    rw [← k4]; exact hl
  · intro c hxe hye hc hop
    unfold SExpr
    rw [hnew, k4]
    exact hre c hxe hye hc hop

theorem const_fwd (cfg : Cfg F) {X : Expr F → Prop} {N : Nat} {b : B F} (h : Inv N b)
    (hito : ItoOk b) (h1 : 1 ≤ b.inToOut.length) (c : F) :
    ∃ b', processInsn cfg (.constant c) b = .ok ((), b') ∧
      b'.inToOut.length = b.inToOut.length + 1 ∧
      Ran X N b b' (fun _ s => s b.inToOut.length = c) (fun _ => True) ∧
      SExpr b' b.inToOut.length (newConst c) := by
  obtain ⟨b1, e1, l1, -⟩ := pushConst_ok (X := X) cfg h c
  have hp : processInsn cfg (.constant c) b = .ok ((), b1.setIto (b1.inToOut ++
      (List.range 1).map fun k => b.exprs.length + k)) := by
    have e1' : push cfg (.constant c) b = .ok (b.exprs.length, b1) := e1
    unfold processInsn
    simp only [SInsn.inputs, List.all_nil, if_true, SInsn.replace, transform, M.pure, OInsn.numOut,
      SInsn.numOut, ne_eq, not_true_eq_false, if_false]
    rw [e1']
    rfl
  rcases processInsn_ok (X := X) cfg h hito h1 (i := .constant c) (by simp [SInsn.inputs])
    (by intro xs hx; cases hx) with he | ⟨b', e, l, R⟩
  · rw [hp] at he; cases he
  · refine ⟨b', e, l, ⟨R.inv, R.exprs, R.ito, R.itoOk, R.sound,
      fun env a s hf hm hR _ => R.complete env a s hf hm hR trivial⟩, ?_⟩
    rw [hp] at e
    cases e
    have hi1 : b1.inToOut = b.inToOut := by
      obtain ⟨b2, e2, -, s2⟩ := pushConst_ok (X := X) cfg h c
      rw [e1] at e2; cases e2; exact s2.ito
    unfold SExpr
    show b1.exprs[(b1.inToOut ++ (List.range 1).map fun k => b.exprs.length + k).getD
      b.inToOut.length 0]? = _
    have : (List.range 1).map (fun k => b.exprs.length + k) = [b.exprs.length] := by
      simp [List.range_succ]
    rw [this, hi1, getD_snoc]
    exact snoc_get (push_const_exprs cfg e1)

theorem sub_fwd (cfg : Cfg F) {j N : Nat} {b : B F} (h : Inv N b)
    (hito : ItoOk b) {o x : Nat} (ho : 1 ≤ o ∧ o < b.inToOut.length)
    (hx : 1 ≤ x ∧ x < b.inToOut.length) :
    ∃ b', processInsn cfg (.linComb ⟨[(o, 1), (x, -1)], 0⟩) b = .ok ((), b') ∧
      b'.inToOut.length = b.inToOut.length + 1 ∧
      Ran (Only j) N b b' (fun _ s => s b.inToOut.length = s o - s x) (fun _ => True) ∧
      (SExpr b o (newConst 1) → SLit j b x → SLit j b' b.inToOut.length) := by
  have ho' := hito o ho.1 ho.2
  have hx' := hito x hx.1 hx.2
  obtain ⟨b1, e1, l1, s1⟩ := pushLin2_ok (X := Only j) cfg h 1 (-1) ho' hx'
  have hp : processInsn cfg (.linComb ⟨[(o, 1), (x, -1)], 0⟩) b =
      .ok ((), b1.setIto (b1.inToOut ++
      (List.range 1).map fun k => b.exprs.length + k)) := by
    unfold processInsn
    rw [if_pos (by
      simp only [SInsn.inputs, List.map_cons, List.map_nil, List.all_cons, List.all_nil,
        Bool.and_true, Bool.and_eq_true, decide_eq_true_eq]
      exact ⟨ho.2, hx.2⟩)]
    simp only [SInsn.replace, transform, M.pure, OInsn.numOut, List.map_cons, List.map_nil,
      SInsn.numOut, ne_eq, not_true_eq_false, if_false]
    rw [e1]
    rfl
  rcases processInsn_ok (X := Only j) cfg h hito (by omega)
    (i := .linComb ⟨[(o, 1), (x, -1)], 0⟩) (by
      intro z hz
      simp only [SInsn.inputs, List.map_cons, List.map_nil, List.mem_cons, List.not_mem_nil,
        or_false] at hz
      rcases hz with rfl | rfl <;> assumption)
    (by intro xs hx; cases hx) with he | ⟨b', e, l, R⟩
  · rw [hp] at he; cases he
  · refine ⟨b', e, l, ⟨R.inv, R.exprs, R.ito, R.itoOk, fun env a ho => ⟨(R.sound env a ho).1,
      fun s hm => ?_⟩, fun env a s hf hm hR _ => R.complete env a s hf hm ?_ trivial⟩, ?_⟩
    · have := (R.sound env a ho).2 s hm
      simp only [SInsn.Holds, LinComb.eval, List.map_cons, List.map_nil, List.sum_cons,
        List.sum_nil] at this
      rw [this]; ring
    · simp only [SInsn.Holds, LinComb.eval, List.map_cons, List.map_nil, List.sum_cons,
        List.sum_nil]
      rw [hR]; ring
    · intro hoe hxl
      rw [hp] at e
      cases e
      have : (List.range 1).map (fun k => b.exprs.length + k) = [b.exprs.length] := by
        simp [List.range_succ]
      unfold SLit
      show Lit j _ ((b1.inToOut ++ (List.range 1).map fun k => b.exprs.length + k).getD
        b.inToOut.length 0)
      rw [this, s1.ito, getD_snoc]
      rcases hxl with hxl | hxl
      · right
        have k := snoc_get (push_lin2_exprs cfg e1 hoe hxl (lin_one_sub_x _ j))
        exact k
      · left
        have k := snoc_get (push_lin2_exprs cfg e1 hoe hxl (lin_one_sub_not _ j))
        exact k

/-! ## Bits -/

/-- The decomposition into bits, where the lowest bit may have any value. -/
theorem toBinary_fwd (cfg : Cfg F) {N : Nat} {b : B F} (h : Inv N b) (hito : ItoOk b) {x : Nat}
    (m : Nat) (hx : 1 ≤ x ∧ x < b.inToOut.length) :
    ∃ b', processInsn cfg (.toBinary x (m + 1)) b = .ok ((), b') ∧
      b'.inToOut.length = b.inToOut.length + (m + 1) ∧
      Fwd b.pool.length N b b' (fun s =>
        (∀ i, 1 ≤ i → i < m + 1 → s (b.inToOut.length + i) = 0 ∨ s (b.inToOut.length + i) = 1) ∧
        s x = ((List.range (m + 1)).map fun i => 2 ^ i * s (b.inToOut.length + i)).sum) ∧
      SExpr b' b.inToOut.length (newLinear 1 b.pool.length) := by
  set j := b.pool.length with hj
  have hx' := hito x hx.1 hx.2
  set y := b.inToOut.getD x 0 with hy
  obtain ⟨xs, b6, e6, L⟩ := lowerToBinary_ok (X := Only j) cfg h (m + 1) hx'
  obtain ⟨b1, e1, l1, g1, c1⟩ := pushHint_grow (X := Only j) cfg h hintToBinary (xs := [y]) (by
    intro z hz
    simp only [List.mem_cons, List.not_mem_nil, or_false] at hz
    subst hz; exact hx') (m + 1)
  obtain ⟨b2, e2, l2, g2⟩ := pushConst_grow (X := Only j) cfg g1.inv 0
  -- the lowest bit
  set n0 := b.exprs.length with hn0
  obtain ⟨b3, e3, l3, g3⟩ := assertBool_forge (j := j) cfg g2.inv (x := n0) (by omega)
  obtain ⟨b4, e4, l4, g4⟩ := pushLin1_grow (X := Only j) cfg g3.inv (x := n0) 1 (by omega)
  obtain ⟨b5, e5, l5, g5⟩ := pushLin2_grow (X := Only j) cfg g4.inv (x := b1.exprs.length)
    (y := b3.exprs.length) 1 1 (by omega) (by omega)
  set rest := (List.range m).map fun i => n0 + (i + 1) with hrest
  have hbr : ∀ z ∈ rest, 1 ≤ z ∧ z < b1.exprs.length := by
    intro z hz
    simp only [hrest, List.mem_map, List.mem_range] at hz
    obtain ⟨i, hi, rfl⟩ := hz
    omega
  obtain ⟨r, b7, e7, hr1, hr2, g7⟩ := bitsLoop_ok (X := Only j) cfg rest g5.inv (1 + 1)
    (sum := b4.exprs.length) (fun z hz => by have := hbr z hz; omega) (by omega)
  have l7 := g7.len
  obtain ⟨b8, e8, l8, g8⟩ := pushLin2_grow (X := Only j) cfg g7.inv (x := r) (y := y) (-1) 1
    ⟨hr1, hr2⟩ (by omega)
  obtain ⟨b9, e9, l9, g9⟩ := assertZ_grow (X := Only j) g8.inv (t := b7.exprs.length) (by omega)
    (by omega)
  have hbits : (List.range (m + 1)).map (fun i => n0 + i) = n0 :: rest := by
    rw [List.range_succ_eq_map, List.map_cons, List.map_map]; rfl
  have hrun : xs = n0 :: rest ∧ b6 = b9 := by
    rw [bind_ok (x := .vars (n0 :: rest)) (b' := b9) (by
      unfold lowerToBinary
      rw [bind_ok e1]
      simp only [hbits]
      rw [bind_ok e2, bitsLoop]
      unfold pushAdd
      rw [bind_ok (x := r) (b' := b7) (by
        rw [bind_ok e3, bind_ok e4, bind_ok e5, e7]), bind_ok e8, bind_ok e9]
      rfl)] at e6
    simp only [finishLowered] at e6
    rw [if_neg (by simp [hrest])] at e6
    simp only [Except.ok.injEq, Prod.mk.injEq] at e6
    exact ⟨e6.1.symm, e6.2.symm⟩
  obtain ⟨rfl, rfl⟩ := hrun
  obtain ⟨b', k1, k2, k3, k4, k4', k5, k6, k7⟩ := processInsn_via cfg (X := Only j) (N := N)
    (i := .toBinary x (m + 1)) (xs := n0 :: rest) (b1 := b6) hito (by
      intro z hz
      simp only [SInsn.inputs, List.mem_cons, List.not_mem_nil, or_false] at hz
      rcases hz with rfl; assumption) e6 L.inv L.exprs L.ito (by simp [hrest, SInsn.numOut]) L.range
  have hbit0 : b1.exprs[n0]? = some (newLinear 1 j) := by
    rw [push_hint_exprs cfg h e1, List.getElem?_append_right (by omega)]
    rw [show n0 - b.exprs.length = 0 by omega, fresh_get (by omega)]; rfl
  refine ⟨b', k1, by rw [k5]; simp [hrest], ⟨k2, k3, by rw [k5]; exact List.prefix_append _ _, k6,
    ?_⟩, ?_⟩
  · rintro env a s hf hm ⟨d1, d2⟩
    obtain ⟨a1, p1, q1, s1⟩ := c1 env a (fun i => s (b.inToOut.length + i)) hf
    obtain ⟨a2, p2, q2, s2⟩ := g2.complete env a1 q1 trivial
    obtain ⟨a3, p3, q3, -⟩ := g3.complete env a2 q2
      (Or.inl (Or.inl (get?_prefix g2.exprs hbit0)))
    obtain ⟨a4, p4, q4, s4⟩ := g4.complete env a3 q3 trivial
    obtain ⟨a5, p5, q5, s5⟩ := g5.complete env a4 q4 trivial
    have hold5 : ∀ z, z < b1.exprs.length → a5 z = a1 z := fun z hz => by
      rw [p5 z (by omega), p4 z (by omega), p3 z (by omega), p2 z hz]
    obtain ⟨a7, p7, q7, s7, s7'⟩ := g7.complete env a5 q5 (by
      intro z hz
      have hz' := hbr z hz
      rw [hold5 z hz'.2]
      simp only [hrest, List.mem_map, List.mem_range] at hz
      obtain ⟨i, hi, rfl⟩ := hz
      rw [s1 (i + 1)]
      exact d1 (i + 1) (by omega) (by omega))
    obtain ⟨a8, p8, q8, s8⟩ := g8.complete env a7 q7 trivial
    have hold : ∀ z, z < b1.exprs.length → a7 z = a1 z := fun z hz => by
      rw [p7 z (by omega), hold5 z hz]
    have hsum : a7 r = s x := by
      have hrv : rest.map a7 = (List.range m).map fun i => s (b.inToOut.length + (i + 1)) := by
        rw [hrest, List.map_map]
        apply List.map_congr_left
        intro i hi
        rw [List.mem_range] at hi
        simp only [Function.comp]
        rw [hold _ (by omega), s1 (i + 1)]
      have hfull : binVal (outs s b.inToOut.length (m + 1)) = s x := by
        rw [binVal_outs, d2]
      have hsplit : outs s b.inToOut.length (m + 1) =
          s b.inToOut.length :: (List.range m).map fun i => s (b.inToOut.length + (i + 1)) := by
        unfold outs
        rw [List.range_succ_eq_map, List.map_cons, List.map_map]; rfl
      rw [s7', hrv, ← hfull, hsplit, binVal, p7 _ (by omega), s5, p5 _ (by omega),
        p5 _ (by omega), s4, p4 _ (by omega), p3 _ (by omega), s2, p4 n0 (by omega),
        p3 n0 (by omega), p2 n0 (by omega), show a1 n0 = s (b.inToOut.length + 0) from s1 0,
        Nat.add_zero]
      ring
    have hxv : a7 y = s x := by
      rw [hold y (by omega), p1 y hx'.2, hm x hx.1 hx.2]
    obtain ⟨a9, p9, q9, -⟩ := g9.complete env a8 q8 (by
      show a8 b7.exprs.length = 0
      rw [s8, p8 r hr2, p8 y (by omega), hsum, hxv]; ring)
    have hall : ∀ z, z < b1.exprs.length → a9 z = a1 z := fun z hz => by
      rw [p9 z (by omega), p8 z (by omega), hold z hz]
    refine ⟨a9, fun z hz => by rw [hall z (by omega), p1 z hz], k7 env a9 s q9 ?_ ?_⟩
    · intro z h1 h2
      have := (hito z h1 h2).2
      rw [hall _ (by omega), p1 _ this, hm z h1 h2]
    · intro k hk
      simp only [SInsn.numOut] at hk
      have hg : (n0 :: rest).getD k 0 = n0 + k := by
        rw [← hbits, List.getD_eq_getElem?_getD, List.getElem?_map, List.getElem?_range hk]; rfl
      rw [hg, hall _ (by omega), s1 k]
  · unfold SExpr
    have h0 : b'.inToOut.getD b.inToOut.length 0 = n0 := by
      rw [k5, List.getD_eq_getElem?_getD, List.getElem?_append_right (by omega)]
      simp
    rw [h0, k4]
    exact get?_prefix (g2.exprs.trans (g3.exprs.trans (g4.exprs.trans (g5.exprs.trans
      (g7.exprs.trans (g8.exprs.trans g9.exprs)))))) hbit0

/-! ## Instructions the pass never refuses -/

def Safe : SInsn F → Prop
  | .constant _ => True
  | .linComb _ => True
  | .boolBin _ _ _ => True
  | _ => False

theorem processInsns_safe (cfg : Cfg F) {X : Expr F → Prop} {N : Nat} (l : List (SInsn F)) {b : B F}
    (h : Inv N b) (hito : ItoOk b) (h1 : 1 ≤ b.inToOut.length)
    (hv : SInsn.ValidAll b.inToOut.length l) (hs : ∀ i ∈ l, Safe i) :
    ∃ b', processInsns cfg l b = .ok ((), b') ∧
      b'.inToOut.length = b.inToOut.length + totalOut l ∧
      Ran X N b b' (fun env s => SInsn.HoldAll env s b.inToOut.length l)
        (fun s => SInsn.HonestAll cfg.ev s b.inToOut.length l) := by
  rcases processInsns_ok (X := X) cfg l h hito h1 hv with he | h'
  · exfalso
    induction l generalizing b with
    | nil => cases he
    | cons i l ih =>
        rw [processInsns] at he
        rcases processInsn_ok (X := X) cfg h hito h1 (i := i) hv.1 hv.2.1 with hi | ⟨b1, e1, l1, R⟩
        · have hsafe := hs i List.mem_cons_self
          have hin := hv.1
          cases i with
          | constant c =>
              obtain ⟨b', e, -⟩ := const_fwd (X := X) cfg h hito h1 c
              rw [e] at hi; cases hi
          | linComb lc =>
              obtain ⟨b1, e1, -⟩ := push_step (X := X) cfg h (i := .linComb
                ⟨lc.terms.map fun t => (b.inToOut.getD t.1 0, t.2), lc.constant⟩) ⟨by
                  intro z hz
                  simp only [OInsn.inputs, List.map_map, List.mem_map] at hz
                  obtain ⟨t, ht, rfl⟩ := hz
                  have := hin t.1 (by simp only [SInsn.inputs]; exact List.mem_map.2 ⟨t, ht, rfl⟩)
                  exact hito t.1 this.1 this.2, by simp⟩
              unfold processInsn at hi
              rw [if_pos (by
                simp only [List.all_eq_true, decide_eq_true_eq]
                exact fun z hz => (hin z hz).2)] at hi
              simp only [SInsn.replace, transform, M.pure, OInsn.numOut, SInsn.numOut, ne_eq,
                not_true_eq_false, if_false] at hi
              rw [e1] at hi
              cases hi
          | boolBin x y op =>
              have hx := hin x (by simp [SInsn.inputs])
              have hy := hin y (by simp [SInsn.inputs])
              obtain ⟨xs, b1, e1, -⟩ := lowerBool_ok (X := X) cfg h op (hito x hx.1 hx.2)
                (hito y hy.1 hy.2)
              rw [processInsn_eq cfg _ b fun z hz => (hin z hz).2] at hi
              have e1' : (transform cfg (SInsn.replace (fun x => b.inToOut.getD x 0)
                (SInsn.boolBin x y op : SInsn F)) >>= finishLowered cfg
                  (SInsn.boolBin x y op : SInsn F).numOut) b = .ok (xs, b1) := e1
              rw [e1'] at hi
              cases hi
          | _ => exact hsafe
        · rw [bind_ok e1] at he
          have hv2 : SInsn.ValidAll b1.inToOut.length l := by rw [l1]; exact hv.2.2
          exact ih R.inv R.itoOk (by omega) hv2 (fun i hi => hs i (List.mem_cons_of_mem _ hi)) he
  · exact h'

end JST.Comp
