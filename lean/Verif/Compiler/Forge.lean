import Verif.Compiler.ForgeExpr

/-!
# How a mark which overwrites an assertion is exploited

A run of the pass is followed with all assertions but one, `x^2 - x = 0` for the intermediate
variable `j`; at the end this one turns out to be marked, so that it is not in the output.
-/

namespace JST.Comp

open JST.Circ

variable {F : Type} [Field F] [DecidableEq F]

/-- The one expression left out. -/
def Only (j : Nat) : Expr F → Prop := fun e => e = bcx j

theorem Full.mono {X Y : Expr F → Prop} {env : Env F} {N : Nat} {a : Nat → F} {b : B F}
    (h : Full X env N a b) (hxy : ∀ e, X e → Y e) : Full Y env N a b :=
  ⟨h.1, fun e i hY => h.2 e i fun hX => hY (hxy e hX)⟩

/-- When the expression is marked nothing has been left out. -/
theorem Full.all {j : Nat} {env : Env F} {N : Nat} {a : Nat → F} {b : B F}
    (h : Full (Only j) env N a b) (hm : lookup (bcx j) b.cons = some .marked) :
    Full (fun _ => False) env N a b := by
  refine ⟨h.1, fun e i _ h1 h2 h3 => h.2 e i ?_ h1 h2 h3⟩
  intro hX
  rw [show e = bcx j from hX, hm] at h1
  cases h1

/-- An assertion which is left out. -/
theorem assertZ_skip {j N t : Nat} {b b' : B F} (he : b.exprs[t]? = some (bcx j))
    (h : assertZ t b = .ok ((), b')) {env : Env F} {a : Nat → F} (hf : Full (Only j) env N a b) :
    Full (Only j) env N a b' := by
  unfold assertZ at h
  rw [he] at h
  simp only [orPanic, bind, Except.bind] at h
  cases hl : lookup (bcx j) b.cons with
  | some s => rw [hl] at h; cases h; exact hf
  | none =>
      rw [hl] at h
      cases h
      refine ⟨hf.1, fun e i hX h1 h2 h3 => hf.2 e i hX ?_ h2 h3⟩
      change lookup e ((bcx j, .asserted) :: b.cons) = _ at h1
      rw [lookup_cons_ne (fun hh => hX hh.symm)] at h1
      exact h1

theorem assertBool_forge (cfg : Cfg F) {j N : Nat} {b : B F} (h : Inv N b) {x : Nat}
    (hx : 1 ≤ x ∧ x < b.exprs.length) :
    ∃ b', assertBool cfg x b = .ok ((), b') ∧ b'.exprs.length = b.exprs.length + 3 ∧
      Grow (Only j) N b b' (fun _ a => Lit j b x ∨ a x = 0 ∨ a x = 1) (fun _ _ => True) := by
  obtain ⟨b2, e2, l2, g2⟩ := assertBool_grow (X := Only j) cfg h hx
  refine ⟨b2, e2, l2, g2.inv, g2.exprs, g2.ito, fun env a ho => ⟨(g2.sound env a ho).1, trivial⟩, ?_⟩
  intro env a hf hP
  rcases hP with hl | hP
  · obtain ⟨b1, e1, l1, g1⟩ := boolCond_grow (X := Only j) cfg h hx
    obtain ⟨a', p1, q1, -⟩ := g1.complete env a hf trivial
    refine ⟨a', p1, assertZ_skip (t := b.exprs.length + 2) (boolCond_lit cfg hl e1 rfl) ?_ q1,
      trivial⟩
    unfold assertBool at e2
    rw [bind_ok e1] at e2
    exact e2
  · obtain ⟨a', p1, q1, -⟩ := g2.complete env a hf hP
    exact ⟨a', p1, q1, trivial⟩

theorem markBoolNote_lit (cfg : Cfg F) {j N x : Nat} {b b' : B F} (h : Inv N b)
    (hx : 1 ≤ x ∧ x < b.exprs.length) (hl : Lit j b x)
    (hm : markBoolNote cfg x b = .ok ((), b')) : lookup (bcx j) b'.cons = some .marked := by
  obtain ⟨b1, e1, l1, g1⟩ := boolCond_grow (X := Only j) cfg h hx
  have hb := boolCond_lit cfg hl e1 rfl
  unfold markBoolNote at hm
  rw [bind_ok e1] at hm
  have hn : note (b.exprs.length + 2) b1 = .ok ((), { b1 with
      clash := b1.clash || lookup (bcx j) b1.cons == some .asserted }) := by
    unfold note; rw [hb]; rfl
  rw [bind_ok hn] at hm
  unfold mark at hm
  dsimp only at hm
  rw [hb] at hm
  cases hm
  exact lookup_cons_self _ _ _

/-! ## A mark remains -/

/-- A computation which keeps the mark of an expression. -/
def MK (e : Expr F) {α : Type} (m : M F α) : Prop :=
  ∀ b x b', m b = .ok (x, b') → lookup e b.cons = some .marked → lookup e b'.cons = some .marked

theorem mk_pure (e : Expr F) {α : Type} (x : α) : MK e (M.pure x : M F α) := by
  intro b y b' h hm; cases h; exact hm

theorem mk_bind {e : Expr F} {α β : Type} {m : M F α} {f : α → M F β} (hm : MK e m)
    (hf : ∀ x, MK e (f x)) : MK e (m >>= f) := by
  intro b y b' h hl
  change M.bind m f b = _ at h
  unfold M.bind at h
  cases hmb : m b with
  | error e => rw [hmb] at h; cases h
  | ok v =>
      obtain ⟨x, b1⟩ := v
      rw [hmb] at h
      exact hf x b1 y b' h (hm b x b1 hmb hl)

theorem mk_assertZ (e : Expr F) (t : Nat) : MK e (assertZ t : M F Unit) := by
  intro b y b' h hl
  unfold assertZ at h
  simp only [bind, Except.bind] at h
  cases he : b.exprs[t]? with
  | none => rw [he] at h; cases h
  | some d =>
      rw [he] at h
      simp only [orPanic] at h
      split at h
      · cases h; exact hl
      · rename_i hn
        cases h
        show lookup e ((d, .asserted) :: b.cons) = _
        rw [lookup_cons_ne (by rintro rfl; rw [hl] at hn; cases hn)]; exact hl

theorem mk_mark (e : Expr F) (t : Nat) : MK e (mark t : M F Unit) := by
  intro b y b' h hl
  unfold mark at h
  simp only [bind, Except.bind] at h
  cases he : b.exprs[t]? with
  | none => rw [he] at h; cases h
  | some d =>
      rw [he] at h; cases h
      show lookup e ((d, .marked) :: b.cons) = _
      by_cases hd : d = e
      · subst hd; exact lookup_cons_self _ _ _
      · rw [lookup_cons_ne hd]; exact hl

theorem mk_note (e : Expr F) (t : Nat) : MK e (note t : M F Unit) := by
  intro b y b' h hl
  unfold note at h
  simp only [bind, Except.bind] at h
  cases he : b.exprs[t]? with
  | none => rw [he] at h; cases h
  | some d => rw [he] at h; cases h; exact hl

theorem newVars_cons : ∀ {n : Nat} {b b' : B F}, newVars n b = .ok b' → b'.cons = b.cons
  | 0, b, b', h => by cases h; rfl
  | n + 1, b, b', h => by
      unfold newVars at h
      dsimp only at h
      split_ifs at h
      exact (newVars_cons h).trans rfl

theorem addOutVars_cons {n : Nat} {b b' : B F} (h : addOutVars n b = .ok b') :
    b'.cons = b.cons := by
  unfold addOutVars at h
  simp only [bind, Except.bind] at h
  cases h1 : newVars n b with
  | error e => rw [h1] at h; cases h
  | ok b1 =>
      rw [h1] at h
      rw [(fixLoop_same h).2, newVars_cons h1]

theorem executeOut_cons {cfg : Cfg F} {i : OInsn F} {b b' : B F}
    (h : executeOut cfg i b = .ok b') : b'.cons = b.cons := by
  cases i with
  | linComb lc =>
      simp only [executeOut, addLinComb, bind, Except.bind] at h
      cases h1 : getExprs b (lc.terms.map Prod.fst) with
      | none => rw [h1] at h; cases h
      | some es =>
          rw [h1] at h
          simp only [orPanic] at h
          cases h2 : linCombInner b.pool (es.zip (lc.terms.map Prod.snd) ++
              (if lc.constant = 0 then [] else [(newConst lc.constant, 1)])) with
          | none => rw [h2] at h; cases h
          | some v =>
              rw [h2] at h
              exact (fixLoop_same h).2
  | mul xs =>
      simp only [executeOut, addMulVec, bind, Except.bind] at h
      split_ifs at h
      cases h1 : getExprs b xs with
      | none => rw [h1] at h; cases h
      | some es =>
          rw [h1] at h
          simp only [orPanic] at h
          split at h
          · rename_i e1 e2 r hsort
            cases h2 : mulTwo b.pool e1 e2 with
            | none => rw [h2] at h; cases h
            | some v =>
                rw [h2] at h
                simp only at h
                cases h3 : mulMany v.2 v.1 r with
                | none => rw [h3] at h; cases h
                | some w =>
                    rw [h3] at h
                    exact (fixLoop_same h).2
          · cases h
  | hint id xs n => exact addOutVars_cons h
  | constant c => exact (fixLoop_same h).2
  | random => exact addOutVars_cons h
  | publicInput i => exact addOutVars_cons h
  | call id xs n =>
      simp only [executeOut, subCircuitCall, bind, Except.bind] at h
      cases h1 : getExprs b xs with
      | none => rw [h1] at h; cases h
      | some es =>
          rw [h1] at h
          exact (addOutVars_cons h).trans rfl
  | gate ty xs => exact addOutVars_cons h

theorem mk_push (e : Expr F) (cfg : Cfg F) (i : OInsn F) : MK e (push cfg i) := by
  intro b y b' h hl
  unfold push at h
  cases h1 : executeOut cfg i { b with insns := b.insns ++ [i] } with
  | error e => rw [h1] at h; cases h
  | ok b1 =>
      rw [h1] at h
      cases h
      rw [executeOut_cons h1]; exact hl

theorem mk_boolCond (e : Expr F) (cfg : Cfg F) (x : Nat) : MK e (boolCond cfg x) :=
  mk_bind (mk_push _ _ _) fun _ => mk_bind (mk_push _ _ _) fun _ => mk_push _ _ _

theorem mk_assertBool (e : Expr F) (cfg : Cfg F) (x : Nat) : MK e (assertBool cfg x) :=
  mk_bind (mk_boolCond _ _ _) fun _ => mk_assertZ _ _

theorem mk_lowerBool (e : Expr F) (cfg : Cfg F) (x y : Nat) (op : BoolOp) :
    MK e (lowerBool cfg x y op) := by
  rw [lowerBool_eq]
  refine mk_bind (mk_assertBool _ _ _) fun _ => mk_bind (mk_assertBool _ _ _) fun _ =>
    mk_bind (mk_push _ _ _) fun _ => mk_bind (mk_push _ _ _) fun _ => mk_bind ?_ fun _ =>
    mk_bind (mk_bind (mk_boolCond _ _ _) fun _ => mk_bind (mk_note _ _) fun _ => mk_mark _ _)
      fun _ => mk_pure _ _
  cases op
  · exact mk_push _ _ _
  · exact mk_push _ _ _
  · exact mk_pure _ _

theorem mk_processInsn_bool (e : Expr F) (cfg : Cfg F) (x y : Nat) (op : BoolOp) :
    MK e (processInsn cfg (.boolBin x y op)) := by
  intro b u b' h hl
  unfold processInsn at h
  split_ifs at h
  simp only [SInsn.replace, transform] at h
  split at h
  · cases h
  · rename_i o b1 h1
    have hb1 := mk_lowerBool e cfg _ _ _ b _ b1 h1 hl
    split_ifs at h
    split at h
    · cases h
    · rename_i z b2 h2
      cases h
      have k := mk_push e cfg o b1 _ _ h2 hb1
      exact k
  · rename_i xs b1 h1
    have hb1 := mk_lowerBool e cfg _ _ _ b _ b1 h1 hl
    split_ifs at h
    cases h
    exact hb1

theorem mk_processInsn_lin (e : Expr F) (cfg : Cfg F) (lc : LinComb F) :
    MK e (processInsn cfg (.linComb lc)) := by
  intro b u b' h hl
  unfold processInsn at h
  split_ifs at h
  simp only [SInsn.replace, transform, M.pure] at h
  split_ifs at h
  split at h
  · cases h
  · rename_i z b2 h2
    cases h
    have k := mk_push e cfg _ b _ _ h2 hl
    exact k

/-! ## Boolean operations -/

/-- What a boolean operation returns for the variable `j` and a bit. -/
def resExpr (j : Nat) (c : F) : BoolOp → Expr F
  | .and => if c = 0 then zeroExpr else newLinear 1 j
  | .xor => if c = 0 then newLinear 1 j else notx j
  | .or => zeroExpr

theorem lowerBool_forge (cfg : Cfg F) {j N : Nat} {b : B F} (h : Inv N b) {x y : Nat} (op : BoolOp)
    (hx : 1 ≤ x ∧ x < b.exprs.length) (hy : 1 ≤ y ∧ y < b.exprs.length) (h2 : (1 + 1 : F) ≠ 0) :
    ∃ r b', (lowerBool cfg x y op >>= finishLowered cfg 1) b = .ok ([r], b') ∧
      LowerSpec (Only j) cfg.ev N b (.boolBin x y op) [r] b' ∧
      (∀ env a, Full (Only j) env N a b → (Lit j b x ∨ a x = 0 ∨ a x = 1) →
        (Lit j b y ∨ a y = 0 ∨ a y = 1) →
        ∃ a', (∀ z, z < b.exprs.length → a' z = a z) ∧ Full (Only j) env N a' b' ∧
          a' r = boolPoly op (a x) (a y)) ∧
      (Lit j b' r → lookup (bcx j) b'.cons = some .marked) ∧
      (∀ c, b.exprs[x]? = some (newLinear 1 j) → b.exprs[y]? = some (newConst c) → c = 0 ∨ c = 1 →
        op ≠ .or → b'.exprs[r]? = some (resExpr j c op)) := by
  obtain ⟨b1, e1, l1, g1⟩ := assertBool_forge (j := j) cfg h hx
  obtain ⟨b2, e2, l2, g2⟩ := assertBool_forge (j := j) cfg g1.inv (x := y) (by omega)
  obtain ⟨b3, e3, l3, g3⟩ := pushLin2_grow (X := Only j) cfg g2.inv (x := x) (y := y) 1 1 (by omega)
    (by omega)
  obtain ⟨b4, e4, l4, g4⟩ := pushMul_grow (X := Only j) cfg g3.inv (x := x) (y := y) (by omega)
    (by omega)
  obtain ⟨r, b5, e5, hr1, hr2, g5⟩ := boolRes_ok (X := Only j) cfg g4.inv (s := b2.exprs.length)
    (p := b3.exprs.length) op (by omega) (by omega)
  have l5 := g5.len
  -- the specification of the operation, whose run is the same
  obtain ⟨xs, b6, e6, L⟩ := lowerBool_ok (X := Only j) cfg h op hx hy
  have hrun : ∃ b7, markBoolNote cfg r b5 = .ok ((), b7) ∧ xs = [r] ∧ b7 = b6 := by
    rw [lowerBool_eq] at e6
    unfold pushAdd at e6
    cases hm : markBoolNote cfg r b5 with
    | error f =>
        rw [bind_err (e := f) (by
          rw [bind_ok e1, bind_ok e2, bind_ok e3, bind_ok e4, bind_ok e5, bind_err hm])] at e6
        cases e6
    | ok v =>
        obtain ⟨u, b7⟩ := v
        rw [bind_ok (x := .vars [r]) (b' := b7) (by
          rw [bind_ok e1, bind_ok e2, bind_ok e3, bind_ok e4, bind_ok e5, bind_ok hm]; rfl)] at e6
        simp only [finishLowered, List.length_singleton, ne_eq, not_true_eq_false, if_false,
          Except.ok.injEq, Prod.mk.injEq] at e6
        exact ⟨b7, rfl, e6.1.symm, e6.2⟩
  obtain ⟨b7, e7, rfl, rfl⟩ := hrun
  have hsame : ∀ env a, OK env N a b5 → a r = 0 ∨ a r = 1 := by
    intro env a ho
    obtain ⟨k4, s5⟩ := g5.sound env a ho
    obtain ⟨k3, s4⟩ := g4.sound env a k4
    obtain ⟨k2, s3⟩ := g3.sound env a k3
    obtain ⟨b1', e1', -, g1'⟩ := assertBool_grow (X := Only j) cfg h hx
    rw [e1] at e1'
    cases e1'
    obtain ⟨b2', e2', -, g2'⟩ := assertBool_grow (X := Only j) cfg g1.inv (x := y) (by omega)
    rw [e2] at e2'
    cases e2'
    obtain ⟨k1, s2⟩ := g2'.sound env a k2
    obtain ⟨-, s1⟩ := g1'.sound env a k1
    obtain ⟨p, hp⟩ := bool_cases s1
    obtain ⟨q, hq⟩ := bool_cases s2
    rw [s5 (a x) (a y) (by rw [s3]; ring) s4, hp, hq, boolPoly_eq]
    exact ofBool_or _
  obtain ⟨b8, e8, l8, g8⟩ := markBoolNote_grow (X := Only j) cfg g5.inv (x := r) ⟨hr1, hr2⟩ hsame
  rw [e7] at e8
  cases e8
  refine ⟨r, b7, e6, L, ?_, ?_, ?_⟩
  · intro env a hf hX hY
    obtain ⟨a1, p1, q1, -⟩ := g1.complete env a hf hX
    obtain ⟨a2, p2, q2, -⟩ := g2.complete env a1 q1 (by
      rcases hY with hY | hY
      · exact Or.inl (hY.prefix g1.exprs)
      · right; rw [p1 y hy.2]; exact hY)
    obtain ⟨a3, p3, q3, s3⟩ := g3.complete env a2 q2 trivial
    obtain ⟨a4, p4, q4, s4⟩ := g4.complete env a3 q3 trivial
    obtain ⟨a5, p5, q5, s5⟩ := g5.complete env a4 q4 trivial
    obtain ⟨a6, p6, q6, -⟩ := g8.complete env a5 q5 trivial
    have hold3 : ∀ z, z < b.exprs.length → a3 z = a z := fun z hz => by
      rw [p3 z (by omega), p2 z (by omega), p1 z hz]
    have hold : ∀ z, z < b.exprs.length → a6 z = a z := fun z hz => by
      rw [p6 z (by omega), p5 z (by omega), p4 z (by omega), hold3 z hz]
    refine ⟨a6, hold, q6, ?_⟩
    rw [p6 r hr2, s5 (a x) (a y) (by
      rw [p5 _ (by omega), p4 _ (by omega), s3, hold3 x hx.2, hold3 y hy.2]; ring) (by
      rw [p5 _ (by omega), s4, p4 x (by omega), p4 y (by omega), hold3 x hx.2, hold3 y hy.2])]
  · intro hl
    have hback : ∀ e, b7.exprs[r]? = some e → b5.exprs[r]? = some e := by
      intro e he
      have h5 : b5.exprs[r]? = some b5.exprs[r] := List.getElem?_eq_getElem hr2
      rw [get?_prefix g8.exprs h5] at he
      rw [h5]; exact he
    exact markBoolNote_lit cfg g5.inv ⟨hr1, hr2⟩ (hl.imp (hback _) (hback _)) e7
  · intro c hxe hye hc hop
    have hx2 := get?_prefix g2.exprs (get?_prefix g1.exprs hxe)
    have hy2 := get?_prefix g2.exprs (get?_prefix g1.exprs hye)
    have hp : b4.exprs[b3.exprs.length]? =
        some (if c = 0 then zeroExpr else newLinear 1 j) := by
      refine snoc_get (push_mul_exprs cfg (P := b3.pool) e4 (get?_prefix g3.exprs hx2)
        (get?_prefix g3.exprs hy2) ?_ ?_)
      · rw [mul_x_const]; rcases hc with rfl | rfl <;> simp
      · rw [mul_const_x]; rcases hc with rfl | rfl <;> simp
    apply get?_prefix g8.exprs
    cases op with
    | or => exact absurd rfl hop
    | and =>
        cases e5
        exact hp
    | xor =>
        have e5' : push cfg (.linComb ⟨[(b2.exprs.length, 1), (b3.exprs.length, -(1 + 1))], 0⟩) b4 =
          .ok (r, b5) := e5
        have hrl : r = b4.exprs.length := by
          obtain ⟨b5', e, -⟩ := pushLin2_grow (X := Only j) cfg g4.inv (x := b2.exprs.length)
            (y := b3.exprs.length) 1 (-(1 + 1)) (by omega) (by omega)
          rw [e5'] at e
          cases e; rfl
        subst hrl
        rcases hc with rfl | rfl
        · have hs := snoc_get (push_lin2_exprs cfg e3 hx2 hy2 (lin_add_zero _ j))
          rw [if_pos rfl] at hp
          have := snoc_get (push_lin2_exprs cfg e5' (get?_prefix g4.exprs hs) hp
            (lin_xor_zero _ j h2))
          rw [this]; simp [resExpr]
        · have hs := snoc_get (push_lin2_exprs cfg e3 hx2 hy2 (lin_add_one _ j))
          rw [if_neg one_ne_zero] at hp
          have := snoc_get (push_lin2_exprs cfg e5' (get?_prefix g4.exprs hs) hp
            (lin_xor_one _ j h2))
          rw [this]; simp [resExpr]

end JST.Comp
