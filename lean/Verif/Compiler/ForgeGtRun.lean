import Verif.Compiler.ForgeGt

/-!
# What the first pass makes of a comparison with a constant
-/

namespace JST.Comp

open JST.Circ

variable {F : Type} [Field F] [DecidableEq F]

theorem ofBool_bit (p : Bool) : (ofBool p : F) = 0 ∨ (ofBool p : F) = 1 := by
  cases p
  · exact Or.inl rfl
  · exact Or.inr rfl

/-- The round of the loop for bit `0`: afterwards the condition that bit `0` is a bit is gone. -/
theorem lastStep (cfg : Cfg F) {j n N k r se : Nat} {b : B F} (y0 : Bool) (h : Inv N b)
    (hito : ItoOk b) (hlen : b.inToOut.length = k) (hn : n + 4 < k) (hr : 1 ≤ r ∧ r < k)
    (hse : 1 ≤ se ∧ se < k) (h2 : (1 + 1 : F) ≠ 0) (hx4 : SExpr b 4 (newLinear 1 j))
    (hx3 : SExpr b 3 (newConst 1)) (hxy : SExpr b (n + 4) (newConst (ofBool y0))) :
    ∃ b', processInsns cfg (gtStep n y0 0 r se k) b = .ok ((), b') ∧
      b'.inToOut.length = k + 7 ∧ Inv N b' ∧ ItoOk b' ∧ b.exprs <+: b'.exprs ∧
      ∀ (env : Env F) (a s : Nat → F), Full (Only j) env N a b → Match a s b →
        s (n + 4) = ofBool y0 → s se = 0 → (s r = 0 ∨ s r = 1) →
        s k = ofBool (!y0) → s (k + 1) = s 4 * ofBool (!y0) → s (k + 2) = 0 → s (k + 3) = s r →
        s (k + 4) = boolPoly .xor (s 4) (ofBool y0) → s (k + 5) = s 3 - s (k + 4) →
        s (k + 6) = 0 →
        ∃ a', (∀ x, x < b.exprs.length → a' x = a x) ∧ Full (fun _ => False) env N a' b' ∧
          Match a' s b' := by
  obtain ⟨b1, e1, l1, r1, x1⟩ := const_fwd (X := Only j) cfg h hito (by omega) (ofBool (!y0))
  have a4 := hx4.prefix r1.exprs r1.ito (by omega)
  have a3 := hx3.prefix r1.exprs r1.ito (by omega)
  have ay := hxy.prefix r1.exprs r1.ito (by omega)
  rw [hlen] at x1 l1
  obtain ⟨b2, e2, l2, f2, -, x2⟩ := bool_fwd (j := j) cfg r1.inv r1.itoOk (x := 4) (y := k) .and
    (by omega) (by omega) h2
  have c4 := a4.prefix f2.exprs f2.ito (by omega)
  have c3 := a3.prefix f2.exprs f2.ito (by omega)
  have cy := ay.prefix f2.exprs f2.ito (by omega)
  have x2' := x2 _ a4 x1 (ofBool_bit _) (by decide)
  rw [l1] at x2' l2
  obtain ⟨b3, e3, l3, f3, -, -⟩ := bool_fwd (j := j) cfg f2.inv f2.itoOk (x := se) (y := k + 1)
    .and (by omega) (by omega) h2
  have d4 := c4.prefix f3.exprs f3.ito (by omega)
  have d3 := c3.prefix f3.exprs f3.ito (by omega)
  have dy := cy.prefix f3.exprs f3.ito (by omega)
  rw [l2] at l3
  obtain ⟨b4, e4, l4, f4, -, -⟩ := bool_fwd (j := j) cfg f3.inv f3.itoOk (x := r) (y := k + 2)
    .or (by omega) (by omega) h2
  have g4 := d4.prefix f4.exprs f4.ito (by omega)
  have g3 := d3.prefix f4.exprs f4.ito (by omega)
  have gy := dy.prefix f4.exprs f4.ito (by omega)
  rw [l3] at l4
  obtain ⟨b5, e5, l5, f5, m5, x5⟩ := bool_fwd (j := j) cfg f4.inv f4.itoOk (x := 4) (y := n + 4)
    .xor (by omega) (by omega) h2
  have x5' := x5 _ g4 gy (ofBool_bit _) (by decide)
  have i3 := g3.prefix f5.exprs f5.ito (by omega)
  rw [l4] at l5 x5' m5
  have s5 : SLit j b5 (k + 4) := by
    unfold SLit Lit
    unfold SExpr at x5'
    have e : k + 1 + 1 + 1 + 1 = k + 4 := by omega
    rw [e] at x5'
    rw [x5']
    simp only [resExpr]
    split_ifs
    · exact Or.inl rfl
    · exact Or.inr rfl
  have mark5 := m5 s5
  obtain ⟨b6, e6, l6, r6, s6⟩ := sub_fwd (j := j) cfg f5.inv f5.itoOk (o := 3) (x := k + 4)
    (by omega) (by omega)
  have s6' := s6 i3 s5
  rw [l5] at l6 s6'
  have mark6 := mk_processInsn_lin (bcx j) cfg _ b5 _ b6 e6 mark5
  obtain ⟨b7, e7, l7, f7, -, -⟩ := bool_fwd (j := j) cfg r6.inv r6.itoOk (x := se) (y := k + 5)
    .and (by omega) (by omega) h2
  have mark7 := mk_processInsn_bool (bcx j) cfg _ _ _ b6 _ b7 e7 mark6
  rw [l6] at l7
  refine ⟨b7, ?_, by omega, f7.inv, f7.itoOk, ?_, ?_⟩
  · unfold gtStep
    rw [processInsns, bind_ok e1, processInsns, bind_ok e2, processInsns, bind_ok e3, processInsns,
      bind_ok e4, processInsns, bind_ok e5, processInsns, bind_ok e6, processInsns, bind_ok e7]
    rfl
  · exact r1.exprs.trans <| f2.exprs.trans <| f3.exprs.trans <| f4.exprs.trans <|
      f5.exprs.trans <| r6.exprs.trans f7.exprs
  · intro env a s hf hm qy qse qr q0 q1 q2 q3 q4 q5 q6
    have le1 := r1.exprs.length_le
    have le2 := f2.exprs.length_le
    have le3 := f3.exprs.length_le
    have le4 := f4.exprs.length_le
    have le5 := f5.exprs.length_le
    have le6 := r6.exprs.length_le
    obtain ⟨a1, p1, u1, m1⟩ := r1.complete env a s hf hm (by rw [hlen]; exact q0) trivial
    obtain ⟨a2, p2, u2, m2⟩ := f2.go env a1 s u1 m1 ⟨Or.inl (Or.inl a4), Or.inr (by
      rw [q0]; exact ofBool_bit _), by rw [l1, q1, q0]; rfl⟩
    have hxg : SLit j b2 (k + 1) ∨ s (k + 1) = 0 ∨ s (k + 1) = 1 := by
      cases y0 with
      | false =>
          left; left
          unfold SExpr at x2'
          rw [x2']
          simp [resExpr, ofBool]
      | true =>
          right; left
          rw [q1]; simp [ofBool]
    obtain ⟨a3', p3, u3, m3⟩ := f3.go env a2 s u2 m2 ⟨Or.inr (Or.inl qse), hxg, by
      rw [l2]; simp only [boolPoly]; rw [qse, zero_mul]; exact q2⟩
    obtain ⟨a4', p4, u4, m4⟩ := f4.go env a3' s u3 m3 ⟨Or.inr qr, Or.inr (Or.inl q2), by
      rw [l3]; simp only [boolPoly]; rw [q2]; simp only [mul_zero, add_zero, sub_zero]; exact q3⟩
    obtain ⟨a5', p5, u5, m5'⟩ := f5.go env a4' s u4 m4 ⟨Or.inl (Or.inl g4), Or.inr (by
      rw [qy]; exact ofBool_bit _), by rw [l4, qy]; exact q4⟩
    obtain ⟨a6', p6, u6, m6⟩ := r6.complete env a5' s u5 m5' (by rw [l5]; exact q5) trivial
    obtain ⟨a7', p7, u7, m7⟩ := f7.go env a6' s u6 m6 ⟨Or.inr (Or.inl qse), Or.inl s6', by
      rw [l6]; simp only [boolPoly]; rw [qse, zero_mul]; exact q6⟩
    refine ⟨a7', fun x hx => ?_, u7.all mark7, m7⟩
    rw [p7 x (by omega), p6 x (by omega), p5 x (by omega), p4 x (by omega), p3 x (by omega),
      p2 x (by omega), p1 x hx]

theorem processInsns_append (cfg : Cfg F) {l r : List (SInsn F)} {b b1 b2 : B F}
    (h1 : processInsns cfg l b = .ok ((), b1)) (h2 : processInsns cfg r b1 = .ok ((), b2)) :
    processInsns cfg (l ++ r) b = .ok ((), b2) := by
  induction l generalizing b with
  | nil => cases h1; exact h2
  | cons i l ih =>
      rw [processInsns] at h1
      rw [List.cons_append, processInsns]
      cases hi : processInsn cfg i b with
      | error e => 
          have : (processInsn cfg i >>= fun _ => processInsns cfg l) b = .error e := bind_err hi
          rw [this] at h1; cases h1
      | ok v =>
          obtain ⟨⟨⟩, b'⟩ := v
          rw [bind_ok hi] at h1 ⊢
          exact ih h1

/-- The instructions of `gtConst` between bit `0` of the constant and the last round. -/
def gtMid (m : Nat) (y : Nat → Bool) : List (SInsn F) :=
  (List.range m).map (fun i => .constant (ofBool (y (i + 1)))) ++ ([.constant 0, .constant 1] ++
    gtLoop (m + 1) y ((List.range m).map (· + 1)).reverse (2 * (m + 1) + 4) (2 * (m + 1) + 5)
      (2 * (m + 1) + 6))

def gtLast (m : Nat) (y : Nat → Bool) : List (SInsn F) :=
  let st := gtState ((List.range m).map (· + 1)).reverse (2 * (m + 1) + 4, 2 * (m + 1) + 5,
    2 * (m + 1) + 6)
  gtStep (m + 1) (y 0) 0 st.1 st.2.1 st.2.2

theorem range_rev (m : Nat) :
    (List.range (m + 1)).reverse = ((List.range m).map (· + 1)).reverse ++ [0] := by
  rw [List.range_succ_eq_map, List.reverse_cons]

theorem gtConst_insns (m : Nat) (y : Nat → Bool) :
    (gtConst (m + 1) y : SCircuit F).insns =
      [.constant ((List.range (m + 1)).map fun i => 2 ^ i * ofBool (y i)).sum, .constant 1,
        .toBinary 1 (m + 1), .constant (ofBool (y 0))] ++ (gtMid m y ++ gtLast m y) := by
  unfold gtConst gtMid gtLast
  rw [range_rev, gtLoop_append]
  simp only [gtLoop, List.append_nil, List.append_assoc]
  rw [List.range_succ_eq_map, List.map_cons, List.map_map]
  simp [Function.comp_def]

theorem totalOut_consts (l : List Nat) (f : Nat → F) :
    totalOut (l.map fun i => (.constant (f i) : SInsn F)) = l.length := by
  induction l with
  | nil => rfl
  | cons i l ih =>
      rw [List.map_cons, List.length_cons]
      have : totalOut (.constant (f i) :: l.map fun i => (.constant (f i) : SInsn F)) =
        1 + totalOut (l.map fun i => (.constant (f i) : SInsn F)) := by simp [totalOut, SInsn.numOut]
      rw [this, ih]; omega

theorem consts_valid (l : List Nat) (f : Nat → F) (n : Nat) :
    SInsn.ValidAll n (l.map fun i => (.constant (f i) : SInsn F)) := by
  induction l generalizing n with
  | nil => trivial
  | cons i l ih => exact ⟨by simp [SInsn.inputs], by simp, ih _⟩

theorem consts_src (env : Env F) (m : Nat) (f : Nat → F) (n : Nat) (s : Nat → F)
    (h : ∀ i, i < m → s (n + i) = f i) :
    SInsn.HoldAll env s n ((List.range m).map fun i => (.constant (f i) : SInsn F)) := by
  induction m with
  | zero => trivial
  | succ m ih =>
      rw [List.range_succ, List.map_append, sholdAll_append, totalOut_consts, List.length_range]
      exact ⟨ih fun i hi => h i (by omega), h m (by omega), trivial⟩

theorem totalOut_gtMid (m : Nat) (y : Nat → Bool) :
    totalOut (gtMid m y : List (SInsn F)) = 8 * m + 2 := by
  unfold gtMid
  rw [totalOut_append, totalOut_append, totalOut_consts, totalOut_gtLoop]
  simp [totalOut, SInsn.numOut]; omega

theorem gtMid_valid (m : Nat) (y : Nat → Bool) :
    SInsn.ValidAll (m + 6) (gtMid m y : List (SInsn F)) := by
  unfold gtMid
  rw [validAll_append, validAll_append, totalOut_consts, List.length_range]
  have e : m + 6 + m + totalOut [(.constant 0 : SInsn F), .constant 1] = 2 * (m + 1) + 6 := by
    simp [totalOut, SInsn.numOut]; omega
  rw [e]
  refine ⟨consts_valid _ _ _, ⟨by simp [SInsn.inputs], by simp, by simp [SInsn.inputs], by simp,
    trivial⟩, gtLoop_valid ?_ (by omega) (by omega) (by omega)⟩
  intro i hi
  simp only [List.mem_reverse, List.mem_map, List.mem_range] at hi
  obtain ⟨z, hz, rfl⟩ := hi
  omega

theorem gtMid_safe (m : Nat) (y : Nat → Bool) : ∀ i ∈ (gtMid m y : List (SInsn F)), Safe i := by
  intro i hi
  unfold gtMid at hi
  simp only [List.mem_append, List.mem_map, List.mem_cons, List.not_mem_nil, or_false] at hi
  rcases hi with ⟨z, -, rfl⟩ | (rfl | rfl) | hi
  · trivial
  · trivial
  · trivial
  · exact gtLoop_safe _ _ _ _ _ _ i hi

/-- The digits a prover chooses: they differ from those of the constant first at position `t`. -/
def cheat (y : Nat → Bool) (t i : Nat) : Bool :=
  if t < i then y i else if i = t then !y t else false

theorem cheat_cmp (y : Nat → Bool) {t : Nat} (h1 : 1 ≤ t) :
    ∀ m, t ≤ m → cmpLoop (cheat y t) y ((List.range m).map (· + 1)).reverse (false, true) =
      (!y t, false)
  | 0, h => by omega
  | m + 1, h => by
      rw [List.range_succ, List.map_append, List.reverse_append]
      show cmpLoop (cheat y t) y ((List.range m).map (· + 1)).reverse
        (cmpStep (false, true) (cheat y t (m + 1)) (y (m + 1))) = _
      by_cases ht : t ≤ m
      · have : cheat y t (m + 1) = y (m + 1) := if_pos (by omega)
        rw [this]
        have : cmpStep (false, true) (y (m + 1)) (y (m + 1)) = (false, true) := by
          cases y (m + 1) <;> rfl
        rw [this]
        exact cheat_cmp y h1 m ht
      · have htm : m + 1 = t := by omega
        rw [htm]
        have : cheat y t t = !y t := by
          unfold cheat; rw [if_neg (by omega), if_pos rfl]
        rw [this]
        have : cmpStep (false, true) (!y t) (y t) = (!y t, false) := by
          cases y t <;> rfl
        rw [this]
        exact cmpLoop_done _ _ _ _

/-- The values of the source variables before the loop. -/
def gtBase (n : Nat) (v yv w : F) (x y : Nat → Bool) : Nat → F := fun z =>
  if z = 1 then v else if z = 2 then yv else if z = 3 then 1 else if z = 4 then w else
    if z < n + 4 then ofBool (x (z - 4)) else if z < 2 * n + 4 then ofBool (y (z - (n + 4))) else
      if z = 2 * n + 5 then 1 else 0

theorem gtConst_forge (cfg : Cfg F) (h2 : (1 + 1 : F) ≠ 0) (m : Nat) (y : Nat → Bool) {t : Nat}
    (ht : 1 ≤ t) (htm : t < m + 1) :
    ∃ oc b, processCircuit cfg (gtConst (m + 1) y : SCircuit F) = .ok (oc, b) ∧
      ∀ (env : Env F) (v : F), OCircuit.Sat env oc [v] [ofBool !y t] := by
  obtain ⟨b0, e0, i0, t0, ito0, ins0, cons0, -⟩ := addInput_ok (F := F) 1
  have hl0 : b0.inToOut.length = 2 := by rw [ito0]; rfl
  obtain ⟨b1, e1, l1, r1, -⟩ := const_fwd (X := fun _ => False) cfg i0 t0 (by omega)
    ((List.range (m + 1)).map fun i => 2 ^ i * (ofBool (y i) : F)).sum
  obtain ⟨b2, e2, l2, r2, x2⟩ := const_fwd (X := fun _ => False) cfg r1.inv r1.itoOk (by omega) 1
  rw [l1, hl0] at x2
  obtain ⟨b3, e3, l3, f3, x3⟩ := toBinary_fwd cfg r2.inv r2.itoOk (x := 1) m (by omega)
  rw [l2, l1, hl0] at x3
  have z3 := x2.prefix f3.exprs f3.ito (by omega)
  obtain ⟨b4, e4, l4, r4, x4⟩ := const_fwd (X := Only b2.pool.length) cfg f3.inv f3.itoOk (by omega)
    (ofBool (y 0))
  have hl3 : b3.inToOut.length = m + 5 := by omega
  have hl4 : b4.inToOut.length = m + 6 := by omega
  have z4 := z3.prefix r4.exprs r4.ito (by omega)
  have w4 := x3.prefix r4.exprs r4.ito (by omega)
  rw [hl3] at x4
  have hval := gtMid_valid (F := F) m y
  rw [← hl4] at hval
  obtain ⟨b5, e5, l5, r5⟩ := processInsns_safe (X := Only b2.pool.length) cfg (gtMid m y) r4.inv
    r4.itoOk (by omega) hval (gtMid_safe m y)
  rw [totalOut_gtMid] at l5
  have z5 := z4.prefix r5.exprs r5.ito (by omega)
  have w5 := w4.prefix r5.exprs r5.ito (by omega)
  have x5 := x4.prefix r5.exprs r5.ito (by omega)
  set lst := ((List.range m).map (· + 1)).reverse with hlst
  set st := gtState lst (2 * (m + 1) + 4, 2 * (m + 1) + 5, 2 * (m + 1) + 6) with hst
  have hk : st.2.2 = 9 * m + 8 := by
    rw [hst, gtState_k, hlst]; simp; omega
  have hlt := gtState_lt (l := lst) (r := 2 * (m + 1) + 4) (se := 2 * (m + 1) + 5)
    (k := 2 * (m + 1) + 6) (by omega) (by omega)
  rw [← hst] at hlt
  obtain ⟨b6, e6, l6, i6, t6, p6, go6⟩ := lastStep (j := b2.pool.length) (n := m + 1)
    (k := st.2.2) (r := st.1) (se := st.2.1) cfg (y 0) r5.inv r5.itoOk (by omega) (by omega) hlt.1
    hlt.2 h2 w5 z5 x5
  have hrun : runCircuit cfg (gtConst (m + 1) y : SCircuit F) B.new = .ok ((), b6) := by
    unfold runCircuit
    rw [gtConst_insns]
    show (addInput 1 >>= fun _ => processInsns cfg _ >>= fun _ => processCons cfg []) _ = _
    rw [bind_ok e0]
    have ha : processInsns cfg [.constant ((List.range (m + 1)).map fun i =>
        2 ^ i * (ofBool (y i) : F)).sum, .constant 1, .toBinary 1 (m + 1), .constant (ofBool (y 0))]
        b0 = .ok ((), b4) := by
      rw [processInsns, bind_ok e1, processInsns, bind_ok e2, processInsns, bind_ok e3,
        processInsns, bind_ok e4]; rfl
    have hb : processInsns cfg (gtLast m y : List (SInsn F)) b5 = .ok ((), b6) := e6
    rw [bind_ok (processInsns_append cfg ha (processInsns_append cfg e5 hb))]
    rfl
  obtain ⟨oc, hp, hsat⟩ := finish_sat cfg (gtConst (m + 1) y : SCircuit F) hrun i6 (by
    intro o ho
    simp only [gtConst, List.mem_singleton] at ho
    subst ho
    omega)
  refine ⟨oc, b6, hp, fun env v => ?_⟩
  -- the values of the source variables
  set c := cheat y t with hc
  set yv := ((List.range (m + 1)).map fun i => 2 ^ i * (ofBool (y i) : F)).sum with hyv
  set w := v - ((List.range m).map fun i => 2 ^ (i + 1) * (ofBool (c (i + 1)) : F)).sum with hw
  set s0 := gtBase (m + 1) v yv w c y with hs0
  have hs1 : s0 1 = v := rfl
  have hs2 : s0 2 = yv := rfl
  have hs3 : s0 3 = 1 := rfl
  have hs4 : s0 4 = w := rfl
  have hsc : ∀ i, 1 ≤ i → i < m + 1 → s0 (4 + i) = ofBool (c i) := by
    intro i h1 h3
    simp only [hs0, gtBase]
    rw [if_neg (by omega), if_neg (by omega), if_neg (by omega), if_neg (by omega),
      if_pos (by omega)]
    congr 2; omega
  have hsy : ∀ i, i < m + 1 → s0 (m + 1 + 4 + i) = ofBool (y i) := by
    intro i h3
    simp only [hs0, gtBase]
    rw [if_neg (by omega), if_neg (by omega), if_neg (by omega), if_neg (by omega),
      if_neg (by omega), if_pos (by omega)]
    congr 2; omega
  have hsr : s0 (2 * (m + 1) + 4) = 0 := by
    simp only [hs0, gtBase]
    rw [if_neg (by omega), if_neg (by omega), if_neg (by omega), if_neg (by omega),
      if_neg (by omega), if_neg (by omega), if_neg (by omega)]
  have hse : s0 (2 * (m + 1) + 5) = 1 := by
    simp only [hs0, gtBase]
    rw [if_neg (by omega), if_neg (by omega), if_neg (by omega), if_neg (by omega),
      if_neg (by omega), if_neg (by omega), if_pos trivial]
  have hmem : ∀ i ∈ lst, 1 ≤ i ∧ i < m + 1 := by
    intro i hi
    simp only [hlst, List.mem_reverse, List.mem_map, List.mem_range] at hi
    obtain ⟨z, hz, rfl⟩ := hi
    omega
  obtain ⟨s1, g1, g2, g3, g4⟩ := gtLoop_src (n := m + 1) (x := c) (y := y) (l := lst)
    (r := 2 * (m + 1) + 4) (se := 2 * (m + 1) + 5) (k := 2 * (m + 1) + 6) (s := s0)
    (st := (false, true)) (fun i hi => (hmem i hi).2) (by omega) (by omega) (by omega) hs3
    (fun i hi => hsc i (hmem i hi).1 (hmem i hi).2) (fun i hi => hsy i (hmem i hi).2) hsr hse
  rw [← hst, hc, hlst, cheat_cmp y ht m (by omega)] at g3 g4
  set s := ext s1 st.2.2 [ofBool (!y 0), w * ofBool (!y 0), 0, ofBool (!y t),
    boolPoly .xor w (ofBool (y 0)), 1 - boolPoly .xor w (ofBool (y 0)), 0] with hs
  have q : ∀ z, z < st.2.2 → s z = s1 z := fun z hz => ext_lt hz
  have qn := ext_new s1 st.2.2 [ofBool (!y 0), w * ofBool (!y 0), 0, ofBool (!y t),
    boolPoly .xor w (ofBool (y 0)), 1 - boolPoly .xor w (ofBool (y 0)), 0]
  rw [← hs] at qn
  have q0 : ∀ z, z < 2 * (m + 1) + 6 → s z = s0 z := fun z hz => by rw [q z (by omega), g1 z hz]
  -- the run
  have hf0 : Full (fun _ => False) env 1 s b0 := start_full ins0 cons0 _ _
  obtain ⟨a1, p1, u1, m1⟩ := r1.complete env s s hf0 (start_match ito0 _)
    (by rw [hl0, q0 2 (by omega), hs2]) trivial
  obtain ⟨a2, p2, u2, m2⟩ := r2.complete env a1 s u1 m1
    (by rw [l1, hl0, q0 3 (by omega), hs3]) trivial
  obtain ⟨a3, p3, u3, m3⟩ := f3.go env a2 s (u2.mono fun _ hX => hX.elim) m2 (by
    rw [l2, l1, hl0]
    refine ⟨fun i h1 h3 => ?_, ?_⟩
    · rw [q0 _ (by omega), hsc i h1 h3]
      exact ofBool_bit _
    · rw [q0 1 (by omega), hs1, List.range_succ_eq_map, List.map_cons, List.sum_cons, List.map_map]
      have : ((List.range m).map ((fun i => 2 ^ i * s (2 + 1 + 1 + i)) ∘ Nat.succ)).sum =
          ((List.range m).map fun i => 2 ^ (i + 1) * (ofBool (c (i + 1)) : F)).sum := by
        congr 1
        apply List.map_congr_left
        intro i hi
        rw [List.mem_range] at hi
        simp only [Function.comp]
        rw [q0 _ (by omega), hsc (i + 1) (by omega) (by omega)]
      rw [this, Nat.add_zero, q0 4 (by omega), hs4, hw]
      ring)
  obtain ⟨a4, p4, u4, m4⟩ := r4.complete env a3 s u3 m3
    (by rw [hl3, q0 _ (by omega)]; exact hsy 0 (by omega)) trivial
  obtain ⟨a5, p5, u5, m5⟩ := r5.complete env a4 s u4 m4 (by
    rw [hl4]
    have hm := gtMid_valid (F := F) m y
    refine sholdAll_local hm env s1 s (fun z hz => q z (by rw [totalOut_gtMid] at hz; omega)) ?_
    unfold gtMid
    rw [sholdAll_append, sholdAll_append, totalOut_consts, List.length_range]
    have e : m + 6 + m + totalOut [(.constant 0 : SInsn F), .constant 1] = 2 * (m + 1) + 6 := by
      simp [totalOut, SInsn.numOut]; omega
    rw [e]
    refine ⟨consts_src env m _ _ _ fun i hi => ?_, ⟨?_, ?_, trivial⟩, g2 env⟩
    · rw [g1 _ (by omega)]
      have := hsy (i + 1) (by omega)
      rw [← this]; congr 1; omega
    · show s1 (m + 6 + m) = 0
      rw [g1 _ (by omega), ← hsr]; congr 1; omega
    · show s1 (m + 6 + m + 1) = 1
      rw [g1 _ (by omega), ← hse]; congr 1; omega) (honestAll_safe (gtMid_safe m y) _ _)
  obtain ⟨a6, p6', u6, m6⟩ := go6 env a5 s u5 m5
    (by rw [q0 _ (by omega)]; exact hsy 0 (by omega))
    (by rw [q _ hlt.2.2, g4]; rfl)
    (by rw [q _ hlt.1.2, g3]; exact ofBool_bit _)
    (qn 0)
    (by rw [q0 4 (by omega), hs4]; exact qn 1)
    (qn 2)
    (by rw [q _ hlt.1.2, g3]; exact qn 3)
    (by rw [q0 4 (by omega), hs4]; exact qn 4)
    (by rw [q0 3 (by omega), hs3, qn 4]; exact qn 5)
    (qn 6)
  have hfin := hsat env a6 s u6 m6 (by
    intro i hi
    change i < 1 at hi
    have hi0 : i = 0 := by omega
    subst hi0
    have hlen0 := (t0 1 (by omega) (by omega)).2
    rw [ito0] at hlen0
    change 1 < _ at hlen0
    have le1 := r1.exprs.length_le
    have le2 := r2.exprs.length_le
    have le3 := f3.exprs.length_le
    have le4 := r4.exprs.length_le
    have le5 := r5.exprs.length_le
    rw [p6' _ (by omega), p5 _ (by omega), p4 _ (by omega), p3 _ (by omega), p2 _ (by omega),
      p1 _ (by omega)])
  have e1' : ((List.range (gtConst (m + 1) y : SCircuit F).numInputs).map fun i => s (i + 1)) =
      [v] := by
    show [s 1] = [v]
    rw [q0 1 (by omega), hs1]
  have e2' : (gtConst (m + 1) y : SCircuit F).outputs.map s = [ofBool !y t] := by
    show [s (9 * (m + 1) + 2)] = _
    have := qn 3
    rw [hk] at this
    have e : 9 * (m + 1) + 2 = 9 * m + 8 + 3 := by omega
    rw [e, this]; rfl
  rw [e1', e2'] at hfin
  exact hfin

/-! ## What the comparison means in the source circuit -/

theorem ofBool_inj {p q : Bool} (h : (ofBool p : F) = ofBool q) : p = q := by
  cases p <;> cases q <;> first | rfl | (exfalso; simp [ofBool] at h)

theorem gtStep_inv {n : Nat} {yi xi : Bool} {i r se k : Nat} {s : Nat → F} {st : Bool × Bool}
    {env : Env F} (h3 : s 3 = 1) (hx : s (4 + i) = ofBool xi) (hy : s (n + 4 + i) = ofBool yi)
    (hsr : s r = ofBool st.1) (hss : s se = ofBool st.2)
    (h : SInsn.HoldAll env s k (gtStep n yi i r se k)) :
    s (k + 3) = ofBool (cmpStep st xi yi).1 ∧ s (k + 6) = ofBool (cmpStep st xi yi).2 := by
  unfold gtStep at h
  simp only [SInsn.HoldAll, SInsn.Holds, SInsn.numOut, and_true, Nat.add_assoc, Nat.reduceAdd,
    LinComb.eval, List.map_cons, List.map_nil, List.sum_cons, List.sum_nil] at h
  rw [← Nat.add_assoc n 4 i] at h
  obtain ⟨g0, ⟨p1, q1, u1, w1, v1⟩, ⟨p2, q2, u2, w2, v2⟩, ⟨p3, q3, u3, w3, v3⟩,
    ⟨p4, q4, u4, w4, v4⟩, v5, ⟨p6, q6, u6, w6, v6⟩⟩ := h
  rw [hx] at u1 u4
  rw [hy] at w4
  rw [hss] at u2 u6
  rw [hsr] at u3
  rw [g0] at w1
  have a1 := ofBool_inj u1
  have a4 := ofBool_inj u4
  have a4' := ofBool_inj w4
  have a2 := ofBool_inj u2
  have a6 := ofBool_inj u6
  have a3 := ofBool_inj u3
  have a1' := ofBool_inj w1
  rw [v1] at w2
  have a2' := ofBool_inj w2
  rw [v2] at w3
  have a3' := ofBool_inj w3
  have e5 : s (k + 5) = ofBool (!(BoolOp.xor.apply p4 q4)) := by
    rw [← one_sub_ofBool, ← v4, v5, h3]; ring
  rw [e5] at w6
  have a6' := ofBool_inj w6
  rw [v3, v6, ← a3, ← a3', ← a2, ← a2', ← a1, ← a1', ← a6, ← a6', ← a4, ← a4']
  exact ⟨rfl, rfl⟩

theorem gtLoop_inv {n : Nat} {x y : Nat → Bool} {l : List Nat} {r se k : Nat} {s : Nat → F}
    {st : Bool × Bool} {env : Env F} (h3 : s 3 = 1) (hx : ∀ i ∈ l, s (4 + i) = ofBool (x i))
    (hy : ∀ i ∈ l, s (n + 4 + i) = ofBool (y i)) (hsr : s r = ofBool st.1)
    (hss : s se = ofBool st.2) (h : SInsn.HoldAll env s k (gtLoop n y l r se k)) :
    s (gtState l (r, se, k)).1 = ofBool (cmpLoop x y l st).1 := by
  induction l generalizing r se k st with
  | nil => exact hsr
  | cons i l ih =>
      rw [gtLoop, sholdAll_append, totalOut_gtStep] at h
      obtain ⟨g1, g2⟩ := gtStep_inv (st := st) h3 (hx i List.mem_cons_self)
        (hy i List.mem_cons_self) hsr hss h.1
      exact ih (fun j hj => hx j (List.mem_cons_of_mem _ hj))
        (fun j hj => hy j (List.mem_cons_of_mem _ hj)) g1 g2 h.2

theorem consts_inv (env : Env F) (m : Nat) (f : Nat → F) (n : Nat) (s : Nat → F)
    (h : SInsn.HoldAll env s n ((List.range m).map fun i => (.constant (f i) : SInsn F))) :
    ∀ i, i < m → s (n + i) = f i := by
  induction m with
  | zero => intro i hi; omega
  | succ m ih =>
      rw [List.range_succ, List.map_append, sholdAll_append, totalOut_consts, List.length_range] at h
      intro i hi
      by_cases him : i < m
      · exact ih h.1 i him
      · have : i = m := by omega
        subst this
        exact h.2.1

theorem gtState_last (l : List Nat) (i r se k : Nat) :
    (gtState (l ++ [i]) (r, se, k)).1 = k + 7 * l.length + 3 := by
  induction l generalizing r se k with
  | nil => rfl
  | cons z l ih => rw [List.cons_append, gtState, ih, List.length_cons]; omega

theorem gtConst_eq (n : Nat) (y : Nat → Bool) :
    (gtConst n y : SCircuit F).insns = [.constant ((List.range n).map fun i =>
        2 ^ i * ofBool (y i)).sum, .constant 1, .toBinary 1 n] ++
      ((List.range n).map (fun i => .constant (ofBool (y i))) ++ ([.constant 0, .constant 1] ++
      gtLoop n y (List.range n).reverse (2 * n + 4) (2 * n + 5) (2 * n + 6))) := by
  simp [gtConst]

/-- In the source circuit the output is the comparison with the constant, of some `n` binary digits
whose value is the input. -/
theorem gtConst_source (env : Env F) (m : Nat) (y : Nat → Bool) (v ρ : F) :
    SCircuit.Sat env (gtConst (m + 1) y : SCircuit F) [v] [ρ] ↔
      ∃ x : Nat → Bool, v = ((List.range (m + 1)).map fun i => 2 ^ i * ofBool (x i)).sum ∧
        ρ = ofBool (decide (natVal y (m + 1) < natVal x (m + 1))) := by
  have hto : ∀ n, totalOut [(.constant ((List.range n).map fun i => 2 ^ i * ofBool (y i)).sum :
      SInsn F), .constant 1, .toBinary 1 n] = n + 2 := by
    intro n; simp [totalOut, SInsn.numOut]; omega
  have hlast : (gtState (List.range (m + 1)).reverse (2 * (m + 1) + 4, 2 * (m + 1) + 5,
      2 * (m + 1) + 6)).1 = 9 * (m + 1) + 2 := by
    rw [range_rev, gtState_last]; simp; omega
  have hcmp : ∀ x, (cmpLoop x y (List.range (m + 1)).reverse (false, true)).1 =
      decide (natVal y (m + 1) < natVal x (m + 1)) := by
    intro x; rw [cmpLoop_eq]; simp
  constructor
  · rintro ⟨s, hin, hh, -, hout⟩
    have hin' : [v] = [s 1] := hin
    have hout' : [ρ] = [s (9 * (m + 1) + 2)] := hout
    simp only [List.cons.injEq, and_true] at hin' hout'
    rw [gtConst_eq, sholdAll_append, sholdAll_append, sholdAll_append, hto, totalOut_consts,
      List.length_range] at hh
    obtain ⟨⟨-, h3, ⟨hbit, hsum⟩, -⟩, hc, ⟨hz0, hz1, -⟩, hl⟩ := hh
    have e1 : (gtConst (m + 1) y : SCircuit F).numInputs + 1 + (m + 1 + 2) = m + 1 + 4 := by
      show 1 + 1 + _ = _; omega
    have e2 : m + 1 + 4 + (m + 1) + totalOut [(.constant 0 : SInsn F), .constant 1] =
        2 * (m + 1) + 6 := by simp [totalOut, SInsn.numOut]; omega
    rw [e1] at hc hz0 hz1 hl
    rw [e2] at hl
    have h3' : s 3 = 1 := h3
    have hbit' : ∀ i, i < m + 1 → s (4 + i) = 0 ∨ s (4 + i) = 1 := hbit
    have hsum' : s 1 = ((List.range (m + 1)).map fun i => 2 ^ i * s (4 + i)).sum := hsum
    have hx : ∀ i, i < m + 1 → s (4 + i) = ofBool (decide (s (4 + i) = 1)) := by
      intro i hi
      rcases hbit' i hi with h | h
      · rw [h]; simp [ofBool]
      · rw [h]; simp [ofBool]
    have hzr : s (2 * (m + 1) + 4) = 0 := by
      have : s (m + 1 + 4 + (m + 1)) = 0 := hz0
      rw [← this]; congr 1; omega
    have hzs : s (2 * (m + 1) + 5) = 1 := by
      have : s (m + 1 + 4 + (m + 1) + 1) = 1 := hz1
      rw [← this]; congr 1; omega
    refine ⟨fun i => decide (s (4 + i) = 1), ?_, ?_⟩
    · rw [hin', hsum']
      congr 1
      apply List.map_congr_left
      intro i hi
      rw [List.mem_range] at hi
      rw [← hx i hi]
    · have := gtLoop_inv (x := fun i => decide (s (4 + i) = 1)) (y := y) (st := (false, true)) h3'
        (fun i hi => hx i (by simpa using hi))
        (fun i hi => consts_inv env _ _ _ s hc i (by simpa using hi)) hzr hzs hl
      rw [hlast, hcmp] at this
      rw [hout', this]
  · rintro ⟨x, rfl, rfl⟩
    set v := ((List.range (m + 1)).map fun i => 2 ^ i * (ofBool (x i) : F)).sum with hv
    set yv := ((List.range (m + 1)).map fun i => 2 ^ i * (ofBool (y i) : F)).sum with hyv
    set s0 := gtBase (m + 1) v yv (ofBool (x 0)) x y with hs0
    have hsc : ∀ i, i < m + 1 → s0 (4 + i) = ofBool (x i) := by
      intro i h3
      by_cases h0 : i = 0
      · subst h0; rfl
      simp only [hs0, gtBase]
      rw [if_neg (by omega), if_neg (by omega), if_neg (by omega), if_neg (by omega),
        if_pos (by omega)]
      congr 2; omega
    have hsy : ∀ i, i < m + 1 → s0 (m + 1 + 4 + i) = ofBool (y i) := by
      intro i h3
      simp only [hs0, gtBase]
      rw [if_neg (by omega), if_neg (by omega), if_neg (by omega), if_neg (by omega),
        if_neg (by omega), if_pos (by omega)]
      congr 2; omega
    have hsr : s0 (2 * (m + 1) + 4) = 0 := by
      simp only [hs0, gtBase]
      rw [if_neg (by omega), if_neg (by omega), if_neg (by omega), if_neg (by omega),
        if_neg (by omega), if_neg (by omega), if_neg (by omega)]
    have hse : s0 (2 * (m + 1) + 5) = 1 := by
      simp only [hs0, gtBase]
      rw [if_neg (by omega), if_neg (by omega), if_neg (by omega), if_neg (by omega),
        if_neg (by omega), if_neg (by omega), if_pos trivial]
    obtain ⟨s1, g1, g2, g3, -⟩ := gtLoop_src (n := m + 1) (x := x) (y := y)
      (l := (List.range (m + 1)).reverse) (r := 2 * (m + 1) + 4) (se := 2 * (m + 1) + 5)
      (k := 2 * (m + 1) + 6) (s := s0) (st := (false, true)) (fun i hi => by simpa using hi)
      (by omega) (by omega) (by omega) rfl (fun i hi => hsc i (by simpa using hi))
      (fun i hi => hsy i (by simpa using hi)) hsr hse
    rw [hlast, hcmp] at g3
    refine ⟨s1, ?_, ?_, by simp [gtConst], ?_⟩
    · show [v] = [s1 1]
      rw [g1 1 (by omega)]; rfl
    · rw [gtConst_eq, sholdAll_append, sholdAll_append, sholdAll_append, hto, totalOut_consts,
        List.length_range]
      have e1 : (gtConst (m + 1) y : SCircuit F).numInputs + 1 + (m + 1 + 2) = m + 1 + 4 := by
        show 1 + 1 + _ = _; omega
      have e2 : m + 1 + 4 + (m + 1) + totalOut [(.constant 0 : SInsn F), .constant 1] =
          2 * (m + 1) + 6 := by simp [totalOut, SInsn.numOut]; omega
      rw [e1, e2]
      refine ⟨⟨?_, ?_, ⟨?_, ?_⟩, trivial⟩, consts_src env _ _ _ _ fun i hi => ?_,
        ⟨?_, ?_, trivial⟩, g2 env⟩
      · show s1 2 = yv
        rw [g1 2 (by omega)]; rfl
      · show s1 3 = 1
        rw [g1 3 (by omega)]; rfl
      · intro i hi
        show s1 (4 + i) = 0 ∨ s1 (4 + i) = 1
        rw [g1 _ (by omega), hsc i hi]
        exact ofBool_bit _
      · show s1 1 = ((List.range (m + 1)).map fun i => 2 ^ i * s1 (4 + i)).sum
        rw [g1 1 (by omega)]
        show v = _
        rw [hv]
        congr 1
        apply List.map_congr_left
        intro i hi
        rw [List.mem_range] at hi
        rw [g1 _ (by omega), hsc i hi]
      · rw [g1 _ (by omega), hsy i hi]
      · show s1 (m + 1 + 4 + (m + 1)) = 0
        rw [g1 _ (by omega), ← hsr]; congr 1; omega
      · show s1 (m + 1 + 4 + (m + 1) + 1) = 1
        rw [g1 _ (by omega), ← hse]; congr 1; omega
    · show _ = [s1 (9 * (m + 1) + 2)]
      rw [g3]

theorem gtConst_valid (m : Nat) (y : Nat → Bool) : (gtConst (m + 1) y : SCircuit F).Valid := by
  have hto : ∀ n, totalOut [(.constant ((List.range n).map fun i => 2 ^ i * ofBool (y i)).sum :
      SInsn F), .constant 1, .toBinary 1 n] = n + 2 := by
    intro n; simp [totalOut, SInsn.numOut]; omega
  refine ⟨?_, by simp [gtConst], ?_⟩
  · rw [gtConst_eq, validAll_append, validAll_append, validAll_append, hto, totalOut_consts,
      List.length_range]
    have e1 : (gtConst (m + 1) y : SCircuit F).numInputs + 1 + (m + 1 + 2) = m + 1 + 4 := by
      show 1 + 1 + _ = _; omega
    have e2 : m + 1 + 4 + (m + 1) + totalOut [(.constant 0 : SInsn F), .constant 1] =
        2 * (m + 1) + 6 := by simp [totalOut, SInsn.numOut]; omega
    rw [e1, e2]
    refine ⟨⟨by simp [SInsn.inputs], by simp, by simp [SInsn.inputs], by simp, ?_, by simp,
      trivial⟩, consts_valid _ _ _, ⟨by simp [SInsn.inputs], by simp, by simp [SInsn.inputs],
      by simp, trivial⟩, gtLoop_valid (fun i hi => by simpa using hi) (by omega) (by omega)
      (by omega)⟩
    simp [SInsn.inputs, gtConst, SInsn.numOut]
  · intro o ho
    have : o = 9 * (m + 1) + 2 := by simpa [gtConst] using ho
    subst this
    rw [gtConst_eq, totalOut_append, totalOut_append, totalOut_append, hto, totalOut_consts,
      List.length_range, totalOut_gtLoop]
    simp only [List.length_reverse, List.length_range]
    have : totalOut [(.constant 0 : SInsn F), .constant 1] = 2 := rfl
    rw [this]
    show _ ∧ _ < 1 + 1 + _
    omega

end JST.Comp
