import Verif.Compiler.ForgeRun

/-!
# Two circuits which lose a constraint

`andOne`: a boolean operation with the constant one.  `gtConst`: the comparison of an input with a
constant, as the circuit API writes it.
-/

namespace JST.Comp

open JST.Circ

variable {F : Type} [Field F] [DecidableEq F]

/-- `x && 1`, and the constraint that `x` is a bit: `let one = api.constant(1); let r = api.and(x,
one); api.assert_is_bool(x)` (`frontend/builder.rs:333-356`, `413-425`). -/
def andOne : SCircuit F :=
  { insns := [.constant 1, .boolBin 1 2 .and], cons := [(1, .bool)], outputs := [3],
    numInputs := 1 }

/-- `frontend/builder.rs:494-512`: one round of the loop of `gt`.  The variables of the bits of `x`
are `4 + i`, those of the (constant) bits of `y` are `n + 4 + i`, and `3` is the constant one. -/
def gtStep (n : Nat) (yi : Bool) (i r se k : Nat) : List (SInsn F) :=
  [.constant (ofBool !yi), .boolBin (4 + i) k .and, .boolBin se (k + 1) .and,
    .boolBin r (k + 2) .or, .boolBin (4 + i) (n + 4 + i) .xor, .linComb ⟨[(3, 1), (k + 4, -1)], 0⟩,
    .boolBin se (k + 5) .and]

/-- The loop, over the bits `l`; `r` is `result`, `se` is `still_equal`, `k` the next variable. -/
def gtLoop (n : Nat) (y : Nat → Bool) : List Nat → Nat → Nat → Nat → List (SInsn F)
  | [], _, _, _ => []
  | i :: l, r, se, k => gtStep n (y i) i r se k ++ gtLoop n y l (k + 3) (k + 6) (k + 7)

/-- `frontend/builder.rs:472-517` `gt(x, y)`, where `x` is the input of the circuit and `y` the
constant whose `n` binary digits are `y i`.  The operations whose operands are constants are
computed at once (`to_binary` of `y`, `sub(one, y_bit)`). -/
def gtConst (n : Nat) (y : Nat → Bool) : SCircuit F :=
  { insns := [.constant ((List.range n).map fun i => 2 ^ i * ofBool (y i)).sum, .constant 1,
      .toBinary 1 n] ++ (List.range n).map (fun i => .constant (ofBool (y i))) ++
      [.constant 0, .constant 1] ++ gtLoop n y (List.range n).reverse (2 * n + 4) (2 * n + 5)
        (2 * n + 6),
    cons := [], outputs := [9 * n + 2], numInputs := 1 }

/-! ## End of the pass -/

theorem finish_sat (cfg : Cfg F) (c : SCircuit F) {b : B F}
    (hrun : runCircuit cfg c B.new = .ok ((), b)) (hinv : Inv c.numInputs b)
    (hout : ∀ o ∈ c.outputs, 1 ≤ o ∧ o < b.inToOut.length) :
    ∃ oc, processCircuit cfg c = .ok (oc, b) ∧ ∀ (env : Env F) (a s : Nat → F),
      Full (fun _ => False) env c.numInputs a b → Match a s b →
      (∀ i, i < c.numInputs → a (i + 1) = s (i + 1)) →
      OCircuit.Sat env oc ((List.range c.numInputs).map fun i => s (i + 1)) (c.outputs.map s) := by
  obtain ⟨vs, hc1, hc2, -⟩ := collect_ok hinv b.cons
  have hmo := mapOutputs_ok (b := b) (l := c.outputs) fun o ho => (hout o ho).2
  refine ⟨⟨b.insns, vs, c.outputs.map fun o => b.inToOut.getD o 0, c.numInputs⟩, ?_, ?_⟩
  · unfold processCircuit
    rw [hrun]
    show Except.bind (orPanic (collect b b.cons)) _ = _
    rw [hc1]
    show Except.bind (orPanic (mapOutputs b c.outputs)) _ = _
    rw [hmo]
    rfl
  · intro env a s hf hm hi
    refine ⟨a, ?_, hf.1, ?_, ?_⟩
    · apply List.map_congr_left
      intro i hi'
      rw [List.mem_range] at hi'
      exact (hi i hi').symm
    · intro v hv
      obtain ⟨e, k1, k2, k3⟩ := hc2 v hv
      exact hf.2 e v not_false k1 k2 k3
    · rw [List.map_map]
      apply List.map_congr_left
      intro o ho
      simp only [Function.comp]
      rw [hm o (hout o ho).1 (hout o ho).2]

/-! ## `andOne` -/

theorem addInput_one_expr {b : B F} (h : addInput 1 (B.new : B F) = .ok ((), b)) :
    b.exprs = [zeroExpr, newLinear 1 1] := by
  unfold addInput addOutVars at h
  obtain ⟨h1, -⟩ := newVars_ok 1 (B.new : B F) inv_new.wf.pool
  rw [h1] at h
  simp only [bind, Except.bind] at h
  split at h
  · rename_i b1 h1
    cases h
    have k := (fixLoop_same h1).1
    show b1.exprs = _
    rw [k]
    simp [B.new, fresh, List.range_succ]
  · cases h

theorem start_full {N : Nat} {X : Expr F → Prop} {b : B F} (hi : b.insns = []) (hc : b.cons = [])
    (env : Env F) (s : Nat → F) : Full X env N s b := by
  refine ⟨?_, ?_⟩
  · unfold Cons; rw [hi]; trivial
  · intro e i _ hl; rw [hc] at hl; simp [lookup] at hl

theorem start_match {N : Nat} {b : B F} (hi : b.inToOut = List.range (N + 1)) (s : Nat → F) :
    Match s s b := by
  intro x _ hx
  rw [hi, List.length_range] at hx
  rw [hi, List.getD_eq_getElem?_getD, List.getElem?_range hx]; rfl

/-- The compiled circuit accepts every value for `x`. -/
theorem andOne_forge (cfg : Cfg F) (h2 : (1 + 1 : F) ≠ 0) :
    ∃ oc b, processCircuit cfg (andOne : SCircuit F) = .ok (oc, b) ∧
      ∀ (env : Env F) (v : F), OCircuit.Sat env oc [v] [v] := by
  obtain ⟨b0, e0, i0, t0, ito0, ins0, cons0, -⟩ := addInput_ok (F := F) 1
  have hex0 := addInput_one_expr e0
  have hl0 : b0.inToOut.length = 2 := by rw [ito0]; rfl
  obtain ⟨b1, e1, l1, r1, x1⟩ := const_fwd (X := Only 1) cfg i0 t0 (by omega) 1
  obtain ⟨b2, e2, l2, f2, mk2, x2⟩ := bool_fwd (j := 1) cfg r1.inv r1.itoOk (x := 1) (y := 2) .and
    (by omega) (by omega) h2
  have hs0 : SExpr b0 1 (newLinear 1 1) := by
    unfold SExpr; rw [ito0, hex0]; rfl
  have hs1 := hs0.prefix r1.exprs r1.ito (by omega)
  have hl1 : b1.inToOut.length = 3 := by omega
  have hl2 : b2.inToOut.length = 4 := by omega
  rw [hl0] at x1
  have hs2 := x2 1 hs1 x1 (Or.inr rfl) (by decide)
  rw [hl1] at hs2 mk2
  simp only [resExpr, if_neg (one_ne_zero (α := F))] at hs2
  have hmark := mk2 (Or.inl hs2)
  have hr := f2.itoOk 1 (by omega) (by omega)
  obtain ⟨b3, e3, l3, g3⟩ := assertBool_forge (j := 1) cfg f2.inv hr
  have hito3 : b3.inToOut = b2.inToOut := g3.ito
  have hrun : runCircuit cfg (andOne : SCircuit F) B.new = .ok ((), b3) := by
    unfold runCircuit andOne
    rw [bind_ok e0]
    have : processInsns cfg [.constant 1, .boolBin 1 2 .and] b0 = .ok ((), b2) := by
      rw [processInsns, bind_ok e1, processInsns, bind_ok e2]; rfl
    rw [bind_ok this]
    have h4 : processCon cfg (1, .bool) b2 = .ok ((), b3) := by
      unfold processCon
      have : b2.inToOut[1]? = some (b2.inToOut.getD 1 0) := by
        rw [List.getD_eq_getElem?_getD, List.getElem?_eq_getElem (by omega)]; rfl
      rw [this]
      exact e3
    rw [processCons, bind_ok h4]; rfl
  obtain ⟨oc, hp, hsat⟩ := finish_sat cfg (andOne : SCircuit F) hrun g3.inv (by
    intro o ho
    simp only [andOne, List.mem_singleton] at ho
    subst ho
    rw [hito3]; omega)
  refine ⟨oc, b3, hp, fun env v => ?_⟩
  have hf0 : Full (Only 1) env 1 (fun z => if z = 2 then 1 else v) b0 := start_full ins0 cons0 _ _
  obtain ⟨a1, p1, q1, m1⟩ := r1.complete env _ (fun z => if z = 2 then 1 else v) hf0
    (start_match ito0 _) (by rw [hl0]; simp) trivial
  obtain ⟨a2, p2, q2, m2⟩ := f2.go env a1 _ q1 m1 ⟨Or.inl (Or.inl hs1), Or.inr (Or.inr rfl), by
    rw [hl1]; simp [boolPoly]⟩
  obtain ⟨a3, p3, q3, -⟩ := g3.complete env a2 q2 (by
    left
    exact (SLit.prefix f2.exprs f2.ito (by omega) (Or.inl hs1 : SLit 1 b1 1)))
  have hmark3 : lookup (bcx 1) b3.cons = some .marked :=
    mk_assertBool _ _ _ _ _ _ e3 hmark
  have hm3 : Match a3 (fun z => if z = 2 then 1 else v) b3 := by
    intro x h1 h2
    rw [hito3] at h2 ⊢
    rw [p3 _ (f2.itoOk x h1 h2).2]
    exact m2 x h1 h2
  have := hsat env a3 _ (q3.all hmark3) hm3 (by
    intro i hi
    change i < 1 at hi
    have hi0 : i = 0 := by omega
    subst hi0
    have hlen0 : b0.exprs.length = 2 := by rw [hex0]; rfl
    have := r1.exprs.length_le
    have := f2.exprs.length_le
    rw [p3 _ (by omega), p2 _ (by omega), p1 _ (by omega)])
  simpa [andOne] using this

/-! ## `gtConst`: the source -/

theorem sholdAll_append (env : Env F) (a : Nat → F) (l r : List (SInsn F)) (n : Nat) :
    SInsn.HoldAll env a n (l ++ r) ↔
      SInsn.HoldAll env a n l ∧ SInsn.HoldAll env a (n + totalOut l) r := by
  induction l generalizing n with
  | nil => simp [SInsn.HoldAll, totalOut]
  | cons i l ih =>
      simp only [List.cons_append, SInsn.HoldAll, ih, and_assoc, totalOut, List.map_cons,
        List.sum_cons, Nat.add_assoc]

theorem validAll_append (l r : List (SInsn F)) (n : Nat) :
    SInsn.ValidAll n (l ++ r) ↔ SInsn.ValidAll n l ∧ SInsn.ValidAll (n + totalOut l) r := by
  induction l generalizing n with
  | nil => simp [SInsn.ValidAll, totalOut]
  | cons i l ih =>
      simp only [List.cons_append, SInsn.ValidAll, ih, and_assoc, totalOut, List.map_cons,
        List.sum_cons, Nat.add_assoc]

theorem totalOut_append (l r : List (SInsn F)) : totalOut (l ++ r) = totalOut l + totalOut r := by
  simp [totalOut]

theorem sholdAll_local {l : List (SInsn F)} {n : Nat} (hv : SInsn.ValidAll n l) (env : Env F)
    (a a' : Nat → F) (h : ∀ x, x < n + totalOut l → a' x = a x)
    (hh : SInsn.HoldAll env a n l) : SInsn.HoldAll env a' n l := by
  induction l generalizing n with
  | nil => trivial
  | cons i l ih =>
      have ht : totalOut (i :: l) = i.numOut + totalOut l := by simp [totalOut]
      rw [ht] at h
      exact ⟨sholds_local (fun x hx => (hv.1 x hx).2) env a a'
        (fun x hx => (h x (by omega)).symm) hh.1, ih hv.2.2 (fun x hx => h x (by omega)) hh.2⟩

theorem honestAll_safe {ev : UOp → F → F → Option F} {l : List (SInsn F)} (hs : ∀ i ∈ l, Safe i)
    (a : Nat → F) (n : Nat) : SInsn.HonestAll ev a n l := by
  induction l generalizing n with
  | nil => trivial
  | cons i l ih =>
      refine ⟨?_, ih (fun j hj => hs j (List.mem_cons_of_mem _ hj)) _⟩
      have := hs i List.mem_cons_self
      cases i <;> first | trivial | exact this.elim

/-- One round of the comparison on bits: `(result, still_equal)`. -/
def cmpStep (st : Bool × Bool) (x y : Bool) : Bool × Bool :=
  (st.1 || (st.2 && (x && !y)), st.2 && !(x != y))

def cmpLoop (x y : Nat → Bool) (l : List Nat) (st : Bool × Bool) : Bool × Bool :=
  l.foldl (fun st i => cmpStep st (x i) (y i)) st

theorem totalOut_gtStep (n : Nat) (yi : Bool) (i r se k : Nat) :
    totalOut (gtStep n yi i r se k : List (SInsn F)) = 7 := rfl

theorem gtStep_valid {n : Nat} {yi : Bool} {i r se k : Nat} (hi : i < n) (hr : 1 ≤ r ∧ r < k)
    (hse : 1 ≤ se ∧ se < k) (hk : 2 * n + 6 ≤ k) :
    SInsn.ValidAll k (gtStep n yi i r se k : List (SInsn F)) := by
  unfold gtStep
  simp only [SInsn.ValidAll, SInsn.inputs, SInsn.numOut, List.mem_cons, List.not_mem_nil, or_false,
    forall_eq_or_imp, forall_eq, List.map_cons, List.map_nil, and_true, reduceCtorEq,
    false_implies, implies_true, true_and]
  omega

theorem totalOut_gtLoop (n : Nat) (y : Nat → Bool) (l : List Nat) (r se k : Nat) :
    totalOut (gtLoop n y l r se k : List (SInsn F)) = 7 * l.length := by
  induction l generalizing r se k with
  | nil => rfl
  | cons i l ih =>
      rw [gtLoop, totalOut_append, totalOut_gtStep, ih, List.length_cons]; omega

theorem gtLoop_valid {n : Nat} {y : Nat → Bool} {l : List Nat} {r se k : Nat}
    (hl : ∀ i ∈ l, i < n) (hr : 1 ≤ r ∧ r < k) (hse : 1 ≤ se ∧ se < k) (hk : 2 * n + 6 ≤ k) :
    SInsn.ValidAll k (gtLoop n y l r se k : List (SInsn F)) := by
  induction l generalizing r se k with
  | nil => trivial
  | cons i l ih =>
      rw [gtLoop, validAll_append, totalOut_gtStep]
      exact ⟨gtStep_valid (hl i List.mem_cons_self) hr hse hk,
        ih (fun j hj => hl j (List.mem_cons_of_mem _ hj)) (by omega) (by omega) (by omega)⟩

theorem gtLoop_safe (n : Nat) (y : Nat → Bool) (l : List Nat) (r se k : Nat) :
    ∀ i ∈ (gtLoop n y l r se k : List (SInsn F)), Safe i := by
  induction l generalizing r se k with
  | nil => simp [gtLoop]
  | cons i l ih =>
      intro j hj
      rw [gtLoop, List.mem_append] at hj
      rcases hj with hj | hj
      · simp only [gtStep, List.mem_cons, List.not_mem_nil, or_false] at hj
        rcases hj with rfl | rfl | rfl | rfl | rfl | rfl | rfl <;> trivial
      · exact ih _ _ _ j hj

/-- The variables of `result` and `still_equal` and the next variable after the loop. -/
def gtState : List Nat → Nat × Nat × Nat → Nat × Nat × Nat
  | [], st => st
  | _ :: l, (_, _, k) => gtState l (k + 3, k + 6, k + 7)

theorem gtLoop_append (n : Nat) (y : Nat → Bool) (l l' : List Nat) (r se k : Nat) :
    (gtLoop n y (l ++ l') r se k : List (SInsn F)) = gtLoop n y l r se k ++
      gtLoop n y l' (gtState l (r, se, k)).1 (gtState l (r, se, k)).2.1
        (gtState l (r, se, k)).2.2 := by
  induction l generalizing r se k with
  | nil => rfl
  | cons i l ih => rw [List.cons_append, gtLoop, ih, gtLoop, List.append_assoc]; rfl

theorem gtState_k (l : List Nat) (r se k : Nat) :
    (gtState l (r, se, k)).2.2 = k + 7 * l.length := by
  induction l generalizing r se k with
  | nil => rfl
  | cons i l ih => rw [gtState, ih, List.length_cons]; omega

theorem gtState_lt {l : List Nat} {r se k : Nat} (hr : 1 ≤ r ∧ r < k) (hse : 1 ≤ se ∧ se < k) :
    (1 ≤ (gtState l (r, se, k)).1 ∧ (gtState l (r, se, k)).1 < (gtState l (r, se, k)).2.2) ∧
    (1 ≤ (gtState l (r, se, k)).2.1 ∧ (gtState l (r, se, k)).2.1 < (gtState l (r, se, k)).2.2) := by
  induction l generalizing r se k with
  | nil => exact ⟨hr, hse⟩
  | cons i l ih => exact ih (by omega) (by omega)

/-- The values `vals` from variable `k` on. -/
def ext (s : Nat → F) (k : Nat) (vals : List F) : Nat → F :=
  fun z => if z < k then s z else vals.getD (z - k) 0

theorem ext_lt {s : Nat → F} {k : Nat} {vals : List F} {z : Nat} (h : z < k) :
    ext s k vals z = s z := if_pos h

theorem ext_new (s : Nat → F) (k : Nat) (vals : List F) (q : Nat) :
    ext s k vals (k + q) = vals.getD q 0 := by
  unfold ext
  rw [if_neg (by omega), Nat.add_sub_cancel_left]

theorem one_sub_ofBool (p : Bool) : (1 : F) - ofBool p = ofBool (!p) := by
  cases p <;> simp [ofBool]

/-- One round on the source side, with bits. -/
theorem gtStep_src {n : Nat} {yi xi : Bool} {i r se k : Nat} {s : Nat → F} {st : Bool × Bool}
    (hi : i < n) (hr : 1 ≤ r ∧ r < k) (hse : 1 ≤ se ∧ se < k) (hk : 2 * n + 6 ≤ k)
    (h3 : s 3 = 1) (hx : s (4 + i) = ofBool xi) (hy : s (n + 4 + i) = ofBool yi)
    (hsr : s r = ofBool st.1) (hss : s se = ofBool st.2) :
    ∃ s', (∀ z, z < k → s' z = s z) ∧
      (∀ env, SInsn.HoldAll env s' k (gtStep n yi i r se k)) ∧
      s' (k + 3) = ofBool (cmpStep st xi yi).1 ∧ s' (k + 6) = ofBool (cmpStep st xi yi).2 := by
  refine ⟨ext s k [ofBool !yi, ofBool (xi && !yi), ofBool (st.2 && (xi && !yi)),
    ofBool (st.1 || (st.2 && (xi && !yi))), ofBool (xi != yi), ofBool !(xi != yi),
    ofBool (st.2 && !(xi != yi))], fun z hz => ext_lt hz, fun env => ?_, ext_new _ _ _ 3,
    ext_new _ _ _ 6⟩
  unfold gtStep
  simp only [SInsn.HoldAll, SInsn.Holds, SInsn.numOut, and_true, Nat.add_assoc, Nat.reduceAdd,
    LinComb.eval, List.map_cons, List.map_nil, List.sum_cons, List.sum_nil]
  rw [← Nat.add_assoc n 4 i]
  have e0 := ext_new s k [ofBool !yi, ofBool (xi && !yi), ofBool (st.2 && (xi && !yi)),
    ofBool (st.1 || (st.2 && (xi && !yi))), ofBool (xi != yi), ofBool !(xi != yi),
    ofBool (st.2 && !(xi != yi))]
  have v0 := e0 0
  have v1 := e0 1
  have v2 := e0 2
  have v3 := e0 3
  have v4 := e0 4
  have v5 := e0 5
  have v6 := e0 6
  simp only [Nat.add_zero, List.getD_cons_zero, List.getD_cons_succ] at v0 v1 v2 v3 v4 v5 v6
  have l1 := ext_lt (s := s) (k := k) (vals := [ofBool !yi, ofBool (xi && !yi), ofBool (st.2 &&
    (xi && !yi)), ofBool (st.1 || (st.2 && (xi && !yi))), ofBool (xi != yi), ofBool !(xi != yi),
    ofBool (st.2 && !(xi != yi))]) (z := 4 + i) (by omega)
  have l2 := ext_lt (s := s) (k := k) (vals := [ofBool !yi, ofBool (xi && !yi), ofBool (st.2 &&
    (xi && !yi)), ofBool (st.1 || (st.2 && (xi && !yi))), ofBool (xi != yi), ofBool !(xi != yi),
    ofBool (st.2 && !(xi != yi))]) (z := se) hse.2
  have l3 := ext_lt (s := s) (k := k) (vals := [ofBool !yi, ofBool (xi && !yi), ofBool (st.2 &&
    (xi && !yi)), ofBool (st.1 || (st.2 && (xi && !yi))), ofBool (xi != yi), ofBool !(xi != yi),
    ofBool (st.2 && !(xi != yi))]) (z := r) hr.2
  have l4 := ext_lt (s := s) (k := k) (vals := [ofBool !yi, ofBool (xi && !yi), ofBool (st.2 &&
    (xi && !yi)), ofBool (st.1 || (st.2 && (xi && !yi))), ofBool (xi != yi), ofBool !(xi != yi),
    ofBool (st.2 && !(xi != yi))]) (z := n + 4 + i) (by omega)
  have l5 := ext_lt (s := s) (k := k) (vals := [ofBool !yi, ofBool (xi && !yi), ofBool (st.2 &&
    (xi && !yi)), ofBool (st.1 || (st.2 && (xi && !yi))), ofBool (xi != yi), ofBool !(xi != yi),
    ofBool (st.2 && !(xi != yi))]) (z := 3) (by omega)
  rw [v0, v1, v2, v3, v4, v5, v6, l1, l2, l3, l4, l5, h3, hx, hy, hsr, hss]
  refine ⟨rfl, ⟨xi, !yi, rfl, rfl, rfl⟩, ⟨st.2, _, rfl, rfl, rfl⟩, ⟨st.1, _, rfl, rfl, rfl⟩,
    ⟨xi, yi, rfl, rfl, rfl⟩, ?_, ⟨st.2, _, rfl, rfl, rfl⟩⟩
  rw [← one_sub_ofBool]; ring

theorem gtLoop_src {n : Nat} {x y : Nat → Bool} {l : List Nat} {r se k : Nat} {s : Nat → F}
    {st : Bool × Bool} (hl : ∀ i ∈ l, i < n) (hr : 1 ≤ r ∧ r < k) (hse : 1 ≤ se ∧ se < k)
    (hk : 2 * n + 6 ≤ k) (h3 : s 3 = 1) (hx : ∀ i ∈ l, s (4 + i) = ofBool (x i))
    (hy : ∀ i ∈ l, s (n + 4 + i) = ofBool (y i)) (hsr : s r = ofBool st.1)
    (hss : s se = ofBool st.2) :
    ∃ s', (∀ z, z < k → s' z = s z) ∧
      (∀ env, SInsn.HoldAll env s' k (gtLoop n y l r se k)) ∧
      s' (gtState l (r, se, k)).1 = ofBool (cmpLoop x y l st).1 ∧
      s' (gtState l (r, se, k)).2.1 = ofBool (cmpLoop x y l st).2 := by
  induction l generalizing r se k s st with
  | nil => exact ⟨s, fun _ _ => rfl, fun _ => trivial, hsr, hss⟩
  | cons i l ih =>
      have hi := hl i List.mem_cons_self
      obtain ⟨s1, p1, q1, u1, w1⟩ := gtStep_src (st := st) (n := n) (yi := y i) (xi := x i) hi hr
        hse hk h3 (hx i List.mem_cons_self) (hy i List.mem_cons_self) hsr hss
      obtain ⟨s2, p2, q2, u2, w2⟩ := ih (r := k + 3) (se := k + 6) (k := k + 7) (s := s1)
        (st := cmpStep st (x i) (y i)) (fun j hj => hl j (List.mem_cons_of_mem _ hj)) (by omega)
        (by omega) (by omega) (by rw [p1 3 (by omega), h3])
        (fun j hj => by
          have := hl j (List.mem_cons_of_mem _ hj)
          rw [p1 _ (by omega), hx j (List.mem_cons_of_mem _ hj)])
        (fun j hj => by
          have := hl j (List.mem_cons_of_mem _ hj)
          rw [p1 _ (by omega), hy j (List.mem_cons_of_mem _ hj)]) u1 w1
      refine ⟨s2, fun z hz => by rw [p2 z (by omega), p1 z hz], fun env => ?_, u2, w2⟩
      rw [gtLoop, sholdAll_append, totalOut_gtStep]
      exact ⟨sholdAll_local (gtStep_valid hi hr hse hk) env s1 s2
        (fun z hz => p2 z (by rw [totalOut_gtStep] at hz; exact hz)) (q1 env), q2 env⟩

/-! ## The comparison of bits -/

def natVal (x : Nat → Bool) : Nat → Nat
  | 0 => 0
  | n + 1 => natVal x n + 2 ^ n * (x n).toNat

theorem natVal_lt (x : Nat → Bool) (n : Nat) : natVal x n < 2 ^ n := by
  induction n with
  | zero => simp [natVal]
  | succ n ih =>
      rw [natVal, pow_succ]
      cases x n <;> simp <;> omega

theorem cmpLoop_eq (x y : Nat → Bool) (n : Nat) (st : Bool × Bool) :
    cmpLoop x y (List.range n).reverse st =
      (st.1 || (st.2 && decide (natVal y n < natVal x n)),
        st.2 && decide (natVal x n = natVal y n)) := by
  induction n generalizing st with
  | zero => simp [cmpLoop, natVal]
  | succ n ih =>
      rw [List.range_succ, List.reverse_append, List.reverse_singleton, List.singleton_append]
      show cmpLoop x y (List.range n).reverse (cmpStep st (x n) (y n)) = _
      rw [ih]
      have hx := natVal_lt x n
      have hy := natVal_lt y n
      have e1 : natVal x (n + 1) = natVal x n + 2 ^ n * (x n).toNat := rfl
      have e2 : natVal y (n + 1) = natVal y n + 2 ^ n * (y n).toNat := rfl
      rw [e1, e2]
      unfold cmpStep
      obtain ⟨ρ, σ⟩ := st
      cases hxn : x n <;> cases hyn : y n <;> cases σ <;> cases ρ <;>
        simp [Bool.toNat] <;> omega

/-- A loop over equal bits changes nothing. -/
theorem cmpLoop_same {x y : Nat → Bool} {l : List Nat} (h : ∀ i ∈ l, x i = y i)
    (st : Bool × Bool) : cmpLoop x y l st = st := by
  induction l generalizing st with
  | nil => rfl
  | cons i l ih =>
      show cmpLoop x y l (cmpStep st (x i) (y i)) = st
      rw [ih fun j hj => h j (List.mem_cons_of_mem _ hj)]
      rw [h i List.mem_cons_self]
      obtain ⟨ρ, σ⟩ := st
      cases y i <;> cases σ <;> cases ρ <;> rfl

/-- Once the bits have differed nothing changes any more. -/
theorem cmpLoop_done (x y : Nat → Bool) (l : List Nat) (ρ : Bool) :
    cmpLoop x y l (ρ, false) = (ρ, false) := by
  induction l with
  | nil => rfl
  | cons i l ih =>
      show cmpLoop x y l (cmpStep (ρ, false) (x i) (y i)) = _
      have : cmpStep (ρ, false) (x i) (y i) = (ρ, false) := by
        unfold cmpStep; simp
      rw [this, ih]

end JST.Comp
