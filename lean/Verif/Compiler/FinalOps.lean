import Verif.Compiler.FinalInv

/-!
# The second pass: sums and products
-/

set_option linter.unusedSectionVars false

namespace JST.Comp

open JST.Circ JST.Flat

variable {F R : Type} [Field F] [DecidableEq F]

theorem FRet.len {b b' : FB F R} {r : Expr F} {val : (Nat → F) → F} (h : FRet b r b' val) :
    b.pool.length ≤ b'.pool.length := h.ext.len

/-! ## Sums -/

theorem layeredLoop_ok {b : FB F R} (h : FInv b) {cur : List (Term F)} {last : Option Nat}
    {rest : List (Term F)} (hc : ∀ t ∈ cur, t.vars.Below b.pool.length)
    (hr : ∀ t ∈ rest, t.vars.Below b.pool.length) :
    ∃ r b', layeredLoop b cur last rest = some (r, b') ∧
      FRet b r b' (fun m => Expr.eval m cur + Expr.eval m rest) := by
  induction rest generalizing b cur last with
  | nil =>
      exact ⟨_, _, rfl, FExt.refl b, h, fromTerms_wf hc, fun m _ => by
        rw [fromTerms_eval, Expr.eval_nil, add_zero]⟩
  | cons t r ih =>
      obtain ⟨l, hl⟩ := varLayer_ok (b := b) (s := t.vars) (by
        rw [h.llen]; exact hr t List.mem_cons_self)
      unfold layeredLoop
      rw [hl]
      simp only [Option.bind_eq_bind, Option.bind_some]
      have hrr : ∀ s ∈ r, s.vars.Below b.pool.length := fun s hs => hr s (List.mem_cons_of_mem _ hs)
      split_ifs with hcase
      · obtain ⟨r', b', h1, h2⟩ := ih (last := some l) h (cur := cur ++ [t]) (by
          intro s hs
          rcases List.mem_append.1 hs with hs | hs
          · exact hc s hs
          · rw [List.mem_singleton.1 hs]; exact hr t List.mem_cons_self) hrr
        refine ⟨_, _, h1, h2.ext, h2.inv, h2.wf, fun m hm => ?_⟩
        rw [h2.eval m hm, Expr.eval_append, Expr.eval_cons, Expr.eval_cons, Expr.eval_nil]; ring
      · obtain ⟨e, b1, g1, g2, -⟩ := makeSingle_ok h (fromTerms_wf hc)
        rw [g1]
        simp only [Option.bind_some]
        obtain ⟨r', b', h1, h2⟩ := ih (last := some l) g2.inv (cur := e ++ [t]) (by
          intro s hs
          rcases List.mem_append.1 hs with hs | hs
          · exact g2.wf.below s hs
          · rw [List.mem_singleton.1 hs]
            exact (hr t List.mem_cons_self).mono g2.len) (fun s hs => (hrr s hs).mono g2.len)
        refine ⟨_, _, h1, g2.ext.trans h2.ext, h2.inv, h2.wf, fun m hm => ?_⟩
        rw [h2.eval m hm, Expr.eval_append, Expr.eval_cons, Expr.eval_cons, Expr.eval_nil,
          g2.eval m (hm.ext h2.ext), fromTerms_eval]; ring

/-- `layered_add` gives an expression with the same value. -/
theorem layeredAdd_ok {b : FB F R} (h : FInv b) {ts : Expr F} (ht : Expr.WF b.pool.length ts) :
    ∃ r b', layeredAdd b ts = some (r, b') ∧ FRet b r b' (fun m => Expr.eval m ts) := by
  have hs : fromTermsSorted ts = some ts := fromTermsSorted_eq ht.ne ht.sorted ht.norm
  have hdone : ∃ r b', (fromTermsSorted ts).map (fun e => (e, b)) = some (r, b') ∧
      FRet b r b' (fun m => Expr.eval m ts) := by
    rw [hs]
    exact ⟨_, _, rfl, FExt.refl b, h, ht, fun _ _ => rfl⟩
  unfold layeredAdd
  split_ifs with h1
  · exact hdone
  · obtain ⟨ls, l1, l2⟩ := layers_ok (b := b) (ts := ts) fun t hm => by
      rw [h.llen]; exact ht.below t hm
    have hne : ls ≠ [] := by
      intro h0; rw [h0] at l2; exact ht.ne (List.length_eq_zero_iff.1 l2.symm)
    obtain ⟨mn, hmn⟩ := min?_ok hne
    obtain ⟨mx, hmx⟩ := max?_ok hne
    simp only [l1, hmn, hmx, Option.bind_eq_bind, Option.bind_some]
    split_ifs with h2
    · exact hdone
    · have hp := List.perm_insertionSort (fun s t => layerLe b s t = true) ts
      obtain ⟨r, b', g1, g2⟩ := layeredLoop_ok h (cur := []) (last := none)
        (rest := ts.insertionSort fun s t => layerLe b s t) (by simp)
        fun t hm => ht.below t (hp.mem_iff.1 hm)
      refine ⟨r, b', g1, g2.ext, g2.inv, g2.wf, fun m hm => ?_⟩
      rw [g2.eval m hm, Expr.eval_nil, zero_add, Expr.eval_perm m hp]

theorem tryAll_ok {b : FB F R} (h : FInv b) {vars : List (Expr F × F)}
    (hv : ∀ ec ∈ vars, Expr.WF b.pool.length ec.1) :
    ∃ es, tryAll b vars = some es ∧ (∀ ec ∈ es, Expr.WF b.pool.length ec.1) ∧
      ∀ m, FOk b m → es.map (fun ec => (Expr.eval m ec.1, ec.2)) =
        vars.map (fun ec => (Expr.eval m ec.1, ec.2)) := by
  induction vars with
  | nil => exact ⟨[], rfl, by simp, fun _ _ => rfl⟩
  | cons ec r ih =>
      obtain ⟨e, c⟩ := ec
      obtain ⟨s, h1, h2⟩ := tryMakeSingle_ok h (hv (e, c) List.mem_cons_self)
      obtain ⟨es, g1, g2, g3⟩ := ih fun ec hec => hv ec (List.mem_cons_of_mem _ hec)
      refine ⟨(s, c) :: es, by simp only [tryAll, h1, g1, Option.bind_eq_bind, Option.bind_some],
        ?_, fun m hm => ?_⟩
      · intro ec hec
        rcases List.mem_cons.1 hec with rfl | hec
        · exact h2.wf
        · exact g2 ec hec
      · simp only [List.map_cons, g3 m hm, h2.eval m hm]

theorem linValue_pairs (vars : List (Expr F × F)) (m : Nat → F) :
    linValue vars m =
      ((vars.map fun ec => (Expr.eval m ec.1, ec.2)).map fun p => p.1 * p.2).sum := by
  rw [List.map_map]; rfl

theorem linValue_filter (vars : List (Expr F × F)) (m : Nat → F) :
    linValue (vars.filter fun ec => ec.2 ≠ 0) m = linValue vars m := by
  induction vars with
  | nil => rfl
  | cons ec r ih =>
      obtain ⟨e, c⟩ := ec
      rw [linValue_cons, List.filter_cons]
      by_cases hc : c = 0
      · rw [if_neg (by simpa using hc), ih, hc]; ring
      · rw [if_pos (by simpa using hc), linValue_cons, ih]

/-- The merge of scaled expressions. -/
theorem merge_ok {L : Nat} {es : List (Expr F × F)} (hv : ∀ ec ∈ es, Expr.WF L ec.1) :
    let qs := es.map fun ec => ec.1.map fun t => (⟨t.coef * ec.2, t.vars⟩ : Term F)
    let res := ((kmerge (qs.map List.length).sum qs).foldl pushTerm []).reverse
    (res ≠ [] → Expr.WF L res) ∧ ∀ m, Expr.eval m res = linValue es m := by
  intro qs res
  have hlen : qs.flatten.length ≤ (qs.map List.length).sum := by rw [List.length_flatten]
  have hperm := kmerge_perm _ qs hlen
  have h4 : ∀ q ∈ qs, (q.Pairwise fun a b => a.vars ≤ b.vars) ∧
      ∀ t ∈ q, t.vars.isNormalized = true ∧ t.vars.Below L := by
    intro q hq
    obtain ⟨ec, hec, rfl⟩ := List.mem_map.1 hq
    have hs := hv ec hec
    refine ⟨List.pairwise_map.2 (hs.sorted.imp fun hab => hab.le), ?_⟩
    intro t ht
    obtain ⟨w, hw, rfl⟩ := List.mem_map.1 ht
    exact ⟨hs.norm w hw, hs.below w hw⟩
  have hsort := kmerge_sorted _ qs hlen fun q hq => (h4 q hq).1
  obtain ⟨p1, p2, p3⟩ := foldl_pushTerm_sorted _ [] hsort (by simp) (by simp) (by simp)
  have hvars : ∀ t ∈ res, t.vars.isNormalized = true ∧ t.vars.Below L := by
    intro t ht
    rcases p3 t (List.mem_reverse.1 ht) with ⟨w, hw, he⟩ | hm
    · rw [he]
      obtain ⟨q, hq, hwq⟩ := List.mem_flatten.1 (hperm.mem_iff.1 hw)
      exact (h4 q hq).2 w hwq
    · cases hm
  refine ⟨fun h0 => ⟨h0, List.pairwise_reverse.2 p1, fun t ht => (hvars t ht).1,
    fun t ht => (hvars t ht).2, Or.inr fun t ht => p2 t (List.mem_reverse.1 ht)⟩, fun m => ?_⟩
  have hq : Expr.eval m qs.flatten = linValue es m := by
    clear hvars p3 p2 p1 hsort hperm hlen h4 hv
    change Expr.eval m (es.map fun ec => ec.1.map fun t =>
      (⟨t.coef * ec.2, t.vars⟩ : Term F)).flatten = _
    clear res qs
    induction es with
    | nil => rfl
    | cons ec r ih =>
        obtain ⟨e, c⟩ := ec
        rw [List.map_cons, Expr.eval_flatten_cons, ih, linValue_cons, Expr.eval_scale]
  change Expr.eval m ((kmerge (qs.map List.length).sum qs).foldl pushTerm []).reverse = _
  rw [Expr.eval_reverse, foldl_pushTerm_eval, Expr.eval_nil, zero_add, Expr.eval_perm m hperm, hq]

/-- `lin_comb_inner` gives an expression with the value of the linear combination. -/
theorem linInner_ok {b : FB F R} (h : FInv b) {vars : List (Expr F × F)}
    (hv : ∀ ec ∈ vars, Expr.WF b.pool.length ec.1) :
    ∃ r b', linInner b vars = some (r, b') ∧ FRet b r b' (linValue vars) := by
  match vars with
  | [] =>
      exact ⟨_, _, rfl, FExt.refl b, h, wf_zeroExpr _, fun m _ => by rw [Expr.eval_zero]; rfl⟩
  | [(e, c)] =>
      obtain ⟨s, h1, h2⟩ := tryMakeSingle_ok h (hv (e, c) List.mem_cons_self)
      obtain ⟨r, hr, hw, hev⟩ := mulConstant_ok h2.wf c
      obtain ⟨r', b', g1, g2⟩ := layeredAdd_ok h hw
      have h1' : tryMakeSingle b e = some s := h1
      simp only [linInner, h1', hr, g1, Option.bind_eq_bind, Option.bind_some]
      refine ⟨_, _, rfl, g2.ext, g2.inv, g2.wf, fun m hm => ?_⟩
      rw [g2.eval m hm, hev, h2.eval m (hm.ext g2.ext)]; simp [linValue]
  | ec :: ed :: rest =>
      obtain ⟨es, h1, h2, h3⟩ := tryAll_ok h hv
      obtain ⟨p1, p2⟩ := merge_ok (L := b.pool.length) (es := es.filter fun ec => ec.2 ≠ 0)
        fun ec hec => h2 ec (List.mem_of_mem_filter hec)
      unfold linInner
      simp only [h1, Option.bind_eq_bind, Option.bind_some]
      rw [if_neg (by
        intro hany
        obtain ⟨ec, hec, he⟩ := List.any_eq_true.1 hany
        exact (h2 ec (List.mem_of_mem_filter hec)).ne (by simpa using he))]
      have hval : ∀ m, FOk b m → linValue (es.filter fun ec => ec.2 ≠ 0) m =
          linValue (ec :: ed :: rest) m := fun m hm => by
        rw [linValue_filter, linValue_pairs, h3 m hm, ← linValue_pairs]
      split_ifs with h0
      · refine ⟨_, _, rfl, FExt.refl b, h, wf_zeroExpr _, fun m hm => ?_⟩
        rw [Expr.eval_zero, ← hval m hm, ← p2 m, h0]; rfl
      · obtain ⟨r, b', g1, g2⟩ := layeredAdd_ok h (p1 h0)
        refine ⟨_, _, g1, g2.ext, g2.inv, g2.wf, fun m hm => ?_⟩
        rw [g2.eval m hm, p2, hval m (hm.ext g2.ext)]

theorem inExprs_ok {b : FB F R} {xs : List Nat} (hx : ∀ x ∈ xs, x < b.inVar.length) :
    ∃ es, inExprs b xs = some es ∧ es = xs.map (fun x => b.inVar.getD x []) ∧
      ∀ e ∈ es, e ∈ b.inVar := by
  induction xs with
  | nil => exact ⟨[], rfl, rfl, by simp⟩
  | cons x r ih =>
      obtain ⟨es, h1, h2, h3⟩ := ih fun y hy => hx y (List.mem_cons_of_mem _ hy)
      have hlt := hx x List.mem_cons_self
      refine ⟨b.inVar[x] :: es, by simp [inExprs, List.getElem?_eq_getElem hlt, h1], ?_, ?_⟩
      · rw [List.map_cons, ← h2]; simp [List.getD, List.getElem?_eq_getElem hlt]
      · intro e he
        rcases List.mem_cons.1 he with rfl | he
        · exact List.getElem_mem _
        · exact h3 e he

/-- What an input variable of the pass stands for. -/
def inVal (b : FB F R) (m : Nat → F) (x : Nat) : F := Expr.eval m (b.inVar.getD x [])

theorem linComb_ok {b : FB F R} (h : FInv b) (hin : ∀ e ∈ b.inVar, Expr.WF b.pool.length e)
    {lc : LinComb F} (hx : ∀ x ∈ lc.terms.map Prod.fst, x < b.inVar.length) :
    ∃ r b', linComb b lc = some (r, b') ∧ FRet b r b' (fun m => lc.eval (inVal b m)) := by
  obtain ⟨es, h1, h2, h3⟩ := inExprs_ok hx
  obtain ⟨r, b', g1, g2⟩ := linInner_ok h (vars := es.zip (lc.terms.map Prod.snd) ++
      if lc.constant = 0 then [] else [(newConst lc.constant, 1)]) (by
    intro ec hec
    rcases List.mem_append.1 hec with hec | hec
    · exact hin _ (h3 _ (List.of_mem_zip hec).1)
    · split_ifs at hec
      · cases hec
      · rw [List.mem_singleton.1 hec]; exact wf_newConst _ _)
  refine ⟨r, b', by simp only [linComb, h1, Option.bind_eq_bind, Option.bind_some, g1], g2.ext,
    g2.inv, g2.wf, fun m hm => ?_⟩
  rw [g2.eval m hm]
  have hsum : linValue (es.zip (lc.terms.map Prod.snd)) m =
      (lc.terms.map fun p => p.2 * inVal b m p.1).sum := by
    subst h2
    clear g1 g2 h1 h3 hx
    generalize lc.terms = ts
    induction ts with
    | nil => rfl
    | cons p q ih =>
        simp only [List.map_cons, List.zip_cons_cons, linValue_cons, ih, List.sum_cons, inVal]
        ring
  have happ : ∀ a c : List (Expr F × F), linValue (a ++ c) m = linValue a m + linValue c m := by
    intro a c; simp [linValue]
  rw [happ, hsum, LinComb.eval]
  split_ifs with h0
  · rw [h0]; simp [linValue, mul_comm]
  · simp [linValue, Expr.eval_newConst, mul_comm]

/-! ## Products -/

/-- How far the loop of `mul_vec` is from its end. -/
def meas (es : List (Expr F)) : Nat := 2 * es.length + (es.map bigness).sum

theorem bigness_le (e : Expr F) : bigness e ≤ 1 := by unfold bigness; split_ifs <;> omega

theorem meas_perm {es es' : List (Expr F)} (h : es.Perm es') : meas es = meas es' := by
  unfold meas
  rw [h.length_eq, (h.map bigness).sum_eq]

theorem meas_append (es es' : List (Expr F)) : meas (es ++ es') = meas es + meas es' := by
  simp [meas]; ring

theorem bigness_of_degree {e : Expr F} (h : degree e = 2) : bigness e = 1 := by
  unfold bigness; rw [if_neg]; omega

/-- A linear expression for which no new variable is needed has one variable. -/
theorem counts_of_small {L : Nat} {e : Expr F} (he : Expr.WF L e) (hd : degree e = 1)
    (hb : bigness e = 0) : deg1 e = 1 ∧ deg0 e ≤ 1 ∧ e.length ≤ 2 := by
  have hnq : ∀ t ∈ e, ∀ x y, t.vars ≠ .quad x y := (degree_lt_two_iff e).1 (by omega)
  have hnc : nonConst e ≤ 1 := by
    by_contra hcon
    unfold bigness at hb
    rw [if_neg (by omega)] at hb
    cases hb
  have h1 : deg1 e = nonConst e := by
    unfold deg1 nonConst
    rw [List.countP_eq_length_filter]
    congr 1
    refine List.filter_congr fun t ht => ?_
    cases hv : t.vars with
    | const => simp [VarSpec.isLin]
    | lin x => simp [VarSpec.isLin]
    | quad x y => exact absurd hv (hnq t ht x y)
  have h0 : deg0 e ≤ 1 := by
    unfold deg0
    rcases he.const_head with h | ⟨c, r, rfl, hr⟩
    · rw [List.countP_eq_zero.2 (fun t ht => by simpa using h t ht)]; omega
    · rw [List.countP_cons, List.countP_eq_zero.2 (fun t ht => by simpa using hr t ht)]
      simp
  have hlen : e.length = deg0 e + nonConst e := by
    unfold deg0 nonConst
    rw [List.countP_eq_length_filter]
    have := List.length_eq_length_filter_add (l := e) (fun t => decide (t.vars = VarSpec.const))
    rw [this]
    congr 2
    refine List.filter_congr fun t _ => ?_
    simp
  have h2 : nonConst e ≠ 0 := by
    intro hz
    have : degree e = 0 := by
      rw [degree_zero_iff]
      intro t ht
      by_contra hne
      have hmem : t ∈ e.filter fun t => t.vars ≠ .const := List.mem_filter.2 ⟨ht, by simpa using hne⟩
      rw [List.length_eq_zero_iff.1 hz] at hmem
      cases hmem
    omega
  omega

theorem deg1_pos {e : Expr F} (hd : degree e = 1) : 1 ≤ deg1 e := by
  unfold deg1
  rw [Nat.one_le_iff_ne_zero]
  intro h
  rw [List.countP_eq_zero] at h
  unfold degree at hd
  by_cases h1 : e.any (fun t => t.vars.isQuad) = true
  · rw [if_pos h1] at hd; omega
  rw [if_neg h1] at hd
  by_cases h2 : e.any (fun t => t.vars.isLin) = true
  swap
  · rw [if_neg h2] at hd; omega
  obtain ⟨t, ht, hl⟩ := List.any_eq_true.1 h2
  exact h t ht hl

/-- The operand which `mul_vec` decides to compress is one for which that makes a difference. -/
theorem choose_first {a0 b0 b1 len1 len2 l1 l2 : Nat} (hb : 1 ≤ b1) (hl : len1 ≤ 2) :
    choose a0 1 b0 b1 len1 len2 l1 l2 ≠ (true, true) := by
  intro h
  unfold choose at h
  dsimp only at h
  by_cases h1 : l1 = l2
  · rw [if_pos h1] at h
    have g2 := of_decide_eq_true (congrArg Prod.snd h)
    have g3 := lt_of_lt_of_le g2 (min_le_left _ _)
    simp only [costMultiply, costCompress, costMul, costAdd, costConst, costVariable] at g3
    omega
  · rw [if_neg h1] at h
    split_ifs at h
    · have := of_decide_eq_true (congrArg Prod.fst h)
      omega
    · exact absurd (congrArg Prod.snd h) (by simp)
    · exact absurd (congrArg Prod.snd h) (by simp)

theorem choose_second {a0 a1 b0 len1 len2 l1 l2 : Nat} (ha : 1 ≤ a1) (ha0 : a0 ≤ 1) (hb0 : b0 ≤ 1)
    (hl : len2 ≤ 2) : choose a0 a1 b0 1 len1 len2 l1 l2 ≠ (true, false) := by
  intro h
  unfold choose at h
  dsimp only at h
  by_cases h1 : l1 = l2
  · rw [if_pos h1] at h
    have g1 := of_decide_eq_true (congrArg Prod.fst h)
    have g2 := of_decide_eq_false (congrArg Prod.snd h)
    simp only [costMultiply, costCompress, costMul, costAdd, costConst, costVariable] at g1 g2
    have ha1 : a1 = 1 := by omega
    subst ha1
    have : a0 * b0 ≤ 1 := by
      calc a0 * b0 ≤ 1 * 1 := Nat.mul_le_mul ha0 hb0
        _ = 1 := rfl
    omega
  · rw [if_neg h1] at h
    split_ifs at h
    · exact absurd (congrArg Prod.snd h) (by simp)
    · have := of_decide_eq_true (congrArg Prod.fst h)
      omega
    · exact absurd (congrArg Prod.fst h) (by simp)

theorem deg0_le_one {L : Nat} {e : Expr F} (he : Expr.WF L e) : deg0 e ≤ 1 := by
  unfold deg0
  rcases he.const_head with h | ⟨c, r, rfl, hr⟩
  · rw [List.countP_eq_zero.2 (fun t ht => by simpa using h t ht)]; omega
  · rw [List.countP_cons, List.countP_eq_zero.2 (fun t ht => by simpa using hr t ht)]
    simp

/-- One round of `mul_vec`: the product of the operands stays the same, and the measure drops. -/
theorem mulStep_ok {b : FB F R} (h : FInv b) {x y : Expr F} (hx : Expr.WF b.pool.length x)
    (hy : Expr.WF b.pool.length y) :
    ∃ new b', mulStep b x y = some (new, b') ∧ FExt b b' ∧ FInv b' ∧
      (∀ e ∈ new, Expr.WF b'.pool.length e) ∧ new ≠ [] ∧ meas new < meas [x, y] ∧
      ∀ m, FOk b' m → (new.map (Expr.eval m)).prod = Expr.eval m x * Expr.eval m y := by
  have hm1 : ∀ r : Expr F, meas [r] < meas [x, y] := by
    intro r
    have := bigness_le r
    simp only [meas, List.length_cons, List.length_nil, List.map_cons, List.map_nil, List.sum_cons,
      List.sum_nil]
    omega
  unfold mulStep
  split_ifs with d1 d2 d3 d4 d5
  · obtain ⟨c, -, hc⟩ := degree_zero_const hx d1
    obtain ⟨r, r1, r2, r3⟩ := mulConstant_ok hy c
    simp only [hc, r1, Option.bind_eq_bind, Option.bind_some]
    refine ⟨_, _, rfl, FExt.refl b, h, by simpa using r2, by simp, hm1 r, fun m _ => ?_⟩
    simp only [List.map_cons, List.map_nil, List.prod_cons, List.prod_nil, mul_one]
    rw [r3, constantValue_eval hc m, mul_comm]
  · obtain ⟨c, -, hc⟩ := degree_zero_const hy d2
    obtain ⟨r, r1, r2, r3⟩ := mulConstant_ok hx c
    simp only [hc, r1, Option.bind_eq_bind, Option.bind_some]
    refine ⟨_, _, rfl, FExt.refl b, h, by simpa using r2, by simp, hm1 r, fun m _ => ?_⟩
    simp only [List.map_cons, List.map_nil, List.prod_cons, List.prod_nil, mul_one]
    rw [r3, constantValue_eval hc m]
  · obtain ⟨y', b1, g1, g2, g3⟩ := makeSingle_ok h hy
    obtain ⟨x', b2, k1, k2, k3⟩ := makeSingle_ok g2.inv (hx.mono g2.len)
    simp only [g1, k1, Option.bind_eq_bind, Option.bind_some]
    refine ⟨_, _, rfl, g2.ext.trans k2.ext, k2.inv, ?_, by simp, ?_, fun m hm => ?_⟩
    · intro e he
      simp only [List.mem_cons, List.not_mem_nil, or_false] at he
      rcases he with rfl | rfl
      · exact g2.wf.mono k2.len
      · exact k2.wf
    · simp [meas, g3, k3, bigness_of_degree d3, bigness_of_degree d4]
    · simp only [List.map_cons, List.map_nil, List.prod_cons, List.prod_nil, mul_one]
      rw [k2.eval m hm, g2.eval m (hm.ext k2.ext), mul_comm]
  · obtain ⟨x', b2, k1, k2, k3⟩ := makeSingle_ok h hx
    simp only [k1, Option.bind_eq_bind, Option.bind_some]
    refine ⟨_, _, rfl, k2.ext, k2.inv, ?_, by simp, ?_, fun m hm => ?_⟩
    · intro e he
      simp only [List.mem_cons, List.not_mem_nil, or_false] at he
      rcases he with rfl | rfl
      · exact hy.mono k2.len
      · exact k2.wf
    · simp [meas, k3, bigness_of_degree d3]
    · simp only [List.map_cons, List.map_nil, List.prod_cons, List.prod_nil, mul_one]
      rw [k2.eval m hm, mul_comm]
  · obtain ⟨y', b2, k1, k2, k3⟩ := makeSingle_ok h hy
    simp only [k1, Option.bind_eq_bind, Option.bind_some]
    refine ⟨_, _, rfl, k2.ext, k2.inv, ?_, by simp, ?_, fun m hm => ?_⟩
    · intro e he
      simp only [List.mem_cons, List.not_mem_nil, or_false] at he
      rcases he with rfl | rfl
      · exact hx.mono k2.len
      · exact k2.wf
    · simp [meas, k3, bigness_of_degree d5]
    · simp only [List.map_cons, List.map_nil, List.prod_cons, List.prod_nil, mul_one]
      rw [k2.eval m hm]
  · have hdx : degree x = 1 := by have := degree_le_two x; omega
    have hdy : degree y = 1 := by have := degree_le_two y; omega
    obtain ⟨l1, hl1⟩ := exprLayer_ok h hx
    obtain ⟨l2, hl2⟩ := exprLayer_ok h hy
    simp only [hl1, hl2, Option.bind_eq_bind, Option.bind_some]
    rcases hch : choose (deg0 x) (deg1 x) (deg0 y) (deg1 y) x.length y.length l1 l2 with ⟨cp, fs⟩
    dsimp only
    cases cp with
    | true =>
        rw [if_pos rfl]
        cases fs with
        | true =>
            rw [if_pos rfl]
            have hbig : bigness x = 1 := by
              have := bigness_le x
              rcases Nat.lt_or_ge 0 (bigness x) with hpos | hz
              · omega
              · exfalso
                obtain ⟨q1, q2, q3⟩ := counts_of_small hx hdx (by omega)
                rw [q1] at hch
                exact choose_first (deg1_pos hdy) q3 hch
            obtain ⟨x', b2, k1, k2, k3⟩ := makeSingle_ok h hx
            simp only [k1, Option.bind_some]
            refine ⟨_, _, rfl, k2.ext, k2.inv, ?_, by simp, ?_, fun m hm => ?_⟩
            · intro e he
              simp only [List.mem_cons, List.not_mem_nil, or_false] at he
              rcases he with rfl | rfl
              · exact k2.wf
              · exact hy.mono k2.len
            · simp [meas, k3, hbig]
            · simp only [List.map_cons, List.map_nil, List.prod_cons, List.prod_nil, mul_one]
              rw [k2.eval m hm]
        | false =>
            rw [if_neg (by simp)]
            have hbig : bigness y = 1 := by
              have := bigness_le y
              rcases Nat.lt_or_ge 0 (bigness y) with hpos | hz
              · omega
              · exfalso
                obtain ⟨q1, q2, q3⟩ := counts_of_small hy hdy (by omega)
                rw [q1] at hch
                exact choose_second (deg1_pos hdx) (deg0_le_one hx) q2 q3 hch
            obtain ⟨y', b2, k1, k2, k3⟩ := makeSingle_ok h hy
            simp only [k1, Option.bind_some]
            refine ⟨_, _, rfl, k2.ext, k2.inv, ?_, by simp, ?_, fun m hm => ?_⟩
            · intro e he
              simp only [List.mem_cons, List.not_mem_nil, or_false] at he
              rcases he with rfl | rfl
              · exact hx.mono k2.len
              · exact k2.wf
            · simp [meas, k3, hbig]
            · simp only [List.map_cons, List.map_nil, List.prod_cons, List.prod_nil, mul_one]
              rw [k2.eval m hm]
    | false =>
        rw [if_neg (by simp)]
        obtain ⟨rows, r1, r2, r3⟩ := mulRows_ok y hy.below
          ((degree_lt_two_iff y).1 (by omega)) x hx.below ((degree_lt_two_iff x).1 (by omega))
        obtain ⟨r, b', g1, g2⟩ := linInner_ok h r2
        simp only [r1, g1, Option.bind_some]
        refine ⟨_, _, rfl, g2.ext, g2.inv, by simpa using g2.wf, by simp, hm1 r, fun m hm => ?_⟩
        simp only [List.map_cons, List.map_nil, List.prod_cons, List.prod_nil, mul_one]
        rw [g2.eval m hm, r3]

/-- The loop of `mul_vec` ends and gives the product. -/
theorem mulLoop_ok (pk : Pick F R) (n : Nat) {b : FB F R} (h : FInv b) {es : List (Expr F)}
    (hes : ∀ e ∈ es, Expr.WF b.pool.length e) (hne : es ≠ []) (hn : meas es ≤ n) :
    ∃ r b', mulLoop pk n b es = some (r, b') ∧
      FRet b r b' (fun m => (es.map (Expr.eval m)).prod) := by
  induction n generalizing b es with
  | zero =>
      exfalso
      have : es.length ≠ 0 := by simpa using hne
      unfold meas at hn; omega
  | succ n ih =>
      unfold mulLoop
      by_cases h1 : es.length = 1
      · rw [if_pos h1]
        obtain ⟨e, rfl⟩ := List.length_eq_one_iff.1 h1
        exact ⟨_, _, rfl, FExt.refl b, h, hes e (by simp), fun m _ => by simp⟩
      · rw [if_neg h1, if_neg hne]
        have h2 : 2 ≤ es.length := by
          have : es.length ≠ 0 := by simpa using hne
          omega
        have hp := pk.perm b es h2
        rcases hpk : pk.pick b es with ⟨x, y, rest⟩
        rw [hpk] at hp
        dsimp only at hp ⊢
        have hx : Expr.WF b.pool.length x := hes x (hp.mem_iff.1 (by simp))
        have hy : Expr.WF b.pool.length y := hes y (hp.mem_iff.1 (by simp))
        obtain ⟨x', y', hsw, hperm⟩ : ∃ x' y', (if y.length < x.length then (y, x) else (x, y)) =
            (x', y') ∧ [x', y'].Perm [x, y] := by
          split_ifs
          · exact ⟨y, x, rfl, List.Perm.swap _ _ _⟩
          · exact ⟨x, y, rfl, List.Perm.refl _⟩
        rw [hsw]
        dsimp only
        have hx' : Expr.WF b.pool.length x' := by
          have := hperm.mem_iff.1 (show x' ∈ [x', y'] by simp)
          simp only [List.mem_cons, List.not_mem_nil, or_false] at this
          rcases this with rfl | rfl <;> assumption
        have hy' : Expr.WF b.pool.length y' := by
          have := hperm.mem_iff.1 (show y' ∈ [x', y'] by simp)
          simp only [List.mem_cons, List.not_mem_nil, or_false] at this
          rcases this with rfl | rfl <;> assumption
        obtain ⟨new, b1, g1, g2, g3, g4, g5, g6, g7⟩ := mulStep_ok h hx' hy'
        simp only [g1, Option.bind_eq_bind, Option.bind_some]
        have hmeas : meas es = meas rest + meas [x', y'] := by
          rw [meas_perm hp.symm, meas_perm hperm, ← meas_append]
          exact meas_perm (by simpa using (List.perm_append_comm (l₁ := [x, y]) (l₂ := rest)))
        obtain ⟨r, b', k1, k2⟩ := ih g3 (es := rest ++ new) (by
          intro e he
          rcases List.mem_append.1 he with he | he
          · exact (hes e (hp.mem_iff.1 (by simp [he]))).mono g2.len
          · exact g4 e he) (by simp [g5]) (by rw [meas_append]; omega)
        refine ⟨_, _, k1, g2.trans k2.ext, k2.inv, k2.wf, fun m hm => ?_⟩
        rw [k2.eval m hm, List.map_append, List.prod_append, g7 m (hm.ext k2.ext)]
        have e1 := (hp.map (Expr.eval m)).prod_eq
        have e2 := (hperm.map (Expr.eval m)).prod_eq
        simp only [List.map_cons, List.map_nil, List.prod_cons, List.prod_nil, mul_one] at e1 e2
        rw [← e1, e2]; ring

theorem mulVec_ok (pk : Pick F R) {fuel : Nat} {b : FB F R} (h : FInv b)
    (hin : ∀ e ∈ b.inVar, Expr.WF b.pool.length e) {xs : List Nat} (h2 : 2 ≤ xs.length)
    (hx : ∀ x ∈ xs, x < b.inVar.length) (hf : 3 * xs.length ≤ fuel) :
    ∃ r b', mulVec pk fuel b xs = some (r, b') ∧
      FRet b r b' (fun m => (xs.map (inVal b m)).prod) := by
  obtain ⟨es, h1, e2, h3⟩ := inExprs_ok hx
  obtain ⟨fs, g1, g2, g3⟩ := tryAll_ok h (vars := es.map fun e => (e, (1 : F))) (by
    intro ec hec
    obtain ⟨e, he, rfl⟩ := List.mem_map.1 hec
    exact hin e (h3 e he))
  have hlen : fs.length = xs.length := by
    have hfs : tryAll b (es.map fun e => (e, (1 : F))) = some fs := g1
    have : ∀ (l : List (Expr F × F)) (r : List (Expr F × F)), tryAll b l = some r →
        r.length = l.length := by
      intro l
      induction l with
      | nil => intro r hr; simp only [tryAll, Option.some.injEq] at hr; subst hr; rfl
      | cons a q ih =>
          intro r hr
          obtain ⟨e, c⟩ := a
          simp only [tryAll, Option.bind_eq_bind, Option.bind_eq_some_iff, Option.some.injEq] at hr
          obtain ⟨e', -, q', hq, rfl⟩ := hr
          simp [ih q' hq]
    rw [this _ _ hfs, List.length_map, e2, List.length_map]
  obtain ⟨r, b', k1, k2⟩ := mulLoop_ok pk fuel h (es := fs.map Prod.fst) (by
      intro e he
      obtain ⟨ec, hec, rfl⟩ := List.mem_map.1 he
      exact g2 ec hec) (by
      intro h0
      have : fs.length = 0 := by simpa using congrArg List.length h0
      omega) (by
      have hsum : ((fs.map Prod.fst).map bigness).sum ≤ (fs.map Prod.fst).length := by
        generalize fs.map Prod.fst = l
        induction l with
        | nil => simp
        | cons a q ih =>
            have := bigness_le a
            simp only [List.map_cons, List.sum_cons, List.length_cons]; omega
      unfold meas
      rw [List.length_map, hlen] at *
      omega)
  refine ⟨r, b', ?_, k2.ext, k2.inv, k2.wf, fun m hm => ?_⟩
  · unfold mulVec
    rw [if_neg (by omega)]
    simp only [h1, g1, k1, Option.bind_eq_bind, Option.bind_some]
  · rw [k2.eval m hm]
    have e3 := congrArg (fun l => (l.map Prod.fst).prod) (g3 m (hm.ext k2.ext))
    simp only [List.map_map] at e3
    rw [List.map_map]
    refine Eq.trans e3 ?_
    rw [e2, List.map_map]
    rfl

end JST.Comp
