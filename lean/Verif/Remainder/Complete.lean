import Verif.Remainder.Support

/-!
# The Remainder backend: values that meet the constraints
-/

namespace JST.Remainder

open scoped BigOperators

theorem foldl_max_ge (l : List Int) (a : Int) : a ≤ l.foldl max a ∧ ∀ y ∈ l, y ≤ l.foldl max a := by
  induction l generalizing a with
  | nil => simp
  | cons b l ih =>
    obtain ⟨h1, h2⟩ := ih (max a b)
    refine ⟨le_trans (le_max_left a b) h1, fun y hy => ?_⟩
    rcases List.mem_cons.1 hy with rfl | hy
    · exact le_trans (le_max_right a y) h1
    · exact h2 y hy

theorem foldl_max_mem (l : List Int) (a : Int) : l.foldl max a = a ∨ l.foldl max a ∈ l := by
  induction l generalizing a with
  | nil => simp
  | cons b l ih =>
    simp only [List.foldl_cons]
    rcases ih (max a b) with h | h
    · rw [h]
      rcases max_choice a b with h | h
      · left; exact h
      · right; rw [h]; simp
    · right; exact List.mem_cons_of_mem _ h

theorem le_maxOf {l : List Int} {y : Int} (h : y ∈ l) : y ≤ maxOf l := by
  cases l with
  | nil => simp at h
  | cons a l =>
    rcases List.mem_cons.1 h with rfl | h
    · exact (foldl_max_ge l y).1
    · exact (foldl_max_ge l a).2 y h

theorem maxOf_mem {l : List Int} (h : l ≠ []) : maxOf l ∈ l := by
  cases l with
  | nil => exact absurd rfl h
  | cons a l =>
    simp only [maxOf]
    rcases foldl_max_mem l a with h | h
    · rw [h]; simp
    · exact List.mem_cons_of_mem _ h

/-- Integers as field elements. -/
def cst (p : Nat) (W : SName → Nat → Int) : SName → Nat → ZMod p := fun s i => ((W s i : Int) : ZMod p)

/-- The vectors of one layer replaced. -/
def pick (l : String) (loc W : SName → Nat → Int) : SName → Nat → Int :=
  fun s => if s.owner = some l then loc s else W s

variable {p : Nat}

theorem pick_own {l : String} {loc W : SName → Nat → Int} {s : SName} (h : s.owner = some l) :
    pick l loc W s = loc s := by simp [pick, h]

theorem pick_other {l : String} {loc W : SName → Nat → Int} {s : SName} (h : s.owner ≠ some l) :
    pick l loc W s = W s := by simp [pick, h]

/-- The tensors so far do not mention a layer's vectors. -/
def Fresh (st : St) (l : String) : Prop := ∀ t n nv, st.node t = some (n, nv) → ∀ s, n.uses s → s.owner ≠ some l

theorem eval_pick {st : St} {l : String} (hf : Fresh st l) {loc W : SName → Nat → Int} {t : String} {n : Node}
    {nv : Nat} (hn : st.node t = some (n, nv)) (i : Nat) :
    n.eval (cst p (pick l loc W)) i = n.eval (cst p W) i := by
  apply n.eval_congr
  intro s hs
  funext j
  rw [cst, pick_other (hf t n nv hn s hs)]; rfl

theorem Inv.pick {st : St} {ps : PSt} {rs : RSt} {l : String} {loc W : SName → Nat → Int}
    (h : Inv (cst p W) st ps rs) (hf : Fresh st l) : Inv (cst p (pick l loc W)) st ps rs := by
  refine ⟨?_, h.none, h.size, h.lay, h.play⟩
  intro t n nv ht
  obtain ⟨f, h1, h2⟩ := h.val t n nv ht
  refine ⟨f, h1, fun i hi => ?_⟩
  rw [eval_pick hf ht]
  exact h2 i hi

/-- What the witness of a layer meets. -/
structure Met (p : Nat) (W' : SName → Nat → Int) (b : Block) (vs : List (SName × Vec)) : Prop where
  outs : ∀ e ∈ b.outs, ∀ i < 2 ^ e.1, e.2.eval (cst p W') i = 0
  reqs : ∀ r ∈ b.reqs, ∀ i < 2 ^ r.nodeNv, 0 ≤ W' r.name i ∧ W' r.name i < 2 ^ r.tableNv
  vals : ∀ q ∈ vs, ∀ i, W' q.1 i = q.2.2 i
  pubs : ∀ s ∈ b.shreds, s.pub = true → ∃ v, (s.name, v) ∈ vs ∧ v.1 = 2 ^ s.nv

/-- Rescaling. -/
theorem rescale_met (m : Model) (l : Layer) (hα : m.alpha = 2 ^ m.exponent) (W : SName → Nat → Int) (V A : Expr)
    (nv : Nat) (s b : Nat → Int) (f : Nat × (Nat → Int))
    (hV : ∀ i < 2 ^ nv, V.eval (cst p W) i = (s i : ZMod p))
    (hA : ∀ i < 2 ^ nv, A.eval (cst p W) i = (b i : ZMod p))
    (hq : ∀ i, W (.q l.name) i = (s i + b i) / m.alpha) (hr : ∀ i, W (.r l.name) i = (s i + b i) % m.alpha)
    (hf : rescaleAll m.alpha nv s b = .ok f) :
    (∀ e ∈ (rescaleBlock m l V A nv).1, ∀ i < 2 ^ e.1, e.2.eval (cst p W) i = 0) ∧
    (∀ r ∈ (rescaleBlock m l V A nv).2, ∀ i < 2 ^ r.nodeNv, 0 ≤ W r.name i ∧ W r.name i < 2 ^ r.tableNv) ∧
    f.1 = nv ∧ ∀ i < 2 ^ nv, (Node.shred (.q l.name)).eval (cst p W) i = (f.2 i : ZMod p) ∧ InI64 (f.2 i) := by
  unfold rescaleAll at hf
  split_ifs at hf with h64
  obtain rfl := Except.ok.inj hf
  have hα0 : 0 < m.alpha := by rw [hα]; positivity
  refine ⟨?_, ?_, rfl, ?_⟩
  · intro e he i hi
    simp only [rescaleBlock, List.mem_singleton] at he
    subst he
    simp only [Expr.eval, Node.eval]
    rw [hV i hi, hA i hi]
    simp only [cst]
    rw [hq, hr]
    have := Int.emod_add_mul_ediv (s i + b i) m.alpha
    have h2 : ((s i + b i : Int) : ZMod p) = (((s i + b i) % m.alpha + m.alpha * ((s i + b i) / m.alpha) : Int) : ZMod p) := by
      rw [this]
    push_cast at h2
    linear_combination h2
  · intro r hr' i hi
    simp only [rescaleBlock, List.mem_singleton] at hr'
    subst hr'
    dsimp only
    rw [hr]
    refine ⟨Int.emod_nonneg _ (ne_of_gt hα0), ?_⟩
    have := Int.emod_lt_of_pos (s i + b i) hα0
    rwa [hα] at this ⊢
  · intro i hi
    simp only [Node.eval, cst, hq]
    refine ⟨trivial, ?_⟩
    obtain ⟨-, h1, h2⟩ := h64 i hi
    have h1α : 1 ≤ m.alpha := hα0
    constructor
    · rw [Int.le_ediv_iff_mul_le hα0]; nlinarith
    · rw [Int.ediv_lt_iff_lt_mul hα0]; nlinarith

section

variable {m : Model} {l : Layer} {W : SName → Nat → Int}
  {st : St} {ps : PSt} {rs : RSt} {b : Block} {st' : St} {vs : List (SName × Vec)} {ps' : PSt} {rs' : RSt}

/-- The hypotheses about one layer. -/
structure CompHyp (p : Nat) (m : Model) (l : Layer) (W : SName → Nat → Int)
    (st : St) (ps : PSt) (rs : RSt) (b : Block) (st' : St) (vs : List (SName × Vec)) (ps' : PSt) (rs' : RSt) :
    Prop where
  inv : Inv (cst p W) st ps rs
  hb : step m l st = .ok (b, st')
  hv : pubStep l ps = .ok (vs, ps')
  hr : refStep m.alpha l rs = .ok rs'
  fresh : Fresh st l.name
  bounded : Bounded m.exponent l rs

/-- The conclusion about one layer. -/
def Comp (p : Nat) (l : Layer) (W : SName → Nat → Int) (b : Block) (st' : St) (vs : List (SName × Vec)) (ps' : PSt)
    (rs' : RSt) : Prop :=
  ∃ W', (∀ s : SName, s.owner ≠ some l.name → W' s = W s) ∧ Met p W' b vs ∧ Inv (cst p W') st' ps' rs'

theorem gemm_comp (H : CompHyp p m l W st ps rs b st' vs ps' rs') (hop : l.op = .gemm)
    (hα : m.alpha = 2 ^ m.exponent) : Comp p l W b st' vs ps' rs' := by
  obtain ⟨inv, hb, hv, hr, fresh, -⟩ := H
  simp only [step, hop, gemmStep, bind_ok, need_ok] at hb
  simp only [pubStep, hop, bind_ok] at hv
  simp only [refStep, hop, bind_ok, need_ok] at hr
  obtain ⟨x, hx, ⟨k, n, w⟩, hd, ⟨node, nv⟩, hn, hb⟩ := hb
  dsimp only at hb
  obtain ⟨⟨k', n', w'⟩, hd', hv⟩ := hv
  rw [hd] at hd'
  simp only [Except.ok.injEq, Prod.mk.injEq] at hd'
  obtain ⟨rfl, rfl, rfl⟩ := hd'
  obtain ⟨x', hx', ⟨k', n', w'⟩, hd', ⟨nv', f⟩, hf, hr⟩ := hr
  rw [hx] at hx'
  obtain rfl := Option.some.inj hx'
  rw [hd] at hd'
  simp only [Except.ok.injEq, Prod.mk.injEq] at hd'
  obtain ⟨rfl, rfl, rfl⟩ := hd'
  dsimp only at hv hr
  split_ifs at hb with h1
  split_ifs at hv with h2
  split_ifs at hr with h3
  simp only [bind_ok] at hr
  obtain ⟨v, hv2, hr⟩ := hr
  simp only [Except.ok.injEq, Prod.mk.injEq] at hb hv hr
  obtain ⟨rfl, rfl⟩ := hb
  obtain ⟨rfl, rfl⟩ := hv
  subst hr
  obtain ⟨-, hval⟩ := inv.node_of_val hf hn
  push Not at h3
  rw [h3] at hval
  let loc : SName → Nat → Int := fun s i => match s with
    | .weight _ => gemmWeight l w k n (i / nextPow2 n) (i % nextPow2 n)
    | .bias _ => (biasOf l).getD i 0
    | .q _ => (gemmSum l w k n f i + (biasList l).getD i 0) / m.alpha
    | .r _ => (gemmSum l w k n f i + (biasList l).getD i 0) % m.alpha
    | _ => 0
  have hown : ∀ s : SName, s.owner = some l.name → pick l.name loc W s = loc s := fun s hs => pick_own hs
  have hV := gemm_hV (p := p) (l := l) (n := n) (w := w) (env := cst p (pick l.name loc W)) (node := node) (k := k)
    (f := f) (fun i hi => by rw [eval_pick fresh hn]; exact (hval i hi).1)
    (fun i hi => by rw [cst, hown _ rfl])
  have hres := rescale_met (p := p) m l hα (pick l.name loc W) _ (.node (.shred (.bias l.name))) (numVars n) _
    (fun j => (biasList l).getD j 0) v hV
    (by intro i hi; rw [Expr.eval, Node.eval, cst, hown _ rfl]; rfl)
    (by intro i; rw [hown _ rfl]) (by intro i; rw [hown _ rfl]) hv2
  obtain ⟨ho, hr, hv1, hres⟩ := hres
  obtain ⟨v1, v2⟩ := v
  subst hv1
  refine ⟨pick l.name loc W, fun s hs => pick_other hs, ⟨ho, hr, ?_, ?_⟩, ?_⟩
  · intro q hq i
    simp only [List.mem_cons, List.not_mem_nil, or_false] at hq
    rcases hq with rfl | rfl <;> rw [hown _ rfl]
  · intro s hs hp
    simp only [List.mem_cons, List.not_mem_nil, or_false] at hs
    rcases hs with rfl | rfl | rfl | rfl
    · exact ⟨_, List.mem_cons_self, by simp only [nextPow2_eq, pow_add]⟩
    · exact ⟨_, List.mem_cons_of_mem _ List.mem_cons_self, by simp only [nextPow2_eq]⟩
    · simp at hp
    · simp at hp
  · have := (inv.pick (loc := loc) fresh).set l.outputs (.shred (.q l.name)) (numVars n) v2 st.layout ps.layout
      rs.layout inv.play inv.lay hres
    rwa [← nextPow2_eq] at this


theorem conv_comp (H : CompHyp p m l W st ps rs b st' vs ps' rs') (hop : l.op = .conv)
    (hα : m.alpha = 2 ^ m.exponent) : Comp p l W b st' vs ps' rs' := by
  obtain ⟨inv, hb, hv, hr, fresh, -⟩ := H
  simp only [step, hop, convStep, bind_ok, need_ok] at hb
  simp only [pubStep, hop, bind_ok, need_ok] at hv
  simp only [refStep, hop, bind_ok, need_ok] at hr
  obtain ⟨x, hx, inp, hinp, ⟨d, w⟩, hd, ⟨node, nv⟩, hn, hb⟩ := hb
  obtain ⟨x', hx', inp', hinp', ⟨d', w'⟩, hd', hv⟩ := hv
  rw [hx] at hx'
  obtain rfl := Option.some.inj hx'
  rw [inv.play, hinp] at hinp'
  obtain rfl := Option.some.inj hinp'
  rw [hd] at hd'
  simp only [Except.ok.injEq, Prod.mk.injEq] at hd'
  obtain ⟨rfl, rfl⟩ := hd'
  obtain ⟨x', hx', inp', hinp', ⟨d', w'⟩, hd', ⟨nv', f⟩, hf, hr⟩ := hr
  rw [hx] at hx'
  obtain rfl := Option.some.inj hx'
  rw [inv.lay, hinp] at hinp'
  obtain rfl := Option.some.inj hinp'
  rw [hd] at hd'
  simp only [Except.ok.injEq, Prod.mk.injEq] at hd'
  obtain ⟨rfl, rfl⟩ := hd'
  dsimp only at hb hv hr
  split_ifs at hv with h2
  split_ifs at hr with h3
  simp only [bind_ok] at hr
  obtain ⟨v, hv2, hr⟩ := hr
  simp only [Except.ok.injEq, Prod.mk.injEq] at hb hv hr
  obtain ⟨rfl, rfl⟩ := hb
  obtain ⟨rfl, rfl⟩ := hv
  subst hr
  obtain ⟨rfl, hval⟩ := inv.node_of_val hf hn
  let S : Nat → Int := fun i => if i / nextPow2 d.cOut < d.outH * d.outW ∧ i % nextPow2 d.cOut < d.cOut then
    convSum d w.data (imageOf inp f) (i % nextPow2 d.cOut) (i / nextPow2 d.cOut / d.outW)
      (i / nextPow2 d.cOut % d.outW) else 0
  let B : Nat → Int := fun i => if i % nextPow2 d.cOut < d.cOut then (biasList l).getD (i % nextPow2 d.cOut) 0 else 0
  let loc : SName → Nat → Int := fun s i => match s with
    | .weight _ => if i / nextPow2 d.cOut < d.cIn * d.kh * d.kw ∧ i % nextPow2 d.cOut < d.cOut then
        w.data.getD (i % nextPow2 d.cOut * (d.cIn * d.kh * d.kw) + i / nextPow2 d.cOut) 0 else 0
    | .bias _ => if i % nextPow2 d.cOut < d.cOut then (biasOf l).getD (i % nextPow2 d.cOut) 0 else 0
    | .q _ => (S i + B i) / m.alpha
    | .r _ => (S i + B i) % m.alpha
    | _ => 0
  have hown : ∀ s : SName, s.owner = some l.name → pick l.name loc W s = loc s := fun s hs => pick_own hs
  have hV := conv_hV (p := p) (l := l) (w := w) (env := cst p (pick l.name loc W)) (node := node)
    (f := f) (convDims_dims hd) h3 (fun i hi => by rw [eval_pick fresh hn]; exact (hval i hi).1)
    (fun i hi => by rw [cst, hown _ rfl])
  have hres := rescale_met (p := p) m l hα (pick l.name loc W) _ (.node (.shred (.bias l.name)))
    (numVars (d.outH * d.outW) + numVars d.cOut) S B v (fun i _ => hV i)
    (by intro i hi; rw [Expr.eval, Node.eval, cst, hown _ rfl]; rfl)
    (by intro i; rw [hown _ rfl]) (by intro i; rw [hown _ rfl]) hv2
  obtain ⟨ho, hr, hv1, hres⟩ := hres
  obtain ⟨v1, v2⟩ := v
  subst hv1
  refine ⟨pick l.name loc W, fun s hs => pick_other hs, ⟨ho, hr, ?_, ?_⟩, ?_⟩
  · intro q hq i
    simp only [List.mem_cons, List.not_mem_nil, or_false] at hq
    rcases hq with rfl | rfl <;> rw [hown _ rfl]
  · intro s hs hp
    simp only [List.mem_cons, List.not_mem_nil, or_false] at hs
    rcases hs with rfl | rfl | rfl | rfl
    · exact ⟨_, List.mem_cons_self, by simp only [nextPow2_eq, pow_add]⟩
    · exact ⟨_, List.mem_cons_of_mem _ List.mem_cons_self, by simp only [nextPow2_eq, pow_add]⟩
    · simp at hp
    · simp at hp
  · have := (inv.pick (loc := loc) fresh).set l.outputs (.shred (.q l.name))
      (numVars (d.outH * d.outW) + numVars d.cOut) v2 (setAll st.layout l.outputs d.layout)
      (setAll ps.layout l.outputs d.layout) (setAll rs.layout l.outputs d.layout) (by rw [inv.play])
      (by rw [inv.lay]) hres
    rwa [pow_add, ← nextPow2_eq, ← nextPow2_eq] at this

theorem bn_comp (H : CompHyp p m l W st ps rs b st' vs ps' rs') (hop : l.op = .batchNorm)
    (hα : m.alpha = 2 ^ m.exponent) : Comp p l W b st' vs ps' rs' := by
  obtain ⟨inv, hb, hv, hr, fresh, -⟩ := H
  simp only [step, hop, bnStep, bind_ok, need_ok] at hb
  simp only [pubStep, hop, bind_ok, need_ok] at hv
  simp only [refStep, hop, bind_ok, need_ok] at hr
  obtain ⟨x, hx, ⟨node, nv⟩, hn, hb⟩ := hb
  obtain ⟨x', hx', mul, hmul, add, hadd, hv⟩ := hv
  rw [hx] at hx'
  obtain rfl := Option.some.inj hx'
  split_ifs at hv with h2
  simp only [bind_ok, need_ok] at hv
  obtain ⟨sz, hsz, fm, hfm, fa, hfa, hv⟩ := hv
  obtain ⟨x', hx', ⟨nv', f⟩, hf, mul', hmul', add', hadd', fm', hfm', fa', hfa', v, hv2, hr⟩ := hr
  rw [hx] at hx'
  obtain rfl := Option.some.inj hx'
  rw [hmul] at hmul'
  obtain rfl := Option.some.inj hmul'
  rw [hadd] at hadd'
  obtain rfl := Option.some.inj hadd'
  obtain ⟨rfl, hval⟩ := inv.node_of_val hf hn
  rw [inv.size, hn] at hsz
  simp only [Option.map_some, Option.some.injEq] at hsz
  subst hsz
  dsimp only at hfm' hfa' hv2
  rw [inv.lay, ← inv.play, hfm] at hfm'
  obtain rfl := Except.ok.inj hfm'
  rw [inv.lay, ← inv.play, hfa] at hfa'
  obtain rfl := Except.ok.inj hfa'
  simp only [Except.ok.injEq, Prod.mk.injEq] at hb hv hr
  obtain ⟨rfl, rfl⟩ := hb
  obtain ⟨rfl, rfl⟩ := hv
  subst hr
  let loc : SName → Nat → Int := fun s i => match s with
    | .mul _ => fm i
    | .addend _ => fa i
    | .q _ => (f i * fm i + fa i) / m.alpha
    | .r _ => (f i * fm i + fa i) % m.alpha
    | _ => 0
  have hown : ∀ s : SName, s.owner = some l.name → pick l.name loc W s = loc s := fun s hs => pick_own hs
  have hres := rescale_met (p := p) m l hα (pick l.name loc W) (.products [node, .shred (.mul l.name)])
    (.node (.shred (.addend l.name))) nv (fun i => f i * fm i) fa v
    (by
      intro i hi
      simp only [Expr.eval, List.map_cons, List.map_nil, List.prod_cons, List.prod_nil, mul_one, Node.eval]
      rw [eval_pick fresh hn, (hval i hi).1, cst, hown _ rfl]; push_cast; rfl)
    (by intro i hi; rw [Expr.eval, Node.eval, cst, hown _ rfl])
    (by intro i; rw [hown _ rfl]) (by intro i; rw [hown _ rfl]) hv2
  obtain ⟨ho, hr, hv1, hres⟩ := hres
  obtain ⟨v1, v2⟩ := v
  subst hv1
  refine ⟨pick l.name loc W, fun s hs => pick_other hs, ⟨ho, hr, ?_, ?_⟩, ?_⟩
  · intro q hq i
    simp only [List.mem_cons, List.not_mem_nil, or_false] at hq
    rcases hq with rfl | rfl <;> rw [hown _ rfl]
  · intro s hs hp
    simp only [List.mem_cons, List.not_mem_nil, or_false] at hs
    rcases hs with rfl | rfl | rfl | rfl
    · exact ⟨_, List.mem_cons_self, nextPow2_two_pow _⟩
    · exact ⟨_, List.mem_cons_of_mem _ List.mem_cons_self, nextPow2_two_pow _⟩
    · simp at hp
    · simp at hp
  · rw [nextPow2_two_pow]
    exact (inv.pick (loc := loc) fresh).set l.outputs _ _ _ _ _ _ (by rw [inv.play]) (by rw [inv.lay]) hres

theorem relu_comp (H : CompHyp p m l W st ps rs b st' vs ps' rs') (hop : l.op = .relu) :
    Comp p l W b st' vs ps' rs' := by
  obtain ⟨inv, hb, hv, hr, fresh, hbd⟩ := H
  simp only [step, hop, reluStep, bind_ok, need_ok] at hb
  simp only [pubStep, hop, bind_ok, need_ok] at hv
  simp only [refStep, hop, bind_ok, need_ok] at hr
  obtain ⟨x, hx, ⟨node, nv⟩, hn, hb⟩ := hb
  obtain ⟨x', hx', sz, hsz, hv⟩ := hv
  rw [hx] at hx'
  obtain rfl := Option.some.inj hx'
  obtain ⟨x', hx', ⟨nv', f⟩, hf, hr⟩ := hr
  rw [hx] at hx'
  obtain rfl := Option.some.inj hx'
  simp only [Except.ok.injEq, Prod.mk.injEq] at hb hv hr
  obtain ⟨rfl, rfl⟩ := hb
  obtain ⟨rfl, rfl⟩ := hv
  subst hr
  obtain ⟨rfl, hval⟩ := inv.node_of_val hf hn
  rw [inv.size, hn] at hsz
  simp only [Option.map_some, Option.some.injEq] at hsz
  subst hsz
  let loc : SName → Nat → Int := fun s i => match s with
    | .max _ => max (f i) 0
    | .di _ => max (f i) 0 - f i
    | .dz _ => max (f i) 0
    | _ => 0
  have hown : ∀ s : SName, s.owner = some l.name → pick l.name loc W s = loc s := fun s hs => pick_own hs
  have hc : ∀ s : SName, s.owner = some l.name → ∀ i, cst p (pick l.name loc W) s i = ((loc s i : Int) : ZMod p) :=
    fun s hs i => by rw [cst, hown s hs]
  refine ⟨pick l.name loc W, fun s hs => pick_other hs, ⟨?_, ?_, ?_, ?_⟩, ?_⟩
  · intro e he i hi
    simp only [List.mem_cons, List.not_mem_nil, or_false] at he
    rcases he with rfl | rfl | rfl
    · simp only [Expr.eval, Node.eval]
      rw [hc _ rfl, hc _ rfl, eval_pick fresh hn, (hval i hi).1]
      show ((max (f i) 0 : Int) : ZMod p) - _ - ((max (f i) 0 - f i : Int) : ZMod p) = 0
      rw [Int.cast_sub]; ring
    · simp only [Expr.eval, Node.eval]
      rw [hc _ rfl, hc _ rfl, hc _ rfl]
      show ((max (f i) 0 : Int) : ZMod p) - ((0 : Int) : ZMod p) - ((max (f i) 0 : Int) : ZMod p) = 0
      simp
    · simp only [Expr.eval, Node.eval, List.map_cons, List.map_nil, List.prod_cons, List.prod_nil, mul_one]
      rw [hc _ rfl, hc _ rfl]
      show ((max (f i) 0 - f i : Int) : ZMod p) * ((max (f i) 0 : Int) : ZMod p) = 0
      rw [← Int.cast_mul]
      rcases max_choice (f i) 0 with h | h <;> rw [h] <;> simp
  · intro r hr i hi
    cases hbits : l.nBits with
    | none => rw [hbits] at hr; simp at hr
    | some bits =>
      rw [hbits] at hr
      simp only [List.mem_cons, List.not_mem_nil, or_false] at hr
      have : ∀ i < 2 ^ nv, -2 ^ deltaNv bits m.exponent < f i ∧ f i < 2 ^ deltaNv bits m.exponent :=
        (hbd bits hbits x nv f hx hf).1 hop
      rcases hr with rfl | rfl
      · obtain ⟨h1, h2⟩ := this i hi
        dsimp only
        rw [hown _ rfl]
        show 0 ≤ max (f i) 0 - f i ∧ max (f i) 0 - f i < _
        have h3 : (0 : Int) < 2 ^ deltaNv bits m.exponent := by positivity
        rcases le_total (f i) 0 with h | h
        · rw [max_eq_right h]; constructor <;> linarith
        · rw [max_eq_left h]; constructor <;> linarith
      · obtain ⟨h1, h2⟩ := this i hi
        dsimp only
        rw [hown _ rfl]
        exact ⟨le_max_right _ _, max_lt h2 (by positivity)⟩
  · intro q hq i
    simp only [List.mem_cons, List.not_mem_nil, or_false] at hq
    subst hq
    rw [hown _ rfl]
  · intro s hs hp
    simp only [List.mem_cons, List.not_mem_nil, or_false] at hs
    rcases hs with rfl | rfl | rfl | rfl
    · exact ⟨_, List.mem_cons_self, by simp only [numVars_two_pow]⟩
    all_goals simp at hp
  · refine (inv.pick (loc := loc) fresh).set l.outputs _ nv _ _ _ _ (by rw [inv.play]) (by rw [inv.lay]) ?_
    intro i hi
    obtain ⟨-, b1, b2⟩ := hval i hi
    simp only [Node.eval]
    rw [hc _ rfl]
    exact ⟨rfl, le_trans (by norm_num) (le_max_right _ _), max_lt b2 (by norm_num)⟩

theorem shape_comp (H : CompHyp p m l W st ps rs b st' vs ps' rs')
    (hop : l.op = .cast ∨ l.op = .reshape ∨ l.op = .flatten ∨ l.op = .squeeze ∨ l.op = .unsqueeze) :
    Comp p l W b st' vs ps' rs' := by
  have hb' : b = {} ∧ vs = [] := by
    constructor
    · have hb : shapeStep l st = .ok (b, st') := by
        rcases hop with h | h | h | h | h <;> simpa only [step, h] using H.hb
      simp only [shapeStep, bind_ok, need_ok] at hb
      obtain ⟨_, _, _, _, hb⟩ := hb
      exact (Prod.mk.inj (Except.ok.inj hb)).1.symm
    · have hv := H.hv
      rcases hop with h | h | h | h | h <;>
      · simp only [pubStep, h, bind_ok, need_ok] at hv
        obtain ⟨_, _, _, _, hv⟩ := hv
        exact (Prod.mk.inj (Except.ok.inj hv)).1.symm
  obtain ⟨rfl, rfl⟩ := hb'
  refine ⟨W, fun _ _ => rfl, ⟨by simp, by simp, by simp, by simp⟩, ?_⟩
  exact shape_sound (m := m) (pub := fun _ => none) ⟨H.inv, H.hb, H.hv, H.hr, by simp, by intro s hs; simp at hs,
    ⟨by simp, by simp⟩, by intro s hs; simp at hs⟩ hop


theorem pool_comp (H : CompHyp p m l W st ps rs b st' vs ps' rs') (hop : l.op = .maxPool) :
    Comp p l W b st' vs ps' rs' := by
  obtain ⟨inv, hb, hv, hr, fresh, hbd⟩ := H
  simp only [step, hop, poolStep, bind_ok, need_ok] at hb
  simp only [pubStep, hop, bind_ok, need_ok] at hv
  simp only [refStep, hop, bind_ok, need_ok] at hr
  obtain ⟨x, hx, inp, hinp, d, hd, ⟨node, nv⟩, hn, hb⟩ := hb
  obtain ⟨x', hx', inp', hinp', d', hd', hv⟩ := hv
  rw [hx] at hx'
  obtain rfl := Option.some.inj hx'
  rw [inv.play, hinp] at hinp'
  obtain rfl := Option.some.inj hinp'
  rw [hd] at hd'
  obtain rfl := Except.ok.inj hd'
  obtain ⟨x', hx', inp', hinp', d', hd', ⟨nv', f⟩, hf, hr⟩ := hr
  rw [hx] at hx'
  obtain rfl := Option.some.inj hx'
  have hrlay := hinp'
  rw [inv.lay, hinp] at hinp'
  obtain rfl := Option.some.inj hinp'
  rw [hd] at hd'
  obtain rfl := Except.ok.inj hd'
  dsimp only at hb hv hr
  split_ifs at hr with h3
  simp only [Except.ok.injEq, Prod.mk.injEq] at hb hv hr
  obtain ⟨rfl, rfl⟩ := hb
  obtain ⟨rfl, rfl⟩ := hv
  subst hr
  obtain ⟨rfl, hval⟩ := inv.node_of_val hf hn
  obtain ⟨hdc, hph, hpw, hH, hW⟩ := poolDims_dims hd
  have hpos : 0 < d.ph * d.pw := Nat.mul_pos hph hpw
  let N := d.outH * d.outW * d.c
  let win : Nat → List Int := fun i => window d (imageOf inp f) (i % d.c) (i / d.c / d.outW) (i / d.c % d.outW)
  let X : Nat → Nat → Int := fun a i => if i < N then
    imageOf inp f (i % d.c) (i / d.c / d.outW * d.sh + a / d.pw) (i / d.c % d.outW * d.sw + a % d.pw) else 0
  let M : Nat → Int := fun i => if i < N then maxOf (win i) else 0
  have hXmem : ∀ a < d.ph * d.pw, ∀ i < N, X a i ∈ win i := by
    intro a ha i hi
    refine List.mem_map.2 ⟨a, List.mem_range.2 ha, ?_⟩
    simp only [X, if_pos hi]
  have hXM : ∀ a < d.ph * d.pw, ∀ i, X a i ≤ M i := by
    intro a ha i
    by_cases hi : i < N
    · have := le_maxOf (hXmem a ha i hi)
      simpa only [M, if_pos hi] using this
    · simp only [X, M, if_neg hi, le_refl]
  have hex : ∀ i, ∃ a < d.ph * d.pw, X a i = M i := by
    intro i
    by_cases hi : i < N
    · have hne : win i ≠ [] := by
        rw [← List.length_pos_iff]
        simp only [win, window, List.length_map, List.length_range]; exact hpos
      obtain ⟨a, ha, he⟩ := List.mem_map.1 (maxOf_mem hne)
      refine ⟨a, List.mem_range.1 ha, ?_⟩
      simp only [X, M, if_pos hi]
      exact he
    · exact ⟨0, hpos, by simp only [X, M, if_neg hi]⟩
  have hidx : ∀ a < d.ph * d.pw, ∀ i < N, inp.index (i % d.c) (i / d.c / d.outW * d.sh + a / d.pw)
      (i / d.c % d.outW * d.sw + a % d.pw) < 2 ^ nv := by
    intro a ha i hrow
    have hc0 : 0 < d.c := by
      rcases Nat.eq_zero_or_pos d.c with h | h
      · simp [N, h] at hrow
      · exact h
    have hpos2 : i / d.c < d.outH * d.outW := (Nat.div_lt_iff_lt_mul hc0).2 hrow
    have hoW : 0 < d.outW := by
      rcases Nat.eq_zero_or_pos d.outW with h | h
      · simp [h] at hpos2
      · exact h
    exact h3 _ (by rw [← hdc]; exact Nat.mod_lt _ hc0) _
      (hH _ ((Nat.div_lt_iff_lt_mul hoW).2 hpos2) _ ((Nat.div_lt_iff_lt_mul hpw).2 ha)) _
      (hW _ (Nat.mod_lt _ hoW) _ (Nat.mod_lt _ hpw))
  have hM64 : ∀ i, InI64 (M i) := by
    intro i
    obtain ⟨a, ha, he⟩ := hex i
    rw [← he]
    by_cases hi : i < N
    · simp only [X, if_pos hi, imageOf]
      exact (hval _ (hidx a ha i hi)).2
    · simp only [X, if_neg hi]; exact ⟨by norm_num, by norm_num⟩
  let loc : SName → Nat → Int := fun s i => match s with
    | .max _ => M i
    | .d _ a => M i - X a i
    | _ => 0
  have hown : ∀ s : SName, s.owner = some l.name → pick l.name loc W s = loc s := fun s hs => pick_own hs
  have hc : ∀ s : SName, s.owner = some l.name → ∀ i, cst p (pick l.name loc W) s i = ((loc s i : Int) : ZMod p) :=
    fun s hs i => by rw [cst, hown s hs]
  refine ⟨pick l.name loc W, fun s hs => pick_other hs, ⟨?_, ?_, ?_, ?_⟩, ?_⟩
  · intro e he i hi
    rcases List.mem_append.1 he with he | he
    · obtain ⟨a, ha, rfl⟩ := List.mem_map.1 he
      have ha := List.mem_range.1 ha
      have hg : (Node.gate node (poolWiring d inp (a / d.pw) (a % d.pw))).eval (cst p (pick l.name loc W)) i =
          ((X a i : Int) : ZMod p) := by
        rw [pool_value]
        by_cases hrow : i < N
        · rw [if_pos hrow, eval_pick fresh hn, (hval _ (hidx a ha i hrow)).1]
          simp only [X, if_pos hrow, imageOf]
        · rw [if_neg hrow]; simp only [X, if_neg hrow, Int.cast_zero]
      have hg' : Node.eval (cst p (pick l.name loc W)) (.shred (.max l.name)) i = ((M i : Int) : ZMod p) := hc _ rfl i
      have hg'' : Node.eval (cst p (pick l.name loc W)) (.shred (.d l.name a)) i = ((M i - X a i : Int) : ZMod p) :=
        hc _ rfl i
      simp only [Expr.eval]
      rw [hg, hg', hg'', Int.cast_sub]; ring
    · simp only [List.mem_singleton] at he
      subst he
      simp only [Expr.eval, List.map_map]
      obtain ⟨a, ha, he⟩ := hex i
      apply List.prod_eq_zero
      refine List.mem_map.2 ⟨a, List.mem_range.2 ha, ?_⟩
      simp only [Function.comp_apply, Node.eval]
      rw [hc _ rfl]
      show ((M i - X a i : Int) : ZMod p) = 0
      rw [he]; simp
  · intro r hr i hi
    cases hbits : l.nBits with
    | none => rw [hbits] at hr; simp at hr
    | some bits =>
      rw [hbits] at hr
      obtain ⟨a, ha, rfl⟩ := List.mem_map.1 hr
      have ha := List.mem_range.1 ha
      have := (hbd bits hbits x nv f hx hf).2 hop inp hrlay d hd i
      dsimp only
      rw [hown _ rfl]
      show 0 ≤ M i - X a i ∧ M i - X a i < _
      refine ⟨by linarith [hXM a ha i], ?_⟩
      by_cases hrow : i < N
      · have h := this hrow (X a i) (hXmem a ha i hrow)
        simp only [M, if_pos hrow]
        exact h
      · simp only [M, X, if_neg hrow, sub_zero]; positivity
  · intro q hq; simp at hq
  · intro s hs hp
    rcases List.mem_cons.1 hs with rfl | hs
    · simp at hp
    · obtain ⟨a, _, rfl⟩ := List.mem_map.1 hs
      simp at hp
  · rw [nextPow2_eq]
    refine (inv.pick (loc := loc) fresh).set l.outputs _ _ _ _ _ _ (by rw [inv.play]) (by rw [inv.lay]) ?_
    intro i hi
    simp only [Node.eval]
    rw [hc _ rfl]
    exact ⟨rfl, hM64 i⟩

theorem add_comp (H : CompHyp p m l W st ps rs b st' vs ps' rs') (hop : l.op = .add ∨ l.op = .sub) :
    Comp p l W b st' vs ps' rs' := by
  obtain ⟨inv, hb, hv, hr, fresh, -⟩ := H
  have hb' : addStep l st = .ok (b, st') := by
    rcases hop with h | h <;> simpa only [step, h] using hb
  have hv' : ∃ a b, l.inputs[0]? = some a ∧ l.inputs[1]? = some b ∧ ∃ sa sb,
      (ps.size a).or ((l.weights a).map (·.data.length)) = some sa ∧
      (ps.size b).or ((l.weights b).map (·.data.length)) = some sb ∧
      ps' = ⟨setAll ps.size l.outputs (nextPow2 (max sa sb)),
        setOpt ps.layout l.outputs ((ps.layout a).or (ps.layout b))⟩ ∧
      (∀ t, (t = a ∨ t = b) → ∀ w, ps.size t = none → l.weights t = some w →
        (SName.operand l.name t, ((nextPow2 (max sa sb), fun i => w.data.getD i 0) : Vec)) ∈ vs) ∧
      ∀ q ∈ vs, ∃ t w, l.weights t = some w ∧
        q = (SName.operand l.name t, ((nextPow2 (max sa sb), fun i => w.data.getD i 0) : Vec)) := by
    rcases hop with h | h <;>
    · simp only [pubStep, h, bind_ok, need_ok] at hv
      obtain ⟨a, ha, b, hb, sa, hsa, sb, hsb, hv⟩ := hv
      simp only [Except.ok.injEq, Prod.mk.injEq] at hv
      obtain ⟨rfl, rfl⟩ := hv
      refine ⟨a, b, ha, hb, sa, sb, hsa, hsb, rfl, ?_, ?_⟩
      · rintro t (rfl | rfl) w h1 h2
        · apply List.mem_append_right; simp [h1, h2]
        · apply List.mem_append_left; simp [h1, h2]
      · intro q hq
        rcases List.mem_append.1 hq with hq | hq
        · split at hq
          · rename_i w _ hw
            exact ⟨b, w, hw, by simpa using hq⟩
          · simp at hq
        · split at hq
          · rename_i w _ hw
            exact ⟨a, w, hw, by simpa using hq⟩
          · simp at hq
  have hr' : (do
      let a ← need l.inputs[0]? "no first input"
      let b ← need l.inputs[1]? "no second input"
      let (va, fa) ← operandVal l rs a
      let (_, fb) ← operandVal l rs b
      let g := fun i => if l.op = .add then fa i + fb i else fa i - fb i
      if ∀ j < 2 ^ va, InI64 (g j) then
        .ok ⟨setAll rs.val l.outputs (va, g), setOpt rs.layout l.outputs ((rs.layout a).or (rs.layout b))⟩
      else .error "overflows i64" : R RSt) = .ok rs' := by
    rcases hop with h | h <;> simpa only [refStep, h] using hr
  simp only [addStep, bind_ok, need_ok] at hb'
  simp only [bind_ok, need_ok] at hr'
  obtain ⟨a, ha, b2, hb2, hb⟩ := hb'
  by_cases h1 : (st.node a).isNone ∧ (st.node b2).isNone
  · rw [if_pos h1] at hb; simp at hb
  rw [if_neg h1] at hb
  simp only [bind_ok] at hb
  obtain ⟨⟨na, va, sa⟩, hoa, ⟨nb, vb, sb⟩, hob, hb⟩ := hb
  dsimp only at hb
  have hvv : va = vb := by
    by_contra h; rw [if_pos h] at hb; simp at hb
  subst hvv
  rw [if_neg (by simp)] at hb
  obtain ⟨a', b', ha', hb2', za, zb, hza, hzb, rfl, hmem, hall⟩ := hv'
  rw [ha] at ha'
  obtain rfl := Option.some.inj ha'
  rw [hb2] at hb2'
  obtain rfl := Option.some.inj hb2'
  obtain ⟨a', ha', b', hb2', ⟨ra, fa⟩, hra, ⟨rb, fb⟩, hrb, hr⟩ := hr'
  rw [ha] at ha'
  obtain rfl := Option.some.inj ha'
  rw [hb2] at hb2'
  obtain rfl := Option.some.inj hb2'
  simp only [Except.ok.injEq, Prod.mk.injEq] at hb
  obtain ⟨rfl, rfl⟩ := hb
  let loc : SName → Nat → Int := fun s i => match s with
    | .operand _ t => (((l.weights t).map (·.data)).getD []).getD i 0
    | .result _ => if l.op = .add then fa i + fb i else fa i - fb i
    | _ => 0
  have hown : ∀ s : SName, s.owner = some l.name → pick l.name loc W s = loc s := fun s hs => pick_own hs
  have hc : ∀ s : SName, s.owner = some l.name → ∀ i, cst p (pick l.name loc W) s i = ((loc s i : Int) : ZMod p) :=
    fun s hs i => by rw [cst, hown s hs]
  have inv' := inv.pick (loc := loc) fresh
  have hopd : ∀ t w, ps.size t = none → l.weights t = some w →
      ∀ i < 2 ^ va, cst p (pick l.name loc W) (.operand l.name t) i = ((w.data.getD i 0 : Int) : ZMod p) := by
    intro t w _ h2 i _
    rw [hc _ rfl]
    simp only [loc, h2, Option.map_some, Option.getD_some]
  obtain ⟨e1, hna, hvala⟩ := operand_sound inv' hoa hra (hopd a) hza
  obtain ⟨e2, hnb, hvalb⟩ := operand_sound inv' hob hrb (hopd b2) hzb
  rw [e1] at hr
  dsimp only at hr
  by_cases h64 : ∀ j < 2 ^ va, InI64 (if l.op = .add then fa j + fb j else fa j - fb j)
  swap
  · rw [if_neg h64] at hr; simp at hr
  rw [if_pos h64] at hr
  obtain rfl := Except.ok.inj hr
  refine ⟨pick l.name loc W, fun s hs => pick_other hs, ⟨?_, by simp, ?_, ?_⟩, ?_⟩
  · intro e he i hi
    simp only [List.mem_singleton] at he
    subst he
    have hg : Node.eval (cst p (pick l.name loc W)) (.shred (.result l.name)) i =
        (((if l.op = .add then fa i + fb i else fa i - fb i) : Int) : ZMod p) := hc _ rfl i
    simp only [Expr.eval]
    rw [hg]
    by_cases ho : l.op = .add
    · simp only [ho, if_true, Expr.eval]
      rw [(hvala i hi).1, (hvalb i hi).1]; push_cast; ring
    · simp only [ho, if_false, Expr.eval]
      rw [(hvala i hi).1, (hvalb i hi).1]; push_cast; ring
  · intro q hq i
    obtain ⟨t, w, hw, rfl⟩ := hall q hq
    rw [hown _ rfl]
    simp only [loc, hw, Option.map_some, Option.getD_some]
  · intro s hs hp
    have key : ∀ t, (t = a ∨ t = b2) → ∀ n nv' sh, operand l st t = .ok (n, nv', sh) → nv' = va → s ∈ sh →
        ∃ v, (s.name, v) ∈ vs ∧ v.1 = 2 ^ s.nv := by
      intro t ht n nv' sh ho hnv hs
      unfold operand at ho
      cases hnt : st.node t with
      | some q =>
        rw [hnt] at ho
        simp only [Except.ok.injEq, Prod.mk.injEq] at ho
        obtain ⟨-, -, rfl⟩ := ho
        simp at hs
      | none =>
        rw [hnt] at ho
        simp only [bind_ok, need_ok] at ho
        obtain ⟨w, hw, ho⟩ := ho
        simp only [Except.ok.injEq, Prod.mk.injEq] at ho
        obtain ⟨-, h5, rfl⟩ := ho
        simp only [List.mem_singleton] at hs
        subst hs
        refine ⟨_, hmem t ht w (by rw [inv.size, hnt]; rfl) hw, ?_⟩
        dsimp only
        rw [nextPow2_max hna hnb, h5, hnv]
    simp only [List.mem_append, List.mem_singleton] at hs
    rcases hs with (hs | hs) | rfl
    · exact key a (Or.inl rfl) _ _ _ hoa rfl hs
    · exact key b2 (Or.inr rfl) _ _ _ hob rfl hs
    · simp at hp
  · rw [nextPow2_max hna hnb]
    refine inv'.set l.outputs _ _ _ _ _ _ (by rw [inv.play]) (by rw [inv.lay]) ?_
    intro i hi
    exact ⟨hc _ rfl i, h64 i hi⟩

/-- One layer. -/
theorem step_comp (H : CompHyp p m l W st ps rs b st' vs ps' rs') (hα : m.alpha = 2 ^ m.exponent) :
    Comp p l W b st' vs ps' rs' := by
  have hr := H.hr
  cases hop : l.op
  case gemm => exact gemm_comp H hop hα
  case conv => exact conv_comp H hop hα
  case batchNorm => exact bn_comp H hop hα
  case relu => exact relu_comp H hop
  case maxPool => exact pool_comp H hop
  case add => exact add_comp H (Or.inl hop)
  case sub => exact add_comp H (Or.inr hop)
  case cast => exact shape_comp H (Or.inl hop)
  case reshape => exact shape_comp H (Or.inr (Or.inl hop))
  case flatten => exact shape_comp H (Or.inr (Or.inr (Or.inl hop)))
  case squeeze => exact shape_comp H (Or.inr (Or.inr (Or.inr (Or.inl hop))))
  case unsqueeze => exact shape_comp H (Or.inr (Or.inr (Or.inr (Or.inr hop))))
  all_goals simp [refStep, hop] at hr

end

end JST.Remainder
