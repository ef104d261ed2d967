import Verif.Remainder.Complete

/-!
# The Remainder backend: the value of the model is accepted
-/

namespace JST.Remainder

open scoped BigOperators

variable {p : Nat}

theorem mapM_mem {α β : Type} {f : α → R β} : ∀ {l : List α} {r : List β}, l.mapM f = .ok r →
    ∀ a ∈ l, ∃ b ∈ r, f a = .ok b := by
  intro l
  induction l with
  | nil => intro r _ a ha; simp at ha
  | cons x l ih =>
    intro r h a ha
    rw [List.mapM_cons] at h
    simp only [bind_ok] at h
    obtain ⟨b, hb, r', hr', h⟩ := h
    obtain rfl := Except.ok.inj h
    rcases List.mem_cons.1 ha with rfl | ha
    · exact ⟨b, List.mem_cons_self, hb⟩
    · obtain ⟨b', hb', h'⟩ := ih hr' a ha
      exact ⟨b', List.mem_cons_of_mem _ hb', h'⟩

/-- The tables of a range check are those that the plan has for it. -/
theorem planOf_mem {r : Req} {t : List Nat} (h : planOf r.tableNv = .ok t) :
    ∀ q ∈ (splitReq r).2.2, q.2.2 ∈ t := by
  intro q hq
  unfold planOf at h
  unfold splitReq at hq
  split_ifs at h with h1 h2
  · rw [if_pos h1] at hq
    simp only [List.mem_singleton] at hq
    obtain rfl := Except.ok.inj h
    subst hq
    simp
  · rw [if_neg h1] at hq
    simp only [List.mem_cons, List.not_mem_nil, or_false] at hq
    obtain rfl := Except.ok.inj h
    rcases hq with rfl | rfl <;> simp

theorem step_req {m : Model} {l : Layer} {st st' : St} {b : Block} (h : step m l st = .ok (b, st')) {t : List Nat}
    (ht : planLayer m.exponent l = .ok t) : ∀ r ∈ b.reqs, ∀ q ∈ (splitReq r).2.2, q.2.2 ∈ t := by
  have hpass : ∀ k, passStep l k st = .ok (b, st') → b.reqs = [] := by
    intro k h
    obtain ⟨rfl, rfl⟩ := Prod.mk.inj (Except.ok.inj h)
    rfl
  intro r hr
  cases hop : l.op
  case gemm =>
    simp only [planLayer, hop] at ht
    simp only [step, hop, gemmStep, bind_ok, need_ok] at h
    obtain ⟨x, _, ⟨k, n, w⟩, _, ⟨node, nv⟩, hn, h⟩ := h
    dsimp only at h
    split_ifs at h
    obtain ⟨rfl, rfl⟩ := Prod.mk.inj (Except.ok.inj h)
    simp only [rescaleBlock, List.mem_singleton] at hr
    subst hr
    exact planOf_mem ht
  case conv =>
    simp only [planLayer, hop] at ht
    simp only [step, hop, convStep, bind_ok, need_ok] at h
    obtain ⟨x, _, inp, _, ⟨d, w⟩, _, ⟨node, nv⟩, hn, h⟩ := h
    obtain ⟨rfl, rfl⟩ := Prod.mk.inj (Except.ok.inj h)
    simp only [rescaleBlock, List.mem_singleton] at hr
    subst hr
    exact planOf_mem ht
  case batchNorm =>
    simp only [planLayer, hop] at ht
    simp only [step, hop, bnStep, bind_ok, need_ok] at h
    obtain ⟨x, _, ⟨node, nv⟩, hn, h⟩ := h
    obtain ⟨rfl, rfl⟩ := Prod.mk.inj (Except.ok.inj h)
    simp only [rescaleBlock, List.mem_singleton] at hr
    subst hr
    exact planOf_mem ht
  case relu =>
    simp only [planLayer, hop] at ht
    simp only [step, hop, reluStep, bind_ok, need_ok] at h
    obtain ⟨x, _, ⟨node, nv⟩, hn, h⟩ := h
    obtain ⟨rfl, rfl⟩ := Prod.mk.inj (Except.ok.inj h)
    cases hb : l.nBits with
    | none => rw [hb] at hr; simp at hr
    | some bits =>
      rw [hb] at hr
      simp only [hb] at ht
      simp only [List.mem_cons, List.not_mem_nil, or_false] at hr
      rcases hr with rfl | rfl <;> exact planOf_mem ht
  case maxPool =>
    simp only [planLayer, hop] at ht
    simp only [step, hop, poolStep, bind_ok, need_ok] at h
    obtain ⟨x, _, inp, _, d, _, ⟨node, nv⟩, hn, h⟩ := h
    obtain ⟨rfl, rfl⟩ := Prod.mk.inj (Except.ok.inj h)
    cases hb : l.nBits with
    | none => rw [hb] at hr; simp at hr
    | some bits =>
      rw [hb] at hr
      simp only [hb] at ht
      obtain ⟨i, _, rfl⟩ := List.mem_map.1 hr
      split at ht
      · split_ifs at ht
        exact planOf_mem ht
      · simp at ht
  case add | sub =>
    simp only [step, hop, addStep, bind_ok, need_ok] at h
    obtain ⟨a, _, b2, _, h⟩ := h
    by_cases h1 : (st.node a).isNone ∧ (st.node b2).isNone
    · rw [if_pos h1] at h; simp at h
    rw [if_neg h1] at h
    simp only [bind_ok] at h
    obtain ⟨⟨na, va, sa⟩, hoa, ⟨nb, vb, sb⟩, hob, h⟩ := h
    dsimp only at h
    by_cases hv : va = vb
    swap
    · rw [if_pos hv] at h; simp at h
    rw [if_neg (by simpa using hv)] at h
    obtain ⟨rfl, rfl⟩ := Prod.mk.inj (Except.ok.inj h)
    simp at hr
  case cast | reshape | flatten | squeeze | unsqueeze =>
    simp only [step, hop, shapeStep, bind_ok, need_ok] at h
    obtain ⟨x, _, ⟨node, nv⟩, hn, h⟩ := h
    obtain ⟨rfl, rfl⟩ := Prod.mk.inj (Except.ok.inj h)
    simp at hr
  case gather =>
    simp only [step, hop, gatherStep, bind_ok] at h
    obtain ⟨_, _, h⟩ := h
    rw [ite_eq_iff] at h
    rcases h with ⟨-, h⟩ | ⟨-, h⟩
    · simp at h
    · rw [hpass _ h] at hr; simp at hr
  case constant =>
    simp only [step, hop, constStep] at h
    cases hv : l.value with
    | none =>
      rw [hv] at h
      obtain ⟨rfl, rfl⟩ := Prod.mk.inj (Except.ok.inj h)
      simp at hr
    | some v =>
      rw [hv] at h
      obtain ⟨rfl, rfl⟩ := Prod.mk.inj (Except.ok.inj h)
      simp at hr
  case split =>
    simp only [step, hop, splitStep, bind_ok] at h
    obtain ⟨x, _, h⟩ := h
    rw [ite_eq_iff] at h
    rcases h with ⟨-, h⟩ | ⟨-, h⟩
    · simp at h
    · obtain ⟨rfl, rfl⟩ := Prod.mk.inj (Except.ok.inj h)
      simp at hr
  case layerNorm | resize | gridSample | concat | slice | «where» | transpose =>
    simp only [step, hop] at h
    rw [hpass _ h] at hr; simp at hr
  all_goals simp [step, hop] at h

theorem steps_req {m : Model} : ∀ {ls : List Layer} {st st' : St} {bs : List Block},
    steps m ls st = .ok (bs, st') → ∀ {T : List Nat}, (∀ l ∈ ls, ∃ t, planLayer m.exponent l = .ok t ∧ ∀ x ∈ t, x ∈ T) →
    ∀ b ∈ bs, ∀ r ∈ b.reqs, ∀ q ∈ (splitReq r).2.2, q.2.2 ∈ T := by
  intro ls
  induction ls with
  | nil =>
    intro st st' bs h T _
    obtain ⟨rfl, rfl⟩ := Prod.mk.inj (Except.ok.inj h)
    simp
  | cons l ls ih =>
    intro st st' bs h T hT
    simp only [steps, bind_ok] at h
    obtain ⟨⟨b, s1⟩, h1, ⟨bs', s2⟩, h2, h⟩ := h
    obtain ⟨rfl, rfl⟩ := Prod.mk.inj (Except.ok.inj h)
    intro c hc r hr q hq
    rcases List.mem_cons.1 hc with rfl | hc
    · obtain ⟨t, ht, hsub⟩ := hT l List.mem_cons_self
      exact hsub _ (step_req h1 ht r hr q hq)
    · exact ih h2 (fun l hl => hT l (List.mem_cons_of_mem _ hl)) c hc r hr q hq

/-- All layers. -/
theorem steps_comp {m : Model} (hα : m.alpha = 2 ^ m.exponent) :
    ∀ {ls : List Layer} {st st' : St} {ps ps' : PSt} {rs rs' : RSt} {bs : List Block} {vs : List (SName × Vec)}
      {W : SName → Nat → Int},
    Inv (cst p W) st ps rs → steps m ls st = .ok (bs, st') → pubSteps ls ps = .ok (vs, ps') →
    refSteps m.alpha ls rs = .ok rs' → (ls.map (·.name)).Nodup → (∀ l ∈ ls, Fresh st l.name) →
    BoundedSteps m.exponent m.alpha ls rs →
    ∃ W', (∀ s : SName, (∀ l ∈ ls, s.owner ≠ some l.name) → W' s = W s) ∧
      (∀ b ∈ bs, ∀ e ∈ b.outs, ∀ i < 2 ^ e.1, e.2.eval (cst p W') i = 0) ∧
      (∀ b ∈ bs, ∀ r ∈ b.reqs, ∀ i < 2 ^ r.nodeNv, 0 ≤ W' r.name i ∧ W' r.name i < 2 ^ r.tableNv) ∧
      (∀ q ∈ vs, ∀ i, W' q.1 i = q.2.2 i) ∧
      (∀ b ∈ bs, ∀ s ∈ b.shreds, s.pub = true → ∃ v, (s.name, v) ∈ vs ∧ v.1 = 2 ^ s.nv) ∧
      Inv (cst p W') st' ps' rs' := by
  intro ls
  induction ls with
  | nil =>
    intro st st' ps ps' rs rs' bs vs W inv hs hv hr _ _ _
    obtain ⟨rfl, rfl⟩ := Prod.mk.inj (Except.ok.inj hs)
    obtain ⟨rfl, rfl⟩ := Prod.mk.inj (Except.ok.inj hv)
    obtain rfl := Except.ok.inj hr
    exact ⟨W, fun _ _ => rfl, by simp, by simp, by simp, by simp, inv⟩
  | cons l ls ih =>
    intro st st' ps ps' rs rs' bs vs W inv hs hv hr hnd hfr hbd
    simp only [steps, bind_ok] at hs
    simp only [pubSteps, bind_ok] at hv
    simp only [refSteps, bind_ok] at hr
    obtain ⟨⟨b, s1⟩, hs1, ⟨bs', s2⟩, hs2, hs⟩ := hs
    obtain ⟨⟨v, p1⟩, hv1, ⟨vs', p2⟩, hv2, hv⟩ := hv
    obtain ⟨r1, hr1, hr2⟩ := hr
    obtain ⟨rfl, rfl⟩ := Prod.mk.inj (Except.ok.inj hs)
    obtain ⟨rfl, rfl⟩ := Prod.mk.inj (Except.ok.inj hv)
    rw [List.map_cons, List.nodup_cons] at hnd
    obtain ⟨W1, hw1, met, inv1⟩ := step_comp ⟨inv, hs1, hv1, hr1, hfr l List.mem_cons_self, hbd.1⟩ hα
    have sc := step_scoped hs1
    have hlne : ∀ l' ∈ ls, l.name ≠ l'.name := by
      intro l' hl' he
      exact hnd.1 (by rw [he]; exact List.mem_map_of_mem hl')
    have hown : ∀ s : SName, s.owner = some l.name → ∀ l' ∈ ls, s.owner ≠ some l'.name := by
      intro s hs l' hl' he
      rw [hs] at he
      exact hlne l' hl' (Option.some.inj he)
    have hfr1 : ∀ l' ∈ ls, Fresh s1 l'.name := by
      intro l' hl' t n nv ht s hu
      rcases sc.node t n nv ht with ⟨t', nv', h'⟩ | ⟨s', rfl, ho⟩
      · exact hfr l' (List.mem_cons_of_mem _ hl') t' n nv' h' s hu
      · simp only [Node.uses] at hu
        subst hu
        exact hown _ ho l' hl'
    obtain ⟨W2, hw2, ho2, hr2', hv2', hp2, inv2⟩ := ih inv1 hs2 hv2 hr2 hnd.2 hfr1 (hbd.2 _ hr1)
    refine ⟨W2, ?_, ?_, ?_, ?_, ?_, inv2⟩
    · intro s hs
      rw [hw2 s fun l' hl' => hs l' (List.mem_cons_of_mem _ hl'), hw1 s (hs l List.mem_cons_self)]
    · intro c hc e he i hi
      rcases List.mem_cons.1 hc with rfl | hc
      · rw [← met.outs e he i hi]
        apply e.2.eval_congr
        intro s hs
        funext j
        rw [cst, cst, hw2 s]
        rcases sc.outs e he s hs with h | ⟨t, n, nv, ht, hu⟩
        · exact hown s h
        · exact fun l' hl' => hfr l' (List.mem_cons_of_mem _ hl') t n nv ht s hu
      · exact ho2 c hc e he i hi
    · intro c hc r hr i hi
      rcases List.mem_cons.1 hc with rfl | hc
      · rw [hw2 _ (hown _ (sc.reqs r hr).2)]
        exact met.reqs r hr i hi
      · exact hr2' c hc r hr i hi
    · intro q hq i
      rcases List.mem_append.1 hq with hq | hq
      · rw [hw2 _ (hown _ ((pubStep_owner hv1).1 q hq))]
        exact met.vals q hq i
      · exact hv2' q hq i
    · intro c hc s hsm hp
      rcases List.mem_cons.1 hc with rfl | hc
      · obtain ⟨v', h1, h2⟩ := met.pubs s hsm hp
        exact ⟨v', List.mem_append_left _ h1, h2⟩
      · obtain ⟨v', h1, h2⟩ := hp2 c hc s hsm hp
        exact ⟨v', List.mem_append_right _ h1, h2⟩

/-- The value of the model meets the constraints. -/
theorem holds_of_ref {m : Model} {input expected : List Int} {pub : SName → Option Vec} {C : Circuit}
    (hpub : publicShreds m input expected = .ok pub) (hC : build m (nextPow2 input.length) = .ok C)
    (hnd : (m.layers.map (·.name)).Nodup) (hα : m.alpha = 2 ^ m.exponent)
    {nv : Nat} {f : Nat → Int} (hr : refModel m input = .ok (nv, f))
    (hbd : BoundedSteps m.exponent m.alpha m.layers (refInit m input))
    (hlen : nextPow2 expected.length = 2 ^ nv) (hexp : ∀ i < 2 ^ nv, expected.getD i 0 = f i) :
    C.Holds p pub := by
  unfold refModel at hr
  split_ifs at hr with h64
  simp only [bind_ok, need_ok] at hr
  obtain ⟨rs, hr1, hr2⟩ := hr
  simp only [publicShreds, bind_ok, need_ok] at hpub
  obtain ⟨inp, hinp, hpub⟩ := hpub
  by_cases h1 : m.exponent ≥ 63
  · rw [if_pos h1] at hpub; simp at hpub
  rw [if_neg h1] at hpub
  by_cases h2 : ((m.inputShapes inp).any fun s => s.prod ≠ input.length) = true
  · rw [if_pos h2] at hpub; simp at hpub
  rw [if_neg h2] at hpub
  simp only [bind_ok] at hpub
  obtain ⟨⟨vs, ps⟩, hvs, t, ht, hpub⟩ := hpub
  simp only [build] at hC
  by_cases h3 : m.inputNames.length > 1
  · rw [if_pos h3] at hC; simp at hC
  rw [if_neg h3] at hC
  simp only [bind_ok, need_ok] at hC
  obtain ⟨inp', hinp', hC⟩ := hC
  rw [hinp] at hinp'
  obtain rfl := Option.some.inj hinp'
  split_ifs at hC with h4
  simp only [bind_ok, need_ok] at hC
  obtain ⟨⟨bs, st⟩, hst, ⟨node, ov⟩, hnode, hC⟩ := hC
  have hpub := (Except.ok.inj hpub).symm
  have hC := (Except.ok.inj hC).symm
  have hnames : m.inputNames = [inp] := by
    cases hn : m.inputNames with
    | nil => rw [hn] at hinp; simp at hinp
    | cons a r =>
      rw [hn] at hinp h3
      simp only [List.head?_cons, Option.some.injEq] at hinp
      subst hinp
      cases r with
      | nil => rfl
      | cons b r => simp at h3
  have hpv : ∀ q ∈ vs, pub q.1 = some q.2 := by
    intro q hq
    obtain ⟨o, u⟩ := pubSteps_owner hvs hnd
    obtain ⟨l, hl, ho⟩ := o q hq
    have hf := find_unique u hq
    rw [hpub]
    cases hq1 : q.1 <;> rw [hq1] at ho hf <;> simp [SName.owner] at ho <;> exact hf
  let W0 : SName → Nat → Int := fun s i => match s with
    | .input _ => input.getD i 0
    | _ => 0
  have inv0 := inv_init (p := p) (m := m) (env := cst p W0) hnames h64 (fun i _ => rfl)
  have hinit : ∀ t n nv, (initSt m (numVars (nextPow2 input.length))).node t = some (n, nv) → n = .shred (.input inp) := by
    intro t n nv ht
    simp only [initSt, hnames, List.headD_cons] at ht
    split_ifs at ht
    exact (Prod.mk.inj (Option.some.inj ht)).1.symm
  obtain ⟨W, hW, hO, hR, hVal, hP, inv⟩ := steps_comp hα inv0 hst hvs hr1 hnd (by
    intro l _ t n nv ht s hs
    rw [hinit t n nv ht] at hs
    simp only [Node.uses] at hs
    subst hs
    simp [SName.owner]) hbd
  obtain ⟨rfl, hval⟩ := inv.node_of_val hr2 hnode
  obtain ⟨sc1, -, sc3, sc4, sc5⟩ := steps_scoped hst
  let E : SName → Nat → Int := fun s i => match s with
    | .lo s' => W s' i % 512
    | .hi s' => W s' i / 512
    | .table _ => i
    | .expected => expected.getD i 0
    | s => W s i
  have hEo : ∀ s l, s.owner = some l → E s = W s := by
    intro s l hs
    cases s <;> first | rfl | simp [SName.owner] at hs
  have hEi : E (.input inp) = fun i => input.getD i 0 := by
    show W (.input inp) = _
    rw [hW _ (by simp [SName.owner])]
  have hEu : ∀ e : Expr, (∀ s, e.uses s → (∃ l, s.owner = some l) ∨ s = .input inp) → ∀ i,
      e.eval (cst p E) i = e.eval (cst p W) i := by
    intro e he i
    apply e.eval_congr
    intro s hs
    funext j
    rw [cst, cst]
    rcases he s hs with ⟨l, ho⟩ | rfl
    · rw [hEo s l ho]
    · rfl
  have hplan : ∀ l ∈ m.layers, ∃ t', planLayer m.exponent l = .ok t' ∧ ∀ x ∈ t', x ∈ t := by
    simp only [plan, bind_ok] at ht
    obtain ⟨psl, hps, ht⟩ := ht
    obtain rfl := Except.ok.inj ht
    intro l hl
    obtain ⟨b, hb, he⟩ := mapM_mem hps l hl
    exact ⟨b, he, fun x hx => List.mem_flatten.2 ⟨b, hb, hx⟩⟩
  have hT := steps_req hst hplan
  have hsplit : ∀ r ∈ bs.flatMap (·.reqs), (∀ s ∈ (splitReq r).1, s.pub = false) := by
    intro r _ s hs
    unfold splitReq at hs
    split_ifs at hs
    · simp at hs
    · simp only [List.mem_cons, List.not_mem_nil, or_false] at hs
      rcases hs with rfl | rfl <;> rfl
  have hshred : ∀ s ∈ C.shreds, s.pub = true →
      ∃ v, pub s.name = some v ∧ v.1 = 2 ^ s.nv ∧ ∀ i, E s.name i = v.2 i := by
    intro s hs hsp
    rw [hC] at hs
    simp only [List.mem_cons, List.mem_append, List.mem_flatMap, List.mem_map] at hs
    rcases hs with rfl | rfl | ((⟨b, hb, hs⟩ | ⟨r, ⟨b, hb, hr⟩, hs⟩) | ⟨q, ⟨r, ⟨b, hb, hr⟩, hq⟩, rfl⟩)
    · refine ⟨(nextPow2 input.length, fun i => input.getD i 0), by rw [hpub]; simp, ?_, fun i => by rw [hEi]⟩
      dsimp only
      rw [numVars_nextPow2, nextPow2_eq]
    · exact ⟨(nextPow2 expected.length, fun i => expected.getD i 0), by rw [hpub], hlen, fun i => rfl⟩
    · obtain ⟨v, hv1, hv2⟩ := hP b hb s hs hsp
      refine ⟨v, hpv _ hv1, hv2, fun i => ?_⟩
      obtain ⟨l, -, ho⟩ := sc5 b hb s hs
      rw [hEo _ _ ho]
      exact hVal _ hv1 i
    · rw [hsplit r (List.mem_flatMap.2 ⟨b, hb, hr⟩) s hs] at hsp
      simp at hsp
    · have := hT b hb r hr q hq
      exact ⟨(2 ^ q.2.2, fun i => (i : Int)), by rw [hpub]; simp [this], rfl, fun i => rfl⟩
  refine ⟨?_, cst p E, ?_, ?_, ?_⟩
  · intro s hs hsp
    obtain ⟨v, h1, h2, -⟩ := hshred s hs hsp
    exact ⟨v, h1, h2⟩
  · intro s hs hsp v hv i hi
    obtain ⟨v', h1, -, h3⟩ := hshred s hs hsp
    rw [hv] at h1
    obtain rfl := Option.some.inj h1
    rw [cst, h3]
  · intro e he i hi
    rw [hC] at he
    simp only [List.mem_cons, List.mem_append, List.mem_flatMap] at he
    rcases he with rfl | ⟨b, hb, he⟩ | ⟨r, ⟨b, hb, hr⟩, he⟩
    · simp only [Expr.eval]
      have hn : node.eval (cst p E) i = node.eval (cst p W) i := by
        have := hEu (.node node) (by
          intro s hs
          rcases sc1 _ _ _ hnode with ⟨t', nv', h'⟩ | ⟨s', rfl, l, _, ho⟩
          · rw [hinit _ _ _ h'] at hs
            exact Or.inr hs.symm
          · simp only [Expr.uses, Node.uses] at hs
            subst hs
            exact Or.inl ⟨_, ho⟩) i
        simpa only [Expr.eval] using this
      dsimp only at hi
      rw [hn, (hval i hi).1]
      show _ - ((expected.getD i 0 : Int) : ZMod p) = 0
      rw [hexp i hi, sub_self]
    · rw [hEu e.2 ?_ i]
      · exact hO b hb e he i hi
      · intro s hs
        rcases sc3 b hb e he s hs with ⟨l, _, ho⟩ | ⟨t', n, nv', ht', hu⟩
        · exact Or.inl ⟨_, ho⟩
        · rw [hinit _ _ _ ht'] at hu
          exact Or.inr hu.symm
    · obtain ⟨hrn, l, -, ho⟩ := sc4 b hb r hr
      unfold splitReq at he
      split_ifs at he with h9
      · simp at he
      · simp only [List.mem_singleton] at he
        subst he
        simp only [Expr.eval, hrn, Node.eval]
        show ((W r.name i % 512 : Int) : ZMod p) + ((W r.name i / 512 : Int) : ZMod p) * (((2 ^ chunkBits : Int)) : ZMod p) -
          ((E r.name i : Int) : ZMod p) = 0
        rw [hEo _ _ ho]
        have h5 : ((W r.name i : Int) : ZMod p) = ((W r.name i % 512 + 512 * (W r.name i / 512) : Int) : ZMod p) := by
          rw [Int.emod_add_mul_ediv]
        have h6 : ((2 : Int) ^ chunkBits) = 512 := by decide
        rw [h6, h5]; push_cast; ring
  · intro q hq i hi
    rw [hC] at hq
    simp only [List.mem_flatMap] at hq
    obtain ⟨r, ⟨b, hb, hr⟩, hq⟩ := hq
    obtain ⟨hrn, l, -, ho⟩ := sc4 b hb r hr
    have hcast : ∀ (z : Int) (k : Nat), 0 ≤ z → z < 2 ^ k → ∃ j < 2 ^ k, ((z : Int) : ZMod p) = cst p E (.table k) j := by
      intro z k h0 h1
      refine ⟨z.toNat, ?_, ?_⟩
      · have : ((z.toNat : Nat) : Int) < ((2 ^ k : Nat) : Int) := by push_cast; rw [Int.toNat_of_nonneg h0]; exact h1
        exact_mod_cast this
      · show ((z : Int) : ZMod p) = (((z.toNat : Nat) : Int) : ZMod p)
        rw [Int.toNat_of_nonneg h0]
    unfold splitReq at hq
    split_ifs at hq with h9
    · simp only [List.mem_singleton] at hq
      subst hq
      dsimp only at hi ⊢
      obtain ⟨h0, h1⟩ := hR b hb r hr i hi
      rw [hrn, Node.eval, cst, hEo _ _ ho]
      exact hcast _ _ h0 h1
    · simp only [List.mem_cons, List.not_mem_nil, or_false] at hq
      rcases hq with rfl | rfl
      · dsimp only at hi ⊢
        rw [Node.eval]
        exact hcast (W r.name i % 512) _ (Int.emod_nonneg _ (by norm_num))
          (by have := Int.emod_lt_of_pos (W r.name i) (show (0 : Int) < 512 by norm_num)
              have h6 : ((2 : Int) ^ chunkBits) = 512 := by decide
              rw [h6]; exact this)
      · dsimp only at hi ⊢
        obtain ⟨h0, h1⟩ := hR b hb r hr i hi
        rw [Node.eval]
        refine hcast (W r.name i / 512) _ (Int.ediv_nonneg h0 (by norm_num)) ?_
        rw [Int.ediv_lt_iff_lt_mul (by norm_num)]
        have hs : (2 : Int) ^ r.tableNv = 2 ^ (r.tableNv - chunkBits) * 512 := by
          have h6 : (512 : Int) = 2 ^ chunkBits := by decide
          rw [h6, ← pow_add]; congr 1; omega
        rwa [← hs]

end JST.Remainder
