import Verif.Remainder.Steps

/-!
# The Remainder backend: whole models
-/

namespace JST.Remainder

open scoped BigOperators

/-! ## Public vectors have one value -/

/-- The layer a vector belongs to. -/
def SName.owner : SName → Option String
  | .weight l | .bias l | .q l | .r l | .zero l | .max l | .di l | .dz l | .d l _ | .mul l | .addend l
  | .operand l _ | .result l | .out l => some l
  | _ => none

theorem pubStep_owner {l : Layer} {ps ps' : PSt} {vs : List (SName × Vec)} (h : pubStep l ps = .ok (vs, ps')) :
    (∀ q ∈ vs, q.1.owner = some l.name) ∧ (∀ q ∈ vs, ∀ q' ∈ vs, q.1 = q'.1 → q = q') := by
  cases hop : l.op
  case gemm =>
    simp only [pubStep, hop, bind_ok] at h
    obtain ⟨a, _, h⟩ := h
    split_ifs at h
    obtain ⟨rfl, -⟩ := Prod.mk.inj (Except.ok.inj h)
    simp [SName.owner]
  case conv =>
    simp only [pubStep, hop, bind_ok] at h
    obtain ⟨_, _, _, _, a, _, h⟩ := h
    split_ifs at h
    obtain ⟨rfl, -⟩ := Prod.mk.inj (Except.ok.inj h)
    simp [SName.owner]
  case relu =>
    simp only [pubStep, hop, bind_ok] at h
    obtain ⟨_, _, _, _, h⟩ := h
    obtain ⟨rfl, -⟩ := Prod.mk.inj (Except.ok.inj h)
    simp [SName.owner]
  case maxPool =>
    simp only [pubStep, hop, bind_ok] at h
    obtain ⟨_, _, _, _, a, _, h⟩ := h
    obtain ⟨rfl, -⟩ := Prod.mk.inj (Except.ok.inj h)
    simp
  case batchNorm =>
    simp only [pubStep, hop, bind_ok] at h
    obtain ⟨_, _, _, _, _, _, h⟩ := h
    split_ifs at h
    simp only [bind_ok] at h
    obtain ⟨_, _, _, _, _, _, h⟩ := h
    obtain ⟨rfl, -⟩ := Prod.mk.inj (Except.ok.inj h)
    simp [SName.owner]
  case add | sub =>
    simp only [pubStep, hop, bind_ok] at h
    obtain ⟨a, _, b, _, sa, _, sb, _, h⟩ := h
    obtain ⟨rfl, -⟩ := Prod.mk.inj (Except.ok.inj h)
    have key : ∀ q ∈ (match ps.size b, l.weights b with
        | none, some w => [(SName.operand l.name b, ((nextPow2 (max sa sb), fun i => w.data.getD i 0) : Vec))]
        | _, _ => []) ++ (match ps.size a, l.weights a with
        | none, some w => [(SName.operand l.name a, ((nextPow2 (max sa sb), fun i => w.data.getD i 0) : Vec))]
        | _, _ => []), ∃ t w, l.weights t = some w ∧
          q = (SName.operand l.name t, ((nextPow2 (max sa sb), fun i => w.data.getD i 0) : Vec)) := by
      intro q hq
      rcases List.mem_append.1 hq with hq | hq
      · split at hq
        · rename_i w _ hw
          exact ⟨b, w, hw, by simpa using hq⟩
        · simp at hq
      · split at hq
        · rename_i w _ hw
          exact ⟨a, w, hw, by simpa using hq⟩
        · simp at hq
    constructor
    · intro q hq
      obtain ⟨t, w, hw, rfl⟩ := key q hq
      rfl
    · intro q hq q' hq' he
      obtain ⟨t, w, hw, rfl⟩ := key q hq
      obtain ⟨t', w', hw', rfl⟩ := key q' hq'
      simp only [SName.operand.injEq, true_and] at he
      subst he
      rw [hw] at hw'
      obtain rfl := Option.some.inj hw'
      rfl
  case cast | reshape | flatten | squeeze | unsqueeze =>
    simp only [pubStep, hop, bind_ok] at h
    obtain ⟨_, _, _, _, h⟩ := h
    obtain ⟨rfl, -⟩ := Prod.mk.inj (Except.ok.inj h)
    simp
  case other =>
    simp [pubStep, hop] at h
  all_goals
    simp only [pubStep, hop] at h
    obtain ⟨rfl, -⟩ := Prod.mk.inj (Except.ok.inj h)
    simp

theorem pubSteps_owner : ∀ {ls : List Layer} {ps ps' : PSt} {vs : List (SName × Vec)},
    pubSteps ls ps = .ok (vs, ps') → (ls.map (·.name)).Nodup →
    (∀ q ∈ vs, ∃ l ∈ ls, q.1.owner = some l.name) ∧ (∀ q ∈ vs, ∀ q' ∈ vs, q.1 = q'.1 → q = q') := by
  intro ls
  induction ls with
  | nil =>
    intro ps ps' vs h _
    obtain ⟨rfl, -⟩ := Prod.mk.inj (Except.ok.inj h)
    simp
  | cons l ls ih =>
    intro ps ps' vs h hnd
    simp only [pubSteps, bind_ok] at h
    obtain ⟨⟨v1, p1⟩, h1, ⟨v2, p2⟩, h2, h⟩ := h
    obtain ⟨rfl, rfl⟩ := Prod.mk.inj (Except.ok.inj h)
    rw [List.map_cons, List.nodup_cons] at hnd
    obtain ⟨o1, u1⟩ := pubStep_owner h1
    obtain ⟨o2, u2⟩ := ih h2 hnd.2
    have hdis : ∀ q ∈ v1, ∀ q' ∈ v2, q.1 ≠ q'.1 := by
      intro q hq q' hq' he
      obtain ⟨l', hl', ho⟩ := o2 q' hq'
      rw [← he, o1 q hq] at ho
      apply hnd.1
      rw [Option.some.inj ho]
      exact List.mem_map_of_mem hl'
    constructor
    · intro q hq
      rcases List.mem_append.1 hq with hq | hq
      · exact ⟨l, List.mem_cons_self, o1 q hq⟩
      · obtain ⟨l', hl', ho⟩ := o2 q hq
        exact ⟨l', List.mem_cons_of_mem _ hl', ho⟩
    · intro q hq q' hq' he
      rcases List.mem_append.1 hq with hq | hq <;> rcases List.mem_append.1 hq' with hq' | hq'
      · exact u1 q hq q' hq' he
      · exact absurd he (hdis q hq q' hq')
      · exact absurd he.symm (hdis q' hq' q hq)
      · exact u2 q hq q' hq' he

theorem find_unique {vs : List (SName × Vec)} (hu : ∀ q ∈ vs, ∀ q' ∈ vs, q.1 = q'.1 → q = q')
    {q : SName × Vec} (hq : q ∈ vs) : (vs.reverse.find? fun q' => q'.1 = q.1).map (·.2) = some q.2 := by
  cases hf : vs.reverse.find? fun q' => q'.1 = q.1 with
  | none =>
    rw [List.find?_eq_none] at hf
    exact absurd (by simp) (hf q (List.mem_reverse.2 hq))
  | some q' =>
    have h1 := List.find?_some hf
    have h2 := List.mem_of_find?_eq_some hf
    have := hu q' (List.mem_reverse.1 h2) q hq (by simpa using h1)
    rw [this]; rfl

/-! ## Taking an acceptance apart -/

theorem mapM_ok {α β : Type} {f : α → R β} : ∀ {l : List α} {r : List β}, l.mapM f = .ok r → ∀ a ∈ l, ∃ b, f a = .ok b := by
  intro l
  induction l with
  | nil => intro r _ a ha; simp at ha
  | cons x l ih =>
    intro r h a ha
    rw [List.mapM_cons] at h
    simp only [bind_ok] at h
    obtain ⟨b, hb, r', hr', -⟩ := h
    rcases List.mem_cons.1 ha with rfl | ha
    · exact ⟨b, hb⟩
    · exact ih hr' a ha

theorem planOf_ok {b : Nat} {r : List Nat} (h : planOf b = .ok r) : b ≤ 18 := by
  unfold planOf at h
  split_ifs at h with h1 h2
  · exact le_trans h1 (by decide)
  · exact h2

theorem plan_planned {m : Model} {t : List Nat} (h : plan m = .ok t)
    (hb : ∀ l ∈ m.layers, (l.op = .relu ∨ l.op = .maxPool) → l.nBits ≠ none) :
    ∀ l ∈ m.layers, Planned m.exponent l := by
  intro l hl
  simp only [plan, bind_ok] at h
  obtain ⟨ps, hps, -⟩ := h
  obtain ⟨r, hr⟩ := mapM_ok hps l hl
  unfold planLayer at hr
  have hbl := hb l hl
  constructor
  · rintro (hop | hop | hop) <;>
    · simp only [hop] at hr
      exact planOf_ok hr
  · rintro (hop | hop)
    · cases hn : l.nBits with
      | none => exact absurd hn (hbl (Or.inl hop))
      | some b =>
        simp only [hop, hn] at hr
        exact ⟨b, rfl, planOf_ok hr⟩
    · cases hn : l.nBits with
      | none => exact absurd hn (hbl (Or.inr hop))
      | some b =>
        simp only [hop, hn] at hr
        split at hr
        · split_ifs at hr
          exact ⟨b, rfl, planOf_ok hr⟩
        · simp at hr

variable {p : Nat}

/-- What acceptance gives. -/
structure Parts (m : Model) (input expected : List Int) (env : SName → Nat → ZMod p) (pub : SName → Option Vec)
    (inp : String) (bs : List Block) (st : St) (vs : List (SName × Vec)) (ps : PSt) (node : Node) (ov : Nat) :
    Prop where
  names : m.inputNames = [inp]
  steps : steps m m.layers (initSt m (numVars (nextPow2 input.length))) = .ok (bs, st)
  pubs : pubSteps m.layers ⟨fun n => if n = inp then some (nextPow2 input.length) else none, inputLayouts m⟩ =
    .ok (vs, ps)
  out : st.node (m.outputNames.headD "") = some (node, ov)
  hold : ∀ b ∈ bs, BlockHolds env b
  ok : ∀ b ∈ bs, PubOK env pub b
  vals : ∀ q ∈ vs, pub q.1 = some q.2
  inputs : ∀ i < 2 ^ numVars (nextPow2 input.length), env (.input inp) i = ((input.getD i 0 : Int) : ZMod p)
  len : nextPow2 expected.length = 2 ^ ov
  eval : ∀ i < 2 ^ ov, node.eval env i = ((expected.getD i 0 : Int) : ZMod p)
  plan : ∃ t, plan m = .ok t

theorem parts_of_holds {m : Model} {input expected : List Int} {pub : SName → Option Vec} {C : Circuit}
    (hpub : publicShreds m input expected = .ok pub) (hC : build m (nextPow2 input.length) = .ok C)
    (hold : C.Holds p pub) (hnd : (m.layers.map (·.name)).Nodup) :
    ∃ env inp bs st vs ps node ov, Parts (p := p) m input expected env pub inp bs st vs ps node ov := by
  simp only [publicShreds, bind_ok, need_ok] at hpub
  obtain ⟨inp, hinp, hpub⟩ := hpub
  by_cases h1 : m.exponent ≥ 63
  · rw [if_pos h1] at hpub; simp at hpub
  rw [if_neg h1] at hpub
  by_cases h2 : ((m.inputShapes inp).any fun s => s.prod ≠ input.length) = true
  · rw [if_pos h2] at hpub; simp at hpub
  rw [if_neg h2] at hpub
  simp only [bind_ok] at hpub
  obtain ⟨⟨vs, ps⟩, hvs, t, ht, hpub⟩ := hpub
  simp only [build] at hC
  by_cases h3 : m.inputNames.length > 1
  · rw [if_pos h3] at hC; simp at hC
  rw [if_neg h3] at hC
  simp only [bind_ok, need_ok] at hC
  obtain ⟨inp', hinp', hC⟩ := hC
  rw [hinp] at hinp'
  obtain rfl := Option.some.inj hinp'
  split_ifs at hC with h4
  simp only [bind_ok, need_ok] at hC
  obtain ⟨⟨bs, st⟩, hst, ⟨node, ov⟩, hnode, hC⟩ := hC
  have hpub := (Except.ok.inj hpub).symm
  have hC := (Except.ok.inj hC).symm
  have hnames : m.inputNames = [inp] := by
    cases hn : m.inputNames with
    | nil => rw [hn] at hinp; simp at hinp
    | cons a r =>
      rw [hn] at hinp h3
      simp only [List.head?_cons, Option.some.injEq] at hinp
      subst hinp
      cases r with
      | nil => rfl
      | cons b r => simp at h3
  obtain ⟨hlen, env, henv, houts, hlook⟩ := hold
  have hpv : ∀ q ∈ vs, pub q.1 = some q.2 := by
    intro q hq
    obtain ⟨o, u⟩ := pubSteps_owner hvs hnd
    obtain ⟨l, hl, ho⟩ := o q hq
    have hf := find_unique u hq
    rw [hpub]
    cases hq1 : q.1 <;> rw [hq1] at ho hf <;> simp [SName.owner] at ho <;> exact hf
  have hsub : ∀ b ∈ bs, ∀ s ∈ b.shreds, s ∈ C.shreds := by
    intro b hb s hs
    rw [hC]
    refine List.mem_cons_of_mem _ (List.mem_cons_of_mem _ (List.mem_append_left _ (List.mem_append_left _ ?_)))
    exact List.mem_flatMap.2 ⟨b, hb, hs⟩
  have htab : ∀ q ∈ C.lookups, ∀ i < 2 ^ q.2.1, ∃ j : Nat, j < 2 ^ q.2.2 ∧ q.1.eval env i = (j : ZMod p) := by
    intro q hq i hi
    obtain ⟨j, hj, he⟩ := hlook q hq i hi
    refine ⟨j, hj, ?_⟩
    have hmem : (⟨.table q.2.2, q.2.2, true⟩ : Shred) ∈ C.shreds := by
      rw [hC] at hq ⊢
      refine List.mem_cons_of_mem _ (List.mem_cons_of_mem _ (List.mem_append_right _ ?_))
      exact List.mem_map.2 ⟨q, hq, rfl⟩
    obtain ⟨v, hv, -⟩ := hlen _ hmem rfl
    have h := henv _ hmem rfl v hv j hj
    rw [hpub] at hv
    simp only at hv
    split_ifs at hv
    obtain rfl := Option.some.inj hv
    rw [he, h]; simp
  have hblock : ∀ b ∈ bs, BlockHolds env b := by
    intro b hb
    refine ⟨?_, ?_⟩
    · intro e he
      apply houts e
      rw [hC]
      exact List.mem_cons_of_mem _ (List.mem_append_left _ (List.mem_flatMap.2 ⟨b, hb, he⟩))
    · intro r hr i hi
      have hrmem : r ∈ bs.flatMap (·.reqs) := List.mem_flatMap.2 ⟨b, hb, hr⟩
      have hl : ∀ q ∈ (splitReq r).2.2, q ∈ C.lookups := by
        intro q hq
        rw [hC]
        exact List.mem_flatMap.2 ⟨r, hrmem, hq⟩
      have ho : ∀ e ∈ (splitReq r).2.1, e ∈ C.outs := by
        intro e he
        rw [hC]
        exact List.mem_cons_of_mem _ (List.mem_append_right _ (List.mem_flatMap.2 ⟨r, hrmem, he⟩))
      by_cases ht : r.tableNv ≤ chunkBits
      · simp only [splitReq, if_pos ht] at hl
        exact htab _ (hl _ (List.mem_singleton.2 rfl)) i hi
      · simp only [splitReq, if_neg ht] at hl ho
        obtain ⟨j1, hj1, e1⟩ := htab _ (hl _ List.mem_cons_self) i hi
        obtain ⟨j2, hj2, e2⟩ := htab _ (hl _ (List.mem_cons_of_mem _ List.mem_cons_self)) i hi
        have e3 := houts _ (ho _ (List.mem_singleton.2 rfl)) i hi
        simp only [Expr.eval, Node.eval] at e1 e2 e3
        rw [e1, e2] at e3
        refine ⟨j1 + j2 * 2 ^ chunkBits, ?_, ?_⟩
        · have hs : 2 ^ r.tableNv = 2 ^ chunkBits * 2 ^ (r.tableNv - chunkBits) := by
            rw [← pow_add]; congr 1; omega
          rw [hs]
          dsimp only at hj1 hj2
          calc j1 + j2 * 2 ^ chunkBits < 2 ^ chunkBits + j2 * 2 ^ chunkBits := by omega
            _ = 2 ^ chunkBits * (j2 + 1) := by ring
            _ ≤ _ := Nat.mul_le_mul_left _ hj2
        · push_cast at e3 ⊢
          linear_combination -e3
  refine ⟨env, inp, bs, st, vs, ps, node, ov, hnames, hst, hvs, hnode, hblock, ?_, hpv, ?_, ?_, ?_, t, ht⟩
  · intro b hb s hs
    exact henv s (hsub b hb s hs)
  · refine henv ⟨.input inp, numVars (nextPow2 input.length), true⟩ ?_ rfl
      (nextPow2 input.length, fun i => input.getD i 0) ?_
    · rw [hC]; exact List.mem_cons_self
    · rw [hpub]; simp
  · have hmem : (⟨.expected, ov, true⟩ : Shred) ∈ C.shreds := by
      rw [hC]; exact List.mem_cons_of_mem _ List.mem_cons_self
    obtain ⟨v, hv, hl⟩ := hlen _ hmem rfl
    rw [hpub] at hv
    obtain rfl := Option.some.inj hv
    exact hl
  · intro i hi
    have hmem : (⟨.expected, ov, true⟩ : Shred) ∈ C.shreds := by
      rw [hC]; exact List.mem_cons_of_mem _ List.mem_cons_self
    have h1 := henv _ hmem rfl (nextPow2 expected.length, fun i => expected.getD i 0) (by rw [hpub]) i hi
    have h2 := houts (ov, .sub (.node node) (.node (.shred .expected))) (by rw [hC]; exact List.mem_cons_self) i hi
    simp only [Expr.eval, Node.eval] at h2
    rw [h1] at h2
    linear_combination h2

/-! ## All layers -/

theorem steps_sound [Fact p.Prime] {m : Model} (hp : 2 ^ 100 < p) (hα : m.alpha = 2 ^ m.exponent)
    {env : SName → Nat → ZMod p} {pub : SName → Option Vec} :
    ∀ {ls : List Layer} {st st' : St} {ps ps' : PSt} {rs rs' : RSt} {bs : List Block} {vs : List (SName × Vec)},
    Inv env st ps rs → steps m ls st = .ok (bs, st') → pubSteps ls ps = .ok (vs, ps') →
    refSteps m.alpha ls rs = .ok rs' → (∀ l ∈ ls, Planned m.exponent l) → (∀ b ∈ bs, BlockHolds env b) →
    (∀ b ∈ bs, PubOK env pub b) → (∀ q ∈ vs, pub q.1 = some q.2) → (∀ b ∈ bs, SmallQ env b) →
    Inv env st' ps' rs' := by
  intro ls
  induction ls with
  | nil =>
    intro st st' ps ps' rs rs' bs vs inv hs hv hr _ _ _ _ _
    obtain ⟨-, rfl⟩ := Prod.mk.inj (Except.ok.inj hs)
    obtain ⟨-, rfl⟩ := Prod.mk.inj (Except.ok.inj hv)
    obtain rfl := Except.ok.inj hr
    exact inv
  | cons l ls ih =>
    intro st st' ps ps' rs rs' bs vs inv hs hv hr hpl hb hok hpub hq
    simp only [steps, bind_ok] at hs
    simp only [pubSteps, bind_ok] at hv
    simp only [refSteps, bind_ok] at hr
    obtain ⟨⟨b, s1⟩, hs1, ⟨bs', s2⟩, hs2, hs⟩ := hs
    obtain ⟨⟨v, p1⟩, hv1, ⟨vs', p2⟩, hv2, hv⟩ := hv
    obtain ⟨r1, hr1, hr2⟩ := hr
    obtain ⟨rfl, rfl⟩ := Prod.mk.inj (Except.ok.inj hs)
    obtain ⟨rfl, rfl⟩ := Prod.mk.inj (Except.ok.inj hv)
    have h1 : Inv env s1 p1 r1 := step_sound (b := b) (vs := v) ⟨inv, hs1, hv1, hr1,
      fun q hq => hpub q (List.mem_append_left _ hq), hok b List.mem_cons_self, hb b List.mem_cons_self,
      hq b List.mem_cons_self⟩ hp hα (hpl l List.mem_cons_self)
    exact ih h1 hs2 hv2 hr2 (fun l hl => hpl l (List.mem_cons_of_mem _ hl))
      (fun b hb' => hb b (List.mem_cons_of_mem _ hb')) (fun b hb' => hok b (List.mem_cons_of_mem _ hb'))
      (fun q hq => hpub q (List.mem_append_right _ hq)) (fun b hb' => hq b (List.mem_cons_of_mem _ hb'))

theorem inv_init {m : Model} {input : List Int} {env : SName → Nat → ZMod p} {inp : String}
    (hn : m.inputNames = [inp]) (h64 : ∀ v ∈ input, InI64 v)
    (hi : ∀ i < 2 ^ numVars (nextPow2 input.length), env (.input inp) i = ((input.getD i 0 : Int) : ZMod p)) :
    Inv env (initSt m (numVars (nextPow2 input.length)))
      ⟨fun n => if n = inp then some (nextPow2 input.length) else none, inputLayouts m⟩
      ⟨fun n => if n ∈ m.inputNames then some (numVars (nextPow2 input.length), fun i => input.getD i 0) else none,
       inputLayouts m⟩ := by
  refine ⟨?_, ?_, ?_, rfl, rfl⟩
  · intro t n nv ht
    simp only [initSt, hn, List.mem_singleton, List.headD_cons] at ht ⊢
    split_ifs at ht with h
    simp only [Option.some.injEq, Prod.mk.injEq] at ht
    obtain ⟨rfl, rfl⟩ := ht
    refine ⟨fun i => input.getD i 0, by simp [h], fun i hlt => ⟨hi i hlt, ?_⟩⟩
    show InI64 (input.getD i 0)
    by_cases hlt : i < input.length
    · have : input.getD i 0 = input[i] := by simp [hlt]
      rw [this]; exact h64 _ (List.getElem_mem hlt)
    · have : input.getD i 0 = 0 := by simp [hlt]
      rw [this]; exact ⟨by norm_num, by norm_num⟩
  · intro t ht
    simp only [initSt] at ht
    split_ifs at ht with h
    simp [h]
  · intro t
    simp only [initSt, hn, List.mem_singleton, List.headD_cons]
    split_ifs
    · rw [Option.map_some, numVars_nextPow2, nextPow2_eq]
    · rfl

/-- With small quotients an accepted output is the value of the model. -/
theorem parts_sound [Fact p.Prime] {m : Model} {input expected : List Int} {env : SName → Nat → ZMod p}
    {pub : SName → Option Vec} {inp : String} {bs : List Block} {st : St} {vs : List (SName × Vec)} {ps : PSt}
    {node : Node} {ov : Nat} (P : Parts m input expected env pub inp bs st vs ps node ov)
    (hp : 2 ^ 100 < p) (hα : m.alpha = 2 ^ m.exponent)
    (hb : ∀ l ∈ m.layers, (l.op = .relu ∨ l.op = .maxPool) → l.nBits ≠ none)
    (hq : ∀ b ∈ bs, SmallQ env b) (he : ∀ v ∈ expected, InI64 v)
    {nv : Nat} {f : Nat → Int} (hr : refModel m input = .ok (nv, f)) :
    nextPow2 expected.length = 2 ^ nv ∧ ∀ i < 2 ^ nv, expected.getD i 0 = f i := by
  unfold refModel at hr
  split_ifs at hr with h64
  simp only [bind_ok, need_ok] at hr
  obtain ⟨rs, hr1, hr2⟩ := hr
  obtain ⟨t, ht⟩ := P.plan
  have inv := steps_sound hp hα (inv_init P.names h64 P.inputs) P.steps P.pubs hr1 (plan_planned ht hb) P.hold P.ok
    P.vals hq
  obtain ⟨rfl, hval⟩ := inv.node_of_val hr2 P.out
  refine ⟨P.len, fun i hi => ?_⟩
  obtain ⟨h1, h2⟩ := hval i hi
  rw [P.eval i hi] at h1
  have hp' : ((2 : Int) ^ 100) < p := by exact_mod_cast hp
  have hes : InI64 (expected.getD i 0) := by
    by_cases hlt : i < expected.length
    · have : expected.getD i 0 = expected[i] := by simp [hlt]
      rw [this]; exact he _ (List.getElem_mem hlt)
    · have : expected.getD i 0 = 0 := by simp [hlt]
      rw [this]; exact ⟨by norm_num, by norm_num⟩
  obtain ⟨a1, a2⟩ := hes
  obtain ⟨b1, b2⟩ := h2
  exact int_eq_of_cast h1 (by norm_num at *; linarith) (by norm_num at *; linarith)

end JST.Remainder
