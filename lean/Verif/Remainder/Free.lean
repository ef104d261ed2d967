import Verif.Remainder.Accept

/-!
# The Remainder backend: layers without constraints
-/

namespace JST.Remainder

variable {p : Nat}

/-- The operators whose output the circuit commits to and does not constrain. -/
def Layer.Unchecked (l : Layer) : Prop :=
  l.op ∈ [Op.gather, .layerNorm, .resize, .gridSample, .transpose, .concat, .slice, .where] ∨
    (l.op = .constant ∧ l.value.isSome)

theorem step_unchecked {m : Model} {l : Layer} {st st' : St} {b : Block} (h : step m l st = .ok (b, st'))
    (hu : l.Unchecked) : b.outs = [] ∧ b.reqs = [] ∧ (∀ s ∈ b.shreds, s.pub = false) ∧
      ∃ nv, ∀ t ∈ l.outputs, st'.node t = some (.shred (.out l.name), nv) := by
  have hpass : ∀ k, passStep l k st = .ok (b, st') → b.outs = [] ∧ b.reqs = [] ∧ (∀ s ∈ b.shreds, s.pub = false) ∧
      ∃ nv, ∀ t ∈ l.outputs, st'.node t = some (.shred (.out l.name), nv) := by
    intro k h
    obtain ⟨rfl, rfl⟩ := Prod.mk.inj (Except.ok.inj h)
    exact ⟨rfl, rfl, by simp, _, fun t ht => by simp only [setAll, if_pos ht]; rfl⟩
  rcases hu with hu | ⟨hop, hv⟩
  · simp only [List.mem_cons, List.not_mem_nil, or_false] at hu
    rcases hu with hop | hop | hop | hop | hop | hop | hop | hop
    · simp only [step, hop, gatherStep, bind_ok] at h
      obtain ⟨_, _, h⟩ := h
      rw [ite_eq_iff] at h
      rcases h with ⟨-, h⟩ | ⟨-, h⟩
      · simp at h
      · exact hpass _ h
    all_goals
      simp only [step, hop] at h
      exact hpass _ h
  · simp only [step, hop, constStep] at h
    obtain ⟨v, hv⟩ := Option.isSome_iff_exists.1 hv
    rw [hv] at h
    obtain ⟨rfl, rfl⟩ := Prod.mk.inj (Except.ok.inj h)
    exact ⟨rfl, rfl, by simp, _, fun t ht => by simp only [setAll, if_pos ht]; rfl⟩

theorem steps_snoc {m : Model} {l : Layer} : ∀ {ls : List Layer} {st st' : St} {bs : List Block},
    steps m (ls ++ [l]) st = .ok (bs, st') →
    ∃ bs0 s1 b, steps m ls st = .ok (bs0, s1) ∧ step m l s1 = .ok (b, st') ∧ bs = bs0 ++ [b]
  | [], st, st', bs, h => by
    simp only [List.nil_append, steps, bind_ok] at h
    obtain ⟨⟨b, s1⟩, h1, ⟨bs', s2⟩, h2, h⟩ := h
    obtain ⟨rfl, rfl⟩ := Prod.mk.inj (Except.ok.inj h2)
    obtain ⟨rfl, rfl⟩ := Prod.mk.inj (Except.ok.inj h)
    exact ⟨[], st, b, rfl, h1, rfl⟩
  | l0 :: ls, st, st', bs, h => by
    simp only [List.cons_append, steps, bind_ok] at h
    obtain ⟨⟨b, s1⟩, h1, ⟨bs', s2⟩, h2, h⟩ := h
    obtain ⟨rfl, rfl⟩ := Prod.mk.inj (Except.ok.inj h)
    obtain ⟨bs0, s3, b', h3, h4, rfl⟩ := steps_snoc h2
    refine ⟨b :: bs0, s3, b', ?_, h4, rfl⟩
    simp only [steps, bind_ok]
    exact ⟨(b, s1), h1, (bs0, s3), h3, rfl⟩

/-- A model that ends in a layer without constraints accepts every output of the same padded length. -/
theorem holds_free {m : Model} {ls : List Layer} {l : Layer} {input e0 e : List Int} {pub : SName → Option Vec}
    {C : Circuit} (hm : m.layers = ls ++ [l]) (hu : l.Unchecked) (hn : l.name ∉ ls.map (·.name))
    (ho : m.outputNames.headD "" ∈ l.outputs) (hlen : nextPow2 e.length = nextPow2 e0.length)
    (hpub : publicShreds m input e0 = .ok pub) (hC : build m (nextPow2 input.length) = .ok C)
    (hold : C.Holds p pub) : ∃ pub', publicShreds m input e = .ok pub' ∧ C.Holds p pub' := by
  simp only [publicShreds, bind_ok, need_ok] at hpub
  obtain ⟨inp, hinp, hpub⟩ := hpub
  by_cases h1 : m.exponent ≥ 63
  · rw [if_pos h1] at hpub; simp at hpub
  rw [if_neg h1] at hpub
  by_cases h2 : ((m.inputShapes inp).any fun s => s.prod ≠ input.length) = true
  · rw [if_pos h2] at hpub; simp at hpub
  rw [if_neg h2] at hpub
  simp only [bind_ok] at hpub
  obtain ⟨⟨vs, ps⟩, hvs, t, ht, hpub⟩ := hpub
  have hpub := (Except.ok.inj hpub).symm
  simp only [build] at hC
  by_cases h3 : m.inputNames.length > 1
  · rw [if_pos h3] at hC; simp at hC
  rw [if_neg h3] at hC
  simp only [bind_ok, need_ok] at hC
  obtain ⟨inp', hinp', hC⟩ := hC
  rw [hinp] at hinp'
  obtain rfl := Option.some.inj hinp'
  split_ifs at hC with h4
  simp only [bind_ok, need_ok] at hC
  obtain ⟨⟨bs, st⟩, hst, ⟨node, ov⟩, hnode, hC⟩ := hC
  have hC := (Except.ok.inj hC).symm
  rw [hm] at hst
  obtain ⟨bs0, s1, b, hs0, hsl, rfl⟩ := steps_snoc hst
  obtain ⟨u1, u2, u3, nv, u4⟩ := step_unchecked hsl hu
  dsimp only at hnode
  rw [u4 _ ho] at hnode
  simp only [Option.some.injEq, Prod.mk.injEq] at hnode
  obtain ⟨rfl, rfl⟩ := hnode
  obtain ⟨-, -, c3, c4, c5⟩ := steps_scoped hs0
  have hown : ∀ s : SName, (∃ l' ∈ ls, s.owner = some l'.name) → s ≠ .out l.name ∧ s ≠ .expected := by
    rintro s ⟨l', hl', hs⟩
    constructor
    · rintro rfl
      simp only [SName.owner, Option.some.injEq] at hs
      exact hn (List.mem_map.2 ⟨l', hl', hs.symm⟩)
    · rintro rfl
      simp [SName.owner] at hs
  refine ⟨fun s => if s = .expected then some (nextPow2 e.length, fun i => e.getD i 0) else pub s, ?_, ?_⟩
  · simp only [publicShreds, bind_ok, need_ok]
    refine ⟨inp, hinp, ?_⟩
    rw [if_neg h1, if_neg h2]
    simp only [bind_ok]
    refine ⟨(vs, ps), hvs, t, ht, ?_⟩
    congr 1
    funext s
    subst hpub
    cases s <;> simp
  · obtain ⟨hlen0, env, henv, houts, hlook⟩ := hold
    have hexp : (⟨.expected, nv, true⟩ : Shred) ∈ C.shreds := by
      rw [hC]; exact List.mem_cons_of_mem _ List.mem_cons_self
    have hsh : ∀ s ∈ C.shreds, s.pub = true → s.name ≠ .out l.name ∧ (s.name = .expected → s.nv = nv) := by
      intro s hs hp
      rw [hC] at hs
      simp only [List.mem_cons, List.mem_append, List.mem_flatMap, List.mem_map, List.mem_singleton,
        List.not_mem_nil, or_false] at hs
      rcases hs with rfl | rfl | (⟨b', hb' | rfl, hs⟩ | ⟨r, ⟨b', hb', hr⟩, hs⟩) | ⟨q, hq, rfl⟩
      · simp
      · simp
      · have := hown _ (c5 b' hb' s hs)
        exact ⟨this.1, fun h => absurd h this.2⟩
      · rw [u3 s hs] at hp; simp at hp
      · unfold splitReq at hs
        split_ifs at hs
        · simp at hs
        · simp only [List.mem_cons, List.not_mem_nil, or_false] at hs
          rcases hs with rfl | rfl <;> simp at hp
      · simp
    let env' : SName → Nat → ZMod p := fun s =>
      if s = .out l.name ∨ s = .expected then fun i => ((e.getD i 0 : Int) : ZMod p) else env s
    have same : ∀ s, s ≠ .out l.name ∧ s ≠ .expected → env s = env' s := by
      intro s hs
      simp only [env']
      rw [if_neg (by rintro (h | h); exacts [hs.1 h, hs.2 h])]
    have hreq : ∀ r ∈ (bs0 ++ [b]).flatMap (·.reqs), r.node = .shred r.name ∧ r.name ≠ .out l.name ∧ r.name ≠ .expected := by
      intro r hr
      simp only [List.mem_flatMap, List.mem_append, List.mem_singleton] at hr
      obtain ⟨b', hb' | rfl, hr⟩ := hr
      · obtain ⟨r1, r2⟩ := c4 b' hb' r hr
        exact ⟨r1, hown _ r2⟩
      · rw [u2] at hr; simp at hr
    refine ⟨?_, env', ?_, ?_, ?_⟩
    · intro s hs hp
      obtain ⟨-, h2⟩ := hsh s hs hp
      dsimp only
      by_cases he : s.name = .expected
      · rw [if_pos he]
        refine ⟨_, rfl, ?_⟩
        obtain ⟨v, hv, hv2⟩ := hlen0 s hs hp
        rw [he, hpub] at hv
        simp only [Option.some.injEq] at hv
        rw [← hv2, ← hv]; exact hlen
      · rw [if_neg he]; exact hlen0 s hs hp
    · intro s hs hp v hv i hi
      obtain ⟨h1, h2⟩ := hsh s hs hp
      dsimp only at hv
      by_cases he : s.name = .expected
      · rw [if_pos he] at hv
        obtain rfl := Option.some.inj hv
        simp only [env', he]
        simp
      · rw [if_neg he] at hv
        rw [← same _ ⟨h1, he⟩]
        exact henv s hs hp v hv i hi
    · intro x hx i hi
      rw [hC] at hx
      simp only [List.mem_cons, List.mem_append, List.mem_flatMap, List.mem_singleton, List.not_mem_nil, or_false]
        at hx
      rcases hx with rfl | ⟨b', hb' | rfl, hx⟩ | ⟨r, ⟨b', hb', hr⟩, hx⟩
      · simp [Expr.eval, Node.eval, env']
      · rw [← x.2.eval_congr (env := env)]
        · apply houts x _ i hi
          rw [hC]
          exact List.mem_cons_of_mem _ (List.mem_append_left _ (List.mem_flatMap.2
            ⟨b', List.mem_append_left _ hb', hx⟩))
        · intro s hs
          apply same
          rcases c3 b' hb' x hx s hs with h | ⟨t', n', nv', hn', hu'⟩
          · exact hown s h
          · simp only [initSt] at hn'
            split_ifs at hn'
            simp only [Option.some.injEq, Prod.mk.injEq] at hn'
            obtain ⟨rfl, rfl⟩ := hn'
            simp only [Node.uses] at hu'
            subst hu'
            simp
      · rw [u1] at hx; simp at hx
      · have hr' : r ∈ (bs0 ++ [b]).flatMap (·.reqs) := by
          simp only [List.mem_flatMap, List.mem_append, List.mem_singleton]
          exact ⟨b', hb', hr⟩
        obtain ⟨r1, r2⟩ := hreq r hr'
        rw [← x.2.eval_congr (env := env)]
        · apply houts x _ i hi
          rw [hC]
          exact List.mem_cons_of_mem _ (List.mem_append_right _ (List.mem_flatMap.2 ⟨r, hr', hx⟩))
        · intro s hs
          apply same
          unfold splitReq at hx
          split_ifs at hx
          · simp at hx
          · simp only [List.mem_singleton] at hx
            subst hx
            simp only [Expr.uses, Node.uses, r1] at hs
            rcases hs with (rfl | rfl) | rfl
            · simp
            · simp
            · exact r2
    · intro q hq i hi
      obtain ⟨j, hj, he⟩ := hlook q hq i hi
      refine ⟨j, hj, ?_⟩
      rw [← same (.table q.2.2) (by simp), ← he]
      rw [← q.1.eval_congr (env := env)]
      intro s hs
      apply same
      rw [hC] at hq
      simp only [List.mem_flatMap] at hq
      obtain ⟨r, hr, hq⟩ := hq
      obtain ⟨r1, r2⟩ := hreq r (List.mem_flatMap.2 hr)
      unfold splitReq at hq
      split_ifs at hq
      · simp only [List.mem_singleton] at hq
        subst hq
        simp only [r1, Node.uses] at hs
        subst hs
        exact r2
      · simp only [List.mem_cons, List.not_mem_nil, or_false] at hq
        rcases hq with rfl | rfl <;> simp only [Node.uses] at hs <;> subst hs <;> simp

/-- The same for acceptance. -/
theorem accepts_free {m : Model} {ls : List Layer} {l : Layer} {input e0 e : List Int} {obs : String → Option Nat}
    (hm : m.layers = ls ++ [l]) (hu : l.Unchecked) (hn : l.name ∉ ls.map (·.name))
    (ho : m.outputNames.headD "" ∈ l.outputs) (hlen : nextPow2 e.length = nextPow2 e0.length)
    (h : Accepts p m input e0 obs) : Accepts p m input e obs := by
  obtain ⟨pub, C, hpub, hC, hold⟩ := h
  obtain ⟨g, hl, hgl⟩ := withBits_layers m obs
  obtain ⟨b, hb, -⟩ := hgl l
  have hnames : ∀ l, (g l).name = l.name := by
    intro l
    obtain ⟨b, hb, -⟩ := hgl l
    rw [hb]
  obtain ⟨pub', h1, h2⟩ := holds_free (m := m.withBits obs) (ls := ls.map g) (l := g l)
    (by rw [hl, hm]; simp) (by rw [hb]; exact hu)
    (by
      rw [hnames, List.map_map]
      have : (fun l => Layer.name l) ∘ g = fun l => Layer.name l := by funext l; exact hnames l
      rw [this]; exact hn)
    (by rw [hb]; exact ho) hlen hpub hC hold
  exact ⟨pub', C, h1, hC, h2⟩

end JST.Remainder
