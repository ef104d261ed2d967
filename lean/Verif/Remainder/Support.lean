import Verif.Remainder.Whole

/-!
# The Remainder backend: which vectors a constraint mentions
-/

namespace JST.Remainder

/-- The vectors of a node. -/
def Node.uses : Node → SName → Prop
  | .shred s, t => s = t
  | .gate src _, t => src.uses t
  | .matmul a _ b _, t => a.uses t ∨ b.uses t

/-- The vectors of an expression. -/
def Expr.uses : Expr → SName → Prop
  | .node n, t => n.uses t
  | .add a b, t => a.uses t ∨ b.uses t
  | .sub a b, t => a.uses t ∨ b.uses t
  | .scaled a _, t => a.uses t
  | .products ns, t => ∃ n ∈ ns, n.uses t

section

variable {F : Type} [CommRing F] {env env' : SName → Nat → F}

theorem Node.eval_congr (n : Node) (h : ∀ s, n.uses s → env s = env' s) (i : Nat) :
    n.eval env i = n.eval env' i := by
  induction n generalizing i with
  | shred s => simp only [Node.eval]; rw [h s rfl]
  | gate src w ih =>
    simp only [Node.eval]
    congr 1
    apply List.map_congr_left
    intro q _
    rw [ih h]
  | matmul a cv b nv iha ihb =>
    simp only [Node.eval]
    refine Finset.sum_congr rfl fun k _ => ?_
    rw [iha (fun s hs => h s (Or.inl hs)), ihb (fun s hs => h s (Or.inr hs))]

theorem Expr.eval_congr (e : Expr) (h : ∀ s, e.uses s → env s = env' s) (i : Nat) :
    e.eval env i = e.eval env' i := by
  induction e with
  | node n => exact n.eval_congr h i
  | add a b iha ihb =>
    simp only [Expr.eval]; rw [iha (fun s hs => h s (Or.inl hs)), ihb (fun s hs => h s (Or.inr hs))]
  | sub a b iha ihb =>
    simp only [Expr.eval]; rw [iha (fun s hs => h s (Or.inl hs)), ihb (fun s hs => h s (Or.inr hs))]
  | scaled a c ih => simp only [Expr.eval]; rw [ih h]
  | products ns =>
    simp only [Expr.eval]
    congr 1
    apply List.map_congr_left
    intro n hn
    exact n.eval_congr (fun s hs => h s ⟨n, hn, hs⟩) i

theorem Node.eval_map {G : Type} [CommRing G] (φ : F →+* G) (n : Node) (i : Nat) :
    n.eval (fun s j => φ (env s j)) i = φ (n.eval env i) := by
  induction n generalizing i with
  | shred s => rfl
  | gate src w ih =>
    simp only [Node.eval]
    rw [map_list_sum, List.map_map]
    congr 1
    apply List.map_congr_left
    intro q _
    simp only [Function.comp_apply]
    split_ifs
    · exact ih _
    · rw [map_zero]
  | matmul a cv b nv iha ihb =>
    simp only [Node.eval, map_sum, map_mul, iha, ihb]

theorem Expr.eval_map {G : Type} [CommRing G] (φ : F →+* G) (e : Expr) (i : Nat) :
    e.eval (fun s j => φ (env s j)) i = φ (e.eval env i) := by
  induction e with
  | node n => exact n.eval_map φ i
  | add a b iha ihb => simp only [Expr.eval, iha, ihb, map_add]
  | sub a b iha ihb => simp only [Expr.eval, iha, ihb, map_sub]
  | scaled a c ih => simp only [Expr.eval, ih, map_mul, map_intCast]
  | products ns =>
    simp only [Expr.eval]
    rw [map_list_prod, List.map_map]
    congr 1
    apply List.map_congr_left
    intro n _
    exact n.eval_map φ i

end

/-- What a layer may mention: its own vectors and those of the tensors so far. -/
structure Scoped (l : Layer) (st : St) (b : Block) (st' : St) : Prop where
  node : ∀ t n nv, st'.node t = some (n, nv) → (∃ t' nv', st.node t' = some (n, nv')) ∨
    ∃ s, n = .shred s ∧ s.owner = some l.name
  keep : ∀ t, t ∉ l.outputs → st'.node t = st.node t
  outs : ∀ e ∈ b.outs, ∀ s, e.2.uses s → s.owner = some l.name ∨ ∃ t n nv, st.node t = some (n, nv) ∧ n.uses s
  reqs : ∀ r ∈ b.reqs, r.node = .shred r.name ∧ r.name.owner = some l.name
  shreds : ∀ s ∈ b.shreds, s.name.owner = some l.name

theorem scoped_set {l : Layer} {st : St} {s : SName} {nv : Nat} {lay : Tab Layout} {b : Block}
    (hs : s.owner = some l.name)
    (outs : ∀ e ∈ b.outs, ∀ s, e.2.uses s → s.owner = some l.name ∨ ∃ t n nv, st.node t = some (n, nv) ∧ n.uses s)
    (reqs : ∀ r ∈ b.reqs, r.node = .shred r.name ∧ r.name.owner = some l.name)
    (shreds : ∀ s ∈ b.shreds, s.name.owner = some l.name) :
    Scoped l st b ⟨setAll st.node l.outputs (.shred s, nv), lay⟩ := by
  refine ⟨?_, ?_, outs, reqs, shreds⟩
  · intro t n nv' ht
    by_cases hm : t ∈ l.outputs
    · simp only [setAll, hm, if_true, Option.some.injEq, Prod.mk.injEq] at ht
      exact Or.inr ⟨s, ht.1.symm, hs⟩
    · simp only [setAll, hm, if_false] at ht
      exact Or.inl ⟨t, nv', ht⟩
  · intro t ht; simp [setAll, ht]

theorem operand_scoped {l : Layer} {st : St} {t : String} {n : Node} {nv : Nat} {sh : List Shred}
    (h : operand l st t = .ok (n, nv, sh)) :
    (∀ s, n.uses s → s.owner = some l.name ∨ ∃ t n nv, st.node t = some (n, nv) ∧ n.uses s) ∧
    ∀ s ∈ sh, s.name.owner = some l.name := by
  unfold operand at h
  cases hn : st.node t with
  | some q =>
    rw [hn] at h
    simp only [Except.ok.injEq, Prod.mk.injEq] at h
    obtain ⟨rfl, rfl, rfl⟩ := h
    exact ⟨fun s hs => Or.inr ⟨t, q.1, q.2, hn, hs⟩, by simp⟩
  | none =>
    rw [hn] at h
    simp only [bind_ok, need_ok] at h
    obtain ⟨w, -, h⟩ := h
    simp only [Except.ok.injEq, Prod.mk.injEq] at h
    obtain ⟨rfl, rfl, rfl⟩ := h
    refine ⟨?_, by simp [SName.owner]⟩
    rintro s rfl
    exact Or.inl rfl

theorem step_scoped {m : Model} {l : Layer} {st st' : St} {b : Block} (h : step m l st = .ok (b, st')) :
    Scoped l st b st' := by
  have hpass : ∀ k, passStep l k st = .ok (b, st') → Scoped l st b st' := by
    intro k h
    obtain ⟨rfl, rfl⟩ := Prod.mk.inj (Except.ok.inj h)
    exact scoped_set rfl (by simp) (by simp) (by simp [SName.owner])
  cases hop : l.op
  case gemm =>
    simp only [step, hop, gemmStep, bind_ok, need_ok] at h
    obtain ⟨x, _, ⟨k, n, w⟩, _, ⟨node, nv⟩, hn, h⟩ := h
    dsimp only at h
    split_ifs at h
    obtain ⟨rfl, rfl⟩ := Prod.mk.inj (Except.ok.inj h)
    refine scoped_set rfl ?_ (by simp [rescaleBlock, SName.owner]) (by simp [SName.owner])
    intro e he s hs
    simp only [rescaleBlock, List.mem_singleton] at he
    subst he
    simp only [Expr.uses, Node.uses] at hs
    rcases hs with (((hs | rfl) | rfl) | rfl) | rfl
    · exact Or.inr ⟨x, _, _, hn, hs⟩
    all_goals exact Or.inl rfl
  case conv =>
    simp only [step, hop, convStep, bind_ok, need_ok] at h
    obtain ⟨x, _, inp, _, ⟨d, w⟩, _, ⟨node, nv⟩, hn, h⟩ := h
    obtain ⟨rfl, rfl⟩ := Prod.mk.inj (Except.ok.inj h)
    refine scoped_set rfl ?_ (by simp [rescaleBlock, SName.owner]) (by simp [SName.owner])
    intro e he s hs
    simp only [rescaleBlock, List.mem_singleton] at he
    subst he
    simp only [Expr.uses, Node.uses] at hs
    rcases hs with (((hs | rfl) | rfl) | rfl) | rfl
    · exact Or.inr ⟨x, _, _, hn, hs⟩
    all_goals exact Or.inl rfl
  case relu =>
    simp only [step, hop, reluStep, bind_ok, need_ok] at h
    obtain ⟨x, _, ⟨node, nv⟩, hn, h⟩ := h
    obtain ⟨rfl, rfl⟩ := Prod.mk.inj (Except.ok.inj h)
    refine scoped_set rfl ?_ ?_ (by simp [SName.owner])
    · intro e he s hs
      simp only [List.mem_cons, List.not_mem_nil, or_false] at he
      rcases he with rfl | rfl | rfl
      · simp only [Expr.uses, Node.uses] at hs
        rcases hs with (rfl | hs) | rfl
        · exact Or.inl rfl
        · exact Or.inr ⟨x, _, _, hn, hs⟩
        · exact Or.inl rfl
      · simp only [Expr.uses, Node.uses] at hs
        rcases hs with (rfl | rfl) | rfl <;> exact Or.inl rfl
      · simp only [Expr.uses, List.mem_cons, List.not_mem_nil, or_false] at hs
        obtain ⟨n, rfl | rfl, hs⟩ := hs <;>
        · simp only [Node.uses] at hs
          subst hs
          exact Or.inl rfl
    · cases l.nBits <;> simp [SName.owner]
  case maxPool =>
    simp only [step, hop, poolStep, bind_ok, need_ok] at h
    obtain ⟨x, _, inp, _, d, _, ⟨node, nv⟩, hn, h⟩ := h
    obtain ⟨rfl, rfl⟩ := Prod.mk.inj (Except.ok.inj h)
    refine scoped_set rfl ?_ ?_ ?_
    · intro e he s hs
      rcases List.mem_append.1 he with he | he
      · obtain ⟨i, _, rfl⟩ := List.mem_map.1 he
        simp only [Expr.uses, Node.uses] at hs
        rcases hs with (rfl | hs) | rfl
        · exact Or.inl rfl
        · exact Or.inr ⟨x, _, _, hn, hs⟩
        · exact Or.inl rfl
      · simp only [List.mem_singleton] at he
        subst he
        simp only [Expr.uses, List.mem_map] at hs
        obtain ⟨n, ⟨i, _, rfl⟩, hs⟩ := hs
        simp only [Node.uses] at hs
        subst hs
        exact Or.inl rfl
    · cases l.nBits with
      | none => simp
      | some b =>
        intro r hr
        obtain ⟨i, _, rfl⟩ := List.mem_map.1 hr
        exact ⟨rfl, rfl⟩
    · intro s hs
      rcases List.mem_cons.1 hs with rfl | hs
      · rfl
      · obtain ⟨i, _, rfl⟩ := List.mem_map.1 hs
        rfl
  case batchNorm =>
    simp only [step, hop, bnStep, bind_ok, need_ok] at h
    obtain ⟨x, _, ⟨node, nv⟩, hn, h⟩ := h
    obtain ⟨rfl, rfl⟩ := Prod.mk.inj (Except.ok.inj h)
    refine scoped_set rfl ?_ (by simp [rescaleBlock, SName.owner]) (by simp [SName.owner])
    intro e he s hs
    simp only [rescaleBlock, List.mem_singleton] at he
    subst he
    simp only [Expr.uses, Node.uses, List.mem_cons, List.not_mem_nil, or_false] at hs
    rcases hs with ((⟨n, rfl | rfl, hs⟩ | rfl) | rfl) | rfl
    · exact Or.inr ⟨x, _, _, hn, hs⟩
    · simp only [Node.uses] at hs
      subst hs
      exact Or.inl rfl
    all_goals exact Or.inl rfl
  case add | sub =>
    simp only [step, hop, addStep, bind_ok, need_ok] at h
    obtain ⟨a, _, b2, _, h⟩ := h
    by_cases h1 : (st.node a).isNone ∧ (st.node b2).isNone
    · rw [if_pos h1] at h; simp at h
    rw [if_neg h1] at h
    simp only [bind_ok] at h
    obtain ⟨⟨na, va, sa⟩, hoa, ⟨nb, vb, sb⟩, hob, h⟩ := h
    dsimp only at h
    by_cases hv : va = vb
    swap
    · rw [if_pos hv] at h; simp at h
    rw [if_neg (by simpa using hv)] at h
    obtain ⟨rfl, rfl⟩ := Prod.mk.inj (Except.ok.inj h)
    obtain ⟨ua, wa⟩ := operand_scoped hoa
    obtain ⟨ub, wb⟩ := operand_scoped hob
    refine scoped_set rfl ?_ (by simp) ?_
    · intro e he s hs
      simp only [List.mem_singleton] at he
      subst he
      simp only [reduceCtorEq, if_true, if_false, Expr.uses, Node.uses] at hs
      rcases hs with (hs | hs) | rfl
      · exact ua s hs
      · exact ub s hs
      · exact Or.inl rfl
    · intro s hs
      simp only [List.mem_append, List.mem_singleton] at hs
      rcases hs with (hs | hs) | rfl
      · exact wa s hs
      · exact wb s hs
      · rfl
  case cast | reshape | flatten | squeeze | unsqueeze =>
    simp only [step, hop, shapeStep, bind_ok, need_ok] at h
    obtain ⟨x, _, ⟨node, nv⟩, hn, h⟩ := h
    obtain ⟨rfl, rfl⟩ := Prod.mk.inj (Except.ok.inj h)
    refine ⟨?_, ?_, by simp, by simp, by simp⟩
    · intro t n nv' ht
      by_cases hm : t ∈ l.outputs
      · simp only [setAll, hm, if_true, Option.some.injEq, Prod.mk.injEq] at ht
        obtain ⟨rfl, rfl⟩ := ht
        exact Or.inl ⟨x, _, hn⟩
      · simp only [setAll, hm, if_false] at ht
        exact Or.inl ⟨t, nv', ht⟩
    · intro t ht; simp [setAll, ht]
  case gather =>
    simp only [step, hop, gatherStep, bind_ok] at h
    obtain ⟨_, _, h⟩ := h
    rw [ite_eq_iff] at h
    rcases h with ⟨-, h⟩ | ⟨-, h⟩
    · simp at h
    · exact hpass _ h
  case constant =>
    simp only [step, hop, constStep] at h
    cases hv : l.value with
    | none =>
      rw [hv] at h
      obtain ⟨rfl, rfl⟩ := Prod.mk.inj (Except.ok.inj h)
      exact ⟨fun t n nv ht => Or.inl ⟨t, nv, ht⟩, fun _ _ => rfl, by simp, by simp, by simp⟩
    | some v =>
      rw [hv] at h
      obtain ⟨rfl, rfl⟩ := Prod.mk.inj (Except.ok.inj h)
      exact scoped_set rfl (by simp) (by simp) (by simp [SName.owner])
  case split =>
    simp only [step, hop, splitStep, bind_ok] at h
    obtain ⟨x, _, h⟩ := h
    rw [ite_eq_iff] at h
    rcases h with ⟨-, h⟩ | ⟨-, h⟩
    · simp at h
    · obtain ⟨rfl, rfl⟩ := Prod.mk.inj (Except.ok.inj h)
      refine ⟨?_, ?_, by simp, by simp, by simp⟩
      · intro t n nv ht
        dsimp only at ht
        split at ht
        · rename_i hx
          simp only [Option.some.injEq, Prod.mk.injEq] at ht
          obtain ⟨rfl, -⟩ := ht
          exact Or.inl ⟨x, _, hx⟩
        · exact Or.inl ⟨t, nv, ht⟩
      · intro t ht
        dsimp only
        rw [List.idxOf?_eq_none_iff.2 ht]
  case layerNorm | resize | gridSample | concat | slice | «where» | transpose =>
    simp only [step, hop] at h
    exact hpass _ h
  all_goals simp [step, hop] at h

theorem steps_scoped {m : Model} : ∀ {ls : List Layer} {st st' : St} {bs : List Block},
    steps m ls st = .ok (bs, st') →
    (∀ t n nv, st'.node t = some (n, nv) → (∃ t' nv', st.node t' = some (n, nv')) ∨
      ∃ s, n = .shred s ∧ ∃ l ∈ ls, s.owner = some l.name) ∧
    (∀ t, (∀ l ∈ ls, t ∉ l.outputs) → st'.node t = st.node t) ∧
    (∀ b ∈ bs, ∀ e ∈ b.outs, ∀ s, e.2.uses s → (∃ l ∈ ls, s.owner = some l.name) ∨
      ∃ t n nv, st.node t = some (n, nv) ∧ n.uses s) ∧
    (∀ b ∈ bs, ∀ r ∈ b.reqs, r.node = .shred r.name ∧ ∃ l ∈ ls, r.name.owner = some l.name) ∧
    (∀ b ∈ bs, ∀ s ∈ b.shreds, ∃ l ∈ ls, s.name.owner = some l.name) := by
  intro ls
  induction ls with
  | nil =>
    intro st st' bs h
    obtain ⟨rfl, rfl⟩ := Prod.mk.inj (Except.ok.inj h)
    exact ⟨fun t n nv ht => Or.inl ⟨t, nv, ht⟩, fun _ _ => rfl, by simp, by simp, by simp⟩
  | cons l ls ih =>
    intro st st' bs h
    simp only [steps, bind_ok] at h
    obtain ⟨⟨b, s1⟩, h1, ⟨bs', s2⟩, h2, h⟩ := h
    obtain ⟨rfl, rfl⟩ := Prod.mk.inj (Except.ok.inj h)
    have sc := step_scoped h1
    obtain ⟨i1, i2, i3, i4, i5⟩ := ih h2
    refine ⟨?_, ?_, ?_, ?_, ?_⟩
    · intro t n nv ht
      rcases i1 t n nv ht with ⟨t', nv', h'⟩ | ⟨s, hs, l', hl', ho⟩
      · rcases sc.node t' n nv' h' with h'' | ⟨s, hs, ho⟩
        · exact Or.inl h''
        · exact Or.inr ⟨s, hs, l, List.mem_cons_self, ho⟩
      · exact Or.inr ⟨s, hs, l', List.mem_cons_of_mem _ hl', ho⟩
    · intro t ht
      rw [i2 t fun l' hl' => ht l' (List.mem_cons_of_mem _ hl'), sc.keep t (ht l List.mem_cons_self)]
    · intro c hc e he s hs
      rcases List.mem_cons.1 hc with rfl | hc
      · rcases sc.outs e he s hs with h' | h'
        · exact Or.inl ⟨l, List.mem_cons_self, h'⟩
        · exact Or.inr h'
      · rcases i3 c hc e he s hs with ⟨l', hl', ho⟩ | ⟨t, n, nv, ht, hu⟩
        · exact Or.inl ⟨l', List.mem_cons_of_mem _ hl', ho⟩
        · rcases sc.node t n nv ht with ⟨t', nv', h'⟩ | ⟨s', rfl, ho⟩
          · exact Or.inr ⟨t', n, nv', h', hu⟩
          · simp only [Node.uses] at hu
            subst hu
            exact Or.inl ⟨l, List.mem_cons_self, ho⟩
    · intro c hc r hr
      rcases List.mem_cons.1 hc with rfl | hc
      · exact ⟨(sc.reqs r hr).1, l, List.mem_cons_self, (sc.reqs r hr).2⟩
      · obtain ⟨h', l', hl', ho⟩ := i4 c hc r hr
        exact ⟨h', l', List.mem_cons_of_mem _ hl', ho⟩
    · intro c hc s hs
      rcases List.mem_cons.1 hc with rfl | hc
      · exact ⟨l, List.mem_cons_self, sc.shreds s hs⟩
      · obtain ⟨l', hl', ho⟩ := i5 c hc s hs
        exact ⟨l', List.mem_cons_of_mem _ hl', ho⟩

end JST.Remainder
