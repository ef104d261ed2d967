import Verif.Remainder.Support

/-!
# The Remainder backend: quotients that are followed by a Relu
-/

namespace JST.Remainder

variable {p : Nat}

/-- A layer with a rescaling. -/
def Layer.rescales (l : Layer) : Prop := l.op = .gemm ∨ l.op = .conv ∨ l.op = .batchNorm

instance (l : Layer) : Decidable l.rescales := inferInstanceAs (Decidable (_ ∨ _))

/-- Every rescaled tensor is the input of a later Relu or the output of the model. -/
def Guarded (out : String) : List Layer → Prop
  | [] => True
  | l :: ls => (l.rescales → ∃ t ∈ l.outputs, t = out ∨ ∃ l' ∈ ls, l'.op = .relu ∧ l'.inputs[0]? = some t) ∧
      Guarded out ls

instance decGuarded (out : String) : ∀ ls, Decidable (Guarded out ls)
  | [] => isTrue trivial
  | l :: ls =>
    have := decGuarded out ls
    inferInstanceAs (Decidable (_ ∧ _))

/-- The rescaled tensor is the quotient. -/
theorem step_q {m : Model} {l : Layer} {st st' : St} {b : Block} (h : step m l st = .ok (b, st'))
    (s : Shred) (hs : s ∈ b.shreds) (n : String) (hn : s.name = .q n) :
    l.rescales ∧ ∀ t ∈ l.outputs, st'.node t = some (.shred s.name, s.nv) := by
  have hpass : ∀ k, passStep l k st = .ok (b, st') → False := by
    intro k h
    obtain ⟨rfl, rfl⟩ := Prod.mk.inj (Except.ok.inj h)
    simp only [List.mem_singleton] at hs
    subst hs
    simp at hn
  cases hop : l.op
  case gemm =>
    simp only [step, hop, gemmStep, bind_ok, need_ok] at h
    obtain ⟨x, _, ⟨k, n', w⟩, _, ⟨node, nv⟩, hnn, h⟩ := h
    dsimp only at h
    split_ifs at h
    obtain ⟨rfl, rfl⟩ := Prod.mk.inj (Except.ok.inj h)
    simp only [List.mem_cons, List.not_mem_nil, or_false] at hs
    rcases hs with rfl | rfl | rfl | rfl <;> simp at hn
    exact ⟨Or.inl hop, fun t ht => by simp [setAll, ht]⟩
  case conv =>
    simp only [step, hop, convStep, bind_ok, need_ok] at h
    obtain ⟨x, _, inp, _, ⟨d, w⟩, _, ⟨node, nv⟩, hnn, h⟩ := h
    obtain ⟨rfl, rfl⟩ := Prod.mk.inj (Except.ok.inj h)
    simp only [List.mem_cons, List.not_mem_nil, or_false] at hs
    rcases hs with rfl | rfl | rfl | rfl <;> simp at hn
    exact ⟨Or.inr (Or.inl hop), fun t ht => by simp [setAll, ht]⟩
  case batchNorm =>
    simp only [step, hop, bnStep, bind_ok, need_ok] at h
    obtain ⟨x, _, ⟨node, nv⟩, hnn, h⟩ := h
    obtain ⟨rfl, rfl⟩ := Prod.mk.inj (Except.ok.inj h)
    simp only [List.mem_cons, List.not_mem_nil, or_false] at hs
    rcases hs with rfl | rfl | rfl | rfl <;> simp at hn
    exact ⟨Or.inr (Or.inr hop), fun t ht => by simp [setAll, ht]⟩
  case relu =>
    simp only [step, hop, reluStep, bind_ok, need_ok] at h
    obtain ⟨x, _, ⟨node, nv⟩, hnn, h⟩ := h
    obtain ⟨rfl, rfl⟩ := Prod.mk.inj (Except.ok.inj h)
    simp only [List.mem_cons, List.not_mem_nil, or_false] at hs
    rcases hs with rfl | rfl | rfl | rfl <;> simp at hn
  case maxPool =>
    simp only [step, hop, poolStep, bind_ok, need_ok] at h
    obtain ⟨x, _, inp, _, d, _, ⟨node, nv⟩, hnn, h⟩ := h
    obtain ⟨rfl, rfl⟩ := Prod.mk.inj (Except.ok.inj h)
    rcases List.mem_cons.1 hs with rfl | hs
    · simp at hn
    · obtain ⟨i, _, rfl⟩ := List.mem_map.1 hs
      simp at hn
  case add | sub =>
    simp only [step, hop, addStep, bind_ok, need_ok] at h
    obtain ⟨a, _, b2, _, h⟩ := h
    by_cases h1 : (st.node a).isNone ∧ (st.node b2).isNone
    · rw [if_pos h1] at h; simp at h
    rw [if_neg h1] at h
    simp only [bind_ok] at h
    obtain ⟨⟨na, va, sa⟩, hoa, ⟨nb, vb, sb⟩, hob, h⟩ := h
    dsimp only at h
    by_cases hv : va = vb
    swap
    · rw [if_pos hv] at h; simp at h
    rw [if_neg (by simpa using hv)] at h
    obtain ⟨rfl, rfl⟩ := Prod.mk.inj (Except.ok.inj h)
    have hopd : ∀ t n nv sh, operand l st t = .ok (n, nv, sh) → s ∉ sh := by
      intro t n' nv sh ho hs
      unfold operand at ho
      cases hnt : st.node t with
      | some q =>
        rw [hnt] at ho
        simp only [Except.ok.injEq, Prod.mk.injEq] at ho
        obtain ⟨-, -, rfl⟩ := ho
        simp at hs
      | none =>
        rw [hnt] at ho
        simp only [bind_ok, need_ok] at ho
        obtain ⟨w, hw, ho⟩ := ho
        simp only [Except.ok.injEq, Prod.mk.injEq] at ho
        obtain ⟨-, -, rfl⟩ := ho
        simp only [List.mem_singleton] at hs
        subst hs
        simp at hn
    simp only [List.mem_append, List.mem_singleton] at hs
    rcases hs with (hs | hs) | rfl
    · exact absurd hs (hopd _ _ _ _ hoa)
    · exact absurd hs (hopd _ _ _ _ hob)
    · simp at hn
  case cast | reshape | flatten | squeeze | unsqueeze =>
    simp only [step, hop, shapeStep, bind_ok, need_ok] at h
    obtain ⟨x, _, ⟨node, nv⟩, hnn, h⟩ := h
    obtain ⟨rfl, rfl⟩ := Prod.mk.inj (Except.ok.inj h)
    simp at hs
  case gather =>
    simp only [step, hop, gatherStep, bind_ok] at h
    obtain ⟨_, _, h⟩ := h
    rw [ite_eq_iff] at h
    rcases h with ⟨-, h⟩ | ⟨-, h⟩
    · simp at h
    · exact (hpass _ h).elim
  case constant =>
    simp only [step, hop, constStep] at h
    cases hv : l.value with
    | none =>
      rw [hv] at h
      obtain ⟨rfl, rfl⟩ := Prod.mk.inj (Except.ok.inj h)
      simp at hs
    | some v =>
      rw [hv] at h
      obtain ⟨rfl, rfl⟩ := Prod.mk.inj (Except.ok.inj h)
      simp only [List.mem_singleton] at hs
      subst hs
      simp at hn
  case split =>
    simp only [step, hop, splitStep, bind_ok] at h
    obtain ⟨x, _, h⟩ := h
    rw [ite_eq_iff] at h
    rcases h with ⟨-, h⟩ | ⟨-, h⟩
    · simp at h
    · obtain ⟨rfl, rfl⟩ := Prod.mk.inj (Except.ok.inj h)
      simp at hs
  case layerNorm | resize | gridSample | concat | slice | «where» | transpose =>
    simp only [step, hop] at h
    exact (hpass _ h).elim
  all_goals simp [step, hop] at h

/-- A Relu shows its input to be small. -/
theorem relu_small [Fact p.Prime] (hp : 2 ^ 100 < p) {m : Model} {env : SName → Nat → ZMod p}
    {pub : SName → Option Vec} {t : String} {n : Node} {nv : Nat} {l' : Layer} (hop : l'.op = .relu)
    (hin : l'.inputs[0]? = some t) :
    ∀ {ls : List Layer} {st st' : St} {ps ps' : PSt} {bs : List Block} {vs : List (SName × Vec)},
    steps m ls st = .ok (bs, st') → pubSteps ls ps = .ok (vs, ps') → (∀ l ∈ ls, Planned m.exponent l) →
    (∀ b ∈ bs, BlockHolds env b) → (∀ b ∈ bs, PubOK env pub b) → (∀ q ∈ vs, pub q.1 = some q.2) →
    st.node t = some (n, nv) → (∀ l ∈ ls, t ∉ l.outputs) → l' ∈ ls → ∀ i < 2 ^ nv, Small (n.eval env i) := by
  intro ls
  induction ls with
  | nil => intro _ _ _ _ _ _ _ _ _ _ _ _ _ _ h; simp at h
  | cons l ls ih =>
    intro st st' ps ps' bs vs hs hv hpl hb hok hpub hn ht hl'
    simp only [steps, bind_ok] at hs
    simp only [pubSteps, bind_ok] at hv
    obtain ⟨⟨b, s1⟩, hs1, ⟨bs', s2⟩, hs2, hs⟩ := hs
    obtain ⟨⟨v, p1⟩, hv1, ⟨vs', p2⟩, hv2, hv⟩ := hv
    obtain ⟨rfl, rfl⟩ := Prod.mk.inj (Except.ok.inj hs)
    obtain ⟨rfl, rfl⟩ := Prod.mk.inj (Except.ok.inj hv)
    rcases List.mem_cons.1 hl' with rfl | hl'
    · obtain ⟨bits, hbits, h18⟩ := (hpl l' List.mem_cons_self).2 (Or.inl hop)
      have hold := hb b List.mem_cons_self
      have hok1 := hok b List.mem_cons_self
      simp only [step, hop, reluStep, bind_ok, need_ok, hbits] at hs1
      simp only [pubStep, hop, bind_ok, need_ok] at hv1
      obtain ⟨x, hx, ⟨node, nv'⟩, hn', hb'⟩ := hs1
      obtain ⟨x', hx', sz, hsz, hv⟩ := hv1
      rw [hin] at hx
      obtain rfl := Option.some.inj hx
      rw [hn] at hn'
      simp only [Option.some.injEq, Prod.mk.injEq] at hn'
      obtain ⟨rfl, rfl⟩ := hn'
      obtain ⟨rfl, rfl⟩ := Prod.mk.inj (Except.ok.inj hb')
      obtain ⟨rfl, rfl⟩ := Prod.mk.inj (Except.ok.inj hv)
      intro i hi
      have hzero : env (.zero l'.name) i = 0 := by
        have := hok1 ⟨.zero l'.name, nv, true⟩ (by simp) rfl _
          (hpub _ (List.mem_append_left _ List.mem_cons_self)) i hi
        simpa using this
      have h1 := hold.1 _ List.mem_cons_self i hi
      have h2 := hold.1 _ (List.mem_cons_of_mem _ List.mem_cons_self) i hi
      have h3 := hold.1 _ (List.mem_cons_of_mem _ (List.mem_cons_of_mem _ List.mem_cons_self)) i hi
      obtain ⟨ji, hji, e1⟩ := hold.2 _ List.mem_cons_self i hi
      obtain ⟨jz, hjz, e2⟩ := hold.2 _ (List.mem_cons_of_mem _ List.mem_cons_self) i hi
      simp only [Expr.eval, Node.eval, List.map_cons, List.map_nil, List.prod_cons, List.prod_nil, mul_one]
        at h1 h2 h3 e1 e2
      rw [e1] at h1 h3
      rw [e2] at h2 h3
      rw [hzero] at h2
      have hle : (2 : Nat) ^ deltaNv bits m.exponent ≤ 2 ^ 18 := Nat.pow_le_pow_right (by norm_num) h18
      obtain ⟨hx1, -⟩ := relu_forced h1 h2 h3 (by norm_num at *; omega) (by norm_num at *; omega)
      refine ⟨_, ?_, hx1⟩
      have a1 : (ji : Int) < 2 ^ 18 := by exact_mod_cast lt_of_lt_of_le hji hle
      have a2 : (jz : Int) < 2 ^ 18 := by exact_mod_cast lt_of_lt_of_le hjz hle
      constructor <;> norm_num at * <;> omega
    · have sc := step_scoped hs1
      refine ih hs2 hv2 (fun l hl => hpl l (List.mem_cons_of_mem _ hl))
        (fun b hb' => hb b (List.mem_cons_of_mem _ hb')) (fun b hb' => hok b (List.mem_cons_of_mem _ hb'))
        (fun q hq => hpub q (List.mem_append_right _ hq)) ?_ (fun l hl => ht l (List.mem_cons_of_mem _ hl)) hl'
      rw [sc.keep t (ht l List.mem_cons_self)]; exact hn

/-- In a guarded model all quotients are small. -/
theorem guarded_small [Fact p.Prime] (hp : 2 ^ 100 < p) {m : Model} {env : SName → Nat → ZMod p}
    {pub : SName → Option Vec} {out : String} {node : Node} {ov : Nat} :
    ∀ {ls : List Layer} {st st' : St} {ps ps' : PSt} {bs : List Block} {vs : List (SName × Vec)},
    steps m ls st = .ok (bs, st') → pubSteps ls ps = .ok (vs, ps') → (∀ l ∈ ls, Planned m.exponent l) →
    (∀ b ∈ bs, BlockHolds env b) → (∀ b ∈ bs, PubOK env pub b) → (∀ q ∈ vs, pub q.1 = some q.2) →
    st'.node out = some (node, ov) → (∀ i < 2 ^ ov, Small (node.eval env i)) →
    (ls.flatMap (·.outputs)).Nodup → Guarded out ls → ∀ b ∈ bs, SmallQ env b := by
  intro ls
  induction ls with
  | nil =>
    intro st st' ps ps' bs vs hs _ _ _ _ _ _ _ _ _
    obtain ⟨rfl, rfl⟩ := Prod.mk.inj (Except.ok.inj hs)
    simp
  | cons l ls ih =>
    intro st st' ps ps' bs vs hs hv hpl hb hok hpub hout hsm hnd hg
    simp only [steps, bind_ok] at hs
    simp only [pubSteps, bind_ok] at hv
    obtain ⟨⟨b, s1⟩, hs1, ⟨bs', s2⟩, hs2, hs⟩ := hs
    obtain ⟨⟨v, p1⟩, hv1, ⟨vs', p2⟩, hv2, hv⟩ := hv
    obtain ⟨rfl, rfl⟩ := Prod.mk.inj (Except.ok.inj hs)
    obtain ⟨rfl, rfl⟩ := Prod.mk.inj (Except.ok.inj hv)
    rw [List.flatMap_cons, List.nodup_append] at hnd
    obtain ⟨-, hnd2, hdis⟩ := hnd
    intro c hc
    rcases List.mem_cons.1 hc with rfl | hc
    · intro s hs n hn i hi
      obtain ⟨hres, hnode⟩ := step_q hs1 s hs n hn
      obtain ⟨t, ht, hg⟩ := hg.1 hres
      have hnt := hnode t ht
      have hkeep : ∀ l' ∈ ls, t ∉ l'.outputs := by
        intro l' hl' ht'
        exact hdis t ht t (List.mem_flatMap.2 ⟨l', hl', ht'⟩) rfl
      rcases hg with rfl | ⟨l', hl', hop, hin⟩
      · have h2 := (steps_scoped hs2).2.1 t hkeep
        dsimp only at hout
        rw [h2, hnt] at hout
        simp only [Option.some.injEq, Prod.mk.injEq] at hout
        obtain ⟨rfl, rfl⟩ := hout
        exact hsm i hi
      · exact relu_small hp hop hin hs2 hv2 (fun l hl => hpl l (List.mem_cons_of_mem _ hl))
          (fun b hb' => hb b (List.mem_cons_of_mem _ hb')) (fun b hb' => hok b (List.mem_cons_of_mem _ hb'))
          (fun q hq => hpub q (List.mem_append_right _ hq)) hnt hkeep hl' i hi
    · exact ih hs2 hv2 (fun l hl => hpl l (List.mem_cons_of_mem _ hl))
        (fun b hb' => hb b (List.mem_cons_of_mem _ hb')) (fun b hb' => hok b (List.mem_cons_of_mem _ hb'))
        (fun q hq => hpub q (List.mem_append_right _ hq)) hout hsm hnd2 hg.2 c hc

end JST.Remainder
