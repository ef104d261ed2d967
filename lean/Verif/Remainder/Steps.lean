import Verif.Remainder.Sound

/-!
# The Remainder backend: one layer at a time
-/

namespace JST.Remainder

open scoped BigOperators

section

variable {p : Nat}

/-- The product of a Gemm is the weighted sum. -/
theorem gemm_hV {l : Layer} {env : SName → Nat → ZMod p} {node : Node} {k n : Nat} {w : Weight} {f : Nat → Int}
    (hval : ∀ i < 2 ^ numVars k, node.eval env i = (f i : ZMod p))
    (hw : ∀ i < 2 ^ (numVars k + numVars n), env (.weight l.name) i =
      ((gemmWeight l w k n (i / nextPow2 n) (i % nextPow2 n) : Int) : ZMod p)) :
    ∀ i < 2 ^ numVars n, (Expr.node (.matmul node (numVars k) (.shred (.weight l.name)) (numVars n))).eval env i =
      ((gemmSum l w k n f i : Int) : ZMod p) := by
  intro i hi
  rw [Expr.eval, gemm_value _ _ _ _ _ _ hi]
  have hterm : ∀ a ∈ Finset.range (2 ^ numVars k), node.eval env a * env (.weight l.name) (a * 2 ^ numVars n + i) =
      if a < k then ((if i < n then f a * gemmEntry l w k n a i else 0 : Int) : ZMod p) else 0 := by
    intro a ha
    have ha := Finset.mem_range.1 ha
    rw [hval a ha, hw _ (by
      rw [pow_add]
      calc a * 2 ^ numVars n + i < a * 2 ^ numVars n + 2 ^ numVars n := by omega
        _ = (a + 1) * 2 ^ numVars n := by ring
        _ ≤ _ := Nat.mul_le_mul_right _ ha)]
    have hN : 0 < 2 ^ numVars n := Nat.two_pow_pos _
    rw [nextPow2_eq, Nat.mul_comm a, Nat.mul_add_div hN, Nat.mul_add_mod, Nat.div_eq_of_lt hi,
      Nat.mod_eq_of_lt hi, Nat.add_zero, gemmWeight, gemmEntry]
    by_cases hk : a < k <;> by_cases hn : i < n <;> simp [hk, hn]
  rw [Finset.sum_congr rfl hterm, ← Finset.sum_filter]
  have hfil : (Finset.range (2 ^ numVars k)).filter (· < k) = Finset.range k := by
    ext a
    have := le_nextPow2 k
    rw [nextPow2_eq] at this
    simp only [Finset.mem_filter, Finset.mem_range]
    omega
  rw [hfil, gemmSum]
  by_cases hn : i < n <;> simp [hn]

/-- The dimensions of the input of a convolution. -/
theorem convDims_dims {l : Layer} {inp : Layout} {d : ConvDims} {w : Weight} (hd : convDims l inp = .ok (d, w)) :
    d.cIn = inp.dims.1 ∧ d.inH = inp.dims.2.1 ∧ d.inW = inp.dims.2.2 := by
  simp only [convDims, bind_ok, need_ok] at hd
  obtain ⟨_, _, _, _, hd⟩ := hd
  split at hd
  · simp only [bind_ok] at hd
    obtain ⟨_, _, _, _, _, _, _, _, _, _, _, _, hd⟩ := hd
    split_ifs at hd with a1 a2 a3
    simp only [Except.ok.injEq, Prod.mk.injEq] at hd
    obtain ⟨rfl, rfl⟩ := hd
    push Not at a2
    exact ⟨a2.symm, rfl, rfl⟩
  · simp at hd

/-- The product of a convolution is the convolution. -/
theorem conv_hV {l : Layer} {env : SName → Nat → ZMod p} {node : Node} {nv : Nat} {d : ConvDims} {inp : Layout}
    {w : Weight} {f : Nat → Int} (hdims : d.cIn = inp.dims.1 ∧ d.inH = inp.dims.2.1 ∧ d.inW = inp.dims.2.2)
    (h3 : inp.Fits nv) (hval : ∀ i < 2 ^ nv, node.eval env i = (f i : ZMod p))
    (hw : ∀ i < 2 ^ (numVars (d.cIn * d.kh * d.kw) + numVars d.cOut), env (.weight l.name) i =
      ((if i / nextPow2 d.cOut < d.cIn * d.kh * d.kw ∧ i % nextPow2 d.cOut < d.cOut then
        w.data.getD (i % nextPow2 d.cOut * (d.cIn * d.kh * d.kw) + i / nextPow2 d.cOut) 0 else 0 : Int) : ZMod p)) :
    ∀ i, (Expr.node (.matmul (.gate node (convWiring d inp))
        (numVars (d.cIn * d.kh * d.kw)) (.shred (.weight l.name)) (numVars d.cOut))).eval env i =
      ((if i / nextPow2 d.cOut < d.outH * d.outW ∧ i % nextPow2 d.cOut < d.cOut then
        convSum d w.data (imageOf inp f) (i % nextPow2 d.cOut) (i / nextPow2 d.cOut / d.outW)
          (i / nextPow2 d.cOut % d.outW) else 0 : Int) : ZMod p) := by
  set ov := numVars d.cOut with hov
  set co := nextPow2 d.cOut with hco
  have hcov : co = 2 ^ ov := nextPow2_eq _
  have hco0 : 0 < co := by rw [hcov]; exact Nat.two_pow_pos _
  intro i
  rw [Expr.eval, hov, conv_value, ← hco]
  by_cases hrow : i / co < d.outH * d.outW
  swap
  · simp [hrow]
  have hterm : ∀ c ∈ Finset.range d.cIn, ∀ kr ∈ Finset.range d.kh, ∀ kc ∈ Finset.range d.kw,
      (if d.padT ≤ i / co / d.outW * d.sh + kr ∧ i / co / d.outW * d.sh + kr < d.padT + d.inH ∧
          d.padL ≤ i / co % d.outW * d.sw + kc ∧ i / co % d.outW * d.sw + kc < d.padL + d.inW then
        node.eval env (inp.index c (i / co / d.outW * d.sh + kr - d.padT)
            (i / co % d.outW * d.sw + kc - d.padL)) *
          env (.weight l.name) ((c * d.kh * d.kw + kr * d.kw + kc) * co + i % co) else 0) =
      ((if i % co < d.cOut then
        paddedImage d (imageOf inp f) c (i / co / d.outW * d.sh + kr) (i / co % d.outW * d.sw + kc) *
          convWeight d w.data (i % co) c kr kc else 0 : Int) : ZMod p) := by
    intro c hc kr hkr kc hkc
    have hc := Finset.mem_range.1 hc
    have hkr := Finset.mem_range.1 hkr
    have hkc := Finset.mem_range.1 hkc
    have hcol : c * d.kh * d.kw + kr * d.kw + kc < d.cIn * d.kh * d.kw := by
      have a1 : (kr + 1) * d.kw ≤ d.kh * d.kw := Nat.mul_le_mul_right _ hkr
      have a2 : (c + 1) * (d.kh * d.kw) ≤ d.cIn * (d.kh * d.kw) := Nat.mul_le_mul_right _ hc
      have a3 : (c + 1) * (d.kh * d.kw) = c * d.kh * d.kw + d.kh * d.kw := by ring
      have a4 : (kr + 1) * d.kw = kr * d.kw + d.kw := by ring
      have a5 : d.cIn * (d.kh * d.kw) = d.cIn * d.kh * d.kw := by ring
      omega
    unfold paddedImage
    split_ifs with hpad hcc hcc
    · rw [hval _ (h3 c (by omega) _ (by omega) _ (by omega))]
      rw [hw _ (by
        rw [pow_add, ← hcov]
        have := Nat.mod_lt i hco0
        have h5 : c * d.kh * d.kw + kr * d.kw + kc + 1 ≤ 2 ^ numVars (d.cIn * d.kh * d.kw) := by
          have := le_nextPow2 (d.cIn * d.kh * d.kw)
          rw [nextPow2_eq] at this
          omega
        calc _ < (c * d.kh * d.kw + kr * d.kw + kc) * co + co := by omega
          _ = (c * d.kh * d.kw + kr * d.kw + kc + 1) * co := by ring
          _ ≤ _ := Nat.mul_le_mul_right _ h5)]
      rw [Nat.mul_comm _ co, Nat.mul_add_div hco0, Nat.mul_add_mod, Nat.div_eq_of_lt (Nat.mod_lt i hco0),
        Nat.mod_eq_of_lt (Nat.mod_lt i hco0), Nat.add_zero, if_pos ⟨hcol, hcc⟩]
      simp only [imageOf, convWeight]
      push_cast; rfl
    · rw [hw _ (by
        rw [pow_add, ← hcov]
        have := Nat.mod_lt i hco0
        have h5 : c * d.kh * d.kw + kr * d.kw + kc + 1 ≤ 2 ^ numVars (d.cIn * d.kh * d.kw) := by
          have := le_nextPow2 (d.cIn * d.kh * d.kw)
          rw [nextPow2_eq] at this
          omega
        calc _ < (c * d.kh * d.kw + kr * d.kw + kc) * co + co := by omega
          _ = (c * d.kh * d.kw + kr * d.kw + kc + 1) * co := by ring
          _ ≤ _ := Nat.mul_le_mul_right _ h5)]
      rw [Nat.mul_comm _ co, Nat.mul_add_div hco0, Nat.mul_add_mod, Nat.div_eq_of_lt (Nat.mod_lt i hco0),
        Nat.mod_eq_of_lt (Nat.mod_lt i hco0), Nat.add_zero, if_neg (fun h => hcc h.2)]
      simp
    · simp
    · simp
  rw [if_pos hrow, Finset.sum_congr rfl fun c hc => Finset.sum_congr rfl fun kr hkr =>
    Finset.sum_congr rfl fun kc hkc => hterm c hc kr hkr kc hkc]
  by_cases hcc : i % co < d.cOut
  · simp only [hcc, hrow, and_self, if_true, convSum]
    push_cast; rfl
  · simp [hcc]

/-- The dimensions of a MaxPool. -/
theorem poolDims_dims {l : Layer} {inp : Layout} {d : PoolDims} (hd : poolDims l inp = .ok d) :
    d.c = inp.dims.1 ∧ 0 < d.ph ∧ 0 < d.pw ∧ (∀ oh < d.outH, ∀ a < d.ph, oh * d.sh + a < inp.dims.2.1) ∧
      (∀ ow < d.outW, ∀ a < d.pw, ow * d.sw + a < inp.dims.2.2) := by
  simp only [poolDims, bind_ok, need_ok] at hd
  obtain ⟨ks, hks, hd⟩ := hd
  split at hd
  · clear hks
    rename_i a b
    by_cases a1 : a ≤ 0 ∨ b ≤ 0
    · rw [if_pos a1] at hd; simp at hd
    rw [if_neg a1] at hd
    simp only [bind_ok] at hd
    obtain ⟨sh, _, sw, _, hd⟩ := hd
    split_ifs at hd with a2 a3
    obtain rfl := Except.ok.inj hd
    push Not at a1 a2 a3
    have key : ∀ n k s : Nat, k ≤ n → ∀ o < (n - k) / s + 1, ∀ a < k, o * s + a < n := by
      intro n k s hk o ho a ha
      have : o * s ≤ n - k := le_trans (Nat.mul_le_mul_right s (Nat.lt_succ_iff.1 ho)) (Nat.div_mul_le_self _ _)
      omega
    exact ⟨rfl, by simpa using a1.1, by simpa using a1.2, key _ _ _ a3.1, key _ _ _ a3.2⟩
  · simp at hd

/-- The hypotheses of the lemmas about one layer. -/
structure StepHyp (m : Model) (l : Layer) (env : SName → Nat → ZMod p) (pub : SName → Option Vec)
    (st : St) (ps : PSt) (rs : RSt) (b : Block) (st' : St) (vs : List (SName × Vec)) (ps' : PSt) (rs' : RSt) :
    Prop where
  inv : Inv env st ps rs
  hb : step m l st = .ok (b, st')
  hv : pubStep l ps = .ok (vs, ps')
  hr : refStep m.alpha l rs = .ok rs'
  hpub : ∀ q ∈ vs, pub q.1 = some q.2
  hok : PubOK env pub b
  hold : BlockHolds env b
  small : SmallQ env b

variable {m : Model} {l : Layer} {env : SName → Nat → ZMod p} {pub : SName → Option Vec}
  {st : St} {ps : PSt} {rs : RSt} {b : Block} {st' : St} {vs : List (SName × Vec)} {ps' : PSt} {rs' : RSt}

theorem gemm_sound (H : StepHyp m l env pub st ps rs b st' vs ps' rs') (hop : l.op = .gemm)
    (hp : 2 ^ 100 < p) (he : m.exponent ≤ 18) (hα : m.alpha = 2 ^ m.exponent) : Inv env st' ps' rs' := by
  obtain ⟨inv, hb, hv, hr, hpub, hok, hold, small⟩ := H
  simp only [step, hop, gemmStep, bind_ok, need_ok] at hb
  simp only [pubStep, hop, bind_ok] at hv
  simp only [refStep, hop, bind_ok, need_ok] at hr
  obtain ⟨x, hx, ⟨k, n, w⟩, hd, ⟨node, nv⟩, hn, hb⟩ := hb
  dsimp only at hb
  obtain ⟨⟨k', n', w'⟩, hd', hv⟩ := hv
  rw [hd] at hd'
  simp only [Except.ok.injEq, Prod.mk.injEq] at hd'
  obtain ⟨rfl, rfl, rfl⟩ := hd'
  obtain ⟨x', hx', ⟨k', n', w'⟩, hd', ⟨nv', f⟩, hf, hr⟩ := hr
  rw [hx] at hx'
  obtain rfl := Option.some.inj hx'
  rw [hd] at hd'
  simp only [Except.ok.injEq, Prod.mk.injEq] at hd'
  obtain ⟨rfl, rfl, rfl⟩ := hd'
  dsimp only at hv hr
  split_ifs at hb with h1
  split_ifs at hv with h2
  split_ifs at hr with h3
  simp only [bind_ok] at hr
  obtain ⟨v, hv2, hr⟩ := hr
  simp only [Except.ok.injEq, Prod.mk.injEq] at hb hv hr
  obtain ⟨rfl, rfl⟩ := hb
  obtain ⟨rfl, rfl⟩ := hv
  subst hr
  push Not at h1 h2
  subst h1
  obtain ⟨-, hval⟩ := inv.node_of_val hf hn
  push Not at h3
  rw [h3] at hval
  have hw : ∀ i < 2 ^ (numVars k + numVars n), env (.weight l.name) i =
      ((gemmWeight l w k n (i / nextPow2 n) (i % nextPow2 n) : Int) : ZMod p) :=
    hok ⟨.weight l.name, numVars k + numVars n, true⟩ (by simp) rfl _ (hpub _ List.mem_cons_self)
  have hbias : ∀ i < 2 ^ numVars n, env (.bias l.name) i = (((biasOf l).getD i 0 : Int) : ZMod p) :=
    hok ⟨.bias l.name, numVars n, true⟩ (by simp) rfl _ (hpub _ (List.mem_cons_of_mem _ List.mem_cons_self))
  have hq : ∀ i < 2 ^ numVars n, Small (env (.q l.name) i) :=
    small ⟨.q l.name, numVars n, false⟩ (by simp) _ rfl
  have hV := gemm_hV (l := l) (n := n) (w := w) (fun i hi => (hval i hi).1) hw
  have hres := rescale_block m l hp he hα env _ _ (numVars n) _ _ (fun j => (biasList l).getD j 0) v hV
    (by intro i hi; rw [Expr.eval, Node.eval, hbias i hi]; rfl) hold hq hv2
  obtain ⟨v1, v2⟩ := v
  obtain ⟨rfl, hres⟩ := hres
  have := inv.set l.outputs (.shred (.q l.name)) (numVars n) v2 st.layout ps.layout rs.layout inv.play inv.lay hres
  rwa [← nextPow2_eq] at this


theorem Inv.val_of_none {st : St} {ps : PSt} {rs : RSt} (h : Inv env st ps rs) {t : String} :
    rs.val t = Option.none ↔ st.node t = Option.none := by
  constructor
  · intro hv
    cases hn : st.node t with
    | none => rfl
    | some q =>
      obtain ⟨f, hf, -⟩ := h.val t q.1 q.2 hn
      rw [hf] at hv; simp at hv
  · exact h.none t

theorem conv_sound (H : StepHyp m l env pub st ps rs b st' vs ps' rs') (hop : l.op = .conv)
    (hp : 2 ^ 100 < p) (he : m.exponent ≤ 18) (hα : m.alpha = 2 ^ m.exponent) : Inv env st' ps' rs' := by
  obtain ⟨inv, hb, hv, hr, hpub, hok, hold, small⟩ := H
  simp only [step, hop, convStep, bind_ok, need_ok] at hb
  simp only [pubStep, hop, bind_ok, need_ok] at hv
  simp only [refStep, hop, bind_ok, need_ok] at hr
  obtain ⟨x, hx, inp, hinp, ⟨d, w⟩, hd, ⟨node, nv⟩, hn, hb⟩ := hb
  obtain ⟨x', hx', inp', hinp', ⟨d', w'⟩, hd', hv⟩ := hv
  rw [hx] at hx'
  obtain rfl := Option.some.inj hx'
  rw [inv.play, hinp] at hinp'
  obtain rfl := Option.some.inj hinp'
  rw [hd] at hd'
  simp only [Except.ok.injEq, Prod.mk.injEq] at hd'
  obtain ⟨rfl, rfl⟩ := hd'
  obtain ⟨x', hx', inp', hinp', ⟨d', w'⟩, hd', ⟨nv', f⟩, hf, hr⟩ := hr
  rw [hx] at hx'
  obtain rfl := Option.some.inj hx'
  rw [inv.lay, hinp] at hinp'
  obtain rfl := Option.some.inj hinp'
  rw [hd] at hd'
  simp only [Except.ok.injEq, Prod.mk.injEq] at hd'
  obtain ⟨rfl, rfl⟩ := hd'
  dsimp only at hb hv hr
  split_ifs at hv with h2
  split_ifs at hr with h3
  simp only [bind_ok] at hr
  obtain ⟨v, hv2, hr⟩ := hr
  simp only [Except.ok.injEq, Prod.mk.injEq] at hb hv hr
  obtain ⟨rfl, rfl⟩ := hb
  obtain ⟨rfl, rfl⟩ := hv
  subst hr
  obtain ⟨rfl, hval⟩ := inv.node_of_val hf hn
  set rows := numVars (d.outH * d.outW) with hrows
  set ov := numVars d.cOut with hov
  set co := nextPow2 d.cOut with hco
  have hcov : co = 2 ^ ov := nextPow2_eq _
  have hco0 : 0 < co := by rw [hcov]; exact Nat.two_pow_pos _
  have hdims := convDims_dims hd
  have hw : ∀ i < 2 ^ (numVars (d.cIn * d.kh * d.kw) + ov), env (.weight l.name) i =
      ((if i / co < d.cIn * d.kh * d.kw ∧ i % co < d.cOut then
        w.data.getD (i % co * (d.cIn * d.kh * d.kw) + i / co) 0 else 0 : Int) : ZMod p) :=
    hok ⟨.weight l.name, numVars (d.cIn * d.kh * d.kw) + ov, true⟩ (by simp) rfl _ (hpub _ List.mem_cons_self)
  have hbias : ∀ i < 2 ^ (rows + ov), env (.bias l.name) i =
      ((if i % co < d.cOut then (biasOf l).getD (i % co) 0 else 0 : Int) : ZMod p) :=
    hok ⟨.bias l.name, rows + ov, true⟩ (by simp) rfl _ (hpub _ (List.mem_cons_of_mem _ List.mem_cons_self))
  have hq : ∀ i < 2 ^ (rows + ov), Small (env (.q l.name) i) :=
    small ⟨.q l.name, rows + ov, false⟩ (by simp) _ rfl
  have hV := fun i (_ : i < 2 ^ (rows + ov)) => conv_hV (l := l) (w := w) hdims h3 (fun i hi => (hval i hi).1) hw i
  have hres := rescale_block m l hp he hα env _ _ (rows + ov) _ _
    (fun i => if i % co < d.cOut then (biasList l).getD (i % co) 0 else 0) v hV
    (by intro i hi; rw [Expr.eval, Node.eval, hbias i hi]; rfl) hold hq hv2
  obtain ⟨v1, v2⟩ := v
  obtain ⟨rfl, hres⟩ := hres
  have := inv.set l.outputs (.shred (.q l.name)) (rows + ov) v2 (setAll st.layout l.outputs d.layout)
    (setAll ps.layout l.outputs d.layout) (setAll rs.layout l.outputs d.layout) (by rw [inv.play]) (by rw [inv.lay])
    hres
  rwa [pow_add, ← nextPow2_eq, ← hcov] at this

theorem relu_sound [Fact p.Prime] (H : StepHyp m l env pub st ps rs b st' vs ps' rs') (hop : l.op = .relu)
    (hp : 2 ^ 100 < p) (hbits : ∃ b, l.nBits = some b ∧ deltaNv b m.exponent ≤ 18) : Inv env st' ps' rs' := by
  obtain ⟨inv, hb, hv, hr, hpub, hok, hold, small⟩ := H
  obtain ⟨bits, hbits, h18⟩ := hbits
  simp only [step, hop, reluStep, bind_ok, need_ok, hbits] at hb
  simp only [pubStep, hop, bind_ok, need_ok] at hv
  simp only [refStep, hop, bind_ok, need_ok] at hr
  obtain ⟨x, hx, ⟨node, nv⟩, hn, hb⟩ := hb
  obtain ⟨x', hx', sz, hsz, hv⟩ := hv
  rw [hx] at hx'
  obtain rfl := Option.some.inj hx'
  obtain ⟨x', hx', ⟨nv', f⟩, hf, hr⟩ := hr
  rw [hx] at hx'
  obtain rfl := Option.some.inj hx'
  simp only [Except.ok.injEq, Prod.mk.injEq] at hb hv hr
  obtain ⟨rfl, rfl⟩ := hb
  obtain ⟨rfl, rfl⟩ := hv
  subst hr
  obtain ⟨rfl, hval⟩ := inv.node_of_val hf hn
  rw [inv.size, hn] at hsz
  simp only [Option.map_some, Option.some.injEq] at hsz
  subst hsz
  have hzero : ∀ i < 2 ^ nv, env (.zero l.name) i = 0 := by
    intro i hi
    have := hok ⟨.zero l.name, nv, true⟩ (by simp) rfl _ (hpub _ List.mem_cons_self) i hi
    simpa using this
  refine inv.set l.outputs _ nv _ _ _ _ (by rw [inv.play]) (by rw [inv.lay]) ?_
  intro i hi
  have h1 := hold.1 _ List.mem_cons_self i hi
  have h2 := hold.1 _ (List.mem_cons_of_mem _ List.mem_cons_self) i hi
  have h3 := hold.1 _ (List.mem_cons_of_mem _ (List.mem_cons_of_mem _ List.mem_cons_self)) i hi
  obtain ⟨ji, hji, e1⟩ := hold.2 _ List.mem_cons_self i hi
  obtain ⟨jz, hjz, e2⟩ := hold.2 _ (List.mem_cons_of_mem _ List.mem_cons_self) i hi
  simp only [Expr.eval, Node.eval, List.map_cons, List.map_nil, List.prod_cons, List.prod_nil, mul_one] at h1 h2 h3 e1 e2
  rw [e1] at h1 h3
  rw [e2] at h2 h3
  rw [hzero i hi] at h2
  have hle : (2 : Nat) ^ deltaNv bits m.exponent ≤ 2 ^ 18 := Nat.pow_le_pow_right (by norm_num) h18
  obtain ⟨hx1, hx2⟩ := relu_forced h1 h2 h3 (by norm_num at *; omega) (by norm_num at *; omega)
  obtain ⟨hfi, hs⟩ := hval i hi
  have hp' : ((2 : Int) ^ 100) < p := by exact_mod_cast hp
  have hfe : f i = (jz : Int) - ji := by
    rw [hfi] at hx1
    have a1 : (ji : Int) < 2 ^ 18 := by exact_mod_cast lt_of_lt_of_le hji hle
    have a2 : (jz : Int) < 2 ^ 18 := by exact_mod_cast lt_of_lt_of_le hjz hle
    obtain ⟨b1, b2⟩ := hs
    exact int_eq_of_cast hx1 (by norm_num at *; linarith) (by norm_num at *; linarith)
  simp only [Node.eval]
  rw [hx2, ← hfe]
  refine ⟨rfl, ?_⟩
  obtain ⟨b1, b2⟩ := hs
  exact ⟨le_trans (by norm_num) (le_max_right _ _), max_lt b2 (by norm_num)⟩


theorem pool_sound [Fact p.Prime] (H : StepHyp m l env pub st ps rs b st' vs ps' rs') (hop : l.op = .maxPool)
    (hp : 2 ^ 100 < p) (hbits : ∃ b, l.nBits = some b ∧ deltaNv b m.exponent ≤ 18) : Inv env st' ps' rs' := by
  obtain ⟨inv, hb, hv, hr, hpub, hok, hold, small⟩ := H
  obtain ⟨bits, hbits, h18⟩ := hbits
  simp only [step, hop, poolStep, bind_ok, need_ok, hbits] at hb
  simp only [pubStep, hop, bind_ok, need_ok] at hv
  simp only [refStep, hop, bind_ok, need_ok] at hr
  obtain ⟨x, hx, inp, hinp, d, hd, ⟨node, nv⟩, hn, hb⟩ := hb
  obtain ⟨x', hx', inp', hinp', d', hd', hv⟩ := hv
  rw [hx] at hx'
  obtain rfl := Option.some.inj hx'
  rw [inv.play, hinp] at hinp'
  obtain rfl := Option.some.inj hinp'
  rw [hd] at hd'
  obtain rfl := Except.ok.inj hd'
  obtain ⟨x', hx', inp', hinp', d', hd', ⟨nv', f⟩, hf, hr⟩ := hr
  rw [hx] at hx'
  obtain rfl := Option.some.inj hx'
  rw [inv.lay, hinp] at hinp'
  obtain rfl := Option.some.inj hinp'
  rw [hd] at hd'
  obtain rfl := Except.ok.inj hd'
  dsimp only at hb hv hr
  split_ifs at hr with h3
  simp only [Except.ok.injEq, Prod.mk.injEq] at hb hv hr
  obtain ⟨rfl, rfl⟩ := hb
  obtain ⟨rfl, rfl⟩ := hv
  subst hr
  obtain ⟨rfl, hval⟩ := inv.node_of_val hf hn
  have hdims := poolDims_dims hd
  obtain ⟨hdc, hph, hpw, hH, hW⟩ := hdims
  rw [nextPow2_eq]
  refine inv.set l.outputs _ _ _ _ _ _ (by rw [inv.play]) (by rw [inv.lay]) ?_
  intro i hi
  set nv2 := numVars (d.outH * d.outW * d.c) with hnv2
  have hj : ∀ a < d.ph * d.pw, ∃ j : Nat, j < 2 ^ deltaNv bits m.exponent ∧ env (.d l.name a) i = (j : ZMod p) := by
    intro a ha
    exact hold.2 ⟨.d l.name a, .shred (.d l.name a), deltaNv bits m.exponent, nv2⟩
      (List.mem_map.2 ⟨a, List.mem_range.2 ha, rfl⟩) i hi
  have hE : ∀ a < d.ph * d.pw, env (.max l.name) i -
      (Node.gate node (poolWiring d inp (a / d.pw) (a % d.pw))).eval env i - env (.d l.name a) i = 0 := by
    intro a ha
    exact hold.1 _ (List.mem_append_left _ (List.mem_map.2 ⟨a, List.mem_range.2 ha, rfl⟩)) i hi
  have hP := hold.1 _ (List.mem_append_right _ List.mem_cons_self) i hi
  simp only [Expr.eval, List.map_map, Function.comp_def, Node.eval] at hP
  have hle : (2 : Nat) ^ deltaNv bits m.exponent ≤ 2 ^ 18 := Nat.pow_le_pow_right (by norm_num) h18
  choose! j hj1 hj2 using hj
  have hprod : ((List.range (d.ph * d.pw)).map fun a => (j a : ZMod p)).prod = 0 := by
    rw [← hP]
    congr 1
    apply List.map_congr_left
    intro a ha
    exact (hj2 a (List.mem_range.1 ha)).symm
  have hpos : 0 < d.ph * d.pw := Nat.mul_pos hph hpw
  by_cases hrow : i < d.outH * d.outW * d.c
  · have hc0 : 0 < d.c := by
      rcases Nat.eq_zero_or_pos d.c with h | h
      · simp [h] at hrow
      · exact h
    have hpos2 : i / d.c < d.outH * d.outW := (Nat.div_lt_iff_lt_mul hc0).2 hrow
    have hoW : 0 < d.outW := by
      rcases Nat.eq_zero_or_pos d.outW with h | h
      · simp [h] at hpos2
      · exact h
    have hidx : ∀ a < d.ph * d.pw, inp.index (i % d.c) (i / d.c / d.outW * d.sh + a / d.pw)
        (i / d.c % d.outW * d.sw + a % d.pw) < 2 ^ nv := by
      intro a ha
      exact h3 _ (by rw [← hdc]; exact Nat.mod_lt _ hc0) _
        (hH _ ((Nat.div_lt_iff_lt_mul hoW).2 hpos2) _ ((Nat.div_lt_iff_lt_mul hpw).2 ha)) _
        (hW _ (Nat.mod_lt _ hoW) _ (Nat.mod_lt _ hpw))
    have := pool_forced (m := env (.max l.name) i) (j := j) hp
      (xs := window d (imageOf inp f) (i % d.c) (i / d.c / d.outW) (i / d.c % d.outW))
      (by rw [← List.length_pos_iff]; simpa [window] using ⟨hph, hpw⟩)
      (by
        intro x hx
        simp only [window, List.mem_map, List.mem_range] at hx
        obtain ⟨a, ha, rfl⟩ := hx
        exact (hval _ (hidx a ha)).2)
      (by
        intro a ha
        simp only [window, List.length_map, List.length_range] at ha
        exact lt_of_lt_of_le (hj1 a ha) hle)
      (by
        intro a ha
        simp only [window, List.length_map, List.length_range] at ha
        have := hE a ha
        rw [pool_value, if_pos hrow, (hval _ (hidx a ha)).1, hj2 a ha] at this
        simpa [window, ha, imageOf] using this)
      (by simpa [window] using hprod)
    simpa [Node.eval, hrow] using this
  · have := pool_forced (m := env (.max l.name) i) (j := j) hp (xs := List.replicate (d.ph * d.pw) 0)
      (by rw [← List.length_pos_iff]; simpa using ⟨hph, hpw⟩)
      (by
        intro x hx
        rw [List.eq_of_mem_replicate hx]
        exact ⟨by norm_num, by norm_num⟩)
      (by
        intro a ha
        simp only [List.length_replicate] at ha
        exact lt_of_lt_of_le (hj1 a ha) hle)
      (by
        intro a ha
        simp only [List.length_replicate] at ha
        have := hE a ha
        rw [pool_value, if_neg hrow, hj2 a ha] at this
        simpa [ha] using this)
      (by simpa using hprod)
    have hz : maxOf (List.replicate (d.ph * d.pw) 0) = 0 := by
      apply maxOf_eq
      · rw [List.mem_replicate]; exact ⟨by omega, rfl⟩
      · intro y hy; rw [List.eq_of_mem_replicate hy]
    rw [hz] at this
    simpa [Node.eval, hrow] using this

theorem bn_sound (H : StepHyp m l env pub st ps rs b st' vs ps' rs') (hop : l.op = .batchNorm)
    (hp : 2 ^ 100 < p) (he : m.exponent ≤ 18) (hα : m.alpha = 2 ^ m.exponent) : Inv env st' ps' rs' := by
  obtain ⟨inv, hb, hv, hr, hpub, hok, hold, small⟩ := H
  simp only [step, hop, bnStep, bind_ok, need_ok] at hb
  simp only [pubStep, hop, bind_ok, need_ok] at hv
  simp only [refStep, hop, bind_ok, need_ok] at hr
  obtain ⟨x, hx, ⟨node, nv⟩, hn, hb⟩ := hb
  obtain ⟨x', hx', mul, hmul, add, hadd, hv⟩ := hv
  rw [hx] at hx'
  obtain rfl := Option.some.inj hx'
  split_ifs at hv with h2
  simp only [bind_ok, need_ok] at hv
  obtain ⟨sz, hsz, fm, hfm, fa, hfa, hv⟩ := hv
  obtain ⟨x', hx', ⟨nv', f⟩, hf, mul', hmul', add', hadd', fm', hfm', fa', hfa', v, hv2, hr⟩ := hr
  rw [hx] at hx'
  obtain rfl := Option.some.inj hx'
  rw [hmul] at hmul'
  obtain rfl := Option.some.inj hmul'
  rw [hadd] at hadd'
  obtain rfl := Option.some.inj hadd'
  obtain ⟨rfl, hval⟩ := inv.node_of_val hf hn
  rw [inv.size, hn] at hsz
  simp only [Option.map_some, Option.some.injEq] at hsz
  subst hsz
  dsimp only at hfm' hfa' hv2
  rw [inv.lay, ← inv.play, hfm] at hfm'
  obtain rfl := Except.ok.inj hfm'
  rw [inv.lay, ← inv.play, hfa] at hfa'
  obtain rfl := Except.ok.inj hfa'
  simp only [Except.ok.injEq, Prod.mk.injEq] at hb hv hr
  obtain ⟨rfl, rfl⟩ := hb
  obtain ⟨rfl, rfl⟩ := hv
  subst hr
  have hm : ∀ i < 2 ^ nv, env (.mul l.name) i = (fm i : ZMod p) :=
    hok ⟨.mul l.name, nv, true⟩ (by simp) rfl _ (hpub _ List.mem_cons_self)
  have ha : ∀ i < 2 ^ nv, env (.addend l.name) i = (fa i : ZMod p) :=
    hok ⟨.addend l.name, nv, true⟩ (by simp) rfl _ (hpub _ (List.mem_cons_of_mem _ List.mem_cons_self))
  have hq : ∀ i < 2 ^ nv, Small (env (.q l.name) i) := small ⟨.q l.name, nv, false⟩ (by simp) _ rfl
  have hres := rescale_block m l hp he hα env _ _ nv _ (fun i => f i * fm i) fa v
    (by
      intro i hi
      simp only [Expr.eval, List.map_cons, List.map_nil, List.prod_cons, List.prod_nil, mul_one, Node.eval]
      rw [(hval i hi).1, hm i hi]; push_cast; rfl)
    (by intro i hi; rw [Expr.eval, Node.eval, ha i hi]) hold hq hv2
  obtain ⟨v1, v2⟩ := v
  obtain ⟨rfl, hres⟩ := hres
  rw [nextPow2_two_pow]
  exact inv.set l.outputs _ _ _ _ _ _ (by rw [inv.play]) (by rw [inv.lay]) hres

theorem shape_sound (H : StepHyp m l env pub st ps rs b st' vs ps' rs')
    (hop : l.op = .cast ∨ l.op = .reshape ∨ l.op = .flatten ∨ l.op = .squeeze ∨ l.op = .unsqueeze) :
    Inv env st' ps' rs' := by
  obtain ⟨inv, hb, hv, hr, hpub, hok, hold, small⟩ := H
  have hb' : shapeStep l st = .ok (b, st') := by
    rcases hop with h | h | h | h | h <;> simpa only [step, h] using hb
  have hv' : (do
      let x ← need l.inputs[0]? "no input"
      let sz ← need (ps.size x) "input not found in tensor_sizes"
      .ok ([], ⟨setAll ps.size l.outputs sz, setOpt ps.layout l.outputs (ps.layout x)⟩) :
        R (List (SName × Vec) × PSt)) = .ok (vs, ps') := by
    rcases hop with h | h | h | h | h <;> simpa only [pubStep, h] using hv
  have hr' : (do
      let x ← need l.inputs[0]? "no input"
      let v ← need (rs.val x) "not computed"
      .ok ⟨setAll rs.val l.outputs v, setOpt rs.layout l.outputs (rs.layout x)⟩ : R RSt) = .ok rs' := by
    rcases hop with h | h | h | h | h <;> simpa only [refStep, h] using hr
  simp only [shapeStep, bind_ok, need_ok] at hb'
  simp only [bind_ok, need_ok] at hv' hr'
  obtain ⟨x, hx, ⟨node, nv⟩, hn, hb⟩ := hb'
  obtain ⟨x', hx', sz, hsz, hv⟩ := hv'
  rw [hx] at hx'
  obtain rfl := Option.some.inj hx'
  obtain ⟨x', hx', ⟨nv', f⟩, hf, hr⟩ := hr'
  rw [hx] at hx'
  obtain rfl := Option.some.inj hx'
  simp only [Except.ok.injEq, Prod.mk.injEq] at hb hv hr
  obtain ⟨rfl, rfl⟩ := hb
  obtain ⟨rfl, rfl⟩ := hv
  subst hr
  obtain ⟨rfl, hval⟩ := inv.node_of_val hf hn
  rw [inv.size, hn] at hsz
  simp only [Option.map_some, Option.some.injEq] at hsz
  subst hsz
  exact inv.set l.outputs _ _ _ _ _ _ (by rw [inv.play]) (by rw [inv.lay]) hval

/-- An operand of an addition. -/
theorem operand_sound (inv : Inv env st ps rs) {t : String} {n : Node} {nv : Nat} {sh : List Shred}
    {g : Nat → Int} {nv' sz : Nat} (ho : operand l st t = .ok (n, nv, sh)) (hr : operandVal l rs t = .ok (nv', g))
    (hs : ∀ w, ps.size t = none → l.weights t = some w →
      ∀ i < 2 ^ nv, env (.operand l.name t) i = ((w.data.getD i 0 : Int) : ZMod p))
    (hsz : (ps.size t).or ((l.weights t).map (·.data.length)) = some sz) :
    nv' = nv ∧ numVars sz = nv ∧ ∀ i < 2 ^ nv, n.eval env i = (g i : ZMod p) ∧ InI64 (g i) := by
  unfold operand at ho
  unfold operandVal at hr
  cases hn : st.node t with
  | some q =>
    obtain ⟨n0, nv0⟩ := q
    rw [hn] at ho
    simp only [Except.ok.injEq, Prod.mk.injEq] at ho
    obtain ⟨rfl, rfl, rfl⟩ := ho
    obtain ⟨f, hf, hval⟩ := inv.val t _ _ hn
    rw [hf] at hr
    simp only [Except.ok.injEq, Prod.mk.injEq] at hr
    obtain ⟨rfl, rfl⟩ := hr
    rw [inv.size, hn] at hsz
    simp only [Option.map_some, Option.some_or, Option.some.injEq] at hsz
    subst hsz
    exact ⟨rfl, numVars_two_pow _, hval⟩
  | none =>
    rw [hn] at ho
    rw [inv.none t hn] at hr
    simp only [bind_ok, need_ok] at ho hr
    obtain ⟨w, hw, ho⟩ := ho
    obtain ⟨w', hw', hr⟩ := hr
    rw [hw] at hw'
    obtain rfl := Option.some.inj hw'
    split_ifs at hr with h64
    simp only [Except.ok.injEq, Prod.mk.injEq] at ho hr
    obtain ⟨rfl, rfl, rfl⟩ := ho
    obtain ⟨rfl, rfl⟩ := hr
    have hps : ps.size t = none := by rw [inv.size, hn]; rfl
    rw [hps, hw] at hsz
    simp only [Option.map_some, Option.none_or, Option.some.injEq] at hsz
    subst hsz
    refine ⟨rfl, rfl, fun i hi => ⟨hs w hps hw i hi, ?_⟩⟩
    show InI64 (w.data.getD i 0)
    by_cases hlt : i < w.data.length
    · have : w.data.getD i 0 = w.data[i] := by simp [hlt]
      rw [this]; exact h64 _ (List.getElem_mem hlt)
    · have : w.data.getD i 0 = 0 := by simp [hlt]
      rw [this]; exact ⟨by norm_num, by norm_num⟩

theorem nextPow2_max {a b v : Nat} (ha : numVars a = v) (hb : numVars b = v) : nextPow2 (max a b) = 2 ^ v := by
  rcases max_choice a b with h | h <;> rw [h, nextPow2_eq]
  · rw [ha]
  · rw [hb]

theorem add_sound (H : StepHyp m l env pub st ps rs b st' vs ps' rs') (hop : l.op = .add ∨ l.op = .sub) :
    Inv env st' ps' rs' := by
  obtain ⟨inv, hb, hv, hr, hpub, hok, hold, small⟩ := H
  have hb' : addStep l st = .ok (b, st') := by
    rcases hop with h | h <;> simpa only [step, h] using hb
  have hv' : ∃ a b, l.inputs[0]? = some a ∧ l.inputs[1]? = some b ∧ ∃ sa sb,
      (ps.size a).or ((l.weights a).map (·.data.length)) = some sa ∧
      (ps.size b).or ((l.weights b).map (·.data.length)) = some sb ∧
      ps' = ⟨setAll ps.size l.outputs (nextPow2 (max sa sb)),
        setOpt ps.layout l.outputs ((ps.layout a).or (ps.layout b))⟩ ∧
      ∀ t, (t = a ∨ t = b) → ∀ w, ps.size t = none → l.weights t = some w →
        (SName.operand l.name t, ((nextPow2 (max sa sb), fun i => w.data.getD i 0) : Vec)) ∈ vs := by
    rcases hop with h | h <;>
    · simp only [pubStep, h, bind_ok, need_ok] at hv
      obtain ⟨a, ha, b, hb, sa, hsa, sb, hsb, hv⟩ := hv
      simp only [Except.ok.injEq, Prod.mk.injEq] at hv
      obtain ⟨rfl, rfl⟩ := hv
      refine ⟨a, b, ha, hb, sa, sb, hsa, hsb, rfl, ?_⟩
      rintro t (rfl | rfl) w h1 h2
      · apply List.mem_append_right; simp [h1, h2]
      · apply List.mem_append_left; simp [h1, h2]
  have hr' : (do
      let a ← need l.inputs[0]? "no first input"
      let b ← need l.inputs[1]? "no second input"
      let (va, fa) ← operandVal l rs a
      let (_, fb) ← operandVal l rs b
      let g := fun i => if l.op = .add then fa i + fb i else fa i - fb i
      if ∀ j < 2 ^ va, InI64 (g j) then
        .ok ⟨setAll rs.val l.outputs (va, g), setOpt rs.layout l.outputs ((rs.layout a).or (rs.layout b))⟩
      else .error "overflows i64" : R RSt) = .ok rs' := by
    rcases hop with h | h <;> simpa only [refStep, h] using hr
  simp only [addStep, bind_ok, need_ok] at hb'
  simp only [bind_ok, need_ok] at hr'
  obtain ⟨a, ha, b2, hb2, hb⟩ := hb'
  by_cases h1 : (st.node a).isNone ∧ (st.node b2).isNone
  · rw [if_pos h1] at hb; simp at hb
  rw [if_neg h1] at hb
  simp only [bind_ok] at hb
  obtain ⟨⟨na, va, sa⟩, hoa, ⟨nb, vb, sb⟩, hob, hb⟩ := hb
  dsimp only at hb
  have hvv : va = vb := by
    by_contra h; rw [if_pos h] at hb; simp at hb
  subst hvv
  rw [if_neg (by simp)] at hb
  obtain ⟨a', b', ha', hb2', za, zb, hza, hzb, rfl, hmem⟩ := hv'
  rw [ha] at ha'
  obtain rfl := Option.some.inj ha'
  rw [hb2] at hb2'
  obtain rfl := Option.some.inj hb2'
  obtain ⟨a', ha', b', hb2', ⟨ra, fa⟩, hra, ⟨rb, fb⟩, hrb, hr⟩ := hr'
  rw [ha] at ha'
  obtain rfl := Option.some.inj ha'
  rw [hb2] at hb2'
  obtain rfl := Option.some.inj hb2'
  simp only [Except.ok.injEq, Prod.mk.injEq] at hb
  obtain ⟨rfl, rfl⟩ := hb
  have hopd : ∀ t, (t = a ∨ t = b2) → ∀ w, ps.size t = none → l.weights t = some w →
      ∀ i < 2 ^ va, env (.operand l.name t) i = ((w.data.getD i 0 : Int) : ZMod p) := by
    intro t ht w h1 h2
    refine hok ⟨.operand l.name t, va, true⟩ ?_ rfl _ (hpub _ (hmem t ht w h1 h2))
    have hnt : st.node t = none := by
      rw [inv.size] at h1
      cases h : st.node t with
      | none => rfl
      | some q => rw [h] at h1; simp at h1
    rcases ht with rfl | rfl
    · simp only [operand, hnt, bind_ok, need_ok] at hoa
      obtain ⟨w', hw', hoa⟩ := hoa
      simp only [Except.ok.injEq, Prod.mk.injEq] at hoa
      obtain ⟨-, rfl, rfl⟩ := hoa
      simp
    · simp only [operand, hnt, bind_ok, need_ok] at hob
      obtain ⟨w', hw', hob⟩ := hob
      simp only [Except.ok.injEq, Prod.mk.injEq] at hob
      obtain ⟨-, hv, rfl⟩ := hob
      simp [hv]
  obtain ⟨e1, hna, hvala⟩ := operand_sound inv hoa hra (hopd a (Or.inl rfl)) hza
  obtain ⟨e2, hnb, hvalb⟩ := operand_sound inv hob hrb (hopd b2 (Or.inr rfl)) hzb
  rw [e1] at hr
  dsimp only at hr
  by_cases h64 : ∀ j < 2 ^ va, InI64 (if l.op = .add then fa j + fb j else fa j - fb j)
  swap
  · rw [if_neg h64] at hr; simp at hr
  rw [if_pos h64] at hr
  obtain rfl := Except.ok.inj hr
  rw [nextPow2_max hna hnb]
  refine inv.set l.outputs _ _ _ _ _ _ (by rw [inv.play]) (by rw [inv.lay]) ?_
  intro i hi
  refine ⟨?_, h64 i hi⟩
  have h := hold.1 _ (List.mem_singleton.2 rfl) i hi
  simp only [Expr.eval, Node.eval] at h ⊢
  by_cases ho : l.op = .add
  · simp only [ho, if_true, Expr.eval] at h ⊢
    rw [(hvala i hi).1, (hvalb i hi).1] at h
    push_cast; linear_combination -h
  · simp only [ho, if_false, Expr.eval] at h ⊢
    rw [(hvala i hi).1, (hvalb i hi).1] at h
    push_cast; linear_combination -h

/-- What the plan of range checks says about a layer. -/
def Planned (e : Nat) (l : Layer) : Prop :=
  ((l.op = .gemm ∨ l.op = .conv ∨ l.op = .batchNorm) → e ≤ 18) ∧
  ((l.op = .relu ∨ l.op = .maxPool) → ∃ b, l.nBits = some b ∧ deltaNv b e ≤ 18)

/-- One layer. -/
theorem step_sound [Fact p.Prime] (H : StepHyp m l env pub st ps rs b st' vs ps' rs') (hp : 2 ^ 100 < p)
    (hα : m.alpha = 2 ^ m.exponent) (hl : Planned m.exponent l) : Inv env st' ps' rs' := by
  obtain ⟨h1, h2⟩ := hl
  have hr := H.hr
  cases hop : l.op
  case gemm => exact gemm_sound H hop hp (h1 (Or.inl hop)) hα
  case conv => exact conv_sound H hop hp (h1 (Or.inr (Or.inl hop))) hα
  case batchNorm => exact bn_sound H hop hp (h1 (Or.inr (Or.inr hop))) hα
  case relu => exact relu_sound H hop hp (h2 (Or.inl hop))
  case maxPool => exact pool_sound H hop hp (h2 (Or.inr hop))
  case add => exact add_sound H (Or.inl hop)
  case sub => exact add_sound H (Or.inr hop)
  case cast => exact shape_sound H (Or.inl hop)
  case reshape => exact shape_sound H (Or.inr (Or.inl hop))
  case flatten => exact shape_sound H (Or.inr (Or.inr (Or.inl hop)))
  case squeeze => exact shape_sound H (Or.inr (Or.inr (Or.inr (Or.inl hop))))
  case unsqueeze => exact shape_sound H (Or.inr (Or.inr (Or.inr (Or.inr hop))))
  all_goals simp [refStep, hop] at hr

end

end JST.Remainder
