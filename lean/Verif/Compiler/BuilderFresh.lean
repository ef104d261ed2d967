import Verif.Compiler.BuilderInv

/-!
# New out variables
-/

namespace JST.Comp

open JST.Circ

variable {F : Type} [Field F] [DecidableEq F]

theorem newLinear_inj {j k : Nat} (h : newLinear (1 : F) j = newLinear 1 k) : j = k := by
  simpa [newLinear] using h

theorem newLinear_not_mem {P : Pool F} (h : PoolWF P) : newLinear 1 P.length ∉ P := by
  intro hm
  obtain ⟨j, hj⟩ := List.mem_iff_getElem?.1 hm
  have hlt := get?_lt hj
  rcases Nat.eq_zero_or_pos j with rfl | h0
  · rw [h.head] at hj
    simp [newLinear] at hj
  · obtain ⟨-, he | he⟩ := h.entry j _ h0 hj
    · have := newLinear_inj he; omega
    · have := he ⟨1, .lin P.length⟩ (by simp [newLinear])
      simp only [VarSpec.Below] at this
      omega

/-- The expressions of `n` new variables. -/
def fresh (L n : Nat) : List (Expr F) := (List.range n).map fun i => newLinear 1 (L + i)

theorem fresh_succ (L n : Nat) :
    (fresh L (n + 1) : List (Expr F)) = newLinear 1 L :: fresh (L + 1) n := by
  simp only [fresh, List.range_succ_eq_map, List.map_cons, List.map_map, Nat.add_zero]
  congr 1
  apply List.map_congr_left
  intro i _
  simp only [Function.comp, Nat.succ_eq_add_one]
  rw [show L + (i + 1) = L + 1 + i by omega]

theorem fresh_length (L n : Nat) : (fresh L n : List (Expr F)).length = n := by simp [fresh]

theorem fresh_get {L n i : Nat} (h : i < n) :
    (fresh L n : List (Expr F))[i]? = some (newLinear 1 (L + i)) := by
  simp [fresh, h]

theorem newVars_ok (n : Nat) (b : B F) (h : PoolWF b.pool) :
    newVars n b = .ok { b with pool := b.pool ++ fresh b.pool.length n,
                               exprs := b.exprs ++ fresh b.pool.length n } ∧
      PoolWF (b.pool ++ fresh b.pool.length n) := by
  induction n generalizing b with
  | zero => simp [newVars, fresh, h]
  | succ n ih =>
      have hnm := newLinear_not_mem h
      have hw : PoolWF (b.pool ++ [newLinear 1 b.pool.length]) :=
        h.push (by simp [newLinear]) hnm (Or.inl rfl)
      rw [newVars]
      simp only [Pool.add, if_neg hnm, if_true]
      obtain ⟨h1, h2⟩ := ih ⟨b.cons, b.exprs ++ [newLinear 1 b.pool.length],
        b.pool ++ [newLinear 1 b.pool.length], b.midToOut, b.exprToOut, b.inToOut, b.insns,
        b.clash⟩ hw
      rw [h1]
      simp only [List.length_append, List.length_singleton] at h2 ⊢
      rw [fresh_succ]
      simp only [List.append_assoc, List.singleton_append] at h2 ⊢
      exact ⟨trivial, h2⟩

theorem toSingleStripped_fresh {P : Pool F} (h : PoolWF P) {j : Nat}
    (hj : P[j]? = some (newLinear 1 j)) :
    toSingleStripped P (newLinear 1 j) = some ((j, 1, 0), P) := by
  have hlt := get?_lt hj
  have hmem : (newLinear 1 j : Expr F) ∈ P := List.mem_of_getElem? hj
  have hidx : P.idxOf (newLinear 1 j) = j := by
    have h1 : P.idxOf (newLinear 1 j) < P.length := List.idxOf_lt_length_iff.2 hmem
    have h2 : P[P.idxOf (newLinear 1 j)]? = some (newLinear 1 j) := List.getElem?_idxOf hmem
    exact (List.getElem?_inj h1 h.nodup).1 (h2.trans hj.symm)
  have hs : stripConstants (newLinear (1 : F) j) = some (newLinear 1 j, 1, 0) := by
    simp [stripConstants, newLinear, invOrPanic, fromTermsSorted, strictly, constPart,
      VarSpec.isNormalized]
  unfold toSingleStripped
  rw [hs]
  simp only [Option.bind_eq_bind, Option.bind_some]
  rw [if_neg (by simp [degree, newLinear, VarSpec.isQuad, VarSpec.isLin])]
  simp [Pool.add, hmem, hidx]

theorem fixOne_fresh {b : B F} (n id : Nat) {j : Nat} (h : PoolWF b.pool)
    (he : b.exprs[id]? = some (newLinear 1 j)) (h1 : 1 ≤ j)
    (hj : b.pool[j]? = some (newLinear 1 j))
    (hm : (padTo b.pool.length b.midToOut)[j]? = some none) :
    fixOne n id b = .ok { b with
      exprToOut := (newLinear 1 j, id) :: b.exprToOut,
      midToOut := (padTo b.pool.length b.midToOut).set j (some (id, 1, 0)) } := by
  unfold fixOne
  rw [he]
  simp only [orPanic, bind, Except.bind, toSingleStripped_fresh h hj]
  rw [if_neg (by omega)]
  simp only [hm, invOrPanic, if_neg one_ne_zero, inv_one, mul_zero]

theorem padTo_self {n : Nat} {l : List (Option (Nat × F × F))} (h : n ≤ l.length) :
    padTo n l = l := by
  simp [padTo, show n - l.length = 0 by omega]

/-- `fix_mid_to_out` on a list of new variables. -/
theorem fixLoop_fresh (n : Nat) (f : Nat → Nat) (ids : List Nat) (b : B F) (h : PoolWF b.pool)
    (hid : ∀ id ∈ ids, b.exprs[id]? = some (newLinear 1 (f id)) ∧ 1 ≤ f id ∧
      b.pool[f id]? = some (newLinear 1 (f id)) ∧
      (padTo b.pool.length b.midToOut)[f id]? = some none)
    (hnd : (ids.map f).Nodup) (hlen : b.midToOut.length ≤ b.pool.length) :
    ∃ mto eto, fixLoop n ids b = .ok { b with midToOut := mto, exprToOut := eto } ∧
      mto.length ≤ b.pool.length ∧
      (∀ (j x : Nat) (k c : F), mto[j]? = some (some (x, k, c)) →
        b.midToOut[j]? = some (some (x, k, c)) ∨ (x ∈ ids ∧ f x = j ∧ k = 1 ∧ c = 0)) ∧
      (∀ (e : Expr F) (v : Nat), lookup e eto = some v →
        lookup e b.exprToOut = some v ∨ (v ∈ ids ∧ b.exprs[v]? = some e)) ∧
      (∀ (e : Expr F) (v : Nat), lookup e b.exprToOut = some v → ∃ v', lookup e eto = some v') ∧
      (∀ id ∈ ids, ∃ v, lookup (newLinear 1 (f id)) eto = some v) := by
  induction ids generalizing b with
  | nil =>
      exact ⟨b.midToOut, b.exprToOut, rfl, hlen, fun _ _ _ _ h => Or.inl h,
        fun _ _ h => Or.inl h, fun _ v h => ⟨v, h⟩, by simp⟩
  | cons id ids ih =>
      obtain ⟨he, h1, hj, hm⟩ := hid id (by simp)
      simp only [List.map_cons, List.nodup_cons, List.mem_map, not_exists, not_and] at hnd
      have hpl := padTo_length hlen
      have hl' : ((padTo b.pool.length b.midToOut).set (f id) (some (id, 1, 0))).length =
          b.pool.length := by rw [List.length_set, hpl]
      set b1 : B F := ⟨b.cons, b.exprs, b.pool,
        (padTo b.pool.length b.midToOut).set (f id) (some (id, 1, 0)),
        (newLinear 1 (f id), id) :: b.exprToOut, b.inToOut, b.insns, b.clash⟩ with hb1
      obtain ⟨mto, eto, hf, h2, h3, h4, h5, h6⟩ := ih b1 h (by
        intro x hx
        obtain ⟨g1, g2, g3, g4⟩ := hid x (by simp [hx])
        refine ⟨g1, g2, g3, ?_⟩
        rw [show b1.pool = b.pool from rfl, show b1.midToOut =
          (padTo b.pool.length b.midToOut).set (f id) (some (id, 1, 0)) from rfl,
          padTo_self (by omega), List.getElem?_set_ne (fun hh => hnd.1 x hx hh.symm)]
        exact g4) hnd.2 (by rw [show b1.midToOut =
          (padTo b.pool.length b.midToOut).set (f id) (some (id, 1, 0)) from rfl, hl'])
      refine ⟨mto, eto, ?_, h2, ?_, ?_, ?_, ?_⟩
      · rw [fixLoop, fixOne_fresh n id h he h1 hj hm]
        exact hf
      · intro j x k c hjx
        rcases h3 j x k c hjx with hh | ⟨g1, g2⟩
        · change ((padTo b.pool.length b.midToOut).set (f id) (some (id, 1, 0)))[j]? = _ at hh
          rw [List.getElem?_set] at hh
          split_ifs at hh with hji hlt
          · simp only [Option.some.injEq, Prod.mk.injEq] at hh
            obtain ⟨rfl, rfl, rfl⟩ := hh
            exact Or.inr ⟨by simp, hji, rfl, rfl⟩
          · exact Or.inl (padTo_some hh)
        · exact Or.inr ⟨by simp [g1], g2⟩
      · intro e v hv
        rcases h4 e v hv with hh | ⟨g1, g2⟩
        · change lookup e ((newLinear 1 (f id), id) :: b.exprToOut) = some v at hh
          rw [lookup] at hh
          split_ifs at hh with hee
          · cases hh
            exact Or.inr ⟨by simp, hee ▸ he⟩
          · exact Or.inl hh
        · exact Or.inr ⟨by simp [g1], g2⟩
      · intro e v hv
        by_cases hee : newLinear 1 (f id) = e
        · exact h5 e id (by
            show lookup e ((newLinear 1 (f id), id) :: b.exprToOut) = _
            rw [lookup, if_pos hee])
        · exact h5 e v (by
            show lookup e ((newLinear 1 (f id), id) :: b.exprToOut) = _
            rw [lookup, if_neg hee]; exact hv)
      · intro x hx
        rcases List.mem_cons.1 hx with rfl | hx
        · exact h5 _ x (by
            show lookup _ ((newLinear 1 (f x), x) :: b.exprToOut) = _
            rw [lookup, if_pos rfl])
        · exact h6 x hx

/-- The numbers of the last `n` of `k + n` variables, the last one first. -/
def lastIds (k n : Nat) : List Nat := (List.range n).map fun i => k + n - (i + 1)

theorem mem_lastIds {k n x : Nat} : x ∈ lastIds k n ↔ k ≤ x ∧ x < k + n := by
  simp only [lastIds, List.mem_map, List.mem_range]
  constructor
  · rintro ⟨i, hi, rfl⟩; omega
  · rintro ⟨h1, h2⟩; exact ⟨k + n - (x + 1), by omega, by omega⟩

theorem lastIds_nodup (k n : Nat) : (lastIds k n).Nodup := by
  refine List.Nodup.map_on ?_ List.nodup_range
  intro i hi j hj hij
  simp only [List.mem_range] at hi hj
  omega

/-- `add_out_vars` on a builder whose pool may have grown. -/
theorem addOutVars_ok (n : Nat) (b : B F) (h : PoolWF b.pool)
    (hlen : b.midToOut.length ≤ b.pool.length) :
    ∃ mto eto, addOutVars n b = .ok { b with
        pool := b.pool ++ fresh b.pool.length n,
        exprs := b.exprs ++ fresh b.pool.length n, midToOut := mto, exprToOut := eto } ∧
      PoolWF (b.pool ++ fresh b.pool.length n) ∧
      mto.length ≤ (b.pool ++ fresh b.pool.length n).length ∧
      (∀ (j x : Nat) (k c : F), mto[j]? = some (some (x, k, c)) →
        b.midToOut[j]? = some (some (x, k, c)) ∨
          (b.exprs.length ≤ x ∧ x < b.exprs.length + n ∧
            b.pool.length + (x - b.exprs.length) = j ∧ k = 1 ∧ c = 0)) ∧
      (∀ (e : Expr F) (v : Nat), lookup e eto = some v →
        lookup e b.exprToOut = some v ∨ (b.exprs.length ≤ v ∧
          (b.exprs ++ fresh b.pool.length n)[v]? = some e)) ∧
      (∀ (e : Expr F) (v : Nat), lookup e b.exprToOut = some v → ∃ v', lookup e eto = some v') ∧
      (∀ i, i < n → ∃ v, lookup (newLinear 1 (b.pool.length + i)) eto = some v) := by
  obtain ⟨hnv, hPw⟩ := newVars_ok n b h
  set L := b.pool.length with hL
  set f : Nat → Nat := fun id => L + (id - b.exprs.length) with hf
  have hlfr : (fresh L n : List (Expr F)).length = n := fresh_length _ _
  have hids : ((List.range n).map fun i => (b.exprs ++ fresh L n).length - (i + 1)) =
      lastIds b.exprs.length n := by
    rw [List.length_append, hlfr]; rfl
  have hL1 : 1 ≤ L := h.length_pos
  obtain ⟨mto, eto, g1, g2, g3, g4, g5, g6⟩ := fixLoop_fresh n f (lastIds b.exprs.length n)
    ({ b with pool := b.pool ++ fresh L n, exprs := b.exprs ++ fresh L n }) hPw (by
      intro id hid
      rw [mem_lastIds] at hid
      have hget : (fresh L n : List (Expr F))[id - b.exprs.length]? = some (newLinear 1 (f id)) :=
        fresh_get (by omega)
      refine ⟨?_, by simp only [hf]; omega, ?_, ?_⟩
      · show (b.exprs ++ fresh L n)[id]? = _
        rw [List.getElem?_append_right hid.1, hget]
      · show (b.pool ++ fresh L n)[f id]? = _
        rw [List.getElem?_append_right (by simp only [hf]; omega)]
        rw [show f id - b.pool.length = id - b.exprs.length by simp only [hf]; omega]
        exact hget
      · show (padTo (b.pool ++ fresh L n).length b.midToOut)[f id]? = some none
        unfold padTo
        rw [List.getElem?_append_right (by simp only [hf]; omega), List.getElem?_replicate,
          if_pos]
        rw [List.length_append, hlfr]
        simp only [hf]
        omega) (by
      refine List.Nodup.map_on ?_ (lastIds_nodup _ _)
      intro x hx y hy hxy
      rw [mem_lastIds] at hx hy
      simp only [hf] at hxy
      omega) (by
      show b.midToOut.length ≤ (b.pool ++ fresh L n).length
      rw [List.length_append]; omega)
  refine ⟨mto, eto, ?_, hPw, g2, ?_, ?_, g5, ?_⟩
  · unfold addOutVars
    rw [hnv]
    simp only [bind, Except.bind]
    unfold fixMidToOut
    rw [hids, g1]
  · intro j x k c hj
    rcases g3 j x k c hj with hh | ⟨k1, k2, k3, k4⟩
    · exact Or.inl hh
    · rw [mem_lastIds] at k1
      exact Or.inr ⟨k1.1, k1.2, k2, k3, k4⟩
  · intro e v hv
    rcases g4 e v hv with hh | ⟨k1, k2⟩
    · exact Or.inl hh
    · rw [mem_lastIds] at k1
      exact Or.inr ⟨k1.1, k2⟩
  · intro i hi
    have := g6 (b.exprs.length + i) (by rw [mem_lastIds]; omega)
    simpa only [hf, Nat.add_sub_cancel_left] using this

/-- New variables keep the invariant; `N'` and `ins` are the new number of inputs and the new
instructions. -/
theorem fresh_inv {N N' n : Nat} {b : B F} (h : Inv N b) {ins : List (OInsn F)} {P : Pool F}
    (hP : b.pool <+: P) (hPw : PoolWF P)
    (hlen : b.exprs.length + n = N' + 1 + sumOut ins)
    (hcons : ∀ env a, OInsn.HoldAll env a (N' + 1) ins → Cons env N a b)
    (hloc : ∀ env a a', (∀ i, i < b.exprs.length + n → a i = a' i) →
      OInsn.HoldAll env a (N' + 1) ins → OInsn.HoldAll env a' (N' + 1) ins) :
    ∃ b', addOutVars n { b with insns := ins, pool := P } = .ok b' ∧ Inv N' b' ∧
      b.exprs <+: b'.exprs ∧ b'.exprs.length = b.exprs.length + n ∧ b'.inToOut = b.inToOut ∧
      b'.cons = b.cons ∧ b'.clash = b.clash ∧ b'.insns = ins := by
  have hw := h.wf
  have hlen1 : 1 ≤ b.exprs.length := by have := hw.len; omega
  have hPl := hP.length_le
  obtain ⟨mto, eto, h1, h2, h3, h4, h5, h6, h7⟩ := addOutVars_ok n
    ({ b with insns := ins, pool := P }) hPw (hw.mto.trans hPl)
  dsimp only at h1 h2 h3 h4 h5 h6 h7
  set L := P.length with hL
  have hlfr : (fresh L n : List (Expr F)).length = n := fresh_length _ _
  have hpre : b.exprs <+: b.exprs ++ fresh L n := List.prefix_append _ _
  have hnew : ∀ (x : Nat) (d : Expr F), (b.exprs ++ fresh L n)[x]? = some d →
      b.exprs[x]? = some d ∨ (b.exprs.length ≤ x ∧ x < b.exprs.length + n ∧
        d = newLinear 1 (L + (x - b.exprs.length))) := by
    intro x d hd
    rcases get?_append hd with hd | ⟨g1, g2⟩
    · exact Or.inl hd
    · have hlt := get?_lt g2
      rw [hlfr] at hlt
      rw [fresh_get hlt] at g2
      exact Or.inr ⟨g1, by omega, (Option.some.inj g2).symm⟩
  have hokc : ∀ env a, OInsn.HoldAll env a (N' + 1) ins →
      (∀ (e : Expr F) (i : Nat), lookup e b.cons = some .asserted → 1 ≤ i →
        (b.exprs ++ fresh L n)[i]? = some e → a i = 0) → b.clash = false → OK env N a b :=
    fun env a g1 g2 g3 => ⟨hcons env a g1,
      fun e i k1 k2 k3 => g2 e i k1 k2 (get?_prefix hpre k3), g3⟩
  refine ⟨_, h1, ⟨⟨h2, get?_prefix hpre hw.zero, ?_, ?_, h3, ?_, ?_, ?_, ?_⟩, ?_, ?_, ?_⟩, hpre, ?_,
    rfl, rfl, rfl, rfl⟩
  · intro d hd
    dsimp only at hd ⊢
    rcases List.mem_append.1 hd with hd | hd
    · exact (hw.wf d hd).mono (by rw [List.length_append]; omega)
    · simp only [fresh, List.mem_map, List.mem_range] at hd
      obtain ⟨i, hi, rfl⟩ := hd
      exact wf_newLinear (by have := hPw.length_pos; omega) (by
        rw [List.length_append, hlfr]; omega) one_ne_zero
  · show (b.exprs ++ fresh L n).length = _
    rw [List.length_append, hlfr, hlen]
  · intro j x k c hj
    show 1 ≤ x ∧ x < (b.exprs ++ fresh L n).length
    rw [List.length_append, hlfr]
    rcases h4 j x k c hj with hj | ⟨g1, g2, -⟩
    · have := hw.mtoRef j x k c hj; omega
    · omega
  · intro x d hx hd
    rcases hnew x d hd with hd | ⟨g1, g2, rfl⟩
    · obtain ⟨v, hv⟩ := hw.e2o x d hx hd
      exact h6 d v hv
    · exact h7 _ (by omega)
  · intro d v hd
    rcases h5 d v hd with hd | ⟨g1, g2⟩
    · obtain ⟨k1, k2⟩ := hw.e2oRef d v hd
      exact ⟨k1, get?_prefix hpre k2⟩
    · exact ⟨by omega, g2⟩
  · intro d s hd
    obtain ⟨x, hx, hd⟩ := hw.cons d s hd
    exact ⟨x, hx, get?_prefix hpre hd⟩
  · intro env a a' hag hc
    refine hloc env a a' (fun i hi => hag i ?_) hc
    show i < (b.exprs ++ fresh L n).length
    rw [List.length_append, hlfr]; exact hi
  · intro env a hc
    obtain ⟨m0, hm0, hv0, ht0⟩ := h.val env a (hcons env a hc)
    have hne : b.pool ≠ [] := by
      have := hw.pool.length_pos; intro h0; rw [h0] at this; simp at this
    obtain ⟨q, hq⟩ := hP
    have hfull : P ++ fresh L n = b.pool ++ (q ++ fresh L n) := by rw [← hq, List.append_assoc]
    obtain ⟨m, hm, hagree, hg⟩ := extend_pool hne (q ++ fresh L n) (hfull ▸ h2) hm0
      (fun j => a (b.exprs.length + (j - L)))
    rw [← hfull] at hm hg
    have hfreshv : ∀ i, i < n → m (L + i) = a (b.exprs.length + i) := by
      intro i hi
      rw [hg (L + i) (by omega) (by
        rw [List.getElem?_append_right (by omega), Nat.add_sub_cancel_left]
        exact fresh_get hi)]
      rw [Nat.add_sub_cancel_left]
    refine ⟨m, hm, ?_, ?_⟩
    · intro x d hx hd
      rcases hnew x d hd with hd | ⟨g1, g2, rfl⟩
      · rw [hv0 x d hx hd]
        exact Expr.eval_congr (L := b.pool.length) (fun y hy => (hagree y hy).symm)
          (hw.wf d (List.mem_of_getElem? hd)).below
      · rw [Expr.eval_newLinear, one_mul, hfreshv _ (by omega)]
        congr 1; omega
    · intro j x k c hj
      rcases h4 j x k c hj with hj | ⟨g1, g2, rfl, rfl, rfl⟩
      · rw [hagree j (lt_of_lt_of_le (get?_lt hj) hw.mto)]
        exact ht0 j x k c hj
      · rw [hfreshv _ (by omega), one_mul, add_zero]
        congr 1; omega
  · intro env a hok d hd
    obtain ⟨x, hx, hd, hz⟩ := h.marked env a (hokc env a hok.1 hok.2.1 hok.2.2) d hd
    exact ⟨x, hx, get?_prefix hpre hd, hz⟩
  · show (b.exprs ++ fresh L n).length = _
    rw [List.length_append, hlfr]

/-- An instruction whose outputs are new variables. -/
theorem push_fresh {N : Nat} {b : B F} (h : Inv N b) {i : OInsn F} {P : Pool F}
    (hP : b.pool <+: P) (hPw : PoolWF P)
    (hloc : ∀ (env : Env F) (a a' : Nat → F), (∀ x, x < b.exprs.length + i.numOut → a x = a' x) →
      i.Holds env a b.exprs.length → i.Holds env a' b.exprs.length) :
    ∃ b', addOutVars i.numOut { b with insns := b.insns ++ [i], pool := P } = .ok b' ∧
      Pushed N b i b' := by
  have hcons : ∀ (env : Env F) (a : Nat → F), OInsn.HoldAll env a (N + 1) (b.insns ++ [i]) ↔
      Cons env N a b ∧ i.Holds env a b.exprs.length := by
    intro env a
    rw [holdAll_append, OInsn.HoldAll, OInsn.HoldAll, ← h.wf.len, and_true]
    exact Iff.rfl
  obtain ⟨b', h1, h2, h3, h4, h5, h6, h7, h8⟩ := fresh_inv (N' := N) (n := i.numOut)
    (ins := b.insns ++ [i]) h hP hPw (by
      rw [sumOut_append, sumOut_single, h.wf.len]; omega)
    (fun env a hc => ((hcons env a).1 hc).1)
    (fun env a a' hag hc => by
      rw [hcons] at hc ⊢
      exact ⟨h.loc env a a' (fun x hx => hag x (by omega)) hc.1, hloc env a a' hag hc.2⟩)
  refine ⟨b', h1, ⟨h2, h3, h4, h5, h6, h7, fun env a => ?_⟩⟩
  unfold Cons
  rw [h8]
  exact hcons env a

end JST.Comp
