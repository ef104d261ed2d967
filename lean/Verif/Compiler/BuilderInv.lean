import Verif.Compiler.PoolProofs
import Verif.Compiler.Builder
import Mathlib.Data.List.Induction

/-!
# The builder's invariant
-/

namespace JST.Comp

open JST.Circ

variable {F : Type} [Field F] [DecidableEq F]

theorem get?_lt {α : Type} {l : List α} {i : Nat} {x : α} (h : l[i]? = some x) : i < l.length := by
  by_contra hlt
  rw [List.getElem?_eq_none (by omega)] at h
  cases h

theorem get?_prefix {α : Type} {l l' : List α} (hp : l <+: l') {i : Nat} {x : α}
    (h : l[i]? = some x) : l'[i]? = some x := by
  obtain ⟨q, rfl⟩ := hp
  rw [List.getElem?_append_left (get?_lt h)]; exact h

theorem get?_snoc {α : Type} {l : List α} {i : Nat} {x y : α} (h : (l ++ [y])[i]? = some x) :
    l[i]? = some x ∨ (i = l.length ∧ x = y) := by
  by_cases hlt : i < l.length
  · left; rwa [List.getElem?_append_left hlt] at h
  · right
    have hl := get?_lt h
    rw [List.length_append, List.length_singleton] at hl
    have hi : i = l.length := by omega
    subst hi
    simp only [List.getElem?_concat_length, Option.some.injEq] at h
    exact ⟨rfl, h.symm⟩

theorem get?_append {α : Type} {l r : List α} {i : Nat} {x : α} (h : (l ++ r)[i]? = some x) :
    l[i]? = some x ∨ (l.length ≤ i ∧ r[i - l.length]? = some x) := by
  by_cases hlt : i < l.length
  · left; rwa [List.getElem?_append_left hlt] at h
  · right
    rw [List.getElem?_append_right (by omega)] at h
    exact ⟨by omega, h⟩

/-! ## Satisfaction of a list of instructions -/

def sumOut (l : List (OInsn F)) : Nat := (l.map OInsn.numOut).sum

theorem holdAll_append (env : Env F) (a : Nat → F) (l r : List (OInsn F)) (n : Nat) :
    OInsn.HoldAll env a n (l ++ r) ↔
      OInsn.HoldAll env a n l ∧ OInsn.HoldAll env a (n + sumOut l) r := by
  induction l generalizing n with
  | nil => simp [OInsn.HoldAll, sumOut]
  | cons i l ih =>
      rw [List.cons_append, OInsn.HoldAll, OInsn.HoldAll, ih, and_assoc]
      have : n + i.numOut + sumOut l = n + sumOut (i :: l) := by
        simp [sumOut]; omega
      rw [this]

theorem sumOut_append (l r : List (OInsn F)) : sumOut (l ++ r) = sumOut l + sumOut r := by
  simp [sumOut]

theorem sumOut_single (i : OInsn F) : sumOut [i] = i.numOut := by simp [sumOut]

/-! ## The invariant -/

/-- Facts about the builder which do not mention values; `N` is the number of inputs. -/
structure BWF (N : Nat) (b : B F) : Prop where
  pool : PoolWF b.pool
  zero : b.exprs[0]? = some zeroExpr
  wf : ∀ e ∈ b.exprs, Expr.WF b.pool.length e
  len : b.exprs.length = N + 1 + sumOut b.insns
  mto : b.midToOut.length ≤ b.pool.length
  mtoRef : ∀ (j x : Nat) (k c : F), b.midToOut[j]? = some (some (x, k, c)) →
    1 ≤ x ∧ x < b.exprs.length
  e2o : ∀ (i : Nat) (e : Expr F), 1 ≤ i → b.exprs[i]? = some e →
    ∃ v, lookup e b.exprToOut = some v
  e2oRef : ∀ (e : Expr F) (v : Nat), lookup e b.exprToOut = some v →
    1 ≤ v ∧ b.exprs[v]? = some e
  cons : ∀ (e : Expr F) (s : Status), lookup e b.cons = some s →
    ∃ i, 1 ≤ i ∧ b.exprs[i]? = some e

/-- The values `a` of the out variables are those of their expressions. -/
def Val (b : B F) (a : Nat → F) : Prop :=
  ∃ m : Nat → F, PoolOk b.pool m ∧
    (∀ (i : Nat) (e : Expr F), 1 ≤ i → b.exprs[i]? = some e → a i = Expr.eval m e) ∧
    ∀ (j x : Nat) (k c : F), b.midToOut[j]? = some (some (x, k, c)) → m j = k * a x + c

/-- The values respect the instructions emitted so far. -/
def Cons (env : Env F) (N : Nat) (a : Nat → F) (b : B F) : Prop :=
  OInsn.HoldAll env a (N + 1) b.insns

/-- Every variable whose expression is asserted is zero. -/
def AssertedZero (a : Nat → F) (b : B F) : Prop :=
  ∀ (e : Expr F) (i : Nat), lookup e b.cons = some .asserted → 1 ≤ i → b.exprs[i]? = some e →
    a i = 0

/-- Every marked expression is zero. -/
def MarkedZero (a : Nat → F) (b : B F) : Prop :=
  ∀ e : Expr F, lookup e b.cons = some .marked →
    ∃ i, 1 ≤ i ∧ b.exprs[i]? = some e ∧ a i = 0

/-- Values which respect the instructions and the constraints so far, when no assertion has been
lost. -/
def OK (env : Env F) (N : Nat) (a : Nat → F) (b : B F) : Prop :=
  Cons env N a b ∧ AssertedZero a b ∧ b.clash = false

structure Inv (N : Nat) (b : B F) : Prop where
  wf : BWF N b
  loc : ∀ env a a', (∀ i, i < b.exprs.length → a i = a' i) → Cons env N a b → Cons env N a' b
  val : ∀ env a, Cons env N a b → Val b a
  marked : ∀ env a, OK env N a b → MarkedZero a b

/-- The builder `b'` after the instruction `i` was pushed onto `b`. -/
structure Pushed (N : Nat) (b : B F) (i : OInsn F) (b' : B F) : Prop where
  inv : Inv N b'
  exprs : b.exprs <+: b'.exprs
  len : b'.exprs.length = b.exprs.length + i.numOut
  ito : b'.inToOut = b.inToOut
  same : b'.cons = b.cons
  clash : b'.clash = b.clash
  cons : ∀ env a, Cons env N a b' ↔ Cons env N a b ∧ i.Holds env a b.exprs.length

/-- Out variables with the same expression have the same value. -/
theorem Val.same {b : B F} {a : Nat → F} (h : Val b a) {i j : Nat} {e : Expr F} (hi : 1 ≤ i)
    (hj : 1 ≤ j) (h1 : b.exprs[i]? = some e) (h2 : b.exprs[j]? = some e) : a i = a j := by
  obtain ⟨m, -, he, -⟩ := h
  rw [he i e hi h1, he j e hj h2]

/-! ## Extending an assignment of the mid variables -/

theorem PoolWF.prefix {P q : Pool F} (h : PoolWF (P ++ q)) (hP : P ≠ []) : PoolWF P := by
  have hl : 0 < P.length := List.length_pos_iff.2 hP
  refine ⟨?_, (List.nodup_append.1 h.nodup).1, ?_⟩
  · have := h.head
    rwa [List.getElem?_append_left hl] at this
  · intro j e hj he
    exact h.entry j e hj (by rw [List.getElem?_append_left (get?_lt he)]; exact he)

theorem extend_pool {P : Pool F} (hP : P ≠ []) (q : Pool F) (h : PoolWF (P ++ q)) {m : Nat → F}
    (hm : PoolOk P m) (g : Nat → F) :
    ∃ m', PoolOk (P ++ q) m' ∧ (∀ j, j < P.length → m' j = m j) ∧
      ∀ j, P.length ≤ j → (P ++ q)[j]? = some (newLinear 1 j) → m' j = g j := by
  induction q using List.reverseRec with
  | nil =>
      refine ⟨m, by simpa using hm, fun _ _ => rfl, ?_⟩
      intro j hj he
      rw [List.append_nil] at he
      have := get?_lt he
      omega
  | append_singleton q e ih =>
      rw [← List.append_assoc] at h ⊢
      have hne : P ++ q ≠ [] := by simp [hP]
      obtain ⟨m1, h1, h2, h3⟩ := ih (h.prefix hne)
      set L := (P ++ q).length with hL
      have hLP : P.length ≤ L := by rw [hL, List.length_append]; omega
      have hL1 : 1 ≤ L := List.length_pos_iff.2 hne
      have hget : (P ++ q ++ [e])[L]? = some e := by simp [hL]
      refine ⟨Function.update m1 L (if e = newLinear 1 L then g L else Expr.eval m1 e), ?_, ?_, ?_⟩
      · intro j d hj hd
        rcases get?_snoc hd with hd | ⟨rfl, rfl⟩
        · have hjl : j < L := get?_lt hd
          rw [Function.update_of_ne (by omega)]
          rw [← h1 j d hj hd]
          obtain ⟨-, hb⟩ := h.entry j d hj (by
            rw [List.getElem?_append_left (get?_lt hd)]; exact hd)
          rcases hb with rfl | hb
          · rw [Expr.eval_newLinear, Expr.eval_newLinear, Function.update_of_ne (by omega)]
          · refine Expr.eval_congr (L := j) (fun x hx => ?_) hb
            rw [Function.update_of_ne (by omega)]
        · rw [Function.update_self]
          split_ifs with hs
          · rw [hs, Expr.eval_newLinear, one_mul, Function.update_self]
          · obtain ⟨-, hb⟩ := h.entry L d hL1 hget
            refine Expr.eval_congr (L := L) (fun x hx => ?_) (hb.resolve_left hs)
            rw [Function.update_of_ne (by omega)]
      · intro j hj
        rw [Function.update_of_ne (by omega)]
        exact h2 j hj
      · intro j hj he
        rcases get?_snoc he with he | ⟨rfl, he⟩
        · have := get?_lt he
          rw [Function.update_of_ne (by omega)]
          exact h3 j hj he
        · rw [Function.update_self, if_pos he.symm]

/-! ## One instruction with one output -/

/-- The builder after one instruction with one output. -/
def B.put (b : B F) (e : Expr F) (P : Pool F) (mto : List (Option (Nat × F × F))) (i : OInsn F) :
    B F :=
  ⟨b.cons, b.exprs ++ [e], P, mto, (e, b.exprs.length) :: b.exprToOut, b.inToOut,
    b.insns ++ [i], b.clash⟩

/-- The common end of every single-output instruction: `i` was pushed, the new variable has
expression `e`, and `i'` (either `i` or the affine replacement of `basic.rs:268-278`) is what the
list of instructions holds. -/
theorem finish {N : Nat} {b : B F} (h : Inv N b) {i i' : OInsn F} {e : Expr F} {P : Pool F}
    {mto : List (Option (Nat × F × F))} (hout : i'.numOut = 1) (hiout : i.numOut = 1)
    (hP : b.pool <+: P) (hPw : PoolWF P) (hew : Expr.WF P.length e) (hmto : mto.length ≤ P.length)
    (hloc : ∀ (env : Env F) (a a' : Nat → F), (∀ x, x ≤ b.exprs.length → a x = a' x) →
      i.Holds env a b.exprs.length → i.Holds env a' b.exprs.length)
    (hsem : ∀ (env : Env F) (a m : Nat → F), PoolOk P m →
      (∀ (x : Nat) (d : Expr F), 1 ≤ x → b.exprs[x]? = some d → a x = Expr.eval m d) →
      (i.Holds env a b.exprs.length ↔ a b.exprs.length = Expr.eval m e))
    (hsem' : ∀ (env : Env F) (a m : Nat → F), PoolOk P m →
      (∀ (x : Nat) (d : Expr F), 1 ≤ x → b.exprs[x]? = some d → a x = Expr.eval m d) →
      (∀ (j x : Nat) (k c : F), b.midToOut[j]? = some (some (x, k, c)) → m j = k * a x + c) →
      (i'.Holds env a b.exprs.length ↔ a b.exprs.length = Expr.eval m e))
    (hentry : ∀ (j x : Nat) (k c : F), mto[j]? = some (some (x, k, c)) →
      b.midToOut[j]? = some (some (x, k, c)) ∨
        (x = b.exprs.length ∧ ∀ m v, PoolOk P m → Expr.eval m e = v → m j = k * v + c))
    {b' : B F} (hb' : b' = (b.put e P mto i')) : Pushed N b i b' := by
  subst hb'
  have hw := h.wf
  have hlen1 : 1 ≤ b.exprs.length := by have := hw.len; omega
  have hcons : ∀ (env : Env F) (a : Nat → F), OInsn.HoldAll env a (N + 1) (b.insns ++ [i']) ↔
      Cons env N a b ∧ i'.Holds env a b.exprs.length := by
    intro env a
    rw [holdAll_append, OInsn.HoldAll, OInsn.HoldAll, ← hw.len, and_true]
    exact Iff.rfl
  -- values
  have hval0 : ∀ (env : Env F) (a : Nat → F), Cons env N a b →
      ∃ m : Nat → F, PoolOk P m ∧
        (∀ (x : Nat) (d : Expr F), 1 ≤ x → b.exprs[x]? = some d → a x = Expr.eval m d) ∧
        (∀ (j x : Nat) (k c : F), b.midToOut[j]? = some (some (x, k, c)) → m j = k * a x + c) := by
    intro env a hc1
    obtain ⟨m0, hm0, hv0, ht0⟩ := h.val env a hc1
    obtain ⟨q, rfl⟩ := hP
    have hne : b.pool ≠ [] := by have := hw.pool.length_pos; intro h0; rw [h0] at this; simp at this
    obtain ⟨m, hm, hagree, -⟩ := extend_pool hne q hPw hm0 (fun _ => 0)
    have hv : ∀ (x : Nat) (d : Expr F), 1 ≤ x → b.exprs[x]? = some d → a x = Expr.eval m d := by
      intro x d hx hd
      rw [hv0 x d hx hd]
      exact Expr.eval_congr (L := b.pool.length) (fun y hy => (hagree y hy).symm)
        (hw.wf d (List.mem_of_getElem? hd)).below
    have ht : ∀ (j x : Nat) (k c : F), b.midToOut[j]? = some (some (x, k, c)) →
        m j = k * a x + c := by
      intro j x k c hj
      rw [hagree j (lt_of_lt_of_le (get?_lt hj) hw.mto)]
      exact ht0 j x k c hj
    exact ⟨m, hm, hv, ht⟩
  have hiff : ∀ (env : Env F) (a : Nat → F), Cons env N a (b.put e P mto i') ↔
      Cons env N a b ∧ i.Holds env a b.exprs.length := by
    intro env a
    show OInsn.HoldAll env a (N + 1) (b.insns ++ [i']) ↔ _
    rw [hcons]
    constructor
    · rintro ⟨h1, h2⟩
      obtain ⟨m, hm, hv, ht⟩ := hval0 env a h1
      exact ⟨h1, (hsem env a m hm hv).2 ((hsem' env a m hm hv ht).1 h2)⟩
    · rintro ⟨h1, h2⟩
      obtain ⟨m, hm, hv, ht⟩ := hval0 env a h1
      exact ⟨h1, (hsem' env a m hm hv ht).2 ((hsem env a m hm hv).1 h2)⟩
  have hlen' : (b.put e P mto i').exprs.length = b.exprs.length + 1 := by
    simp [B.put]
  have hexprs : ∀ (x : Nat) (d : Expr F), (b.exprs ++ [e])[x]? = some d →
      b.exprs[x]? = some d ∨ (x = b.exprs.length ∧ d = e) := fun x d hx => get?_snoc hx
  have hokc : ∀ env a, OK env N a (b.put e P mto i') → OK env N a b := by
    intro env a ⟨h1, h2, h3⟩
    refine ⟨((hiff env a).1 h1).1, ?_, h3⟩
    intro d x hl hx hd
    exact h2 d x hl hx (get?_prefix (List.prefix_append _ _) hd)
  refine ⟨⟨⟨hPw, ?_, ?_, ?_, hmto, ?_, ?_, ?_, ?_⟩, ?_, ?_, ?_⟩,
    List.prefix_append _ _, by rw [hlen', hiout], rfl, rfl, rfl, hiff⟩
  · exact get?_prefix (List.prefix_append _ _) hw.zero
  · intro d hd
    rcases List.mem_append.1 hd with hd | hd
    · exact (hw.wf d hd).mono hP.length_le
    · simp only [List.mem_singleton] at hd; subst hd; exact hew
  · show (b.exprs ++ [e]).length = N + 1 + sumOut (b.insns ++ [i'])
    rw [List.length_append, sumOut_append, sumOut_single, hout, hw.len]
    simp; omega
  · intro j x k c hj
    show 1 ≤ x ∧ x < (b.exprs ++ [e]).length
    rw [List.length_append, List.length_singleton]
    rcases hentry j x k c hj with hj | ⟨rfl, -⟩
    · have := hw.mtoRef j x k c hj; omega
    · omega
  · intro x d hx hd
    show ∃ v, lookup d ((e, b.exprs.length) :: b.exprToOut) = some v
    rw [lookup]
    split_ifs with hed
    · exact ⟨_, rfl⟩
    · rcases hexprs x d hd with hd | ⟨-, rfl⟩
      · exact hw.e2o x d hx hd
      · exact absurd rfl hed
  · intro d v hd
    change lookup d ((e, b.exprs.length) :: b.exprToOut) = some v at hd
    rw [lookup] at hd
    split_ifs at hd with hed
    · cases hd
      subst hed
      exact ⟨hlen1, by show (b.exprs ++ [e])[b.exprs.length]? = some e; simp⟩
    · obtain ⟨h1, h2⟩ := hw.e2oRef d v hd
      exact ⟨h1, get?_prefix (List.prefix_append _ _) h2⟩
  · intro d s hd
    obtain ⟨x, hx, hd⟩ := hw.cons d s hd
    exact ⟨x, hx, get?_prefix (List.prefix_append _ _) hd⟩
  · intro env a a' hag hc
    rw [hlen'] at hag
    rw [hiff] at hc ⊢
    exact ⟨h.loc env a a' (fun x hx => hag x (by omega)) hc.1,
      hloc env a a' (fun x hx => hag x (by omega)) hc.2⟩
  · intro env a hc
    obtain ⟨hc1, hc2⟩ := (hiff env a).1 hc
    obtain ⟨m, hm, hv, ht⟩ := hval0 env a hc1
    have hn := (hsem env a m hm hv).1 hc2
    refine ⟨m, hm, ?_, ?_⟩
    · intro x d hx hd
      rcases hexprs x d hd with hd | ⟨rfl, rfl⟩
      · exact hv x d hx hd
      · exact hn
    · intro j x k c hj
      rcases hentry j x k c hj with hj | ⟨rfl, hnew⟩
      · exact ht j x k c hj
      · exact hnew m _ hm hn.symm
  · intro env a hok d hd
    obtain ⟨x, hx, hd, hz⟩ := h.marked env a (hokc env a hok) d hd
    exact ⟨x, hx, get?_prefix (List.prefix_append _ _) hd, hz⟩

theorem padTo_length {n : Nat} {l : List (Option (Nat × F × F))} (h : l.length ≤ n) :
    (padTo n l).length = n := by
  simp [padTo]; omega

theorem padTo_some {n j : Nat} {l : List (Option (Nat × F × F))} {v : Nat × F × F}
    (h : (padTo n l)[j]? = some (some v)) : l[j]? = some (some v) := by
  unfold padTo at h
  rcases get?_append h with h | ⟨-, h⟩
  · exact h
  · rw [List.getElem?_replicate] at h
    split_ifs at h
    cases h

theorem numOut_fromKxB (x : Nat) (k c : F) : (fromKxB x k c).numOut = 1 := by
  unfold fromKxB; split_ifs <;> rfl

theorem holds_fromKxB {env : Env F} {a : Nat → F} {n x : Nat} {k c : F} (hx : x = 0 → k = 0) :
    (fromKxB x k c).Holds env a n ↔ a n = k * a x + c := by
  unfold fromKxB
  split_ifs with h0
  · have hk : k = 0 := h0.elim hx id
    simp only [OInsn.Holds, LinComb.eval, List.map_nil, List.sum_nil, zero_add, hk, zero_mul]
  · simp only [OInsn.Holds, LinComb.eval, List.map_cons, List.map_nil, List.sum_cons,
      List.sum_nil, add_zero]
    rw [mul_comm]

/-- `fix_mid_to_out(1)` after pushing `i` with expression `e`. -/
theorem fix_one_ok {N : Nat} {b : B F} (h : Inv N b) {i : OInsn F} {e : Expr F} {P : Pool F}
    (hout : i.numOut = 1) (hP : b.pool <+: P) (hPw : PoolWF P) (hew : Expr.WF P.length e)
    (hsem : ∀ (env : Env F) (a m : Nat → F), PoolOk P m →
      (∀ (x : Nat) (d : Expr F), 1 ≤ x → b.exprs[x]? = some d → a x = Expr.eval m d) →
      (i.Holds env a b.exprs.length ↔ a b.exprs.length = Expr.eval m e))
    (hloc : ∀ (env : Env F) (a a' : Nat → F), (∀ x, x ≤ b.exprs.length → a x = a' x) →
      i.Holds env a b.exprs.length → i.Holds env a' b.exprs.length) :
    ∃ b', fixMidToOut 1 { b with insns := b.insns ++ [i], pool := P, exprs := b.exprs ++ [e] } =
        .ok b' ∧ Pushed N b i b' := by
  have hw := h.wf
  obtain ⟨idx, k, c, P', hss, hPP', hP'w, hcase⟩ := toSingleStripped_ok hPw hew
  have hmto : b.midToOut.length ≤ P'.length :=
    hw.mto.trans (hP.length_le.trans hPP'.length_le)
  have hew' := hew.mono hPP'.length_le
  have hsemP : ∀ (env : Env F) (a m : Nat → F), PoolOk P' m →
      (∀ (x : Nat) (d : Expr F), 1 ≤ x → b.exprs[x]? = some d → a x = Expr.eval m d) →
      (i.Holds env a b.exprs.length ↔ a b.exprs.length = Expr.eval m e) :=
    fun env a m hm hv => hsem env a m (hm.prefix hPP') hv
  have hid : (b.exprs ++ [e]).length - (0 + 1) = b.exprs.length := by simp
  unfold fixMidToOut
  simp only [List.range_one, List.map_cons, List.map_nil, fixLoop, fixOne, hid]
  rw [show (b.exprs ++ [e])[b.exprs.length]? = some e from by simp]
  simp only [orPanic, bind, Except.bind, hss]
  rcases hcase with ⟨rfl, rfl, rfl⟩ | ⟨h1, h2, hk, -, hev⟩
  · rw [if_pos rfl, if_pos (by simp)]
    unfold setLast
    rw [if_neg (by simp)]
    simp only [List.dropLast_concat]
    refine ⟨_, rfl, finish h (i := i) (i' := fromKxB 0 0 c) (e := newConst c) (P := P')
      (mto := padTo P'.length b.midToOut) (numOut_fromKxB _ _ _) hout (hP.trans hPP') hP'w hew'
      (padTo_length hmto).le hloc hsemP ?_ ?_ rfl⟩
    · intro env a m hm hv ht
      rw [holds_fromKxB (fun _ => rfl), Expr.eval_newConst]; simp
    · intro j x k c hj
      exact Or.inl (padTo_some hj)
  · rw [if_neg (by omega)]
    have hlen : (padTo P'.length b.midToOut).length = P'.length := padTo_length hmto
    cases hg : (padTo P'.length b.midToOut)[idx]? with
    | none =>
        rw [List.getElem?_eq_none_iff] at hg
        omega
    | some o =>
        cases o with
        | some ovr =>
            obtain ⟨x, k', c'⟩ := ovr
            simp only [if_true]
            unfold setLast
            rw [if_neg (by simp)]
            simp only [List.dropLast_concat]
            have hold := padTo_some hg
            refine ⟨_, rfl, finish h (i := i) (i' := fromKxB x (k' * k) (c' * k + c)) (e := e)
              (P := P') (mto := padTo P'.length b.midToOut) (numOut_fromKxB _ _ _) hout
              (hP.trans hPP') hP'w hew' hlen.le hloc hsemP ?_ ?_ rfl⟩
            · intro env a m hm hv ht
              have hx := (hw.mtoRef idx x k' c' hold).1
              rw [holds_fromKxB (fun h0 => absurd h0 (by omega)), hev m hm,
                ht idx x k' c' hold]
              rw [show k' * k * a x + (c' * k + c) = k * (k' * a x + c') + c by ring]
            · intro j x k c hj
              exact Or.inl (padTo_some hj)
        | none =>
            simp only [invOrPanic, if_neg hk]
            refine ⟨_, rfl, finish h (i := i) (i' := i) (e := e) (P := P')
              (mto := (padTo P'.length b.midToOut).set idx
                (some (b.exprs.length, k⁻¹, -k⁻¹ * c))) hout hout
              (hP.trans hPP') hP'w hew' (by rw [List.length_set]; exact hlen.le) hloc hsemP ?_ ?_ rfl⟩
            · intro env a m hm hv ht
              exact hsemP env a m hm hv
            · intro j x k₁ c₁ hj
              rw [List.getElem?_set] at hj
              split_ifs at hj with hji hlt
              · simp only [Option.some.injEq, Prod.mk.injEq] at hj
                obtain ⟨rfl, rfl, rfl⟩ := hj
                right
                refine ⟨rfl, fun m v hm hv => ?_⟩
                rw [← hji, ← hv, hev m hm]
                field_simp
                ring
              · left; exact padTo_some hj

end JST.Comp
