import Verif.Compiler.Final
import Verif.Compiler.PoolProofs

/-!
# The second pass: its operations preserve the builder's invariant and the values
-/

set_option linter.unusedSectionVars false

namespace JST.Comp

open JST.Circ JST.Flat

variable {F R : Type} [Field F] [DecidableEq F]

/-- Number of terms which are not constant. -/
def nonConst (e : Expr F) : Nat := (e.filter fun t => t.vars ≠ .const).length

/-- 1 if `make_single` would introduce or use a variable for the expression, 0 if not. -/
def bigness (e : Expr F) : Nat := if nonConst e ≤ 1 ∧ degree e ≤ 1 then 0 else 1

theorem fromTermsSorted_some {ts r : List (Term F)} (h : fromTermsSorted ts = some r)
    (hne : ts ≠ []) : r = ts := by
  unfold fromTermsSorted at h
  rw [if_neg hne] at h
  dsimp only at h
  split_ifs at h
  cases h; rfl

theorem strip_ok {L : Nat} {e : Expr F} (he : Expr.WF L e) :
    ∃ s k c, strip e = some (s, k, c) ∧ Expr.WF L s ∧ k ≠ 0 ∧
      (∀ v, Expr.eval v e = k * Expr.eval v s + c) ∧
      (small s = true ↔ bigness e = 0) ∧
      (degree e = 0 → s = zeroExpr) := by
  obtain ⟨s, k, c, h1, h2, h3, h4⟩ := stripConstants_ok he
  unfold strip
  cases hr : e.filter (fun t => t.vars ≠ .const) with
  | nil =>
      have hsc : stripConstants e = some (zeroExpr, 0, constPart e) := by
        unfold stripConstants; dsimp only; rw [hr]
      rw [h1] at hsc
      simp only [Option.some.injEq, Prod.mk.injEq] at hsc
      obtain ⟨rfl, rfl, rfl⟩ := hsc
      rcases h4 with ⟨hd, -, -, hc⟩ | ⟨-, -, hk, -⟩
      · refine ⟨_, _, _, rfl, wf_zeroExpr L, one_ne_zero, fun v => ?_, ?_, fun _ => rfl⟩
        · rw [h3 v, Expr.eval_zero]; ring
        · have h5 : bigness e = 0 := by
            unfold bigness nonConst
            rw [hr, if_pos ⟨by simp, by omega⟩]
          rw [h5]
          simp [small, zeroExpr, degree, VarSpec.isQuad, VarSpec.isLin]
      · exact absurd rfl hk
  | cons t r =>
      have hsc : stripConstants e = (do
          let vi ← invOrPanic t.coef
          let e' ← fromTermsSorted ((t :: r).map fun s => ⟨s.coef * vi, s.vars⟩)
          some (e', t.coef, constPart e)) := by
        unfold stripConstants; dsimp only; rw [hr]
      have hfin := h1
      rw [hsc] at hfin
      rcases h4 with ⟨-, -, hk0, hc⟩ | ⟨hd0, hd, hk, hdeg, -, -⟩
      · exfalso
        rw [hc] at hr
        simp [newConst] at hr
      · have hlen : s.length = (t :: r).length := by
          cases hi : invOrPanic t.coef with
          | none => rw [hi] at hfin; cases hfin
          | some vi =>
              rw [hi] at hfin
              simp only [Option.bind_eq_bind, Option.bind_some] at hfin
              cases hf : fromTermsSorted ((t :: r).map fun s => (⟨s.coef * vi, s.vars⟩ : Term F)) with
              | none => rw [hf] at hfin; cases hfin
              | some e' =>
                  rw [hf] at hfin
                  simp only [Option.bind_some, Option.some.injEq, Prod.mk.injEq] at hfin
                  rw [← hfin.1, fromTermsSorted_some hf (by simp)]
                  simp
        refine ⟨s, k, c, hfin, h2, hk, h3, ?_, fun h => absurd h hd0⟩
        unfold small bigness nonConst
        rw [hr]
        simp only [decide_eq_true_eq, hlen, hdeg]
        split_ifs with h
        · simpa using h
        · simpa using h

/-! ## The invariant -/

/-- What holds of the builder's table of mid variables at any time. -/
structure FInv (b : FB F R) : Prop where
  clen : b.coefs.length = b.pool.length
  llen : b.layer.length = b.pool.length
  head : b.pool[0]? = some ([], false)
  nodup : b.pool.Nodup
  keys : ∀ (j : Nat) (e : Expr F) (f : Bool), 1 ≤ j → b.pool[j]? = some (e, f) →
    (e = newLinear 1 j ∧ f = false ∧ b.coefs[j]? = some ⟨1, 1, 0⟩) ∨ Expr.WF j e
  coef : ∀ (j : Nat) (mc : MidCoef F), b.coefs[j]? = some mc → mc.k ≠ 0 ∧ mc.kinv = mc.k⁻¹
  forced : ∀ (j : Nat) (e : Expr F) (mc : MidCoef F), b.pool[j]? = some (e, true) →
    b.coefs[j]? = some mc → mc.k = 1 ∧ mc.b = 0

/-- An assignment in which every mid variable has the value of its expression. -/
def FOk (b : FB F R) (m : Nat → F) : Prop :=
  ∀ (j : Nat) (e : Expr F) (f : Bool) (mc : MidCoef F), 1 ≤ j → b.pool[j]? = some (e, f) →
    b.coefs[j]? = some mc → m j = mc.k * Expr.eval m e + mc.b

/-- The second state extends the first by internal variables. -/
structure FExt (b b' : FB F R) : Prop where
  pool : b.pool <+: b'.pool
  coefs : b.coefs <+: b'.coefs
  layer : b.layer <+: b'.layer
  inVar : b'.inVar = b.inVar
  out : b'.out = b.out
  fresh : ∀ (j : Nat) (key : Expr F × Bool), b.pool.length ≤ j → b'.pool[j]? = some key →
    key.1 ≠ newLinear 1 j

theorem FExt.refl (b : FB F R) : FExt b b :=
  ⟨List.prefix_refl _, List.prefix_refl _, List.prefix_refl _, rfl, rfl, fun j key hj h => by
    rw [List.getElem?_eq_none (by omega)] at h; cases h⟩

theorem getElem?_prefix {α : Type} {l l' : List α} (h : l <+: l') {j : Nat} {x : α}
    (hj : l[j]? = some x) : l'[j]? = some x := by
  obtain ⟨q, rfl⟩ := h
  rw [List.getElem?_append_left (List.getElem?_eq_some_iff.1 hj).1]
  exact hj

theorem FExt.trans {a b c : FB F R} (h : FExt a b) (g : FExt b c) : FExt a c :=
  ⟨h.pool.trans g.pool, h.coefs.trans g.coefs, h.layer.trans g.layer, by rw [g.inVar, h.inVar],
    by rw [g.out, h.out], fun j key hj hk => by
      by_cases hb : b.pool.length ≤ j
      · exact g.fresh j key hb hk
      · have hlt : j < b.pool.length := by omega
        refine h.fresh j key hj ?_
        have h1 := getElem?_prefix g.pool (List.getElem?_eq_getElem hlt)
        rw [hk] at h1
        rw [List.getElem?_eq_getElem hlt, h1]⟩

theorem FExt.len {b b' : FB F R} (h : FExt b b') : b.pool.length ≤ b'.pool.length :=
  h.pool.length_le

theorem FOk.ext {b b' : FB F R} (h : FExt b b') {m : Nat → F} (hm : FOk b' m) : FOk b m :=
  fun j e f mc hj he hc => hm j e f mc hj (getElem?_prefix h.pool he) (getElem?_prefix h.coefs hc)

/-- A state and an expression: the expression has the value `val` in every assignment in which the
mid variables have the values of their expressions. -/
structure FRet (b : FB F R) (r : Expr F) (b' : FB F R) (val : (Nat → F) → F) : Prop where
  ext : FExt b b'
  inv : FInv b'
  wf : Expr.WF b'.pool.length r
  eval : ∀ m, FOk b' m → Expr.eval m r = val m

theorem FInv.pos {b : FB F R} (h : FInv b) : 1 ≤ b.pool.length := by
  have := (List.getElem?_eq_some_iff.1 h.head).1
  omega

/-! ## Layers -/

theorem varLayer_ok {b : FB F R} {s : VarSpec} (h : s.Below b.layer.length) :
    ∃ l, varLayer b s = some l := by
  cases s with
  | const => exact ⟨0, rfl⟩
  | lin x => exact ⟨_, List.getElem?_eq_getElem h.2⟩
  | quad x y =>
      refine ⟨max (b.layer[x]'h.1.2) (b.layer[y]'h.2.2), ?_⟩
      simp [varLayer, List.getElem?_eq_getElem h.1.2, List.getElem?_eq_getElem h.2.2]

theorem layers_ok {b : FB F R} {ts : List (Term F)} (h : ∀ t ∈ ts, t.vars.Below b.layer.length) :
    ∃ ls, layers b ts = some ls ∧ ls.length = ts.length := by
  induction ts with
  | nil => exact ⟨[], rfl, rfl⟩
  | cons t r ih =>
      obtain ⟨l, hl⟩ := varLayer_ok (h t List.mem_cons_self)
      obtain ⟨ls, h1, h2⟩ := ih fun u hu => h u (List.mem_cons_of_mem _ hu)
      exact ⟨l :: ls, by simp [layers, hl, h1], by simp [h2]⟩

theorem max?_ok {l : List Nat} (h : l ≠ []) : ∃ n, l.max? = some n := by
  cases hm : l.max? with
  | none => exact absurd (List.max?_eq_none_iff.1 hm) h
  | some n => exact ⟨n, rfl⟩

theorem min?_ok {l : List Nat} (h : l ≠ []) : ∃ n, l.min? = some n := by
  cases hm : l.min? with
  | none => exact absurd (List.min?_eq_none_iff.1 hm) h
  | some n => exact ⟨n, rfl⟩

theorem exprLayer_ok {b : FB F R} (h : FInv b) {e : Expr F} (he : Expr.WF b.pool.length e) :
    ∃ l, exprLayer b e = some l := by
  obtain ⟨ls, h1, h2⟩ := layers_ok (b := b) (ts := e) fun t ht => by
    rw [h.llen]; exact he.below t ht
  obtain ⟨n, hn⟩ := max?_ok (l := ls) (by
    intro h0; rw [h0] at h2; exact he.ne (List.length_eq_zero_iff.1 h2.symm))
  exact ⟨n, by simp [exprLayer, h1, hn]⟩

/-! ## New variables -/

theorem addMid_ok {b : FB F R} (h : FInv b) {key : Expr F × Bool} (hkey : Expr.WF b.pool.length key.1)
    (hnew : key ∉ b.pool) {k c : F} (hk : k ≠ 0) {e : Expr F} (he : Expr.WF b.pool.length e)
    (hf : key.2 = true → k = 1 ∧ c = 0) :
    ∃ b', addMid b key k c e = some b' ∧ FExt b b' ∧ FInv b' ∧
      b'.pool.length = b.pool.length + 1 ∧
      ∀ m, FOk b' m → m b.pool.length = k * Expr.eval m key.1 + c := by
  obtain ⟨l, hl⟩ := exprLayer_ok h he
  have hpos := h.pos
  refine ⟨{ b with pool := b.pool ++ [key], coefs := b.coefs ++ [⟨k, k⁻¹, c⟩],
                   layer := b.layer ++ [l + 1] }, by simp [addMid, invOrPanic, hk, hl], ⟨⟨_, rfl⟩, ⟨_, rfl⟩, ⟨_, rfl⟩, rfl, rfl, ?_⟩,
    ⟨by simp [h.clen], by simp [h.llen], ?_, ?_, ?_, ?_, ?_⟩, by simp, ?_⟩
  · intro j key' hj hj'
    dsimp only at hj'
    rw [List.getElem?_append_right hj] at hj'
    have hj0 : j = b.pool.length := by
      have := (List.getElem?_eq_some_iff.1 hj').1
      simp only [List.length_singleton] at this
      omega
    subst hj0
    simp only [Nat.sub_self, List.getElem?_cons_zero, Option.some.injEq] at hj'
    subst hj'
    intro h0
    have := hkey.below ⟨1, .lin b.pool.length⟩ (by rw [h0]; simp [newLinear])
    exact absurd this.2 (lt_irrefl _)
  · dsimp only
    rw [List.getElem?_append_left (by omega)]
    exact h.head
  · dsimp only
    rw [List.nodup_append]
    refine ⟨h.nodup, by simp, ?_⟩
    intro a ha a' ha'
    simp only [List.mem_singleton] at ha'
    subst ha'
    rintro rfl
    exact hnew ha
  · intro j e' f hj hj'
    dsimp only at hj' ⊢
    by_cases hlt : j < b.pool.length
    · rw [List.getElem?_append_left hlt] at hj'
      rcases h.keys j e' f hj hj' with ⟨h1, h2, h3⟩ | h4
      · left
        refine ⟨h1, h2, ?_⟩
        rw [List.getElem?_append_left (by rw [h.clen]; exact hlt)]
        exact h3
      · exact Or.inr h4
    · have hj0 : j = b.pool.length := by
        have := (List.getElem?_eq_some_iff.1 hj').1
        simp only [List.length_append, List.length_singleton] at this
        omega
      subst hj0
      rw [List.getElem?_append_right (le_refl _)] at hj'
      simp only [Nat.sub_self, List.getElem?_cons_zero, Option.some.injEq] at hj'
      subst hj'
      exact Or.inr hkey
  · intro j mc hj
    dsimp only at hj
    by_cases hlt : j < b.coefs.length
    · rw [List.getElem?_append_left hlt] at hj
      exact h.coef j mc hj
    · rw [List.getElem?_append_right (by omega)] at hj
      have : j - b.coefs.length = 0 := by
        have := (List.getElem?_eq_some_iff.1 hj).1
        simp only [List.length_singleton] at this
        omega
      rw [this] at hj
      simp only [List.getElem?_cons_zero, Option.some.injEq] at hj
      subst hj
      exact ⟨hk, rfl⟩
  · intro j e' mc hj hmc
    dsimp only at hj hmc
    by_cases hlt : j < b.pool.length
    · rw [List.getElem?_append_left hlt] at hj
      rw [List.getElem?_append_left (by rw [h.clen]; exact hlt)] at hmc
      exact h.forced j e' mc hj hmc
    · have hj0 : j = b.pool.length := by
        have := (List.getElem?_eq_some_iff.1 hj).1
        simp only [List.length_append, List.length_singleton] at this
        omega
      subst hj0
      rw [List.getElem?_append_right (le_refl _)] at hj
      rw [← h.clen, List.getElem?_append_right (le_refl _)] at hmc
      simp only [Nat.sub_self, List.getElem?_cons_zero, Option.some.injEq] at hj hmc
      subst hmc
      exact hf (by rw [hj])
  · intro m hm
    have := hm b.pool.length key.1 key.2 ⟨k, k⁻¹, c⟩ hpos (by
      dsimp only
      rw [List.getElem?_append_right (le_refl _)]; simp) (by
      dsimp only
      rw [← h.clen, List.getElem?_append_right (le_refl _)]; simp)
    exact this

theorem fromTerms_vars {l : List (Term F)} {t : Term F} (ht : t ∈ fromTerms l) :
    t = ⟨0, .const⟩ ∨ ∃ s ∈ l, t.vars = s.vars.normalize := by
  unfold fromTerms compress at ht
  dsimp only at ht
  split_ifs at ht with h0
  · simp only [zeroExpr, List.mem_singleton] at ht
    exact Or.inl ht
  · right
    obtain ⟨s, hs, he⟩ := mergeAdj_vars _ t (List.mem_of_mem_filter ht)
    rw [(List.perm_insertionSort _ _).mem_iff] at hs
    obtain ⟨w, hw, rfl⟩ := List.mem_map.1 hs
    exact ⟨w, hw, he⟩

/-- An expression whose terms are constants or multiples of one variable is not big. -/
theorem bigness_zero {L : Nat} {e : Expr F} (he : Expr.WF L e) {x : Nat}
    (h : ∀ t ∈ e, t.vars = .const ∨ t.vars = .lin x) : bigness e = 0 := by
  unfold bigness
  rw [if_pos]
  constructor
  · unfold nonConst
    have hs : (e.filter fun t => t.vars ≠ .const).Pairwise fun s t => s.vars < t.vars :=
      he.sorted.sublist List.filter_sublist
    have hall : ∀ t ∈ e.filter (fun t => t.vars ≠ .const), t.vars = .lin x := by
      intro t ht
      obtain ⟨h1, h2⟩ := List.mem_filter.1 ht
      rcases h t h1 with h3 | h3
      · simp [h3] at h2
      · exact h3
    revert hs hall
    generalize e.filter (fun t => t.vars ≠ .const) = l
    intro hs hall
    match l, hs, hall with
    | [], _, _ => simp
    | [_], _, _ => simp
    | a :: c :: r, hs, hall =>
        exfalso
        have h1 := (List.pairwise_cons.1 hs).1 c (by simp)
        rw [hall a (by simp), hall c (by simp)] at h1
        exact lt_irrefl _ h1
  · have : degree e < 2 := by
      rw [degree_lt_two_iff]
      intro t ht y z hv
      rcases h t ht with h1 | h1 <;> rw [h1] at hv <;> cases hv
    omega

theorem unstrip_ok {L vid : Nat} (h1 : 1 ≤ vid) (h2 : vid < L) {k c : F} {mc : MidCoef F}
    (hmk : mc.k ≠ 0) (hmi : mc.kinv = mc.k⁻¹) :
    ∃ r, unstrip vid k c mc = some r ∧ Expr.WF L r ∧ bigness r = 0 ∧
      ∀ (m : Nat → F) (x : F), m vid = mc.k * x + mc.b → Expr.eval m r = k * x + c := by
  unfold unstrip
  rw [if_neg (by omega)]
  have hwf : Expr.WF L (fromTerms (⟨mc.kinv * k, .lin vid⟩ ::
      if c - mc.b * (mc.kinv * k) = 0 then [] else [⟨c - mc.b * (mc.kinv * k), .const⟩])) := by
    refine fromTerms_wf ?_
    intro t ht
    rcases List.mem_cons.1 ht with rfl | ht
    · exact ⟨h1, h2⟩
    · split_ifs at ht
      · cases ht
      · simp only [List.mem_singleton] at ht
        subst ht; trivial
  refine ⟨_, rfl, hwf, ?_, ?_⟩
  · refine bigness_zero hwf (x := vid) fun t ht => ?_
    rcases fromTerms_vars ht with rfl | ⟨s, hs, hv⟩
    · exact Or.inl rfl
    · rcases List.mem_cons.1 hs with rfl | hs
      · exact Or.inr hv
      · split_ifs at hs
        · cases hs
        · simp only [List.mem_singleton] at hs
          subst hs
          exact Or.inl hv
  · intro m x hx
    rw [fromTerms_eval, Expr.eval_cons]
    have hkk : mc.kinv * mc.k = 1 := by rw [hmi, inv_mul_cancel₀ hmk]
    have key : mc.kinv * k * m vid + (c - mc.b * (mc.kinv * k)) = k * x + c := by
      rw [hx]
      linear_combination (k * x) * hkk
    split_ifs with hc
    · rw [hc] at key
      rw [Expr.eval_nil, ← key]; simp [Term.eval, VarSpec.eval]
    · rw [Expr.eval_cons, Expr.eval_nil, ← key]; simp [Term.eval, VarSpec.eval]

/-- Looking up a key of the pool. -/
theorem lookup_ok {b : FB F R} (h : FInv b) {s : Expr F} {f : Bool} (hs : s ≠ [])
    (hmem : (s, f) ∈ b.pool) :
    1 ≤ b.pool.idxOf (s, f) ∧ b.pool.idxOf (s, f) < b.pool.length ∧
      ∃ mc, b.coefs[b.pool.idxOf (s, f)]? = some mc ∧ mc.k ≠ 0 ∧ mc.kinv = mc.k⁻¹ ∧
        ∀ m, FOk b m → m (b.pool.idxOf (s, f)) = mc.k * Expr.eval m s + mc.b := by
  have hlt : b.pool.idxOf (s, f) < b.pool.length := List.idxOf_lt_length_iff.2 hmem
  have hget : b.pool[b.pool.idxOf (s, f)]? = some (s, f) := by
    rw [List.getElem?_eq_getElem hlt, List.getElem_idxOf hlt]
  have h1 : 1 ≤ b.pool.idxOf (s, f) := by
    rcases Nat.eq_zero_or_pos (b.pool.idxOf (s, f)) with h0 | h0
    · rw [h0, h.head] at hget
      simp only [Option.some.injEq, Prod.mk.injEq] at hget
      exact absurd hget.1.symm hs
    · exact h0
  have hc : b.pool.idxOf (s, f) < b.coefs.length := by rw [h.clen]; exact hlt
  obtain ⟨hk, hi⟩ := h.coef _ _ (List.getElem?_eq_getElem hc)
  exact ⟨h1, hlt, _, List.getElem?_eq_getElem hc, hk, hi, fun m hm =>
    hm _ s f _ h1 hget (List.getElem?_eq_getElem hc)⟩

theorem bigness_newLinear (x : Nat) : bigness (newLinear 1 x : Expr F) = 0 := by
  simp [bigness, nonConst, newLinear, degree, VarSpec.isQuad, VarSpec.isLin]

/-- `make_single` returns an expression with the same value which is not big. -/
theorem makeSingle_ok {b : FB F R} (h : FInv b) {e : Expr F} (he : Expr.WF b.pool.length e) :
    ∃ r b', makeSingle b e = some (r, b') ∧ FRet b r b' (fun m => Expr.eval m e) ∧
      bigness r = 0 := by
  obtain ⟨s, k, c, h1, h2, h3, h4, h5, -⟩ := strip_ok he
  unfold makeSingle
  rw [h1]
  simp only [Option.bind_eq_bind, Option.bind_some]
  by_cases hs : small s = true
  · rw [if_pos hs]
    exact ⟨_, _, rfl, ⟨FExt.refl b, h, he, fun _ _ => rfl⟩, h5.1 hs⟩
  · rw [if_neg hs]
    by_cases hmem : (s, false) ∈ b.pool
    · rw [if_pos hmem]
      obtain ⟨g1, g2, mc, g3, g4, g5, g6⟩ := lookup_ok h h2.ne hmem
      obtain ⟨r, r1, r2, r3, r4⟩ := unstrip_ok (k := k) (c := c) g1 g2 g4 g5
      rw [g3]
      simp only [Option.bind_some, r1]
      exact ⟨_, _, rfl, ⟨FExt.refl b, h, r2, fun m hm => by
        rw [r4 m _ (g6 m hm), h4]⟩, r3⟩
    · rw [if_neg hmem]
      obtain ⟨b', g1, g2, g3, g4, g5⟩ := addMid_ok h (key := (s, false)) (k := k) (c := c) h2 hmem
        h3 h2 (by simp)
      rw [g1]
      refine ⟨_, _, rfl, ⟨g2, g3, wf_newLinear h.pos (by omega) one_ne_zero, fun m hm => ?_⟩,
        bigness_newLinear _⟩
      rw [Expr.eval_newLinear, one_mul, g5 m hm, h4]

theorem tryMakeSingle_ok {b : FB F R} (h : FInv b) {e : Expr F} (he : Expr.WF b.pool.length e) :
    ∃ r, tryMakeSingle b e = some r ∧ FRet b r b (fun m => Expr.eval m e) := by
  obtain ⟨s, k, c, h1, h2, h3, h4, h5, -⟩ := strip_ok he
  unfold tryMakeSingle
  rw [h1]
  simp only [Option.bind_eq_bind, Option.bind_some]
  by_cases hs : small s = true
  · rw [if_pos hs]
    exact ⟨_, rfl, FExt.refl b, h, he, fun _ _ => rfl⟩
  · rw [if_neg hs]
    by_cases hmem : (s, false) ∈ b.pool
    · rw [if_pos hmem]
      obtain ⟨g1, g2, mc, g3, g4, g5, g6⟩ := lookup_ok h h2.ne hmem
      obtain ⟨r, r1, r2, r3, r4⟩ := unstrip_ok (k := k) (c := c) g1 g2 g4 g5
      rw [g3]
      simp only [Option.bind_some, r1]
      exact ⟨_, rfl, FExt.refl b, h, r2, fun m hm => by rw [r4 m _ (g6 m hm), h4]⟩
    · rw [if_neg hmem]
      exact ⟨_, rfl, FExt.refl b, h, he, fun _ _ => rfl⟩

theorem isVar_some {e : Expr F} {x : Nat} (h : isVar e = some x) : e = newLinear 1 x := by
  unfold isVar at h
  split at h
  · split_ifs at h with hc
    cases h
    subst hc
    rfl
  · cases h

/-- `make_really_single` returns a variable with the value of the expression. -/
theorem makeReallySingle_ok {b : FB F R} (h : FInv b) {e : Expr F}
    (he : Expr.WF b.pool.length e) :
    ∃ v b', makeReallySingle b e = some (v, b') ∧ FExt b b' ∧ FInv b' ∧ 1 ≤ v ∧
      v < b'.pool.length ∧ ∀ m, FOk b' m → m v = Expr.eval m e := by
  unfold makeReallySingle
  cases hv : isVar e with
  | some x =>
      have := isVar_some hv
      subst this
      have hb := he.below ⟨1, .lin x⟩ (by simp [newLinear])
      exact ⟨_, _, rfl, FExt.refl b, h, hb.1, hb.2, fun m _ => by rw [Expr.eval_newLinear, one_mul]⟩
  | none =>
      obtain ⟨s, k, c, h1, h2, h3, h4, h5, -⟩ := strip_ok he
      dsimp only
      rw [h1]
      simp only [Option.bind_eq_bind, Option.bind_some]
      by_cases hmem : (s, false) ∈ b.pool
      · rw [if_pos hmem]
        obtain ⟨g1, g2, mc, g3, g4, g5, g6⟩ := lookup_ok h h2.ne hmem
        rw [g3]
        simp only [Option.bind_some]
        by_cases hkc : k = mc.k ∧ c = mc.b
        · rw [if_pos hkc]
          exact ⟨_, _, rfl, FExt.refl b, h, g1, g2, fun m hm => by
            rw [g6 m hm, h4, hkc.1, hkc.2]⟩
        · rw [if_neg hkc]
          obtain ⟨r, b', r1, r2, -⟩ := makeSingle_ok h he
          rw [r1]
          simp only [Option.bind_some]
          by_cases hmem' : (r, true) ∈ b'.pool
          · rw [if_pos hmem']
            obtain ⟨q1, q2, mc', q3, q4, q5, q6⟩ := lookup_ok r2.inv r2.wf.ne hmem'
            refine ⟨_, _, rfl, r2.ext, r2.inv, q1, q2, fun m hm => ?_⟩
            have hlt : b'.pool.idxOf (r, true) < b'.pool.length := q2
            obtain ⟨t1, t2⟩ := r2.inv.forced _ r mc' (by
              rw [List.getElem?_eq_getElem hlt, List.getElem_idxOf hlt]) q3
            rw [q6 m hm, t1, t2, one_mul, add_zero, r2.eval m hm]
          · rw [if_neg hmem']
            obtain ⟨b2, q1, q2, q3, q4, q5⟩ := addMid_ok r2.inv (key := (r, true)) (k := 1)
              (c := 0) r2.wf hmem' one_ne_zero r2.wf (by simp)
            rw [q1]
            refine ⟨_, _, rfl, r2.ext.trans q2, q3, r2.inv.pos, by omega, fun m hm => ?_⟩
            rw [q5 m hm, one_mul, add_zero, r2.eval m (hm.ext q2)]
      · rw [if_neg hmem]
        obtain ⟨b', g1, g2, g3, g4, g5⟩ := addMid_ok h (key := (s, false)) (k := k) (c := c) h2 hmem
          h3 he (by simp)
        rw [g1]
        refine ⟨_, _, rfl, g2, g3, h.pos, by omega, fun m hm => ?_⟩
        rw [g5 m hm, h4]

end JST.Comp
