import Verif.Compiler.BuilderRun

/-!
# The whole pass
-/

namespace JST.Comp

open JST.Circ

variable {F : Type} [Field F] [DecidableEq F] {X : Expr F → Prop}

/-- Renaming the variables of a source instruction. -/
theorem holds_replace (i : SInsn F) (f : Nat → Nat) (env : Env F) (s a : Nat → F) (n' n : Nat)
    (hin : ∀ x ∈ i.inputs, s x = a (f x)) (hout : ∀ k, k < i.numOut → s (n' + k) = a (n + k)) :
    i.Holds env s n' ↔ (SInsn.replace f i).Holds env a n := by
  have hmap : ∀ xs : List Nat, (∀ x ∈ xs, s x = a (f x)) → (xs.map f).map a = xs.map s := by
    intro xs hx
    rw [List.map_map]
    exact List.map_congr_left fun x hx' => (hx x hx').symm
  cases i with
  | linComb lc =>
      have h0 := hout 0 (by simp [SInsn.numOut])
      simp only [Nat.add_zero] at h0
      have : LinComb.eval ⟨lc.terms.map fun t => (f t.1, t.2), lc.constant⟩ a = lc.eval s := by
        unfold LinComb.eval
        simp only [List.map_map]
        congr 2
        apply List.map_congr_left
        intro t ht
        simp only [Function.comp]
        rw [hin t.1 (List.mem_map.2 ⟨t, ht, rfl⟩)]
      simp only [SInsn.replace, SInsn.Holds]
      rw [this, h0]
  | mul xs =>
      have h0 := hout 0 (by simp [SInsn.numOut])
      simp only [Nat.add_zero] at h0
      simp only [SInsn.replace, SInsn.Holds]
      rw [hmap xs hin, h0]
  | div x y ck =>
      have h0 := hout 0 (by simp [SInsn.numOut])
      simp only [Nat.add_zero] at h0
      simp only [SInsn.replace, SInsn.Holds]
      rw [hin x (by simp [SInsn.inputs]), hin y (by simp [SInsn.inputs]), h0]
  | boolBin x y op =>
      have h0 := hout 0 (by simp [SInsn.numOut])
      simp only [Nat.add_zero] at h0
      simp only [SInsn.replace, SInsn.Holds]
      rw [hin x (by simp [SInsn.inputs]), hin y (by simp [SInsn.inputs]), h0]
  | isZero x =>
      have h0 := hout 0 (by simp [SInsn.numOut])
      simp only [Nat.add_zero] at h0
      simp only [SInsn.replace, SInsn.Holds]
      rw [hin x (by simp [SInsn.inputs]), h0]
  | commit xs => exact Iff.rfl
  | hint id xs k => exact Iff.rfl
  | constant c =>
      have h0 := hout 0 (by simp [SInsn.numOut])
      simp only [Nat.add_zero] at h0
      simp only [SInsn.replace, SInsn.Holds]
      rw [h0]
  | random => exact Iff.rfl
  | publicInput k =>
      have h0 := hout 0 (by simp [SInsn.numOut])
      simp only [Nat.add_zero] at h0
      simp only [SInsn.replace, SInsn.Holds]
      rw [h0]
  | call id xs k =>
      simp only [SInsn.replace, SInsn.Holds]
      rw [hmap xs hin]
      have : outs s n' k = outs a n k := by
        unfold outs
        apply List.map_congr_left
        intro t ht
        exact hout t (List.mem_range.1 ht)
      rw [this]
  | uBin x y op => exact Iff.rfl
  | uSelect c t e => exact Iff.rfl
  | gate ty xs =>
      have h0 := hout 0 (by simp [SInsn.numOut])
      simp only [Nat.add_zero] at h0
      simp only [SInsn.replace, SInsn.Holds]
      rw [hmap xs hin, h0]
  | toBinary x k =>
      simp only [SInsn.numOut] at hout
      simp only [SInsn.replace, SInsn.Holds]
      rw [hin x (by simp [SInsn.inputs])]
      have : ((List.range k).map fun t => 2 ^ t * s (n' + t)) =
          (List.range k).map fun t => 2 ^ t * a (n + t) :=
        List.map_congr_left fun t ht => by rw [hout t (List.mem_range.1 ht)]
      rw [this]
      have h2 : (∀ t, t < k → s (n' + t) = 0 ∨ s (n' + t) = 1) ↔
          ∀ t, t < k → a (n + t) = 0 ∨ a (n + t) = 1 :=
        forall_congr' fun t => imp_congr_right fun ht => by rw [hout t ht]
      rw [h2]

theorem honest_replace (ev : UOp → F → F → Option F) (i : SInsn F) (f : Nat → Nat) (s a : Nat → F)
    (n' n : Nat) (hin : ∀ x ∈ i.inputs, s x = a (f x))
    (hout : ∀ k, k < i.numOut → s (n' + k) = a (n + k)) (h : i.Honest ev s n') :
    (SInsn.replace f i).Honest ev a n := by
  cases i with
  | uBin x y op =>
      have h0 := hout 0 (by simp [SInsn.numOut])
      simp only [Nat.add_zero] at h0
      simp only [SInsn.replace, SInsn.Honest] at h ⊢
      rw [← hin x (by simp [SInsn.inputs]), ← hin y (by simp [SInsn.inputs]), ← h0]; exact h
  | uSelect c t e =>
      have h0 := hout 0 (by simp [SInsn.numOut])
      simp only [Nat.add_zero] at h0
      simp only [SInsn.replace, SInsn.Honest] at h ⊢
      rw [← hin c (by simp [SInsn.inputs]), ← hin t (by simp [SInsn.inputs]),
        ← hin e (by simp [SInsn.inputs]), ← h0]; exact h
  | _ => trivial

theorem replace_inputs (i : SInsn F) (f : Nat → Nat) :
    (SInsn.replace f i).inputs = i.inputs.map f := by
  cases i <;> simp [SInsn.replace, SInsn.inputs]

theorem replace_numOut (i : SInsn F) (f : Nat → Nat) :
    (SInsn.replace f i).numOut = i.numOut := by
  cases i <;> rfl

/-! ## One instruction of the source -/

/-- The map from source variables to out variables is in range. -/
def ItoOk (b : B F) : Prop :=
  ∀ x, 1 ≤ x → x < b.inToOut.length →
    1 ≤ b.inToOut.getD x 0 ∧ b.inToOut.getD x 0 < b.exprs.length

/-- The values `s` of the source variables are those of their out variables. -/
def Match (a s : Nat → F) (b : B F) : Prop :=
  ∀ x, 1 ≤ x → x < b.inToOut.length → s x = a (b.inToOut.getD x 0)

/-- Source instructions were processed; `R` is what they demand of the source values, `H` what an
honest run adds. -/
structure Ran (X : Expr F → Prop) (N : Nat) (b b' : B F) (R : Env F → (Nat → F) → Prop) (H : (Nat → F) → Prop) :
    Prop where
  inv : Inv N b'
  exprs : b.exprs <+: b'.exprs
  ito : b.inToOut <+: b'.inToOut
  itoOk : ItoOk b'
  sound : ∀ env a, OK env N a b' → OK env N a b ∧ ∀ s, Match a s b' → R env s
  complete : ∀ env a s, Full X env N a b → Match a s b → R env s → H s →
    ∃ a', (∀ x, x < b.exprs.length → a' x = a x) ∧ Full X env N a' b' ∧ Match a' s b'

theorem getD_prefix {l l' : List Nat} (h : l <+: l') {x : Nat} (hx : x < l.length) :
    l'.getD x 0 = l.getD x 0 := by
  obtain ⟨q, rfl⟩ := h
  simp [List.getD, List.getElem?_append_left hx]

theorem Match.prefix {a s : Nat → F} {b b' : B F} (h : b.inToOut <+: b'.inToOut)
    (hm : Match a s b') : Match a s b := by
  intro x h1 h2
  rw [hm x h1 (lt_of_lt_of_le h2 h.length_le), getD_prefix h h2]

theorem Ran.trans {N : Nat} {b c d : B F} {R S : Env F → (Nat → F) → Prop} {G H : (Nat → F) → Prop}
    (h1 : Ran X N b c R G) (h2 : Ran X N c d S H) :
    Ran X N b d (fun env s => R env s ∧ S env s) (fun s => G s ∧ H s) := by
  refine ⟨h2.inv, h1.exprs.trans h2.exprs, h1.ito.trans h2.ito, h2.itoOk, ?_, ?_⟩
  · intro env a ho
    obtain ⟨k1, k2⟩ := h2.sound env a ho
    obtain ⟨k3, k4⟩ := h1.sound env a k1
    exact ⟨k3, fun s hm => ⟨k4 s (hm.prefix h2.ito), k2 s hm⟩⟩
  · intro env a s hf hm hR hH
    obtain ⟨a1, p1, q1, m1⟩ := h1.complete env a s hf hm hR.1 hH.1
    obtain ⟨a2, p2, q2, m2⟩ := h2.complete env a1 s q1 m1 hR.2 hH.2
    exact ⟨a2, fun x hx => by
      rw [p2 x (lt_of_lt_of_le hx h1.exprs.length_le), p1 x hx], q2, m2⟩

theorem processInsn_eq (cfg : Cfg F) (i : SInsn F) (b : B F)
    (hin : ∀ x ∈ i.inputs, x < b.inToOut.length) :
    processInsn cfg i b =
      match (transform cfg (SInsn.replace (fun x => b.inToOut.getD x 0) i) >>=
        finishLowered cfg i.numOut) b with
      | .error e => .error e
      | .ok (xs, b') => .ok ((), { b' with inToOut := b'.inToOut ++ xs }) := by
  unfold processInsn
  rw [if_pos (by simpa using hin)]
  rcases ht : transform cfg (SInsn.replace (fun x => b.inToOut.getD x 0) i) b with e | ⟨l, b1⟩
  · rw [bind_err ht]
  · rw [bind_ok ht]
    cases l with
    | insn o =>
        simp only [finishLowered]
        by_cases hn : o.numOut = i.numOut
        · simp only [hn, ne_eq, not_true_eq_false, if_false]
          rcases push cfg o b1 with e | ⟨_, b2⟩ <;> rfl
        · simp only [ne_eq, hn, not_false_eq_true, if_true]
    | vars xs =>
        simp only [finishLowered]
        by_cases hn : xs.length = i.numOut
        · simp only [hn, ne_eq, not_true_eq_false, if_false]
        · simp only [ne_eq, hn, not_false_eq_true, if_true]

theorem processInsn_ok (cfg : Cfg F) {N : Nat} {b : B F} (h : Inv N b) (hito : ItoOk b)
    (h1 : 1 ≤ b.inToOut.length) {i : SInsn F}
    (hin : ∀ x ∈ i.inputs, 1 ≤ x ∧ x < b.inToOut.length)
    (hmul : ∀ xs, i = .mul xs → 2 ≤ xs.length) :
    processInsn cfg i b = .error .user ∨
      ∃ b', processInsn cfg i b = .ok ((), b') ∧
        b'.inToOut.length = b.inToOut.length + i.numOut ∧
        Ran X N b b' (fun env s => i.Holds env s b.inToOut.length)
          (fun s => i.Honest cfg.ev s b.inToOut.length) := by
  set f : Nat → Nat := fun x => b.inToOut.getD x 0 with hf
  set j := SInsn.replace f i with hj
  have hjr : ∀ x ∈ j.inputs, 1 ≤ x ∧ x < b.exprs.length := by
    intro x hx
    rw [hj, replace_inputs, List.mem_map] at hx
    obtain ⟨y, hy, rfl⟩ := hx
    exact hito y (hin y hy).1 (hin y hy).2
  have hjm : ∀ xs, j = .mul xs → 2 ≤ xs.length := by
    intro xs hxs
    rw [hj] at hxs
    cases i with
    | mul ys =>
        simp only [SInsn.replace, SInsn.mul.injEq] at hxs
        rw [← hxs, List.length_map]
        exact hmul ys rfl
    | _ => simp [SInsn.replace] at hxs
  have hjn : j.numOut = i.numOut := replace_numOut i f
  rw [processInsn_eq cfg i b fun x hx => (hin x hx).2]
  have ht := transform_ok (X := X) cfg h hjr hjm
  rw [hjn] at ht
  rcases ht with ht | ⟨xs, b1, ht, L⟩
  · left; rw [ht]
  · right
    rw [ht]
    have hnum := L.num
    rw [hjn] at hnum
    refine ⟨_, rfl, by simp [L.ito, hnum], ⟨⟨⟨L.inv.wf.pool, L.inv.wf.zero, L.inv.wf.wf,
      L.inv.wf.len, L.inv.wf.mto, L.inv.wf.mtoRef, L.inv.wf.e2o, L.inv.wf.e2oRef,
      L.inv.wf.cons⟩, L.inv.loc, L.inv.val, L.inv.marked⟩, L.exprs, ?_, ?_, ?_, ?_⟩⟩
    · show b.inToOut <+: b1.inToOut ++ xs
      rw [L.ito]; exact List.prefix_append _ _
    · intro x hx1 hx2
      show 1 ≤ (b1.inToOut ++ xs).getD x 0 ∧ (b1.inToOut ++ xs).getD x 0 < b1.exprs.length
      change x < (b1.inToOut ++ xs).length at hx2
      rw [L.ito] at hx2 ⊢
      by_cases hlt : x < b.inToOut.length
      · rw [getD_prefix (List.prefix_append _ _) hlt]
        have := hito x hx1 hlt
        have := L.exprs.length_le
        omega
      · rw [List.length_append] at hx2
        have hg : (b.inToOut ++ xs).getD x 0 ∈ xs := by
          rw [List.getD_eq_getElem?_getD, List.getElem?_append_right (by omega),
            List.getElem?_eq_getElem (by omega)]
          exact List.getElem_mem _
        exact L.range _ hg
    · intro env a ho
      obtain ⟨k1, k2⟩ := L.sound env a ho
      refine ⟨k1, fun s hm => ?_⟩
      have hmb : Match a s b := hm.prefix (b' := { b1 with inToOut := b1.inToOut ++ xs }) (by
        show b.inToOut <+: b1.inToOut ++ xs
        rw [L.ito]; exact List.prefix_append _ _)
      have hnew : ∀ k, k < i.numOut → some (s (b.inToOut.length + k)) = (xs[k]?).map a := by
        intro k hk
        have := hm (b.inToOut.length + k) (by omega) (by
          show _ < (b1.inToOut ++ xs).length
          rw [List.length_append, L.ito]; omega)
        rw [this]
        show some (a ((b1.inToOut ++ xs).getD (b.inToOut.length + k) 0)) = _
        rw [L.ito, List.getD_eq_getElem?_getD, List.getElem?_append_right (by omega),
          Nat.add_sub_cancel_left, List.getElem?_eq_getElem (by omega)]
        rfl
      set a' : Nat → F := fun z => if z < b.exprs.length then a z else
        s (b.inToOut.length + (z - b.exprs.length)) with ha'
      have hold : ∀ z, z < b.exprs.length → a' z = a z := fun z hz => by
        simp only [ha', if_pos hz]
      have hnw : ∀ k, a' (b.exprs.length + k) = s (b.inToOut.length + k) := fun k => by
        simp only [ha', if_neg (show ¬ b.exprs.length + k < b.exprs.length by omega),
          Nat.add_sub_cancel_left]
      refine (holds_replace i f env s a' _ b.exprs.length ?_ fun k _ => (hnw k).symm).2
        (k2 a' hold ?_)
      · intro x hx
        have hxr := hin x hx
        rw [hmb x hxr.1 hxr.2, hold _ (hito x hxr.1 hxr.2).2]
      · apply List.ext_getElem?
        intro k
        rw [List.getElem?_map, hjn]
        unfold outs
        rw [List.getElem?_map]
        by_cases hk : k < i.numOut
        · rw [List.getElem?_range hk, ← hnew k hk, Option.map_some, hnw]
        · rw [List.getElem?_eq_none (by simp; omega), List.getElem?_eq_none (by omega)]
          rfl
    · intro env a s hfu hm hR hH
      set a' : Nat → F := fun z => if z < b.exprs.length then a z else
        s (b.inToOut.length + (z - b.exprs.length)) with ha'
      have hold : ∀ z, z < b.exprs.length → a' z = a z := fun z hz => by
        simp only [ha', if_pos hz]
      have hnw : ∀ k, a' (b.exprs.length + k) = s (b.inToOut.length + k) := fun k => by
        simp only [ha', if_neg (show ¬ b.exprs.length + k < b.exprs.length by omega),
          Nat.add_sub_cancel_left]
      have hins : ∀ x ∈ i.inputs, s x = a' (f x) := by
        intro x hx
        have hxr := hin x hx
        rw [hm x hxr.1 hxr.2, hold _ (hito x hxr.1 hxr.2).2]
      obtain ⟨a2, p2, q2, r2⟩ := L.complete env a'
        (h.full_local (fun z hz => (hold z hz).symm) hfu)
        ((holds_replace i f env s a' _ b.exprs.length hins fun k _ => (hnw k).symm).1 hR)
        (honest_replace cfg.ev i f s a' _ b.exprs.length hins (fun k _ => (hnw k).symm) hH)
      refine ⟨a2, fun x hx => by rw [p2 x hx, hold x hx], q2, ?_⟩
      intro x hx1 hx2
      show s x = a2 ((b1.inToOut ++ xs).getD x 0)
      change x < (b1.inToOut ++ xs).length at hx2
      rw [L.ito] at hx2 ⊢
      by_cases hlt : x < b.inToOut.length
      · rw [getD_prefix (List.prefix_append _ _) hlt, p2 _ (hito x hx1 hlt).2,
          hold _ (hito x hx1 hlt).2, hm x hx1 hlt]
      · rw [List.length_append] at hx2
        rw [List.getD_eq_getElem?_getD, List.getElem?_append_right (by omega)]
        have hr := congrArg (fun l => l[x - b.inToOut.length]?) r2
        simp only [List.getElem?_map, outs, hjn] at hr
        rw [List.getElem?_range (by omega), List.getElem?_eq_getElem (by omega)] at hr
        simp only [Option.map_some, Option.some.injEq] at hr
        rw [List.getElem?_eq_getElem (by omega), Option.getD_some, hr, hnw]
        congr 1; omega

theorem processInsns_ok (cfg : Cfg F) {N : Nat} (l : List (SInsn F)) {b : B F} (h : Inv N b)
    (hito : ItoOk b) (h1 : 1 ≤ b.inToOut.length) (hv : SInsn.ValidAll b.inToOut.length l) :
    processInsns cfg l b = .error .user ∨
      ∃ b', processInsns cfg l b = .ok ((), b') ∧
        b'.inToOut.length = b.inToOut.length + totalOut l ∧
        Ran X N b b' (fun env s => SInsn.HoldAll env s b.inToOut.length l)
          (fun s => SInsn.HonestAll cfg.ev s b.inToOut.length l) := by
  induction l generalizing b with
  | nil =>
      right
      exact ⟨b, rfl, by simp [totalOut], h, List.prefix_refl _, List.prefix_refl _, hito,
        fun env a ho => ⟨ho, fun _ _ => trivial⟩,
        fun env a s hf hm _ _ => ⟨a, fun _ _ => rfl, hf, hm⟩⟩
  | cons i l ih =>
      obtain ⟨v1, v2, v3⟩ := hv
      rcases processInsn_ok cfg h hito h1 v1 v2 with he | ⟨b1, e1, l1, r1⟩
      · left; rw [processInsns]; exact bind_err he
      · rw [processInsns, bind_ok e1]
        rw [← l1] at v3
        rcases ih r1.inv r1.itoOk (by omega) v3 with he | ⟨b2, e2, l2, r2⟩
        · left; exact he
        · right
          refine ⟨b2, e2, by rw [l2, l1]; simp [totalOut]; omega, ?_⟩
          have := r1.trans r2
          rw [l1] at this
          exact this

/-! ## Constraints -/

theorem transformCon_ok (cfg : Cfg F) {N : Nat} {b : B F} (h : Inv N b) {x : Nat} (ty : ConType)
    (hx : 1 ≤ x ∧ x < b.exprs.length) :
    ∃ b', (do let t ← transformCon cfg x ty; assertZ t : M F Unit) b = .ok ((), b') ∧
      Grow X N b b' (fun _ a => ty.Holds (a x)) (fun _ a => ty.Holds (a x)) := by
  cases ty with
  | zero =>
      obtain ⟨b', e, l, g⟩ := assertZ_grow (X := X) h hx.1 hx.2
      exact ⟨b', by rw [bind_ok (x := x) (b' := b) rfl, e], g⟩
  | bool =>
      obtain ⟨b', e, l, g⟩ := assertBool_grow (X := X) cfg h hx
      exact ⟨b', e, g⟩
  | nonZero =>
      obtain ⟨b1, e1, l1, g1⟩ := pushConst_grow (X := X) cfg h 1
      obtain ⟨b2, e2, l2, g2, c2⟩ := pushHint_grow (X := X) cfg g1.inv hintDiv
        (xs := [b.exprs.length, x]) (by
          intro z hz
          simp only [List.mem_cons, List.not_mem_nil, or_false] at hz
          rcases hz with rfl | rfl <;> omega) 1
      obtain ⟨b3, e3, l3, g3⟩ := pushMul_grow (X := X) cfg g2.inv (x := x) (y := b1.exprs.length)
        (by omega) (by omega)
      obtain ⟨b4, e4, l4, g4⟩ := pushLin2_grow (X := X) cfg g3.inv (x := b2.exprs.length)
        (y := b.exprs.length) 1 (-1) (by omega) (by omega)
      obtain ⟨b5, e5, l5, g5⟩ := assertZ_grow (X := X) g4.inv (t := b3.exprs.length) (by omega) (by omega)
      refine ⟨b5, ?_, g5.inv,
        g1.exprs.trans (g2.exprs.trans (g3.exprs.trans (g4.exprs.trans g5.exprs))),
        by rw [g5.ito, g4.ito, g3.ito, g2.ito, g1.ito], ?_, ?_⟩
      · rw [bind_ok (x := b3.exprs.length) (b' := b4) (by
          unfold transformCon
          simp only
          rw [bind_ok e1, bind_ok e2, bind_ok e3]
          unfold pushSub
          exact e4), e5]
      · intro env a ho
        obtain ⟨k4, s5⟩ := g5.sound env a ho
        obtain ⟨k3, s4⟩ := g4.sound env a k4
        obtain ⟨k2, s3⟩ := g3.sound env a k3
        obtain ⟨k1, -⟩ := g2.sound env a k2
        obtain ⟨k0, s1⟩ := g1.sound env a k1
        refine ⟨k0, ?_⟩
        simp only [ConType.Holds]
        intro h0
        rw [s5, s3, s1, h0] at s4
        have : (1 : F) = 0 := by linear_combination s4
        exact one_ne_zero this
      · intro env a hf hP
        simp only [ConType.Holds] at hP
        obtain ⟨a1, p1, q1, s1⟩ := g1.complete env a hf trivial
        obtain ⟨a2, p2, q2, s2⟩ := c2 env a1 (fun _ => (a x)⁻¹) q1
        obtain ⟨a3, p3, q3, s3⟩ := g3.complete env a2 q2 trivial
        obtain ⟨a4, p4, q4, s4⟩ := g4.complete env a3 q3 trivial
        obtain ⟨a5, p5, q5, -⟩ := g5.complete env a4 q4 (by
          show a4 b3.exprs.length = 0
          rw [s4, p4 _ (by omega), s3, p3 x (by omega), p3 _ (by omega), p2 x (by omega), p1 x hx.2,
            show a2 b1.exprs.length = (a x)⁻¹ from s2 0, mul_inv_cancel₀ hP, p4 _ (by omega),
            p3 _ (by omega), p2 _ (by omega), s1]
          ring)
        have hold : ∀ z, z < b.exprs.length → a5 z = a z := fun z hz => by
          rw [p5 z (by omega), p4 z (by omega), p3 z (by omega), p2 z (by omega), p1 z hz]
        refine ⟨a5, hold, q5, ?_⟩
        simp only [ConType.Holds]
        rw [hold x hx.2]; exact hP

theorem processCons_ok (cfg : Cfg F) {N : Nat} (l : List (Nat × ConType)) {b : B F} (h : Inv N b)
    (hito : ItoOk b) (hv : ∀ con ∈ l, 1 ≤ con.1 ∧ con.1 < b.inToOut.length) :
    ∃ b', processCons cfg l b = .ok ((), b') ∧ b'.inToOut = b.inToOut ∧
      Ran X N b b' (fun _ s => ∀ con ∈ l, con.2.Holds (s con.1)) (fun _ => True) := by
  induction l generalizing b with
  | nil =>
      exact ⟨b, rfl, rfl, h, List.prefix_refl _, List.prefix_refl _, hito,
        fun env a ho => ⟨ho, fun _ _ => by simp⟩,
        fun env a s hf hm _ _ => ⟨a, fun _ _ => rfl, hf, hm⟩⟩
  | cons con l ih =>
      obtain ⟨c1, c2⟩ := hv con List.mem_cons_self
      have hget : b.inToOut[con.1]? = some (b.inToOut.getD con.1 0) := by
        rw [List.getD_eq_getElem?_getD, List.getElem?_eq_getElem c2]; rfl
      have hr := hito con.1 c1 c2
      obtain ⟨b1, e1, g1⟩ := transformCon_ok (X := X) cfg h con.2 hr
      have hitoEq : b1.inToOut = b.inToOut := g1.ito
      have hl1 := g1.len
      have hito1 : ItoOk b1 := by
        intro x h1 h2
        rw [hitoEq] at h2 ⊢
        have := hito x h1 h2
        omega
      obtain ⟨b2, e2, l2, r2⟩ := ih g1.inv hito1 fun d hd => by
        rw [hitoEq]; exact hv d (List.mem_cons_of_mem _ hd)
      have r1 : Ran X N b b1 (fun _ s => con.2.Holds (s con.1)) (fun _ => True) := by
        refine ⟨g1.inv, g1.exprs, by rw [hitoEq]; exact List.prefix_refl _, hito1, ?_, ?_⟩
        · intro env a ho
          obtain ⟨k1, k2⟩ := g1.sound env a ho
          refine ⟨k1, fun s hm => ?_⟩
          rw [hm con.1 c1 (by rw [hitoEq]; exact c2), hitoEq]; exact k2
        · intro env a s hf hm hR _
          obtain ⟨a', p, q, -⟩ := g1.complete env a hf (by
            show con.2.Holds (a (b.inToOut.getD con.1 0))
            rw [← hm con.1 c1 c2]; exact hR)
          refine ⟨a', p, q, ?_⟩
          intro x h1 h2
          rw [hitoEq] at h2 ⊢
          rw [p _ (hito x h1 h2).2, hm x h1 h2]
      have rt := r1.trans r2
      refine ⟨b2, ?_, l2.trans hitoEq, rt.inv, rt.exprs, rt.ito, rt.itoOk, ?_, ?_⟩
      · rw [processCons, bind_ok (x := ()) (b' := b1), e2]
        unfold processCon
        rw [hget]
        exact e1
      · intro env a ho
        obtain ⟨k1, k2⟩ := rt.sound env a ho
        refine ⟨k1, fun s hm => ?_⟩
        obtain ⟨m1, m2⟩ := k2 s hm
        intro d hd
        rcases List.mem_cons.1 hd with rfl | hd
        · exact m1
        · exact m2 d hd
      · intro env a s hf hm hR _
        exact rt.complete env a s hf hm ⟨hR con List.mem_cons_self,
          fun d hd => hR d (List.mem_cons_of_mem _ hd)⟩ ⟨trivial, trivial⟩

/-! ## Start and end -/

theorem inv_new : Inv 0 (B.new : B F) := by
  refine ⟨⟨⟨rfl, by simp [B.new], ?_⟩, rfl, ?_, rfl, by simp [B.new], ?_, ?_, ?_, ?_⟩, ?_, ?_, ?_⟩
  · intro j e hj he
    simp only [B.new] at he
    have := get?_lt he
    simp at this; omega
  · intro e he
    simp only [B.new, List.mem_singleton] at he
    subst he; exact wf_zeroExpr _
  · intro j x k c hj
    simp only [B.new] at hj
    have := get?_lt hj
    simp at this; subst this; simp at hj
  · intro i e hi he
    simp only [B.new] at he
    have := get?_lt he
    simp at this; omega
  · intro e v hv; simp [B.new, lookup] at hv
  · intro e s hs; simp [B.new, lookup] at hs
  · intro env a a' _ _; exact trivial
  · intro env a _
    refine ⟨a, ?_, ?_, ?_⟩
    · intro j e hj he
      simp only [B.new] at he
      have := get?_lt he
      simp at this; omega
    · intro i e hi he
      simp only [B.new] at he
      have := get?_lt he
      simp at this; omega
    · intro j x k c hj
      simp only [B.new] at hj
      have := get?_lt hj
      simp at this; subst this; simp at hj
  · intro env a _ e he; simp [B.new, lookup] at he

theorem addInput_ok (n : Nat) :
    ∃ b : B F, addInput n B.new = .ok ((), b) ∧ Inv n b ∧ ItoOk b ∧
      b.inToOut = (List.range (n + 1)) ∧ b.insns = [] ∧ b.cons = [] ∧ b.clash = false := by
  obtain ⟨b, h1, h2, h3, h4, h5, h6, h7, h8⟩ := fresh_inv (N' := n) (n := n) (inv_new (F := F))
    (ins := []) (P := [[]]) (List.prefix_refl _) inv_new.wf.pool (by simp [B.new, sumOut]; omega)
    (fun _ _ _ => trivial) (fun _ _ _ _ _ => trivial)
  have hito : b.inToOut ++ (List.range n).map (fun i => i + 1) = List.range (n + 1) := by
    rw [h5, List.range_succ_eq_map]; rfl
  refine ⟨{ b with inToOut := b.inToOut ++ (List.range n).map fun i => i + 1 }, ?_,
    ⟨⟨h2.wf.pool, h2.wf.zero, h2.wf.wf, h2.wf.len, h2.wf.mto, h2.wf.mtoRef, h2.wf.e2o,
      h2.wf.e2oRef, h2.wf.cons⟩, h2.loc, h2.val, h2.marked⟩, ?_, hito, h8, h6, h7⟩
  · unfold addInput
    have : addOutVars n (B.new : B F) = .ok b := h1
    rw [this]
  · intro x hx1 hx2
    show 1 ≤ (b.inToOut ++ (List.range n).map fun i => i + 1).getD x 0 ∧
      (b.inToOut ++ (List.range n).map fun i => i + 1).getD x 0 < b.exprs.length
    change x < (b.inToOut ++ (List.range n).map fun i => i + 1).length at hx2
    rw [hito] at hx2 ⊢
    rw [List.length_range] at hx2
    rw [List.getD_eq_getElem?_getD, List.getElem?_range hx2, Option.getD_some, h4]
    simp [B.new]; omega

theorem collect_ok {N : Nat} {b : B F} (h : Inv N b) (l : List (Expr F × Status)) :
    ∃ vs, collect b l = some vs ∧
      (∀ v ∈ vs, ∃ e, lookup e b.cons = some .asserted ∧ 1 ≤ v ∧ b.exprs[v]? = some e) ∧
      (∀ e, (e, Status.asserted) ∈ l → lookup e b.cons = some .asserted →
        ∃ v ∈ vs, 1 ≤ v ∧ b.exprs[v]? = some e) := by
  induction l with
  | nil => exact ⟨[], rfl, by simp, by simp⟩
  | cons es l ih =>
      obtain ⟨e, s⟩ := es
      obtain ⟨vs, h1, h2, h3⟩ := ih
      by_cases hs : s = .asserted ∧ lookup e b.cons = some .asserted
      · obtain ⟨i, hi, hie⟩ := h.wf.cons e _ hs.2
        obtain ⟨v, hv⟩ := h.wf.e2o i e hi hie
        obtain ⟨k1, k2⟩ := h.wf.e2oRef e v hv
        refine ⟨v :: vs, ?_, ?_, ?_⟩
        · simp only [collect, h1, Option.bind_eq_bind, Option.bind_some, if_pos hs, hv]
        · intro w hw
          rcases List.mem_cons.1 hw with rfl | hw
          · exact ⟨e, hs.2, k1, k2⟩
          · exact h2 w hw
        · intro d hd hld
          rcases List.mem_cons.1 hd with hde | hd
          · simp only [Prod.mk.injEq] at hde
            rw [hde.1]
            exact ⟨v, by simp, k1, k2⟩
          · obtain ⟨w, hw, hw'⟩ := h3 d hd hld
            exact ⟨w, by simp [hw], hw'⟩
      · refine ⟨vs, ?_, h2, ?_⟩
        · simp only [collect, h1, Option.bind_eq_bind, Option.bind_some, if_neg hs]
        · intro d hd hld
          rcases List.mem_cons.1 hd with hde | hd
          · simp only [Prod.mk.injEq] at hde
            exact absurd ⟨hde.2.symm, hde.1 ▸ hld⟩ hs
          · exact h3 d hd hld

theorem mem_of_lookup {α : Type} {e : Expr F} {v : α} {l : List (Expr F × α)}
    (h : lookup e l = some v) : (e, v) ∈ l := by
  induction l with
  | nil => cases h
  | cons p l ih =>
      obtain ⟨k, w⟩ := p
      rw [lookup] at h
      split_ifs at h with hk
      · cases h; subst hk; simp
      · exact List.mem_cons_of_mem _ (ih h)

theorem mapOutputs_ok {b : B F} {l : List Nat} (h : ∀ o ∈ l, o < b.inToOut.length) :
    mapOutputs b l = some (l.map fun o => b.inToOut.getD o 0) := by
  induction l with
  | nil => rfl
  | cons o l ih =>
      have ho := h o List.mem_cons_self
      rw [mapOutputs, List.getElem?_eq_getElem ho, ih fun x hx => h x (List.mem_cons_of_mem _ hx)]
      simp [List.getD, ho]

/-- The relation between a source circuit and what the pass makes of it. -/
structure Compiled (cfg : Cfg F) (c : SCircuit F) (oc : OCircuit F) (b : B F) : Prop where
  inputs : oc.numInputs = c.numInputs
  sound : b.clash = false → ∀ env ins outs, OCircuit.Sat env oc ins outs → SCircuit.Sat env c ins outs
  complete : ∀ env ins outs, SCircuit.HonestSat cfg.ev env c ins outs → OCircuit.Sat env oc ins outs

theorem processCircuit_ok (cfg : Cfg F) (c : SCircuit F) (hv : c.Valid) :
    processCircuit cfg c = .error .user ∨
      ∃ oc b, processCircuit cfg c = .ok (oc, b) ∧ Compiled cfg c oc b := by
  obtain ⟨b0, e0, i0, t0, ito0, ins0, cons0, cl0⟩ := addInput_ok (F := F) c.numInputs
  have hl0 : b0.inToOut.length = c.numInputs + 1 := by rw [ito0, List.length_range]
  rcases processInsns_ok cfg c.insns i0 t0 (by omega) (by rw [hl0]; exact hv.insns) with
    he | ⟨b1, e1, l1, r1⟩
  · left
    unfold processCircuit runCircuit
    rw [bind_ok e0, bind_err he]; rfl
  · right
    obtain ⟨b2, e2, l2, r2⟩ := processCons_ok (X := fun _ => False) cfg c.cons r1.inv r1.itoOk (by
      intro con hcon
      have := hv.cons con hcon
      rw [l1, hl0]; exact this)
    have hlen : b2.inToOut.length = c.numInputs + 1 + totalOut c.insns := by
      rw [l2, l1, hl0]
    have R := r1.trans r2
    rw [hl0] at R
    obtain ⟨vs, hc1, hc2, hc3⟩ := collect_ok r2.inv b2.cons
    have hmo := mapOutputs_ok (b := b2) (l := c.outputs) fun o ho => by
      have := hv.outputs o ho; omega
    refine ⟨⟨b2.insns, vs, c.outputs.map fun o => b2.inToOut.getD o 0, c.numInputs⟩, b2, ?_, rfl,
      ?_, ?_⟩
    · unfold processCircuit runCircuit
      rw [bind_ok e0, bind_ok e1, e2]
      show Except.bind (orPanic (collect b2 b2.cons)) _ = _
      rw [hc1]
      show Except.bind (orPanic (mapOutputs b2 c.outputs)) _ = _
      rw [hmo]
      rfl
    · rintro hcl env ins outs ⟨a, ha1, ha2, ha3, ha4⟩
      have hcons : Cons env c.numInputs a b2 := ha2
      have hval := r2.inv.val env a hcons
      have haz : AssertedZero a b2 := by
        intro e i hl hi hie
        obtain ⟨v, hv1, hv2, hv3⟩ := hc3 e (mem_of_lookup hl) hl
        rw [hval.same hi hv2 hie hv3]
        exact ha3 v hv1
      obtain ⟨-, hR⟩ := R.sound env a ⟨hcons, haz, hcl⟩
      obtain ⟨hR1, hR2⟩ := hR (fun x => a (b2.inToOut.getD x 0)) fun x _ _ => rfl
      have hpre : b0.inToOut <+: b2.inToOut := R.ito
      refine ⟨fun x => a (b2.inToOut.getD x 0), ?_, hR1, hR2, ?_⟩
      · rw [ha1]
        apply List.map_congr_left
        intro i hi
        rw [List.mem_range] at hi
        change i < c.numInputs at hi
        show a (i + 1) = a (b2.inToOut.getD (i + 1) 0)
        rw [getD_prefix hpre (by omega), ito0, List.getD_eq_getElem?_getD,
          List.getElem?_range (by omega)]
        rfl
      · rw [ha4, List.map_map]; rfl
    · rintro env ins outs ⟨s, hs1, hs2, hs3, hs4, hs5⟩
      have hf0 : Full (fun _ => False) env c.numInputs s b0 := by
        refine ⟨?_, ?_⟩
        · unfold Cons; rw [ins0]; trivial
        · intro e i _ hl; rw [cons0] at hl; simp [lookup] at hl
      obtain ⟨a, p, q, m⟩ := R.complete env s s hf0 (by
        intro x hx1 hx2
        rw [hl0] at hx2
        rw [ito0, List.getD_eq_getElem?_getD, List.getElem?_range hx2, Option.getD_some])
        ⟨hs2, hs4⟩ ⟨hs3, trivial⟩
      refine ⟨a, ?_, q.1, ?_, ?_⟩
      · rw [hs1]
        apply List.map_congr_left
        intro i hi
        rw [List.mem_range] at hi
        have hil := i0.wf.len
        rw [p (i + 1) (by omega)]
      · intro v hvm
        obtain ⟨e, k1, k2, k3⟩ := hc2 v hvm
        exact q.2 e v not_false k1 k2 k3
      · rw [hs5, List.map_map]
        apply List.map_congr_left
        intro o ho
        have := hv.outputs o ho
        simp only [Function.comp]
        rw [m o this.1 (by omega)]

end JST.Comp
