import Verif.Compiler.BuilderPush

/-!
# What a sequence of builder operations adds
-/

namespace JST.Comp

open JST.Circ

variable {F : Type} [Field F] [DecidableEq F] {X : Expr F → Prop}

/-- Values which respect the instructions and the asserted constraints, those in `X` excepted. -/
def Full (X : Expr F → Prop) (env : Env F) (N : Nat) (a : Nat → F) (b : B F) : Prop :=
  Cons env N a b ∧ ∀ (e : Expr F) (i : Nat), ¬X e → lookup e b.cons = some .asserted → 1 ≤ i →
    b.exprs[i]? = some e → a i = 0

/-- `b'` continues `b` and adds the condition `S` on the values. -/
structure Step (X : Expr F → Prop) (N : Nat) (b b' : B F) (S : Env F → (Nat → F) → Prop) : Prop where
  inv : Inv N b'
  exprs : b.exprs <+: b'.exprs
  ito : b'.inToOut = b.inToOut
  sound : ∀ env a, OK env N a b' → OK env N a b ∧ S env a
  complete : ∀ env a, Full X env N a b → S env a → Full X env N a b'

theorem Step.refl {N : Nat} {b : B F} (h : Inv N b) : Step X N b b fun _ _ => True :=
  ⟨h, List.prefix_refl _, rfl, fun _ _ h => ⟨h, trivial⟩, fun _ _ h _ => h⟩

theorem Step.trans {N : Nat} {b c d : B F} {S T : Env F → (Nat → F) → Prop} (h1 : Step X N b c S)
    (h2 : Step X N c d T) : Step X N b d fun env a => S env a ∧ T env a :=
  ⟨h2.inv, h1.exprs.trans h2.exprs, h2.ito.trans h1.ito, fun env a h => by
    obtain ⟨k1, k2⟩ := h2.sound env a h
    obtain ⟨k3, k4⟩ := h1.sound env a k1
    exact ⟨k3, k4, k2⟩, fun env a h hS => h2.complete env a (h1.complete env a h hS.1) hS.2⟩

theorem Step.weaken {N : Nat} {b c : B F} {S T : Env F → (Nat → F) → Prop} (h : Step X N b c S)
    (hST : ∀ env a, S env a ↔ T env a) : Step X N b c T :=
  ⟨h.inv, h.exprs, h.ito, fun env a hh => by
    obtain ⟨k1, k2⟩ := h.sound env a hh
    exact ⟨k1, (hST env a).1 k2⟩, fun env a hh hT => h.complete env a hh ((hST env a).2 hT)⟩

theorem Step.len {N : Nat} {b c : B F} {S : Env F → (Nat → F) → Prop} (h : Step X N b c S) :
    b.exprs.length ≤ c.exprs.length := h.exprs.length_le

/-- Extending the values does not break anything. -/
theorem Inv.full_local {N : Nat} {b : B F} (h : Inv N b) {env : Env F} {a a' : Nat → F}
    (hag : ∀ i, i < b.exprs.length → a i = a' i) (hf : Full X env N a b) : Full X env N a' b :=
  ⟨h.loc env a a' hag hf.1, fun e i hX h1 h2 h3 => by
    rw [← hag i (get?_lt h3)]; exact hf.2 e i hX h1 h2 h3⟩

theorem Pushed.step {N : Nat} {b b' : B F} {i : OInsn F} (h : Inv N b) (p : Pushed N b i b') :
    Step X N b b' fun env a => i.Holds env a b.exprs.length := by
  refine ⟨p.inv, p.exprs, p.ito, ?_, ?_⟩
  · intro env a ⟨h1, h2, h3⟩
    obtain ⟨k1, k2⟩ := (p.cons env a).1 h1
    exact ⟨⟨k1, fun e x g1 g2 g3 => h2 e x (p.same ▸ g1) g2 (get?_prefix p.exprs g3),
      p.clash ▸ h3⟩, k2⟩
  · intro env a ⟨h1, h2⟩ hh
    have hc := (p.cons env a).2 ⟨h1, hh⟩
    refine ⟨hc, fun e x hX g1 g2 g3 => ?_⟩
    rw [p.same] at g1
    obtain ⟨y, k1, k2⟩ := h.wf.cons e _ g1
    rw [(p.inv.val env a hc).same g2 k1 g3 (get?_prefix p.exprs k2)]
    exact h2 e y hX g1 k1 k2

theorem lookup_cons_self {α : Type} (e : Expr F) (v : α) (r : List (Expr F × α)) :
    lookup e ((e, v) :: r) = some v := by rw [lookup, if_pos rfl]

theorem lookup_cons_ne {α : Type} {e d : Expr F} (h : e ≠ d) (v : α) (r : List (Expr F × α)) :
    lookup d ((e, v) :: r) = lookup d r := by rw [lookup, if_neg h]

/-- `basic.rs:222-233`. -/
theorem assertZ_ok {N : Nat} {b : B F} (h : Inv N b) {t : Nat} (h1 : 1 ≤ t)
    (h2 : t < b.exprs.length) :
    ∃ b', assertZ t b = .ok ((), b') ∧ b'.exprs = b.exprs ∧ Step X N b b' fun _ a => a t = 0 := by
  have hget : b.exprs[t]? = some b.exprs[t] := List.getElem?_eq_getElem h2
  set e := b.exprs[t] with he
  have hval : ∀ env a i, Cons env N a b → 1 ≤ i → b.exprs[i]? = some e → a i = a t :=
    fun env a i hc hi hie => (h.val env a hc).same hi h1 hie hget
  unfold assertZ
  rw [hget]
  simp only [orPanic, bind, Except.bind]
  cases hl : lookup e b.cons with
  | some s =>
      refine ⟨b, rfl, rfl, h, List.prefix_refl _, rfl, fun env a hok => ⟨hok, ?_⟩,
        fun env a hf _ => hf⟩
      cases s with
      | asserted => exact hok.2.1 e t hl h1 hget
      | marked =>
          obtain ⟨i, g1, g2, g3⟩ := h.marked env a hok e hl
          rw [← hval env a i hok.1 g1 g2]; exact g3
  | none =>
      refine ⟨_, rfl, rfl, ?_⟩
      have hok : ∀ env a, OK env N a { b with cons := (e, .asserted) :: b.cons } →
          OK env N a b ∧ a t = 0 := by
        intro env a ⟨g1, g2, g3⟩
        refine ⟨⟨g1, fun d i k1 k2 k3 => g2 d i ?_ k2 k3, g3⟩, g2 e t (lookup_cons_self _ _ _) h1 hget⟩
        have hne : e ≠ d := by rintro rfl; rw [hl] at k1; cases k1
        show lookup d ((e, .asserted) :: b.cons) = _
        rw [lookup_cons_ne hne]; exact k1
      refine ⟨⟨⟨h.wf.pool, h.wf.zero, h.wf.wf, h.wf.len, h.wf.mto, h.wf.mtoRef, h.wf.e2o,
        h.wf.e2oRef, ?_⟩, h.loc, h.val, ?_⟩, List.prefix_refl _, rfl, hok, ?_⟩
      · intro d s hd
        by_cases hed : e = d
        · exact ⟨t, h1, hed ▸ hget⟩
        · change lookup d ((e, .asserted) :: b.cons) = _ at hd
          rw [lookup_cons_ne hed] at hd
          exact h.wf.cons d s hd
      · intro env a ho d hd
        change lookup d ((e, .asserted) :: b.cons) = _ at hd
        by_cases hed : e = d
        · subst hed; rw [lookup_cons_self] at hd; cases hd
        · rw [lookup_cons_ne hed] at hd
          exact h.marked env a (hok env a ho).1 d hd
      · intro env a hf ht
        refine ⟨hf.1, fun d i hX k1 k2 k3 => ?_⟩
        change lookup d ((e, .asserted) :: b.cons) = _ at k1
        by_cases hed : e = d
        · subst hed
          rw [hval env a i hf.1 k2 k3]; exact ht
        · rw [lookup_cons_ne hed] at k1
          exact hf.2 d i hX k1 k2 k3

/-- `basic.rs:235-245`: marking an expression which is known to be zero, without the help of an
assertion of the expression itself. -/
theorem mark_ok {N : Nat} {b : B F} (h : Inv N b) {t : Nat} (h1 : 1 ≤ t)
    (h2 : t < b.exprs.length)
    (hz : ∀ env a, Cons env N a b → b.clash = false →
      (∀ (d : Expr F) (i : Nat), b.exprs[t]? ≠ some d → lookup d b.cons = some .asserted → 1 ≤ i →
        b.exprs[i]? = some d → a i = 0) → a t = 0) :
    ∃ b', mark t b = .ok ((), b') ∧ b'.exprs = b.exprs ∧ Step X N b b' fun _ _ => True := by
  have hget : b.exprs[t]? = some b.exprs[t] := List.getElem?_eq_getElem h2
  set e := b.exprs[t] with he
  unfold mark
  rw [hget]
  simp only [orPanic, bind, Except.bind]
  refine ⟨_, rfl, rfl, ?_⟩
  have hok : ∀ env a, OK env N a { b with cons := (e, .marked) :: b.cons } →
      OK env N a b ∧ a t = 0 := by
    intro env a ⟨g1, g2, g3⟩
    have hne : ∀ (d : Expr F) (i : Nat), e ≠ d → lookup d b.cons = some .asserted → 1 ≤ i →
        b.exprs[i]? = some d → a i = 0 := by
      intro d i hed k1 k2 k3
      refine g2 d i ?_ k2 k3
      show lookup d ((e, .marked) :: b.cons) = _
      rw [lookup_cons_ne hed]; exact k1
    have ht : a t = 0 := hz env a g1 g3 fun d i hd => hne d i fun hh => hd (by rw [hget, hh])
    refine ⟨⟨g1, fun d i k1 k2 k3 => ?_, g3⟩, ht⟩
    by_cases hed : e = d
    · subst hed
      rw [(h.val env a g1).same k2 h1 k3 hget]; exact ht
    · exact hne d i hed k1 k2 k3
  refine ⟨⟨⟨h.wf.pool, h.wf.zero, h.wf.wf, h.wf.len, h.wf.mto, h.wf.mtoRef, h.wf.e2o,
    h.wf.e2oRef, ?_⟩, h.loc, h.val, ?_⟩, List.prefix_refl _, rfl,
    fun env a ho => ⟨(hok env a ho).1, trivial⟩, ?_⟩
  · intro d s hd
    by_cases hed : e = d
    · exact ⟨t, h1, hed ▸ hget⟩
    · change lookup d ((e, .marked) :: b.cons) = _ at hd
      rw [lookup_cons_ne hed] at hd
      exact h.wf.cons d s hd
  · intro env a ho d hd
    change lookup d ((e, .marked) :: b.cons) = _ at hd
    by_cases hed : e = d
    · exact ⟨t, h1, hed ▸ hget, (hok env a ho).2⟩
    · rw [lookup_cons_ne hed] at hd
      exact h.marked env a (hok env a ho).1 d hd
  · intro env a hf _
    refine ⟨hf.1, fun d i hX k1 k2 k3 => ?_⟩
    change lookup d ((e, .marked) :: b.cons) = _ at k1
    by_cases hed : e = d
    · subst hed; rw [lookup_cons_self] at k1; cases k1
    · rw [lookup_cons_ne hed] at k1
      exact hf.2 d i hX k1 k2 k3

theorem note_ok {N : Nat} {b : B F} (h : Inv N b) {t : Nat} (h2 : t < b.exprs.length) :
    ∃ b', note t b = .ok ((), b') ∧ b'.exprs = b.exprs ∧ b'.cons = b.cons ∧
      (b'.clash = false → lookup b.exprs[t] b.cons ≠ some .asserted) ∧
      Step X N b b' fun _ _ => True := by
  have hget : b.exprs[t]? = some b.exprs[t] := List.getElem?_eq_getElem h2
  unfold note
  rw [hget]
  simp only [orPanic, bind, Except.bind]
  have hok : ∀ env a, OK env N a { b with
      clash := b.clash || lookup b.exprs[t] b.cons == some .asserted } → OK env N a b := by
    intro env a ⟨g1, g2, g3⟩
    simp only [Bool.or_eq_false_iff] at g3
    exact ⟨g1, g2, g3.1⟩
  refine ⟨_, rfl, rfl, rfl, ?_, ⟨⟨h.wf.pool, h.wf.zero, h.wf.wf, h.wf.len, h.wf.mto, h.wf.mtoRef,
    h.wf.e2o, h.wf.e2oRef, h.wf.cons⟩, h.loc, h.val, fun env a ho => h.marked env a (hok env a ho)⟩,
    List.prefix_refl _, rfl, fun env a ho => ⟨hok env a ho, trivial⟩, fun env a hf _ => hf⟩
  intro hc hl
  simp only [Bool.or_eq_false_iff] at hc
  rw [hl] at hc
  exact absurd hc.2 (by decide)

/-- With the note, an assertion which gets lost is no concern. -/
theorem markNote_ok {N : Nat} {b : B F} (h : Inv N b) {t : Nat} (h1 : 1 ≤ t)
    (h2 : t < b.exprs.length) (hz : ∀ env a, OK env N a b → a t = 0) :
    ∃ b', (do note t; mark t : M F Unit) b = .ok ((), b') ∧ b'.exprs = b.exprs ∧
      Step X N b b' fun _ _ => True := by
  obtain ⟨b1, e1, x1, c1, n1, s1⟩ := note_ok (X := X) h h2
  have hget : b.exprs[t]? = some b.exprs[t] := List.getElem?_eq_getElem h2
  obtain ⟨b2, e2, x2, s2⟩ := mark_ok s1.inv (t := t) h1 (by rw [x1]; exact h2) (by
    intro env a hc hcl hne
    rw [x1, c1] at hne
    have hok : OK env N a b1 := by
      refine ⟨hc, fun d i k1 k2 k3 => ?_, hcl⟩
      rw [c1] at k1
      rw [x1] at k3
      by_cases hd : b.exprs[t]? = some d
      · rw [hget] at hd
        cases hd
        exact absurd k1 (n1 hcl)
      · exact hne d i hd k1 k2 k3
    exact hz env a (s1.sound env a hok).1)
  refine ⟨b2, ?_, by rw [x2, x1], (s1.trans s2).weaken fun env a => by simp⟩
  show M.bind (note t) (fun _ => mark t) b = _
  unfold M.bind
  rw [e1]
  exact e2

/-! ## One instruction, as a step -/

theorem push_step (cfg : Cfg F) {N : Nat} {b : B F} (h : Inv N b) {i : OInsn F}
    (hr : InRange b.exprs.length i) :
    ∃ b', push cfg i b = .ok (b.exprs.length, b') ∧
      b'.exprs.length = b.exprs.length + i.numOut ∧
      Step X N b b' fun env a => i.Holds env a b.exprs.length := by
  obtain ⟨b', h1, h2⟩ := push_ok cfg h hr
  exact ⟨b', h1, h2.len, h2.step h⟩

theorem pushConst_ok (cfg : Cfg F) {N : Nat} {b : B F} (h : Inv N b) (c : F) :
    ∃ b', pushConst cfg c b = .ok (b.exprs.length, b') ∧
      b'.exprs.length = b.exprs.length + 1 ∧
      Step X N b b' fun _ a => a b.exprs.length = c :=
  push_step cfg h ⟨by simp [OInsn.inputs], by simp⟩

theorem pushLin1_ok (cfg : Cfg F) {N : Nat} {b : B F} (h : Inv N b) {x : Nat} (k : F)
    (hx : 1 ≤ x ∧ x < b.exprs.length) :
    ∃ b', push cfg (.linComb ⟨[(x, k)], 0⟩) b = .ok (b.exprs.length, b') ∧
      b'.exprs.length = b.exprs.length + 1 ∧
      Step X N b b' fun _ a => a b.exprs.length = a x * k := by
  obtain ⟨b', h1, h2, h3⟩ := push_step cfg h (i := .linComb ⟨[(x, k)], 0⟩)
    ⟨by simp [OInsn.inputs, hx], by simp⟩
  refine ⟨b', h1, h2, h3.weaken fun env a => ?_⟩
  simp [OInsn.Holds, LinComb.eval]

theorem pushLin2_ok (cfg : Cfg F) {N : Nat} {b : B F} (h : Inv N b) {x y : Nat} (k l : F)
    (hx : 1 ≤ x ∧ x < b.exprs.length) (hy : 1 ≤ y ∧ y < b.exprs.length) :
    ∃ b', push cfg (.linComb ⟨[(x, k), (y, l)], 0⟩) b = .ok (b.exprs.length, b') ∧
      b'.exprs.length = b.exprs.length + 1 ∧
      Step X N b b' fun _ a => a b.exprs.length = a x * k + a y * l := by
  obtain ⟨b', h1, h2, h3⟩ := push_step cfg h (i := .linComb ⟨[(x, k), (y, l)], 0⟩)
    ⟨by
      intro z hz
      simp only [OInsn.inputs, List.map_cons, List.map_nil, List.mem_cons, List.not_mem_nil,
        or_false] at hz
      rcases hz with rfl | rfl <;> assumption, by simp⟩
  refine ⟨b', h1, h2, h3.weaken fun env a => ?_⟩
  simp [OInsn.Holds, LinComb.eval]

theorem pushMul_ok (cfg : Cfg F) {N : Nat} {b : B F} (h : Inv N b) {x y : Nat}
    (hx : 1 ≤ x ∧ x < b.exprs.length) (hy : 1 ≤ y ∧ y < b.exprs.length) :
    ∃ b', pushMul cfg x y b = .ok (b.exprs.length, b') ∧
      b'.exprs.length = b.exprs.length + 1 ∧
      Step X N b b' fun _ a => a b.exprs.length = a x * a y := by
  obtain ⟨b', h1, h2, h3⟩ := push_step cfg h (i := .mul [x, y])
    ⟨by
      intro z hz
      simp only [OInsn.inputs, List.mem_cons, List.not_mem_nil, or_false] at hz
      rcases hz with rfl | rfl <;> assumption, by
      intro xs hxs; cases hxs; simp⟩
  refine ⟨b', h1, h2, h3.weaken fun env a => ?_⟩
  simp [OInsn.Holds]

theorem pushHint_ok (cfg : Cfg F) {N : Nat} {b : B F} (h : Inv N b) (id : Nat) {xs : List Nat}
    (hx : ∀ x ∈ xs, 1 ≤ x ∧ x < b.exprs.length) (n : Nat) :
    ∃ b', push cfg (.hint id xs n) b = .ok (b.exprs.length, b') ∧
      b'.exprs.length = b.exprs.length + n ∧ Step X N b b' fun _ _ => True :=
  push_step cfg h (i := .hint id xs n) ⟨hx, by simp⟩

theorem bind_ok {α β : Type} {c : M F α} {f : α → M F β} {b b' : B F} {x : α}
    (h : c b = .ok (x, b')) : (c >>= f) b = f x b' := by
  show M.bind c f b = _
  unfold M.bind
  rw [h]

/-- `bool_cond`: three instructions, whose last is `a * (a - 1)`. -/
theorem boolCond_ok (cfg : Cfg F) {N : Nat} {b : B F} (h : Inv N b) {x : Nat}
    (hx : 1 ≤ x ∧ x < b.exprs.length) :
    ∃ b', boolCond cfg x b = .ok (b.exprs.length + 2, b') ∧
      b'.exprs.length = b.exprs.length + 3 ∧
      Step X N b b' fun _ a => a b.exprs.length = 1 ∧ a (b.exprs.length + 1) = a x - 1 ∧
        a (b.exprs.length + 2) = a x * (a x - 1) := by
  have hl : 1 ≤ b.exprs.length := by omega
  obtain ⟨b1, e1, l1, s1⟩ := pushConst_ok cfg h 1
  obtain ⟨b2, e2, l2, s2⟩ := pushLin2_ok cfg s1.inv (x := x) (y := b.exprs.length) 1 (-1)
    (by omega) (by omega)
  obtain ⟨b3, e3, l3, s3⟩ := pushMul_ok cfg s2.inv (x := x) (y := b1.exprs.length)
    (by omega) (by omega)
  refine ⟨b3, ?_, by omega, ?_⟩
  · unfold boolCond pushSub
    rw [bind_ok e1, bind_ok e2, e3, l2, l1]
  · refine ((s1.trans s2).trans s3).weaken fun env a => ?_
    rw [l2, l1]
    constructor
    · rintro ⟨⟨h1, h2⟩, h3⟩
      rw [h1] at h2
      have h2' : a (b.exprs.length + 1) = a x - 1 := by rw [h2]; ring
      exact ⟨h1, h2', by rw [h3, h2']⟩
    · rintro ⟨h1, h2, h3⟩
      exact ⟨⟨h1, by rw [h2, h1]; ring⟩, by rw [h3, h2]⟩

theorem bool_iff (v : F) : v * (v - 1) = 0 ↔ v = 0 ∨ v = 1 := by
  rw [mul_eq_zero, sub_eq_zero]

/-- What `assert_bool` and `mark_bool` add: the values of three new variables. -/
def BoolVals (n x : Nat) (a : Nat → F) : Prop :=
  a n = 1 ∧ a (n + 1) = a x - 1 ∧ a (n + 2) = a x * (a x - 1)

theorem assertBool_ok (cfg : Cfg F) {N : Nat} {b : B F} (h : Inv N b) {x : Nat}
    (hx : 1 ≤ x ∧ x < b.exprs.length) :
    ∃ b', assertBool cfg x b = .ok ((), b') ∧ b'.exprs.length = b.exprs.length + 3 ∧
      Step X N b b' fun _ a => BoolVals b.exprs.length x a ∧ (a x = 0 ∨ a x = 1) := by
  obtain ⟨b1, e1, l1, s1⟩ := boolCond_ok cfg h hx
  obtain ⟨b2, e2, l2, s2⟩ := assertZ_ok s1.inv (t := b.exprs.length + 2) (by omega) (by omega)
  refine ⟨b2, ?_, by rw [l2, l1], (s1.trans s2).weaken fun env a => ?_⟩
  · unfold assertBool
    rw [bind_ok e1, e2]
  · unfold BoolVals
    rw [← bool_iff]
    constructor
    · rintro ⟨h1, h2⟩; exact ⟨h1, by rw [← h1.2.2, h2]⟩
    · rintro ⟨h1, h2⟩; exact ⟨h1, by rw [h1.2.2, h2]⟩

theorem markBoolNote_ok (cfg : Cfg F) {N : Nat} {b : B F} (h : Inv N b) {x : Nat}
    (hx : 1 ≤ x ∧ x < b.exprs.length) (hz : ∀ env a, OK env N a b → a x = 0 ∨ a x = 1) :
    ∃ b', markBoolNote cfg x b = .ok ((), b') ∧ b'.exprs.length = b.exprs.length + 3 ∧
      Step X N b b' fun _ a => BoolVals b.exprs.length x a := by
  obtain ⟨b1, e1, l1, s1⟩ := boolCond_ok cfg h hx
  obtain ⟨b2, e2, l2, s2⟩ := markNote_ok s1.inv (t := b.exprs.length + 2) (by omega) (by omega)
    (by
      intro env a hok
      obtain ⟨g1, g2⟩ := s1.sound env a hok
      rw [g2.2.2, bool_iff]
      exact hz env a g1)
  refine ⟨b2, ?_, by rw [l2, l1], (s1.trans s2).weaken fun env a => ?_⟩
  · unfold markBoolNote
    rw [bind_ok e1]
    exact e2
  · unfold BoolVals; simp

/-! ## Pushed instructions as equivalences -/

/-- The constraints are untouched, and the condition on the values is exactly `S`. -/
structure Pure (N : Nat) (b b' : B F) (S : Env F → (Nat → F) → Prop) : Prop where
  same : b'.cons = b.cons
  clash : b'.clash = b.clash
  iff : ∀ env a, Cons env N a b' ↔ Cons env N a b ∧ S env a

theorem push_pure (cfg : Cfg F) {N : Nat} {b b' : B F} (h : Inv N b) {i : OInsn F} {x : Nat}
    (hr : InRange b.exprs.length i) (e : push cfg i b = .ok (x, b')) :
    Pure N b b' fun env a => i.Holds env a b.exprs.length := by
  obtain ⟨b1, e1, p⟩ := push_ok cfg h hr
  rw [e1] at e
  simp only [Except.ok.injEq, Prod.mk.injEq] at e
  rw [← e.2]
  exact ⟨p.same, p.clash, p.cons⟩

theorem pushConst_pure (cfg : Cfg F) {N : Nat} {b b' : B F} (h : Inv N b) {c : F} {z : Nat}
    (e : pushConst cfg c b = .ok (z, b')) : Pure N b b' fun _ a => a b.exprs.length = c :=
  push_pure cfg h ⟨by simp [OInsn.inputs], by simp⟩ e

theorem pushLin2_pure (cfg : Cfg F) {N : Nat} {b b' : B F} (h : Inv N b) {x y z : Nat} {k l : F}
    (hx : 1 ≤ x ∧ x < b.exprs.length) (hy : 1 ≤ y ∧ y < b.exprs.length)
    (e : push cfg (.linComb ⟨[(x, k), (y, l)], 0⟩) b = .ok (z, b')) :
    Pure N b b' fun _ a => a b.exprs.length = a x * k + a y * l := by
  have p := push_pure cfg h (i := .linComb ⟨[(x, k), (y, l)], 0⟩)
    ⟨by
      intro z hz
      simp only [OInsn.inputs, List.map_cons, List.map_nil, List.mem_cons, List.not_mem_nil,
        or_false] at hz
      rcases hz with rfl | rfl <;> assumption, by simp⟩ e
  refine ⟨p.same, p.clash, fun env a => ?_⟩
  rw [p.iff]
  simp [OInsn.Holds, LinComb.eval]

theorem pushMul_pure (cfg : Cfg F) {N : Nat} {b b' : B F} (h : Inv N b) {x y z : Nat}
    (hx : 1 ≤ x ∧ x < b.exprs.length) (hy : 1 ≤ y ∧ y < b.exprs.length)
    (e : pushMul cfg x y b = .ok (z, b')) :
    Pure N b b' fun _ a => a b.exprs.length = a x * a y := by
  have p := push_pure cfg h (i := .mul [x, y])
    ⟨by
      intro z hz
      simp only [OInsn.inputs, List.mem_cons, List.not_mem_nil, or_false] at hz
      rcases hz with rfl | rfl <;> assumption, by
      intro xs hxs; cases hxs; simp⟩ e
  refine ⟨p.same, p.clash, fun env a => ?_⟩
  rw [p.iff]
  simp [OInsn.Holds]

theorem pushHint_pure (cfg : Cfg F) {N : Nat} {b b' : B F} (h : Inv N b) {id n z : Nat}
    {xs : List Nat} (hx : ∀ x ∈ xs, 1 ≤ x ∧ x < b.exprs.length)
    (e : push cfg (.hint id xs n) b = .ok (z, b')) : Pure N b b' fun _ _ => True :=
  push_pure cfg h (i := .hint id xs n) ⟨hx, by simp⟩ e

theorem boolCond_pure (cfg : Cfg F) {N : Nat} {b b' : B F} (h : Inv N b) {x z : Nat}
    (hx : 1 ≤ x ∧ x < b.exprs.length) (e : boolCond cfg x b = .ok (z, b')) :
    Pure N b b' fun _ a => BoolVals b.exprs.length x a := by
  have hl : 1 ≤ b.exprs.length := by omega
  obtain ⟨b1, e1, l1, s1⟩ := pushConst_ok (X := fun _ => False) cfg h 1
  obtain ⟨b2, e2, l2, s2⟩ := pushLin2_ok (X := fun _ => False) cfg s1.inv (x := x) (y := b.exprs.length) 1 (-1)
    (by omega) (by omega)
  obtain ⟨b3, e3, l3, s3⟩ := pushMul_ok (X := fun _ => False) cfg s2.inv (x := x) (y := b1.exprs.length)
    (by omega) (by omega)
  have heq : b3 = b' := by
    have : boolCond cfg x b = .ok (b2.exprs.length, b3) := by
      unfold boolCond pushSub
      rw [bind_ok e1, bind_ok e2, e3]
    rw [this] at e
    simp only [Except.ok.injEq, Prod.mk.injEq] at e
    exact e.2
  subst heq
  have p1 := pushConst_pure cfg h e1
  have p2 := pushLin2_pure cfg s1.inv (by omega) (by omega) e2
  have p3 := pushMul_pure cfg s2.inv (by omega) (by omega) e3
  refine ⟨by rw [p3.same, p2.same, p1.same], by rw [p3.clash, p2.clash, p1.clash],
    fun env a => ?_⟩
  rw [p3.iff, p2.iff, p1.iff, l2, l1]
  unfold BoolVals
  constructor
  · rintro ⟨⟨⟨h0, h1⟩, h2⟩, h3⟩
    rw [h1] at h2
    have h2' : a (b.exprs.length + 1) = a x - 1 := by rw [h2]; ring
    exact ⟨h0, h1, h2', by rw [h3, h2']⟩
  · rintro ⟨h0, h1, h2, h3⟩
    exact ⟨⟨⟨h0, h1⟩, by rw [h2, h1]; ring⟩, by rw [h3, h2]⟩

end JST.Comp
