import Verif.Compiler.BuilderStep

/-!
# Lowering of the source instructions
-/

namespace JST.Comp

open JST.Circ

variable {F : Type} [Field F] [DecidableEq F] {X : Expr F → Prop}

/-- `b'` continues `b`; values for `b` which satisfy `P` can be extended to values for `b'`, and
values for `b'` satisfy `T`. -/
structure Grow (X : Expr F → Prop) (N : Nat) (b b' : B F) (P T : Env F → (Nat → F) → Prop) : Prop where
  inv : Inv N b'
  exprs : b.exprs <+: b'.exprs
  ito : b'.inToOut = b.inToOut
  sound : ∀ env a, OK env N a b' → OK env N a b ∧ T env a
  complete : ∀ env a, Full X env N a b → P env a →
    ∃ a', (∀ x, x < b.exprs.length → a' x = a x) ∧ Full X env N a' b' ∧ T env a'

theorem Grow.len {N : Nat} {b c : B F} {P T : Env F → (Nat → F) → Prop} (h : Grow X N b c P T) :
    b.exprs.length ≤ c.exprs.length := h.exprs.length_le

theorem Step.grow {N : Nat} {b b' : B F} {S : Env F → (Nat → F) → Prop} (h : Inv N b)
    (s : Step X N b b' S) {P : Env F → (Nat → F) → Prop}
    (hex : ∀ env a, P env a → ∃ a', (∀ x, x < b.exprs.length → a' x = a x) ∧ S env a') :
    Grow X N b b' P S := by
  refine ⟨s.inv, s.exprs, s.ito, s.sound, fun env a hf hP => ?_⟩
  obtain ⟨a', h1, h2⟩ := hex env a hP
  exact ⟨a', h1, s.complete env a' (h.full_local (fun x hx => (h1 x hx).symm) hf) h2, h2⟩

/-- One new variable, whose value is a function of the earlier ones. -/
theorem Step.grow_one {N : Nat} {b b' : B F} {f : (Nat → F) → F} (h : Inv N b)
    (s : Step X N b b' fun _ a => a b.exprs.length = f a)
    (hf : ∀ a a', (∀ x, x < b.exprs.length → a' x = a x) → f a' = f a) :
    Grow X N b b' (fun _ _ => True) fun _ a => a b.exprs.length = f a := by
  refine s.grow h fun env a _ => ⟨Function.update a b.exprs.length (f a), ?_, ?_⟩
  · intro x hx; rw [Function.update_of_ne (by omega)]
  · rw [Function.update_self]
    exact (hf _ _ fun x hx => by rw [Function.update_of_ne (by omega)]).symm

theorem pushConst_grow (cfg : Cfg F) {N : Nat} {b : B F} (h : Inv N b) (c : F) :
    ∃ b', pushConst cfg c b = .ok (b.exprs.length, b') ∧ b'.exprs.length = b.exprs.length + 1 ∧
      Grow X N b b' (fun _ _ => True) fun _ a => a b.exprs.length = c := by
  obtain ⟨b', h1, h2, h3⟩ := pushConst_ok (X := X) cfg h c
  exact ⟨b', h1, h2, h3.grow_one h fun _ _ _ => rfl⟩

theorem pushLin1_grow (cfg : Cfg F) {N : Nat} {b : B F} (h : Inv N b) {x : Nat} (k : F)
    (hx : 1 ≤ x ∧ x < b.exprs.length) :
    ∃ b', push cfg (.linComb ⟨[(x, k)], 0⟩) b = .ok (b.exprs.length, b') ∧
      b'.exprs.length = b.exprs.length + 1 ∧
      Grow X N b b' (fun _ _ => True) fun _ a => a b.exprs.length = a x * k := by
  obtain ⟨b', h1, h2, h3⟩ := pushLin1_ok (X := X) cfg h k hx
  exact ⟨b', h1, h2, h3.grow_one h fun a a' hag => by simp only [hag x hx.2]⟩

theorem pushLin2_grow (cfg : Cfg F) {N : Nat} {b : B F} (h : Inv N b) {x y : Nat} (k l : F)
    (hx : 1 ≤ x ∧ x < b.exprs.length) (hy : 1 ≤ y ∧ y < b.exprs.length) :
    ∃ b', push cfg (.linComb ⟨[(x, k), (y, l)], 0⟩) b = .ok (b.exprs.length, b') ∧
      b'.exprs.length = b.exprs.length + 1 ∧
      Grow X N b b' (fun _ _ => True) fun _ a => a b.exprs.length = a x * k + a y * l := by
  obtain ⟨b', h1, h2, h3⟩ := pushLin2_ok (X := X) cfg h k l hx hy
  exact ⟨b', h1, h2, h3.grow_one h fun a a' hag => by simp only [hag x hx.2, hag y hy.2]⟩

theorem pushMul_grow (cfg : Cfg F) {N : Nat} {b : B F} (h : Inv N b) {x y : Nat}
    (hx : 1 ≤ x ∧ x < b.exprs.length) (hy : 1 ≤ y ∧ y < b.exprs.length) :
    ∃ b', pushMul cfg x y b = .ok (b.exprs.length, b') ∧ b'.exprs.length = b.exprs.length + 1 ∧
      Grow X N b b' (fun _ _ => True) fun _ a => a b.exprs.length = a x * a y := by
  obtain ⟨b', h1, h2, h3⟩ := pushMul_ok (X := X) cfg h hx hy
  exact ⟨b', h1, h2, h3.grow_one h fun a a' hag => by simp only [hag x hx.2, hag y hy.2]⟩

/-- A hint: any values may be chosen for its outputs. -/
theorem pushHint_grow (cfg : Cfg F) {N : Nat} {b : B F} (h : Inv N b) (id : Nat) {xs : List Nat}
    (hx : ∀ x ∈ xs, 1 ≤ x ∧ x < b.exprs.length) (n : Nat) :
    ∃ b', push cfg (.hint id xs n) b = .ok (b.exprs.length, b') ∧
      b'.exprs.length = b.exprs.length + n ∧
      Grow X N b b' (fun _ _ => True) (fun _ _ => True) ∧
      ∀ env a (w : Nat → F), Full X env N a b →
        ∃ a', (∀ x, x < b.exprs.length → a' x = a x) ∧ Full X env N a' b' ∧
          ∀ i, a' (b.exprs.length + i) = w i := by
  obtain ⟨b', h1, h2, h3⟩ := pushHint_ok (X := X) cfg h id hx n
  refine ⟨b', h1, h2, h3.grow h fun env a _ => ⟨a, fun _ _ => rfl, trivial⟩, ?_⟩
  intro env a w hf
  refine ⟨fun x => if x < b.exprs.length then a x else w (x - b.exprs.length), ?_, ?_, ?_⟩
  · intro x hx; simp only [if_pos hx]
  · exact h3.complete env _ (h.full_local (fun x hx => by simp only [if_pos hx]) hf) trivial
  · intro i
    simp only [if_neg (show ¬ b.exprs.length + i < b.exprs.length by omega),
      Nat.add_sub_cancel_left]

theorem assertZ_grow {N : Nat} {b : B F} (h : Inv N b) {t : Nat} (h1 : 1 ≤ t)
    (h2 : t < b.exprs.length) :
    ∃ b', assertZ t b = .ok ((), b') ∧ b'.exprs.length = b.exprs.length ∧
      Grow X N b b' (fun _ a => a t = 0) fun _ a => a t = 0 := by
  obtain ⟨b', e, l, s⟩ := assertZ_ok (X := X) h h1 h2
  exact ⟨b', e, by rw [l], s.grow h fun env a hP => ⟨a, fun _ _ => rfl, hP⟩⟩

/-- Values for the three new variables of `bool_cond`. -/
theorem boolVals_ext {n x : Nat} (hx : x < n) (a : Nat → F) :
    ∃ a', (∀ y, y < n → a' y = a y) ∧ BoolVals n x a' := by
  refine ⟨fun y => if y < n then a y else if y = n then 1 else if y = n + 1 then a x - 1 else
    a x * (a x - 1), fun y hy => by simp only [if_pos hy], ?_⟩
  unfold BoolVals
  simp only [if_pos hx, if_neg (show ¬ n < n by omega), if_true,
    if_neg (show ¬ n + 1 < n by omega), if_neg (show ¬ n + 1 = n by omega),
    if_neg (show ¬ n + 2 < n by omega), if_neg (show ¬ n + 2 = n by omega),
    if_neg (show ¬ n + 2 = n + 1 by omega)]
  exact ⟨trivial, trivial, trivial⟩

theorem boolCond_grow (cfg : Cfg F) {N : Nat} {b : B F} (h : Inv N b) {x : Nat}
    (hx : 1 ≤ x ∧ x < b.exprs.length) :
    ∃ b', boolCond cfg x b = .ok (b.exprs.length + 2, b') ∧
      b'.exprs.length = b.exprs.length + 3 ∧
      Grow X N b b' (fun _ _ => True) fun _ a => a (b.exprs.length + 2) = a x * (a x - 1) := by
  obtain ⟨b', e, l, s⟩ := boolCond_ok (X := X) cfg h hx
  have g := s.grow (P := fun _ _ => True) h fun env a _ => boolVals_ext hx.2 a
  exact ⟨b', e, l, g.inv, g.exprs, g.ito, fun env a ho => ⟨(g.sound env a ho).1,
    (g.sound env a ho).2.2.2⟩, fun env a hf hP => by
      obtain ⟨a', k1, k2, k3⟩ := g.complete env a hf hP
      exact ⟨a', k1, k2, k3.2.2⟩⟩

theorem assertBool_grow (cfg : Cfg F) {N : Nat} {b : B F} (h : Inv N b) {x : Nat}
    (hx : 1 ≤ x ∧ x < b.exprs.length) :
    ∃ b', assertBool cfg x b = .ok ((), b') ∧ b'.exprs.length = b.exprs.length + 3 ∧
      Grow X N b b' (fun _ a => a x = 0 ∨ a x = 1) fun _ a => a x = 0 ∨ a x = 1 := by
  obtain ⟨b', e, l, s⟩ := assertBool_ok (X := X) cfg h hx
  have g := s.grow (P := fun _ a => a x = 0 ∨ a x = 1) h fun env a hP => by
    obtain ⟨a', k1, k2⟩ := boolVals_ext hx.2 a
    exact ⟨a', k1, k2, by rw [k1 x hx.2]; exact hP⟩
  exact ⟨b', e, l, g.inv, g.exprs, g.ito, fun env a ho => ⟨(g.sound env a ho).1,
    (g.sound env a ho).2.2⟩, fun env a hf hP => by
      obtain ⟨a', k1, k2, k3⟩ := g.complete env a hf hP
      exact ⟨a', k1, k2, k3.2⟩⟩

theorem markBoolNote_grow (cfg : Cfg F) {N : Nat} {b : B F} (h : Inv N b) {x : Nat}
    (hx : 1 ≤ x ∧ x < b.exprs.length) (hz : ∀ env a, OK env N a b → a x = 0 ∨ a x = 1) :
    ∃ b', markBoolNote cfg x b = .ok ((), b') ∧ b'.exprs.length = b.exprs.length + 3 ∧
      Grow X N b b' (fun _ _ => True) fun _ _ => True := by
  obtain ⟨b', e, l, s⟩ := markBoolNote_ok (X := X) cfg h hx hz
  have g := s.grow (P := fun _ _ => True) h fun env a _ => boolVals_ext hx.2 a
  exact ⟨b', e, l, g.inv, g.exprs, g.ito, fun env a ho => ⟨(g.sound env a ho).1, trivial⟩,
    fun env a hf hP => by
      obtain ⟨a', k1, k2, k3⟩ := g.complete env a hf hP
      exact ⟨a', k1, k2, trivial⟩⟩

theorem constVal_ok {N : Nat} {b : B F} (h : Inv N b) {x : Nat}
    (hx : 1 ≤ x ∧ x < b.exprs.length) :
    ∃ o, constVal x b = .ok (o, b) ∧ ∀ v, o = some v → ∀ env a, Cons env N a b → a x = v := by
  have hget : b.exprs[x]? = some b.exprs[x] := List.getElem?_eq_getElem hx.2
  refine ⟨constantValue b.exprs[x], ?_, ?_⟩
  · unfold constVal; rw [hget]; rfl
  · intro v hv env a hc
    obtain ⟨m, -, hval, -⟩ := h.val env a hc
    rw [hval x _ hx.1 hget, constantValue_eval hv]

theorem bind_err {α β : Type} {c : M F α} {f : α → M F β} {b : B F} {e : Fail}
    (h : c b = .error e) : (c >>= f) b = .error e := by
  show M.bind c f b = _
  unfold M.bind
  rw [h]

/-! ## The lowered instruction and its outputs -/

/-- `basic.rs:351-369`: what `process_insn` does with the result of the transformation; the out
variables of the instruction. -/
def finishLowered (cfg : Cfg F) (k : Nat) : Lowered F → M F (List Nat)
  | .insn o => fun b =>
      if o.numOut ≠ k then .error .panic
      else match push cfg o b with
        | .error e => .error e
        | .ok (_, b2) => .ok ((List.range k).map fun i => b.exprs.length + i, b2)
  | .vars xs => fun b => if xs.length ≠ k then .error .panic else .ok (xs, b)

/-- The source instruction `j`, whose outputs are the variables `xs`, was lowered.  The values `a'`
are those of the source side: they agree with `a` on the variables which existed before, and the
outputs are the next ones. -/
structure LowerSpec (X : Expr F → Prop) (ev : UOp → F → F → Option F) (N : Nat) (b : B F) (j : SInsn F)
    (xs : List Nat) (b' : B F) : Prop where
  inv : Inv N b'
  exprs : b.exprs <+: b'.exprs
  ito : b'.inToOut = b.inToOut
  num : xs.length = j.numOut
  range : ∀ x ∈ xs, 1 ≤ x ∧ x < b'.exprs.length
  sound : ∀ env a, OK env N a b' → OK env N a b ∧
    ∀ a', (∀ x, x < b.exprs.length → a' x = a x) → outs a' b.exprs.length j.numOut = xs.map a →
      j.Holds env a' b.exprs.length
  complete : ∀ env a', Full X env N a' b → j.Holds env a' b.exprs.length →
    j.Honest ev a' b.exprs.length →
    ∃ a, (∀ x, x < b.exprs.length → a x = a' x) ∧ Full X env N a b' ∧
      xs.map a = outs a' b.exprs.length j.numOut

theorem outs_one (a : Nat → F) (n : Nat) : outs a n 1 = [a n] := by simp [outs]

/-- A single instruction stands for the source instruction. -/
theorem lower_insn (cfg : Cfg F) {ev : UOp → F → F → Option F} {N : Nat} {b : B F} (h : Inv N b)
    {j : SInsn F} {o : OInsn F} (hr : InRange b.exprs.length o) (hn : o.numOut = j.numOut)
    (hs : ∀ env a, Cons env N a b → o.Holds env a b.exprs.length → j.Holds env a b.exprs.length)
    (hlocj : ∀ env a a', (∀ x, x < b.exprs.length + j.numOut → a x = a' x) →
      j.Holds env a b.exprs.length → j.Holds env a' b.exprs.length)
    (hc : ∀ env a, Cons env N a b → j.Holds env a b.exprs.length →
      j.Honest ev a b.exprs.length → o.Holds env a b.exprs.length) :
    ∃ xs b', finishLowered cfg j.numOut (.insn o) b = .ok (xs, b') ∧ LowerSpec X ev N b j xs b' := by
  obtain ⟨b', h1, h2, h3⟩ := push_step (X := X) cfg h hr
  refine ⟨(List.range j.numOut).map fun i => b.exprs.length + i, b', ?_, h3.inv, h3.exprs,
    h3.ito, by simp, ?_, ?_, ?_⟩
  · simp only [finishLowered, hn, ne_eq, not_true_eq_false, if_false, h1]
  · intro x hx
    simp only [List.mem_map, List.mem_range] at hx
    obtain ⟨i, hi, rfl⟩ := hx
    have := h.wf.len
    omega
  · intro env a hok
    obtain ⟨k1, k2⟩ := h3.sound env a hok
    refine ⟨k1, fun a' hag ho => ?_⟩
    refine hlocj env a a' ?_ (hs env a k1.1 k2)
    intro x hx
    by_cases hlt : x < b.exprs.length
    · exact (hag x hlt).symm
    · have hx' := congrArg (fun l => l[x - b.exprs.length]?) ho
      simp only [outs, List.map_map, List.getElem?_map] at hx'
      rw [List.getElem?_range (by omega)] at hx'
      simp only [Option.map_some, Option.some.injEq, Function.comp] at hx'
      rw [show b.exprs.length + (x - b.exprs.length) = x by omega] at hx'
      exact hx'.symm
  · intro env a' hf hh hho
    refine ⟨a', fun _ _ => rfl, h3.complete env a' hf (hc env a' hf.1 hh hho), ?_⟩
    simp [outs]

/-- The source instruction has one output, which is a variable. -/
theorem LowerSpec.of_grow {ev : UOp → F → F → Option F} {N : Nat} {b b' : B F} (j : SInsn F)
    (hj : j.numOut = 1) {q : Nat}
    (hinv : Inv N b') (hex : b.exprs <+: b'.exprs) (hito : b'.inToOut = b.inToOut)
    (hq : 1 ≤ q ∧ q < b'.exprs.length)
    (hs : ∀ env a, OK env N a b' → OK env N a b ∧
      ∀ a', (∀ x, x < b.exprs.length → a' x = a x) → a' b.exprs.length = a q →
        j.Holds env a' b.exprs.length)
    (hc : ∀ env a', Full X env N a' b → j.Holds env a' b.exprs.length →
      j.Honest ev a' b.exprs.length →
      ∃ a, (∀ x, x < b.exprs.length → a x = a' x) ∧ Full X env N a b' ∧ a q = a' b.exprs.length) :
    LowerSpec X ev N b j [q] b' := by
  refine ⟨hinv, hex, hito, by simp [hj], by simpa using hq, ?_, ?_⟩
  · intro env a hok
    obtain ⟨k1, k2⟩ := hs env a hok
    refine ⟨k1, fun a' hag ho => k2 a' hag ?_⟩
    rw [hj, outs_one] at ho
    simpa using ho
  · intro env a' hf hh hho
    obtain ⟨a, k1, k2, k3⟩ := hc env a' hf hh hho
    exact ⟨a, k1, k2, by rw [hj, outs_one]; simp [k3]⟩

/-! ## Division -/

theorem lowerDiv_ok (cfg : Cfg F) {N : Nat} {b : B F} (h : Inv N b) {x y : Nat} (checked : Bool)
    (hx : 1 ≤ x ∧ x < b.exprs.length) (hy : 1 ≤ y ∧ y < b.exprs.length) :
    (lowerDiv cfg x y checked >>= finishLowered cfg 1) b = .error .user ∨
      ∃ xs b', (lowerDiv cfg x y checked >>= finishLowered cfg 1) b = .ok (xs, b') ∧
        LowerSpec X cfg.ev N b (.div x y checked) xs b' := by
  obtain ⟨o, ho, hval⟩ := constVal_ok h hy
  cases o with
  | some yv =>
      by_cases h0 : yv = 0
      · left
        exact bind_err (by unfold lowerDiv; rw [bind_ok ho]; simp only [if_pos h0]; rfl)
      · right
        obtain ⟨b1, e1, l1, g1⟩ := pushConst_grow (X := X) cfg h yv⁻¹
        rw [bind_ok (x := .insn (.mul [x, b.exprs.length])) (b' := b1) (by
          unfold lowerDiv; rw [bind_ok ho]; simp only [if_neg h0]; rw [bind_ok e1]; rfl)]
        obtain ⟨b2, e2, l2, g2⟩ := pushMul_grow (X := X) cfg g1.inv (x := x) (y := b.exprs.length)
          (by omega) (by omega)
        refine ⟨[b1.exprs.length], b2, ?_, LowerSpec.of_grow _ rfl g2.inv
          (g1.exprs.trans g2.exprs) (g2.ito.trans g1.ito) (by omega) ?_ ?_⟩
        · simp only [finishLowered, OInsn.numOut, ne_eq, not_true_eq_false, if_false]
          unfold pushMul at e2
          rw [e2]
          simp
        · intro env a hok
          obtain ⟨k1, k2⟩ := g2.sound env a hok
          obtain ⟨k3, k4⟩ := g1.sound env a k1
          refine ⟨k3, fun a' hag hn => ?_⟩
          have hyv := hval yv rfl env a k3.1
          simp only [SInsn.Holds]
          rw [hag x hx.2, hag y hy.2, hn, k2, k4, hyv]
          exact ⟨by field_simp, fun _ => h0⟩
        · intro env a' hf hh _
          obtain ⟨a1, k1, k2, k3⟩ := g1.complete env a' hf trivial
          obtain ⟨a2, k4, k5, k6⟩ := g2.complete env a1 k2 trivial
          refine ⟨a2, fun z hz => by rw [k4 z (by omega), k1 z hz], k5, ?_⟩
          rw [k6, k4 x (by omega), k4 b.exprs.length (by omega), k3, k1 x hx.2]
          have hyv := hval yv rfl env a' hf.1
          simp only [SInsn.Holds] at hh
          rw [← hh.1, hyv]
          field_simp
  | none =>
      right
      cases checked with
      | true =>
          obtain ⟨b1, e1, l1, g1⟩ := pushConst_grow (X := X) cfg h 1
          obtain ⟨b2, e2, l2, g2, c2⟩ := pushHint_grow (X := X) cfg g1.inv hintDiv
            (xs := [b.exprs.length, y]) (by
              intro z hz
              simp only [List.mem_cons, List.not_mem_nil, or_false] at hz
              rcases hz with rfl | rfl <;> omega) 1
          obtain ⟨b3, e3, l3, g3⟩ := pushMul_grow (X := X) cfg g2.inv (x := y) (y := b1.exprs.length)
            (by omega) (by omega)
          obtain ⟨b4, e4, l4, g4⟩ := pushLin2_grow (X := X) cfg g3.inv (x := b2.exprs.length)
            (y := b.exprs.length) 1 (-1) (by omega) (by omega)
          obtain ⟨b5, e5, l5, g5⟩ := assertZ_grow (X := X) g4.inv (t := b3.exprs.length) (by omega)
            (by omega)
          obtain ⟨b6, e6, l6, g6⟩ := pushMul_grow (X := X) cfg g5.inv (x := x) (y := b1.exprs.length)
            (by omega) (by omega)
          rw [bind_ok (x := .insn (.mul [x, b1.exprs.length])) (b' := b5) (by
            unfold lowerDiv; rw [bind_ok ho]; simp only [if_true]
            rw [bind_ok e1, bind_ok e2, bind_ok e3]; unfold pushSub; rw [bind_ok e4, bind_ok e5]
            rfl)]
          refine ⟨[b5.exprs.length], b6, ?_, LowerSpec.of_grow _ rfl g6.inv
            (g1.exprs.trans (g2.exprs.trans (g3.exprs.trans (g4.exprs.trans
              (g5.exprs.trans g6.exprs)))))
            (by rw [g6.ito, g5.ito, g4.ito, g3.ito, g2.ito, g1.ito]) (by omega) ?_ ?_⟩
          · simp only [finishLowered, OInsn.numOut, ne_eq, not_true_eq_false, if_false]
            unfold pushMul at e6
            rw [e6]
            simp
          · intro env a hok
            obtain ⟨k5, s6⟩ := g6.sound env a hok
            obtain ⟨k4, s5⟩ := g5.sound env a k5
            obtain ⟨k3, s4⟩ := g4.sound env a k4
            obtain ⟨k2, s3⟩ := g3.sound env a k3
            obtain ⟨k1, -⟩ := g2.sound env a k2
            obtain ⟨k0, s1⟩ := g1.sound env a k1
            refine ⟨k0, fun a' hag hn => ?_⟩
            simp only [SInsn.Holds]
            rw [hag x hx.2, hag y hy.2, hn, s6]
            rw [s5, s3, s1] at s4
            have h1 : a y * a b1.exprs.length = 1 := by linear_combination -s4
            refine ⟨by linear_combination (a x) * h1, fun _ hy0 => ?_⟩
            rw [hy0, zero_mul] at h1
            exact zero_ne_one h1
          · intro env a' hf hh _
            simp only [SInsn.Holds] at hh
            have hy0 := hh.2 trivial
            obtain ⟨a1, p1, q1, s1⟩ := g1.complete env a' hf trivial
            obtain ⟨a2, p2, q2, s2⟩ := c2 env a1 (fun _ => (a' y)⁻¹) q1
            obtain ⟨a3, p3, q3, s3⟩ := g3.complete env a2 q2 trivial
            obtain ⟨a4, p4, q4, s4⟩ := g4.complete env a3 q3 trivial
            have v4 : ∀ z, z < b.exprs.length → a4 z = a' z := fun z hz => by
              rw [p4 z (by omega), p3 z (by omega), p2 z (by omega), p1 z hz]
            have vone : a4 b.exprs.length = 1 := by
              rw [p4 _ (by omega), p3 _ (by omega), p2 _ (by omega), s1]
            have vinv : a4 b1.exprs.length = (a' y)⁻¹ := by
              rw [p4 _ (by omega), p3 _ (by omega)]; exact s2 0
            have vmul : a4 b2.exprs.length = 1 := by
              rw [p4 _ (by omega), s3, p3 y (by omega), p3 _ (by omega), p2 y (by omega), p1 y hy.2,
                show a2 b1.exprs.length = (a' y)⁻¹ from s2 0, mul_inv_cancel₀ hy0]
            obtain ⟨a5, p5, q5, -⟩ := g5.complete env a4 q4 (by
              show a4 b3.exprs.length = 0
              rw [s4, vone, vmul]; ring)
            obtain ⟨a6, p6, q6, s6⟩ := g6.complete env a5 q5 trivial
            refine ⟨a6, fun z hz => by rw [p6 z (by omega), p5 z (by omega), v4 z hz], q6, ?_⟩
            rw [s6, p6 x (by omega), p5 x (by omega), v4 x hx.2, p6 _ (by omega), p5 _ (by omega),
              vinv, ← hh.1]
            field_simp
      | false =>
          obtain ⟨b2, e2, l2, g2, c2⟩ := pushHint_grow (X := X) cfg h hintDiv
            (xs := [x, y]) (by
              intro z hz
              simp only [List.mem_cons, List.not_mem_nil, or_false] at hz
              rcases hz with rfl | rfl <;> omega) 1
          obtain ⟨b3, e3, l3, g3⟩ := pushMul_grow (X := X) cfg g2.inv (x := y) (y := b.exprs.length)
            (by omega) (by omega)
          obtain ⟨b4, e4, l4, g4⟩ := pushLin2_grow (X := X) cfg g3.inv (x := b2.exprs.length)
            (y := x) 1 (-1) (by omega) (by omega)
          obtain ⟨b5, e5, l5, g5⟩ := assertZ_grow (X := X) g4.inv (t := b3.exprs.length) (by omega)
            (by omega)
          rw [bind_ok (x := .vars [b.exprs.length]) (b' := b5) (by
            unfold lowerDiv; rw [bind_ok ho]; simp only [Bool.false_eq_true, if_false]
            rw [bind_ok e2, bind_ok e3]; unfold pushSub; rw [bind_ok e4, bind_ok e5]
            rfl)]
          refine ⟨[b.exprs.length], b5, by simp [finishLowered], LowerSpec.of_grow _ rfl g5.inv
            (g2.exprs.trans (g3.exprs.trans (g4.exprs.trans g5.exprs)))
            (by rw [g5.ito, g4.ito, g3.ito, g2.ito]) (by omega) ?_ ?_⟩
          · intro env a hok
            obtain ⟨k4, s5⟩ := g5.sound env a hok
            obtain ⟨k3, s4⟩ := g4.sound env a k4
            obtain ⟨k2, s3⟩ := g3.sound env a k3
            obtain ⟨k1, -⟩ := g2.sound env a k2
            refine ⟨k1, fun a' hag hn => ?_⟩
            simp only [SInsn.Holds]
            rw [hag x hx.2, hag y hy.2, hn]
            rw [s5, s3] at s4
            exact ⟨by linear_combination -s4, fun hf => absurd hf (by simp)⟩
          · intro env a' hf hh _
            simp only [SInsn.Holds] at hh
            obtain ⟨a2, p2, q2, s2⟩ := c2 env a' (fun _ => a' b.exprs.length) hf
            obtain ⟨a3, p3, q3, s3⟩ := g3.complete env a2 q2 trivial
            obtain ⟨a4, p4, q4, s4⟩ := g4.complete env a3 q3 trivial
            have hq2 : a2 b.exprs.length = a' b.exprs.length := s2 0
            obtain ⟨a5, p5, q5, -⟩ := g5.complete env a4 q4 (by
              show a4 b3.exprs.length = 0
              rw [s4, p4 b2.exprs.length (by omega), s3, p3 y (by omega), p3 b.exprs.length (by omega),
                p2 y hy.2, hq2,
                p4 x (by omega), p3 x (by omega), p2 x hx.2]
              linear_combination hh.1)
            refine ⟨a5, fun z hz => by
              rw [p5 z (by omega), p4 z (by omega), p3 z (by omega), p2 z hz], q5, ?_⟩
            rw [p5 _ (by omega), p4 _ (by omega), p3 _ (by omega), hq2]

/-! ## Boolean operations -/

theorem bool_cases {v : F} (h : v = 0 ∨ v = 1) : ∃ p : Bool, v = ofBool p := by
  rcases h with h | h
  · exact ⟨false, by simp [ofBool, h]⟩
  · exact ⟨true, by simp [ofBool, h]⟩

theorem ofBool_or (p : Bool) : (ofBool p : F) = 0 ∨ (ofBool p : F) = 1 := by
  cases p <;> simp [ofBool]

/-- The polynomial of a boolean operation. -/
def boolPoly (op : BoolOp) (u v : F) : F :=
  match op with
  | .and => u * v
  | .or => u + v - u * v
  | .xor => u + v - (1 + 1) * (u * v)

theorem boolPoly_eq (op : BoolOp) (p q : Bool) :
    boolPoly op (ofBool p : F) (ofBool q) = ofBool (op.apply p q) := by
  cases op <;> cases p <;> cases q <;> simp [boolPoly, ofBool, BoolOp.apply]

/-- The result of `lowerBool` before it is marked. -/
def boolRes (cfg : Cfg F) (op : BoolOp) (s p : Nat) : M F Nat :=
  match op with
  | .and => M.pure p
  | .or => pushSub cfg s p
  | .xor => push cfg (.linComb ⟨[(s, 1), (p, -(1 + 1))], 0⟩)

theorem boolRes_ok (cfg : Cfg F) {N : Nat} {b : B F} (h : Inv N b) {s p : Nat} (op : BoolOp)
    (hs : 1 ≤ s ∧ s < b.exprs.length) (hp : 1 ≤ p ∧ p < b.exprs.length) :
    ∃ r b', boolRes cfg op s p b = .ok (r, b') ∧ 1 ≤ r ∧ r < b'.exprs.length ∧
      Grow X N b b' (fun _ _ => True) fun _ a =>
        ∀ u v, a s = u + v → a p = u * v → a r = boolPoly op u v := by
  cases op with
  | and =>
      refine ⟨p, b, rfl, hp.1, hp.2, h, List.prefix_refl _, rfl, fun env a ho => ⟨ho, ?_⟩, ?_⟩
      · intro u v _ h2; exact h2
      · intro env a hf _; exact ⟨a, fun _ _ => rfl, hf, fun u v _ h2 => h2⟩
  | or =>
      obtain ⟨b', e, l, g⟩ := pushLin2_grow (X := X) cfg h (x := s) (y := p) 1 (-1) hs hp
      refine ⟨_, b', e, by omega, by omega, g.inv, g.exprs, g.ito, ?_, ?_⟩
      · intro env a ho
        obtain ⟨k1, k2⟩ := g.sound env a ho
        refine ⟨k1, fun u v h1 h2 => ?_⟩
        rw [k2, h1, h2, boolPoly]; ring
      · intro env a hf hP
        obtain ⟨a', k1, k2, k3⟩ := g.complete env a hf hP
        refine ⟨a', k1, k2, fun u v h1 h2 => ?_⟩
        rw [k3, h1, h2, boolPoly]; ring
  | xor =>
      obtain ⟨b', e, l, g⟩ := pushLin2_grow (X := X) cfg h (x := s) (y := p) 1 (-(1 + 1)) hs hp
      refine ⟨_, b', e, by omega, by omega, g.inv, g.exprs, g.ito, ?_, ?_⟩
      · intro env a ho
        obtain ⟨k1, k2⟩ := g.sound env a ho
        refine ⟨k1, fun u v h1 h2 => ?_⟩
        rw [k2, h1, h2, boolPoly]; ring
      · intro env a hf hP
        obtain ⟨a', k1, k2, k3⟩ := g.complete env a hf hP
        refine ⟨a', k1, k2, fun u v h1 h2 => ?_⟩
        rw [k3, h1, h2, boolPoly]; ring

theorem lowerBool_eq (cfg : Cfg F) (x y : Nat) (op : BoolOp) :
    lowerBool cfg x y op = (do
      assertBool cfg x
      assertBool cfg y
      let s ← pushAdd cfg x y
      let p ← pushMul cfg x y
      let res ← boolRes cfg op s p
      markBoolNote cfg res
      M.pure (.vars [res])) := by
  cases op <;> rfl

theorem lowerBool_ok (cfg : Cfg F) {N : Nat} {b : B F} (h : Inv N b) {x y : Nat} (op : BoolOp)
    (hx : 1 ≤ x ∧ x < b.exprs.length) (hy : 1 ≤ y ∧ y < b.exprs.length) :
    ∃ xs b', (lowerBool cfg x y op >>= finishLowered cfg 1) b = .ok (xs, b') ∧
      LowerSpec X cfg.ev N b (.boolBin x y op) xs b' := by
  obtain ⟨b1, e1, l1, g1⟩ := assertBool_grow (X := X) cfg h hx
  obtain ⟨b2, e2, l2, g2⟩ := assertBool_grow (X := X) cfg g1.inv (x := y) (by omega)
  obtain ⟨b3, e3, l3, g3⟩ := pushLin2_grow (X := X) cfg g2.inv (x := x) (y := y) 1 1 (by omega) (by omega)
  obtain ⟨b4, e4, l4, g4⟩ := pushMul_grow (X := X) cfg g3.inv (x := x) (y := y) (by omega) (by omega)
  obtain ⟨r, b5, e5, hr1, hr2, g5⟩ := boolRes_ok (X := X) cfg g4.inv (s := b2.exprs.length)
    (p := b3.exprs.length) op (by omega) (by omega)
  have l5 := g5.len
  -- what is known before the mark
  have hsound : ∀ env a, OK env N a b5 → OK env N a b ∧ (a x = 0 ∨ a x = 1) ∧
      (a y = 0 ∨ a y = 1) ∧ a r = boolPoly op (a x) (a y) := by
    intro env a ho
    obtain ⟨k4, s5⟩ := g5.sound env a ho
    obtain ⟨k3, s4⟩ := g4.sound env a k4
    obtain ⟨k2, s3⟩ := g3.sound env a k3
    obtain ⟨k1, s2⟩ := g2.sound env a k2
    obtain ⟨k0, s1⟩ := g1.sound env a k1
    exact ⟨k0, s1, s2, s5 _ _ (by rw [s3]; ring) s4⟩
  obtain ⟨b6, e6, l6, g6⟩ := markBoolNote_grow (X := X) cfg g5.inv (x := r) ⟨hr1, hr2⟩ (by
    intro env a ho
    obtain ⟨-, h1, h2, h3⟩ := hsound env a ho
    obtain ⟨p, hp⟩ := bool_cases h1
    obtain ⟨q, hq⟩ := bool_cases h2
    rw [h3, hp, hq, boolPoly_eq]
    exact ofBool_or _)
  refine ⟨[r], b6, ?_, LowerSpec.of_grow _ rfl g6.inv
    (g1.exprs.trans (g2.exprs.trans (g3.exprs.trans (g4.exprs.trans (g5.exprs.trans g6.exprs)))))
    (by rw [g6.ito, g5.ito, g4.ito, g3.ito, g2.ito, g1.ito]) (by omega) ?_ ?_⟩
  · rw [lowerBool_eq, bind_ok (x := .vars [r]) (b' := b6) (by
      rw [bind_ok e1, bind_ok e2]
      unfold pushAdd
      rw [bind_ok e3, bind_ok e4, bind_ok e5, bind_ok e6]; rfl)]
    simp [finishLowered]
  · intro env a ho
    obtain ⟨k5, -⟩ := g6.sound env a ho
    obtain ⟨k0, h1, h2, h3⟩ := hsound env a k5
    refine ⟨k0, fun a' hag hn => ?_⟩
    obtain ⟨p, hp⟩ := bool_cases h1
    obtain ⟨q, hq⟩ := bool_cases h2
    refine ⟨p, q, by rw [hag x hx.2, hp], by rw [hag y hy.2, hq], ?_⟩
    rw [hn, h3, hp, hq, boolPoly_eq]
  · intro env a' hf hh _
    obtain ⟨p, q, hp, hq, hn⟩ := hh
    obtain ⟨a1, p1, q1, s1⟩ := g1.complete env a' hf (by
      show a' x = 0 ∨ a' x = 1
      rw [hp]; exact ofBool_or p)
    obtain ⟨a2, p2, q2, s2⟩ := g2.complete env a1 q1 (by
      show a1 y = 0 ∨ a1 y = 1
      rw [p1 y hy.2, hq]; exact ofBool_or q)
    obtain ⟨a3, p3, q3, s3⟩ := g3.complete env a2 q2 trivial
    obtain ⟨a4, p4, q4, s4⟩ := g4.complete env a3 q3 trivial
    obtain ⟨a5, p5, q5, s5⟩ := g5.complete env a4 q4 trivial
    obtain ⟨a6, p6, q6, -⟩ := g6.complete env a5 q5 trivial
    have hold3 : ∀ z, z < b.exprs.length → a3 z = a' z := fun z hz => by
      rw [p3 z (by omega), p2 z (by omega), p1 z hz]
    have hold : ∀ z, z < b.exprs.length → a6 z = a' z := fun z hz => by
      rw [p6 z (by omega), p5 z (by omega), p4 z (by omega), hold3 z hz]
    refine ⟨a6, hold, q6, ?_⟩
    rw [p6 r hr2, s5 (a' x) (a' y) (by
      rw [p5 _ (by omega), p4 _ (by omega), s3, hold3 x hx.2, hold3 y hy.2]; ring) (by
      rw [p5 _ (by omega), s4, p4 x (by omega), p4 y (by omega), hold3 x hx.2, hold3 y hy.2]), hp,
      hq, boolPoly_eq, hn]

/-! ## The zero test -/

/-- The mark of the zero test: even if an assertion of the marked expression is overwritten,
nothing is lost.  The reason is that the hint is free: if the marked expression, or the one which
was asserted just before, were known from earlier, it could not depend on the hint, and then the
operand is zero whatever the values. -/
theorem isZero_mark (cfg : Cfg F) {N : Nat} {b b1 b2 b3 b4 b5 b6 : B F} (h : Inv N b) {x : Nat}
    (hx : 1 ≤ x ∧ x < b.exprs.length)
    (e1 : pushConst cfg 1 b = .ok (b.exprs.length, b1))
    (l1 : b1.exprs.length = b.exprs.length + 1) (i1 : Inv N b1)
    (e2 : push cfg (.hint hintDiv [b.exprs.length, x] 1) b1 = .ok (b1.exprs.length, b2))
    (l2 : b2.exprs.length = b1.exprs.length + 1) (i2 : Inv N b2)
    (e3 : pushMul cfg x b1.exprs.length b2 = .ok (b2.exprs.length, b3))
    (l3 : b3.exprs.length = b2.exprs.length + 1) (i3 : Inv N b3)
    (e4 : push cfg (.linComb ⟨[(b.exprs.length, 1), (b2.exprs.length, -1)], 0⟩) b3 =
      .ok (b3.exprs.length, b4))
    (l4 : b4.exprs.length = b3.exprs.length + 1) (i4 : Inv N b4)
    (e5 : pushMul cfg x b3.exprs.length b4 = .ok (b4.exprs.length, b5))
    (l5 : b5.exprs.length = b4.exprs.length + 1) (i5 : Inv N b5)
    (e6 : assertZ b4.exprs.length b5 = .ok ((), b6)) (i6 : Inv N b6) :
    ∃ b7, markBool cfg b3.exprs.length b6 = .ok ((), b7) ∧
      b7.exprs.length = b6.exprs.length + 3 ∧
      Grow X N b6 b7 (fun _ _ => True) (fun _ _ => True) := by
  have p1 := pushConst_pure cfg h e1
  have p2 := pushHint_pure cfg i1 (by
    intro z hz
    simp only [List.mem_cons, List.not_mem_nil, or_false] at hz
    rcases hz with rfl | rfl <;> omega) e2
  have p3 := pushMul_pure cfg i2 (by omega) (by omega) e3
  have p4 := pushLin2_pure cfg i3 (by omega) (by omega) e4
  have p5 := pushMul_pure cfg i4 (by omega) (by omega) e5
  have l6 : b6.exprs = b5.exprs ∧ b6.insns = b5.insns ∧ b6.clash = b5.clash ∧
      (b6.cons = b5.cons ∧ (∃ s, lookup b5.exprs[b4.exprs.length] b5.cons = some s) ∨
        b6.cons = (b5.exprs[b4.exprs.length], .asserted) :: b5.cons ∧
          lookup b5.exprs[b4.exprs.length] b5.cons = none) := by
    have hget : b5.exprs[b4.exprs.length]? = some b5.exprs[b4.exprs.length] :=
      List.getElem?_eq_getElem (by omega)
    unfold assertZ at e6
    rw [hget] at e6
    simp only [orPanic, bind, Except.bind] at e6
    cases hl : lookup b5.exprs[b4.exprs.length] b5.cons with
    | some s =>
        rw [hl] at e6
        simp only [Except.ok.injEq, Prod.mk.injEq, true_and] at e6
        subst e6
        exact ⟨rfl, rfl, rfl, Or.inl ⟨rfl, s, rfl⟩⟩
    | none =>
        rw [hl] at e6
        simp only [Except.ok.injEq, Prod.mk.injEq, true_and] at e6
        subst e6
        exact ⟨rfl, rfl, rfl, Or.inr ⟨rfl, rfl⟩⟩
  obtain ⟨x6, n6, c6, hcase⟩ := l6
  obtain ⟨b7, e7, l7, s7⟩ := boolCond_ok (X := X) cfg i6 (x := b3.exprs.length) (by rw [x6]; omega)
  have p7 := boolCond_pure cfg i6 (by rw [x6]; omega) e7
  have hL6 : b6.exprs.length = b.exprs.length + 5 := by rw [x6]; omega
  -- the conditions on the values
  have hiff : ∀ env a, Cons env N a b7 ↔ Cons env N a b ∧ a b.exprs.length = 1 ∧
      a b2.exprs.length = a x * a b1.exprs.length ∧
      a b3.exprs.length = 1 - a x * a b1.exprs.length ∧
      a b4.exprs.length = a x * a b3.exprs.length ∧ BoolVals b6.exprs.length b3.exprs.length a := by
    intro env a
    have h6 : Cons env N a b6 ↔ Cons env N a b5 := by unfold Cons; rw [n6]
    rw [p7.iff, h6, p5.iff, p4.iff, p3.iff, p2.iff, p1.iff]
    constructor
    · rintro ⟨⟨⟨⟨⟨⟨k0, k1⟩, -⟩, k3⟩, k4⟩, k5⟩, k7⟩
      exact ⟨k0, k1, k3, by rw [k4, k1, k3]; ring, k5, k7⟩
    · rintro ⟨k0, k1, k3, k4, k5, k7⟩
      exact ⟨⟨⟨⟨⟨⟨k0, k1⟩, trivial⟩, k3⟩, by rw [k4, k1, k3]; ring⟩, k5⟩, k7⟩
  -- other values of the hint
  have hfree : ∀ env a (w : F), Cons env N a b → ∃ a', (∀ z, z < b.exprs.length → a' z = a z) ∧
      Cons env N a' b7 ∧ a' b4.exprs.length = a x * (1 - a x * w) ∧
      a' (b6.exprs.length + 2) = (1 - a x * w) * (1 - a x * w - 1) := by
    intro env a w hc
    set a' : Nat → F := fun z => if z < b.exprs.length then a z else
      if z = b.exprs.length then 1 else if z = b1.exprs.length then w else
      if z = b2.exprs.length then a x * w else if z = b3.exprs.length then 1 - a x * w else
      if z = b4.exprs.length then a x * (1 - a x * w) else if z = b6.exprs.length then 1 else
      if z = b6.exprs.length + 1 then 1 - a x * w - 1 else
        (1 - a x * w) * (1 - a x * w - 1) with ha'
    have hold : ∀ z, z < b.exprs.length → a' z = a z := fun z hz => by
      simp only [ha', if_pos hz]
    have v0 : a' b.exprs.length = 1 := by
      simp only [ha', lt_self_iff_false, if_false, if_true]
    have v1 : a' b1.exprs.length = w := by
      simp only [ha']
      rw [if_neg (by omega), if_neg (by omega), if_pos trivial]
    have v2 : a' b2.exprs.length = a x * w := by
      simp only [ha']
      rw [if_neg (by omega), if_neg (by omega), if_neg (by omega), if_pos trivial]
    have v3 : a' b3.exprs.length = 1 - a x * w := by
      simp only [ha']
      rw [if_neg (by omega), if_neg (by omega), if_neg (by omega), if_neg (by omega), if_pos trivial]
    have v4 : a' b4.exprs.length = a x * (1 - a x * w) := by
      simp only [ha']
      rw [if_neg (by omega), if_neg (by omega), if_neg (by omega), if_neg (by omega),
        if_neg (by omega), if_pos trivial]
    have v6 : a' b6.exprs.length = 1 := by
      simp only [ha']
      rw [if_neg (by omega), if_neg (by omega), if_neg (by omega), if_neg (by omega),
        if_neg (by omega), if_neg (by omega), if_pos trivial]
    have v7 : a' (b6.exprs.length + 1) = 1 - a x * w - 1 := by
      simp only [ha']
      rw [if_neg (by omega), if_neg (by omega), if_neg (by omega), if_neg (by omega),
        if_neg (by omega), if_neg (by omega), if_neg (by omega), if_pos trivial]
    have v8 : a' (b6.exprs.length + 2) = (1 - a x * w) * (1 - a x * w - 1) := by
      simp only [ha']
      rw [if_neg (by omega), if_neg (by omega), if_neg (by omega), if_neg (by omega),
        if_neg (by omega), if_neg (by omega), if_neg (by omega), if_neg (by omega)]
    refine ⟨a', hold, (hiff env a').2 ⟨h.loc env a a' (fun z hz => (hold z hz).symm) hc, v0, ?_, ?_,
      ?_, ?_, ?_, ?_⟩, v4, v8⟩
    · rw [v2, hold x hx.2, v1]
    · rw [v3, hold x hx.2, v1]
    · rw [v4, hold x hx.2, v3]
    · exact v6
    · rw [v7, v3]
    · rw [v8, v3]
  have hpre5 : b5.exprs <+: b7.exprs := by rw [← x6]; exact s7.exprs
  have hpre0 : b.exprs <+: b5.exprs := by
    obtain ⟨c1, f1, -, t1⟩ := pushConst_ok (X := X) cfg h 1
    rw [e1] at f1; cases f1
    obtain ⟨c2, f2, -, t2⟩ := pushHint_ok (X := X) cfg i1 hintDiv (xs := [b.exprs.length, x]) (by
      intro z hz
      simp only [List.mem_cons, List.not_mem_nil, or_false] at hz
      rcases hz with rfl | rfl <;> omega) 1
    rw [e2] at f2; cases f2
    obtain ⟨c3, f3, -, t3⟩ := pushMul_ok (X := X) cfg i2 (x := x) (y := b1.exprs.length) (by omega) (by omega)
    rw [e3] at f3; cases f3
    obtain ⟨c4, f4, -, t4⟩ := pushLin2_ok (X := X) cfg i3 (x := b.exprs.length) (y := b2.exprs.length) 1 (-1)
      (by omega) (by omega)
    rw [e4] at f4; cases f4
    obtain ⟨c5, f5, -, t5⟩ := pushMul_ok (X := X) cfg i4 (x := x) (y := b3.exprs.length) (by omega) (by omega)
    rw [e5] at f5; cases f5
    exact t1.exprs.trans (t2.exprs.trans (t3.exprs.trans (t4.exprs.trans t5.exprs)))
  have hcons0 : b5.cons = b.cons := by rw [p5.same, p4.same, p3.same, p2.same, p1.same]
  set d := b5.exprs[b4.exprs.length] with hd
  have hd7 : b7.exprs[b4.exprs.length]? = some d :=
    get?_prefix hpre5 (List.getElem?_eq_getElem (by omega))
  obtain ⟨b8, e8, l8, s8⟩ := mark_ok (X := X) s7.inv (t := b6.exprs.length + 2) (by omega) (by omega) (by
    intro env a hc hcl hne
    obtain ⟨k0, k1, k2, k3, k4, k5⟩ := (hiff env a).1 hc
    -- it is enough that the operand is zero, or the asserted product is
    have hxz : a x = 0 → a (b6.exprs.length + 2) = 0 := by
      intro h0
      rw [k5.2.2, k3, h0]; ring
    have hpz : a b4.exprs.length = 0 → a (b6.exprs.length + 2) = 0 := by
      intro h0
      rw [k4] at h0
      rcases mul_eq_zero.1 h0 with h0 | h0
      · exact hxz h0
      · rw [k5.2.2, h0, zero_mul]
    by_cases hde : b7.exprs[b6.exprs.length + 2]? = some d
    · -- the asserted expression is the marked one
      apply hxz
      obtain ⟨a', -, g2, g3, g4⟩ := hfree env a 0 k0
      have := (s7.inv.val env a' g2).same (i := b4.exprs.length) (j := b6.exprs.length + 2)
        (by omega) (by omega) hd7 hde
      rw [g3, g4] at this
      linear_combination this
    · rcases hcase with ⟨-, s, hs⟩ | ⟨hc6, hl6⟩
      · -- the asserted expression was known before
        apply hxz
        rw [hcons0] at hs
        obtain ⟨i, hi1, hi2⟩ := h.wf.cons d s hs
        have hi7 : b7.exprs[i]? = some d := get?_prefix (hpre0.trans hpre5) hi2
        have hil := get?_lt hi2
        obtain ⟨a0, g1, g2, g3, -⟩ := hfree env a 0 k0
        obtain ⟨a1, q1, q2, q3, -⟩ := hfree env a 1 k0
        have r0 := (s7.inv.val env a0 g2).same hi1 (by omega) hi7 hd7
        have r1 := (s7.inv.val env a1 q2).same hi1 (by omega) hi7 hd7
        rw [g1 i hil, g3] at r0
        rw [q1 i hil, q3, r0] at r1
        have : a x * a x = 0 := by linear_combination r1
        exact mul_self_eq_zero.1 this
      · apply hpz
        refine hne d b4.exprs.length hde ?_ (by omega) hd7
        rw [p7.same, hc6]
        exact lookup_cons_self _ _ _)
  have sA := s7.trans s8
  have g := sA.grow (P := fun _ _ => True) i6 fun env a _ => by
    obtain ⟨a', k1, k2⟩ := boolVals_ext (n := b6.exprs.length) (x := b3.exprs.length) (by omega) a
    exact ⟨a', k1, k2, trivial⟩
  refine ⟨b8, ?_, by rw [l8, l7], g.inv, g.exprs, g.ito,
    fun env a ho => ⟨(g.sound env a ho).1, trivial⟩, fun env a hf hP => ?_⟩
  · unfold markBool
    rw [bind_ok e7, e8]
  · obtain ⟨a', k1, k2, -⟩ := g.complete env a hf hP
    exact ⟨a', k1, k2, trivial⟩

theorem lowerIsZero_ok (cfg : Cfg F) {N : Nat} {b : B F} (h : Inv N b) {x : Nat}
    (hx : 1 ≤ x ∧ x < b.exprs.length) :
    ∃ xs b', (lowerIsZero cfg x >>= finishLowered cfg 1) b = .ok (xs, b') ∧
      LowerSpec X cfg.ev N b (.isZero x) xs b' := by
  obtain ⟨o, ho, hval⟩ := constVal_ok h hx
  cases o with
  | some xv =>
      obtain ⟨b1, e1, l1, g1⟩ := pushConst_grow (X := X) cfg h (if xv = 0 then 1 else 0)
      refine ⟨[b.exprs.length], b1, ?_, LowerSpec.of_grow _ rfl g1.inv g1.exprs g1.ito (by omega)
        ?_ ?_⟩
      · rw [bind_ok (x := .insn (.constant (if xv = 0 then 1 else 0))) (b' := b) (by
          unfold lowerIsZero; rw [bind_ok ho]; rfl)]
        simp only [finishLowered, OInsn.numOut, ne_eq, not_true_eq_false, if_false]
        unfold pushConst at e1
        rw [e1]; simp
      · intro env a hok
        obtain ⟨k1, k2⟩ := g1.sound env a hok
        refine ⟨k1, fun a' hag hn => ?_⟩
        simp only [SInsn.Holds]
        rw [hn, k2, hag x hx.2, hval xv rfl env a k1.1]
        exact ⟨fun h0 => if_pos h0, fun h0 => if_neg h0⟩
      · intro env a' hf hh _
        obtain ⟨a1, k1, k2, k3⟩ := g1.complete env a' hf trivial
        refine ⟨a1, k1, k2, ?_⟩
        rw [k3]
        simp only [SInsn.Holds] at hh
        rw [hval xv rfl env a' hf.1] at hh
        split_ifs with h0
        · exact (hh.1 h0).symm
        · exact (hh.2 h0).symm
  | none =>
      obtain ⟨b1, e1, l1, g1⟩ := pushConst_grow (X := X) cfg h 1
      obtain ⟨b2, e2, l2, g2, c2⟩ := pushHint_grow (X := X) cfg g1.inv hintDiv
        (xs := [b.exprs.length, x]) (by
          intro z hz
          simp only [List.mem_cons, List.not_mem_nil, or_false] at hz
          rcases hz with rfl | rfl <;> omega) 1
      obtain ⟨b3, e3, l3, g3⟩ := pushMul_grow (X := X) cfg g2.inv (x := x) (y := b1.exprs.length)
        (by omega) (by omega)
      obtain ⟨b4, e4, l4, g4⟩ := pushLin2_grow (X := X) cfg g3.inv (x := b.exprs.length)
        (y := b2.exprs.length) 1 (-1) (by omega) (by omega)
      obtain ⟨b5, e5, l5, g5⟩ := pushMul_grow (X := X) cfg g4.inv (x := x) (y := b3.exprs.length)
        (by omega) (by omega)
      obtain ⟨b6, e6, l6, g6⟩ := assertZ_grow (X := X) g5.inv (t := b4.exprs.length) (by omega) (by omega)
      have hsound : ∀ env a, OK env N a b6 → OK env N a b ∧ (a x = 0 → a b3.exprs.length = 1) ∧
          (a x ≠ 0 → a b3.exprs.length = 0) := by
        intro env a hok
        obtain ⟨k5, s6⟩ := g6.sound env a hok
        obtain ⟨k4, s5⟩ := g5.sound env a k5
        obtain ⟨k3, s4⟩ := g4.sound env a k4
        obtain ⟨k2, s3⟩ := g3.sound env a k3
        obtain ⟨k1, -⟩ := g2.sound env a k2
        obtain ⟨k0, s1⟩ := g1.sound env a k1
        refine ⟨k0, fun h0 => ?_, fun h0 => ?_⟩
        · rw [s4, s1, s3, h0]; ring
        · rw [s6] at s5
          exact (mul_eq_zero.1 s5.symm).resolve_left h0
      obtain ⟨b7, e7, l7, g7⟩ : ∃ b7, markBool cfg b3.exprs.length b6 = .ok ((), b7) ∧
          b7.exprs.length = b6.exprs.length + 3 ∧
          Grow X N b6 b7 (fun _ _ => True) (fun _ _ => True) :=
        isZero_mark cfg h hx e1 l1 g1.inv e2 l2 g2.inv e3 l3 g3.inv e4 l4 g4.inv e5 l5 g5.inv e6
          g6.inv
      refine ⟨[b3.exprs.length], b7, ?_, LowerSpec.of_grow _ rfl g7.inv
        (g1.exprs.trans (g2.exprs.trans (g3.exprs.trans (g4.exprs.trans (g5.exprs.trans
          (g6.exprs.trans g7.exprs))))))
        (by rw [g7.ito, g6.ito, g5.ito, g4.ito, g3.ito, g2.ito, g1.ito]) (by omega) ?_ ?_⟩
      · rw [bind_ok (x := .vars [b3.exprs.length]) (b' := b7) (by
          unfold lowerIsZero
          rw [bind_ok ho]
          simp only
          rw [bind_ok e1, bind_ok e2, bind_ok e3]
          unfold pushSub
          rw [bind_ok e4, bind_ok e5, bind_ok e6, bind_ok e7]; rfl)]
        simp [finishLowered]
      · intro env a hok
        obtain ⟨k6, -⟩ := g7.sound env a hok
        obtain ⟨k0, h1, h2⟩ := hsound env a k6
        refine ⟨k0, fun a' hag hn => ?_⟩
        simp only [SInsn.Holds]
        rw [hn, hag x hx.2]
        exact ⟨h1, h2⟩
      · intro env a' hf hh _
        simp only [SInsn.Holds] at hh
        obtain ⟨a1, p1, q1, s1⟩ := g1.complete env a' hf trivial
        obtain ⟨a2, p2, q2, s2⟩ := c2 env a1 (fun _ => (a' x)⁻¹) q1
        obtain ⟨a3, p3, q3, s3⟩ := g3.complete env a2 q2 trivial
        obtain ⟨a4, p4, q4, s4⟩ := g4.complete env a3 q3 trivial
        obtain ⟨a5, p5, q5, s5⟩ := g5.complete env a4 q4 trivial
        have vx4 : a4 x = a' x := by
          rw [p4 x (by omega), p3 x (by omega), p2 x (by omega), p1 x hx.2]
        have vone : a4 b.exprs.length = 1 := by
          rw [p4 _ (by omega), p3 _ (by omega), p2 _ (by omega), s1]
        have vprod : a4 b2.exprs.length = a' x * (a' x)⁻¹ := by
          rw [p4 _ (by omega), s3, p3 x (by omega), p3 _ (by omega), p2 x (by omega), p1 x hx.2,
            show a2 b1.exprs.length = (a' x)⁻¹ from s2 0]
        have vm : a4 b3.exprs.length = a' b.exprs.length := by
          rw [s4, vone, vprod]
          by_cases h0 : a' x = 0
          · rw [hh.1 h0, h0]; simp
          · rw [hh.2 h0, mul_inv_cancel₀ h0]; ring
        obtain ⟨a6, p6, q6, -⟩ := g6.complete env a5 q5 (by
          show a5 b4.exprs.length = 0
          rw [s5, p5 x (by omega), p5 _ (by omega), vx4, vm]
          by_cases h0 : a' x = 0
          · rw [h0, zero_mul]
          · rw [hh.2 h0, mul_zero])
        obtain ⟨a7, p7, q7, -⟩ := g7.complete env a6 q6 trivial
        refine ⟨a7, fun z hz => ?_, q7, ?_⟩
        · rw [p7 z (by omega), p6 z (by omega), p5 z (by omega), p4 z (by omega), p3 z (by omega),
            p2 z (by omega), p1 z hz]
        · rw [p7 _ (by omega), p6 _ (by omega), p5 _ (by omega), vm]

end JST.Comp
