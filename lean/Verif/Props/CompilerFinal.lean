import Verif.Compiler.FinalProofs
import Verif.Compiler.Heap
import Mathlib.Algebra.Field.Rat

/-!
# Property C73: the compiler's second pass

What a circuit before and after the pass means is specified in `Verif/Spec/Flat.lean`.
-/

set_option linter.unusedSectionVars false

namespace JST.Props

open JST JST.Comp JST.Circ JST.Flat

section
variable {F R : Type} [Field F] [DecidableEq F]

/-- **C73.** On every valid circuit the second pass ends without a panic, whatever order the heap
hands the factors of products out in.  Either it returns a circuit with the same inputs whose
instructions read only earlier variables, which draws the same coins in the same order, and which,
for all public inputs, all coins and all inputs, accepts exactly when the source does and has the
same outputs; or it refuses the circuit, and then the source accepts no input at all. -/
theorem C73_second_pass (pk : Pick F R) {fuel : Nat} {c : HCircuit F R} (hv : c.Valid)
    (hf : ∀ xs, HInsn.mul xs ∈ c.insns → 3 * xs.length ≤ fuel) :
    (∃ d, finalBuild pk fuel c = .ok d ∧ d.numInputs = c.numInputs ∧ d.Valid ∧
      DCircuit.coins d = HCircuit.coins c ∧
      ∀ E ins, ins.length = c.numInputs →
        (DCircuit.Accepts E d ins ↔ HCircuit.Accepts E c ins) ∧
        DCircuit.outs E d ins = HCircuit.outs E c ins) ∨
    (finalBuild pk fuel c = .error .user ∧
      ∀ E ins, ins.length = c.numInputs → ¬ c.Accepts E ins) :=
  (finalBuild_ok pk hv hf).symm

/-- More rounds than needed change nothing. -/
theorem mulLoop_succ (pk : Pick F R) (n : Nat) {b : FB F R} {es : List (Expr F)}
    {r : Expr F × FB F R} (h : mulLoop pk n b es = some r) : mulLoop pk (n + 1) b es = some r := by
  induction n generalizing b es with
  | zero => simp [mulLoop] at h
  | succ n ih =>
      unfold mulLoop at h ⊢
      split_ifs at h ⊢ with h1 h2
      · exact h
      · rcases hpk : pk.pick b es with ⟨x, y, rest⟩
        rw [hpk] at h
        dsimp only at h ⊢
        generalize (if y.length < x.length then (y, x) else (x, y)) = p at h ⊢
        obtain ⟨x', y'⟩ := p
        dsimp only at h ⊢
        cases hs : mulStep b x' y' with
        | none => rw [hs] at h; cases h
        | some q =>
            rw [hs] at h
            simp only [Option.bind_eq_bind, Option.bind_some] at h ⊢
            exact ih h

/-- **C73, the loop over the factors ends.** After at most three rounds per factor; the bound on the
number of rounds, which the Rust loop does not have, changes nothing from there on. -/
theorem C73_products_end (pk : Pick F R) {b : FB F R} (h : FInv b)
    (hin : ∀ e ∈ b.inVar, Expr.WF b.pool.length e) {xs : List Nat} (h2 : 2 ≤ xs.length)
    (hx : ∀ x ∈ xs, x < b.inVar.length) {fuel : Nat} (hf : 3 * xs.length ≤ fuel) :
    mulVec pk fuel b xs = mulVec pk (3 * xs.length) b xs ∧
      (mulVec pk fuel b xs).isSome := by
  obtain ⟨r, b', h1, -⟩ := mulVec_ok pk h hin h2 hx (le_refl _)
  have key : ∀ k, mulVec pk (3 * xs.length + k) b xs = some (r, b') := by
    intro k
    induction k with
    | zero => exact h1
    | succ k ih =>
        unfold mulVec at ih ⊢
        rw [if_neg (by omega)] at ih ⊢
        cases he : inExprs b xs with
        | none => rw [he] at ih; cases ih
        | some es =>
            rw [he] at ih
            simp only [Option.bind_eq_bind, Option.bind_some] at ih ⊢
            cases ht : tryAll b (es.map fun e => (e, 1)) with
            | none => rw [ht] at ih; cases ih
            | some fs =>
                rw [ht] at ih
                simp only [Option.bind_some] at ih ⊢
                exact mulLoop_succ pk _ ih
  obtain ⟨k, rfl⟩ : ∃ k, fuel = 3 * xs.length + k := ⟨fuel - 3 * xs.length, by omega⟩
  rw [key k, h1]
  exact ⟨rfl, rfl⟩

/-! ### The heap -/

/-- **C73, the heap.** A heap holds what was pushed, and hands out a least element; what is left is
a heap again. -/
theorem C73_heap {α : Type} {lt : α → α → Bool} (hw : Weak lt) :
    IsHeap lt #[] ∧
    (∀ s x, IsHeap lt s → IsHeap lt (heapPush lt s x) ∧
      (heapPush lt s x).toList.Perm (x :: s.toList)) ∧
    (∀ s, heapPop lt s = none ↔ s = #[]) ∧
    (∀ s x s', IsHeap lt s → heapPop lt s = some (x, s') →
      IsHeap lt s' ∧ (x :: s'.toList).Perm s.toList ∧ ∀ y ∈ s'.toList, lt y x = false) := by
  refine ⟨by intro i hi; simp at hi, fun s x h => ⟨heapPush_heap hw h x, ?_⟩, fun s => ?_,
    fun s x s' h hp => ?_⟩
  · exact (heapPush_perm s x).trans (List.perm_append_singleton x s.toList)
  · constructor
    · intro h
      by_contra hne
      have h0 : 0 < s.size := Nat.pos_of_ne_zero fun h0 => hne (Array.size_eq_zero_iff.1 h0)
      obtain ⟨x, s', h1, -⟩ := heapPop_perm (lt := lt) h0
      rw [h] at h1; cases h1
    · rintro rfl; rfl
  · obtain ⟨g1, g2⟩ := heapPop_heap hw h hp
    have h0 : 0 < s.size := by
      by_contra hcon
      unfold heapPop at hp
      rw [dif_neg hcon] at hp; cases hp
    obtain ⟨x', s'', k1, k2⟩ := heapPop_perm (lt := lt) h0
    rw [hp] at k1
    simp only [Option.some.injEq, Prod.mk.injEq] at k1
    obtain ⟨rfl, rfl⟩ := k1
    exact ⟨g1, k2, fun y hy => g2 y (k2.mem_iff.1 (List.mem_cons_of_mem _ hy))⟩

theorem mulLt_weak {ltE : Expr F → Expr F → Bool} (hE : Weak ltE) (b : FB F R) :
    Weak (mulLt ltE b) := by
  constructor
  · intro x y h
    simp only [mulLt, Bool.or_eq_true, Bool.and_eq_true, decide_eq_true_eq, Bool.or_eq_false_iff,
      Bool.and_eq_false_iff, decide_eq_false_iff_not] at h ⊢
    rcases h with h | ⟨h1, h | ⟨h2, h⟩⟩
    · exact ⟨by omega, Or.inl (by omega)⟩
    · exact ⟨by omega, Or.inr ⟨by omega, Or.inl (by omega)⟩⟩
    · exact ⟨by omega, Or.inr ⟨by omega, Or.inr (hE.asymm _ _ h)⟩⟩
  · intro x y z h g
    simp only [mulLt, Bool.or_eq_false_iff, Bool.and_eq_false_iff, decide_eq_false_iff_not]
      at h g ⊢
    obtain ⟨h1, h2⟩ := h
    obtain ⟨g1, g2⟩ := g
    refine ⟨by omega, ?_⟩
    by_cases hl : (exprLayer b z).getD 0 = (exprLayer b x).getD 0
    · right
      have e1 : (exprLayer b y).getD 0 = (exprLayer b x).getD 0 := by omega
      have e2 : (exprLayer b z).getD 0 = (exprLayer b y).getD 0 := by omega
      replace h2 := h2.resolve_left (fun hn => hn e1)
      replace g2 := g2.resolve_left (fun hn => hn e2)
      refine ⟨by omega, ?_⟩
      by_cases hn : z.length = x.length
      · right
        exact hE.trans _ _ _ (h2.2.resolve_left (fun h => h (by omega)))
          (g2.2.resolve_left (fun h => h (by omega)))
      · exact Or.inl hn
    · exact Or.inl hl

/-- **C73, the order of the factors.** The heap is one of the choices of `C73_second_pass`; it hands
out a factor than which no other is smaller, by layer, then by length, then by the order of
expressions, and then one than which no remaining one is.  Between the rounds the list of factors
is the heap followed by the new ones, and pushing the elements of a heap gives the heap. -/
theorem C73_heap_order {ltE : Expr F → Expr F → Bool} (hE : Weak ltE) (b : FB F R)
    {es : List (Expr F)} (h : 2 ≤ es.length) :
    ((heapPk ltE).pick b es).1 ∈ es ∧ ((heapPk ltE).pick b es).2.1 ∈ es ∧
      (∀ e ∈ es, mulLt ltE b e ((heapPk ltE).pick b es).1 = false) ∧
      (∀ e ∈ ((heapPk ltE).pick b es).2.2,
        mulLt ltE b e ((heapPk ltE).pick b es).2.1 = false) ∧
      ∀ s : Array (Expr F), IsHeap (mulLt ltE b) s → heapOf (mulLt ltE b) s.toList = s := by
  have hw := mulLt_weak hE b
  have hp := heapPick_perm ltE b es h
  refine ⟨hp.mem_iff.1 (by simp [heapPk]), hp.mem_iff.1 (by simp [heapPk]), ?_, ?_,
    fun s hs => heapOf_self hs⟩
  all_goals
    have p0 := heapOf_perm (lt := mulLt ltE b) es
    have l0 : (heapOf (mulLt ltE b) es).size = es.length := by simpa using p0.length_eq
    obtain ⟨x, s1, h1, p1⟩ := heapPop_perm (lt := mulLt ltE b) (s := heapOf (mulLt ltE b) es)
      (by omega)
    have l1 : s1.size + 1 = es.length := by simpa [l0] using p1.length_eq
    obtain ⟨y, s2, h2, p2⟩ := heapPop_perm (lt := mulLt ltE b) (s := s1) (by omega)
    obtain ⟨g1, g2⟩ := heapPop_heap hw (heapOf_heap hw es) h1
    obtain ⟨g3, g4⟩ := heapPop_heap hw g1 h2
    have hpick : (heapPk ltE).pick b es = (x, y, s2.toList) := by
      change heapPick ltE b es = _
      unfold heapPick
      rw [h1]
      dsimp only
      rw [h2]
    rw [hpick]
  · exact fun e he => g2 e (p0.mem_iff.2 he)
  · exact fun e he => g4 e (p2.mem_iff.1 (List.mem_cons_of_mem _ he))

end

/-! ### The hypotheses are met -/

/-- `x1 * x1 * x2 + 2 * coin + 1` with a constraint and an output. -/
def exFlat : HCircuit ℚ Nat where
  insns := [.mul [1, 1, 2], .random 0, .constant 5, .linComb ⟨[(3, 1), (4, 2), (5, -1)], 1⟩]
  cons := [6]
  outputs := [3, 6, 5]
  numInputs := 2

example : exFlat.Valid ∧ (∀ xs, HInsn.mul xs ∈ exFlat.insns → 3 * xs.length ≤ 9) := by
  refine ⟨⟨by simp [exFlat, HInsn.ValidAll, HInsn.inputs], by simp [exFlat], by simp [exFlat]⟩, ?_⟩
  intro xs h
  simp only [exFlat, List.mem_cons, List.not_mem_nil, or_false, reduceCtorEq, HInsn.mul.injEq] at h
  subst h
  simp

/-- It is accepted for some inputs and coins, and not for others. -/
example : exFlat.Accepts ⟨fun _ => 0, fun _ => 1⟩ [1, 2] ∧
    ¬ exFlat.Accepts ⟨fun _ => 0, fun _ => 1⟩ [1, 3] := by
  constructor
  · intro v hv
    simp only [exFlat, List.mem_singleton] at hv
    subst hv
    norm_num [HCircuit.values, run, exFlat, HInsn.val, look, LinComb.eval]
  · intro h
    have := h 6 (by simp [exFlat])
    norm_num [HCircuit.values, run, exFlat, HInsn.val, look, LinComb.eval] at this

/-- A circuit which the pass refuses: its constraint is the constant 5. -/
example : ∃ c : HCircuit ℚ Nat, c.Valid ∧ finalBuild (heapPk fun _ _ => false) 0 c = .error .user := by
  refine ⟨⟨[.constant 5], [1], [], 0⟩, ⟨by simp [HInsn.ValidAll, HInsn.inputs], by simp, by simp⟩, ?_⟩
  rfl

/-- The state of the builder before any instruction meets the hypotheses about it. -/
example : FInv (FB.new : FB ℚ Nat) ∧
    (∀ e ∈ (FB.new : FB ℚ Nat).inVar, Expr.WF (FB.new : FB ℚ Nat).pool.length e) ∧
    ∀ x ∈ [0, 0], x < (FB.new : FB ℚ Nat).inVar.length :=
  ⟨new_ok.toFInv, new_ok.inVar, by simp [FB.new]⟩

example : Weak (fun a b : Nat => decide (a < b)) :=
  ⟨fun a b h => by simp at h ⊢; omega, fun a b c h g => by simp at h g ⊢; omega⟩

end JST.Props
