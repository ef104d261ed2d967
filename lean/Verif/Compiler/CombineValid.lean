import Verif.Compiler.CombineProofs

/-!
# The combined circuit is valid and draws every coin once
-/

namespace JST.Comp

open JST.Circ JST.Flat

variable {F R : Type} [Field F] [DecidableEq F]

/-- An instruction which may stand before variable `n`. -/
def DInsn.ValidAt {F R : Type} (n : Nat) (i : DInsn F R) : Prop :=
  ∀ e rl, i = .iv e rl → (∀ t ∈ e, t.vars.Below n) ∧ ∀ p ∈ rl, 1 ≤ p.2 ∧ p.2 < n

theorem dvalidAll_append {F R : Type} (l l' : List (DInsn F R)) (n : Nat) :
    DInsn.ValidAll n (l ++ l') ↔ DInsn.ValidAll n l ∧ DInsn.ValidAll (n + l.length) l' := by
  induction l generalizing n with
  | nil => simp [DInsn.ValidAll]
  | cons i l ih =>
      simp only [List.cons_append, DInsn.ValidAll, ih, List.length_cons]
      rw [show n + 1 + l.length = n + (l.length + 1) by omega]
      tauto

theorem validAll_snoc {F R : Type} (l : List (DInsn F R)) (i : DInsn F R) (n : Nat) :
    DInsn.ValidAll n (l ++ [i]) ↔ DInsn.ValidAll n l ∧ DInsn.ValidAt (n + l.length) i := by
  rw [dvalidAll_append]; simp [DInsn.ValidAll, DInsn.ValidAt]

theorem validAll_get {F R : Type} {l : List (DInsn F R)} {n : Nat} (h : DInsn.ValidAll n l) {k : Nat}
    {i : DInsn F R} (hk : l[k]? = some i) : DInsn.ValidAt (n + k) i := by
  induction l generalizing n k with
  | nil => simp at hk
  | cons j l ih =>
      cases k with
      | zero => simp at hk; subst hk; exact h.1
      | succ k =>
          rw [show n + (k + 1) = n + 1 + k by omega]
          exact ih h.2 (by simpa using hk)

theorem liftInsn_valid {l : List (DInsn F R)} {n : Nat} (h : DInsn.ValidAll n l) :
    DInsn.ValidAll n (l.map liftInsn) := by
  induction l generalizing n with
  | nil => trivial
  | cons i l ih =>
      refine ⟨?_, ih h.2⟩
      intro e rl he
      cases i with
      | iv e' rl' =>
          simp only [liftInsn] at he
          cases he
          obtain ⟨h1, h2⟩ := h.1 e' rl' rfl
          refine ⟨(fromTerms_wf h1).below, ?_⟩
          intro p hp
          obtain ⟨q, hq, rfl⟩ := List.mem_map.1 hp
          exact h2 q hq
      | random r => cases he
      | publicInput i => cases he

structure CVal (n : Nat) (i : Nat) (s : CombSt F R) : Prop where
  len : n + s.out.length = s.next
  valid : DInsn.ValidAll n s.out
  acc : ∀ a, s.acc = some a → 1 ≤ a ∧ a < s.next
  left : ∀ c ∈ s.left, 1 ≤ c ∧ c < n
  last : ∀ t, s.last = some t → (∀ x, t.lin = some x → 1 ≤ x ∧ x < s.next) ∧ ∀ c ∈ t.rnd, 1 ≤ c ∧ c < n
  fresh : ∀ r ∈ s.out.flatMap DInsn.coins, ∃ k c, r = .inr (k, c) ∧ k < i
  nodup : (s.out.flatMap DInsn.coins).Nodup

theorem emit_valid {n i : Nat} {s : CombSt F R} (h : CVal n i s) {t : Terms}
    (ht1 : ∀ x, t.lin = some x → 1 ≤ x ∧ x < s.next) (ht2 : ∀ c ∈ t.rnd, 1 ≤ c ∧ c < n) (hn : 1 ≤ n)
    {left : List Nat} (hl : ∀ c ∈ left, 1 ≤ c ∧ c < n) :
    CVal n (i + 1) (⟨s.out ++ [emitTerms i t], s.next + 1, some s.next, some t, left⟩ : CombSt F R) := by
  have hc : (emitTerms i t : DInsn F (R ⊕ Nat × Nat)).coins =
      ((t.rnd.insertionSort (· ≤ ·)).dedup.filter fun c => (t.rnd.count c : F) ≠ 0).map
        fun c => .inr (i, c) := by
    simp [emitTerms, DInsn.coins]
  have hlen := h.len
  refine ⟨by simp only [List.length_append, List.length_singleton]; omega, ?_, ?_, hl, ?_, ?_, ?_⟩
  · rw [validAll_snoc]
    refine ⟨h.valid, ?_⟩
    rw [h.len]
    intro e rl he
    simp only [emitTerms] at he
    cases he
    constructor
    · cases hlin : t.lin with
      | none => simp
      | some x => simpa [VarSpec.Below] using ht1 x hlin
    · intro p hp
      obtain ⟨c, hc, rfl⟩ := List.mem_map.1 hp
      have := (List.mem_filter.1 hc).1
      rw [List.mem_dedup] at this
      have := ht2 c ((List.perm_insertionSort _ _).mem_iff.1 this)
      dsimp only
      omega
  · rintro a ⟨⟩; dsimp only; omega
  · rintro t' ⟨⟩
    refine ⟨fun x hx => ?_, ht2⟩
    have := ht1 x hx
    dsimp only
    omega
  · intro r hr
    rw [List.flatMap_append, List.mem_append] at hr
    rcases hr with hr | hr
    · obtain ⟨k, c, e, hk⟩ := h.fresh r hr
      exact ⟨k, c, e, by omega⟩
    · simp only [List.flatMap_cons, List.flatMap_nil, List.append_nil] at hr
      rw [hc] at hr
      obtain ⟨c, -, rfl⟩ := List.mem_map.1 hr
      exact ⟨i, c, rfl, by omega⟩
  · rw [List.flatMap_append]
    simp only [List.flatMap_cons, List.flatMap_nil, List.append_nil]
    rw [hc, List.nodup_append]
    refine ⟨h.nodup, ?_, ?_⟩
    · refine List.Nodup.map ?_ ((List.nodup_dedup _).filter _)
      intro a b hab
      simpa using hab
    · intro a ha b hb hab
      subst hab
      obtain ⟨k, c, e, hk⟩ := h.fresh a ha
      obtain ⟨c', -, e'⟩ := List.mem_map.1 hb
      rw [e] at e'
      have := congrArg (fun z => z) e'
      simp at this
      omega

theorem combRound_valid {n : Nat} (hn : 1 ≤ n) (layer : Nat → Nat) {i : Nat} {s : CombSt F R} (h : CVal n i s) :
    CVal n (i + 1) (combRound layer i s) := by
  have hleft : ∀ c ∈ s.left.dropWhile (fun c => layer c = i), 1 ≤ c ∧ c < n := fun c hc =>
    h.left c ((List.dropWhile_sublist _).subset hc)
  have hhere : ∀ c ∈ s.left.takeWhile (fun c => layer c = i), 1 ≤ c ∧ c < n := fun c hc =>
    h.left c ((List.takeWhile_sublist _).subset hc)
  unfold combRound
  dsimp only
  split_ifs with h1 h2
  · exact ⟨h.len, h.valid, h.acc, hleft, h.last,
      fun r hr => by obtain ⟨k, c, e, hk⟩ := h.fresh r hr; exact ⟨k, c, e, by omega⟩, h.nodup⟩
  · cases hl : s.last with
    | none => exact emit_valid h (by simpa using h.acc) (by simpa using hhere) hn hleft
    | some t => exact emit_valid h (h.last t hl).1 (h.last t hl).2 hn hleft
  · exact emit_valid h h.acc hhere hn hleft

theorem combRounds_valid {n : Nat} (hn : 1 ≤ n) (layer : Nat → Nat) (k : Nat) {i : Nat} {s : CombSt F R}
    (h : CVal n i s) : CVal n (i + k) (combRounds layer i k s) := by
  induction k generalizing i s with
  | zero => exact h
  | succ k ih =>
      rw [show i + (k + 1) = i + 1 + k by omega]
      exact ih (combRound_valid hn layer h)

theorem lift_coins (l : List (DInsn F R)) :
    (l.map liftInsn).flatMap DInsn.coins = (l.flatMap DInsn.coins).map (Sum.inl (β := Nat × Nat)) := by
  induction l with
  | nil => rfl
  | cons i l ih =>
      simp only [List.map_cons, List.flatMap_cons, List.map_append, ih]
      congr 1
      cases i <;> simp [liftInsn, DInsn.coins]

/-- The combined circuit has no constraints, is valid, and its coins are those of the circuit and new
ones, all different. -/
theorem combine_valid {c : DCircuit F R} (hv : c.Valid) :
    (combine c).Valid ∧ (combine c).cons = [] ∧ (combine c).numInputs = c.numInputs ∧
    (c.coins.Nodup → (combine c).coins.Nodup) := by
  have h0 : CVal (c.numInputs + 1 + c.insns.length) 0
      (⟨[], c.numInputs + 1 + c.insns.length, none, none,
        c.cons.insertionSort fun a b => (layersOf c).getD a 0 ≤ (layersOf c).getD b 0⟩ : CombSt F R) := by
    refine ⟨rfl, trivial, by simp, ?_, by simp, by simp, by simp⟩
    intro v h
    exact hv.cons v ((List.perm_insertionSort _ _).mem_iff.1 h)
  have h1 := combRounds_valid (by omega) (fun x => (layersOf c).getD x 0) ((layersOf c).foldr max 0 + 10) h0
  have hins : (combine c).insns.length + (c.numInputs + 1) =
      (combRounds (fun x => (layersOf c).getD x 0) 0 ((layersOf c).foldr max 0 + 10)
      (⟨[], c.numInputs + 1 + c.insns.length, none, none,
        c.cons.insertionSort fun a b => (layersOf c).getD a 0 ≤ (layersOf c).getD b 0⟩ : CombSt F R)).next := by
    rw [← h1.len]
    show (List.map liftInsn c.insns ++ _).length + _ = _
    simp only [List.length_append, List.length_map]
    omega
  refine ⟨⟨?_, by simp [combine], ?_⟩, rfl, rfl, ?_⟩
  · show DInsn.ValidAll (c.numInputs + 1) (List.map liftInsn c.insns ++ _)
    rw [dvalidAll_append]
    refine ⟨liftInsn_valid hv.insns, ?_⟩
    rw [List.length_map]
    exact h1.valid
  · intro o ho
    show 1 ≤ o ∧ o < c.numInputs + 1 + (combine c).insns.length
    have ho' : o ∈ (Option.toList _ ++ c.outputs) := ho
    rw [List.mem_append] at ho'
    have h3 := h1.len
    rcases ho' with ho' | ho'
    · have := h1.acc o (by simpa using ho')
      omega
    · have h4 := hv.outputs o ho'
      omega
  · intro hnd
    show ((List.map liftInsn c.insns ++ _).flatMap DInsn.coins).Nodup
    rw [List.flatMap_append, lift_coins, List.nodup_append]
    refine ⟨hnd.map Sum.inl_injective, h1.nodup, ?_⟩
    intro a ha b hb hab
    subst hab
    obtain ⟨k, v, e, -⟩ := h1.fresh a hb
    obtain ⟨r, -, e'⟩ := List.mem_map.1 ha
    rw [e] at e'
    cases e'

end JST.Comp
