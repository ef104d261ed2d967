import Verif.Compiler.Combine
import Verif.Compiler.FinalProofs
import Mathlib.Algebra.BigOperators.Group.Finset.Basic

/-!
# Combining the constraints keeps the outputs and adds their random combination
-/

set_option linter.unusedSectionVars false

namespace JST.Comp

open JST.Circ JST.Flat

variable {F R : Type} [Field F] [DecidableEq F]

/-- The coins of the original circuit among those of the combined one. -/
def Env.left (E : Env F (R ⊕ Nat × Nat)) : Env F R := ⟨E.pub, fun r => E.rnd (.inl r)⟩

theorem liftInsn_val (E : Env F (R ⊕ Nat × Nat)) (a : Nat → F) (i : DInsn F R) :
    (liftInsn i).val E a = i.val (Env.left E) a := by
  cases i with
  | iv e rl =>
      simp only [liftInsn, DInsn.val, fromTerms_eval, List.map_map]
      rfl
  | random r => rfl
  | publicInput i => rfl

theorem run_lift (E : Env F (R ⊕ Nat × Nat)) (is : List (DInsn F R)) (vs : List F) :
    run (DInsn.val E) (is.map liftInsn) vs = run (DInsn.val (Env.left E)) is vs := by
  induction is generalizing vs with
  | nil => rfl
  | cons i r ih => simp only [List.map_cons, run, liftInsn_val, ih]

theorem run_append {I : Type} (val : (Nat → F) → I → F) (is js : List I) (vs : List F) :
    run val (is ++ js) vs = run val js (run val is vs) := by
  induction is generalizing vs with
  | nil => rfl
  | cons i r ih => simp only [List.cons_append, run, ih]

theorem run_snoc {I : Type} (val : (Nat → F) → I → F) (is : List I) (i : I) (vs : List F) :
    run val (is ++ [i]) vs = run val is vs ++ [val (look (run val is vs)) i] := by
  rw [run_append]; rfl

theorem look_last (vs : List F) (x : F) : look (vs ++ [x]) vs.length = x := by
  simp [look, List.getD]

/-- The random sum of the constraints in `t`. -/
def rsum (E : Env F (R ⊕ Nat × Nat)) (v : Nat → F) (rd : Nat → Nat) (l : List Nat) : F :=
  ∑ c ∈ l.toFinset, E.rnd (.inr (rd c, c)) * v c

theorem rsum_append {E : Env F (R ⊕ Nat × Nat)} {v : Nat → F} {rd rd' : Nat → Nat} {l l' : List Nat}
    (hd : ∀ c ∈ l, c ∉ l') :
    rsum E v (fun c => if c ∈ l then rd c else rd' c) (l ++ l') = rsum E v rd l + rsum E v rd' l' := by
  unfold rsum
  rw [List.toFinset_append, Finset.sum_union]
  · congr 1
    · refine Finset.sum_congr rfl fun c hc => ?_
      dsimp only; rw [if_pos (List.mem_toFinset.1 hc)]
    · refine Finset.sum_congr rfl fun c hc => ?_
      dsimp only; rw [if_neg fun h => hd c h (List.mem_toFinset.1 hc)]
  · rw [Finset.disjoint_left]
    intro c h1 h2
    exact hd c (List.mem_toFinset.1 h1) (List.mem_toFinset.1 h2)

/-- The value of the instruction for some terms. -/
theorem emitTerms_val (E : Env F (R ⊕ Nat × Nat)) (a : Nat → F) (i : Nat) (t : Terms)
    (hc : ∀ c ∈ t.rnd, (t.rnd.count c : F) ≠ 0) :
    (emitTerms i t : DInsn F (R ⊕ Nat × Nat)).val E a =
      (match t.lin with | none => 0 | some x => a x) + rsum E a (fun _ => i) t.rnd := by
  unfold emitTerms
  simp only [DInsn.val, List.map_map]
  congr 1
  · rcases t.lin with _ | x <;> simp [Expr.eval, Term.eval, VarSpec.eval]
  · rw [List.filter_eq_self.2]
    · unfold rsum
      rw [← List.sum_toFinset _ (List.nodup_dedup _)]
      · refine Finset.sum_congr ?_ fun c _ => rfl
        ext c; simp [List.mem_insertionSort]
    · intro c h
      have : c ∈ t.rnd := by simpa [List.mem_insertionSort] using h
      simpa using hc c this

/-- What the state of the loop means before round `i`; for all runs `j`, on the values `vs j`, at
once. -/
structure CInv {ι : Type} (E : ι → Env F (R ⊕ Nat × Nat)) (vs : ι → List F) (n : Nat) (layer : Nat → Nat)
    (all : List Nat) (i : Nat) (s : CombSt F R) (done : List Nat) : Prop where
  len : n + s.out.length = s.next
  split : done ++ s.left = all
  low : ∀ c ∈ done, layer c < i
  high : ∀ c ∈ s.left, i ≤ layer c
  none_ : s.acc = none → done = [] ∧ s.last = none
  some_ : ∀ a, s.acc = some a → a < s.next ∧ n ≤ a ∧ ∃ t pre rd i0 l0, s.last = some t ∧ done = pre ++ t.rnd ∧
    t.rnd ≠ [] ∧ (∀ c ∈ pre, layer c < l0) ∧ (∀ c ∈ t.rnd, layer c = l0) ∧ i0 < i ∧
    (t.lin = none → pre = []) ∧ (∀ x, t.lin = some x → x < s.next ∧
      ∀ j, look (run (DInsn.val (E j)) s.out (vs j)) x = rsum (E j) (look (vs j)) rd pre) ∧
    ∀ j, look (run (DInsn.val (E j)) s.out (vs j)) a =
      rsum (E j) (look (vs j)) rd pre + rsum (E j) (look (vs j)) (fun _ => i0) t.rnd

theorem look_old (E : Env F (R ⊕ Nat × Nat)) (is : List (DInsn F (R ⊕ Nat × Nat))) (vs : List F) {x : Nat}
    (hx : x < vs.length) : look (run (DInsn.val E) is vs) x = look vs x :=
  look_prefix (run_prefix _ is vs) hx

theorem rsum_congr {E : Env F (R ⊕ Nat × Nat)} {v w : Nat → F} {rd rd' : Nat → Nat} {l : List Nat}
    (h : ∀ c ∈ l, v c = w c) (h' : ∀ c ∈ l, rd c = rd' c) : rsum E v rd l = rsum E w rd' l := by
  refine Finset.sum_congr rfl fun c hc => ?_
  rw [h c (List.mem_toFinset.1 hc), h' c (List.mem_toFinset.1 hc)]

theorem mem_takeWhile_imp' {α : Type} {p : α → Bool} {l : List α} {x : α} (h : x ∈ l.takeWhile p) :
    p x = true := by
  induction l with
  | nil => simp at h
  | cons a l ih =>
      rw [List.takeWhile_cons] at h
      split at h
      · rcases List.mem_cons.1 h with rfl | h
        · assumption
        · exact ih h
      · cases h

/-- A list sorted by layer starts with the constraints of the lowest layer. -/
theorem take_drop_layer {layer : Nat → Nat} {l : List Nat}
    (hs : l.Pairwise fun a b => layer a ≤ layer b) {i : Nat} (hi : ∀ c ∈ l, i ≤ layer c) :
    (∀ c ∈ l.takeWhile (fun c => layer c = i), layer c = i) ∧
    (∀ c ∈ l.dropWhile (fun c => layer c = i), i + 1 ≤ layer c) := by
  constructor
  · intro c hc
    simpa using mem_takeWhile_imp' hc
  · induction l with
    | nil => simp
    | cons a l ih =>
        intro c hc
        rw [List.pairwise_cons] at hs
        by_cases h : layer a = i
        · rw [List.dropWhile_cons_of_pos (by simpa using h)] at hc
          exact ih hs.2 (fun c hc => hi c (List.mem_cons_of_mem _ hc)) c hc
        · rw [List.dropWhile_cons_of_neg (by simpa using h)] at hc
          have h1 := hi a List.mem_cons_self
          rcases List.mem_cons.1 hc with rfl | hc
          · omega
          · have := hs.1 c hc; omega

theorem count_of_layer {layer : Nat → Nat} {all done here left : List Nat} (he : done ++ (here ++ left) = all)
    {i : Nat} (h1 : ∀ c ∈ done, layer c < i) (h2 : ∀ c ∈ here, layer c = i) (h3 : ∀ c ∈ left, i + 1 ≤ layer c)
    {c : Nat} (hc : c ∈ here) : here.count c = all.count c := by
  have g1 : done.count c = 0 := List.count_eq_zero.2 fun h => by
    have := h1 c h; have := h2 c hc; omega
  have g2 : left.count c = 0 := List.count_eq_zero.2 fun h => by
    have := h3 c h; have := h2 c hc; omega
  rw [← he]; simp [g1, g2]

theorem combRound_ok {ι : Type} {E : ι → Env F (R ⊕ Nat × Nat)} {vs : ι → List F} {n : Nat}
    (hvs : ∀ j, (vs j).length = n) {layer : Nat → Nat} {all : List Nat}
    (hsort : all.Pairwise fun a b => layer a ≤ layer b) (hall : ∀ c ∈ all, c < n)
    (hcount : ∀ c ∈ all, (all.count c : F) ≠ 0) {i : Nat} {s : CombSt F R} {done : List Nat}
    (h : CInv E vs n layer all i s done) :
    ∃ done', CInv E vs n layer all (i + 1) (combRound layer i s) done' := by
  have hl : s.left.Pairwise fun a b => layer a ≤ layer b := by
    have := hsort; rw [← h.split] at this; exact (List.pairwise_append.1 this).2.1
  obtain ⟨h1, h2⟩ := take_drop_layer hl h.high
  have hsplit : done ++ (s.left.takeWhile (fun c => layer c = i) ++ s.left.dropWhile (fun c => layer c = i)) = all := by
    rw [List.takeWhile_append_dropWhile]; exact h.split
  have hhere : ∀ c ∈ s.left.takeWhile (fun c => layer c = i), c ∈ all := by
    intro c hc
    rw [← hsplit]
    exact List.mem_append_right _ (List.mem_append_left _ hc)
  have hcnt : ∀ c ∈ s.left.takeWhile (fun c => layer c = i),
      ((s.left.takeWhile (fun c => layer c = i)).count c : F) ≠ 0 := by
    intro c hc
    rw [count_of_layer hsplit h.low h1 h2 hc]
    exact hcount c (hhere c hc)
  have hrl : ∀ j, (run (DInsn.val (E j)) s.out (vs j)).length = s.next := by
    intro j; rw [run_length, hvs]; exact h.len
  have hn := h.len
  unfold combRound
  dsimp only
  generalize hH : s.left.takeWhile (fun c => layer c = i) = here at *
  generalize hL : s.left.dropWhile (fun c => layer c = i) = left at *
  by_cases hz : s.acc = none ∧ here = []
  · rw [if_pos hz]
    obtain ⟨ha, rfl⟩ := hz
    refine ⟨done, ⟨h.len, by simpa using hsplit, fun c hc => Nat.lt_succ_of_lt (h.low c hc), h2, h.none_, ?_⟩⟩
    intro a hacc; rw [ha] at hacc; cases hacc
  · rw [if_neg hz]
    by_cases hre : s.acc.isSome = true ∧ here = []
    · -- the last terms are repeated
      rw [if_pos hre]
      obtain ⟨hs, rfl⟩ := hre
      obtain ⟨a, ha⟩ := Option.isSome_iff_exists.1 hs
      obtain ⟨ha1, ha2, t, pre, rd, i0, l0, k1, k2, k3, k4, k5, k6, k7, k8, k9⟩ := h.some_ a ha
      rw [k1]
      simp only [Option.getD_some]
      have hcnt' : ∀ c ∈ t.rnd, (t.rnd.count c : F) ≠ 0 := by
        intro c hc
        have : t.rnd.count c = all.count c := by
          refine count_of_layer (layer := layer) (i := l0) (done := pre) (left := s.left) ?_ k4 k5 ?_ hc
          · rw [← List.append_assoc, ← k2]; exact h.split
          · intro d hd
            have e1 := h.high d hd
            have e2 := h.low c (by rw [k2]; simp [hc])
            have e3 := k5 c hc
            omega
        rw [this]
        exact hcount c (by rw [← h.split, k2]; simp [hc])
      have hval : ∀ j, (emitTerms i t : DInsn F (R ⊕ Nat × Nat)).val (E j) (look (run (DInsn.val (E j)) s.out (vs j))) =
          rsum (E j) (look (vs j)) rd pre + rsum (E j) (look (vs j)) (fun _ => i) t.rnd := by
        intro j
        rw [emitTerms_val _ _ _ _ hcnt']
        congr 1
        · rcases ht : t.lin with _ | x
          · rw [k7 ht]; rfl
          · exact (k8 x ht).2 j
        · refine rsum_congr (fun c hc => look_old _ _ _ ?_) fun _ _ => rfl
          rw [hvs]
          exact hall c (by rw [← h.split, k2]; simp [hc])
      refine ⟨done, ⟨?_, by simpa using hsplit, fun c hc => Nat.lt_succ_of_lt (h.low c hc), h2, ?_, ?_⟩⟩
      · simp only [List.length_append, List.length_singleton]; omega
      · intro hn; cases hn
      · intro b hb
        cases hb
        dsimp only
        refine ⟨by omega, by omega, t, pre, rd, i, l0, rfl, k2, k3, k4, k5, by omega, k7, ?_, ?_⟩
        · intro x hx
          obtain ⟨x1, x2⟩ := k8 x hx
          refine ⟨by omega, fun j => ?_⟩
          rw [run_snoc, look_prefix (List.prefix_append _ _) (by rw [hrl]; exact x1)]
          exact x2 j
        · intro j
          rw [run_snoc, ← hval, ← hrl j, look_last]
    · rw [if_neg hre]
      have hne : here ≠ [] := by
        rintro rfl
        cases hacc : s.acc with
        | none => exact hz ⟨hacc, rfl⟩
        | some a => exact hre ⟨by simp [hacc], rfl⟩
      -- value of the sum so far
      have hprev : ∃ rd, (∀ j, (match s.acc with | none => 0 | some x => look (run (DInsn.val (E j)) s.out (vs j)) x) =
          rsum (E j) (look (vs j)) rd done) ∧ ∀ x, s.acc = some x → x < s.next := by
        cases hacc : s.acc with
        | none =>
            obtain ⟨rfl, -⟩ := h.none_ hacc
            exact ⟨id, fun j => rfl, by simp⟩
        | some a =>
            obtain ⟨ha1, ha2, t, pre, rd, i0, l0, k1, k2, k3, k4, k5, k6, k7, k8, k9⟩ := h.some_ a hacc
            refine ⟨fun c => if c ∈ pre then rd c else i0, fun j => ?_, ?_⟩
            · rw [k2, rsum_append (rd' := fun _ => i0)]
              · exact k9 j
              · intro c hc hc'
                have := k4 c hc; have := k5 c hc'; omega
            · rintro x ⟨⟩; exact ha1
      obtain ⟨rd, hp1, hp2⟩ := hprev
      have hval : ∀ j, (emitTerms i ⟨s.acc, here⟩ : DInsn F (R ⊕ Nat × Nat)).val (E j)
          (look (run (DInsn.val (E j)) s.out (vs j))) =
          rsum (E j) (look (vs j)) rd done + rsum (E j) (look (vs j)) (fun _ => i) here := by
        intro j
        rw [emitTerms_val _ _ _ _ hcnt, ← hp1 j]
        dsimp only
        congr 1
        exact rsum_congr (fun c hc => look_old _ _ _ (by rw [hvs]; exact hall c (hhere c hc))) fun _ _ => rfl
      refine ⟨done ++ here, ⟨?_, by rw [List.append_assoc]; exact hsplit, ?_, h2, ?_, ?_⟩⟩
      · simp only [List.length_append, List.length_singleton]; omega
      · intro c hc
        rcases List.mem_append.1 hc with hc | hc
        · exact Nat.lt_succ_of_lt (h.low c hc)
        · have := h1 c hc; omega
      · intro hn; cases hn
      · intro b hb
        cases hb
        dsimp only
        refine ⟨by omega, by omega, ⟨s.acc, here⟩, done, rd, i, i, rfl, rfl, hne, h.low, h1, by omega, ?_, ?_, ?_⟩
        · intro hn; exact (h.none_ hn).1
        · intro x hx
          refine ⟨by have := hp2 x hx; omega, fun j => ?_⟩
          rw [run_snoc, look_prefix (List.prefix_append _ _) (by rw [hrl]; exact hp2 x hx)]
          dsimp only at hx
          have := hp1 j
          rw [hx] at this
          exact this
        · intro j
          rw [run_snoc, ← hval, ← hrl j, look_last]

theorem combRounds_ok {ι : Type} {E : ι → Env F (R ⊕ Nat × Nat)} {vs : ι → List F} {n : Nat}
    (hvs : ∀ j, (vs j).length = n) {layer : Nat → Nat} {all : List Nat}
    (hsort : all.Pairwise fun a b => layer a ≤ layer b) (hall : ∀ c ∈ all, c < n)
    (hcount : ∀ c ∈ all, (all.count c : F) ≠ 0) (k : Nat) {i : Nat} {s : CombSt F R} {done : List Nat}
    (h : CInv E vs n layer all i s done) :
    ∃ done', CInv E vs n layer all (i + k) (combRounds layer i k s) done' := by
  induction k generalizing i s done with
  | zero => exact ⟨done, h⟩
  | succ k ih =>
      obtain ⟨d, hd⟩ := combRound_ok hvs hsort hall hcount h
      obtain ⟨d', hd'⟩ := ih hd
      exact ⟨d', by rw [show i + (k + 1) = i + 1 + k by omega]; exact hd'⟩

theorem le_foldr_max {l : List Nat} {x : Nat} (h : x ∈ l) : x ≤ l.foldr max 0 := by
  induction l with
  | nil => cases h
  | cons a l ih =>
      rcases List.mem_cons.1 h with rfl | h
      · exact le_max_left _ _
      · exact (ih h).trans (le_max_right _ _)

theorem getD_le_foldr (l : List Nat) (x : Nat) : l.getD x 0 ≤ l.foldr max 0 := by
  by_cases h : x < l.length
  · have : l.getD x 0 = l[x] := by simp [List.getD, List.getElem?_eq_getElem h]
    rw [this]
    exact le_foldr_max (List.getElem_mem h)
  · simp [List.getD, List.getElem?_eq_none (not_lt.1 h)]

theorem sort_pairwise (layer : Nat → Nat) (l : List Nat) :
    (l.insertionSort fun a b => layer a ≤ layer b).Pairwise fun a b => layer a ≤ layer b := by
  haveI : Std.Total (fun a b : Nat => layer a ≤ layer b) := ⟨fun a b => le_total (layer a) (layer b)⟩
  haveI : IsTrans Nat (fun a b => layer a ≤ layer b) := ⟨fun _ _ _ h g => le_trans h g⟩
  exact List.pairwise_insertionSort _ _

/-- The values of the combined circuit. -/
theorem combine_values {c : DCircuit F R} (hv : c.Valid)
    (hcount : ∀ v ∈ c.cons, (c.cons.count v : F) ≠ 0) :
    (∀ E (ins : List F), ins.length = c.numInputs → ∀ x, x < c.numInputs + 1 + c.insns.length →
      look (DCircuit.values E (combine c) ins) x = look (DCircuit.values (Env.left E) c ins) x) ∧
    (c.cons = [] → (combine c).outputs = c.outputs) ∧
    (c.cons ≠ [] → ∃ (a : Nat) (rd : Nat → Nat), (combine c).outputs = a :: c.outputs ∧
      c.numInputs + 1 + c.insns.length ≤ a ∧ a < c.numInputs + 1 + (combine c).insns.length ∧
      ∀ E (ins : List F), ins.length = c.numInputs → look (DCircuit.values E (combine c) ins) a =
        ∑ v ∈ c.cons.toFinset, E.rnd (.inr (rd v, v)) * look (DCircuit.values (Env.left E) c ins) v) := by
  let ι := Env F (R ⊕ Nat × Nat) × {ins : List F // ins.length = c.numInputs}
  let EE : ι → Env F (R ⊕ Nat × Nat) := fun j => j.1
  let vv : ι → List F := fun j => DCircuit.values (Env.left j.1) c j.2.1
  have hvals : ∀ E ins out, run (DInsn.val E) (c.insns.map liftInsn ++ out) (0 :: ins) =
      run (DInsn.val E) out (DCircuit.values (Env.left E) c ins) := by
    intro E ins out; rw [run_append, run_lift]; rfl
  have hlen : ∀ j, (vv j).length = c.numInputs + 1 + c.insns.length := by
    intro j; show (DCircuit.values _ _ _).length = _
    unfold DCircuit.values; rw [run_length]; simp [j.2.2]
  set layer : Nat → Nat := fun x => (layersOf c).getD x 0 with hlayer
  set all := c.cons.insertionSort (fun a b => layer a ≤ layer b) with hall
  have hperm : all.Perm c.cons := List.perm_insertionSort _ _
  have h0 : CInv EE vv (c.numInputs + 1 + c.insns.length) layer all 0
      (⟨[], c.numInputs + 1 + c.insns.length, none, none, all⟩ : CombSt F R) [] :=
    ⟨rfl, rfl, by simp, fun _ _ => Nat.zero_le _, fun _ => ⟨rfl, rfl⟩, by simp⟩
  obtain ⟨done, hd⟩ := combRounds_ok hlen (sort_pairwise layer c.cons)
    (fun v h => (hv.cons v (hperm.mem_iff.1 h)).2)
    (fun v h => by rw [hperm.count_eq]; exact hcount v (hperm.mem_iff.1 h))
    ((layersOf c).foldr max 0 + 10) h0
  have hleft : (combRounds layer 0 ((layersOf c).foldr max 0 + 10)
      (⟨[], c.numInputs + 1 + c.insns.length, none, none, all⟩ : CombSt F R)).left = [] := by
    rw [List.eq_nil_iff_forall_not_mem]
    intro v h
    have h1 := hd.high v h
    have h2 : layer v ≤ (layersOf c).foldr max 0 := getD_le_foldr _ _
    omega
  have hdone : done = all := by have := hd.split; rwa [hleft, List.append_nil] at this
  have hcomb : combine c = ⟨c.insns.map liftInsn ++ (combRounds layer 0 ((layersOf c).foldr max 0 + 10)
      (⟨[], c.numInputs + 1 + c.insns.length, none, none, all⟩ : CombSt F R)).out, [],
      (combRounds layer 0 ((layersOf c).foldr max 0 + 10)
      (⟨[], c.numInputs + 1 + c.insns.length, none, none, all⟩ : CombSt F R)).acc.toList ++ c.outputs,
      c.numInputs⟩ := rfl
  generalize hS : combRounds layer 0 ((layersOf c).foldr max 0 + 10)
      (⟨[], c.numInputs + 1 + c.insns.length, none, none, all⟩ : CombSt F R) = S at *
  have hV : ∀ E ins, DCircuit.values E (combine c) ins =
      run (DInsn.val E) S.out (DCircuit.values (Env.left E) c ins) := by
    intro E ins; rw [hcomb]; exact hvals _ _ _
  subst hdone
  refine ⟨fun E ins hins x hx => ?_, fun hn => ?_, fun hn => ?_⟩
  · rw [hV, look_old _ _ _ (lt_of_lt_of_eq hx (hlen (E, ⟨ins, hins⟩)).symm)]
  · cases hacc : S.acc with
    | none => rw [hcomb]; simp [hacc]
    | some a =>
        obtain ⟨-, -, t, pre, rd, i0, l0, k1, k2, k3, -⟩ := hd.some_ a hacc
        have : all = [] := by rw [hall, hn]; rfl
        rw [this] at k2
        simp at k2
        exact absurd k2.2 k3
  · cases hacc : S.acc with
    | none =>
        have := (hd.none_ hacc).1
        rw [this] at hperm
        exact absurd (List.nil_perm.1 hperm) hn
    | some a =>
        obtain ⟨ha, ha2, t, pre, rd, i0, l0, k1, k2, k3, k4, k5, k6, k7, k8, k9⟩ := hd.some_ a hacc
        refine ⟨a, fun v => if v ∈ pre then rd v else i0, by rw [hcomb]; simp [hacc], ha2, ?_, ?_⟩
        · rw [hcomb]
          have := hd.len
          simp only [List.length_append, List.length_map]
          omega
        · intro E ins hins
          rw [hV]
          refine (k9 (E, ⟨ins, hins⟩)).trans ?_
          have : c.cons.toFinset = (pre ++ t.rnd).toFinset := by
            rw [← k2]
            ext v; simp [hperm.mem_iff]
          rw [this, ← rsum_append (rd' := fun _ => i0)]
          · rfl
          · intro v hv1 hv2
            have := k4 v hv1; have := k5 v hv2; omega

end JST.Comp
