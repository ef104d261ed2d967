import Verif.Compiler.Dedup
import Mathlib.Algebra.BigOperators.Group.List.Basic
import Mathlib.Tactic.Ring

/-!
# Merging gates keeps the layers
-/

namespace JST.Comp

open JST.Flat

variable {F R : Type} [Field F] [DecidableEq F] [Ord F]

theorem gateSum_perm (E : Env F R) (w : Nat → F) {g h : List (Gate F R)} (hp : g.Perm h) (p : Nat) :
    gateSum E w g p = gateSum E w h p := ((hp.filter _).map _).sum_eq

theorem gateSum_append' (E : Env F R) (w : Nat → F) (g h : List (Gate F R)) (p : Nat) :
    gateSum E w (g ++ h) p = gateSum E w g p + gateSum E w h p := by simp [gateSum]

theorem gateSum_cons' (E : Env F R) (w : Nat → F) (g : Gate F R) (gs : List (Gate F R)) (p : Nat) :
    gateSum E w (g :: gs) p = (if g.o = p then g.val E w else 0) + gateSum E w gs p := by
  by_cases h : g.o = p <;> simp [gateSum, List.filter_cons, h]

theorem sortGates_perm (gs : List (Gate F R)) : (sortGates gs).Perm gs := List.mergeSort_perm _ _

/-- What merging two gates gives. -/
theorem mergeTwo_some {g h k : Gate F R} (e : mergeTwo g h = some k) :
    g.ins = h.ins ∧ g.o = h.o ∧ k.ins = g.ins ∧ k.o = g.o ∧ ∃ a b, g.coef = .const a ∧ h.coef = .const b ∧
      k.coef = .const (a + b) := by
  unfold mergeTwo at e
  split at e
  · rename_i a b ha hb
    split at e
    · rename_i hh
      cases e
      exact ⟨hh.1, hh.2, rfl, rfl, a, b, ha, hb, rfl⟩
    · cases e
  · cases e

theorem mergeFrom_sum (E : Env F R) (w : Nat → F) (p : Nat) (l : List (Gate F R)) (g : Gate F R) :
    gateSum E w (mergeFrom g l) p = gateSum E w (g :: l) p := by
  induction l generalizing g with
  | nil => rfl
  | cons h r ih =>
    unfold mergeFrom
    split
    · rename_i k hk
      obtain ⟨h1, h2, h3, h4, a, b, ha, hb, hc⟩ := mergeTwo_some hk
      rw [ih k, gateSum_cons', gateSum_cons', gateSum_cons', h4, ← h2]
      by_cases ho : g.o = p
      · simp only [ho, if_true, Gate.val, ha, hb, hc, h3, ← h1, Coef.val]; ring
      · simp [ho]
    · rw [gateSum_cons', gateSum_cons', ih h]

theorem mergeAll_sum (E : Env F R) (w : Nat → F) (p : Nat) (l : List (Gate F R)) :
    gateSum E w (mergeAll l) p = gateSum E w l p := by
  cases l with
  | nil => rfl
  | cons g r => exact mergeFrom_sum E w p r g

theorem isZeroGate_val (E : Env F R) (w : Nat → F) {g : Gate F R} (h : isZeroGate g = true) : g.val E w = 0 := by
  unfold isZeroGate at h
  split at h
  · rename_i c hc
    simp [Gate.val, hc, Coef.val, of_decide_eq_true h]
  · cases h

theorem trim_sum (E : Env F R) (w : Nat → F) (p : Nat) (l : List (Gate F R)) :
    gateSum E w (l.filter fun g => !isZeroGate g) p = gateSum E w l p := by
  induction l with
  | nil => rfl
  | cons g r ih =>
    rw [List.filter_cons]
    split
    · rw [gateSum_cons', gateSum_cons', ih]
    · rename_i h
      rw [gateSum_cons', ih, isZeroGate_val E w (by simpa using h)]; simp

theorem dedupGates_sum (E : Env F R) (w : Nat → F) (p : Nat) (l : List (Gate F R)) (t : Bool) :
    gateSum E w (dedupGates l t) p = gateSum E w l p := by
  have h : gateSum E w (mergeAll (sortGates l)) p = gateSum E w l p := by
    rw [mergeAll_sum, gateSum_perm E w (sortGates_perm l)]
  unfold dedupGates
  cases t
  · simpa using h
  · simp only [if_true]
    rw [trim_sum, h]

theorem mergeFrom_mem (l : List (Gate F R)) (g : Gate F R) :
    ∀ k ∈ mergeFrom g l, ∃ x ∈ g :: l, k.ins = x.ins ∧ k.o = x.o ∧ ((∃ c, k.coef = .const c) ↔ ∃ c, x.coef = .const c) := by
  induction l generalizing g with
  | nil => intro k hk; exact ⟨g, by simp, by simp [mergeFrom] at hk; simp [hk]⟩
  | cons h r ih =>
    intro k hk
    unfold mergeFrom at hk
    split at hk
    · rename_i m hm
      obtain ⟨h1, h2, h3, h4, a, b, ha, hb, hc⟩ := mergeTwo_some hm
      obtain ⟨x, hx, e1, e2, e3⟩ := ih m k hk
      rcases List.mem_cons.1 hx with rfl | hx
      · exact ⟨g, by simp, by rw [e1, h3], by rw [e2, h4], by rw [e3, hc, ha]; simp⟩
      · exact ⟨x, by simp [hx], e1, e2, e3⟩
    · rcases List.mem_cons.1 hk with rfl | hk
      · exact ⟨k, by simp, rfl, rfl, Iff.rfl⟩
      · obtain ⟨x, hx, e⟩ := ih h k hk
        exact ⟨x, List.mem_cons_of_mem _ hx, e⟩

theorem mergeAll_mem (l : List (Gate F R)) :
    ∀ k ∈ mergeAll l, ∃ x ∈ l, k.ins = x.ins ∧ k.o = x.o ∧ ((∃ c, k.coef = .const c) ↔ ∃ c, x.coef = .const c) := by
  cases l with
  | nil => intro k hk; simp [mergeAll] at hk
  | cons g r => exact mergeFrom_mem r g

theorem dedupGates_mem (l : List (Gate F R)) (t : Bool) : ∀ k ∈ dedupGates l t, ∃ x ∈ l, k.ins = x.ins ∧ k.o = x.o := by
  intro k hk
  have hk' : k ∈ mergeAll (sortGates l) := by
    unfold dedupGates at hk
    cases t
    · simpa using hk
    · simp only [if_true] at hk
      exact List.mem_of_mem_filter hk
  obtain ⟨x, hx, e1, e2, -⟩ := mergeAll_mem _ k hk'
  exact ⟨x, (sortGates_perm l).mem_iff.1 hx, e1, e2⟩

theorem mergeFrom_coins (l : List (Gate F R)) (g : Gate F R) :
    (mergeFrom g l).flatMap (fun g => g.coef.coins) = (g :: l).flatMap fun g => g.coef.coins := by
  induction l generalizing g with
  | nil => rfl
  | cons h r ih =>
    unfold mergeFrom
    split
    · rename_i m hm
      obtain ⟨-, -, -, -, a, b, ha, hb, hc⟩ := mergeTwo_some hm
      rw [ih m]
      simp [ha, hb, hc, Coef.coins]
    · rw [List.flatMap_cons, ih h]; rfl

theorem dedupGates_coins (l : List (Gate F R)) (t : Bool) :
    ((dedupGates l t).flatMap fun g => g.coef.coins).Perm (l.flatMap fun g => g.coef.coins) := by
  have h : ((mergeAll (sortGates l)).flatMap fun g => g.coef.coins).Perm (l.flatMap fun g => g.coef.coins) := by
    refine List.Perm.trans (List.Perm.of_eq ?_) ((sortGates_perm l).flatMap_right _)
    cases sortGates l with
    | nil => rfl
    | cons g r => exact mergeFrom_coins r g
  have ht : ∀ m : List (Gate F R), ((m.filter fun g => !isZeroGate g).flatMap fun g => g.coef.coins) =
      m.flatMap fun g => g.coef.coins := by
    intro m
    induction m with
    | nil => rfl
    | cons g r ih =>
      rw [List.filter_cons]
      split
      · simp [ih]
      · rename_i hz
        have hz : isZeroGate g = true := by simpa using hz
        have : g.coef.coins = [] := by
          unfold isZeroGate at hz
          split at hz
          · rename_i c hc; simp [hc, Coef.coins]
          · cases hz
        simp [ih, this]
  unfold dedupGates
  cases t
  · simpa using h
  · simp only [if_true]
    rw [ht]; exact h

/-! ### The order -/

/-- The coefficient is a constant. -/
def constGate (g : Gate F R) : Bool :=
  match g.coef with
  | .const _ => true
  | _ => false

/-- The part of the order which merging keeps. -/
def keyCmp : Gate F R → Gate F R → Ordering :=
  compareLex (compareOn Gate.ins) (compareLex (compareOn Gate.o) (compareOn fun g => (if constGate g then 0 else 1 : Nat)))

instance : Std.TransCmp (keyCmp : Gate F R → Gate F R → Ordering) :=
  inferInstanceAs (Std.TransCmp (compareLex _ (compareLex _ _)))

instance coefCmp_trans [Std.TransOrd F] : Std.TransCmp (coefCmp : Coef F R → Coef F R → Ordering) where
  eq_swap {a b} := by
    cases a <;> cases b <;> simp [coefCmp]
    · exact Std.OrientedCmp.eq_swap
    · exact Std.OrientedCmp.eq_swap
  isLE_trans {a b c} h1 h2 := by
    cases a <;> cases b <;> cases c <;> simp_all [coefCmp]
    · exact Std.TransCmp.isLE_trans h1 h2
    · exact Std.TransCmp.isLE_trans h1 h2

theorem gateCmp_eq (g h : Gate F R) : gateCmp g h =
    compareLex (compareOn Gate.ins) (compareLex (compareOn Gate.o) (fun g h => coefCmp g.coef h.coef)) g h := rfl

theorem transCmp_on {α β : Type} (cmp : β → β → Ordering) [Std.TransCmp cmp] (f : α → β) :
    Std.TransCmp fun a b => cmp (f a) (f b) where
  eq_swap := Std.OrientedCmp.eq_swap
  isLE_trans := Std.TransCmp.isLE_trans

instance [Std.TransOrd F] : Std.TransCmp (gateCmp : Gate F R → Gate F R → Ordering) :=
  have := transCmp_on (coefCmp : Coef F R → Coef F R → Ordering) Gate.coef
  inferInstanceAs (Std.TransCmp (compareLex (compareOn Gate.ins) (compareLex (compareOn Gate.o) (fun g h : Gate F R => coefCmp g.coef h.coef))))

theorem keyCmp_eq (g h : Gate F R) : keyCmp g h = (compare g.ins h.ins).then ((compare g.o h.o).then
    (compare (if constGate g then 0 else 1 : Nat) (if constGate h then 0 else 1))) := rfl

theorem keyCmp_of_gateCmp {g h : Gate F R} (e : (gateCmp g h).isLE = true) : (keyCmp g h).isLE = true := by
  rw [keyCmp_eq]
  unfold gateCmp at e
  rw [Ordering.isLE_then_iff_or] at e ⊢
  refine e.imp id (And.imp id fun e => ?_)
  rw [Ordering.isLE_then_iff_or] at e ⊢
  refine e.imp id (And.imp id fun e => ?_)
  unfold constGate
  cases hg : g.coef <;> cases hh : h.coef <;> simp_all [coefCmp] <;> decide

theorem sortGates_sorted [Std.TransOrd F] (gs : List (Gate F R)) :
    (sortGates gs).Pairwise fun g h => (gateCmp g h).isLE = true := by
  refine List.pairwise_mergeSort (le := fun g h : Gate F R => (gateCmp g h).isLE)
    (fun a b c h1 h2 => Std.TransCmp.isLE_trans (cmp := gateCmp) h1 h2) (fun a b => ?_) gs
  have : gateCmp a b = (gateCmp b a).swap := Std.OrientedCmp.eq_swap
  rw [this]
  cases gateCmp b a <;> rfl

/-- Two gates which `can_merge_with` accepts. -/
def Mergeable (g h : Gate F R) : Prop := g.ins = h.ins ∧ g.o = h.o ∧ constGate g = true ∧ constGate h = true

theorem mergeTwo_none {g h : Gate F R} (e : mergeTwo g h = none) : ¬ Mergeable g h := by
  rintro ⟨h1, h2, h3, h4⟩
  unfold constGate at h3 h4
  unfold mergeTwo at e
  cases hg : g.coef <;> cases hh : h.coef <;> simp_all

theorem constGate_iff (g : Gate F R) : constGate g = true ↔ ∃ c, g.coef = .const c := by
  unfold constGate; cases g.coef <;> simp

theorem keyCmp_between {g h k : Gate F R} (h1 : (keyCmp g h).isLE = true) (h2 : (keyCmp h k).isLE = true)
    (hm : Mergeable g k) : Mergeable g h := by
  have e : keyCmp g k = .eq := by
    rw [keyCmp_eq, hm.1, hm.2.1, hm.2.2.1, hm.2.2.2]; simp
  have e' : keyCmp g h = .eq := by
    have hkg : (keyCmp k g).isLE = true := by
      rw [Std.OrientedCmp.eq_swap (cmp := keyCmp), e]; rfl
    have hhg := Std.TransCmp.isLE_trans h2 hkg
    rw [Std.OrientedCmp.eq_swap (cmp := keyCmp)] at hhg
    cases hc : keyCmp g h <;> simp_all
  rw [keyCmp_eq, Ordering.then_eq_eq, Ordering.then_eq_eq] at e'
  obtain ⟨a, b, c⟩ := e'
  refine ⟨Std.LawfulEqCmp.eq_of_compare a, Std.LawfulEqCmp.eq_of_compare b, hm.2.2.1, ?_⟩
  have c := Std.LawfulEqCmp.eq_of_compare c
  rw [hm.2.2.1] at c
  by_contra hn
  simp [hn] at c

theorem mergeFrom_distinct (l : List (Gate F R)) (g : Gate F R)
    (h : (g :: l).Pairwise fun g h => (keyCmp g h).isLE = true) :
    (mergeFrom g l).Pairwise fun g h => ¬ Mergeable g h := by
  induction l generalizing g with
  | nil => simp [mergeFrom]
  | cons x r ih =>
    obtain ⟨hg, hxr⟩ := List.pairwise_cons.1 h
    unfold mergeFrom
    split
    · rename_i m hm
      obtain ⟨h1, h2, h3, h4, a, b, ha, hb, hc⟩ := mergeTwo_some hm
      have ek : ∀ y, keyCmp m y = keyCmp g y := fun y => by
        rw [keyCmp_eq, keyCmp_eq, h3, h4]
        simp [constGate, ha, hc]
      exact ih m (List.pairwise_cons.2 ⟨fun y hy => by rw [ek]; exact hg y (List.mem_cons_of_mem _ hy),
        (List.pairwise_cons.1 hxr).2⟩)
    · rename_i hn
      refine List.pairwise_cons.2 ⟨fun y hy hm => ?_, ih x hxr⟩
      obtain ⟨z, hz, e1, e2, e3⟩ := mergeFrom_mem r x y hy
      have hm' : Mergeable g z := ⟨hm.1.trans e1, hm.2.1.trans e2, hm.2.2.1,
        (constGate_iff z).2 (e3.1 ((constGate_iff y).1 hm.2.2.2))⟩
      rcases List.mem_cons.1 hz with rfl | hz
      · exact mergeTwo_none hn hm'
      · exact mergeTwo_none hn (keyCmp_between (hg x (by simp)) ((List.pairwise_cons.1 hxr).1 z hz) hm')

/-- No two gates are left which could be merged. -/
theorem dedupGates_distinct [Std.TransOrd F] (l : List (Gate F R)) (t : Bool) :
    (dedupGates l t).Pairwise fun g h => ¬ Mergeable g h := by
  have h : (mergeAll (sortGates l)).Pairwise fun g h => ¬ Mergeable g h := by
    have hs := (sortGates_sorted l).imp (fun h => keyCmp_of_gateCmp h)
    revert hs
    cases sortGates l with
    | nil => intro _; exact List.Pairwise.nil
    | cons g r => exact mergeFrom_distinct r g
  unfold dedupGates
  cases t
  · simpa using h
  · simp only [if_true]
    exact h.filter _

/-! ### A segment -/

theorem gateSum_zero (E : Env F R) (w : Nat → F) (p : Nat) {l : List (Gate F R)} (h : ∀ g ∈ l, g.val E w = 0) :
    gateSum E w l p = 0 := by
  induction l with
  | nil => rfl
  | cons g r ih =>
    rw [gateSum_cons', ih fun x hx => h x (List.mem_cons_of_mem _ hx), h g (by simp)]; simp

theorem dedupSeg_eval (E : Env F R) (s : Seg F R) (w : Nat → F) (p : Nat) : (dedupSeg s).eval E w p = s.eval E w p := by
  unfold dedupSeg Seg.eval
  dsimp only
  rw [dedupGates_sum, dedupGates_sum, gateSum_perm E w (sortGates_perm _), gateSum_append', dedupGates_sum,
    gateSum_zero E w p (l := List.map _ _)]
  · ring
  · intro g hg
    obtain ⟨q, -, rfl⟩ := List.mem_map.1 hg
    simp [Gate.val, Coef.val]

theorem dedupSeg_coins (s : Seg F R) : (dedupSeg s).coins.Perm s.coins := by
  unfold dedupSeg Seg.coins
  simp only [List.flatMap_append]
  refine ((dedupGates_coins _ _).append (dedupGates_coins _ _)).append ?_
  refine ((sortGates_perm _).flatMap_right _).trans ?_
  rw [List.flatMap_append]
  refine List.Perm.trans (List.Perm.of_eq ?_) (dedupGates_coins s.csts false)
  have : ∀ l : List Nat, (l.map fun p => (⟨[], p, .const 0⟩ : Gate F R)).flatMap (fun g => g.coef.coins) = [] := by
    intro l; induction l <;> simp_all [Coef.coins]
  rw [this, List.append_nil]

theorem dedupSeg_mem (s : Seg F R) :
    (∀ g ∈ (dedupSeg s).muls, ∃ x ∈ s.muls, g.ins = x.ins ∧ g.o = x.o) ∧
    (∀ g ∈ (dedupSeg s).adds, ∃ x ∈ s.adds, g.ins = x.ins ∧ g.o = x.o) ∧
    (∀ g ∈ (dedupSeg s).csts, (∃ x ∈ s.csts, g.ins = x.ins ∧ g.o = x.o) ∨ g.ins = [] ∧ g.o < s.numOut) := by
  refine ⟨fun g hg => dedupGates_mem s.muls true g hg, fun g hg => dedupGates_mem s.adds true g hg, fun g hg => ?_⟩
  have hg := (sortGates_perm _).mem_iff.1 hg
  rcases List.mem_append.1 hg with h | h
  · exact Or.inl (dedupGates_mem s.csts false g h)
  · obtain ⟨q, hq, rfl⟩ := List.mem_map.1 h
    exact Or.inr ⟨rfl, List.mem_range.1 (List.mem_of_mem_filter hq)⟩

theorem dedupSeg_wf {s : Seg F R} (h : s.WF) : (dedupSeg s).WF := by
  obtain ⟨hm, ha, hc⟩ := dedupSeg_mem s
  refine ⟨fun g hg => ?_, fun g hg => ?_, fun g hg => ?_, fun g hg i hi => ?_, fun g hg => ?_, h.sizeIn, h.sizeOut⟩
  · obtain ⟨x, hx, e, -⟩ := hm g hg; rw [e]; exact h.mulLen x hx
  · obtain ⟨x, hx, e, -⟩ := ha g hg; rw [e]; exact h.addLen x hx
  · rcases hc g hg with ⟨x, hx, e, -⟩ | ⟨e, -⟩
    · rw [e]; exact h.cstLen x hx
    · rw [e]; rfl
  · rcases List.mem_append.1 hg with hg | hg
    · rcases List.mem_append.1 hg with hg | hg
      · obtain ⟨x, hx, e, -⟩ := hm g hg; exact h.read x (by simp [hx]) i (e ▸ hi)
      · obtain ⟨x, hx, e, -⟩ := ha g hg; exact h.read x (by simp [hx]) i (e ▸ hi)
    · rcases hc g hg with ⟨x, hx, e, -⟩ | ⟨e, -⟩
      · exact h.read x (by simp [hx]) i (e ▸ hi)
      · rw [e] at hi; cases hi
  · rcases List.mem_append.1 hg with hg | hg
    · rcases List.mem_append.1 hg with hg | hg
      · obtain ⟨x, hx, -, e⟩ := hm g hg; rw [e]; exact h.write x (by simp [hx])
      · obtain ⟨x, hx, -, e⟩ := ha g hg; rw [e]; exact h.write x (by simp [hx])
    · rcases hc g hg with ⟨x, hx, -, e⟩ | ⟨-, e⟩
      · rw [e]; exact h.write x (by simp [hx])
      · exact e

theorem hasGate_iff (s : Seg F R) (p : Nat) : hasGate s p = true ↔ ∃ g, (g ∈ s.muls ∨ g ∈ s.adds ∨ g ∈ s.csts) ∧ g.o = p := by
  simp only [hasGate, List.any_eq_true, List.mem_append, or_assoc, decide_eq_true_eq]

/-- Wires keep a gate. -/
theorem dedupSeg_hasGate {s : Seg F R} (h : s.WF) (p : Nat) : hasGate (dedupSeg s) p = true ↔ hasGate s p = true := by
  obtain ⟨hm, ha, hc⟩ := dedupSeg_mem s
  constructor
  · intro h0
    obtain ⟨g, hg, rfl⟩ := (hasGate_iff _ _).1 h0
    clear h0
    rcases hg with hg | hg | hg
    · obtain ⟨x, hx, -, e⟩ := hm g hg; exact (hasGate_iff _ _).2 ⟨x, Or.inl hx, e.symm⟩
    · obtain ⟨x, hx, -, e⟩ := ha g hg; exact (hasGate_iff _ _).2 ⟨x, Or.inr (Or.inl hx), e.symm⟩
    · rcases List.mem_append.1 ((sortGates_perm _).mem_iff.1 hg) with hg | hg
      · obtain ⟨x, hx, -, e⟩ := dedupGates_mem s.csts false g hg; exact (hasGate_iff _ _).2 ⟨x, Or.inr (Or.inr hx), e.symm⟩
      · obtain ⟨q, hq, rfl⟩ := List.mem_map.1 hg
        simp only [List.mem_filter, Bool.and_eq_true] at hq
        exact hq.2.1
  · intro hs
    have hp : p < s.numOut := by
      obtain ⟨g, hg, rfl⟩ := (hasGate_iff _ _).1 hs
      exact h.write g (by simpa [or_assoc] using hg)
    by_cases ht : hasGate (⟨s.numIn, s.numOut, dedupGates s.muls true, dedupGates s.adds true,
        dedupGates s.csts false⟩ : Seg F R) p = true
    · obtain ⟨g, hg, ho⟩ := (hasGate_iff _ _).1 ht
      refine (hasGate_iff _ _).2 ⟨g, ?_, ho⟩
      rcases hg with hg | hg | hg
      · exact Or.inl hg
      · exact Or.inr (Or.inl hg)
      · exact Or.inr (Or.inr ((sortGates_perm _).mem_iff.2 (List.mem_append_left _ hg)))
    · refine (hasGate_iff _ _).2 ⟨⟨[], p, .const 0⟩, Or.inr (Or.inr ((sortGates_perm _).mem_iff.2
        (List.mem_append_right _ (List.mem_map.2 ⟨p, ?_, rfl⟩)))), rfl⟩
      simp only [List.mem_filter, List.mem_range, Bool.and_eq_true, Bool.not_eq_true']
      exact ⟨hp, hs, by simpa using ht⟩

theorem sortSeg_eval (E : Env F R) (s : Seg F R) (w : Nat → F) (p : Nat) : (sortSeg s).eval E w p = s.eval E w p := by
  unfold sortSeg Seg.eval
  dsimp only
  rw [gateSum_perm E w (sortGates_perm _), gateSum_perm E w (sortGates_perm _), gateSum_perm E w (sortGates_perm _)]

theorem sortSeg_coins (s : Seg F R) : (sortSeg s).coins.Perm s.coins :=
  (((sortGates_perm _).append (sortGates_perm _)).append (sortGates_perm _)).flatMap_right _

theorem sortSeg_wf {s : Seg F R} (h : s.WF) : (sortSeg s).WF := by
  have hp : ((sortSeg s).muls ++ (sortSeg s).adds ++ (sortSeg s).csts).Perm (s.muls ++ s.adds ++ s.csts) :=
    ((sortGates_perm _).append (sortGates_perm _)).append (sortGates_perm _)
  exact ⟨fun g hg => h.mulLen g ((sortGates_perm _).mem_iff.1 hg), fun g hg => h.addLen g ((sortGates_perm _).mem_iff.1 hg),
    fun g hg => h.cstLen g ((sortGates_perm _).mem_iff.1 hg), fun g hg => h.read g (hp.mem_iff.1 hg),
    fun g hg => h.write g (hp.mem_iff.1 hg), h.sizeIn, h.sizeOut⟩

end JST.Comp
