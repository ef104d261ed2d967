import Verif.Compiler.Final
import Mathlib.Data.List.Induction

/-!
# The compiler's priority queue

Model of `compiler/expander_compiler/src/utils/heap.rs`, and of how `mul_vec`
(`builder/final_build_opt.rs:360-470`) uses it.  The Rust heap stores positions of a vector; here it
stores the entries.
-/

set_option linter.unusedSectionVars false

namespace JST.Comp

section Heap

variable {α : Type} (lt : α → α → Bool)

/-- `heap.rs:8-16`: the loop of `push`. -/
def siftUp (s : Array α) (i : Nat) : Array α :=
  if h : 0 < i ∧ i < s.size then
    if lt s[i] (s[(i - 1) / 2]'(by omega)) then
      siftUp (s.swap i ((i - 1) / 2) h.2 (by omega)) ((i - 1) / 2)
    else s
  else s
termination_by i
decreasing_by omega

/-- `heap.rs:5-17` `push`. -/
def heapPush (s : Array α) (x : α) : Array α := siftUp lt (s.push x) s.size

/-- `heap.rs:31-34`: the smaller child. -/
def smallChild (s : Array α) (i : Nat) (h : 2 * i + 1 < s.size) : Nat :=
  if h2 : 2 * i + 2 < s.size then
    if lt s[2 * i + 2] s[2 * i + 1] then 2 * i + 2 else 2 * i + 1
  else 2 * i + 1

theorem smallChild_lt (s : Array α) (i : Nat) (h : 2 * i + 1 < s.size) :
    smallChild lt s i h < s.size := by
  unfold smallChild; split_ifs <;> omega

theorem smallChild_cases (s : Array α) (i : Nat) (h : 2 * i + 1 < s.size) :
    smallChild lt s i h = 2 * i + 1 ∨ smallChild lt s i h = 2 * i + 2 := by
  unfold smallChild; split_ifs <;> simp

/-- `heap.rs:30-41`: the loop of `pop`. -/
def siftDown (s : Array α) (i : Nat) : Array α :=
  if h : 2 * i + 1 < s.size then
    if lt (s[smallChild lt s i h]'(smallChild_lt lt s i h)) (s[i]'(by omega)) then
      siftDown (s.swap i (smallChild lt s i h) (by omega) (smallChild_lt lt s i h))
        (smallChild lt s i h)
    else s
  else s
termination_by s.size - i
decreasing_by
  simp only [Array.size_swap]
  rcases smallChild_cases lt s i h with h1 | h1 <;> omega

/-- `heap.rs:19-43` `pop`. -/
def heapPop (s : Array α) : Option (α × Array α) :=
  if h : 0 < s.size then
    if s.size = 1 then some (s[0], s.pop)
    else some (s[0], siftDown lt (s.pop.set! 0 s[s.size - 1]) 0)
  else none

/-- All elements pushed, one after the other. -/
def heapOf (l : List α) : Array α := l.foldl (heapPush lt) #[]

/-- Every entry but the first is not smaller than its parent. -/
def IsHeap (s : Array α) : Prop :=
  ∀ i (h : i < s.size), 0 < i → lt s[i] (s[(i - 1) / 2]'(by omega)) = false

end Heap

variable {F R : Type} [Field F] [DecidableEq F]

/-- `final_build_opt.rs:346-358` `cmp_expr_for_mul`: by layer, by length, and then by the order of
expressions `ltE`, which depends on the order of field elements. -/
def mulLt (ltE : Expr F → Expr F → Bool) (b : FB F R) (x y : Expr F) : Bool :=
  let lx := (exprLayer b x).getD 0
  let ly := (exprLayer b y).getD 0
  decide (lx < ly) || (decide (lx = ly) && (decide (x.length < y.length) ||
    (decide (x.length = y.length) && ltE x y)))

/-- `final_build_opt.rs:369-385`: push what is not yet in the heap, and pop two.  The list is the
heap, followed by the new operands; pushing the entries of a heap one after the other gives the
heap itself (`heapOf_self`). -/
def heapPick (ltE : Expr F → Expr F → Bool) (b : FB F R) (es : List (Expr F)) :
    Expr F × Expr F × List (Expr F) :=
  match heapPop (mulLt ltE b) (heapOf (mulLt ltE b) es) with
  | none => ([], [], [])
  | some (x, s) =>
      match heapPop (mulLt ltE b) s with
      | none => ([], [], [])
      | some (y, s) => (x, y, s.toList)

/-! ## Elements are neither lost nor made up -/

section Perm

variable {α : Type} {lt : α → α → Bool}

theorem siftUp_perm (s : Array α) (i : Nat) : (siftUp lt s i).toList.Perm s.toList := by
  induction i using Nat.strong_induction_on generalizing s with
  | _ i ih =>
      unfold siftUp
      split_ifs with h h1
      · have hp : (i - 1) / 2 < s.size := by omega
        exact (ih ((i - 1) / 2) (by omega) _).trans
          (Array.perm_iff_toList_perm.1 (Array.swap_perm h.2 hp))
      · exact List.Perm.refl _
      · exact List.Perm.refl _

theorem siftUp_size (s : Array α) (i : Nat) : (siftUp lt s i).size = s.size := by
  have := (siftUp_perm (lt := lt) s i).length_eq
  simpa using this

theorem heapPush_perm (s : Array α) (x : α) :
    (heapPush lt s x).toList.Perm (s.toList ++ [x]) := by
  have := siftUp_perm (lt := lt) (s.push x) s.size
  simpa [heapPush] using this

theorem siftDown_perm (s : Array α) (i : Nat) : (siftDown lt s i).toList.Perm s.toList := by
  induction hk : s.size - i using Nat.strong_induction_on generalizing s i with
  | _ k ih =>
      unfold siftDown
      split_ifs with h h1
      · have hj := smallChild_lt lt s i h
        refine (ih _ ?_ _ _ rfl).trans
          (Array.perm_iff_toList_perm.1 (Array.swap_perm (i := i) (by omega) hj))
        simp only [Array.size_swap]
        rcases smallChild_cases lt s i h with h2 | h2 <;> omega
      · exact List.Perm.refl _
      · exact List.Perm.refl _

theorem siftDown_size (s : Array α) (i : Nat) : (siftDown lt s i).size = s.size := by
  have := (siftDown_perm (lt := lt) s i).length_eq
  simpa using this

theorem set_pop_perm (s : Array α) (h : 1 < s.size) :
    (s[0] :: (s.pop.set! 0 s[s.size - 1]).toList).Perm s.toList := by
  obtain ⟨l⟩ := s
  simp only [List.size_toArray, List.getElem_toArray, Array.toList_pop, Array.set!_eq_setIfInBounds,
    Array.toList_setIfInBounds] at h ⊢
  match l, h with
  | [], h => simp at h
  | [_], h => simp at h
  | a :: c :: r, h =>
      obtain ⟨q, z, hq⟩ : ∃ q z, c :: r = q ++ [z] :=
        ⟨(c :: r).dropLast, (c :: r).getLast (by simp), (List.dropLast_append_getLast _).symm⟩
      have hlast : (a :: c :: r)[(a :: c :: r).length - 1]'(by simp) = z := by
        simp only [hq]
        simp [List.getElem_cons, List.getElem_append_right]
      rw [hlast]
      rw [List.dropLast_cons_cons]
      simp only [List.set_cons_zero, List.getElem_cons_zero, hq, List.dropLast_concat]
      exact List.Perm.cons _ (List.perm_append_singleton z q).symm

theorem heapPop_perm {s : Array α} (h : 0 < s.size) :
    ∃ x s', heapPop lt s = some (x, s') ∧ (x :: s'.toList).Perm s.toList := by
  unfold heapPop
  rw [dif_pos h]
  split_ifs with h1
  · refine ⟨_, _, rfl, ?_⟩
    obtain ⟨l⟩ := s
    simp only [List.size_toArray] at h1
    obtain ⟨a, rfl⟩ := List.length_eq_one_iff.1 h1
    simp
  · refine ⟨_, _, rfl, ?_⟩
    exact (List.Perm.cons _ (siftDown_perm _ _)).trans (set_pop_perm s (by omega))

theorem heapOf_perm (l : List α) : (heapOf lt l).toList.Perm l := by
  unfold heapOf
  have : ∀ (l : List α) (s : Array α), (l.foldl (heapPush lt) s).toList.Perm (s.toList ++ l) := by
    intro l
    induction l with
    | nil => intro s; simp
    | cons x r ih =>
        intro s
        rw [List.foldl_cons]
        refine (ih _).trans ?_
        have := (heapPush_perm (lt := lt) s x).append_right r
        simpa using this
  simpa using this l #[]

end Perm

theorem heapPick_perm (ltE : Expr F → Expr F → Bool) (b : FB F R) (es : List (Expr F))
    (h : 2 ≤ es.length) :
    ((heapPick ltE b es).1 :: (heapPick ltE b es).2.1 :: (heapPick ltE b es).2.2).Perm es := by
  have p0 := heapOf_perm (lt := mulLt ltE b) es
  have l0 : (heapOf (mulLt ltE b) es).size = es.length := by simpa using p0.length_eq
  obtain ⟨x, s1, h1, p1⟩ := heapPop_perm (lt := mulLt ltE b) (s := heapOf (mulLt ltE b) es) (by omega)
  have l1 : s1.size + 1 = es.length := by simpa [l0] using p1.length_eq
  obtain ⟨y, s2, h2, p2⟩ := heapPop_perm (lt := mulLt ltE b) (s := s1) (by omega)
  unfold heapPick
  rw [h1]
  dsimp only
  rw [h2]
  exact (List.Perm.cons x p2).trans (p1.trans p0)

/-- The choice of the heap. -/
def heapPk (ltE : Expr F → Expr F → Bool) : Pick F R := ⟨heapPick ltE, heapPick_perm ltE⟩

/-! ## The order of the heap -/

section Order

variable {α : Type} {lt : α → α → Bool}

/-- The comparison is a strict order in which being incomparable is transitive; Rust's `Ord`. -/
structure Weak (lt : α → α → Bool) : Prop where
  asymm : ∀ a b, lt a b = true → lt b a = false
  trans : ∀ a b c, lt b a = false → lt c b = false → lt c a = false

/-- Pushing an element which is not smaller than its parent changes nothing else. -/
theorem heapPush_of_ge {s : Array α} {x : α}
    (h : ∀ hp : 0 < s.size, lt x (s[(s.size - 1) / 2]'(by omega)) = false) :
    heapPush lt s x = s.push x := by
  unfold heapPush siftUp
  split_ifs with h1 h2
  · exfalso
    have := h h1.1
    simp only [Array.getElem_push_eq] at h2
    rw [Array.getElem_push_lt (by omega)] at h2
    rw [this] at h2
    cases h2
  · rfl
  · rfl

/-- The heap made from a heap is the heap. -/
theorem heapOf_self {s : Array α} (h : IsHeap lt s) : heapOf lt s.toList = s := by
  obtain ⟨l⟩ := s
  change heapOf lt l = ⟨l⟩
  induction l using List.reverseRec with
  | nil => rfl
  | append_singleton l x ih =>
      have hl : IsHeap lt ⟨l⟩ := by
        intro i hi h0
        have hi' : i < l.length := hi
        have := h i (by simp; omega) h0
        simp only [List.getElem_toArray] at this ⊢
        rwa [List.getElem_append_left hi', List.getElem_append_left (by omega)] at this
      have : heapOf lt (l ++ [x]) = heapPush lt (heapOf lt l) x := by
        simp [heapOf, List.foldl_append]
      rw [this, ih hl, heapPush_of_ge]
      · simp
      · intro hp
        have hp' : 0 < l.length := hp
        have := h l.length (by simp) hp'
        simp only [List.getElem_toArray, List.size_toArray] at this ⊢
        rw [List.getElem_append_right (le_refl _), List.getElem_append_left (by omega)] at this
        simpa using this

/-- The heap property holds but at `i`, whose children are not smaller than its parent. -/
def UpHeap (lt : α → α → Bool) (s : Array α) (i : Nat) : Prop :=
  (∀ j (h : j < s.size), 0 < j → j ≠ i → lt s[j] (s[(j - 1) / 2]'(by omega)) = false) ∧
  (∀ j (h : j < s.size), 0 < j → (hp : (j - 1) / 2 = i) → 0 < i →
    lt s[j] (s[(i - 1) / 2]'(by omega)) = false)

theorem siftUp_heap (hw : Weak lt) (s : Array α) (i : Nat) (hi : i < s.size) (h : UpHeap lt s i) :
    IsHeap lt (siftUp lt s i) := by
  induction i using Nat.strong_induction_on generalizing s with
  | _ i ih =>
      unfold siftUp
      have hp : (i - 1) / 2 < s.size := by omega
      split_ifs with h1 h2
      · refine ih _ (by omega) _ (by simpa using hp) ⟨?_, ?_⟩
        · intro j hj h0 hne
          rw [Array.size_swap] at hj
          simp only [Array.getElem_swap]
          by_cases e1 : j = i
          · subst e1
            rw [if_pos rfl, if_neg (by omega), if_pos rfl]
            exact hw.asymm _ _ h2
          · rw [if_neg e1, if_neg hne]
            by_cases e2 : (j - 1) / 2 = i
            · rw [if_pos e2]
              exact h.2 j hj h0 e2 h1.1
            · rw [if_neg e2]
              by_cases e3 : (j - 1) / 2 = (i - 1) / 2
              · rw [if_pos e3]
                have := h.1 j hj h0 e1
                simp only [e3] at this
                exact hw.trans _ _ _ (hw.asymm _ _ h2) this
              · rw [if_neg e3]
                exact h.1 j hj h0 e1
        · intro j hj h0 hpar h3
          rw [Array.size_swap] at hj
          simp only [Array.getElem_swap]
          have hpp : lt s[(i - 1) / 2] (s[((i - 1) / 2 - 1) / 2]'(by omega)) = false :=
            h.1 ((i - 1) / 2) hp h3 (by omega)
          rw [if_neg (by omega : ¬ ((i - 1) / 2 - 1) / 2 = i),
            if_neg (by omega : ¬ ((i - 1) / 2 - 1) / 2 = (i - 1) / 2)]
          by_cases e1 : j = i
          · rw [if_pos e1]; exact hpp
          · rw [if_neg e1, if_neg (by omega)]
            have := h.1 j hj h0 e1
            simp only [hpar] at this
            exact hw.trans _ _ _ hpp this
      · intro j hj h0
        by_cases e1 : j = i
        · subst e1
          simpa using h2
        · exact h.1 j hj h0 e1
      · intro j hj h0
        exact h.1 j hj h0 (by omega)

theorem heapPush_heap (hw : Weak lt) {s : Array α} (h : IsHeap lt s) (x : α) :
    IsHeap lt (heapPush lt s x) := by
  refine siftUp_heap hw _ _ (by simp) ⟨?_, ?_⟩
  · intro j hj h0 hne
    rw [Array.size_push] at hj
    rw [Array.getElem_push_lt (by omega), Array.getElem_push_lt (by omega)]
    exact h j (by omega) h0
  · intro j hj h0 hpar
    rw [Array.size_push] at hj
    omega

theorem heapOf_heap (hw : Weak lt) (l : List α) : IsHeap lt (heapOf lt l) := by
  unfold heapOf
  have : ∀ (l : List α) (s : Array α), IsHeap lt s → IsHeap lt (l.foldl (heapPush lt) s) := by
    intro l
    induction l with
    | nil => intro s hs; exact hs
    | cons x r ih => intro s hs; exact ih _ (heapPush_heap hw hs x)
  exact this l #[] (by intro i hi; simp at hi)

/-- The heap property holds but between `i` and its children, which are not smaller than the parent
of `i`. -/
def DownHeap (lt : α → α → Bool) (s : Array α) (i : Nat) : Prop :=
  (∀ j (h : j < s.size), 0 < j → (j - 1) / 2 ≠ i → lt s[j] (s[(j - 1) / 2]'(by omega)) = false) ∧
  (∀ j (h : j < s.size), 0 < j → (hp : (j - 1) / 2 = i) → 0 < i →
    lt s[j] (s[(i - 1) / 2]'(by omega)) = false)

theorem smallChild_le (hw : Weak lt) (s : Array α) (i : Nat) (h : 2 * i + 1 < s.size) (j : Nat)
    (hj : j < s.size) (h0 : 0 < j) (hpar : (j - 1) / 2 = i) :
    lt s[j] (s[smallChild lt s i h]'(smallChild_lt lt s i h)) = false := by
  have hjc : j = 2 * i + 1 ∨ j = 2 * i + 2 := by omega
  have hrefl : ∀ a, lt a a = false := by
    intro a
    cases hc : lt a a with
    | false => rfl
    | true => rw [← hc]; exact hw.asymm _ _ hc
  unfold smallChild
  rcases hjc with rfl | rfl
  · by_cases h2 : 2 * i + 2 < s.size
    · simp only [dif_pos h2]
      by_cases h3 : lt s[2 * i + 2] s[2 * i + 1] = true
      · simp only [if_pos h3]; exact hw.asymm _ _ h3
      · simp only [if_neg h3]; exact hrefl _
    · simp only [dif_neg h2]; exact hrefl _
  · simp only [dif_pos hj]
    by_cases h3 : lt s[2 * i + 2] s[2 * i + 1] = true
    · simp only [if_pos h3]; exact hrefl _
    · simp only [if_neg h3]; simpa using h3

theorem swap_down (hw : Weak lt) {s : Array α} {i c : Nat} (hi : i < s.size) (hj : c < s.size)
    (h : DownHeap lt s i) (hc : c = 2 * i + 1 ∨ c = 2 * i + 2) (h2 : lt s[c] s[i] = true)
    (hle : ∀ j (hj' : j < s.size), 0 < j → (j - 1) / 2 = i → lt s[j] s[c] = false) :
    DownHeap lt (s.swap i c hi hj) c := by
  refine ⟨?_, ?_⟩
  · intro j hjs h0 hne
    rw [Array.size_swap] at hjs
    simp only [Array.getElem_swap]
    by_cases e1 : j = i
    · subst e1
      rw [if_pos rfl, if_neg (by omega), if_neg hne]
      exact h.2 c hj (by omega) (by omega) h0
    · rw [if_neg e1]
      by_cases e2 : j = c
      · subst e2
        rw [if_pos rfl, if_pos (by omega)]
        exact hw.asymm _ _ h2
      · rw [if_neg e2]
        by_cases e3 : (j - 1) / 2 = i
        · rw [if_pos e3]
          exact hle j hjs h0 e3
        · rw [if_neg e3, if_neg hne]
          exact h.1 j hjs h0 e3
  · intro j hjs h0 hpar h3
    rw [Array.size_swap] at hjs
    simp only [Array.getElem_swap]
    rw [if_neg (by omega), if_neg (by omega), if_pos (by omega)]
    have := h.1 j hjs h0 (by omega)
    simpa only [hpar] using this

theorem siftDown_heap (hw : Weak lt) (s : Array α) (i : Nat) (hi : i < s.size)
    (h : DownHeap lt s i) : IsHeap lt (siftDown lt s i) := by
  induction hk : s.size - i using Nat.strong_induction_on generalizing s i with
  | _ k ih =>
      unfold siftDown
      split_ifs with h1 h2
      · have hj := smallChild_lt lt s i h1
        have hc := smallChild_cases lt s i h1
        refine ih (s.size - smallChild lt s i h1) (by omega) _ _ (by simpa using hj)
          (swap_down hw hi hj h hc h2 (smallChild_le hw s i h1)) (by simp)
      · intro j hjs h0
        by_cases e3 : (j - 1) / 2 = i
        · have h4 := smallChild_le hw s i h1 j hjs h0 e3
          have h5 : lt (s[smallChild lt s i h1]'(smallChild_lt lt s i h1)) s[i] = false := by
            simpa using h2
          simp only [e3]
          exact hw.trans _ _ _ h5 h4
        · exact h.1 j hjs h0 e3
      · intro j hjs h0
        exact h.1 j hjs h0 (by omega)

/-- The first entry of a heap is a least one. -/
theorem heap_min (hw : Weak lt) {s : Array α} (h : IsHeap lt s) (hs : 0 < s.size) (i : Nat)
    (hi : i < s.size) : lt s[i] s[0] = false := by
  induction i using Nat.strong_induction_on with
  | _ i ih =>
      rcases Nat.eq_zero_or_pos i with h0 | h0
      · subst h0
        cases hc : lt s[0] s[0] with
        | false => rfl
        | true => rw [← hc]; exact hw.asymm _ _ hc
      · exact hw.trans _ _ _ (ih ((i - 1) / 2) (by omega) (by omega)) (h i hi h0)

theorem heapPop_heap (hw : Weak lt) {s s' : Array α} {x : α} (h : IsHeap lt s)
    (hp : heapPop lt s = some (x, s')) :
    IsHeap lt s' ∧ (∀ y ∈ s.toList, lt y x = false) := by
  unfold heapPop at hp
  split_ifs at hp with h0 h1
  · simp only [Option.some.injEq, Prod.mk.injEq] at hp
    obtain ⟨rfl, rfl⟩ := hp
    refine ⟨?_, ?_⟩
    · intro i hi
      simp only [Array.size_pop] at hi
      omega
    · intro y hy
      obtain ⟨i, hi, rfl⟩ := List.mem_iff_getElem.1 hy
      exact heap_min hw h h0 i (by simpa using hi)
  · simp only [Option.some.injEq, Prod.mk.injEq] at hp
    obtain ⟨rfl, rfl⟩ := hp
    refine ⟨?_, ?_⟩
    · refine siftDown_heap hw _ _ (by simp; omega) ⟨?_, ?_⟩
      · intro j hj hj0 hne
        simp only [Array.set!_eq_setIfInBounds, Array.size_setIfInBounds, Array.size_pop] at hj
        simp only [Array.set!_eq_setIfInBounds]
        rw [Array.getElem_setIfInBounds_ne (by simpa using hj) (by omega),
          Array.getElem_setIfInBounds_ne (by simp; omega) (by omega)]
        simp only [Array.getElem_pop]
        exact h j (by omega) hj0
      · intro j hj hj0 hpar hcon
        omega
    · intro y hy
      obtain ⟨i, hi, rfl⟩ := List.mem_iff_getElem.1 hy
      exact heap_min hw h h0 i (by simpa using hi)

end Order

end JST.Comp
