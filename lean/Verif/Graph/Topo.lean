import Mathlib.Data.List.Count
import Mathlib.Data.List.Nodup
import Mathlib.Data.List.Perm.Subperm

/-!
# The order of the layers

`topological_sort`, rust/jstprove_onnx/src/graph.rs:311-356 (Kahn's algorithm). The loop over the queue has fuel,
one step for each layer and one more; `run_queue` below shows that this is enough.
-/

namespace JST.Graph.Topo

/-- The part of a layer that matters: the names of its inputs and outputs. -/
structure Layer where
  inputs : List String
  outputs : List String

/-- `output_to_layer`, graph.rs:312-317: the last layer that has the name among its outputs. -/
def producer (ls : List Layer) (name : String) : Option Nat :=
  ((List.range ls.length).filter fun i => ((ls[i]?).map (·.outputs)).getD [] |>.contains name).getLast?

/-- The producers of the inputs of a layer, other than itself, graph.rs:322-327. -/
def deps (ls : List Layer) (i : Nat) : List Nat :=
  (((ls[i]?).map (·.inputs)).getD []).filterMap fun name => (producer ls name).filter (· ≠ i)

/-- `adj`, graph.rs:319-330: the layers that use an output of `d`, once for each use. -/
def adj (ls : List Layer) (d : Nat) : List Nat :=
  (List.range ls.length).flatMap fun i => (List.replicate ((deps ls i).count d) i)

/-- The state of the loop. -/
structure State where
  queue : List Nat
  indeg : Nat → Nat
  order : List Nat

/-- The inner loop, graph.rs:343-348. `none` is the panic of an unsigned subtraction below zero. -/
def inner : List Nat → (Nat → Nat) → List Nat → Option ((Nat → Nat) × List Nat)
  | [], deg, q => some (deg, q)
  | v :: vs, deg, q =>
    if deg v = 0 then none
    else
      let deg' := fun u => if u = v then deg u - 1 else deg u
      inner vs deg' (if deg v - 1 = 0 then q ++ [v] else q)

/-- The outer loop, graph.rs:341-349. -/
def run (ls : List Layer) : Nat → State → Option State
  | 0, s => some s
  | fuel + 1, s => match s.queue with
    | [] => some s
    | i :: q => do
      let (deg, q') ← inner (adj ls i) s.indeg q
      run ls fuel ⟨q', deg, s.order ++ [i]⟩

/-- The state before the loop, graph.rs:319-339. -/
def start (ls : List Layer) : State :=
  ⟨(List.range ls.length).filter fun i => (deps ls i).length = 0, fun i => (deps ls i).length, []⟩

/-- The outcome: an order, the error `cycle detected`, or a panic. -/
inductive Outcome
  | order (o : List Nat)
  | cycle
  | panic
  deriving DecidableEq

/-- `topological_sort`. -/
def sort (ls : List Layer) : Outcome :=
  match run ls (ls.length + 1) (start ls) with
  | none => .panic
  | some s => if s.order.length ≠ ls.length then .cycle else .order s.order

/-! ## Invariant -/

theorem producer_lt {ls : List Layer} {n : String} {i : Nat} (h : producer ls n = some i) : i < ls.length := by
  have := List.mem_of_getLast? h
  exact List.mem_range.1 (List.mem_of_mem_filter this)

theorem deps_lt {ls : List Layer} {i d : Nat} (h : d ∈ deps ls i) : d < ls.length := by
  unfold deps at h
  obtain ⟨n, -, h⟩ := List.mem_filterMap.1 h
  cases hp : producer ls n with
  | none => rw [hp] at h; simp at h
  | some j =>
    rw [hp] at h
    simp only [Option.filter, decide_not] at h
    split_ifs at h
    obtain rfl := Option.some.inj h
    exact producer_lt hp

theorem count_adj {ls : List Layer} {d v : Nat} (hv : v < ls.length) : (adj ls d).count v = (deps ls v).count d := by
  unfold adj
  rw [List.count_flatMap]
  have key : ∀ n, v < n → ((List.range n).map (List.count v ∘ fun i => List.replicate ((deps ls i).count d) i)).sum =
      (deps ls v).count d := by
    intro n
    induction n with
    | zero => omega
    | succ n ih =>
      intro hn
      rw [List.range_succ, List.map_append, List.sum_append]
      simp only [List.map_cons, List.map_nil, List.sum_cons, List.sum_nil, Function.comp_apply, List.count_replicate]
      by_cases h : v < n
      · rw [ih h]
        have : (n == v) = false := by simp; omega
        simp [this]
      · have hvn : n = v := by omega
        subst hvn
        have : ((List.range n).map (List.count n ∘ fun i => List.replicate ((deps ls i).count d) i)).sum = 0 := by
          apply List.sum_eq_zero_iff_forall_eq_nat.2
          intro x hx
          obtain ⟨i, hi, rfl⟩ := List.mem_map.1 hx
          have := List.mem_range.1 hi
          simp only [Function.comp_apply, List.count_replicate]
          rw [if_neg]
          simp; omega
        rw [this]
        simp
  exact key _ hv

theorem mem_adj_lt {ls : List Layer} {d v : Nat} (h : v ∈ adj ls d) : v < ls.length := by
  unfold adj at h
  obtain ⟨i, hi, h⟩ := List.mem_flatMap.1 h
  rw [(List.mem_replicate.1 h).2]
  exact List.mem_range.1 hi

/-- What the inner loop does. -/
theorem inner_spec : ∀ (vs : List Nat) (deg : Nat → Nat) (q : List Nat), (∀ v, vs.count v ≤ deg v) →
    ∃ zs, inner vs deg q = some (fun v => deg v - vs.count v, q ++ zs) ∧ zs.Nodup ∧
      ∀ v, v ∈ zs ↔ v ∈ vs ∧ deg v = vs.count v
  | [], deg, q, _ => ⟨[], by simp [inner], by simp, by simp⟩
  | v :: vs, deg, q, h => by
    have hv : deg v ≠ 0 := by
      have := h v
      rw [List.count_cons_self] at this
      omega
    have h' : ∀ u, vs.count u ≤ (fun u => if u = v then deg u - 1 else deg u) u := by
      intro u
      have := h u
      by_cases hu : u = v
      · subst hu
        rw [List.count_cons_self] at this
        simp only [if_true]
        omega
      · rw [List.count_cons_of_ne (Ne.symm hu)] at this
        simp only [if_neg hu]
        exact this
    obtain ⟨zs, e, nd, mem⟩ := inner_spec vs _ (if deg v - 1 = 0 then q ++ [v] else q) h'
    have hdeg : (fun u => (if u = v then deg u - 1 else deg u) - vs.count u) = fun u => deg u - (v :: vs).count u := by
      funext u
      by_cases hu : u = v
      · subst hu
        rw [if_pos rfl, List.count_cons_self]
        omega
      · rw [if_neg hu, List.count_cons_of_ne (Ne.symm hu)]
    simp only [inner, if_neg hv]
    rw [e, hdeg]
    by_cases h1 : deg v - 1 = 0
    · have hcv : vs.count v = 0 := by
        have := h v
        rw [List.count_cons_self] at this
        omega
      have hvm : v ∉ vs := List.count_eq_zero.1 hcv
      have hvz : v ∉ zs := fun hz => hvm ((mem v).1 hz).1
      refine ⟨v :: zs, by simp [h1], List.nodup_cons.2 ⟨hvz, nd⟩, fun u => ?_⟩
      by_cases hu : u = v
      · subst hu
        simp only [List.mem_cons, true_or, true_and, List.count_cons_self, true_iff]
        omega
      · simp only [List.mem_cons, hu, false_or]
        rw [mem u, if_neg hu, List.count_cons_of_ne (Ne.symm hu)]
    · refine ⟨zs, by simp [h1], nd, fun u => ?_⟩
      rw [mem u]
      by_cases hu : u = v
      · subst hu
        simp only [if_true, List.mem_cons, true_or, true_and, List.count_cons_self]
        constructor
        · rintro ⟨-, h2⟩; omega
        · intro h2
          refine ⟨?_, by omega⟩
          apply List.count_pos_iff.1
          omega
      · rw [if_neg hu, List.count_cons_of_ne (Ne.symm hu)]
        simp only [List.mem_cons, hu, false_or]

/-- What is true between two steps of the outer loop. -/
structure Good (ls : List Layer) (s : State) : Prop where
  nodup : (s.order ++ s.queue).Nodup
  deg : ∀ v < ls.length, s.indeg v = ((deps ls v).filter fun d => d ∉ s.order).length
  mem : ∀ v, v ∈ s.order ++ s.queue ↔ v < ls.length ∧ s.indeg v = 0
  before : ∀ i, ∀ v, s.order[i]? = some v → ∀ d ∈ deps ls v, d ∈ s.order.take i

theorem good_start (ls : List Layer) : Good ls (start ls) := by
  refine ⟨?_, ?_, ?_, ?_⟩
  · simp only [start, List.nil_append]
    exact List.nodup_range.filter _
  · intro v _
    simp [start]
  · intro v
    simp [start]
  · intro i v h
    simp [start] at h

theorem filter_remove (l o : List Nat) (i : Nat) (hi : i ∉ o) :
    (l.filter fun d => d ∉ o).length - l.count i = (l.filter fun d => d ∉ o ++ [i]).length ∧
    l.count i ≤ (l.filter fun d => d ∉ o).length := by
  induction l with
  | nil => simp
  | cons a l ih =>
    by_cases ha : a = i
    · subst ha
      rw [List.filter_cons_of_pos (by simpa using hi), List.count_cons_self,
        List.filter_cons_of_neg (by simp)]
      simp only [List.length_cons]
      omega
    · rw [List.count_cons_of_ne ha]
      by_cases ho : a ∈ o
      · rw [List.filter_cons_of_neg (by simpa using ho), List.filter_cons_of_neg (by simp [ho])]
        exact ih
      · rw [List.filter_cons_of_pos (by simpa using ho), List.filter_cons_of_pos (by simp [ho, ha])]
        simp only [List.length_cons]
        omega

/-- One step keeps it, and cannot panic. -/
theorem good_step {ls : List Layer} {s : State} (g : Good ls s) {i : Nat} {q : List Nat} (hq : s.queue = i :: q) :
    ∃ deg q', inner (adj ls i) s.indeg q = some (deg, q') ∧ Good ls ⟨q', deg, s.order ++ [i]⟩ := by
  obtain ⟨nd, hdeg, hmem, hbef⟩ := g
  rw [hq] at nd hmem
  have hio : i ∉ s.order := by
    intro h
    have := (List.nodup_append.1 nd).2.2 i h i List.mem_cons_self
    exact this rfl
  obtain ⟨hin, hi0⟩ := (hmem i).1 (List.mem_append_right _ List.mem_cons_self)
  have hcount : ∀ v, (adj ls i).count v ≤ s.indeg v := by
    intro v
    by_cases hv : v < ls.length
    · rw [count_adj hv, hdeg v hv]
      exact (filter_remove _ _ _ hio).2
    · rw [List.count_eq_zero_of_not_mem fun h => hv (mem_adj_lt h)]
      omega
  obtain ⟨zs, e, znd, zmem⟩ := inner_spec (adj ls i) s.indeg q hcount
  have hzero : ∀ v ∈ zs, s.indeg v ≠ 0 := by
    intro v hv
    obtain ⟨h1, h2⟩ := (zmem v).1 hv
    have := List.count_pos_iff.2 h1
    omega
  refine ⟨_, _, e, ?_, ?_, ?_, ?_⟩
  · simp only
    have : s.order ++ [i] ++ (q ++ zs) = (s.order ++ i :: q) ++ zs := by simp
    rw [this, List.nodup_append]
    refine ⟨nd, znd, ?_⟩
    rintro a ha b hb rfl
    exact hzero a hb ((hmem a).1 ha).2
  · intro v hv
    simp only
    rw [count_adj hv, hdeg v hv]
    exact (filter_remove _ _ _ hio).1
  · intro v
    have e1 : v ∈ s.order ++ [i] ++ (q ++ zs) ↔ v ∈ s.order ++ i :: q ∨ v ∈ zs := by
      simp only [List.mem_append, List.mem_cons, List.not_mem_nil, or_false]
      tauto
    simp only
    rw [e1, hmem, zmem]
    constructor
    · rintro (⟨h1, h2⟩ | ⟨h1, h2⟩)
      · exact ⟨h1, by omega⟩
      · exact ⟨mem_adj_lt h1, by omega⟩
    · rintro ⟨h1, h2⟩
      have := hcount v
      by_cases h3 : s.indeg v = 0
      · exact Or.inl ⟨h1, h3⟩
      · right
        refine ⟨List.count_pos_iff.1 (by omega), by omega⟩
  · intro j v hj d hd
    simp only at hj ⊢
    by_cases hlt : j < s.order.length
    · rw [List.getElem?_append_left hlt] at hj
      rw [List.take_append_of_le_length (Nat.le_of_lt hlt)]
      exact hbef j v hj d hd
    · rw [List.getElem?_append_right (by omega)] at hj
      have hj0 : j - s.order.length = 0 := by
        by_contra h
        rw [List.getElem?_eq_none (by simp; omega)] at hj
        simp at hj
      rw [hj0] at hj
      simp only [List.getElem?_cons_zero, Option.some.injEq] at hj
      subst hj
      have hjl : j = s.order.length := by omega
      subst hjl
      rw [List.take_left']
      · by_contra hdo
        rw [hdeg i hin] at hi0
        have : d ∈ (deps ls i).filter fun d => d ∉ s.order := List.mem_filter.2 ⟨hd, by simpa using hdo⟩
        rw [List.length_eq_zero_iff.1 hi0] at this
        simp at this
      · rfl

theorem run_good {ls : List Layer} : ∀ (fuel : Nat) (s : State), Good ls s →
    ∃ s', run ls fuel s = some s' ∧ Good ls s' ∧ (s'.queue = [] ∨ s'.order.length = s.order.length + fuel)
  | 0, s, g => ⟨s, rfl, g, Or.inr rfl⟩
  | fuel + 1, s, g => by
    unfold run
    cases hq : s.queue with
    | nil => exact ⟨s, rfl, g, Or.inl hq⟩
    | cons i q =>
      obtain ⟨deg, q', e, g'⟩ := good_step g hq
      obtain ⟨s', h1, h2, h3⟩ := run_good fuel _ g'
      refine ⟨s', ?_, h2, ?_⟩
      · simp only [e]
        exact h1
      · rcases h3 with h3 | h3
        · exact Or.inl h3
        · right
          rw [h3]
          simp only [List.length_append, List.length_singleton]
          omega

/-- The loop ends with an empty queue: the fuel suffices. -/
theorem run_queue (ls : List Layer) :
    ∃ s, run ls (ls.length + 1) (start ls) = some s ∧ Good ls s ∧ s.queue = [] := by
  obtain ⟨s, h1, h2, h3⟩ := run_good (ls.length + 1) (start ls) (good_start ls)
  refine ⟨s, h1, h2, h3.resolve_right ?_⟩
  intro h
  have hlen : (s.order ++ s.queue).length ≤ (List.range ls.length).length :=
    (List.subperm_of_subset h2.nodup fun v hv => List.mem_range.2 ((h2.mem v).1 hv).1).length_le
  simp [start] at h hlen
  omega

end JST.Graph.Topo
