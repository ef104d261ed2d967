import Mathlib.Data.List.Nodup
import Mathlib.Data.List.Dedup
import Verif.Graph.Fusion

/-!
# What the pattern matcher finds
-/

namespace JST.Props

open JST.Spec JST.Graph

/-- The two modes of the search find the same: "all branches must match" does not restrict anything, since only branches
of the right operator are considered. -/
theorem dfsAll_eq (layers : List Node) : ∀ (rest : List String) (cur : Node) (path : List Node),
    dfsAll layers cur rest path = dfsAny layers cur rest path
  | [], cur, path => rfl
  | op :: rest, cur, path => by
    rw [dfsAll, dfsAny]
    split_ifs with h
    · rw [h]; rfl
    · have e : ((nextLayers layers cur op).map fun l => dfsAll layers l rest (path ++ [l])) =
          (nextLayers layers cur op).map fun l => dfsAny layers l rest (path ++ [l]) :=
        List.map_congr_left fun l _ => dfsAll_eq layers rest l _
      dsimp only
      rw [e]
      have hall : ∀ q : List (List (List Node)), (q.filter (· ≠ [])).all (· ≠ []) = true := fun q => by
        rw [List.all_eq_true]
        intro a ha
        exact (List.mem_filter.1 ha).2
      have hfl : ∀ q : List (List (List Node)), (q.filter (· ≠ [])).flatten = q.flatten := by
        intro q
        induction q with
        | nil => rfl
        | cons a t ih =>
          by_cases ha : a = []
          · subst ha; simpa using ih
          · rw [List.filter_cons_of_pos (by simpa using ha)]
            simp only [List.flatten_cons, ih]
      by_cases hne : ((nextLayers layers cur op).map fun l => dfsAny layers l rest (path ++ [l])).filter (· ≠ []) = []
      · rw [if_neg (fun hc => hc.1 hne)]
        have := hfl ((nextLayers layers cur op).map fun l => dfsAny layers l rest (path ++ [l]))
        rw [hne] at this
        rw [List.flatMap_def, ← this]
        rfl
      · rw [if_pos ⟨hne, hall _⟩, hfl, List.flatMap_def]

/-- The operators that can be fused with a `Relu` after them. -/
def Fusable (op : String) (pat : Pattern) : Prop := pat.ops = [op, "Relu"]

/-- `r` is a `Relu` that uses an output of `nd`. -/
def UsesRelu (nd r : Node) : Prop := r.op = "Relu" ∧ ∃ i ∈ r.inputs, i ∈ nd.outputs

instance (nd r : Node) : Decidable (UsesRelu nd r) := by unfold UsesRelu; infer_instance

/-- The `Relu` nodes that use an output of `nd`, in the order of the graph. -/
def relusOf (layers : List Node) (nd : Node) : List Node := layers.filter fun r => UsesRelu nd r

theorem next_relu (layers : List Node) (nd : Node) : nextLayers layers nd "Relu" = relusOf layers nd := by
  unfold nextLayers relusOf
  refine List.filter_congr fun r _ => ?_
  simp only [UsesRelu, List.any_eq_true, decide_eq_true_eq]

theorem findMatches_two (layers : List Node) (op : String) :
    findMatches layers [op, "Relu"] =
      (layers.filter (·.op = op)).flatMap fun l => (relusOf layers l).map fun r => [l, r] := by
  rw [findMatches]
  refine List.flatMap_congr fun l _ => ?_
  rw [dfsAll_eq, dfsAny, next_relu]
  simp only [dfsAny, List.singleton_append]
  generalize relusOf layers l = q
  induction q with
  | nil => rfl
  | cons a t ih => rw [List.flatMap_cons, ih]; rfl

/-- The pattern that starts with an operator. -/
def patternFor (op : String) : Option Pattern :=
  if op = "Conv" then some .convRelu else if op = "Gemm" then some .gemmRelu
  else if op = "BatchNormalization" then some .batchnormRelu else if op = "Mul" then some .mulRelu else none

theorem filter_name {layers : List Node} (hn : (layers.map (·.name)).Nodup) {nd : Node} (hnd : nd ∈ layers) :
    layers.filter (·.name = nd.name) = [nd] := by
  induction layers with
  | nil => cases hnd
  | cons a t ih =>
    rw [List.map_cons, List.nodup_cons] at hn
    rcases List.mem_cons.1 hnd with rfl | h
    · rw [List.filter_cons_of_pos (by simp)]
      congr 1
      rw [List.filter_eq_nil_iff]
      intro b hb hc
      exact hn.1 (List.mem_map.2 ⟨b, hb, by simpa using hc⟩)
    · have : a.name ≠ nd.name := fun hc => hn.1 (List.mem_map.2 ⟨nd, h, hc.symm⟩)
      rw [List.filter_cons_of_neg (by simpa using this)]
      exact ih hn.2 h

theorem filter_matches {layers : List Node} (hn : (layers.map (·.name)).Nodup) {nd : Node} (hnd : nd ∈ layers)
    (op : String) : (findMatches layers [op, "Relu"]).filter (fun m => m.head?.any (·.name = nd.name)) =
      if nd.op = op then (relusOf layers nd).map fun r => [nd, r] else [] := by
  rw [findMatches_two]
  have key : ∀ q : List Node, (q.flatMap fun l => (relusOf layers l).map fun r => [l, r]).filter
      (fun m => m.head?.any (·.name = nd.name)) =
      (q.filter (·.name = nd.name)).flatMap fun l => (relusOf layers l).map fun r => [l, r] := by
    intro q
    induction q with
    | nil => rfl
    | cons a t ih =>
      rw [List.flatMap_cons, List.filter_append, ih]
      by_cases ha : a.name = nd.name
      · rw [List.filter_cons_of_pos (by simpa using ha), List.flatMap_cons]
        congr 1
        rw [List.filter_eq_self]
        intro m hm
        obtain ⟨r, -, rfl⟩ := List.mem_map.1 hm
        simpa using ha
      · rw [List.filter_cons_of_neg (by simpa using ha)]
        have : (((relusOf layers a).map fun r => [a, r]).filter fun m => m.head?.any (·.name = nd.name)) = [] := by
          rw [List.filter_eq_nil_iff]
          intro m hm
          obtain ⟨r, -, rfl⟩ := List.mem_map.1 hm
          simpa using ha
        rw [this, List.nil_append]
  rw [key, List.filter_filter]
  have e : (layers.filter fun a => decide (a.name = nd.name) && decide (a.op = op)) =
      (layers.filter (·.name = nd.name)).filter (·.op = op) := by
    rw [List.filter_filter]
    exact List.filter_congr fun a _ => Bool.and_comm _ _
  rw [e, filter_name hn hnd]
  by_cases h : nd.op = op
  · rw [if_pos h, List.filter_cons_of_pos (by simpa using h)]
    simp
  · rw [if_neg h, List.filter_cons_of_neg (by simpa using h)]
    rfl

theorem found_node {layers : List Node} (hn : (layers.map (·.name)).Nodup) {nd : Node} (hnd : nd ∈ layers) :
    found layers nd.name =
      match patternFor nd.op with
      | some pat => (relusOf layers nd).map fun r => (pat, [nd, r])
      | none => [] := by
  have h0 : (findMatches layers (Pattern.none).ops).filter (fun m => m.head?.any (·.name = nd.name)) = [] := rfl
  have h1 := filter_matches hn hnd "Conv"
  have h2 := filter_matches hn hnd "Gemm"
  have h3 := filter_matches hn hnd "BatchNormalization"
  have h4 := filter_matches hn hnd "Mul"
  unfold found Pattern.all patternFor
  simp only [List.flatMap_cons, List.flatMap_nil, List.append_nil]
  rw [h0]
  simp only [Pattern.ops]
  rw [h1, h2, h3, h4]
  simp only [List.map_nil, List.nil_append]
  by_cases c1 : nd.op = "Conv"
  · simp [c1, Function.comp_def]
  by_cases c2 : nd.op = "Gemm"
  · simp [c2, Function.comp_def]
  by_cases c3 : nd.op = "BatchNormalization"
  · simp [c3, Function.comp_def]
  by_cases c4 : nd.op = "Mul"
  · simp [c4, Function.comp_def]
  simp [c1, c2, c3, c4]

/-- The matches of a node: its `Relu` consumers. -/
theorem matchesOf_node {layers : List Node} (hn : (layers.map (·.name)).Nodup) {nd : Node} (hnd : nd ∈ layers) :
    matchesOf layers nd.name =
      match patternFor nd.op with
      | some pat => if relusOf layers nd = [] then none else some ((relusOf layers nd).map fun r => (pat, [nd, r]))
      | none => none := by
  unfold matchesOf
  simp only [found_node hn hnd]
  rcases patternFor nd.op with _ | pat
  · rfl
  · rcases hr : relusOf layers nd with _ | ⟨r, t⟩
    · rfl
    · rfl

theorem skipLoop_relus (pat : Pattern) (nd : Node) : ∀ rs : List Node,
    skipLoop pat nd.outputs (rs.map fun r => (pat, [nd, r])) =
      some (rs.flatMap (·.outputs), rs.flatMap fun r => [nd.name, r.name])
  | [] => rfl
  | r :: t => by
    rw [List.map_cons, skipLoop, if_neg (by simp), skipLoop_relus pat nd t]
    simp

/-- What `build_layers` does with a node: with `Relu` consumers, a fusable node takes over their outputs. -/
theorem skipLayers_node {layers : List Node} (hn : (layers.map (·.name)).Nodup) {nd : Node} (hnd : nd ∈ layers)
    (ord : List String → List String) :
    skipLayers ord (matchesOf layers nd.name) nd.outputs =
      match patternFor nd.op with
      | some pat => if relusOf layers nd = [] then none else
          some (pat, ord ((relusOf layers nd).flatMap (·.outputs)),
            (relusOf layers nd).flatMap fun r => [nd.name, r.name])
      | none => none := by
  rw [matchesOf_node hn hnd]
  rcases patternFor nd.op with _ | pat
  · rfl
  · dsimp only
    rcases hr : relusOf layers nd with _ | ⟨r, t⟩
    · rfl
    · rw [if_neg (by simp), if_neg (by simp)]
      have := skipLoop_relus pat nd (r :: t)
      rw [List.map_cons] at this ⊢
      simp only [skipLayers, this, Option.map_some]

end JST.Props
