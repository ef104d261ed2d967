import Verif.Spec.Graph

/-!
# Operator fusion: `PatternMatcher` and `build_layers`

/repo/rust/jstprove_circuits/src/circuit_functions/utils/graph_pattern_matching.rs and build_layers.rs. A `HashMap` is a
function to `Option`; the iteration order of a `HashSet` is a parameter.
-/

namespace JST.Graph

open JST.Spec

/-- `PatternRegistry`, graph_pattern_matching.rs:202-209. -/
inductive Pattern where
  | none | convRelu | gemmRelu | batchnormRelu | mulRelu
deriving DecidableEq, Repr

/-- `PatternRegistry::iter()`: the order of declaration, graph_pattern_matching.rs:202-209. -/
def Pattern.all : List Pattern := [.none, .convRelu, .gemmRelu, .batchnormRelu, .mulRelu]

/-- `as_graph_pattern().ops`, graph_pattern_matching.rs:213-237. The names of the patterns differ, so comparing patterns
by name (line 52) is comparing them. -/
def Pattern.ops : Pattern → List String
  | .none => []
  | .convRelu => ["Conv", "Relu"]
  | .gemmRelu => ["Gemm", "Relu"]
  | .batchnormRelu => ["BatchNormalization", "Relu"]
  | .mulRelu => ["Mul", "Relu"]

/-- `matching_next_layers`, graph_pattern_matching.rs:140-148. -/
def nextLayers (layers : List Node) (cur : Node) (op : String) : List Node :=
  layers.filter fun l => l.op = op ∧ l.inputs.any fun i => i ∈ cur.outputs

/-- `dfs` in mode `Any`, graph_pattern_matching.rs:114-169. `rest` is `ops[depth..]`, so `depth > ops.len()` cannot
occur; the matches are returned instead of pushed. -/
def dfsAny (layers : List Node) (cur : Node) : List String → List Node → List (List Node)
  | [], path => [path]
  | op :: rest, path => (nextLayers layers cur op).flatMap fun l => dfsAny layers l rest (path ++ [l])

/-- `dfs` in mode `All`, graph_pattern_matching.rs:114-201. -/
def dfsAll (layers : List Node) (cur : Node) : List String → List Node → List (List Node)
  | [], path => [path]
  | op :: rest, path =>
    if nextLayers layers cur op = [] then []
    else
      let paths := ((nextLayers layers cur op).map fun l => dfsAll layers l rest (path ++ [l])).filter (· ≠ [])
      if paths ≠ [] ∧ paths.all (· ≠ []) then paths.flatten else []

/-- `find_pattern_matches(.., BranchMatchMode::All)` for a pattern with operations, graph_pattern_matching.rs:86-103. -/
def findMatches (layers : List Node) : List String → List (List Node)
  | [] => []
  | op :: rest => (layers.filter (·.op = op)).flatMap fun l => dfsAll layers l rest [l]

/-- `PatternMatcher::run`, the matches whose first layer has the given name, graph_pattern_matching.rs:288-315. A pattern
without operations is skipped; `find_pattern_matches` and `m.first()` do not fail on the others. -/
def found (layers : List Node) (name : String) : List (Pattern × List Node) :=
  Pattern.all.flatMap fun pat =>
    ((findMatches layers pat.ops).filter fun m => m.head?.any (·.name = name)).map fun m => (pat, m)

/-- The look-up of a name in the result of `PatternMatcher::run`, build_layers.rs:121. -/
def matchesOf (layers : List Node) (name : String) : Option (List (Pattern × List Node)) :=
  if found layers name = [] then Option.none else some (found layers name)

/-- The loop of `optimization_skip_layers`, graph_pattern_matching.rs:46-70: the outputs of the last layers and the names
of all layers of the matches. -/
def skipLoop (pat : Pattern) (outputs : List String) :
    List (Pattern × List Node) → Option (List String × List String)
  | [] => some ([], [])
  | (q, m) :: t =>
    if pat ≠ q then Option.none
    else
      match m.getLast?, m.head? with
      | some fin, some fst =>
        if fst.outputs.all (· ∈ outputs) then
          (skipLoop pat outputs t).map fun r => (fin.outputs ++ r.1, m.map (·.name) ++ r.2)
        else Option.none
      | _, _ => Option.none

/-- `optimization_skip_layers(..).unwrap_or(None)`, graph_pattern_matching.rs:35-78, build_layers.rs:123: errors count as
no match. `ord` removes duplicates, in the order of a `HashSet`. -/
def skipLayers (ord : List String → List String) (found : Option (List (Pattern × List Node)))
    (outputs : List String) : Option (Pattern × List String × List String) :=
  match found with
  | some ((pat, m) :: t) => (skipLoop pat outputs ((pat, m) :: t)).map fun r => (pat, ord r.1, r.2)
  | _ => Option.none

/-- The layers that `build_layers` builds, build_layers.rs:110-160: the node with its outputs replaced, the pattern and
the index in the architecture. `skip` are the keys of `skip_next_layer`. -/
def plan (ord : List String → List String) (layers : List Node) :
    List Node → Nat → List String → List (Node × Pattern × Nat)
  | [], _, _ => []
  | nd :: t, i, skip =>
    if nd.name ∈ skip then plan ord layers t (i + 1) skip
    else
      match skipLayers ord (matchesOf layers nd.name) nd.outputs with
      | some (pat, outs, names) => ({ nd with outputs := outs }, pat, i) :: plan ord layers t (i + 1) (skip ++ names)
      | Option.none => (nd, .none, i) :: plan ord layers t (i + 1) skip

end JST.Graph
