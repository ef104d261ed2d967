import Verif.Spec.Tensor
import Verif.Spec.MatMul

/-!
# Specification of a model: what it means to run a graph of operators on integer tensors

Nothing here models code.
-/

namespace JST.Spec

/-- A node of an ONNX graph. Its attributes are left to the meaning of the node. -/
structure Node where
  name : String
  op : String
  inputs : List String
  outputs : List String
deriving DecidableEq, Repr

/-- Named tensors. -/
abbrev Vals (β : Type) := String → Option (Arr β)

/-- The meaning of the nodes: `sem nd xs ys` says that `ys` are correct outputs of node `nd` on the inputs `xs` (an
optional input may be missing). An exact operator has one correct output; an approximated one may have several. -/
abbrev Meaning := Node → List (Option (Arr Int)) → List (Arr Int) → Prop

/-- `ν` assigns tensors to names such that the outputs of every node are correct for its inputs. -/
def IsModelRun (sem : Meaning) (nodes : List Node) (ν : Vals Int) : Prop :=
  ∀ nd ∈ nodes, ∃ ys, nd.outputs.map ν = ys.map some ∧ sem nd (nd.inputs.map ν) ys

/-- `ν` has the tensors of `given`. -/
def Extends (given ν : Vals Int) : Prop := ∀ n u, given n = some u → ν n = some u

/-- The rules of ONNX: every name has one producer, a node only uses what was produced before it. Also: the names of the
nodes differ. -/
structure WellFormed (given : Vals Int) (nodes : List Node) : Prop where
  names : (nodes.map (·.name)).Nodup
  ssa : (nodes.flatMap (·.outputs)).Nodup
  fresh : ∀ nd ∈ nodes, ∀ o ∈ nd.outputs, given o = none
  order : nodes.Pairwise fun a b => ∀ i ∈ a.inputs, i ∉ b.outputs
  loop : ∀ nd ∈ nodes, ∀ i ∈ nd.inputs, i ∉ nd.outputs

/-- The entries of the tensors `outs` of `ν`, one tensor after the other, are `flat`. -/
def IsFlat {β : Type} (ν : Vals Int) (outs : List String) (g : Int → β) (flat : List β) : Prop :=
  ∃ ys : List (Arr Int), outs.map ν = ys.map some ∧ flat = (ys.flatMap (·.data)).map g

/-- Entrywise maximum with zero. -/
def reluArr (a : Arr Int) : Arr Int := ⟨a.shape, a.data.map (max 0)⟩

end JST.Spec
