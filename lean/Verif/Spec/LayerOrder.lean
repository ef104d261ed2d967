import Verif.Graph.Topo

/-!
# What an order of the layers is for

Specification only: a model is a system of equations, one for each output of each layer.
-/

namespace JST.Spec.LayerOrder
open JST.Graph.Topo

/-- Layer `i` reads a name that layer `d` writes. -/
def Uses (ls : List Layer) (i d : Nat) : Prop :=
  ∃ li ld name, ls[i]? = some li ∧ ls[d]? = some ld ∧ name ∈ li.inputs ∧ name ∈ ld.outputs

/-- No name is written twice. -/
def SingleWriter (ls : List Layer) : Prop :=
  ∀ (i j : Nat) (li lj : Layer) (name : String), ls[i]? = some li → ls[j]? = some lj → name ∈ li.outputs → name ∈ lj.outputs → i = j

/-- No layer reads what it writes. -/
def NoSelf (ls : List Layer) : Prop := ∀ i, ¬ Uses ls i i

/-- An order of all layers in which whatever a layer reads of another layer has been written before. -/
def Valid (ls : List Layer) (o : List Nat) : Prop :=
  o.Perm (List.range ls.length) ∧ ∀ k i, o[k]? = some i → ∀ d, Uses ls i d → d ≠ i → d ∈ o.take k

variable {V : Type}

/-- The equations of a model: `f i args k` is what layer `i` computes for its output `k` from the values of its
inputs, `init` gives the names no layer writes. -/
def Solves (ls : List Layer) (f : Nat → List V → Nat → V) (init env : String → V) : Prop :=
  (∀ i l, ls[i]? = some l → ∀ name ∈ l.outputs, env name = f i (l.inputs.map env) (l.outputs.idxOf name)) ∧
  ∀ name, (∀ l ∈ ls, name ∉ l.outputs) → env name = init name

/-- Evaluating one layer. -/
def stepLayer (ls : List Layer) (f : Nat → List V → Nat → V) (env : String → V) (i : Nat) : String → V :=
  match ls[i]? with
  | none => env
  | some l => fun name => if name ∈ l.outputs then f i (l.inputs.map env) (l.outputs.idxOf name) else env name

/-- Evaluating the layers in an order. -/
def evalLayers (ls : List Layer) (f : Nat → List V → Nat → V) (init : String → V) (o : List Nat) : String → V :=
  o.foldl (stepLayer ls f) init

end JST.Spec.LayerOrder
