import Verif.Compiler.Combine

/-!
# Removing what is not used

Model of `compiler/expander_compiler/src/circuit/ir/common/opt.rs` for the main circuit of a program
without calls: `remove_unreachable` (lines 29-386) drops the variables from which neither a
constraint nor an output can be reached, inputs included, and numbers the others anew;
`reassign_duplicate_sub_circuit_outputs` (lines 400-448) gives repeated outputs a copy of their own.

The search over the graph of variables, instructions and outputs (lines 74-268) is replaced by one
pass from the last instruction to the first: every instruction has one output and reads variables
before it, so an edge of the graph always goes backwards.
-/

namespace JST.Comp

open JST.Circ JST.Flat

section Generic

variable {I : Type} (vars : I → List Nat) (ren : (Nat → Nat) → I → I)

/-- The variables reached from `roots`; the first instruction computes variable `n`. -/
def liveFrom : Nat → List I → List Nat → List Nat
  | _, [], roots => roots
  | n, i :: r, roots =>
      let L := liveFrom (n + 1) r roots
      if n ∈ L then L ++ vars i else L

/-- How many of the variables `1, …, n-1` are kept. -/
def rank (L : List Nat) (n : Nat) : Nat := ((List.range n).filter fun x => 1 ≤ x ∧ x ∈ L).length

/-- `opt.rs:276-341` `var_map` of a variable which is kept. -/
def newId (L : List Nat) (x : Nat) : Nat := rank L x + 1

/-- `opt.rs:289-341`: the instructions which are kept, renumbered. -/
def keepInsns (L : List Nat) : Nat → List I → List I
  | _, [] => []
  | n, i :: r => if n ∈ L then ren (newId L) i :: keepInsns L (n + 1) r else keepInsns L (n + 1) r

/-- The variables of a circuit which are kept. -/
def liveOf (c : Circuit I Nat) : List Nat :=
  liveFrom vars (c.numInputs + 1) c.insns (c.cons ++ c.outputs)

/-- `opt.rs:269-362`: the circuit without the variables which are not used. -/
def removeUnreachable (c : Circuit I Nat) : Circuit I Nat :=
  let L := liveOf vars c
  { insns := keepInsns ren L (c.numInputs + 1) c.insns
    cons := c.cons.map (newId L)
    outputs := c.outputs.map (newId L)
    numInputs := ((List.range' 1 c.numInputs).filter fun x => x ∈ L).length }

/-- `opt.rs:363-385`: where the inputs of the circuit go; `none` is `EMPTY`. -/
def unreachableMap (c : Circuit I Nat) : List (Option Nat) :=
  let L := liveOf vars c
  (List.range' 1 c.numInputs).map fun x => if x ∈ L then some (rank L x) else none

/-- `input_mapping.rs:35-44` `map_inputs`; the values of a mapping which sends no two inputs to
the same place. -/
def mapInputs {F : Type} [Zero F] (m : List (Option Nat)) (size : Nat) (ins : List F) : List F :=
  (List.range size).map fun p =>
    match (m.zip ins).find? (fun q => q.1 = some p) with
    | some q => q.2
    | none => 0

/-- `opt.rs:431-445`: the outputs which are left, those before them, the next variable; the
instructions to add and the outputs.  `copy x` is the instruction `1·x + 0`. -/
def splitOuts (copy : Nat → I) : List Nat → List Nat → Nat → List I × List Nat
  | _, [], _ => ([], [])
  | seen, o :: r, n =>
      if o ∈ seen then
        let (is, os) := splitOuts copy seen r (n + 1)
        (copy o :: is, n :: os)
      else
        let (is, os) := splitOuts copy (o :: seen) r n
        (is, o :: os)

/-- `opt.rs:400-448` for the main circuit. -/
def reassignOuts (copy : Nat → I) (c : Circuit I Nat) : Circuit I Nat :=
  if c.outputs.Nodup then c
  else
    let (is, os) := splitOuts copy [] c.outputs (c.numInputs + 1 + c.insns.length)
    { insns := c.insns.map (ren id) ++ is, cons := c.cons, outputs := os, numInputs := c.numInputs }

end Generic

variable {F R : Type} [Field F] [DecidableEq F]

/-- `expr.rs:344-378` `replace_vars` of a monomial. -/
def VarSpec.ren (f : Nat → Nat) : VarSpec → VarSpec
  | .const => .const
  | .lin x => .lin (f x)
  | .quad x y => .quad (f x) (f y)

/-- `circuit/ir/dest/mod.rs:98-116` `replace_vars`. -/
def DInsn.ren (f : Nat → Nat) : DInsn F R → DInsn F R
  | .iv e rl => .iv (fromTerms (e.map fun t => ⟨t.coef, t.vars.ren f⟩)) (rl.map fun p => (p.1, f p.2))
  | i => i

/-- `circuit/ir/dest/mod.rs:117-121` `from_kx_plus_b` with `k = 1` and `b = 0`. -/
def DInsn.copy (x : Nat) : DInsn F R := .iv (fromTerms [⟨1, .lin x⟩, ⟨0, .const⟩]) []

/-- One round of the optimizer, `compile/mod.rs:193-200`. -/
def pruneD (c : DCircuit F R) : DCircuit F R :=
  reassignOuts DInsn.ren DInsn.copy (removeUnreachable DInsn.vars DInsn.ren c)

/-- The inputs of a circuit after that round. -/
def pruneIns (c : DCircuit F R) (ins : List F) : List F :=
  mapInputs (unreachableMap DInsn.vars c) (removeUnreachable DInsn.vars DInsn.ren c).numInputs ins

/-- `compile/mod.rs:70-92`: `k` rounds. -/
def prunes : Nat → DCircuit F R → DCircuit F R
  | 0, c => c
  | k + 1, c => prunes k (pruneD c)

def prunesIns : Nat → DCircuit F R → List F → List F
  | 0, _, ins => ins
  | k + 1, c, ins => prunesIns k (pruneD c) (pruneIns c ins)

end JST.Comp
