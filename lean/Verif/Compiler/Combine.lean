import Verif.Compiler.ExprProofs
import Verif.Spec.Flat
import Mathlib.Data.List.Dedup

/-!
# Combining the constraints into one output

Model of `compiler/expander_compiler/src/layering/ir_split.rs` for the main circuit of a program
without calls: the constraints are added up, each with a coin of its own, layer by layer; the sum
becomes the first output.

For such a circuit `compute_output_layers` (lines 47-94) has no effect on the result, and the
renumbering of `expand_sub_circuit_calls_phase1` (lines 96-220) is the identity; it normalizes the
expressions (`replace_vars`), which is kept.  The coins of the constraints get names: the round in
which they are drawn and the constraint.
-/

namespace JST.Comp

open JST.Circ JST.Flat

variable {F R : Type}

/-- `expr.rs:333-343` `get_vars`. -/
def VarSpec.vars : VarSpec → List Nat
  | const => []
  | lin x => [x]
  | quad x y => [x, y]

/-- The variables an instruction reads, `circuit/ir/dest/mod.rs:63-69`. -/
def DInsn.vars : DInsn F R → List Nat
  | .iv e rl => (e.flatMap fun t => t.vars.vars) ++ rl.map Prod.snd
  | _ => []

/-- The layer of the variable an instruction computes (`ir_split.rs:109-143`). -/
def insnLayer (ls : List Nat) (i : DInsn F R) : Nat :=
  match i with
  | .iv _ _ => ((DInsn.vars i).map fun x => ls.getD x 0).foldr max 0 + 1
  | _ => 1

/-- The layers of all variables, from those of the first ones. -/
def layersFrom : List Nat → List (DInsn F R) → List Nat
  | ls, [] => ls
  | ls, i :: r => layersFrom (ls ++ [insnLayer ls i]) r

/-- `ir_split.rs:102-108`: variable 0 and the inputs are in layer 0. -/
def layersOf (c : DCircuit F R) : List Nat := layersFrom (List.replicate (c.numInputs + 1) 0) c.insns

variable [Field F] [DecidableEq F]

/-- `ir_split.rs:126`: the instruction with its terms normalized, and its coin renamed. -/
def liftInsn : DInsn F R → DInsn F (R ⊕ Nat × Nat)
  | .iv e rl => .iv (fromTerms e) (rl.map fun p => (.inl p.1, p.2))
  | .random r => .random (.inl r)
  | .publicInput i => .publicInput i

/-- The terms of one sum: the sum so far, and the constraints with a coin each. -/
structure Terms where
  lin : Option Nat
  rnd : List Nat

/-- `ir_split.rs:286-288` and `expr.rs:312-319`: the instruction for the terms.  Repeated
constraints have become one term; it is dropped when the number of repetitions is zero in the
field. -/
def emitTerms (i : Nat) (t : Terms) : DInsn F (R ⊕ Nat × Nat) :=
  .iv (match t.lin with | none => [] | some x => [⟨1, .lin x⟩])
    (((t.rnd.insertionSort (· ≤ ·)).dedup.filter fun c => (t.rnd.count c : F) ≠ 0).map
      fun c => (.inr (i, c), c))

/-- The state of the loop of `ir_split.rs:253-294`: the instructions added, the next variable,
`add_outputs` (at most one variable, which is also `lst`), `lst_terms`, and the constraints left. -/
structure CombSt (F R : Type) where
  out : List (DInsn F (R ⊕ Nat × Nat))
  next : Nat
  acc : Option Nat
  last : Option Terms
  left : List Nat

/-- `ir_split.rs:253-294`: one round. -/
def combRound (layer : Nat → Nat) (i : Nat) (s : CombSt F R) : CombSt F R :=
  let here := s.left.takeWhile fun c => layer c = i
  let left := s.left.dropWhile fun c => layer c = i
  let t : Terms := ⟨s.acc, here⟩
  if t.lin = none ∧ t.rnd = [] then { s with left := left }
  else
    let t := if t.lin.isSome ∧ t.rnd = [] then s.last.getD t else t
    { out := s.out ++ [emitTerms i t], next := s.next + 1, acc := some s.next, last := some t,
      left := left }

/-- The rounds `i, i+1, …, i+k-1`. -/
def combRounds (layer : Nat → Nat) : Nat → Nat → CombSt F R → CombSt F R
  | _, 0, s => s
  | i, k + 1, s => combRounds layer (i + 1) k (combRound layer i s)

/-- `ir_split.rs:239-302` for the main circuit. -/
def combine (c : DCircuit F R) : DCircuit F (R ⊕ Nat × Nat) :=
  let ls := layersOf c
  let layer := fun x => ls.getD x 0
  let s := combRounds layer 0 (ls.foldr max 0 + 10)
    ⟨[], c.numInputs + 1 + c.insns.length, none, none,
      c.cons.insertionSort fun a b => layer a ≤ layer b⟩
  { insns := c.insns.map liftInsn ++ s.out, cons := [], outputs := s.acc.toList ++ c.outputs,
    numInputs := c.numInputs }

end JST.Comp
