import Verif.Compiler.Combine
import Verif.Spec.Segments

/-!
# From the target language to layers

Model of `compiler/expander_compiler/src/layering/{mod,compile,layer_layout,wire,input}.rs` for the
main circuit of a program without calls, with relays from one layer to the next only
(`NormalInputType`, `circuit/layered/mod.rs:270-277`), and without constraints:
`layering/ir_split.rs` has turned them into an output.

Every variable lives from the layer where it is computed to the last layer which reads it; between
the two it is copied from layer to layer.  Without calls a layout is the list of the variables of the
layer, padded to a power of two.  `none` is a Rust panic.
-/

namespace JST.Comp

open JST.Circ JST.Flat

variable {F R : Type}

/-- Concatenates the results of a function which may panic. -/
def gather {α β : Type} (f : α → Option (List β)) : List α → Option (List β)
  | [] => some []
  | x :: r => do
      let a ← f x
      let b ← gather f r
      some (a ++ b)

/-- `compile.rs:153-174`: one more than the greatest variable. -/
def numVar (c : DCircuit F R) : Nat := c.numInputs + 1 + c.insns.length

/-- The instruction which computes a variable. -/
def insnOf (c : DCircuit F R) (x : Nat) : Option (DInsn F R) :=
  if c.numInputs + 1 ≤ x then c.insns[x - (c.numInputs + 1)]? else none

/-- `compile.rs:293-301`: the layer in which a variable first occurs. -/
def min0 (c : DCircuit F R) (x : Nat) : Nat := (layersOf c).getD x 0

/-- `compile.rs:310-317` and `411-414`; the part of the constraints (`319-391`) does nothing. -/
def outLayer (c : DCircuit F R) : Nat := max 1 ((layersOf c).foldr max 0)

/-- `compile.rs:227-250` `out_edges`: the variables computed from `x`. -/
def users (c : DCircuit F R) (x : Nat) : List Nat :=
  (List.range (numVar c)).filter fun y =>
    match insnOf c y with
    | some i => x ∈ DInsn.vars i
    | none => false

/-- `compile.rs:393-401`. -/
def max0 (c : DCircuit F R) (x : Nat) : Nat :=
  ((users c x).map fun y => min0 c y - 1).foldr max (min0 c x)

/-- `compile.rs:393-401` and `449-452`: outputs live until the last layer. -/
def maxL (c : DCircuit F R) (x : Nat) : Nat := if x ∈ c.outputs then outLayer c else max0 c x

/-- Coins and public inputs, `compile.rs:284-289`. -/
def isConstLike (c : DCircuit F R) (x : Nat) : Bool :=
  match insnOf c x with
  | some (.random _) => true
  | some (.publicInput _) => true
  | _ => false

/-- `compile.rs:454-463`: coins and public inputs start as late as possible. -/
def minL (c : DCircuit F R) (x : Nat) : Nat :=
  if isConstLike c x ∧ maxL c x ≠ outLayer c then
    ((users c x).map fun y => min0 c y - 1).foldr min (min (outLayer c) (maxL c x))
  else min0 c x

/-- `utils/pool.rs:20-29`: `Pool::add` for every element. -/
def pooled (l : List Nat) : List Nat := l.foldl (fun p x => if x ∈ p then p else p ++ [x]) []

/-- `layer_layout.rs:93-112`: the variables of a layer. -/
def poolAt (c : DCircuit F R) (l : Nat) : List Nat :=
  pooled ((if l = outLayer c then c.outputs else []) ++
    (List.range' 1 (numVar c - 1)).filter fun x => minL c x ≤ l ∧ l ≤ maxL c x)

/-- `utils/misc.rs:14-20`, after at most `f` doublings of `p`. -/
def nextPow (x : Nat) : Nat → Nat → Nat
  | 0, p => p
  | f + 1, p => if p < x then nextPow x f (2 * p) else p

/-- `utils/misc.rs:14-20` `next_power_of_two`. -/
def nextPowerOfTwo (x : Nat) : Nat := nextPow x x 1

/-- `wire.rs:104-130` `layout_query` and a look-up in it. -/
def posIn (pool : List Nat) (x : Nat) : Option Nat := if x ∈ pool then some (pool.idxOf x) else none

/-- `wire.rs:299-325`: the gate of a term. -/
def termGate (a : List Nat) (pos : Nat) (t : Term F) : Option (List (Gate F R)) :=
  match t.vars with
  | .const => some [⟨[], pos, .const t.coef⟩]
  | .lin x => do
      let p ← posIn a x
      some [⟨[p], pos, .const t.coef⟩]
  | .quad x y => do
      let p ← posIn a x
      let q ← posIn a y
      some [⟨if p < q then [p, q] else [q, p], pos, .const t.coef⟩]

/-- `wire.rs:338-345`: the gate of a `RandomLinear` term. -/
def rndGate (a : List Nat) (pos : Nat) (t : R × Nat) : Option (List (Gate F R)) := do
  let p ← posIn a t.2
  some [⟨[p], pos, .rnd t.1⟩]

/-- `wire.rs:291-348`: the gates which compute a variable. -/
def insnGates (a : List Nat) (pos : Nat) : DInsn F R → Option (List (Gate F R))
  | .iv e rl => do
      let g ← gather (termGate a pos) e
      let h ← gather (rndGate a pos) rl
      some (g ++ h)
  | .random r => some [⟨[], pos, .rnd r⟩]
  | .publicInput i => some [⟨[], pos, .pub i⟩]

/-- `wire.rs:285-290` and `380-385`: where the variable is in the next layer; in the last layer it may
be missing. -/
def target (b : List Nat) (last : Bool) (x : Nat) (f : Nat → Option (List (Gate F R))) :
    Option (List (Gate F R)) :=
  match posIn b x with
  | some pos => f pos
  | none => if last then some [] else none

variable [One F]

/-- `wire.rs:277-350`: the gates of variable `x` in the layer where it first occurs. -/
def firstGates (c : DCircuit F R) (a b : List Nat) (l x : Nat) : Option (List (Gate F R)) :=
  if minL c x = l + 1 then
    target b (l + 1 = outLayer c) x fun pos =>
      match insnOf c x with
      | some i => insnGates a pos i
      | none => some []
  else some []

/-- `wire.rs:374-392`: the copy of variable `x` in the next layer. -/
def relayGates (c : DCircuit F R) (a b : List Nat) (l x : Nat) : Option (List (Gate F R)) :=
  if minL c x ≤ l ∧ l < maxL c x then
    target b (l + 1 = outLayer c) x fun pos => do
      let p ← posIn a x
      some [⟨[p], pos, .const 1⟩]
  else some []

/-- `wire.rs:275-394`: the gates of variable `x` between layers `l` and `l + 1`. -/
def varGates (c : DCircuit F R) (a b : List Nat) (l x : Nat) : Option (List (Gate F R)) := do
  let first ← firstGates c a b l x
  let relay ← relayGates c a b l x
  some (first ++ relay)

/-- `wire.rs:207-218` and `275-394`: the segment from layer `l` to layer `l + 1`. -/
def segAt (c : DCircuit F R) (l : Nat) : Option (Seg F R) := do
  let a := poolAt c l
  let b := poolAt c (l + 1)
  let g ← gather (varGates c a b l) (List.range' 1 (numVar c - 1))
  some { numIn := nextPowerOfTwo a.length
         numOut := nextPowerOfTwo b.length
         muls := g.filter fun g => g.ins.length = 2
         adds := g.filter fun g => g.ins.length = 1
         csts := g.filter fun g => g.ins.length = 0 }

/-- `mod.rs:29-66` `compile`. -/
def layerize (c : DCircuit F R) : Option (List (Seg F R)) :=
  gather (fun l => (segAt c l).map fun s => [s]) (List.range (outLayer c))

/-- `input.rs:8-33`: the input layer; input `i` is on wire `i`. -/
def inputWires [Zero F] (ins : List F) (p : Nat) : F := ins.getD p 0

end JST.Comp
