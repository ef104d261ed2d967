import Verif.Spec.Flat

/-!
# What a layered circuit means

Specification of the language the compiler hands to the prover: every layer computes its wires from
the wires of the layer before it, a wire being the sum of the gates which end in it.
-/

namespace JST.Flat

/-- `circuit/layered/mod.rs:19-23` `Coef`; a random coefficient has the name of its coin. -/
inductive Coef (F R : Type) where
  | const (c : F)
  | rnd (r : R)
  | pub (i : Nat)
  deriving DecidableEq, Repr

/-- `circuit/layered/mod.rs:280-284` `Gate`: a multiplication has two inputs, an addition one, a
constant none. -/
structure Gate (F R : Type) where
  ins : List Nat
  o : Nat
  coef : Coef F R
  deriving DecidableEq, Repr

/-- `circuit/layered/mod.rs:359-367` `Segment`, without calls and custom gates. -/
structure Seg (F R : Type) where
  numIn : Nat
  numOut : Nat
  muls : List (Gate F R)
  adds : List (Gate F R)
  csts : List (Gate F R)
  deriving DecidableEq, Repr

variable {F R : Type} [Field F]

def Coef.val (E : Env F R) : Coef F R → F
  | .const c => c
  | .rnd r => E.rnd r
  | .pub i => E.pub i

/-- What a gate adds to its output wire. -/
def Gate.val (E : Env F R) (w : Nat → F) (g : Gate F R) : F := g.coef.val E * (g.ins.map w).prod

/-- What the gates of a list add to wire `p`. -/
def gateSum (E : Env F R) (w : Nat → F) (gs : List (Gate F R)) (p : Nat) : F :=
  ((gs.filter fun g => g.o = p).map (Gate.val E w)).sum

/-- The wires of a layer from the wires before it. -/
def Seg.eval (E : Env F R) (s : Seg F R) (w : Nat → F) (p : Nat) : F :=
  gateSum E w s.muls p + gateSum E w s.adds p + gateSum E w s.csts p

/-- All layers. -/
def evalSegs (E : Env F R) : List (Seg F R) → (Nat → F) → Nat → F
  | [], w => w
  | s :: r, w => evalSegs E r (s.eval E w)

/-- The coins of a layer, one for every place. -/
def Coef.coins : Coef F R → List R
  | .rnd r => [r]
  | _ => []

def Seg.coins (s : Seg F R) : List R := (s.muls ++ s.adds ++ s.csts).flatMap fun g => g.coef.coins

/-- Gates read and write wires of the layer, and have the number of inputs of their kind
(`circuit/layered/mod.rs:379-470` `validate`). -/
structure Seg.WF (s : Seg F R) : Prop where
  mulLen : ∀ g ∈ s.muls, g.ins.length = 2
  addLen : ∀ g ∈ s.adds, g.ins.length = 1
  cstLen : ∀ g ∈ s.csts, g.ins.length = 0
  read : ∀ g ∈ s.muls ++ s.adds ++ s.csts, ∀ i ∈ g.ins, i < s.numIn
  write : ∀ g ∈ s.muls ++ s.adds ++ s.csts, g.o < s.numOut
  sizeIn : ∃ k, s.numIn = 2 ^ k
  sizeOut : ∃ k, s.numOut = 2 ^ k

/-- The layers fit together, the first one reading `n` wires. -/
def Fit : Nat → List (Seg F R) → Prop
  | _, [] => True
  | n, s :: r => s.numIn = n ∧ s.WF ∧ Fit s.numOut r

end JST.Flat
