import Verif.Compiler.Expr
import Verif.Spec.Circuit

/-!
# What a circuit without hints and calls means

Specification of the two circuit languages on either side of the compiler's second pass.  In both an
instruction computes one new variable from the variables before it, so the inputs of the circuit,
the public inputs and the random coins determine all values.

Random coins carry a name, `R` being the type of names; the coins with different names are drawn
independently.  The compiler has no such names: every occurrence of `Coef::Random` is one coin.  The
names are there to follow a coin through the passes.
-/

namespace JST.Flat

open JST.Circ JST.Comp

/-- The public inputs, and the value of every coin. -/
structure Env (F R : Type) where
  pub : Nat → F
  rnd : R → F

/-- Instructions of circuits without hints
(`compiler/expander_compiler/src/circuit/ir/hint_less/mod.rs:17-30`), without calls and custom
gates; the last three are the cases of `ConstantLike`. -/
inductive HInsn (F R : Type) where
  | linComb (lc : LinComb F)
  | mul (xs : List Nat)
  | constant (c : F)
  | random (r : R)
  | publicInput (i : Nat)
  deriving DecidableEq, Repr

/-- Instructions of the compiler's target language
(`compiler/expander_compiler/src/circuit/ir/dest/mod.rs:21-33`), without calls.  An internal variable
is an expression of degree at most two; `rl` are its `RandomLinear` terms, each the product of a
coin and a variable. -/
inductive DInsn (F R : Type) where
  | iv (e : Expr F) (rl : List (R × Nat))
  | random (r : R)
  | publicInput (i : Nat)
  deriving DecidableEq, Repr

abbrev HCircuit (F R : Type) := Circuit (HInsn F R) Nat
abbrev DCircuit (F R : Type) := Circuit (DInsn F R) Nat

variable {F R : Type} [Field F]

/-- The value an instruction computes from the values `a` of the variables. -/
def HInsn.val (E : Env F R) (a : Nat → F) : HInsn F R → F
  | .linComb lc => lc.eval a
  | .mul xs => (xs.map a).prod
  | .constant c => c
  | .random r => E.rnd r
  | .publicInput i => E.pub i

def DInsn.val [DecidableEq F] (E : Env F R) (a : Nat → F) : DInsn F R → F
  | .iv e rl => Expr.eval a e + (rl.map fun p => E.rnd p.1 * a p.2).sum
  | .random r => E.rnd r
  | .publicInput i => E.pub i

/-- The values of the variables: position 0 is not used. -/
def look (vs : List F) (x : Nat) : F := vs.getD x 0

/-- Running instructions one after the other; every one appends the value of its variable. -/
def run {I : Type} (val : (Nat → F) → I → F) : List I → List F → List F
  | [], vs => vs
  | i :: r, vs => run val r (vs ++ [val (look vs) i])

/-- All values of a circuit on the given inputs. -/
def HCircuit.values (E : Env F R) (c : HCircuit F R) (ins : List F) : List F :=
  run (HInsn.val E) c.insns (0 :: ins)

def DCircuit.values [DecidableEq F] (E : Env F R) (c : DCircuit F R) (ins : List F) : List F :=
  run (DInsn.val E) c.insns (0 :: ins)

/-- The constraints hold: the variables they name are zero. -/
def HCircuit.Accepts (E : Env F R) (c : HCircuit F R) (ins : List F) : Prop :=
  ∀ v ∈ c.cons, look (HCircuit.values E c ins) v = 0

def DCircuit.Accepts [DecidableEq F] (E : Env F R) (c : DCircuit F R) (ins : List F) : Prop :=
  ∀ v ∈ c.cons, look (DCircuit.values E c ins) v = 0

def HCircuit.outs (E : Env F R) (c : HCircuit F R) (ins : List F) : List F :=
  c.outputs.map (look (HCircuit.values E c ins))

def DCircuit.outs [DecidableEq F] (E : Env F R) (c : DCircuit F R) (ins : List F) : List F :=
  c.outputs.map (look (DCircuit.values E c ins))

/-- The variables an instruction reads. -/
def HInsn.inputs : HInsn F R → List Nat
  | .linComb lc => lc.terms.map Prod.fst
  | .mul xs => xs
  | _ => []

/-- `circuit/ir/common/mod.rs:112-121` and `hint_less/mod.rs:112-126`: instructions read
variables which exist, and a product has at least two factors. -/
def HInsn.ValidAll : Nat → List (HInsn F R) → Prop
  | _, [] => True
  | n, i :: r => (∀ x ∈ i.inputs, 1 ≤ x ∧ x < n) ∧
      (∀ xs, i = .mul xs → 2 ≤ xs.length) ∧ HInsn.ValidAll (n + 1) r

structure HCircuit.Valid (c : HCircuit F R) : Prop where
  insns : HInsn.ValidAll (c.numInputs + 1) c.insns
  cons : ∀ v ∈ c.cons, 1 ≤ v ∧ v < c.numInputs + 1 + c.insns.length
  outputs : ∀ o ∈ c.outputs, 1 ≤ o ∧ o < c.numInputs + 1 + c.insns.length

/-- The instructions of the target language read variables which exist before them. -/
def DInsn.ValidAll : Nat → List (DInsn F R) → Prop
  | _, [] => True
  | n, i :: r => (∀ e rl, i = .iv e rl → (∀ t ∈ e, t.vars.Below n) ∧
      ∀ p ∈ rl, 1 ≤ p.2 ∧ p.2 < n) ∧ DInsn.ValidAll (n + 1) r

structure DCircuit.Valid (c : DCircuit F R) : Prop where
  insns : DInsn.ValidAll (c.numInputs + 1) c.insns
  cons : ∀ v ∈ c.cons, 1 ≤ v ∧ v < c.numInputs + 1 + c.insns.length
  outputs : ∀ o ∈ c.outputs, 1 ≤ o ∧ o < c.numInputs + 1 + c.insns.length

/-- The coins of a circuit, one for every place where it draws one. -/
def HInsn.coins : HInsn F R → List R
  | .random r => [r]
  | _ => []

def DInsn.coins : DInsn F R → List R
  | .iv _ rl => rl.map Prod.fst
  | .random r => [r]
  | .publicInput _ => []

def HCircuit.coins (c : HCircuit F R) : List R := c.insns.flatMap HInsn.coins

def DCircuit.coins (c : DCircuit F R) : List R := c.insns.flatMap DInsn.coins

end JST.Flat
