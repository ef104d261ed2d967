import Mathlib.Algebra.Field.Basic
import Mathlib.Algebra.BigOperators.Group.List.Basic

/-!
# What a circuit means

Specification of the two circuit languages on either side of the compiler's first pass: the source
language, which the front-end records, and the hint-normalized language, whose only instructions
are linear combinations, products, constants, calls and hints.

A circuit is read as a relation between the values of its inputs and the values of its outputs: it
holds when the variables can be given values such that every instruction and every constraint is
respected.  A hint, an unconstrained operation and a random coin respect every value: nothing ties
a prover to the value an honest run computes for them.
-/

namespace JST.Circ

variable {F : Type*} [Field F]

/-- Boolean operations of the source language
(`compiler/expander_compiler/src/circuit/ir/source/mod.rs:69-74`). -/
inductive BoolOp where
  | xor | or | and
  deriving DecidableEq, Repr

/-- Unconstrained operations of the source language (`source/mod.rs:76-95`). -/
inductive UOp where
  | div | pow | intDiv | mod | shiftL | shiftR | lesserEq | greaterEq | lesser | greater
  | eq | notEq | boolOr | boolAnd | bitOr | bitAnd | bitXor
  deriving DecidableEq, Repr

/-- Linear combinations (`circuit/ir/expr.rs:435-445`): pairs of a variable and its coefficient,
and the constant. -/
structure LinComb (F : Type*) where
  terms : List (Nat × F)
  constant : F
  deriving DecidableEq, Repr

/-- `circuit/ir/expr.rs:486-492` `LinComb::eval`. -/
def LinComb.eval (lc : LinComb F) (a : Nat → F) : F :=
  (lc.terms.map fun t => a t.1 * t.2).sum + lc.constant

/-- Source instructions (`circuit/ir/source/mod.rs:22-67`); `constant`, `random` and `publicInput`
are the three cases of `ConstantLike`. -/
inductive SInsn (F : Type*) where
  | linComb (lc : LinComb F)
  | mul (xs : List Nat)
  | div (x y : Nat) (checked : Bool)
  | boolBin (x y : Nat) (op : BoolOp)
  | isZero (x : Nat)
  | commit (xs : List Nat)
  | hint (id : Nat) (xs : List Nat) (n : Nat)
  | constant (c : F)
  | random
  | publicInput (i : Nat)
  | call (id : Nat) (xs : List Nat) (n : Nat)
  | uBin (x y : Nat) (op : UOp)
  | uSelect (cond t f : Nat)
  | gate (ty : Nat) (xs : List Nat)
  | toBinary (x n : Nat)
  deriving DecidableEq, Repr

/-- Hint-normalized instructions (`circuit/ir/hint_normalized/mod.rs:27-46`). -/
inductive OInsn (F : Type*) where
  | linComb (lc : LinComb F)
  | mul (xs : List Nat)
  | hint (id : Nat) (xs : List Nat) (n : Nat)
  | constant (c : F)
  | random
  | publicInput (i : Nat)
  | call (id : Nat) (xs : List Nat) (n : Nat)
  | gate (ty : Nat) (xs : List Nat)
  deriving DecidableEq, Repr

/-- Constraints of the source language (`source/mod.rs:97-108`). -/
inductive ConType where
  | zero | nonZero | bool
  deriving DecidableEq, Repr

/-- `circuit/ir/common/mod.rs:91-98` `Circuit`.  Variable 0 is not used, the inputs are
`1 .. numInputs`, and the outputs of the instructions are numbered in order after them. -/
structure Circuit (I C : Type*) where
  insns : List I
  cons : List C
  outputs : List Nat
  numInputs : Nat
  deriving DecidableEq, Repr

abbrev SCircuit (F : Type*) := Circuit (SInsn F) (Nat × ConType)
abbrev OCircuit (F : Type*) := Circuit (OInsn F) Nat

/-- `source/mod.rs:174-190` and `hint_normalized/mod.rs:72-81` `num_outputs`. -/
def SInsn.numOut : SInsn F → Nat
  | .hint _ _ n => n
  | .call _ _ n => n
  | .toBinary _ n => n
  | _ => 1

def OInsn.numOut : OInsn F → Nat
  | .hint _ _ n => n
  | .call _ _ n => n
  | _ => 1

/-- What a circuit refers to: the public inputs, the custom gates, and the relations between inputs
and outputs of the circuits it calls. -/
structure Env (F : Type*) where
  pub : Nat → F
  gate : Nat → List F → F
  call : Nat → List F → List F → Prop

def ofBool (b : Bool) : F := if b then 1 else 0

def BoolOp.apply : BoolOp → Bool → Bool → Bool
  | .xor, p, q => p != q
  | .or, p, q => p || q
  | .and, p, q => p && q

/-- The values of the outputs `n, n+1, ..` of an instruction. -/
def outs (a : Nat → F) (n k : Nat) : List F := (List.range k).map fun i => a (n + i)

/-- A source instruction whose first output variable is `n` respects the values `a`. -/
def SInsn.Holds (env : Env F) (a : Nat → F) (n : Nat) : SInsn F → Prop
  | .linComb lc => a n = lc.eval a
  | .mul xs => a n = (xs.map a).prod
  | .div x y checked => a n * a y = a x ∧ (checked = true → a y ≠ 0)
  | .boolBin x y op => ∃ p q : Bool, a x = ofBool p ∧ a y = ofBool q ∧ a n = ofBool (op.apply p q)
  | .isZero x => (a x = 0 → a n = 1) ∧ (a x ≠ 0 → a n = 0)
  | .commit _ => True
  | .hint _ _ _ => True
  | .constant c => a n = c
  | .random => True
  | .publicInput i => a n = env.pub i
  | .call id xs k => env.call id (xs.map a) (outs a n k)
  | .uBin _ _ _ => True
  | .uSelect _ _ _ => True
  | .gate ty xs => a n = env.gate ty (xs.map a)
  | .toBinary x k => (∀ i, i < k → a (n + i) = 0 ∨ a (n + i) = 1) ∧
      a x = ((List.range k).map fun i => 2 ^ i * a (n + i)).sum

/-- A hint-normalized instruction whose first output variable is `n` respects the values `a`. -/
def OInsn.Holds (env : Env F) (a : Nat → F) (n : Nat) : OInsn F → Prop
  | .linComb lc => a n = lc.eval a
  | .mul xs => a n = (xs.map a).prod
  | .hint _ _ _ => True
  | .constant c => a n = c
  | .random => True
  | .publicInput i => a n = env.pub i
  | .call id xs k => env.call id (xs.map a) (outs a n k)
  | .gate ty xs => a n = env.gate ty (xs.map a)

/-- What an honest run computes for the operations which nothing constrains
(`source/mod.rs:383-399`); `ev` is the evaluation of the binary ones. -/
def SInsn.Honest [DecidableEq F] (ev : UOp → F → F → Option F) (a : Nat → F) (n : Nat) :
    SInsn F → Prop
  | .uBin x y op => ev op (a x) (a y) = some (a n)
  | .uSelect c t f => a n = if a c = 0 then a f else a t
  | _ => True

def SInsn.HonestAll [DecidableEq F] (ev : UOp → F → F → Option F) (a : Nat → F) :
    Nat → List (SInsn F) → Prop
  | _, [] => True
  | n, i :: r => i.Honest ev a n ∧ SInsn.HonestAll ev a (n + i.numOut) r

def SInsn.HoldAll (env : Env F) (a : Nat → F) : Nat → List (SInsn F) → Prop
  | _, [] => True
  | n, i :: r => i.Holds env a n ∧ SInsn.HoldAll env a (n + i.numOut) r

def OInsn.HoldAll (env : Env F) (a : Nat → F) : Nat → List (OInsn F) → Prop
  | _, [] => True
  | n, i :: r => i.Holds env a n ∧ OInsn.HoldAll env a (n + i.numOut) r

/-- `source/mod.rs:129-137`: what a constraint demands of a value. -/
def ConType.Holds : ConType → F → Prop
  | .zero, v => v = 0
  | .nonZero, v => v ≠ 0
  | .bool, v => v = 0 ∨ v = 1

/-- A source circuit relates inputs and outputs. -/
def SCircuit.Sat (env : Env F) (c : SCircuit F) (ins outs : List F) : Prop :=
  ∃ a : Nat → F, ins = (List.range c.numInputs).map (fun i => a (i + 1)) ∧
    SInsn.HoldAll env a (c.numInputs + 1) c.insns ∧
    (∀ con ∈ c.cons, con.2.Holds (a con.1)) ∧ outs = c.outputs.map a

/-- As `Sat`, where the unconstrained operations have the values of an honest run. -/
def SCircuit.HonestSat [DecidableEq F] (ev : UOp → F → F → Option F) (env : Env F)
    (c : SCircuit F) (ins outs : List F) : Prop :=
  ∃ a : Nat → F, ins = (List.range c.numInputs).map (fun i => a (i + 1)) ∧
    SInsn.HoldAll env a (c.numInputs + 1) c.insns ∧
    SInsn.HonestAll ev a (c.numInputs + 1) c.insns ∧
    (∀ con ∈ c.cons, con.2.Holds (a con.1)) ∧ outs = c.outputs.map a

/-- A hint-normalized circuit relates inputs and outputs; a constraint is a variable which must be
zero. -/
def OCircuit.Sat (env : Env F) (c : OCircuit F) (ins outs : List F) : Prop :=
  ∃ a : Nat → F, ins = (List.range c.numInputs).map (fun i => a (i + 1)) ∧
    OInsn.HoldAll env a (c.numInputs + 1) c.insns ∧
    (∀ v ∈ c.cons, a v = 0) ∧ outs = c.outputs.map a

/-- The relation of circuit `id` among circuits which call one another at most `d` levels deep. -/
def satIn {C : Type*} (sat : Env F → C → List F → List F → Prop) (pub : Nat → F)
    (gate : Nat → List F → F) (circuits : Nat → Option C) : Nat → Nat → List F → List F → Prop
  | 0, _, _, _ => False
  | d + 1, id, ins, outs => ∃ c, circuits id = some c ∧
      sat ⟨pub, gate, satIn sat pub gate circuits d⟩ c ins outs

/-- Variables an instruction reads (`source/mod.rs:153-173`). -/
def SInsn.inputs : SInsn F → List Nat
  | .linComb lc => lc.terms.map Prod.fst
  | .mul xs => xs
  | .div x y _ => [x, y]
  | .boolBin x y _ => [x, y]
  | .isZero x => [x]
  | .commit xs => xs
  | .hint _ xs _ => xs
  | .constant _ => []
  | .random => []
  | .publicInput _ => []
  | .call _ xs _ => xs
  | .uBin x y _ => [x, y]
  | .uSelect c t f => [c, t, f]
  | .gate _ xs => xs
  | .toBinary x _ => [x]

/-- `circuit/ir/common/mod.rs:112-121`, `source/mod.rs:272-318`: instructions read variables which
already exist, and a product has at least two factors. -/
def SInsn.ValidAll : Nat → List (SInsn F) → Prop
  | _, [] => True
  | n, i :: r => (∀ x ∈ i.inputs, 1 ≤ x ∧ x < n) ∧
      (∀ xs, i = .mul xs → 2 ≤ xs.length) ∧ SInsn.ValidAll (n + i.numOut) r

def totalOut (l : List (SInsn F)) : Nat := (l.map SInsn.numOut).sum

/-- `circuit/ir/common/mod.rs:110-172` `validate_variable_references`. -/
structure SCircuit.Valid (c : SCircuit F) : Prop where
  insns : SInsn.ValidAll (c.numInputs + 1) c.insns
  cons : ∀ con ∈ c.cons, 1 ≤ con.1 ∧ con.1 < c.numInputs + 1 + totalOut c.insns
  outputs : ∀ o ∈ c.outputs, 1 ≤ o ∧ o < c.numInputs + 1 + totalOut c.insns

end JST.Circ
