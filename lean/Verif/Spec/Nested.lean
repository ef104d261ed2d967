import Mathlib.Algebra.BigOperators.Group.List.Basic
import Mathlib.Algebra.Field.Defs

/-!
# What a nested layered circuit means

The compiler's output is a list of segments. A segment has gates of its own and places where an
earlier segment is put: the earlier segment reads a window of the input wires and adds to a window of
the output wires. Specification of the value of every output wire, by recursion on the nesting.
-/

namespace JST.Export

/-- `compiler/expander_compiler/src/circuit/layered/mod.rs:19-23` `Coef`. -/
inductive Cf (F : Type) where
  | const (c : F)
  | rnd
  | pub (i : Nat)
  deriving DecidableEq, Repr

/-- `circuit/layered/mod.rs:280-284` `Gate`. -/
structure Gt (F : Type) where
  ins : List Nat
  o : Nat
  coef : Cf F
  deriving DecidableEq, Repr

/-- `circuit/layered/mod.rs:359-367` `Segment`, without custom gates; `kids` are pairs of the number of a
segment and the offsets (input, output) where it is put. -/
structure Sg (F : Type) where
  numIn : Nat
  numOut : Nat
  muls : List (Gt F)
  adds : List (Gt F)
  csts : List (Gt F)
  kids : List (Nat × List (Nat × Nat))
  deriving DecidableEq, Repr

/-- `circuit/layered/mod.rs:606-614` `Circuit`. -/
structure Nested (F : Type) where
  segs : List (Sg F)
  layers : List Nat
  deriving DecidableEq, Repr

def Sg.own {F : Type} (s : Sg F) : List (Gt F) := s.muls ++ s.adds ++ s.csts

/-- What `validate` (`circuit/layered/mod.rs:379-600`) demands of a segment: sizes are powers of two, gates
have the number of inputs of their kind and stay within the segment, children are earlier segments put
inside. -/
structure Sg.Ok {F : Type} (segs : List (Sg F)) (id : Nat) (s : Sg F) : Prop where
  sizeIn : ∃ k, s.numIn = 2 ^ k
  sizeOut : ∃ k, s.numOut = 2 ^ k
  mulLen : ∀ g ∈ s.muls, ∃ a b, g.ins = [a, b]
  addLen : ∀ g ∈ s.adds, ∃ a, g.ins = [a]
  cstLen : ∀ g ∈ s.csts, g.ins = []
  read : ∀ g ∈ s.own, ∀ i ∈ g.ins, i < s.numIn
  write : ∀ g ∈ s.own, g.o < s.numOut
  kidsOk : ∀ k ∈ s.kids, k.1 < id ∧ ∀ t, segs[k.1]? = some t →
    ∀ a ∈ k.2, a.1 + t.numIn ≤ s.numIn ∧ a.2 + t.numOut ≤ s.numOut

/-- The segments of a layered circuit are acceptable, and the layers fit. -/
structure Nested.Ok {F : Type} (c : Nested F) : Prop where
  seg : ∀ (id : Nat) (s : Sg F), c.segs[id]? = some s → s.Ok c.segs id
  layer : ∀ id ∈ c.layers, ∃ s, c.segs[id]? = some s
  fit : c.layers.IsChain fun a b => ∀ s t, c.segs[a]? = some s → c.segs[b]? = some t → s.numOut = t.numIn
  nonempty : c.layers ≠ []

variable {F : Type} [Field F]

/-- The value of a coefficient, for circuits without random ones. -/
def Cf.fixed (pub : Nat → F) : Cf F → F
  | .const c => c
  | .rnd => 0
  | .pub i => pub i

/-- What the gates of a list add to wire `p`. -/
def addsTo (pub : Nat → F) (gs : List (Gt F)) (w : Nat → F) (p : Nat) : F :=
  ((gs.filter fun g => g.o = p).map fun g => g.coef.fixed pub * (g.ins.map w).prod).sum

/-- The value of output wire `p` of segment `id` on input wires `w`; `d` bounds the depth of the nesting. -/
def Nested.wire (c : Nested F) (pub : Nat → F) : Nat → Nat → (Nat → F) → Nat → F
  | 0, _, _, _ => 0
  | d + 1, id, w, p =>
    match c.segs[id]? with
    | none => 0
    | some s => addsTo pub s.own w p +
      (s.kids.map fun k => (k.2.map fun a =>
        match c.segs[k.1]? with
        | none => 0
        | some t => if a.2 ≤ p ∧ p < a.2 + t.numOut then
            c.wire pub d k.1 (fun i => w (a.1 + i)) (p - a.2) else 0).sum).sum

/-- All layers in turn. -/
def Nested.run (c : Nested F) (pub : Nat → F) : List Nat → (Nat → F) → Nat → F
  | [], w => w
  | id :: r, w => c.run pub r (c.wire pub (id + 1) id w)

end JST.Export
