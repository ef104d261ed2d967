import Verif.Spec.Nested

/-!
# When two lists of gates do the same

Two lists of gates do the same if they have the same gates with random coefficients and public inputs,
in any order, and if what the gates with constant coefficients add to each wire is the same. The gates
a segment of a nested circuit stands for: its own, and those of its children at their places.
-/

namespace JST.Export

variable {F : Type}

/-- The gate has a constant coefficient. -/
def Gt.isConst (g : Gt F) : Bool :=
  match g.coef with
  | .const _ => true
  | _ => false

/-- The gates with random coefficients and public inputs. -/
def varying (l : List (Gt F)) : List (Gt F) := l.filter fun g => !g.isConst

def SameGates [Field F] (l m : List (Gt F)) : Prop :=
  (∀ w p, addsTo (fun _ => 0) l w p = addsTo (fun _ => 0) m w p) ∧ (varying l).Perm (varying m)

/-- A gate at a place. -/
def Gt.shift (a : Nat × Nat) (g : Gt F) : Gt F := { g with ins := g.ins.map (a.1 + ·), o := a.2 + g.o }

/-- The gates of the children, if `f` gives the gates of a segment. -/
def place (f : Nat → List (Gt F)) (kids : List (Nat × List (Nat × Nat))) : List (Gt F) :=
  kids.flatMap fun k => k.2.flatMap fun a => (f k.1).map (Gt.shift a)

/-- The gates segment `id` stands for; `d` bounds the depth of the nesting. -/
def Nested.all (c : Nested F) : Nat → Nat → List (Gt F)
  | 0, _ => []
  | d + 1, id =>
    match c.segs[id]? with
    | none => []
    | some s => s.own ++ place (c.all d) s.kids

/-- The gates segment `id` stands for. -/
def Nested.gates (c : Nested F) (id : Nat) : List (Gt F) := c.all (id + 1) id

/-- Layer by layer, two circuits have the same sizes and do the same. -/
def SameLayers [Field F] (c d : Nested F) : Prop :=
  List.Forall₂ (fun i j => ∃ s t, c.segs[i]? = some s ∧ d.segs[j]? = some t ∧ t.numIn = s.numIn ∧
    t.numOut = s.numOut ∧ SameGates (d.gates j) (c.gates i)) c.layers d.layers

end JST.Export
