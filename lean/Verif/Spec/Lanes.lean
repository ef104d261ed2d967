import Verif.Spec.Elementwise

/-!
# Specification of operations along one axis

A lane of a tensor along an axis is the list of the entries whose coordinates agree except on that axis.
Nothing here models code.
-/

namespace JST.Spec

/-- `l` lists the entries of `a` at the coordinates that agree with `c` except on `axis`. -/
def IsLane {α : Type} (axis : Nat) (a : Arr α) (c : List Nat) (l : List α) : Prop :=
  l.map some = (List.range (a.shape.getD axis 0)).map fun i => elem a (c.set axis i)

/-- `out` has the shape of `a`, and every lane of `out` is in relation `R` with the corresponding lane of `a`. -/
def IsLanewise {α β : Type} (axis : Nat) (a : Arr α) (R : List α → List β → Prop) (out : Arr β) : Prop :=
  out.shape = a.shape ∧ out.WF ∧ ∀ c, InRange a.shape c →
    ∃ l l', IsLane axis a c l ∧ IsLane axis out c l' ∧ R l l'

/-- `l` lists, in row-major order, the entries of `a` whose first coordinates are `lead`; the remaining axes start at
`axis`. -/
def IsBlock {α : Type} (axis : Nat) (a : Arr α) (lead : List Nat) (l : List α) : Prop :=
  l.map some = (coordsOf (a.shape.drop axis)).map fun c => elem a (lead ++ c)

/-- `out` has the shape of `a`, and every block of `out` is in relation `R` with the corresponding block of `a`. -/
def IsBlockwise {α β : Type} (axis : Nat) (a : Arr α) (R : List α → List β → Prop) (out : Arr β) : Prop :=
  out.shape = a.shape ∧ out.WF ∧ ∀ lead, InRange (a.shape.take axis) lead →
    ∃ l l', IsBlock axis a lead l ∧ IsBlock axis out lead l' ∧ R l l'

end JST.Spec
