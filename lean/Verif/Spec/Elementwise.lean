import Verif.Spec.Numeric

/-!
# Specification of the elementwise layers

ONNX elementwise operators. Nothing here models code.
-/

namespace JST.Spec

/-- `out` has shape `s`, and its entry at `c` is related by `Q` to the entries of `a` and `b` that
broadcasting assigns to `c`. -/
def IsZip {α β γ : Type} (s : List Nat) (a : Arr α) (b : Arr β) (Q : α → β → γ → Prop) (out : Arr γ) : Prop :=
  out.shape = s ∧ out.WF ∧ ∀ c, InRange s c → ∃ u v w, elem a (srcCoords a.shape c) = some u ∧
    elem b (srcCoords b.shape c) = some v ∧ elem out c = some w ∧ Q u v w

/-- A binary elementwise operator with ONNX (multidirectional) broadcasting. -/
def IsBinary {α β γ : Type} (a : Arr α) (b : Arr β) (Q : α → β → γ → Prop) (out : Arr γ) : Prop :=
  IsBroadcast a.shape b.shape out.shape ∧ IsZip out.shape a b Q out

/-- A unary elementwise operator. -/
def IsUnary {α β : Type} (a : Arr α) (Q : α → β → Prop) (out : Arr β) : Prop :=
  out.shape = a.shape ∧ out.WF ∧ ∀ c, InRange a.shape c → ∃ u w, elem a c = some u ∧ elem out c = some w ∧ Q u w

/-- The entry of an optional operand that broadcasting assigns to `c`. -/
def optElem {α : Type} (b : Option (Arr α)) (c : List Nat) : Option α :=
  b.bind fun b => elem b (srcCoords b.shape c)

/-- Leaky ReLU in fixed point: `x` if it is not negative, otherwise `alpha·x` divided by the scale,
rounded down. -/
def leakyRelu (alpha : Int) (κ : Nat) (x : Int) : Int := if 0 ≤ x then x else alpha * x / 2 ^ κ

/-- The shape `s` after broadcasting with an optional operand. -/
def OptBroadcast {α : Type} (s : List Nat) (b : Option (Arr α)) (out : List Nat) : Prop :=
  match b with
  | none => out = s
  | some b => IsBroadcast s b.shape out

/-- `out` is `x` with `Q lo hi` applied to each entry, where `lo` and `hi` are the entries that
broadcasting takes from the optional bounds; a bound that is given has an entry everywhere. -/
def IsBounded {α β : Type} (x : Arr α) (lo hi : Option (Arr α)) (Q : Option α → Option α → α → β → Prop)
    (out : Arr β) : Prop :=
  (∃ s, OptBroadcast x.shape lo s ∧ OptBroadcast s hi out.shape) ∧ out.WF ∧
  ∀ c, InRange out.shape c →
    ((optElem lo c).isSome = lo.isSome) ∧ ((optElem hi c).isSome = hi.isSome) ∧
    ∃ u w, elem x (srcCoords x.shape c) = some u ∧ elem out c = some w ∧ Q (optElem lo c) (optElem hi c) u w

/-- `Where`: the entry of `x` where the condition is not zero and that of `y` elsewhere, all three read with
broadcasting. -/
def IsSelected {α β : Type} [Zero β] [DecidableEq β] (t : List Nat) (cond : Arr β) (x y : Arr α) (out : Arr α) :
    Prop :=
  out.shape = t ∧ out.WF ∧ ∀ c, InRange t c → ∃ k u v, elem cond (srcCoords cond.shape c) = some k ∧
    elem x (srcCoords x.shape c) = some u ∧ elem y (srcCoords y.shape c) = some v ∧
    elem out c = some (if k ≠ 0 then u else v)

end JST.Spec
