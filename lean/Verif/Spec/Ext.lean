import Mathlib.RingTheory.AdjoinRoot
import Mathlib.Data.ZMod.Basic

/-!
# Specification: extension fields

The extension of `ZMod p` by a root of `X^n - w`, and the element that a list of limbs denotes.
-/

namespace JST.Spec

open Polynomial

/-- `F_p[X] / (X^n - w)`. -/
abbrev ExtRing (p n w : Nat) : Type := AdjoinRoot (X ^ n - C (w : ZMod p) : (ZMod p)[X])

/-- The class of `X`. -/
noncomputable abbrev extX (p n w : Nat) : ExtRing p n w := AdjoinRoot.root _

/-- A constant. -/
noncomputable abbrev extC (p n w : Nat) (c : ZMod p) : ExtRing p n w := AdjoinRoot.of _ c

/-- The polynomial with the given coefficients, lowest degree first, modulo `X^n - w`. -/
noncomputable def extElem (p n w : Nat) (limbs : List Nat) : ExtRing p n w :=
  ∑ i ∈ Finset.range limbs.length, extC p n w (limbs.getD i 0) * extX p n w ^ i

end JST.Spec
