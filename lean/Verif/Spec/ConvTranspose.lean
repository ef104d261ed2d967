import Verif.Spec.Numeric

/-!
# Specification of the transposed convolution

What ONNX means by `ConvTranspose` with one group: every input entry is spread over the output by the
kernel. Nothing here models code.
-/

namespace JST.Spec

/-- Transposed convolution at output position `(i, j)` of channel `m`: the bias plus, for every input
entry and every kernel entry that the pair sends to this position, their product. The input entry at row
`h` and the kernel entry in row `a` are sent to row `h·sh + a·dh - ph`. -/
def convTAt {F : Type} [CommRing F] (x w : Arr F) (bias : Nat → F) (kh kw dh dw sh sw ph pw : Nat)
    (n m i j : Nat) : F :=
  bias m + ∑ c ∈ Finset.range (x.shape.getD 1 0), ∑ h ∈ Finset.range (x.shape.getD 2 0),
    ∑ v ∈ Finset.range (x.shape.getD 3 0), ∑ a ∈ Finset.range kh, ∑ b ∈ Finset.range kw,
      if (h * sh + a * dh - ph : Int) = i ∧ (v * sw + b * dw - pw : Int) = j then
        (elem x [n, c, h, v]).getD 0 * (elem w [c, m, a, b]).getD 0
      else 0

/-- The number of output rows: the positions reached by an unpadded scatter of `H` rows, plus the output
padding, minus the padding. -/
def convTSize (H k d s o p q : Nat) : Int := s * ((H : Int) - 1) + ((k : Int) - 1) * d + 1 + o - p - q

end JST.Spec
