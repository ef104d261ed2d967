import Verif.Spec.Tensor
import Mathlib.Analysis.SpecialFunctions.Pow.Real

/-!
# Specification of BatchNormalization

ONNX BatchNormalization in inference mode: axis 1 is the channel. Nothing here models code.
-/

namespace JST.Spec

/-- `out` is `x` with its entries replaced: the new entry is related by `Q` to the old one and to the entries of the
vectors `m` and `b` for the channel, which is the second coordinate. -/
def IsPerChannel {α β : Type} (x : Arr α) (m b : List α) (Q : α → α → α → β → Prop) (out : Arr β) : Prop :=
  out.shape = x.shape ∧ out.WF ∧ ∀ c, InRange x.shape c → ∃ ch u f g w, c[1]? = some ch ∧ elem x c = some u ∧
    m[ch]? = some f ∧ b[ch]? = some g ∧ elem out c = some w ∧ Q u f g w

/-- Batch normalisation of one value of a channel with the given parameters. -/
noncomputable def batchNorm (scale bias mean var eps x : ℝ) : ℝ := scale * (x - mean) / Real.sqrt (var + eps) + bias

end JST.Spec
