import Verif.Quant.Bounds

/-!
# What the operators compute

The specification against which activation bounds are judged: for each operator, the set of values an
element of its output can take when the elements of input `i` range over `S i`. It is written from the
ONNX meaning of the operators, over the reals, and does not mention bounds.
-/

namespace JST.Quant

/-- Inner product of inputs and weights of the same length. -/
def dot (xs ws : List ℝ) : ℝ := (List.zipWith (· * ·) xs ws).sum

/-- `y` is an inner product of the weights with inputs drawn from `S` or from zero padding. -/
def IsDot (S : Set ℝ) (ws : List ℝ) (y : ℝ) : Prop :=
  ∃ xs : List ℝ, xs.length = ws.length ∧ (∀ x ∈ xs, x ∈ S ∨ x = 0) ∧ y = dot xs ws

/-- An optional bias entry. -/
def IsBias (bias : List ℝ) (b : ℝ) : Prop := b ∈ bias ∨ (bias = [] ∧ b = 0)

/-- The possible values of an output element. -/
def OutElem (alpha : ℝ) (S : Nat → Set ℝ) (n : Nat) : Op → ℝ → Prop
  | .conv shape w bias, y =>
    ∃ oc, oc < shape.headD 0 ∧ ∃ d b, IsDot (S 0) (rowOf w (w.length / shape.headD 0) oc) d ∧
      IsBias bias b ∧ y = d + b
  | .gemm true w rows cols bias, y =>
    ∃ r, r < rows ∧ ∃ d b, w.length = rows * cols ∧ IsDot (S 0) (rowOf w cols r) d ∧
      IsBias bias b ∧ y = d + b
  | .gemm false w rows cols bias, y =>
    ∃ c, c < cols ∧ ∃ d b, IsDot (S 0) (colOf w rows cols c) d ∧ IsBias bias b ∧ y = d + b
  | .batchNorm mul bias, y => ∃ x ∈ S 0, ∃ g ∈ mul, ∃ b, IsBias bias b ∧ y = g * x + b
  | .mul, y => ∃ a ∈ S 0, ∃ b ∈ S 1, y = a * b
  | .add, y => ∃ a ∈ S 0, ∃ b ∈ S 1, y = a + b
  | .sub, y => ∃ a ∈ S 0, ∃ b ∈ S 1, y = a - b
  | .divConst d, y => ∃ a ∈ S 0, ∃ b ∈ d, b ≠ 0 ∧ y = a / b
  | .divDyn, y => ∃ a ∈ S 0, ∃ b ∈ S 1, b ≠ 0 ∧ y = a / b
  | .relu, y => ∃ x ∈ S 0, y = Max.max x 0
  | .maxPool, y => y ∈ S 0
  | .max, y => ∃ i < n, ∃ v : Nat → ℝ, (∀ j < n, v j ∈ S j) ∧ (∀ j < n, v j ≤ v i) ∧ y = v i
  | .min, y => ∃ i < n, ∃ v : Nat → ℝ, (∀ j < n, v j ∈ S j) ∧ (∀ j < n, v i ≤ v j) ∧ y = v i
  | .clip lo hi, y => ∃ x ∈ S 0, y = Min.min hi (Max.max lo x)
  | .pass, y | .topK, y => y ∈ S 0
  | .average, y | .reduceMean, y =>
    ∃ ws : List ℝ, (∀ w ∈ ws, 0 ≤ w) ∧ ws.sum = 1 ∧ IsDot (S 0) ws y
  | .concat, y => ∃ i < n, y ∈ S i
  | .log, y => ∃ x ∈ S 0, 1 / alpha ≤ x ∧ y = Real.log x
  | .matmulRight w nOut, y => ∃ k c, w.length = k * nOut ∧ c < nOut ∧ IsDot (S 0) (colOf w k nOut c) y
  | .matmulLeft w nCols, y => ∃ r k, w.length = k * nCols ∧ r < k ∧ IsDot (S 1) (rowOf w nCols r) y
  | .matmulDyn k, y => ∃ as bs : List ℝ, as.length = k ∧ bs.length = k ∧
      (∀ a ∈ as, a ∈ S 0) ∧ (∀ b ∈ bs, b ∈ S 1) ∧ y = dot as bs
  | .pad, y => y ∈ S 0 ∨ y ∈ S 2
  | .where_, y => y ∈ S 1 ∨ y ∈ S 2
  | .pow e, y => ∃ x ∈ S 0, (0 ≤ x ∧ y = x ^ e) ∨ ∃ k : Nat, e = k ∧ y = x ^ k
  | .sqrt, y => ∃ x ∈ S 0, 0 ≤ x ∧ y = Real.sqrt x
  | .tanh, y => ∃ x ∈ S 0, y = Real.tanh x
  | .convTranspose cIn cOut kernel w bias, y =>
    ∃ oc < cOut, ∃ d b, IsDot (S 0) (transposeChannel w cIn cOut kernel oc) d ∧
      IsBias bias b ∧ y = d + b
  | .reduceSum f, y => ∃ xs : List ℝ, xs.length = f ∧ (∀ x ∈ xs, x ∈ S 0) ∧ y = xs.sum
  | .exp, y => ∃ x ∈ S 0, y = Real.exp x
  | .leakyRelu a, y => ∃ x ∈ S 0, y = if 0 ≤ x then x else a * x
  | .neg, y => ∃ x ∈ S 0, y = -x
  | .softmax, y => ∃ x ∈ S 0, ∃ rest : List ℝ, y = Real.exp x / (Real.exp x + (rest.map Real.exp).sum)
  | .sigmoid, y => ∃ x ∈ S 0, y = 1 / (1 + Real.exp (-x))
  | .constant vals, y => y ∈ vals
  | .constantOfShape v, y => y = v
  | .range k, y => ∃ i < k, y = (i : ℝ)
  | .hardSwish, y => ∃ x ∈ S 0, y = x * Max.max 0 (Min.min 1 (x / 6 + 1 / 2))
  | .norm eps gamma beta, y => ∃ x ∈ S 0, ∃ mu var g b,
      -- the mean lies between the elements; the variance is not negative
      (∃ ws : List ℝ, (∀ w ∈ ws, 0 ≤ w) ∧ ws.sum = 1 ∧ IsDot (S 0) ws mu) ∧ 0 ≤ var ∧
      g ∈ gamma ∧ IsBias beta b ∧ y = g * ((x - mu) / Real.sqrt (var + eps)) + b

/-- The elements of input `i` of a layer: a tensor computed earlier or a constant. -/
def inElems (node : Node) (vals : Env (Set ℝ)) (i : Nat) : Set ℝ :=
  match node.inputs[i]? with
  | none => ∅
  | some nm =>
    match Env.get vals nm with
    | some S => S
    | none => match Env.get node.consts nm with
      | some c => {v | v ∈ c}
      | none => ∅

/-- Run one layer: the values its outputs can take, and a record of them by layer name. -/
def runStep (alpha : ℝ) (st : Env (Set ℝ) × Env (Set ℝ)) (node : Node) :
    Env (Set ℝ) × Env (Set ℝ) :=
  let S : Set ℝ := {y | OutElem alpha (inElems node st.1) node.inputs.length node.op y}
  (node.outputs.map (fun o => (o, S)) ++ st.1, (node.name, S) :: st.2)

/-- All values the tensors and the layers of a model can take when every input element lies in
`[-1, 1]`. -/
def run (alpha : ℝ) (inputs : List String) (layers : List Node) : Env (Set ℝ) × Env (Set ℝ) :=
  layers.foldl (runStep alpha) (inputs.map (fun n => (n, {x | |x| ≤ 1})), [])

end JST.Quant
