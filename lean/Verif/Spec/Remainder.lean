import Verif.Remainder.Basic
import Mathlib.Algebra.BigOperators.Group.Finset.Basic

/-!
# What a model of the Remainder backend should compute

Fixed-point evaluation in exact integers, layer by layer, on vectors padded to a power of two. Convolution and
pooling are stated for images `X c h w`; a layout says where an image lies in a vector.
-/

namespace JST.Remainder

open scoped BigOperators

/-- The range of the integers of the honest prover. -/
def InI64 (v : Int) : Prop := -2 ^ 63 ≤ v ∧ v < 2 ^ 63

instance (v : Int) : Decidable (InI64 v) := inferInstanceAs (Decidable (_ ∧ _))

/-- The image behind a vector. -/
def imageOf (lay : Layout) (x : Nat → Int) (c h w : Nat) : Int := x (lay.index c h w)

/-- All entries of the image lie in a vector of length `2^nv`. -/
def Layout.Fits (lay : Layout) (nv : Nat) : Prop :=
  ∀ c < lay.dims.1, ∀ h < lay.dims.2.1, ∀ w < lay.dims.2.2, lay.index c h w < 2 ^ nv

instance (lay : Layout) (nv : Nat) : Decidable (lay.Fits nv) := by unfold Layout.Fits; infer_instance

/-- An image with its zero padding. -/
def paddedImage (d : ConvDims) (X : Nat → Nat → Nat → Int) (c a b : Nat) : Int :=
  if d.padT ≤ a ∧ a < d.padT + d.inH ∧ d.padL ≤ b ∧ b < d.padL + d.inW then X c (a - d.padT) (b - d.padL) else 0

/-- The weight `[co][c][kr][kc]` of a convolution. -/
def convWeight (d : ConvDims) (w : List Int) (co c kr kc : Nat) : Int :=
  w.getD (co * (d.cIn * d.kh * d.kw) + (c * d.kh * d.kw + kr * d.kw + kc)) 0

/-- The convolution at one output position. -/
def convSum (d : ConvDims) (w : List Int) (X : Nat → Nat → Nat → Int) (co oh ow : Nat) : Int :=
  ∑ c ∈ Finset.range d.cIn, ∑ kr ∈ Finset.range d.kh, ∑ kc ∈ Finset.range d.kw,
    paddedImage d X c (oh * d.sh + kr) (ow * d.sw + kc) * convWeight d w co c kr kc

/-- The greatest element of a list. -/
def maxOf : List Int → Int
  | [] => 0
  | x :: xs => xs.foldl max x

/-- The window of a MaxPool. -/
def window (d : PoolDims) (X : Nat → Nat → Nat → Int) (ch oh ow : Nat) : List Int :=
  (List.range (d.ph * d.pw)).map fun i => X ch (oh * d.sh + i / d.pw) (ow * d.sw + i % d.pw)

/-- The entry of a Gemm's weight for inner index `k` and outer index `n`, ONNX: `B` or its transpose. -/
def gemmEntry (l : Layer) (w : Weight) (K N k n : Nat) : Int :=
  if l.flag "transB" then w.data.getD (n * K + k) 0 else w.data.getD (k * N + n) 0

/-- The product at one output. -/
def gemmSum (l : Layer) (w : Weight) (K N : Nat) (x : Nat → Int) (n : Nat) : Int :=
  if n < N then ∑ k ∈ Finset.range K, x k * gemmEntry l w K N k n else 0

/-- The values of the tensors (logarithmic length and entries) and their layouts. -/
structure RSt where
  val : Tab (Nat × (Nat → Int))
  layout : Tab Layout

/-- Rescaling of `2^nv` sums, each of which must fit the machine integers with and without the addend. -/
def rescaleAll (alpha : Int) (nv : Nat) (s b : Nat → Int) : R (Nat × (Nat → Int)) :=
  if ∀ j < 2 ^ nv, InI64 (s j) ∧ InI64 (s j + b j) then .ok (nv, fun j => (s j + b j) / alpha)
  else .error "overflows i64"

/-- The constants of a bias. -/
def biasList (l : Layer) : List Int := ((l.inputs[2]?.bind l.weights).map (·.data)).getD []

/-- An operand of an addition. -/
def operandVal (l : Layer) (st : RSt) (t : String) : R (Nat × (Nat → Int)) :=
  match st.val t with
  | some v => .ok v
  | none => do
    let w ← need (l.weights t) "not computed and not a weight"
    if ∀ v ∈ w.data, InI64 v then .ok (numVars w.data.length, fun i => w.data.getD i 0)
    else .error "weights are i64"

/-- One layer. -/
def refStep (alpha : Int) (l : Layer) (st : RSt) : R RSt :=
  match l.op with
  | .gemm => do
    let x ← need l.inputs[0]? "no input"
    let (k, n, w) ← gemmDims l
    let (nv, f) ← need (st.val x) "not computed"
    if nv ≠ numVars k then .error "length"
    else
      let v ← rescaleAll alpha (numVars n) (gemmSum l w k n f) (fun j => (biasList l).getD j 0)
      .ok { st with val := setAll st.val l.outputs v }
  | .conv => do
    let x ← need l.inputs[0]? "no input"
    let inp ← need (st.layout x) "no layout"
    let (d, w) ← convDims l inp
    let (nv, f) ← need (st.val x) "not computed"
    let co := nextPow2 d.cOut
    if ¬ inp.Fits nv then .error "layout"
    else
    let v ← rescaleAll alpha (numVars (d.outH * d.outW) + numVars d.cOut)
      (fun i => if i / co < d.outH * d.outW ∧ i % co < d.cOut then
        convSum d w.data (imageOf inp f) (i % co) (i / co / d.outW) (i / co % d.outW) else 0)
      (fun i => if i % co < d.cOut then (biasList l).getD (i % co) 0 else 0)
    .ok ⟨setAll st.val l.outputs v, setAll st.layout l.outputs d.layout⟩
  | .relu => do
    let x ← need l.inputs[0]? "no input"
    let (nv, f) ← need (st.val x) "not computed"
    .ok ⟨setAll st.val l.outputs (nv, fun i => max (f i) 0), setOpt st.layout l.outputs (st.layout x)⟩
  | .maxPool => do
    let x ← need l.inputs[0]? "no input"
    let inp ← need (st.layout x) "no layout"
    let d ← poolDims l inp
    let (nv, f) ← need (st.val x) "not computed"
    if ¬ inp.Fits nv then .error "layout"
    else
    .ok ⟨setAll st.val l.outputs (numVars (d.outH * d.outW * d.c), fun i =>
        if i < d.outH * d.outW * d.c then
          maxOf (window d (imageOf inp f) (i % d.c) (i / d.c / d.outW) (i / d.c % d.outW)) else 0),
      setAll st.layout l.outputs d.layout⟩
  | .batchNorm => do
    let x ← need l.inputs[0]? "no input"
    let (nv, f) ← need (st.val x) "not computed"
    let mul ← need (l.inputs[1]?.bind l.weights) "missing mul"
    let add ← need (l.inputs[2]?.bind l.weights) "missing add"
    let fm ← broadcastCh mul.data (st.layout x) (2 ^ nv)
    let fa ← broadcastCh add.data (st.layout x) (2 ^ nv)
    let v ← rescaleAll alpha nv (fun i => f i * fm i) fa
    .ok ⟨setAll st.val l.outputs v, setOpt st.layout l.outputs (st.layout x)⟩
  | .add | .sub => do
    let a ← need l.inputs[0]? "no first input"
    let b ← need l.inputs[1]? "no second input"
    let (va, fa) ← operandVal l st a
    let (_, fb) ← operandVal l st b
    let g := fun i => if l.op = .add then fa i + fb i else fa i - fb i
    if ∀ j < 2 ^ va, InI64 (g j) then
      .ok ⟨setAll st.val l.outputs (va, g), setOpt st.layout l.outputs ((st.layout a).or (st.layout b))⟩
    else .error "overflows i64"
  | .cast | .reshape | .flatten | .squeeze | .unsqueeze => do
    let x ← need l.inputs[0]? "no input"
    let v ← need (st.val x) "not computed"
    .ok ⟨setAll st.val l.outputs v, setOpt st.layout l.outputs (st.layout x)⟩
  | _ => .error "not treated"

/-- The differences that Relu and MaxPool show to be small fit the width of their range check. -/
def Bounded (e : Nat) (l : Layer) (st : RSt) : Prop :=
  ∀ b, l.nBits = some b → ∀ x nv f, l.inputs[0]? = some x → st.val x = some (nv, f) →
    (l.op = .relu → ∀ i < 2 ^ nv, -2 ^ (max (b - e) 1) < f i ∧ f i < 2 ^ (max (b - e) 1)) ∧
    (l.op = .maxPool → ∀ inp, st.layout x = some inp → ∀ d, poolDims l inp = .ok d →
      ∀ i < d.outH * d.outW * d.c,
        ∀ y ∈ window d (imageOf inp f) (i % d.c) (i / d.c / d.outW) (i / d.c % d.outW),
          maxOf (window d (imageOf inp f) (i % d.c) (i / d.c / d.outW) (i / d.c % d.outW)) - y < 2 ^ (max (b - e) 1))

/-- All layers. -/
def refSteps (alpha : Int) : List Layer → RSt → R RSt
  | [], st => .ok st
  | l :: ls, st => refStep alpha l st >>= refSteps alpha ls

/-- Every layer is within its width. -/
def BoundedSteps (e : Nat) (alpha : Int) : List Layer → RSt → Prop
  | [], _ => True
  | l :: ls, st => Bounded e l st ∧ ∀ st', refStep alpha l st = .ok st' → BoundedSteps e alpha ls st'

/-- The values before the first layer. -/
def refInit (m : Model) (input : List Int) : RSt :=
  ⟨fun n => if n ∈ m.inputNames then some (numVars (nextPow2 input.length), fun i => input.getD i 0) else none,
   inputLayouts m⟩

/-- The value of the model on an input: logarithmic length and entries of the output. -/
def refModel (m : Model) (input : List Int) : R (Nat × (Nat → Int)) := do
  if ∀ v ∈ input, InI64 v then
    let st ← refSteps m.alpha m.layers (refInit m input)
    need (st.val (m.outputNames.headD "")) "declared output not computed"
  else .error "inputs are i64"

/-- The entries of the output. -/
def refOutput (m : Model) (input : List Int) : R (List Int) := do
  let (nv, f) ← refModel m input
  .ok ((List.range (2 ^ nv)).map f)

/-- A vector with zeros up to the next power of two. -/
def padded (v : List Int) : List Int := (List.range (nextPow2 v.length)).map fun i => v.getD i 0

/-- The entries of an image in ONNX order: channel, row, column. -/
def flatImage (c h w : Nat) (X : Nat → Nat → Nat → Int) : List Int :=
  (List.range c).flatMap fun ch => (List.range h).flatMap fun r => (List.range w).map fun k => X ch r k

end JST.Remainder
