import Verif.Remainder.Basic
import Mathlib.Data.ZMod.Basic
import Mathlib.Algebra.BigOperators.Group.Finset.Basic

/-!
# The Remainder backend: the circuit and what its verifier accepts

rust/jstprove_remainder/src/runner/circuit_builder.rs, range_checks.rs, the public part of witness.rs and
verify.rs.

The prover and verifier for such circuits are an external library (Remainder_CE), whose sources are not part
of the repository. It is trusted: what is modelled is the relation that the built circuit states, namely that
for the given public values there are committed values for which every output of the circuit is zero and
every looked-up value is in its table. The multiplicities of the lookups and the dummy lookups that pad
their number to a power of two (circuit_builder.rs:845-890) only serve the argument for that and are left out.

Simplifications: the names of the vectors ("shreds") are structured, so vectors with different purposes have
different names (the code concatenates strings); an expression over vectors of different lengths and a product
with a vector of the wrong length are taken as refused.
-/

namespace JST.Remainder

open scoped BigOperators

/-- The vectors of a circuit; in the code strings such as `{layer}_q`. -/
inductive SName
  | input (t : String)
  | weight (l : String)
  | bias (l : String)
  | q (l : String)
  | r (l : String)
  | zero (l : String)
  | max (l : String)
  | di (l : String)
  | dz (l : String)
  | d (l : String) (i : Nat)
  | mul (l : String)
  | addend (l : String)
  | operand (l t : String)
  | result (l : String)
  | out (l : String)
  | expected
  | table (nv : Nat)
  | lo (s : SName)
  | hi (s : SName)
  deriving DecidableEq

/-- The nodes that layers are built from: an input vector, a selection of entries of a node
(`add_identity_gate_node`), a matrix product (`add_matmult_node`; `cv` is the logarithm of the inner
dimension and `nv` that of the number of columns). -/
inductive Node
  | shred (s : SName)
  | gate (src : Node) (wiring : List (Nat × Nat))
  | matmul (a : Node) (cv : Nat) (b : Node) (nv : Nat)
  deriving DecidableEq

/-- Expressions of a sector. -/
inductive Expr
  | node (n : Node)
  | add (a b : Expr)
  | sub (a b : Expr)
  | scaled (a : Expr) (c : Int)
  | products (ns : List Node)
  deriving DecidableEq

section Eval

variable {F : Type} [CommRing F]

/-- The entry of a node: a selection adds up the entries sent to a place. -/
def Node.eval (env : SName → Nat → F) : Node → Nat → F
  | .shred s, i => env s i
  | .gate src w, i => (w.map fun q => if q.1 = i then src.eval env q.2 else 0).sum
  | .matmul a cv b nv, i => ∑ k ∈ Finset.range (2 ^ cv),
      a.eval env (i / 2 ^ nv * 2 ^ cv + k) * b.eval env (k * 2 ^ nv + i % 2 ^ nv)

/-- The entry of an expression. -/
def Expr.eval (env : SName → Nat → F) : Expr → Nat → F
  | .node n, i => n.eval env i
  | .add a b, i => a.eval env i + b.eval env i
  | .sub a b, i => a.eval env i - b.eval env i
  | .scaled a c, i => a.eval env i * (c : F)
  | .products ns, i => (ns.map fun n => n.eval env i).prod

end Eval

/-- `ShredEntry` with its name, circuit_builder.rs:27-33. -/
structure Shred where
  name : SName
  nv : Nat
  pub : Bool
  deriving DecidableEq

/-- `RangeCheckRequest`, circuit_builder.rs:15-20. -/
structure Req where
  name : SName
  node : Node
  tableNv : Nat
  nodeNv : Nat

/-- What a layer adds to the circuit: vectors, expressions that must be zero (with the logarithm of their
length) and range checks. -/
structure Block where
  shreds : List Shred := []
  outs : List (Nat × Expr) := []
  reqs : List Req := []

/-- The state of the builder: the node and logarithmic length of every tensor, and its layout. -/
structure St where
  node : Tab (Node × Nat)
  layout : Tab Layout

/-- A convolution's selection of patches, circuit_builder.rs:1153-1179. -/
def convWiring (d : ConvDims) (inp : Layout) : List (Nat × Nat) :=
  (List.range d.outH).flatMap fun oh => (List.range d.outW).flatMap fun ow =>
  (List.range d.cIn).flatMap fun c => (List.range d.kh).flatMap fun kr => (List.range d.kw).filterMap fun kc =>
    let absH := oh * d.sh + kr
    let absW := ow * d.sw + kc
    if absH < d.padT ∨ absW < d.padL then none
    else if absH - d.padT ≥ d.inH ∨ absW - d.padL ≥ d.inW then none
    else some ((oh * d.outW + ow) * nextPow2 (d.cIn * d.kh * d.kw) + (c * d.kh * d.kw + kr * d.kw + kc),
      inp.index c (absH - d.padT) (absW - d.padL))

/-- The selection of the element `(ph, pw)` of every window of a MaxPool, circuit_builder.rs:1457-1474. -/
def poolWiring (d : PoolDims) (inp : Layout) (ph pw : Nat) : List (Nat × Nat) :=
  (List.range d.c).flatMap fun ch => (List.range d.outH).flatMap fun oh => (List.range d.outW).map fun ow =>
    ((oh * d.outW + ow) * d.c + ch, inp.index ch (oh * d.sh + ph) (ow * d.sw + pw))

/-- The rescaling check of Gemm, Conv and BatchNormalization, for example circuit_builder.rs:1004-1016:
`value + addend - alpha * q - r = 0`, and `r` in the table. -/
def rescaleBlock (m : Model) (l : Layer) (value addend : Expr) (nv : Nat) : List (Nat × Expr) × List Req :=
  ([(nv, .sub (.sub (.add value addend) (.scaled (.node (.shred (.q l.name))) m.alpha))
      (.node (.shred (.r l.name))))],
   [⟨.r l.name, .shred (.r l.name), m.exponent, nv⟩])

/-- `build_gemm_layer`, circuit_builder.rs:892-1024. -/
def gemmStep (m : Model) (l : Layer) (st : St) : R (Block × St) := do
  let x ← need l.inputs[0]? "no input"
  let (k, n, _) ← gemmDims l
  let (node, nv) ← need (st.node x) "input not in tensor_nodes"
  if nv ≠ numVars k then .error "input length"
  else
    let kv := numVars k
    let nv := numVars n
    let rb := rescaleBlock m l (.node (.matmul node kv (.shred (.weight l.name)) nv))
      (.node (.shred (.bias l.name))) nv
    .ok (⟨[⟨.weight l.name, kv + nv, true⟩, ⟨.bias l.name, nv, true⟩, ⟨.q l.name, nv, false⟩,
        ⟨.r l.name, nv, false⟩], rb.1, rb.2⟩,
      { st with node := setAll st.node l.outputs (.shred (.q l.name), nv) })

/-- `build_conv_layer`, circuit_builder.rs:1026-1270. -/
def convStep (m : Model) (l : Layer) (st : St) : R (Block × St) := do
  let x ← need l.inputs[0]? "no input"
  let inp ← need (st.layout x) "input has no spatial layout"
  let (d, _) ← convDims l inp
  let (node, _) ← need (st.node x) "input not in tensor_nodes"
  let rows := numVars (d.outH * d.outW)
  let cv := numVars (d.cIn * d.kh * d.kw)
  let ov := numVars d.cOut
  let rb := rescaleBlock m l (.node (.matmul (.gate node (convWiring d inp)) cv (.shred (.weight l.name)) ov))
    (.node (.shred (.bias l.name))) (rows + ov)
  .ok (⟨[⟨.weight l.name, cv + ov, true⟩, ⟨.bias l.name, rows + ov, true⟩, ⟨.q l.name, rows + ov, false⟩,
      ⟨.r l.name, rows + ov, false⟩], rb.1, rb.2⟩,
    ⟨setAll st.node l.outputs (.shred (.q l.name), rows + ov), setAll st.layout l.outputs d.layout⟩)

/-- `build_relu_layer`, circuit_builder.rs:1272-1383. -/
def reluStep (m : Model) (l : Layer) (st : St) : R (Block × St) := do
  let x ← need l.inputs[0]? "no input"
  let (node, nv) ← need (st.node x) "input has no num_vars"
  let mx : Expr := .node (.shred (.max l.name))
  let reqs := match l.nBits with
    | some b => [⟨.di l.name, .shred (.di l.name), deltaNv b m.exponent, nv⟩,
        ⟨.dz l.name, .shred (.dz l.name), deltaNv b m.exponent, nv⟩]
    | none => []
  .ok (⟨[⟨.zero l.name, nv, true⟩, ⟨.max l.name, nv, false⟩, ⟨.di l.name, nv, false⟩, ⟨.dz l.name, nv, false⟩],
      [(nv, .sub (.sub mx (.node node)) (.node (.shred (.di l.name)))),
       (nv, .sub (.sub mx (.node (.shred (.zero l.name)))) (.node (.shred (.dz l.name)))),
       (nv, .products [.shred (.di l.name), .shred (.dz l.name)])], reqs⟩,
    ⟨setAll st.node l.outputs (.shred (.max l.name), nv), setOpt st.layout l.outputs (st.layout x)⟩)

/-- `build_maxpool_layer`, circuit_builder.rs:1385-1550. -/
def poolStep (m : Model) (l : Layer) (st : St) : R (Block × St) := do
  let x ← need l.inputs[0]? "no input"
  let inp ← need (st.layout x) "input has no spatial layout"
  let d ← poolDims l inp
  let (node, _) ← need (st.node x) "input not in tensor_nodes"
  let nv := numVars (d.outH * d.outW * d.c)
  let win := List.range (d.ph * d.pw)
  let reqs := match l.nBits with
    | some b => win.map fun i => ⟨.d l.name i, .shred (.d l.name i), deltaNv b m.exponent, nv⟩
    | none => []
  .ok (⟨⟨.max l.name, nv, false⟩ :: win.map fun i => ⟨.d l.name i, nv, false⟩,
      (win.map fun i => (nv, .sub (.sub (.node (.shred (.max l.name)))
          (.node (.gate node (poolWiring d inp (i / d.pw) (i % d.pw))))) (.node (.shred (.d l.name i))))) ++
        [(nv, .products (win.map fun i => .shred (.d l.name i)))], reqs⟩,
    ⟨setAll st.node l.outputs (.shred (.max l.name), nv), setAll st.layout l.outputs d.layout⟩)

/-- `build_batchnorm_layer`, circuit_builder.rs:1552-1656. -/
def bnStep (m : Model) (l : Layer) (st : St) : R (Block × St) := do
  let x ← need l.inputs[0]? "no input"
  let (node, nv) ← need (st.node x) "input has no num_vars"
  let rb := rescaleBlock m l (.products [node, .shred (.mul l.name)]) (.node (.shred (.addend l.name))) nv
  .ok (⟨[⟨.mul l.name, nv, true⟩, ⟨.addend l.name, nv, true⟩, ⟨.q l.name, nv, false⟩, ⟨.r l.name, nv, false⟩],
      rb.1, rb.2⟩,
    ⟨setAll st.node l.outputs (.shred (.q l.name), nv), setOpt st.layout l.outputs (st.layout x)⟩)

/-- An operand of an addition: a tensor, else a constant of the layer, circuit_builder.rs:1687-1735. -/
def operand (l : Layer) (st : St) (t : String) : R (Node × Nat × List Shred) :=
  match st.node t with
  | some (n, nv) => .ok (n, nv, [])
  | none => do
    let w ← need (l.weights t) "input not in tensor_nodes or weights"
    let nv := numVars w.data.length
    .ok (.shred (.operand l.name t), nv, [⟨.operand l.name t, nv, true⟩])

/-- `build_addsub_layer`, circuit_builder.rs:1658-1769. -/
def addStep (l : Layer) (st : St) : R (Block × St) := do
  let a ← need l.inputs[0]? "no first input"
  let b ← need l.inputs[1]? "no second input"
  if (st.node a).isNone ∧ (st.node b).isNone then .error "no computed tensor inputs"
  else
    let (na, va, sa) ← operand l st a
    let (nb, vb, sb) ← operand l st b
    if va ≠ vb then .error "lengths differ"
    else
      let e : Expr := if l.op = .add then .add (.node na) (.node nb) else .sub (.node na) (.node nb)
      .ok (⟨sa ++ sb ++ [⟨.result l.name, va, false⟩], [(va, .sub e (.node (.shred (.result l.name))))], []⟩,
        ⟨setAll st.node l.outputs (.shred (.result l.name), va),
         setOpt st.layout l.outputs ((st.layout a).or (st.layout b))⟩)

/-- Cast, Reshape, Flatten, Squeeze, Unsqueeze, circuit_builder.rs:486-527: the outputs are the input, with
the layout of the input. -/
def shapeStep (l : Layer) (st : St) : R (Block × St) := do
  let x ← need l.inputs[0]? "no inputs"
  let n ← need (st.node x) "input not in tensor_nodes"
  .ok ({}, ⟨setAll st.node l.outputs n, setOpt st.layout l.outputs (st.layout x)⟩)

/-- `add_committed_passthrough`, circuit_builder.rs:127-181: a committed vector and no constraint. -/
def passStep (l : Layer) (keep : Bool) (st : St) : R (Block × St) :=
  let lay := layoutFrom l.outputShape (l.inputs[0]?.bind st.layout)
  let cap := match keep, lay with
    | true, some (.hwc h w _ stride) => h * w * stride
    | _, _ => l.outputShape.prod
  let nv := numVars cap
  .ok (⟨[⟨.out l.name, nv, false⟩], [], []⟩,
    ⟨setAll st.node l.outputs (.shred (.out l.name), nv),
     if keep then setOpt st.layout l.outputs lay else clearAll st.layout l.outputs⟩)

/-- Gather, circuit_builder.rs:528-594: as `add_committed_passthrough`, for constant indices along axis 0. -/
def gatherStep (l : Layer) (st : St) : R (Block × St) := do
  let idx ← need (l.inputs[1]?.bind l.weights) "indices must be a constant initializer"
  let raw := (l.intAttr "axis").getD 0
  let axis := if raw < 0 then raw + ((l.outputShape.length + 1 - idx.shape.length : Nat) : Int) else raw
  if axis ≠ 0 then .error "only axis=0 is supported" else passStep l true st

/-- Constant, circuit_builder.rs:672-694: a committed vector and no constraint. -/
def constStep (l : Layer) (st : St) : R (Block × St) :=
  match l.value with
  | some v =>
    let nv := numVars (max v.length 1)
    .ok (⟨[⟨.out l.name, nv, false⟩], [], []⟩, { st with node := setAll st.node l.outputs (.shred (.out l.name), nv) })
  | none => .ok ({}, st)

/-- The parts of a Split, circuit_builder.rs:716-738. -/
def splitSizes (l : Layer) (axisDim : Nat) : List Nat :=
  let even := if 0 < l.outputs.length ∧ axisDim % l.outputs.length = 0 then
    List.replicate l.outputs.length (axisDim / l.outputs.length) else []
  match l.inputs[1]?.filter (· ≠ "") with
  | some s => match l.weights s with
    | some w => w.data.map Int.toNat
    | none => even
  | none => match l.intsAttr "split" with
    | some v => v.map Int.toNat
    | none => even

/-- Split, circuit_builder.rs:695-753: every output is the whole input, with the length of the part. -/
def splitStep (m : Model) (l : Layer) (st : St) : R (Block × St) := do
  let x ← need l.inputs[0]? "no data input"
  let shape := (((m.layers.find? fun l' => x ∈ l'.outputs).map (·.outputShape)).or (m.inputShapes x)).getD
    l.outputShape
  let raw := (l.intAttr "axis").getD 0
  let axis := if raw < 0 then (shape.length + raw).toNat else raw.toNat
  if axis ≥ shape.length ∨ (raw < 0 ∧ shape.length + raw < 0) then .error "axis out of range"
  else
    let dim := shape.getD axis 0
    let nvOf := fun i : Nat => numVars (max (shape.set axis ((splitSizes l dim).getD i dim)).prod 1)
    .ok ({}, ⟨fun t => match l.outputs.idxOf? t, st.node x with
        | some i, some (n, _) => some (n, nvOf i)
        | _, _ => st.node t,
      setOpt st.layout l.outputs (st.layout x)⟩)

/-- The layer loop of `build_circuit`, circuit_builder.rs:351-766. -/
def step (m : Model) (l : Layer) (st : St) : R (Block × St) :=
  match l.op with
  | .gemm => gemmStep m l st
  | .conv => convStep m l st
  | .relu => reluStep m l st
  | .maxPool => poolStep m l st
  | .add | .sub => addStep l st
  | .batchNorm => bnStep m l st
  | .cast | .reshape | .flatten | .squeeze | .unsqueeze => shapeStep l st
  | .gather => gatherStep l st
  | .layerNorm | .resize | .gridSample | .concat | .slice | .where => passStep l true st
  | .transpose => passStep l false st
  | .constant => constStep l st
  | .split => splitStep m l st
  | .exp | .softmax | .sigmoid | .gelu | .tile | .topK | .shape | .log | .expand | .reduceMean =>
    .error "not yet constrained"
  | .other => .error "unsupported op type"

/-- All layers. -/
def steps (m : Model) : List Layer → St → R (List Block × St)
  | [], st => .ok ([], st)
  | l :: ls, st => do
    let (b, st') ← step m l st
    let (bs, st'') ← steps m ls st'
    .ok (b :: bs, st'')

/-- The range checks, circuit_builder.rs:796-842: above nine bits the value is split into two committed
chunks. The result is the extra vectors, the extra expressions and the lookups (node, logarithmic length,
bits of the table). -/
def splitReq (r : Req) : List Shred × List (Nat × Expr) × List (Node × Nat × Nat) :=
  if r.tableNv ≤ chunkBits then ([], [], [(r.node, r.nodeNv, r.tableNv)])
  else
    ([⟨.lo r.name, r.nodeNv, false⟩, ⟨.hi r.name, r.nodeNv, false⟩],
     [(r.nodeNv, .sub (.add (.node (.shred (.lo r.name))) (.scaled (.node (.shred (.hi r.name))) (2 ^ chunkBits)))
        (.node r.node))],
     [(.shred (.lo r.name), r.nodeNv, chunkBits), (.shred (.hi r.name), r.nodeNv, r.tableNv - chunkBits)])

/-- A circuit: its vectors, the expressions that must be zero, and the lookups. -/
structure Circuit where
  shreds : List Shred
  outs : List (Nat × Expr)
  lookups : List (Node × Nat × Nat)
  deriving DecidableEq

/-- The initial state of the builder, circuit_builder.rs:284-324. -/
def initSt (m : Model) (nv : Nat) : St :=
  ⟨fun n => if n ∈ m.inputNames then some (.shred (.input (m.inputNames.headD "")), nv) else none, inputLayouts m⟩

/-- `build_circuit`, circuit_builder.rs:280-890, for `base = 2`. -/
def build (m : Model) (inputSize : Nat) : R Circuit := do
  if m.inputNames.length > 1 then .error "multi-input models not supported"
  else
    let inp ← need m.inputNames.head? "model has no input names"
    let nv := numVars inputSize
    if m.outputNames.length ≠ 1 then .error "expected exactly 1 output"
    else if m.exponent ≥ 63 then .error "exponent is too large"
    else
      let (bs, st) ← steps m m.layers (initSt m nv)
      let (node, ov) ← need (st.node (m.outputNames.headD "")) "declared output not found"
      let reqs := bs.flatMap (·.reqs)
      let lookups := reqs.flatMap fun r => (splitReq r).2.2
      .ok ⟨⟨.input inp, nv, true⟩ :: ⟨.expected, ov, true⟩ :: (bs.flatMap (·.shreds) ++
            reqs.flatMap (fun r => (splitReq r).1) ++ lookups.map fun q => ⟨.table q.2.2, q.2.2, true⟩),
        (ov, .sub (.node node) (.node (.shred .expected))) :: (bs.flatMap (·.outs) ++
          reqs.flatMap fun r => (splitReq r).2.1),
        lookups⟩

/-! ## Public values -/

/-- A public vector: its length and its entries. -/
abbrev Vec := Nat × (Nat → Int)

/-- The state of `prepare_public_shreds`: sizes and layouts of the tensors. -/
structure PSt where
  size : Tab Nat
  layout : Tab Layout

/-- The public bias of a layer. -/
def biasOf (l : Layer) : List Int := ((l.inputs[2]?.bind l.weights).map (·.data)).getD []

/-- The entry of a Gemm's weight for inner index `k` and outer index `n`. -/
def gemmWeight (l : Layer) (w : Weight) (K N k n : Nat) : Int :=
  if k < K ∧ n < N then (if l.flag "transB" then w.data.getD (n * K + k) 0 else w.data.getD (k * N + n) 0) else 0

/-- The public vectors of a layer and the sizes and layouts after it, witness.rs:3320-4060. For operators
that add no public vector only size and layout are tracked; those of the committed operators have no influence
on the public vectors of the operators treated here and are simplified to size and layout of the builder. -/
def pubStep (l : Layer) (st : PSt) : R (List (SName × Vec) × PSt) :=
  match l.op with
  | .gemm => do
    let (k, n, w) ← gemmDims l
    if w.data.length < k * n then .error "pad_matrix"
    else
      let np := nextPow2 n
      .ok ([(.weight l.name, (nextPow2 k * np, fun i => gemmWeight l w k n (i / np) (i % np))),
          (.bias l.name, (np, fun i => (biasOf l).getD i 0))],
        { st with size := setAll st.size l.outputs np })
  | .conv => do
    let x ← need l.inputs[0]? "no input"
    let inp ← need (st.layout x) "input has no spatial layout"
    let (d, w) ← convDims l inp
    let patch := d.cIn * d.kh * d.kw
    let co := nextPow2 d.cOut
    if w.data.length < d.cOut * patch then .error "pad_matrix"
    else .ok ([(.weight l.name, (nextPow2 patch * co, fun i =>
            if i / co < patch ∧ i % co < d.cOut then w.data.getD (i % co * patch + i / co) 0 else 0)),
          (.bias l.name, (nextPow2 (d.outH * d.outW) * co, fun i =>
            if i % co < d.cOut then (biasOf l).getD (i % co) 0 else 0))],
        ⟨setAll st.size l.outputs (nextPow2 (d.outH * d.outW) * co), setAll st.layout l.outputs d.layout⟩)
  | .relu => do
    let x ← need l.inputs[0]? "no input"
    let sz ← need (st.size x) "input not found in tensor_sizes"
    .ok ([(.zero l.name, (2 ^ numVars sz, fun _ => 0))],
      ⟨setAll st.size l.outputs sz, setOpt st.layout l.outputs (st.layout x)⟩)
  | .maxPool => do
    let x ← need l.inputs[0]? "no input"
    let inp ← need (st.layout x) "input has no spatial layout"
    let d ← poolDims l inp
    .ok ([], ⟨setAll st.size l.outputs (nextPow2 (d.outH * d.outW * d.c)), setAll st.layout l.outputs d.layout⟩)
  | .batchNorm => do
    let x ← need l.inputs[0]? "no input"
    let mul ← need (l.inputs[1]?.bind l.weights) "missing mul"
    let add ← need (l.inputs[2]?.bind l.weights) "missing add"
    if mul.data.length ≠ add.data.length then .error "mul/add length mismatch"
    else
      let sz ← need (st.size x) "input not found in tensor_sizes"
      let fm ← broadcastCh mul.data (st.layout x) sz
      let fa ← broadcastCh add.data (st.layout x) sz
      .ok ([(.mul l.name, (nextPow2 sz, fm)), (.addend l.name, (nextPow2 sz, fa))],
        ⟨setAll st.size l.outputs (nextPow2 sz), setOpt st.layout l.outputs (st.layout x)⟩)
  | .add | .sub => do
    let a ← need l.inputs[0]? "no first input"
    let b ← need l.inputs[1]? "no second input"
    let sa ← need ((st.size a).or ((l.weights a).map (·.data.length))) "missing weight"
    let sb ← need ((st.size b).or ((l.weights b).map (·.data.length))) "missing weight"
    let sz := nextPow2 (max sa sb)
    let op := fun t : String => match st.size t, l.weights t with
      | none, some w => [(SName.operand l.name t, ((sz, fun i => w.data.getD i 0) : Vec))]
      | _, _ => []
    .ok (op b ++ op a, ⟨setAll st.size l.outputs sz, setOpt st.layout l.outputs ((st.layout a).or (st.layout b))⟩)
  | .cast | .reshape | .flatten | .squeeze | .unsqueeze => do
    let x ← need l.inputs[0]? "no input"
    let sz ← need (st.size x) "input not found in tensor_sizes"
    .ok ([], ⟨setAll st.size l.outputs sz, setOpt st.layout l.outputs (st.layout x)⟩)
  | .transpose => .ok ([], ⟨setAll st.size l.outputs (nextPow2 l.outputShape.prod), clearAll st.layout l.outputs⟩)
  | .constant => .ok ([], match l.value with
      | some v => { st with size := setAll st.size l.outputs (nextPow2 (max v.length 1)) }
      | none => st)
  | .other => .error "unsupported op type"
  | _ => .ok ([], ⟨setAll st.size l.outputs (nextPow2 l.outputShape.prod),
      setOpt st.layout l.outputs (layoutFrom l.outputShape (l.inputs[0]?.bind st.layout))⟩)

/-- All layers. -/
def pubSteps : List Layer → PSt → R (List (SName × Vec) × PSt)
  | [], st => .ok ([], st)
  | l :: ls, st => do
    let (b, st') ← pubStep l st
    let (bs, st'') ← pubSteps ls st'
    .ok (b ++ bs, st'')

/-- The tables of one width in the plan: nine bits and the rest above nine, at most eighteen. -/
def planOf (bits : Nat) : R (List Nat) :=
  if bits ≤ chunkBits then .ok [bits]
  else if bits ≤ 2 * chunkBits then .ok [chunkBits, bits - chunkBits]
  else .error "exceeds two-chunk range-check capacity"

/-- The tables of one layer in the plan. -/
def planLayer (e : Nat) (l : Layer) : R (List Nat) :=
  match l.op with
  | .gemm | .conv | .batchNorm => planOf e
  | .relu => match l.nBits with
    | some b => planOf (deltaNv b e)
    | none => .ok []
  | .maxPool => match l.nBits with
    | some b => match l.intsAttr "kernel_shape" with
      | some [a, b'] => if a ≤ 0 ∨ b' ≤ 0 then .error "kernel_shape" else planOf (deltaNv b e)
      | _ => .error "kernel_shape"
    | none => .ok []
  | _ => .ok []

/-- `compute_range_check_plan`, range_checks.rs:60-182: the widths of the tables. -/
def plan (m : Model) : R (List Nat) := do
  let ps ← m.layers.mapM (planLayer m.exponent)
  .ok ps.flatten

/-- `prepare_public_shreds`, witness.rs:3269-4091, for a model whose widths are those of the proof. -/
def publicShreds (m : Model) (input expected : List Int) : R (SName → Option Vec) := do
  let inp ← need m.inputNames.head? "model has no input names"
  if m.exponent ≥ 63 then .error "exponent is too large"
  else if (m.inputShapes inp).any (fun s => s.prod ≠ input.length) then .error "input size mismatch"
  else
    let st0 : PSt := ⟨fun n => if n = inp then some (nextPow2 input.length) else none, inputLayouts m⟩
    let (vs, _) ← pubSteps m.layers st0
    let tables ← plan m
    .ok fun s => match s with
      | .input t => if t = inp then some (nextPow2 input.length, fun i => input.getD i 0) else none
      | .expected => some (nextPow2 expected.length, fun i => expected.getD i 0)
      | .table nv => if nv ∈ tables then some (2 ^ nv, fun i => (i : Int)) else none
      | s => (vs.reverse.find? fun q => q.1 = s).map (·.2)

/-! ## Acceptance -/

/-- The relation a circuit states for public values: every public vector is given with the right length, and
committed values exist such that every expression is zero and every looked-up value is in its table. -/
def Circuit.Holds (p : Nat) (C : Circuit) (pub : SName → Option Vec) : Prop :=
  (∀ s ∈ C.shreds, s.pub = true → ∃ v, pub s.name = some v ∧ v.1 = 2 ^ s.nv) ∧
  ∃ env : SName → Nat → ZMod p,
    (∀ s ∈ C.shreds, s.pub = true → ∀ v, pub s.name = some v → ∀ i < 2 ^ s.nv, env s.name i = (v.2 i : ZMod p)) ∧
    (∀ e ∈ C.outs, ∀ i < 2 ^ e.1, e.2.eval env i = 0) ∧
    (∀ q ∈ C.lookups, ∀ i < 2 ^ q.2.1, ∃ j < 2 ^ q.2.2, q.1.eval env i = env (.table q.2.2) j)

/-- What the verifier accepts, verify.rs:18-120: the widths come from the proof, and so does the expected
output. -/
def Accepts (p : Nat) (m : Model) (input expected : List Int) (obs : String → Option Nat) : Prop :=
  ∃ pub C, publicShreds (m.withBits obs) input expected = .ok pub ∧
    build (m.withBits obs) (nextPow2 input.length) = .ok C ∧ C.Holds p pub

end JST.Remainder
