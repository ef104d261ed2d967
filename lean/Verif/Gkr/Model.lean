import Verif.Gkr.Mle
import Verif.Gkr.Proto

/-!
# The GKR prover and verifier

Model of /repo/prover/gkr/src/{prover,verifier}/gkr_vanilla.rs, gkr/src/verifier/common.rs,
sumcheck/src/{sumcheck,verifier_helper,utils}.rs, sumcheck/src/prover_helper/{product_gate,simd_gate,
sumcheck_gkr_vanilla}.rs and the evaluation of layered circuits in circuit/src/layered/circuit.rs.

Simplifications:
* one field `K` for circuit values, challenges and coefficients (the code embeds the circuit field in the
  challenge field; every use of an embedded value is by the field operations);
* one MPI process: the MPI rounds are empty, combining over processes is the identity, and the MPI
  equality factor is the empty product;
* scratch buffers are functions from index to content, without capacities; loops change exactly the
  entries the code's loops change, so stale content is visible;
* a packed value is the function from lane to value, of which the `2 ^ s` first lanes are used;
* gates' random coefficients are already filled in (`fill_rnd_coefs` runs before both prover and verifier);
* the fields of characteristic two (`GF2Ext128` branches) are left out.
-/

namespace JST.Gkr

variable {K : Type} [Field K]

/-- A packed value, by lane. -/
abbrev Pack (K : Type) := Nat → K

/-! ### Layered circuits -/

/-- `GateMul`, circuit/src/layered/gates.rs. -/
structure MulGate (K : Type) where
  o : Nat
  i0 : Nat
  i1 : Nat
  coef : K
  deriving DecidableEq

/-- `GateAdd`. -/
structure AddGate (K : Type) where
  o : Nat
  i : Nat
  coef : K
  deriving DecidableEq

/-- The value of a constant gate: a coefficient or a public input, `CoefType`. -/
inductive CstVal (K : Type) where
  | coef (c : K)
  | pub (idx : Nat)
  deriving DecidableEq

/-- `GateConst`. -/
structure CstGate (K : Type) where
  o : Nat
  val : CstVal K
  deriving DecidableEq

/-- The unary gates `evaluate` knows, circuit.rs:68-79. Other gate types panic there; they are not modelled. -/
inductive UniKind where
  | pow5
  | copy
  deriving DecidableEq

/-- `GateUni`. -/
structure UniGate (K : Type) where
  o : Nat
  i : Nat
  kind : UniKind
  coef : K
  deriving DecidableEq

/-- `CircuitLayer`, circuit.rs:17-30. -/
structure Layer (K : Type) where
  inVars : Nat
  outVars : Nat
  mul : List (MulGate K)
  add : List (AddGate K)
  cst : List (CstGate K)
  uni : List (UniGate K)
  deriving DecidableEq

/-- `structure_info.skip_sumcheck_phase_two`, circuit.rs:124-126. -/
def Layer.skip (l : Layer K) : Bool := l.mul.isEmpty

/-- `buf[o] += x`. -/
def addAt {V : Type} [Add V] (buf : Nat → V) (o : Nat) (x : V) : Nat → V :=
  fun j => if j = o then buf j + x else buf j

/-- The value a constant gate adds in the evaluation, circuit.rs:58-61. -/
def CstVal.eval (pub : Nat → Pack K) : CstVal K → Pack K
  | .coef c => fun _ => c
  | .pub idx => pub idx

/-- The value a unary gate adds, circuit.rs:68-77. -/
def UniKind.eval (k : UniKind) (x : Pack K) : Pack K :=
  match k with
  | .pow5 => (x * x) * (x * x) * x
  | .copy => x

/-- `CircuitLayer::evaluate`, circuit.rs:34-81. -/
def Layer.evaluate (l : Layer K) (pub w : Nat → Pack K) : Nat → Pack K :=
  let res : Nat → Pack K := fun _ => 0
  let res := l.mul.foldl (fun res g => addAt res g.o (g.coef • (w g.i0 * w g.i1))) res
  let res := l.add.foldl (fun res g => addAt res g.o (g.coef • w g.i)) res
  let res := l.cst.foldl (fun res g => addAt res g.o (g.val.eval pub)) res
  l.uni.foldl (fun res g => addAt res g.o (g.coef • g.kind.eval (w g.i))) res

/-- `Circuit::evaluate`, circuit.rs:304-339: the output values. -/
def evalCircuit (pub : Nat → Pack K) : List (Layer K) → (Nat → Pack K) → Nat → Pack K
  | [], w => w
  | l :: ls, w => evalCircuit pub ls (l.evaluate pub w)

/-! ### Challenges -/

/-- `ExpanderDualVarChallenge`, gkr_engine/src/transcript/challenge.rs:9-18, without `r_mpi`. -/
structure Chal (K : Type) where
  rz0 : List K
  rz1 : Option (List K)
  rSimd : List K

/-- `ExpanderSingleVarChallenge::sample_from_transcript`, challenge.rs:61-76, and `into`. -/
def sampleChal (outVars s : Nat) : VM K (Chal K) := do
  let rz ← squeezeN outVars
  let rSimd ← squeezeN s
  pure ⟨rz, none, rSimd⟩

/-- `unpack_and_combine`, sumcheck/src/utils.rs:11-23. -/
def combine (s : Nat) (p : Pack K) (coef : Nat → K) : K := ∑ l ∈ Finset.range (2 ^ s), p l * coef l

/-! ### Verifier -/

section Verifier

variable [DecidableEq K]

/-- `try_deserialize_field`, common.rs:12-17. -/
def readField : VM K (K × Bool) := do
  match ← readOpt with
  | some v => pure (v, true)
  | none => pure (0, false)

/-- The reading loop of `verify_sumcheck_step`, common.rs:30-35. -/
def readAbsorb : Nat → VM K (List K × Bool)
  | 0 => pure ([], true)
  | n + 1 => do
    let v ← readField
    absorb v.1
    let vs ← readAbsorb n
    pure (v.1 :: vs.1, v.2 && vs.2)

/-- `degree_2_eval`, verifier_helper.rs:399-402. -/
def deg2Eval (p0 p1 p2 x : K) : K :=
  let c0 := p0
  let c2 := 2⁻¹ * (p2 - p1 - p1 + p0)
  let c1 := p1 - p0 - c2
  c0 + (c2 * x + c1) * x

/-- `lag_eval`, verifier_helper.rs:426-449, with the points and the inverted denominators of
scratch_pad.rs:138-178. -/
def lagEval (vals : List K) (x : K) : K :=
  let others (i : Nat) : List Nat := (List.range vals.length).filter (· ≠ i)
  ((List.range vals.length).map fun (i : Nat) =>
    ((others i).map fun (j : Nat) => x - (j : K)).prod *
      (((others i).map fun (j : Nat) => (i : K) - (j : K)).prod)⁻¹ * vals.getD i 0).sum

/-- `verify_sumcheck_step`, common.rs:20-53: whether the step is accepted, the challenge and the new claim. -/
def verifyStep (deg : Nat) (claim : K) : VM K (Bool × K × K) := do
  let ps ← readAbsorb (deg + 1)
  let r ← squeeze
  let ok := ps.2 && decide (ps.1.getD 0 0 + ps.1.getD 1 0 = claim)
  if deg = 2 then pure (ok, r, deg2Eval (ps.1.getD 0 0) (ps.1.getD 1 0) (ps.1.getD 2 0) r)
  else if deg = 3 then pure (ok, r, lagEval ps.1 r)
  else if deg = 6 then pure (ok, r, lagEval ps.1 r)
  else pure (false, r, claim)

/-- A loop of steps, common.rs:99-108, 111-120, 143-152: whether all are accepted, the challenges and the
final claim. -/
def verifyRounds (deg : Nat) : Nat → K → VM K (Bool × List K × K)
  | 0, sum => pure (true, [], sum)
  | n + 1, sum => do
    let a ← verifyStep deg sum
    let b ← verifyRounds deg n a.2.2
    pure (a.1 && b.1, a.2.1 :: b.2.1, b.2.2)

/-- What the verifier keeps between layers: `challenge`, `claimed_v0`, `claimed_v1`, `alpha`, `verified` of
`gkr_verify`, and the buffers of `VerifierScratchPad` that carry content from layer to layer. -/
structure VState (K : Type) where
  chal : Chal K
  v0 : K
  v1 : Option K
  alpha : Option K
  verified : Bool
  eqRz0 : Nat → K
  eqRx : Nat → K
  eqRy : Nat → K

/-- `eq_evals_at_rz0` after `prepare_layer`, verifier_helper.rs:27-45. -/
def prepareRz0 (l : Layer K) (isOut : Bool) (st : VState K) : Nat → K :=
  if isOut then eqEvalAt st.chal.rz0 1 st.eqRz0
  else
    let copied : Nat → K := fun i => if i < 2 ^ st.chal.rz0.length then st.eqRx i else st.eqRz0 i
    match st.alpha, st.chal.rz1 with
    | some a, some _ => fun i => if i < 2 ^ l.outVars then copied i + a * st.eqRy i else copied i
    | _, _ => copied

/-- `eval_cst`, verifier_helper.rs:120-158. `eqSimd` is the table at `r_simd`. -/
def evalCst (s : Nat) (gates : List (CstGate K)) (pub : Nat → Pack K) (eqRz0 eqSimd : Nat → K) : K :=
  (gates.map fun g =>
    match g.val with
    | .pub idx => eqRz0 g.o * combine s (pub idx) eqSimd
    | .coef c => eqRz0 g.o * c).sum

/-- `eval_add`, verifier_helper.rs:161-169. -/
def evalAdd (gates : List (AddGate K)) (eqRz0 eqRx : Nat → K) (eqSimdXy : K) : K :=
  (gates.map fun g => eqRz0 g.o * eqRx g.i * g.coef).sum * eqSimdXy

/-- `eval_mul`, verifier_helper.rs:172-181. -/
def evalMul (gates : List (MulGate K)) (eqRz0 eqRx eqRy : Nat → K) (eqSimdXy : K) : K :=
  (gates.map fun g => eqRz0 g.o * (eqRx g.i0 * eqRy g.i1 * g.coef)).sum * eqSimdXy

/-- `sumcheck_verify_gkr_layer`, common.rs:58-170, with `s` SIMD variables. The assertions at 72-73 hold in
every run of `gkrVerify`. -/
def verifyLayer (s : Nat) (l : Layer K) (pub : Nat → Pack K) (isOut : Bool) (st : VState K) :
    VM K (VState K) := do
  let eqRz0 := prepareRz0 l isOut st
  let eqSimd := eqEvalAt st.chal.rSimd 1 (fun _ => 0)
  let sum := match st.v1, st.alpha with
    | some v1, some a => st.v0 + v1 * a
    | _, _ => st.v0
  let sum := sum - evalCst s l.cst pub eqRz0 eqSimd
  let x ← verifyRounds 2 l.inVars sum
  let eqRx := eqEvalAt x.2.1 1 st.eqRx
  let y ← verifyRounds 3 s x.2.2
  let eqXy := eqVec st.chal.rSimd y.2.1
  let vx ← readField
  let sum := y.2.2 - vx.1 * evalAdd l.add eqRz0 eqRx eqXy
  absorb vx.1
  if l.skip then
    pure { st with
      chal := ⟨x.2.1, none, y.2.1⟩, v0 := vx.1, v1 := none,
      verified := st.verified && (x.1 && y.1 && vx.2 && decide (sum = 0)),
      eqRz0 := eqRz0, eqRx := eqRx }
  else do
    let z ← verifyRounds 2 l.inVars sum
    let eqRy := eqEvalAt z.2.1 1 st.eqRy
    let vy ← readField
    absorb vy.1
    pure { st with
      chal := ⟨x.2.1, some z.2.1, y.2.1⟩, v0 := vx.1, v1 := some vy.1,
      verified := st.verified && (x.1 && y.1 && vx.2 && z.1 && vy.2 &&
        decide (z.2.2 = vx.1 * vy.1 * evalMul l.mul eqRz0 eqRx eqRy eqXy)),
      eqRz0 := eqRz0, eqRx := eqRx, eqRy := eqRy }

/-- The update of `alpha` after each layer, verifier/gkr_vanilla.rs:66-70. -/
def nextAlphaV (st : VState K) : VM K (VState K) :=
  match st.chal.rz1 with
  | some _ => do
    let a ← squeeze
    pure { st with alpha := some a }
  | none => pure { st with alpha := none }

/-- The loop over the layers, verifier/gkr_vanilla.rs:46-71, last layer first. -/
def verifyLayers (s : Nat) (pub : Nat → Pack K) : List (Layer K) → VState K → VM K (VState K)
  | [], st => pure st
  | l :: ls, st => do
    let st ← verifyLayers s pub ls st
    let st ← verifyLayer s l pub ls.isEmpty st
    nextAlphaV st

/-- The verifier's state when the loop starts, verifier/gkr_vanilla.rs:26, 37-45. -/
def VState.init (chal : Chal K) (claimed : K) : VState K :=
  ⟨chal, claimed, none, none, true, fun _ => 0, fun _ => 0, fun _ => 0⟩

/-- `gkr_verify` once the output challenge is drawn, verifier/gkr_vanilla.rs:37-80. -/
def gkrVerifyFrom (s : Nat) (layers : List (Layer K)) (pub : Nat → Pack K) (claimed : K) (chal : Chal K) :
    VM K (VState K) := do
  absorbLocked claimed
  verifyLayers s pub layers (VState.init chal claimed)

/-- The number of output variables of the last layer, verifier/gkr_vanilla.rs:32. -/
def outVarsOf (layers : List (Layer K)) : Nat := (layers.getLast?.map (·.outVars)).getD 0

/-- `gkr_verify`, verifier/gkr_vanilla.rs:11-81. -/
def gkrVerify (s : Nat) (layers : List (Layer K)) (pub : Nat → Pack K) (claimed : K) :
    VM K (VState K) := do
  let chal ← sampleChal (outVarsOf layers) s
  gkrVerifyFrom s layers pub claimed chal

end Verifier

/-! ### Prover -/

/-- The buffers the product rounds work on: `v_evals`, `hg_evals`, `gate_exists_5`. -/
structure Bufs (K : Type) where
  v : Nat → Pack K
  hg : Nat → Pack K
  ge : Nat → Bool

/-- `SumcheckProductGateHelper::evaluate`, product_gate.rs:19-51. -/
def prodEvaluate (m : Nat) (f hg : Nat → Pack K) (ge : Nat → Bool) : Pack K × Pack K × Pack K :=
  let live (i : Nat) (x : Pack K) : Pack K := if !ge (2 * i) && !ge (2 * i + 1) then 0 else x
  (∑ i ∈ Finset.range m, live i (hg (2 * i) * f (2 * i)),
   ∑ i ∈ Finset.range m, live i (hg (2 * i + 1) * f (2 * i + 1)),
   ∑ i ∈ Finset.range m, live i ((hg (2 * i) + hg (2 * i + 1)) * (f (2 * i) + f (2 * i + 1))))

/-- `poly_eval_at`, product_gate.rs:64-101, outside characteristic two. -/
def prodPolyEval (m : Nat) (f hg : Nat → Pack K) (ge : Nat → Bool) : Pack K × Pack K × Pack K :=
  let p := prodEvaluate m f hg ge
  (p.1, p.2.1, (6 : K) • p.2.1 + (3 : K) • p.1 - (2 : K) • p.2.2)

/-- `receive_challenge`, product_gate.rs:105-137; `src` is `init_v` in the first round and the buffer
itself afterwards. -/
def prodReceive (m : Nat) (r : K) (src : Nat → Pack K) (b : Bufs K) : Bufs K where
  v := fun i => if i < m then src (2 * i) + r • (src (2 * i + 1) - src (2 * i)) else b.v i
  hg := fun i =>
    if i < m then
      if !b.ge (2 * i) && !b.ge (2 * i + 1) then 0
      else b.hg (2 * i) + r • (b.hg (2 * i + 1) - b.hg (2 * i))
    else b.hg i
  ge := fun i => if i < m then !(!b.ge (2 * i) && !b.ge (2 * i + 1)) else b.ge i

/-- The rounds over the input variables, sumcheck.rs:49-54 (`post` is the identity) and 86-90 (`post`
multiplies by `phase2_coef`, sumcheck_gkr_vanilla.rs:154-166). `m` rounds are left. -/
def proveRounds (s : Nat) (eqSimd : Nat → K) (post : K → K) (init : Nat → Pack K) :
    (m : Nat) → (first : Bool) → Bufs K → VM K (List K × Bufs K)
  | 0, _, b => pure ([], b)
  | m + 1, first, b => do
    let src := if first then init else b.v
    let p := prodPolyEval (2 ^ m) src b.hg b.ge
    absorb (post (combine s p.1 eqSimd))
    absorb (post (combine s p.2.1 eqSimd))
    absorb (post (combine s p.2.2 eqSimd))
    let r ← squeeze
    let rest ← proveRounds s eqSimd post init m false (prodReceive (2 ^ m) r src b)
    pure (r :: rest.1, rest.2)

/-- `poly_eval_at`, simd_gate.rs:25-89, outside characteristic two: the values at 0, 1, 2, 3. -/
def simdPolyEval (m : Nat) (e f h : Nat → K) : K × K × K × K :=
  (∑ i ∈ Finset.range m, e (2 * i) * f (2 * i) * h (2 * i),
   ∑ i ∈ Finset.range m, e (2 * i + 1) * f (2 * i + 1) * h (2 * i + 1),
   ∑ i ∈ Finset.range m, (e (2 * i + 1) + (e (2 * i + 1) - e (2 * i))) *
      (f (2 * i + 1) + (f (2 * i + 1) - f (2 * i))) * (h (2 * i + 1) + (h (2 * i + 1) - h (2 * i))),
   ∑ i ∈ Finset.range m,
      (e (2 * i + 1) + (e (2 * i + 1) - e (2 * i)) + (e (2 * i + 1) - e (2 * i))) *
      (f (2 * i + 1) + (f (2 * i + 1) - f (2 * i)) + (f (2 * i + 1) - f (2 * i))) *
      (h (2 * i + 1) + (h (2 * i + 1) - h (2 * i)) + (h (2 * i + 1) - h (2 * i))))

/-- The rounds over the SIMD variables, sumcheck.rs:58-64, and simd_gate.rs:168-184. -/
def proveSimd : (m : Nat) → (e f h : Nat → K) → VM K (List K × (Nat → K) × (Nat → K) × (Nat → K))
  | 0, e, f, h => pure ([], e, f, h)
  | m + 1, e, f, h => do
    let p := simdPolyEval (2 ^ m) e f h
    absorb p.1
    absorb p.2.1
    absorb p.2.2.1
    absorb p.2.2.2
    let r ← squeeze
    let rest ← proveSimd m (foldTo (2 ^ m) r e) (foldTo (2 ^ m) r f) (foldTo (2 ^ m) r h)
    pure (r :: rest.1, rest.2)

/-- What the prover keeps between layers: the challenge, `alpha`, and `ProverScratchPad`. -/
structure PState (K : Type) where
  chal : Chal K
  alpha : Option K
  bufs : Bufs K
  eqRz0 : Nat → K
  eqRx : Nat → K
  eqSimd0 : Nat → K

/-- `eq_evals_at_rz0` after `prepare_x_vals`, sumcheck_gkr_vanilla.rs:263-288. -/
def proverRz0 (isOut : Bool) (st : PState K) : Nat → K :=
  match isOut, st.chal.rz1, st.alpha with
  | false, some rz1, some a =>
    let t := eqEvalAt rz1 a st.eqRz0
    fun i => if i < 2 ^ st.chal.rz0.length then t i + st.eqRx i else t i
  | _, _, _ => eqEvalAt st.chal.rz0 1 st.eqRz0

/-- `prepare_x_vals`, sumcheck_gkr_vanilla.rs:245-301. -/
def prepareX (l : Layer K) (w : Nat → Pack K) (eqRz0 : Nat → K) (b : Bufs K) : Bufs K :=
  let hg : Nat → Pack K := fun i => if i < 2 ^ l.inVars then 0 else b.hg i
  let ge : Nat → Bool := fun i => if i < 2 ^ l.inVars then false else b.ge i
  let hg := l.mul.foldl (fun hg g => addAt hg g.i0 ((eqRz0 g.o * g.coef) • w g.i1)) hg
  let ge := l.mul.foldl (fun ge g => Function.update ge g.i0 true) ge
  let hg := l.add.foldl (fun hg g => addAt hg g.i fun _ => eqRz0 g.o * g.coef) hg
  let ge := l.add.foldl (fun ge g => Function.update ge g.i true) ge
  ⟨b.v, hg, ge⟩

/-- `prepare_y_vals`, sumcheck_gkr_vanilla.rs:319-375: the buffers. -/
def prepareY (l : Layer K) (eqRz0 eqRx : Nat → K) (b : Bufs K) : Bufs K :=
  let hg : Nat → Pack K := fun i => if i < 2 ^ l.inVars then 0 else b.hg i
  let ge : Nat → Bool := fun i => if i < 2 ^ l.inVars then false else b.ge i
  let hg := l.mul.foldl (fun hg g => addAt hg g.i1 fun _ => eqRz0 g.o * eqRx g.i0 * g.coef) hg
  let ge := l.mul.foldl (fun ge g => Function.update ge g.i1 true) ge
  ⟨b.v, hg, ge⟩

/-- `sumcheck_prove_gkr_layer`, sumcheck.rs:27-107. `w` is `layer.input_vals`. -/
def proveLayer (s : Nat) (l : Layer K) (w : Nat → Pack K) (isOut : Bool) (st : PState K) :
    VM K (PState K) := do
  let eqSimd := if isOut || st.alpha.isNone then eqEvalAt st.chal.rSimd 1 st.eqSimd0 else st.eqSimd0
  let eqRz0 := proverRz0 isOut st
  let x ← proveRounds s eqSimd id w l.inVars true (prepareX l w eqRz0 st.bufs)
  let y ← proveSimd s eqSimd (x.2.v 0) (x.2.hg 0)
  let vx := y.2.2.1 0
  absorb vx
  if l.skip then
    pure { st with
      chal := ⟨x.1, none, y.1⟩, bufs := x.2, eqRz0 := eqRz0, eqSimd0 := y.2.1 }
  else do
    let phase2 := eqVec ([] : List K) [] * y.2.1 0 * vx
    let eqRx := eqEvalAt x.1 1 st.eqRx
    let eqSimd' := eqEvalAt y.1 1 y.2.1
    let z ← proveRounds s eqSimd' (fun p => p * phase2) w l.inVars true (prepareY l eqRz0 eqRx x.2)
    let vy := combine s (z.2.v 0) eqSimd'
    absorb vy
    pure { st with
      chal := ⟨x.1, some z.1, y.1⟩, bufs := z.2, eqRz0 := eqRz0, eqRx := eqRx, eqSimd0 := eqSimd' }

/-- The update of `alpha` after each layer, prover/gkr_vanilla.rs:64-71. -/
def nextAlphaP (st : PState K) : VM K (PState K) :=
  match st.chal.rz1 with
  | some _ => do
    let a ← squeeze
    pure { st with alpha := some a }
  | none => pure { st with alpha := none }

/-- The loop over the layers, prover/gkr_vanilla.rs:43-73, last layer first. `w` is the input of the first
layer of the list; the inputs of the others are those `Circuit::evaluate` stored. -/
def proveLayers (s : Nat) (pub : Nat → Pack K) : List (Layer K) → (Nat → Pack K) → PState K →
    VM K (PState K)
  | [], _, st => pure st
  | l :: ls, w, st => do
    let st ← proveLayers s pub ls (l.evaluate pub w) st
    let st ← proveLayer s l w ls.isEmpty st
    nextAlphaP st

/-- `collectively_eval_circuit_vals_at_expander_challenge`, gkr_engine/src/field_engine/definition.rs:
102-140, for one process. -/
def evalAtChallenge (vals : Nat → Pack K) (rz rSimd : List K) : K := evalFold rSimd (evalFold rz vals)

/-- `gkr_prove` once the output challenge is drawn, prover/gkr_vanilla.rs:28-76. -/
def gkrProveFrom (s : Nat) (layers : List (Layer K)) (pub w : Nat → Pack K) (sp : Bufs K) (chal : Chal K) :
    VM K (K × PState K) := do
  let claimed := evalAtChallenge (evalCircuit pub layers w) chal.rz0 chal.rSimd
  absorbLocked claimed
  let st ← proveLayers s pub layers w ⟨chal, none, sp, fun _ => 0, fun _ => 0, fun _ => 0⟩
  pure (claimed, st)

/-- `gkr_prove`, prover/gkr_vanilla.rs:12-76. `sp` is the initial content of the scratch pad. -/
def gkrProve (s : Nat) (layers : List (Layer K)) (pub w : Nat → Pack K) (sp : Bufs K) :
    VM K (K × PState K) := do
  let chal ← sampleChal (outVarsOf layers) s
  gkrProveFrom s layers pub w sp chal

end JST.Gkr
