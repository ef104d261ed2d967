import Verif.Pcs.Basefold

/-!
# The WHIR polynomial commitment

Model of /repo/prover/poly_commit/src/whir/{parameters,types,pcs_trait_impl}.rs. The conventions are those of
`Verif.Pcs.Basefold`: `K` is the circuit field (`F`), `L` the challenge field (`EvalF`), Keccak and the transcript
are parameters, a panic and a query loop that does not end within `fuel` batches are `none`. The number of queries of
a round (parameters.rs:10-17) is computed in `f64` and is a parameter. The proof of work asks for zero bits
(parameters.rs:4), so `grind_pow` returns 0 and `verify_pow` returns `true`, both without touching the transcript
(pcs_trait_impl.rs:237-240, 257-260).
-/

namespace JST.Pcs.Whir

open JST.Merkle

/-- `WHIR_RATE_LOG`, parameters.rs:1. -/
def rateLog : Nat := 1

/-- `WHIR_FOLDING_FACTOR`, parameters.rs:2. -/
def foldingFactor : Nat := 4

/-- `WHIR_OOD_SAMPLES`, parameters.rs:3. -/
def oodSamples : Nat := 2

/-- `effective_rate_log`, parameters.rs:7-9. -/
def effectiveRateLog (cr : Nat) : Nat := rateLog + (cr + 1) * (foldingFactor - 1)

/-- `num_committed_rounds`, parameters.rs:20-25. -/
def committedRounds (n : Nat) : Nat := if n ≤ foldingFactor then 0 else (n - 1) / foldingFactor

/-- `WhirOpening`, types.rs:69-76. A `WhirRoundQueryProof` is a path (types.rs:51-54). -/
structure Opening (L N : Type) where
  commitments : List N
  messages : List (RoundMsg L)
  ood : List (List L)
  nonces : List Nat
  finalPoly : List L
  queries : List (List (Path Mem N))

/-- What the code is generic over: the challenge field's size in bytes and its serialisation, the roots of unity of both
fields, the hash, the transcript and the number of queries of each committed round. -/
structure Setup (K L N τ : Type) where
  F : FftField K
  E : FftField L
  size : Nat
  ser : L → Mem
  hash : Hash Mem N
  T : Transcript τ L N
  queries : Nat → Nat

variable {K L N τ : Type} [Field K] [Field L] [Algebra K L]

/-- `usize::next_power_of_two`. -/
def nextPow2 (x : Nat) : Nat := 2 ^ Nat.clog 2 x

/-- The bytes an element takes in a leaf, pcs_trait_impl.rs:67-71, 81. -/
def slot (size : Nat) : Nat := if leafBytes % size = 0 then size else nextPow2 size

/-- `elems_per_leaf`, pcs_trait_impl.rs:60-72; the assertion on the size is a panic. -/
def perLeaf (size : Nat) : Option Nat := if size ≤ leafBytes then some (leafBytes / slot size) else none

/-- The loop `for sub in 0..folds_this_round` of the verifier, pcs_trait_impl.rs:486-498: the challenges, the last
claim and the transcript. -/
def verifyFolds (T : Transcript τ L N) (messages : List (RoundMsg L)) :
    Nat → Nat → L → τ → Option (List L × L × τ)
  | 0, _, claim, tr => some ([], claim, tr)
  | left + 1, round, claim, tr =>
    (messages[round]?).bind fun m =>
    let c := T.challenge (T.field (T.field tr m.at1) m.at2)
    (verifyFolds T messages left (round + 1) (extrapolate2 (claim - m.at1) m.at1 m.at2 c.1) c.2).map fun rest =>
      (c.1 :: rest.1, rest.2)

/-- The loop over the out-of-domain values, pcs_trait_impl.rs:509-512: the point is drawn and dropped. -/
def verifyOod (T : Transcript τ L N) (tr : τ) (vals : List L) : τ :=
  vals.foldl (fun tr v => T.field (T.challenge tr).2 v) tr

/-- The loop over the rounds, pcs_trait_impl.rs:479-523, from round `cr` on, `left` committed rounds before the last
round, with `done` folds made. The inner `none` is `return false`. -/
def verifyRounds (T : Transcript τ L N) (op : Opening L N) (n : Nat) :
    Nat → Nat → Nat → L → τ → Option (Option (List L × L × τ))
  | 0, _, done, claim, tr =>
    (verifyFolds T op.messages (n - done) done claim tr).map fun r =>
      some (r.1, r.2.1, op.finalPoly.foldl T.field r.2.2)
  | left + 1, cr, done, claim, tr =>
    (verifyFolds T op.messages foldingFactor done claim tr).bind fun r =>
    (op.commitments[cr]?).bind fun root =>
    (op.ood[cr]?).bind fun vals =>
    if vals.length ≠ oodSamples then some none
    else (op.nonces[cr]?).bind fun _ =>
      (verifyRounds T op n left (cr + 1) (done + foldingFactor) r.2.1 (verifyOod T (T.node r.2.2 root) vals)).map
        fun rest => rest.map fun s => (r.1 ++ s.1, s.2)

/-- `generate_query_indices`, pcs_trait_impl.rs:162-184, after the assertion. -/
def genQueries (T : Transcript τ L N) (fuel : Nat) (tr : τ) (len count : Nat) : Option (List Nat × τ) :=
  if len = 0 then none else queryLoop T len (min count len) fuel tr []

/-- The logarithm of the length of the codeword committed in round `cr`, pcs_trait_impl.rs:545-547. -/
def roundLog (n cr : Nat) : Nat := (n - (cr + 1) * foldingFactor) + effectiveRateLog cr

/-- The number of leaves of the tree of round `cr`, pcs_trait_impl.rs:548-550. -/
def numLeaves (n epl cr : Nat) : Nat := (2 ^ roundLog n cr + epl - 1) / epl

/-- The length of the final codeword, pcs_trait_impl.rs:464-469. -/
def finalLen (n : Nat) : Nat :=
  2 ^ (if committedRounds n > 0 then effectiveRateLog (committedRounds n - 1) else rateLog)

section Verify

variable [DecidableEq L] [DecidableEq N]

/-- The checks of one round's paths, pcs_trait_impl.rs:561-569. -/
def pathsOk (h : Hash Mem N) (root : N) (proofs : List (Path Mem N)) (qs : List Nat) : Bool :=
  (proofs.zip qs).all fun p => p.1.verify h root && decide (p.1.index = p.2)

/-- The loop over the committed rounds, pcs_trait_impl.rs:542-570, from round `cr` on. -/
def verifyPaths (S : Setup K L N τ) (fuel n : Nat) (op : Opening L N) : Nat → Nat → τ → Option Bool
  | 0, _, _ => some true
  | left + 1, cr, tr =>
    (perLeaf S.size).bind fun epl =>
    (genQueries S.T fuel tr (numLeaves n epl cr) (S.queries cr)).bind fun qs =>
    (op.queries[cr]?).bind fun proofs =>
    (op.commitments[cr]?).bind fun root =>
    if proofs.length ≠ qs.1.length then some false
    else if pathsOk S.hash root proofs qs.1 then verifyPaths S fuel n op left (cr + 1) qs.2
    else some false

/-- The checks on the shape of the opening, pcs_trait_impl.rs:437-472. -/
def shapeOk (com : Commitment N) (point : List L) (op : Opening L N) : Bool :=
  decide (point.length = com.numVars) && decide (com.numVars ≠ 0) && decide (com.numVars + rateLog < 64) &&
    decide (op.messages.length = com.numVars) && decide (op.commitments.length = committedRounds com.numVars) &&
    decide (op.queries.length = op.commitments.length) && decide (op.ood.length = op.commitments.length) &&
    decide (op.nonces.length = op.commitments.length) && decide (op.finalPoly.length = finalLen com.numVars)

/-- The end of `whir_verify`, pcs_trait_impl.rs:525-572, after the rounds. -/
def verifyEnd (S : Setup K L N τ) (fuel : Nat) (com : Commitment N) (point : List L) (op : Opening L N)
    (r : List L × L × τ) : Option Bool :=
  let tr := if op.commitments.length = 0 then S.T.node r.2.2 com.root else r.2.2
  match op.finalPoly with
  | [] => none
  | k :: rest =>
    if rest.any (fun v => decide (v ≠ k)) then some false
    else if r.1.length ≠ point.length then none
    else if k * eqEval r.1 point ≠ r.2.1 then some false
    else verifyPaths S fuel com.numVars op op.commitments.length 0 tr

/-- `whir_verify`, pcs_trait_impl.rs:426-572. -/
def verify (S : Setup K L N τ) (fuel : Nat) (com : Commitment N) (point : List L) (claimed : L)
    (op : Opening L N) (tr : τ) : Option Bool :=
  if !shapeOk com point op then some false
  else
    (verifyRounds S.T op com.numVars (committedRounds com.numVars) 0 0 claimed (S.T.node tr com.root)).bind fun r =>
      match r with
      | none => some false
      | some r => verifyEnd S fuel com point op r

/-- The limits on the lengths of the vectors that `WhirOpening::deserialize_from` imposes, types.rs:109-188, with
`MAX_ROUNDS = 64`, `MAX_SUMCHECK = 256`, `MAX_QUERIES_PER_ROUND = 2^16` and `MAX_FINAL_POLY = 2^20`: an opening
beyond them is refused, whatever its bytes. -/
def readable (op : Opening L N) : Bool :=
  decide (op.commitments.length ≤ 64) && decide (op.messages.length ≤ 256) && decide (op.ood.length ≤ 64) &&
    op.ood.all (fun e => decide (e.length ≤ 256)) && decide (op.nonces.length ≤ 64) &&
    decide (op.finalPoly.length ≤ 2 ^ 20) && decide (op.queries.length ≤ 64) &&
    op.queries.all (fun q => decide (q.length ≤ 2 ^ 16))

end Verify

/-! ### Opening, pcs_trait_impl.rs:276-424 -/

section Open

variable [Inhabited N] [DecidableEq L]

/-- `re_encode`, pcs_trait_impl.rs:214-230; slicing beyond the coefficients cannot happen. -/
def reEncode (E : FftField L) (cw : List L) (oldRate newRate : Nat) : Option (List L) :=
  (ifftInPlace E (bitReverseSlice cw)).bind fun coeffs =>
  let degree := coeffs.length >>> oldRate
  let padded := coeffs.take degree ++ List.replicate ((degree <<< newRate) - degree) 0
  (fftInPlace (fieldOps L) E padded).map bitReverseSlice

/-- `evaluate_ood`, pcs_trait_impl.rs:201-212. -/
def evaluateOod (E : FftField L) (cw : List L) (z : L) : Option L :=
  (ifftInPlace E (bitReverseSlice cw)).map fun coeffs =>
    (coeffs.foldl (fun (acc : L × L) c => (acc.1 + c * acc.2, acc.2 * z)) (0, 1)).1

/-- The padded leaves of `build_tree_from_ext_codeword`, pcs_trait_impl.rs:79-94. -/
def paddedLeaves (S : Setup K L N τ) (cw : List L) : Option (List Mem) :=
  (perLeaf S.size).bind fun epl =>
  let leaves := (cw.length + epl - 1) / epl
  if leaves ≠ 2 ^ Nat.log 2 leaves then none
  else some ((List.range leaves).map fun i =>
    let bytes := (((cw.drop (i * epl)).take epl).map fun e =>
      S.ser e ++ List.replicate (slot S.size - S.size) 0).flatten
    bytes ++ List.replicate (leafBytes - bytes.length) 0)

/-- `build_tree_from_ext_codeword`, pcs_trait_impl.rs:74-97; `mem` is the memory of the codeword. -/
def treeOfCodeword (S : Setup K L N τ) (mem : List Mem) (cw : List L) : Option (Tree Mem N) :=
  if S.size > 0 ∧ leafBytes % S.size = 0 then treeOf S.hash S.size mem
  else (paddedLeaves S cw).bind (newWithLeaves S.hash)

/-- What the folding loop carries: the two tables, the codeword, its logarithm and the transcript. -/
structure State (L τ : Type) where
  f : List L
  eq : List L
  cw : List L
  cwLog : Nat
  tr : τ

/-- The loop `for sub in 0..folds_this_round` of the prover, pcs_trait_impl.rs:321-351. -/
def proveFolds (S : Setup K L N τ) : Nat → State L τ → Option (List (RoundMsg L) × State L τ)
  | 0, s => some ([], s)
  | left + 1, s =>
    let m := sumcheckMsg s.f s.eq
    let c := S.T.challenge (S.T.field (S.T.field s.tr m.at1) m.at2)
    (foldCodeword s.cw c.1 (twiddleCoeffs S.F (s.cwLog - 1))).bind fun folded =>
    (proveFolds S left ⟨foldTable s.f c.1, foldTable s.eq c.1, folded, s.cwLog - 1, c.2⟩).map fun r =>
      (m :: r.1, r.2)

/-- The out-of-domain values, pcs_trait_impl.rs:367-372. -/
def proveOod (S : Setup K L N τ) (cw : List L) : Nat → τ → Option (List L × τ)
  | 0, tr => some ([], tr)
  | left + 1, tr =>
    let z := S.T.challenge tr
    (evaluateOod S.E cw z.1).bind fun v =>
    (proveOod S cw left (S.T.field z.2 v)).map fun r => (v :: r.1, r.2)

/-- What the prover's loop pushes: the messages, and per committed round the tree, its root and the values. -/
structure Run (L N τ : Type) where
  messages : List (RoundMsg L)
  rounds : List (N × Tree Mem N × List L)
  final : List L
  tr : τ

/-- The loop over the rounds, pcs_trait_impl.rs:314-389, from round `cr` on, `left` committed rounds before the last
round, with `done` folds made and the codeword at rate `rate`. -/
def proveRounds (S : Setup K L N τ) (mem : Nat → List L → List Mem) (n : Nat) :
    Nat → Nat → Nat → Nat → State L τ → Option (Run L N τ)
  | 0, _, done, _, s =>
    (proveFolds S (n - done) s).map fun r => ⟨r.1, [], r.2.cw, r.2.cw.foldl S.T.field r.2.tr⟩
  | left + 1, cr, done, rate, s =>
    (proveFolds S foldingFactor s).bind fun r =>
    (reEncode S.E r.2.cw rate (effectiveRateLog cr)).bind fun cw =>
    (treeOfCodeword S (mem cr cw) cw).bind fun t =>
    t.root.bind fun root =>
    (proveOod S cw oodSamples (S.T.node r.2.tr root)).bind fun ood =>
    (proveRounds S mem n left (cr + 1) (done + foldingFactor) (effectiveRateLog cr)
      ⟨r.2.f, r.2.eq, cw, (n - (done + foldingFactor)) + effectiveRateLog cr, ood.2⟩).map fun rest =>
        ⟨r.1 ++ rest.messages, (root, t, ood.1) :: rest.rounds, rest.final, rest.tr⟩

/-- The loop over the queries, pcs_trait_impl.rs:403-416, from round `cr` on. -/
def openPaths (S : Setup K L N τ) (fuel : Nat) : List (Tree Mem N) → Nat → τ → Option (List (List (Path Mem N)))
  | [], _, _ => some []
  | t :: ts, cr, tr =>
    (genQueries S.T fuel tr t.leaves.length (S.queries cr)).bind fun qs =>
    (qs.1.mapM (indexQuery t)).bind fun ps =>
    (openPaths S fuel ts (cr + 1) qs.2).map fun rest => ps :: rest

/-- `whir_open`, pcs_trait_impl.rs:276-424. `evals` are the evaluations and `cw` the initial codeword, both embedded
in `L`; `root0` is the root of the tree of the commitment. -/
def openWhir (S : Setup K L N τ) (fuel : Nat) (mem : Nat → List L → List Mem) (evals cw : List L) (root0 : N) (n : Nat)
    (point : List L) (tr : τ) : Option (Opening L N) :=
  if point.length ≠ n ∨ evals.length ≠ 2 ^ n then none
  else
    (proveRounds S mem n (committedRounds n) 0 0 rateLog
      ⟨evals, buildEqTable point, cw, n + rateLog, S.T.node tr root0⟩).bind fun run =>
    let tr := if run.rounds.length = 0 then S.T.node run.tr root0 else run.tr
    (openPaths S fuel (run.rounds.map (·.2.1)) 0 tr).map fun ps =>
      ⟨run.rounds.map (·.1), run.messages, run.rounds.map (·.2.2), run.rounds.map fun _ => 0, run.final, ps⟩

end Open

end JST.Pcs.Whir
