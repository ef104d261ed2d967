import Mathlib.Algebra.Algebra.Basic
import Verif.Pcs.Fft
import Verif.Crypto.Merkle

/-!
# The BaseFold polynomial commitment

Model of /repo/prover/poly_commit/src/basefold/{encoding,commit,open,verify,types,pcs_trait_impl}.rs. `K` is the
circuit field (`F` in the code), `L` the challenge field (`EvalF`); `EvalF::from` and `mul_by_base_field` are the
embedding of `K` in `L`. Field elements are field elements here, except where the code looks at their memory:
the leaves of a Merkle tree are the bytes of the limbs (tree/src/tree.rs:72-96), so the memory image of a codeword
is an argument of the prover. Keccak and the transcript are parameters. A panic, and a query loop that does not
end within `fuel` batches, are `none`.
-/

namespace JST.Pcs

open JST.Merkle

/-- Bytes of a leaf. -/
abbrev Mem := List UInt8

/-- `LEAF_BYTES`, tree/src/leaf.rs:10. -/
def leafBytes : Nat := 64

/-- `RATE_LOG`, types.rs:7. -/
def rateLog : Nat := 2

/-- `BASEFOLD_NUM_QUERIES`, types.rs:8, with `PCS_SOUNDNESS_BITS = 128`. -/
def numQueries : Nat := (128 * 2 + rateLog - 1) / rateLog

/-- The constants and the serialisation of a field: `Field::SIZE` and `deserialize_from` on that many bytes, which
may refuse them. -/
structure Codec (K : Type) where
  size : Nat
  de : Mem → Option K

/-- The elements in a leaf. -/
def Codec.perLeaf {K : Type} (c : Codec K) : Nat := leafBytes / c.size

/-- The transcript: `append_field_element`, `append_commitment`, `generate_field_element` and
`generate_usize_vector`. -/
structure Transcript (τ L N : Type) where
  field : τ → L → τ
  node : τ → N → τ
  challenge : τ → L × τ
  usizes : τ → Nat → List Nat × τ

variable {K L N τ : Type} [Field K] [Field L] [Algebra K L]

/-! ### Encoding and folding, encoding.rs -/

/-- `reverse_bits`, encoding.rs:5-10. -/
def reverseBits (x bits : Nat) : Nat := if bits = 0 then 0 else revBits 64 x >>> (64 - bits)

/-- One step of `bit_reverse_slice`, encoding.rs:18-23. -/
def bitReverseSliceStep {T : Type} (bits : Nat) (a : List T) (i : Nat) : List T :=
  if i < reverseBits i bits then swap a i (reverseBits i bits) else a

/-- `bit_reverse_slice`, encoding.rs:12-24. -/
def bitReverseSlice {T : Type} (a : List T) : List T :=
  if a.length ≤ 1 then a
  else (List.range a.length).foldl (bitReverseSliceStep (Nat.log 2 a.length)) a

/-- `rs_encode_with_rate`, encoding.rs:30-42, on representations. -/
def rsEncodeWithRate {R : Type} (O : Ops R) (F : FftField R) (evals : List R) (rate : Nat) : Option (List R) :=
  if evals.length ≠ 2 ^ Nat.log 2 evals.length then none
  else
    (fftInPlace O F (evals ++ List.replicate (evals.length * 2 ^ rate - evals.length) O.zero)).map bitReverseSlice

/-- `rs_encode`, encoding.rs:26-28. -/
def rsEncode {R : Type} (O : Ops R) (F : FftField R) (evals : List R) : Option (List R) :=
  rsEncodeWithRate O F evals rateLog

/-- `verifier_folding_coeff`, encoding.rs:44-48; the generator is never zero. -/
def foldCoeff (F : FftField K) (level index : Nat) : K :=
  (F.gen (level + 1))⁻¹ ^ reverseBits index level * 2⁻¹

/-- `compute_twiddle_coeffs`, encoding.rs:50-60. -/
def twiddleCoeffs (F : FftField K) (level : Nat) : List K := (List.range (2 ^ level)).map (foldCoeff F level)

/-- `codeword_fold_single`, encoding.rs:104-118. -/
def foldSingle (left right challenge : L) (tw : K) : L :=
  let lo := (left + right) * algebraMap K L 2⁻¹
  let hi := (left - right) * algebraMap K L tw
  lo + challenge * (hi - lo)

/-- `fold_codeword`, encoding.rs:83-102, and, on the embedded codeword, `fold_codeword_first_round`,
encoding.rs:62-81. -/
def foldCodeword (cw : List L) (challenge : L) (tws : List K) : Option (List L) :=
  if tws.length ≠ cw.length / 2 then none
  else some ((List.range (cw.length / 2)).map fun i =>
    foldSingle (cw.getD (2 * i) 0) (cw.getD (2 * i + 1) 0) challenge (tws.getD i 0))

/-! ### Messages, types.rs -/

/-- `BasefoldCommitment`, types.rs:35-38. -/
structure Commitment (N : Type) where
  root : N
  numVars : Nat

/-- `SumcheckRoundMessage`, types.rs:56-60. -/
structure RoundMsg (L : Type) where
  at1 : L
  at2 : L

/-- `FriRoundProof`, types.rs:203-208. -/
structure RoundProof (L N : Type) where
  leafProof : Path Mem N
  siblingProof : Path Mem N
  leafValues : List L
  siblingValues : List L

/-- `FriQueryProof`, types.rs:161-165. -/
structure QueryProof (L N : Type) where
  leafProof : Path Mem N
  siblingProof : Path Mem N
  rounds : List (RoundProof L N)

/-- `BasefoldOpening`, types.rs:79-84. -/
structure Opening (L N : Type) where
  commitments : List N
  messages : List (RoundMsg L)
  finalPoly : List L
  queries : List (QueryProof L N)

/-- What the code is generic over: the two fields with their serialisation, the hash and the transcript. -/
structure Setup (K L N τ : Type) where
  F : FftField K
  base : Codec K
  ext : Codec L
  hash : Hash Mem N
  T : Transcript τ L N

/-- `min_tree_elems`, open.rs:11-14, verify.rs:8-11. -/
def minTreeElems (S : Setup K L N τ) : Nat := max (2 * S.ext.perLeaf) 4

/-! ### Queries, open.rs:228-247, verify.rs:317-336 -/

/-- The loop over one batch, open.rs:235-243: new indices are appended until there are enough. -/
def addBatch (len target : Nat) (indices : List Nat) (batch : List Nat) : List Nat :=
  batch.foldl (fun acc x =>
    if acc.length = target then acc else if x % len ∈ acc then acc else acc ++ [x % len]) indices

/-- The loop over the batches, open.rs:233-244. -/
def queryLoop (T : Transcript τ L N) (len target : Nat) : Nat → τ → List Nat → Option (List Nat × τ)
  | fuel, tr, indices =>
    if target ≤ indices.length then some (indices, tr)
    else match fuel with
      | 0 => none
      | fuel + 1 =>
        let (batch, tr) := T.usizes tr (target - indices.length)
        queryLoop T len target fuel tr (addBatch len target indices batch)

/-- `generate_query_indices`, open.rs:228-247. -/
def genQueries (T : Transcript τ L N) (fuel : Nat) (tr : τ) (len : Nat) : Option (List Nat × τ) :=
  queryLoop T len (min numQueries len) fuel tr []

/-! ### Committing, commit.rs -/

/-- `compact_new_with_packed_field_elems`, tree/src/tree.rs:72-96, on the memory of the elements: consecutive
groups of 64 bytes are the leaves. -/
def leavesOf (size : Nat) (mem : List Mem) : Option (List Mem) :=
  if mem.length * size % leafBytes ≠ 0 ∨ mem.length ≠ 2 ^ Nat.log 2 mem.length then none
  else
    let bytes := mem.flatten
    some ((List.range (mem.length * size / leafBytes)).map fun i => (bytes.drop (i * leafBytes)).take leafBytes)

variable [Inhabited N]

/-- `Tree::compact_new_with_field_elems`, tree/src/tree.rs:57-69 (the fields pack one element). -/
def treeOf (h : Hash Mem N) (size : Nat) (mem : List Mem) : Option (Tree Mem N) :=
  (leavesOf size mem).bind (newWithLeaves h)

/-- `basefold_commit`, commit.rs:7-18, after the encoding: the tree over the memory of the codeword and the
commitment. `n` is the number of evaluations. -/
def commitTree (S : Setup K L N τ) (n : Nat) (mem : List Mem) : Option (Commitment N × Tree Mem N) := do
  let t ← treeOf S.hash S.base.size mem
  let r ← t.root
  some (⟨r, Nat.log 2 n⟩, t)

/-! ### Opening, open.rs -/

/-- `compute_sumcheck_round`, open.rs:16-44. -/
def sumcheckMsg (f eq : List L) : RoundMsg L :=
  (List.range (f.length / 2)).foldl (fun m i =>
    let f0 := f.getD (2 * i) 0
    let f1 := f.getD (2 * i + 1) 0
    let e0 := eq.getD (2 * i) 0
    let e1 := eq.getD (2 * i + 1) 0
    ⟨m.at1 + f1 * e1, m.at2 + (f1 + f1 - f0) * (e1 + e1 - e0)⟩) ⟨0, 0⟩

/-- `fold_table`, open.rs:46-52. -/
def foldTable (t : List L) (r : L) : List L :=
  (List.range (t.length / 2)).map fun i => t.getD (2 * i) 0 * (1 - r) + t.getD (2 * i + 1) 0 * r

/-- The inner loop of `build_eq_table`, open.rs:60-67: the index goes down. -/
def eqPass (k : Nat) (u : L) (size : Nat) (eq : List L) : List L :=
  (List.range size).reverse.foldl (fun eq i =>
    if i / 2 ^ k % 2 = 1 then eq.set i (eq.getD (i - 2 ^ k) 0 * u)
    else eq.set i (eq.getD i 0 * (1 - u))) eq

/-- `build_eq_table`, open.rs:54-70. -/
def buildEqTable (u : List L) : List L :=
  (u.zipIdx).foldl (fun eq p => eqPass p.2 p.1 (2 ^ u.length) eq) (List.replicate (2 ^ u.length) 1)

/-- What one round of the prover leaves behind: its message, and either the committed codeword with its tree and
root or the codeword absorbed in the clear. -/
inductive Absorbed (L N : Type) where
  | commit (root : N) (tree : Tree Mem N) (cw : List L)
  | final (cw : List L)
  | nothing

/-- Absorbing what the round ends with, open.rs:126-142. -/
def Transcript.absorb (T : Transcript τ L N) (tr : τ) : Absorbed L N → τ
  | .commit root _ _ => T.node tr root
  | .final cw => cw.foldl T.field tr
  | .nothing => tr

/-- The end of a round, open.rs:126-142: the folded codeword is committed if it is long enough, and otherwise sent in
the clear the first time. -/
def roundEnd (S : Setup K L N τ) (mem : Nat → List L → List Mem) (round : Nat) (folded : List L) (captured : Bool) :
    Option (Absorbed L N × Bool) :=
  if folded.length ≥ minTreeElems S then
    (treeOf S.hash S.ext.size (mem round folded)).bind fun t => t.root.map fun root =>
      (.commit root t folded, captured)
  else if captured then some (.nothing, captured)
  else some (.final folded, true)

/-- The loop of `basefold_open`, open.rs:103-145, from round `round` on, `left` rounds before the end. `mem` gives the
memory image of the folded codeword of each round. The vectors the loop pushes to are the components of the list;
the last codeword and the transcript come with it. -/
def proveRounds (S : Setup K L N τ) (mem : Nat → List L → List Mem) (codewordLog : Nat) :
    Nat → Nat → List L → List L → List L → Bool → τ →
      Option (List (RoundMsg L × Absorbed L N) × List L × τ)
  | 0, _, _, _, cw, _, tr => some ([], cw, tr)
  | left + 1, round, f, eq, cw, captured, tr =>
    let m := sumcheckMsg f eq
    let c := S.T.challenge (S.T.field (S.T.field tr m.at1) m.at2)
    (foldCodeword cw c.1 (twiddleCoeffs S.F (codewordLog - 1 - round))).bind fun folded =>
    (roundEnd S mem round folded captured).bind fun e =>
    (proveRounds S mem codewordLog left (round + 1) (foldTable f c.1) (foldTable eq c.1) folded e.2
      (S.T.absorb c.2 e.1)).map fun rest => ((m, e.1) :: rest.1, rest.2.1, rest.2.2)

/-- The committed rounds, in order. -/
def committedOf : List (RoundMsg L × Absorbed L N) → List (N × Tree Mem N × List L)
  | [] => []
  | (_, .commit root t cw) :: rest => (root, t, cw) :: committedOf rest
  | _ :: rest => committedOf rest

/-- The captured final codeword. -/
def finalOf : List (RoundMsg L × Absorbed L N) → Option (List L)
  | [] => none
  | (_, .final cw) :: _ => some cw
  | _ :: rest => finalOf rest

/-- One pair of leaves of a tree, open.rs:169-174, 189-203: the second is the first again when both elements lie in
the same leaf. -/
def openPair (t : Tree Mem N) (evenLeaf oddLeaf : Nat) : Option (Path Mem N × Path Mem N) := do
  let p ← indexQuery t evenLeaf
  let q ← if oddLeaf ≠ evenLeaf then indexQuery t oddLeaf else some p
  some (p, q)

/-- The loop over the committed rounds of a query, open.rs:179-215. -/
def openRounds (e : Nat) : List (N × Tree Mem N × List L) → Nat → Option (List (RoundProof L N))
  | [], _ => some []
  | (_, t, cw) :: rest, idx => do
    let even := idx / 2 * 2
    let leaf := even / e
    let partner := (even + 1) / e
    let (p, q) ← openPair t leaf partner
    let vals := fun l => (cw.take (min (l * e + e) cw.length)).drop (l * e)
    let rps ← openRounds e rest (idx / 2)
    some (⟨p, q, vals leaf, if partner ≠ leaf then vals partner else vals leaf⟩ :: rps)

/-- One query, open.rs:161-222. -/
def openQuery (S : Setup K L N τ) (t0 : Tree Mem N) (rounds : List (N × Tree Mem N × List L)) (q : Nat) :
    Option (QueryProof L N) := do
  let even := q / 2 * 2
  let (p, s) ← openPair t0 (even / S.base.perLeaf) ((even + 1) / S.base.perLeaf)
  let rps ← openRounds S.ext.perLeaf rounds (q / 2)
  some ⟨p, s, rps⟩

/-- `basefold_open`, open.rs:73-226. `evals` are the evaluations, `cw` the initial codeword, both embedded in `L`;
`t0` is the tree of the commitment. -/
def openBf (S : Setup K L N τ) (fuel : Nat) (mem : Nat → List L → List Mem) (evals cw : List L) (t0 : Tree Mem N) (numVars : Nat)
    (point : List L) (tr : τ) : Option (Opening L N × τ) :=
  if point.length ≠ numVars ∨ evals.length ≠ 2 ^ numVars then none
  else do
    let codewordLog := numVars + rateLog
    let (rounds, last, tr) ← proveRounds S mem codewordLog numVars 0 evals (buildEqTable point) cw false tr
    let (qs, tr) ← genQueries S.T fuel tr (2 ^ codewordLog)
    let cr := committedOf rounds
    let qps ← qs.mapM (openQuery S t0 cr)
    some (⟨cr.map (·.1), rounds.map (·.1), (finalOf rounds).getD last, qps⟩, tr)

/-! ### Verifying, verify.rs -/

/-- `extrapolate_degree2`, verify.rs:13-23. -/
def extrapolate2 (e0 e1 e2 x : L) : L :=
  let a := (e2 - e1 - e1 + e0) * 2⁻¹
  let b := e1 - e0 - a
  e0 + x * (b + x * a)

/-- `compute_eq_eval`, verify.rs:25-32; the callers pass lists of the same length. -/
def eqEval (challenges point : List L) : L :=
  (challenges.zip point).foldl (fun acc p => acc * ((1 - p.1) * (1 - p.2) + p.1 * p.2)) 1

/-- `extract_base_from_leaf`, verify.rs:283-290. -/
def extractBase (c : Codec K) (data : Mem) (offset : Nat) : Option K :=
  if offset * c.size + c.size > data.length then none
  else c.de ((data.drop (offset * c.size)).take c.size)

/-- `verify_leaf_values`, verify.rs:292-315. -/
def leafValuesOk [DecidableEq L] (c : Codec L) (data : Mem) (values : List L) : Bool :=
  decide (leafBytes ≤ data.length) && decide (values.length = c.perLeaf) &&
    values.zipIdx.all fun p =>
      decide (p.2 * c.size + c.size ≤ data.length) &&
        decide (c.de ((data.drop (p.2 * c.size)).take c.size) = some p.1)

/-- The checks on the shape of the opening, verify.rs:45-80. -/
def shapeOk (S : Setup K L N τ) (com : Commitment N) (point : List L) (op : Opening L N) : Bool :=
  let log := com.numVars + rateLog
  let c := op.commitments.length
  decide (point.length = com.numVars) && decide (com.numVars ≠ 0) && decide (log < 64) &&
    decide (op.messages.length = com.numVars) && decide (c < com.numVars) &&
    (decide (c = 0) || decide (minTreeElems S ≤ 2 ^ (log - c))) &&
    decide (2 ^ (log - 1 - c) < minTreeElems S) &&
    decide (op.finalPoly.length = 2 ^ (log - 1 - c))

/-- What the verifier absorbs at the end of round `round`, verify.rs:99-106. -/
def verifierAbsorb (S : Setup K L N τ) (log : Nat) (op : Opening L N) (round : Nat) (tr : τ) : Option τ :=
  if 2 ^ (log - 1 - round) ≥ minTreeElems S ∧ round < op.commitments.length then
    (op.commitments[round]?).map (S.T.node tr)
  else if round = op.commitments.length then some (op.finalPoly.foldl S.T.field tr)
  else some tr

/-- The loop over the rounds, verify.rs:85-107: the challenges, the last claim and the transcript. -/
def verifyRounds (S : Setup K L N τ) (log : Nat) (op : Opening L N) :
    Nat → Nat → L → τ → Option (List L × L × τ)
  | 0, _, claim, tr => some ([], claim, tr)
  | left + 1, round, claim, tr =>
    (op.messages[round]?).bind fun m =>
    let c := S.T.challenge (S.T.field (S.T.field tr m.at1) m.at2)
    (verifierAbsorb S log op round c.2).bind fun tr =>
    (verifyRounds S log op left (round + 1) (extrapolate2 (claim - m.at1) m.at1 m.at2 c.1) tr).map fun rest =>
      (c.1 :: rest.1, rest.2)

/-- The loop that folds the final codeword with the remaining challenges, verify.rs:109-129; `rounds` is
`(committed_rounds + 1)..num_vars`. -/
def foldRest (F : FftField K) (log : Nat) (challenges : List L) : List Nat → List L → List L
  | [], cw => cw
  | r :: rs, cw =>
    if cw.length / 2 = 0 then cw
    else foldRest F log challenges rs ((List.range (cw.length / 2)).map fun i =>
      foldSingle (cw.getD (2 * i) 0) (cw.getD (2 * i + 1) 0) (challenges.getD r 0) (foldCoeff F (log - 1 - r) i))

variable [DecidableEq L] [DecidableEq N]

/-- The loop over the committed rounds of a query, verify.rs:199-279, from round `round` on, with the value that the
previous fold gave for position `idx`. The comparison with the final codeword, which the code makes before the loop
when no round was committed and in its last iteration otherwise, is made at the end. -/
def verifyQueryRounds (S : Setup K L N τ) (log : Nat) (challenges finalPoly : List L) :
    List (RoundProof L N × N) → Nat → Nat → L → Option Bool
  | [], _, idx, cur => do
    let v ← finalPoly[idx]?
    some (decide (v = cur))
  | (rp, root) :: rest, round, idx, cur => do
    let e := S.ext.perLeaf
    let even := idx / 2 * 2
    let odd := even + 1
    let leaf := even / e
    let partner := odd / e
    if !rp.leafProof.verify S.hash root then some false
    else if rp.leafProof.index ≠ leaf then some false
    else if !leafValuesOk S.ext rp.leafProof.leaf rp.leafValues then some false
    else if idx % e ≥ rp.leafValues.length then some false
    else do
      let actual ← rp.leafValues[idx % e]?
      if actual ≠ cur then some false
      else if !rp.siblingProof.verify S.hash root then some false
      else if rp.siblingProof.index ≠ partner then some false
      else if !leafValuesOk S.ext rp.siblingProof.leaf rp.siblingValues then some false
      else do
        let lo ← if idx = even then rp.leafValues[even % e]? else rp.siblingValues[even % e]?
        let hi ← if idx = even then
            (if partner = leaf then rp.leafValues[odd % e]? else rp.siblingValues[odd % e]?)
          else rp.leafValues[odd % e]?
        let r ← challenges[round + 1]?
        verifyQueryRounds S log challenges finalPoly rest (round + 1) (idx / 2)
          (foldSingle lo hi r (foldCoeff S.F (log - 2 - round) (even / 2)))

/-- One query, verify.rs:147-197. -/
def verifyQuery (S : Setup K L N τ) (root : N) (log : Nat) (op : Opening L N) (challenges : List L)
    (qp : QueryProof L N) (q : Nat) : Option Bool :=
  let e := S.base.perLeaf
  let even := q / 2 * 2
  let odd := even + 1
  if qp.rounds.length ≠ op.commitments.length then some false
  else if !qp.leafProof.verify S.hash root then some false
  else if !qp.siblingProof.verify S.hash root then some false
  else if qp.leafProof.index ≠ even / e then some false
  else if qp.siblingProof.index ≠ odd / e then some false
  else match extractBase S.base qp.leafProof.leaf (even % e) with
    | none => some false
    | some l =>
      match extractBase S.base (if odd / e = even / e then qp.leafProof.leaf else qp.siblingProof.leaf) (odd % e) with
      | none => some false
      | some r => do
        let c ← challenges[0]?
        verifyQueryRounds S log challenges op.finalPoly (qp.rounds.zip op.commitments) 0 (q / 2)
          (foldSingle (algebraMap K L l) (algebraMap K L r) c (foldCoeff S.F (log - 1) (even / 2)))

/-- The loop over the queries, verify.rs:146-280: the first failure ends it. -/
def verifyQueries (S : Setup K L N τ) (root : N) (log : Nat) (op : Opening L N) (challenges : List L) :
    List (QueryProof L N × Nat) → Option Bool
  | [] => some true
  | (qp, q) :: rest => do
    let ok ← verifyQuery S root log op challenges qp q
    if ok then verifyQueries S root log op challenges rest else some false

/-- `basefold_verify`, verify.rs:34-281. -/
def verifyBf (S : Setup K L N τ) (fuel : Nat) (com : Commitment N) (point : List L) (claimed : L) (op : Opening L N)
    (tr : τ) : Option Bool :=
  if !shapeOk S com point op then some false
  else do
    let log := com.numVars + rateLog
    let (challenges, claim, tr) ← verifyRounds S log op com.numVars 0 claimed tr
    let c := op.commitments.length
    match foldRest S.F log challenges (List.range' (c + 1) (com.numVars - (c + 1))) op.finalPoly with
    | [] => some false
    | k :: rest =>
      if rest.any (fun v => decide (v ≠ k)) then some false
      else if k * eqEval challenges point ≠ claim then some false
      else do
        let (qs, _) ← genQueries S.T fuel tr (2 ^ log)
        if op.queries.length ≠ qs.length then some false
        else verifyQueries S com.root log op challenges (op.queries.zip qs)

end JST.Pcs
