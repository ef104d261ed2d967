import Mathlib.Data.Fintype.CardEmbedding
import Verif.Pcs.BasefoldRounds

/-!
# Specification: the interactive game against the verifier of BaseFold

The challenges and the query indices are coins drawn after the prover has fixed what it sent before them. A prover is what
it sends, and the word behind each of its commitments, as functions of the challenges it has seen.
-/

namespace JST.Pcs

open JST.Merkle

variable {K L N : Type} [Field K] [Field L] [Algebra K L]

/-- The transcript of the interactive protocol: it hands out the coins and ignores what is absorbed. -/
def coins : Transcript (List L × List Nat) L N :=
  ⟨fun t _ => t, fun t _ => t, fun t => (t.1.headD 0, t.1.tail, t.2), fun t k => (t.2.take k, t.1, t.2.drop k)⟩

/-- A prover: the message of each round and the word behind each commitment, given the challenges so far (none for the
commitment itself), and the opening, given all coins. -/
structure Prover (L N : Type) where
  msg : List L → RoundMsg L
  word : List L → Nat → L
  opening : List L → List Nat → Opening L N

/-- The prover keeps to what it fixed. The messages and the final codeword of its opening are those it fixed before the next
challenge, and every path that verifies carries, at its index, the leaf of the word behind the root. -/
structure Keeps [DecidableEq L] [DecidableEq N] (S : Setup K L N (List L × List Nat)) (root : N) (n : Nat) (P : Prover L N) : Prop where
  msgs : ∀ rs qs, rs.length = n → ∀ i < n, (P.opening rs qs).messages[i]? = some (P.msg (rs.take i))
  final : ∀ rs qs, rs.length = n → ∀ y < (P.opening rs qs).finalPoly.length,
    (P.opening rs qs).finalPoly[y]? = some (P.word (rs.take ((P.opening rs qs).commitments.length + 1)) y)
  first : ∀ rs qs, rs.length = n → ∀ qp ∈ (P.opening rs qs).queries, ∀ p, p = qp.leafProof ∨ p = qp.siblingProof →
    p.verify S.hash root = true → ∀ o v, o < S.base.perLeaf → extractBase S.base p.leaf o = some v →
    algebraMap K L v = P.word [] (p.index * S.base.perLeaf + o)
  later : ∀ rs qs, rs.length = n → ∀ qp ∈ (P.opening rs qs).queries, ∀ (i : Nat) (rp : RoundProof L N) (root' : N),
    qp.rounds[i]? = some rp → (P.opening rs qs).commitments[i]? = some root' →
    ∀ p vals, (p = rp.leafProof ∧ vals = rp.leafValues) ∨ (p = rp.siblingProof ∧ vals = rp.siblingValues) →
    p.verify S.hash root' = true → leafValuesOk S.ext p.leaf vals = true →
    ∀ (o : Nat) v, vals[o]? = some v → v = P.word (rs.take (i + 1)) (p.index * S.ext.perLeaf + o)

/-- The indices at which the word is the codeword of `f`. -/
def agreement [DecidableEq L] (F : FftField K) (n : Nat) (w : Nat → L) (f : List L) : Finset Nat :=
  (Finset.range (2 ^ (n + 2))).filter fun q => w q = (enc F (n + 2) f).getD q 0

/-- The number of queries of a codeword of `2^(n+2)` elements: 128, or all its elements. -/
def queryCount (n : Nat) : Nat := min 128 (2 ^ (n + 2))

/-- The coins of a run with `n` rounds: a challenge for every round and distinct query indices. -/
abbrev Coins (L : Type) (n : Nat) : Type := (Fin n → L) × (Fin (queryCount n) ↪ Fin (2 ^ (n + 2)))

open Classical in
/-- The coins on which the verifier accepts the value `v` at `point` from the prover. -/
noncomputable def accepted [DecidableEq L] [DecidableEq N] [Fintype L] (S : Setup K L N (List L × List Nat)) (fuel : Nat) (root : N) (n : Nat)
    (P : Prover L N) (point : List L) (v : L) : Finset (Coins L n) :=
  Finset.univ.filter fun x =>
    verifyBf S fuel ⟨root, n⟩ point v (P.opening (List.ofFn x.1) (List.ofFn fun i => (x.2 i : Nat)))
      (List.ofFn x.1, List.ofFn fun i => (x.2 i : Nat)) = some true

end JST.Pcs
