import Mathlib.Algebra.BigOperators.Group.Finset.Basic
import Mathlib.Algebra.Field.Basic
import Mathlib.Algebra.BigOperators.Intervals

/-!
# The product argument of the sparse WHIR commitment

poly_commit/src/whir/sparse/product_argument.rs. A prover convinces a verifier of the product of `2^k` field
elements, up to one evaluation of their multilinear extension.

Simplifications. A table is a function of the index, of which the first `2^n` values matter, and `n` is
passed along instead of the length. The transcript is any machine that absorbs and draws field elements.
-/

namespace JST.Product

variable {F S : Type} [Field F]

/-- The transcript: `append_field_element` and `generate_field_element`. -/
structure Tr (F S : Type) where
  append : S → F → S
  draw : S → F × S

/-- types.rs:471-482 `eval_eq_at_index`: bits of `addr` from the lowest on. -/
def eqAt : List F → Nat → F
  | [], _ => 1
  | z :: zs, i => (if i % 2 = 1 then z else 1 - z) * eqAt zs (i / 2)

/-- product_argument.rs:391-398 `eq_eval`. -/
def eqEval : List F → List F → F
  | a :: as, b :: bs => (a * b + (1 - a) * (1 - b)) * eqEval as bs
  | _, _ => 1

/-- The levels of the product tree. product_argument.rs:116-131 `build_product_tree`. -/
def level (leaves : Nat → F) : Nat → Nat → F
  | 0, i => leaves i
  | l + 1, i => level leaves l (2 * i) * level leaves l (2 * i + 1)

/-- Binding the lowest variable of a table. product_argument.rs:240-248. -/
def fold (r : F) (t : Nat → F) (i : Nat) : F := t (2 * i) * (1 - r) + t (2 * i + 1) * r

/-- The sum of the products of three tables. product_argument.rs:213-220. -/
def sum3 (h : Nat) (q l r : Nat → F) : F := ∑ i ∈ Finset.range h, q i * l i * r i

/-- `ProductRound`. product_argument.rs:78-81. -/
structure Round (F : Type) where
  g0 : F
  g1 : F
  g2 : F
  g3 : F

/-- The message of a round on tables of `2 h` entries. product_argument.rs:206-223. -/
def roundMsg (h : Nat) (q l r : Nat → F) : Round F :=
  let g := fun e : F => sum3 h (fold e q) (fold e l) (fold e r)
  ⟨g 0, g 1, g 2, g 3⟩

/-- product_argument.rs:412-436 `lagrange_interpolate_degree3`. -/
def lagrange3 (m : Round F) (r : F) : F :=
  m.g0 * ((r - 1) * (r - 2) * (r - 3) * -(6⁻¹)) + m.g1 * (r * (r - 2) * (r - 3) * 2⁻¹) +
    m.g2 * (r * (r - 1) * (r - 3) * -(2⁻¹)) + m.g3 * (r * (r - 1) * (r - 2) * 6⁻¹)

/-- Absorbing a round message. product_argument.rs:231-233 and 345-347. -/
def absorbRound (tr : Tr F S) (s : S) (m : Round F) : S :=
  tr.append (tr.append (tr.append (tr.append s m.g0) m.g1) m.g2) m.g3

/-- The rounds of one layer on the prover's side; returns the messages, the challenges, the two final
evaluations and the transcript. product_argument.rs:205-262. -/
def proveRounds (tr : Tr F S) : Nat → S → (q l r : Nat → F) → List (Round F) × List F × F × F × S
  | 0, s, _, l, r => ([], [], l 0, r 0, s)
  | n + 1, s, q, l, r =>
    let m := roundMsg (2 ^ n) q l r
    let d := tr.draw (absorbRound tr s m)
    let rest := proveRounds tr n d.2 (fold d.1 q) (fold d.1 l) (fold d.1 r)
    (m :: rest.1, d.1 :: rest.2.1, rest.2.2)

/-- `ProductLayerProof`. product_argument.rs:90-95. -/
structure LayerProof (F : Type) where
  rounds : List (Round F)
  left : F
  right : F

/-- Reductions from level `l` down to the leaves; `point` has `k - l` coordinates. Returns the layer proofs, the
last point and the transcript. product_argument.rs:178-292. -/
def proveLayers (tr : Tr F S) (leaves : Nat → F) : Nat → List F → S → List (LayerProof F) × List F × S
  | 0, point, s => ([], point, s)
  | l + 1, point, s =>
    let next := level leaves l
    let R := proveRounds tr point.length s (eqAt point) (fun i => next (2 * i)) (fun i => next (2 * i + 1))
    let s' := tr.append (tr.append R.2.2.2.2 R.2.2.1) R.2.2.2.1
    let d := tr.draw s'
    let rest := proveLayers tr leaves l (d.1 :: R.2.1) d.2
    (⟨R.1, R.2.2.1, R.2.2.2.1⟩ :: rest.1, rest.2)

/-- product_argument.rs:154-303 `prove_product_circuit`: root, proof and final transcript. -/
def prove (tr : Tr F S) (k : Nat) (leaves : Nat → F) (s : S) : F × List (LayerProof F) × S :=
  let root := level leaves k 0
  let R := proveLayers tr leaves k [] (tr.append s root)
  (root, R.1, R.2.2)

/-- The rounds of one layer on the verifier's side: challenges, last claim and transcript.
product_argument.rs:340-351. -/
def verifyRounds [DecidableEq F] (tr : Tr F S) : List (Round F) → F → S → Option (List F × F × S)
  | [], running, s => some ([], running, s)
  | m :: ms, running, s =>
    if m.g0 + m.g1 ≠ running then none
    else
      let d := tr.draw (absorbRound tr s m)
      match verifyRounds tr ms (lagrange3 m d.1) d.2 with
      | none => none
      | some R => some (d.1 :: R.1, R.2)

/-- The loop over the layers; the number of rounds expected is that of the coordinates so far.
product_argument.rs:332-378. -/
def verifyLayers [DecidableEq F] (tr : Tr F S) : List (LayerProof F) → List F → F → S → Option (List F × F × S)
  | [], point, claim, s => some (point, claim, s)
  | L :: Ls, point, claim, s =>
    if L.rounds.length ≠ point.length then none
    else match verifyRounds tr L.rounds claim s with
      | none => none
      | some R =>
        let s' := tr.append (tr.append R.2.2 L.left) L.right
        if eqEval R.1 point * L.left * L.right ≠ R.2.1 then none
        else
          let d := tr.draw s'
          verifyLayers tr Ls (d.1 :: R.1) ((1 - d.1) * L.left + d.1 * L.right) d.2

/-- product_argument.rs:311-384 `verify_product_circuit`: leaf point, leaf evaluation and final transcript. -/
def verify [DecidableEq F] (tr : Tr F S) (k : Nat) (root : F) (proof : List (LayerProof F)) (s : S) :
    Option (List F × F × S) :=
  let s' := tr.append s root
  if proof.length ≠ k then none else verifyLayers tr proof [] root s'

end JST.Product
