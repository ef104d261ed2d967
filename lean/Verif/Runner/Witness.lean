import Verif.IO.Serde
import Mathlib.Data.List.GetD

/-!
# Witness files

Model of /repo/compiler/expander_compiler/src/circuit/layered/witness.rs. A packed (SIMD) field element
with `P` lanes is a function `Fin P → F`; `pack`/`unpack` are then the identity, which records the
contract of `arith::SimdField` (trusted). A panic (slice out of range, division by zero, arithmetic
overflow) is `none`.
-/

namespace JST.Witness

open JST

variable {F : Type} [Inhabited F] {P : Nat}

/-- `WitnessValues`, witness.rs:10-14. -/
inductive Values (F : Type) (P : Nat)
  | scalar (v : List F)
  | simd (v : List (Fin P → F))

/-- `Witness`, witness.rs:16-22. -/
structure Wit (F : Type) (P : Nat) where
  num : Nat
  a : Nat
  b : Nat
  values : Values F P

/-- `unpack_block`, witness.rs:24-47. -/
def unpackBlock (s : List (Fin P → F)) (a b : Nat) : List (List F × List F) :=
  List.ofFn fun j : Fin P => ((s.take a).map (· j), ((s.drop a).take b).map (· j))

/-- One packed element of `pack_block`, witness.rs:60-68: the lanes of position `i`, padded with the
last witness. Reading at `default` never happens: the indices are in range (`packBlock_index`). -/
def packAt (s : List F) (m sz i : Nat) : Fin P → F := fun j =>
  if j.val < sz then s.getD (j.val * m + i) default else s.getD ((sz - 1) * m + i) default

/-- `pack_block`, witness.rs:49-81. `a + b = 0` divides by zero; no complete witness makes
`s_size - 1` underflow (there is at least one position and one lane to fill). -/
def packBlock (P : Nat) (s : List F) (a b : Nat) : Option (List (Fin P → F) × List (Fin P → F)) :=
  if a + b = 0 then none
  else
    let sz := min (s.length / (a + b)) P
    if sz = 0 ∧ 0 < P then none
    else some ((List.range a).map (packAt s (a + b) sz),
      (List.range' a b).map (packAt s (a + b) sz))

/-- `use_simd`, witness.rs:83-85. -/
def useSimd (P num : Nat) : Bool := num > 1 && P > 1

/-- A slice `v[lo..hi]`. -/
def slice {α : Type} (v : List α) (lo hi : Nat) : Option (List α) :=
  if lo ≤ hi ∧ hi ≤ v.length then some ((v.drop lo).take (hi - lo)) else none

/-- `WitnessIteratorScalar`, witness.rs:89-127, run to the end: the remaining number of witnesses, the
index and the unpacked buffer. `mem::take` leaves empty vectors behind. -/
def scalarLoop (w : Wit F P) : Nat → Nat → List (List F × List F) → Option (List (List F × List F))
  | 0, _, _ => some []
  | n + 1, idx, buf =>
    match w.values with
    | .scalar v => do
      let x ← slice v (idx * (w.a + w.b)) (idx * (w.a + w.b) + w.a)
      let y ← slice v (idx * (w.a + w.b) + w.a) (idx * (w.a + w.b) + w.a + w.b)
      let rest ← scalarLoop w n (idx + 1) buf
      some ((x, y) :: rest)
    | .simd v =>
      if P = 0 then none
      else (if idx % P = 0 then
            (if idx / P * (w.a + w.b) ≤ v.length then
              some (unpackBlock (v.drop (idx / P * (w.a + w.b))) w.a w.b)
            else none)
          else some buf).bind fun buf => do
        let item ← buf[idx % P]?
        let rest ← scalarLoop w n (idx + 1) (buf.set (idx % P) ([], []))
        some (item :: rest)

/-- `iter_scalar().collect()`, witness.rs:162-168. -/
def iterScalar (w : Wit F P) : Option (List (List F × List F)) := scalarLoop w w.num 0 []

/-- One step of `WitnessIteratorSimd`, witness.rs:136-159. -/
def simdBlock (w : Wit F P) (idx : Nat) : Option (List (Fin P → F) × List (Fin P → F)) :=
  match w.values with
  | .scalar v =>
    if idx * P * (w.a + w.b) ≤ v.length then
      packBlock P (v.drop (idx * P * (w.a + w.b))) w.a w.b
    else none
  | .simd v => do
    let x ← slice v (idx * (w.a + w.b)) (idx * (w.a + w.b) + w.a)
    let y ← slice v (idx * (w.a + w.b) + w.a) (idx * (w.a + w.b) + w.a + w.b)
    some (x, y)

/-- `num_witnesses.div_ceil(P)`: the number of blocks. -/
def numBlocks (P num : Nat) : Nat := (num + P - 1) / P

/-- `iter_simd().collect()`, witness.rs:129-159: the loop stops at the first index with
`index * P >= num_witnesses`. -/
def iterSimd (w : Wit F P) : Option (List (List (Fin P → F) × List (Fin P → F))) :=
  (List.range (numBlocks P w.num)).mapM (simdBlock w)

/-- `convert_to_simd`, witness.rs:177-194. -/
def convertToSimd (w : Wit F P) : Option (Wit F P) :=
  match w.values with
  | .simd _ => some w
  | .scalar v => do
    let m := w.a + w.b
    let blocks ← (List.range (numBlocks P w.num)).mapM fun i =>
      if i * P * m ≤ v.length then (packBlock P (v.drop (i * P * m)) m 0).map Prod.fst else none
    some { w with values := .simd blocks.flatten }

/-- `to_simd::<SIMDField>`, witness.rs:248-293, at the configuration's own SIMD type (the type the
prover and verifier use). The printed warnings are not modelled. -/
def toSimd (w : Wit F P) : Option (List (Fin P → F) × List (Fin P → F)) :=
  match w.values with
  | .scalar v => packBlock P v w.a w.b
  | .simd v => do
    let x ← slice v 0 w.a
    let y ← slice v w.a (w.a + w.b)
    some (x, y)

/-- `CircuitField::deserialize_from` of the two supported configurations: a canonical little-endian
encoding of width `wd`, rejected when at least the modulus (serdes.rs:80-97, goldilocks.rs:68-76). -/
def deField (p wd : Nat) : De Nat := do
  let u ← readExact wd
  if leDec u < p then pure (leDec u) else De.fail .invalid

/-- `Witness::deserialize_from`, witness.rs:297-324. The multiplication and addition of the header
counts overflow the machine word: a panic (in builds without overflow checks the product wraps). -/
def deWit (p wd P : Nat) : De (Wit Nat P) := do
  let num ← readExact 8
  let a ← readExact 8
  let b ← readExact 8
  let modulus ← readExact 32
  if leDec modulus ≠ p then De.fail .invalid
  else if 2 ^ 64 ≤ leDec a + leDec b ∨ 2 ^ 64 ≤ leDec num * (leDec a + leDec b) then De.fail .panic
  else do
    let values ← deN (deField p wd) (leDec num * (leDec a + leDec b))
    if useSimd P (leDec num) then
      match convertToSimd (⟨leDec num, leDec a, leDec b, .scalar values⟩ : Wit Nat P) with
      | some r => pure r
      | none => De.fail .panic
    else pure ⟨leDec num, leDec a, leDec b, .scalar values⟩

/-- `Witness::serialize_into`, witness.rs:326-350. -/
def serWit (p wd : Nat) (w : Wit Nat P) : Option Bytes := do
  let body ← match w.values with
    | .scalar v => some (v.flatMap (leEnc wd))
    | .simd _ => (iterScalar w).map fun l => l.flatMap fun (x, y) =>
        x.flatMap (leEnc wd) ++ y.flatMap (leEnc wd)
  some (leEnc 8 w.num ++ leEnc 8 w.a ++ leEnc 8 w.b ++ leEnc 32 p ++ body)

end JST.Witness
