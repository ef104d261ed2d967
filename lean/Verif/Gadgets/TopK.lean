import Verif.Gadgets.Replay
import Verif.Gadgets.Exp

/-!
# TopK

Model of /repo/rust/jstprove_circuits/src/circuit_functions/layers/topk.rs:422-560 (`compute`) and
hints/topk.rs:62-103 (`topk_hint`), for one lane along the axis; the outer loops run the same code on
every lane and store the results (`Layers.topkLayer`).
-/

namespace JST

variable {p : Nat} [Fact p.Prime]

/-- The comparator of the hint's sort: value descending, then index ascending. hints/topk.rs:86. -/
def topkLe (a b : Int × Nat) : Bool := decide (b.1 < a.1) || (a.1 == b.1 && decide (a.2 ≤ b.2))

/-- The values decoded from the field with their positions, hints/topk.rs:80-84. -/
def topkIndexed (lane : List (ZMod p)) : List (Int × Nat) :=
  (lane.map fieldToI64).zipIdx

/-- `topk_hint`, hints/topk.rs:62-103; `nOut` is `outputs.len()`. `sort_unstable_by` with a comparator
that never returns `Equal` on distinct positions has a single possible result, that of `mergeSort`. -/
def topkHint (nOut : Nat) (inputs : List (ZMod p)) : Except Err (List (ZMod p)) :=
  if nOut % 2 ≠ 0 then .error (.hint "outputs.len() must be even")
  else
    let k := nOut / 2
    if inputs.length < k + 1 then .error (.hint "expected at least k+1 inputs")
    else
      let sorted := (topkIndexed inputs.dropLast).mergeSort topkLe
      .ok ((sorted.take k).map (fun vi => i64ToField p vi.1) ++
        (sorted.take k).map fun vi => ((vi.2 : Nat) : ZMod p))

/-- The loop over the lane, topk.rs:464-485. Returns the membership products. -/
def topkElems (rc : RangeCtx) (values : List (ZMod p)) (minVal : ZMod p) (nBits : Nat) :
    List (ZMod p) → List (ZMod p) → G (ZMod p) (List (ZMod p))
  | [], prods => pure prods
  | e :: es, prods => do
    let isSel ← isZero (values.foldl (fun q v => q * (v - e)) 1)
    rangeCheck rc ((1 - isSel) * (minVal - e)) nBits
    topkElems rc values minVal nBits es (List.zipWith (fun pr v => pr * (v - e)) prods values)

/-- `assert_is_zero(membership_prods[j])`, topk.rs:487-488. -/
def assertZeros : List (ZMod p) → G (ZMod p) Unit
  | [] => pure ()
  | z :: zs => do assertZero z; assertZeros zs

/-- The loop over neighbouring values, topk.rs:495-504. -/
def topkOrder (rc : RangeCtx) (offset : ZMod p) (nBits : Nat) : List (ZMod p) → G (ZMod p) Unit
  | a :: b :: t => do
    rangeCheck rc (a - b + offset) nBits
    topkOrder rc offset nBits (b :: t)
  | _ => pure ()

/-- The loop over lane positions, topk.rs:530-537; `a as u32` truncates. -/
def topkMatch (idx : ZMod p) : Nat → List (ZMod p) → ZMod p → ZMod p → G (ZMod p) (ZMod p × ZMod p)
  | _, [], selected, matched => pure (selected, matched)
  | a, e :: es, selected, matched => do
    let isMatch ← isZero (idx - ((a % 2 ^ 32 : Nat) : ZMod p))
    topkMatch idx (a + 1) es (selected + isMatch * e) (matched + isMatch)

/-- The loop over the returned indices, topk.rs:510-541. -/
def topkIndices (rc : RangeCtx) (lane : List (ZMod p)) (idxBits : Nat) :
    List (ZMod p × ZMod p) → G (ZMod p) Unit
  | [] => pure ()
  | (v, idx) :: rest => do
    rangeCheck rc idx idxBits
    rangeCheck rc (((lane.length - 1 : Nat) : ZMod p) - idx) idxBits
    let r ← topkMatch idx 0 lane 0 0
    assertEq r.2 1
    assertEq r.1 v
    topkIndices rc lane idxBits rest

/-- `idx_bits`, topk.rs:443-444. -/
def topkIdxBits (axisDim : Nat) : Nat := max (bitLen (axisDim - 1)) 1

/-- Everything after the hint, topk.rs:457-541, with `shift_n_bits = n_bits + 1` and
`offset = 2^n_bits` (topk.rs:134-141). -/
def topkCheck (rc : RangeCtx) (nBits k : Nat) (lane values indices : List (ZMod p)) :
    G (ZMod p) Unit := do
  let prods ← topkElems rc values (values.getD (k - 1) 0) (nBits + 1) lane (List.replicate k 1)
  assertZeros prods
  topkOrder rc ((2 ^ nBits : Nat) : ZMod p) (nBits + 1) values
  topkIndices rc lane (topkIdxBits lane.length) (values.zip indices)

/-- One lane, topk.rs:448-541. Returns values and indices. -/
def topkLane (rc : RangeCtx) (nBits k : Nat) (scale : ZMod p) (lane : List (ZMod p)) :
    G (ZMod p) (List (ZMod p) × List (ZMod p)) :=
  if nBits ≥ 64 then throwErr "n_bits too large for shift offset"
  else if k = 0 then panicWith "attempt to subtract with overflow"
  else do
    let out ← newHint (topkHint (2 * k)) (lane ++ [scale]) (2 * k)
    let values := out.take k
    let indices := out.drop k
    topkCheck rc nBits k lane values indices
    pure (values, indices)

end JST
