import Verif.Spec.Segments
import Mathlib.Data.List.Basic

/-!
# Merging gates

Model of `compiler/expander_compiler/src/circuit/layered/opt.rs:18-48`, `106-132`, `165-245` (`dedup_gates`) and
of `circuit/layered/mod.rs:948-957` (`sort_everything`), for gates with a fixed number of inputs.
-/

namespace JST.Comp

open JST.Flat

variable {F R : Type}

/-- `circuit/layered/mod.rs:18-23`: the derived order; `Random` is equal to `Random`. -/
def coefCmp [Ord F] : Coef F R → Coef F R → Ordering
  | .const a, .const b => compare a b
  | .const _, _ => .lt
  | .rnd _, .const _ => .gt
  | .rnd _, .rnd _ => .eq
  | .rnd _, .pub _ => .lt
  | .pub i, .pub j => compare i j
  | .pub _, _ => .gt

/-- `opt.rs:24-48`: inputs, then output, then coefficient. -/
def gateCmp [Ord F] (g h : Gate F R) : Ordering :=
  (compare g.ins h.ins).then ((compare g.o h.o).then (coefCmp g.coef h.coef))

/-- `gates.sort()`. -/
def sortGates [Ord F] (gs : List (Gate F R)) : List (Gate F R) :=
  gs.mergeSort fun g h => (gateCmp g h).isLE

/-- `opt.rs:107-115` `can_merge_with` and `coef_add`. -/
def mergeTwo [Add F] (g h : Gate F R) : Option (Gate F R) :=
  match g.coef, h.coef with
  | .const a, .const b => if g.ins = h.ins ∧ g.o = h.o then some ⟨g.ins, g.o, .const (a + b)⟩ else none
  | _, _ => none

/-- `opt.rs:167-177`; `g` is `gates[lst]`. -/
def mergeFrom [Add F] : Gate F R → List (Gate F R) → List (Gate F R)
  | g, [] => [g]
  | g, h :: r =>
      match mergeTwo g h with
      | some k => mergeFrom k r
      | none => g :: mergeFrom h r

def mergeAll [Add F] : List (Gate F R) → List (Gate F R)
  | [] => []
  | g :: r => mergeFrom g r

/-- `opt.rs:182-185`. -/
def isZeroGate [Zero F] [DecidableEq F] (g : Gate F R) : Bool :=
  match g.coef with
  | .const c => c = 0
  | _ => false

/-- `opt.rs:165-194` `dedup_gates`. -/
def dedupGates [Ord F] [Add F] [Zero F] [DecidableEq F] (gs : List (Gate F R)) (trim : Bool) : List (Gate F R) :=
  let gs := mergeAll (sortGates gs)
  if trim then gs.filter fun g => !isZeroGate g else gs

/-- Some gate ends in wire `p`. -/
def hasGate (s : Seg F R) (p : Nat) : Bool := (s.muls ++ s.adds ++ s.csts).any fun g => g.o = p

/-- `opt.rs:205-245` `dedup_gates` of a segment; wires which lose all their gates get a zero. -/
def dedupSeg [Ord F] [Add F] [Zero F] [DecidableEq F] (s : Seg F R) : Seg F R :=
  let t : Seg F R := { s with
    muls := dedupGates s.muls true
    adds := dedupGates s.adds true
    csts := dedupGates s.csts false }
  let need := (List.range s.numOut).filter fun p => hasGate s p && !hasGate t p
  { t with csts := sortGates (t.csts ++ need.map fun p => ⟨[], p, .const 0⟩) }

/-- `mod.rs:948-957`. -/
def sortSeg [Ord F] (s : Seg F R) : Seg F R :=
  { s with muls := sortGates s.muls, adds := sortGates s.adds, csts := sortGates s.csts }

end JST.Comp
