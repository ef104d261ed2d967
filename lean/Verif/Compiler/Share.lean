import Verif.Spec.SameGates
import Verif.Compiler.Dedup
import Verif.Compiler.Export
import Mathlib.Data.Nat.Log

/-!
# Shared parts of layers

Model of `compiler/expander_compiler/src/circuit/layered/opt.rs:205-705` (`dedup_gates` of a nested circuit,
`expand_small_segments`, `find_common_parts`) and of the loop over them in `compile/mod.rs:271-299`
(`compile_step_3`), which the compiler runs at its default optimization level.

Simplifications: no custom gates, one input layer (`NormalInputType`). A `HashSet` is a list without
repetitions; the order of a `HashMap` is arbitrary. The union-find structure is the function which
gives the representative; `UnionFind.lean` has the array of the code, and C85 shows that it gives the same groups. The pairs of segments which are compared come from a sample of their gates;
here they are an arbitrary list.
-/

namespace JST.Export

open JST.Flat JST.Comp

variable {F : Type}

/-! ### Merging equal gates, `opt.rs:205-245` -/

/-- The gate with its coin unnamed. -/
def Gt.gate (g : Gt F) : Gate F Unit :=
  ⟨g.ins, g.o, match g.coef with
    | .const c => .const c
    | .rnd => .rnd ()
    | .pub i => .pub i⟩

def ungate (g : Gate F Unit) : Gt F :=
  ⟨g.ins, g.o, match g.coef with
    | .const c => .const c
    | .rnd _ => .rnd
    | .pub i => .pub i⟩

def Sg.toSeg (s : Sg F) : Seg F Unit := ⟨s.numIn, s.numOut, s.muls.map Gt.gate, s.adds.map Gt.gate, s.csts.map Gt.gate⟩

/-- `Segment::dedup_gates`, `opt.rs:205-245`; children stay as they are. -/
def Sg.dedup [Ord F] [Add F] [Zero F] [DecidableEq F] (s : Sg F) : Sg F :=
  let t := dedupSeg s.toSeg
  ⟨s.numIn, s.numOut, t.muls.map ungate, t.adds.map ungate, t.csts.map ungate, s.kids⟩

/-- `gates.sort()`. -/
def sortGt [Ord F] (l : List (Gt F)) : List (Gt F) := (sortGates (l.map Gt.gate)).map ungate

/-- `Circuit::dedup_gates`, `opt.rs:386-390`. -/
def Nested.dedup [Ord F] [Add F] [Zero F] [DecidableEq F] (c : Nested F) : Nested F := ⟨c.segs.map Sg.dedup, c.layers⟩

/-! ### Expanding small segments, `opt.rs:392-586` -/

/-- Number of the `i`-th kept index, `opt.rs:556-577`: the number of kept ones before it; `!0` for the others. -/
def newId (keep : Nat → Bool) (i : Nat) : Nat := if keep i then (List.range i).countP keep else 2 ^ 64 - 1

/-- `used_count`, `opt.rs:504-517`: twice for each layer, and for each place in a used segment, from the last
segment to the first. -/
def countStep (c : Nested F) (used : Nat → Nat) (i : Nat) : Nat → Nat :=
  if 0 < used i then
    match c.segs[i]? with
    | none => used
    | some s => fun j => used j + ((s.kids.filter fun k => k.1 = j).map fun k => k.2.length).sum
  else used

def usedCount (c : Nested F) : Nat → Nat :=
  (List.range c.segs.length).reverse.foldl (countStep c) fun i => 2 * c.layers.count i

/-- `gate_count`, `opt.rs:527-533`. -/
def Sg.gateCount (s : Sg F) : Nat := s.own.length + (s.kids.map fun k => k.2.length).sum

/-- `expand_range`, `opt.rs:519-540`. -/
def smallSeg (c : Nested F) (i : Nat) : Bool :=
  match c.segs[i]? with
  | none => false
  | some s => 0 < usedCount c i && !(c.layers.contains i) && (usedCount c i ≤ 1 || s.gateCount ≤ 4)

/-- `expand_gates`, `opt.rs:392-416`, for gates of one kind. -/
def expandKind (E : Nat → Bool) (prev : List (Sg F)) (kind : Sg F → List (Gt F)) (s : Sg F) : List (Gt F) :=
  kind s ++ s.kids.flatMap fun k => if E k.1 then
    match prev[k.1]? with
    | none => []
    | some t => k.2.flatMap fun a => (kind t).map (Gt.shift a)
  else []

/-- The places which go into `child_segs_map`, `opt.rs:437-483`. -/
def expandKids (E : Nat → Bool) (prev : List (Sg F)) (s : Sg F) : Leaves :=
  s.kids.flatMap fun k => if E k.1 then
    match prev[k.1]? with
    | none => []
    | some t => t.kids.map fun q => (q.1, q.2.flatMap fun b => k.2.map fun a => (b.1 + a.1, b.2 + a.2))
  else [k]

/-- The map made of a list of entries, its places sorted (in some order) and its entries in any order,
`opt.rs:484-487`. -/
def FromMap (entries kids : Leaves) : Prop :=
  ∃ m, List.Forall₂ (fun e e' => e'.1 = e.1 ∧ e'.2.Perm e.2)
      (entries.foldl (fun m e => Leaves.push m e.1 e.2) []) m ∧ m.Perm kids

/-- `expand_segment`, `opt.rs:418-498`. -/
structure ExpandSeg (E : Nat → Bool) (prev : List (Sg F)) (s t : Sg F) : Prop where
  numIn : t.numIn = s.numIn
  numOut : t.numOut = s.numOut
  muls : t.muls = expandKind E prev Sg.muls s
  adds : t.adds = expandKind E prev Sg.adds s
  csts : t.csts = expandKind E prev Sg.csts s
  kids : FromMap (expandKids E prev s) t.kids

/-- `expand_small_segments`, `opt.rs:500-586`. The segments before a segment are a prefix of `out`. -/
def ExpandSmall [Ord F] [Add F] [Zero F] [DecidableEq F] (c d : Nested F) : Prop :=
  let n := c.segs.length
  let used : Nat → Bool := fun i => 0 < usedCount c i
  let E := smallSeg c
  let keep : Nat → Bool := fun i => used i && !E i
  if (List.range n).all (fun i => used i && !E i) then d = c else
  ∃ out : List (Sg F), out.length = n ∧
    (∀ i s t, c.segs[i]? = some s → out[i]? = some t → if used i then ExpandSeg E (out.take i) s t else t = s) ∧
    d = ⟨((List.range n).filter keep).map fun i =>
        let s := out[i]?.getD ⟨0, 0, [], [], [], []⟩
        Sg.dedup { s with kids := s.kids.map fun k => (newId keep k.1, k.2) },
      c.layers.map (newId keep)⟩

/-! ### Common parts, `opt.rs:247-384` and `588-705` -/

/-- A `HashSet<UniGate>`, by kind. -/
structure Grp (F : Type) where
  muls : List (Gt F)
  adds : List (Gt F)
  csts : List (Gt F)

def Grp.size (g : Grp F) : Nat := g.muls.length + g.adds.length + g.csts.length

/-- `all_gates`, `opt.rs:281-296`. -/
def Sg.grp [DecidableEq F] (s : Sg F) : Grp F := ⟨s.muls.dedup, s.adds.dedup, s.csts.dedup⟩

/-- `HashSet::intersection`. -/
def Grp.inter [DecidableEq F] (x y : Grp F) : Grp F :=
  ⟨x.muls.filter (· ∈ y.muls), x.adds.filter (· ∈ y.adds), x.csts.filter (· ∈ y.csts)⟩

/-- `remove_gates`, `opt.rs:305-334`. -/
def Sg.without [DecidableEq F] (s : Sg F) (g : Grp F) : Sg F :=
  { s with muls := s.muls.filter (· ∉ g.muls), adds := s.adds.filter (· ∉ g.adds), csts := s.csts.filter (· ∉ g.csts) }

/-- `next_power_of_two`, `utils/misc.rs:14-20`. -/
def nextPower (x : Nat) : Nat := 2 ^ Nat.clog 2 x

/-- `from_uni_gates`, `opt.rs:336-383`. -/
def Grp.seg [Ord F] (g : Grp F) : Sg F :=
  ⟨nextPower (((g.muls ++ g.adds).flatMap Gt.ins).foldr max 0 + 1),
    nextPower (((g.muls ++ g.adds ++ g.csts).map Gt.o).foldr max 0 + 1),
    sortGt g.muls, sortGt g.adds, sortGt g.csts, []⟩

/-- The union-find structure and `group_gates`, `opt.rs:621-622`. -/
structure Groups (F : Type) where
  root : Nat → Nat
  grp : Nat → Grp F

/-- One round of the loop over the edges, `opt.rs:623-648`. -/
def Groups.join [DecidableEq F] (u : Groups F) (e : Nat × Nat) : Groups F :=
  let a := u.root e.1
  let b := u.root e.2
  if a = b then u else
  let x := if (u.grp a).size < (u.grp b).size then b else a
  let y := if (u.grp a).size < (u.grp b).size then a else b
  if ((u.grp y).inter (u.grp x)).size < 10 then u else
  ⟨fun z => if u.root z = x then y else u.root z, Function.update u.grp y ((u.grp x).inter (u.grp y))⟩

def groups [DecidableEq F] (c : Nested F) (edges : List (Nat × Nat)) : Groups F :=
  edges.foldl Groups.join ⟨fun i => i, fun i => match c.segs[i]? with
    | none => ⟨[], [], []⟩
    | some s => s.grp⟩

/-- Whether the gates of a group become a segment, `opt.rs:656-662`. -/
def Groups.common (u : Groups F) (n i : Nat) : Bool :=
  i = u.root i && 1 < (List.range n).countP (fun j => u.root j = i) && 10 ≤ (u.grp i).size

/-- The new form of segment `i`, `opt.rs:664-692`; `m` is the number of common segments. -/
def Groups.newSeg [Ord F] [Add F] [Zero F] [DecidableEq F] (u : Groups F) (n m i : Nat) (s : Sg F) : Sg F :=
  let kids := s.kids.map fun k => (m + k.1, k.2)
  let r := u.root i
  Sg.dedup <| if u.common n r then
    { s.without (u.grp r) with kids := kids ++ [((List.range r).countP (u.common n), [(0, 0)])] }
  else { s with kids := kids }

/-- `find_common_parts`, `opt.rs:588-705`. -/
def share [Ord F] [Add F] [Zero F] [DecidableEq F] (c : Nested F) (edges : List (Nat × Nat)) : Nested F :=
  let n := c.segs.length
  let u := groups c edges
  let coms := (List.range n).filter (u.common n)
  ⟨coms.map (fun i => (u.grp i).seg) ++ c.segs.mapIdx (u.newSeg n coms.length), c.layers.map (coms.length + ·)⟩

/-! ### The loop, `compile/mod.rs:271-299` -/

/-- One round. -/
def OptRound [Ord F] [Add F] [Zero F] [DecidableEq F] (c d : Nested F) : Prop :=
  ∃ b, ExpandSmall c b ∧ if b.segs.length ≤ 100 then ∃ edges, d = share b edges else d = b

/-- `sort_everything`, `circuit/layered/mod.rs:948-956`, of one segment, for any order of gates and children. -/
structure SortSeg (s t : Sg F) : Prop where
  numIn : t.numIn = s.numIn
  numOut : t.numOut = s.numOut
  muls : t.muls.Perm s.muls
  adds : t.adds.Perm s.adds
  csts : t.csts.Perm s.csts
  kids : t.kids.Perm s.kids

def SortAll (c d : Nested F) : Prop := List.Forall₂ SortSeg c.segs d.segs ∧ d.layers = c.layers

/-- `compile_step_3` at optimization level 3, before the last sorting: it ends after any number of rounds. -/
inductive Step3 [Ord F] [Add F] [Zero F] [DecidableEq F] (c : Nested F) : Nested F → Prop
  | start : Step3 c c.dedup
  | round {d e} : Step3 c d → OptRound d e → Step3 c e

end JST.Export
