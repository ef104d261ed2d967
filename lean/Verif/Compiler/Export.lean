import Verif.Spec.Nested
import Verif.Gkr.Model
import Mathlib.NumberTheory.Padics.PadicVal.Defs

/-!
# From the compiler's circuit to the prover's

Model of `compiler/expander_compiler/src/circuit/layered/export.rs:5-79` (`export_to_expander`,
`export_to_expander_flatten`), `prover/circuit/src/ecc_circuit.rs:9-138` (`scan_leaf_segments`,
`flatten`) and `prover/circuit/src/layered/circuit.rs:84-122,341-371,394-420` (`identify_rnd_coefs`,
`fill_rnd_coefs`, `pre_process_gkr`, `add_input_relay_layer`).

Simplifications: no custom gates. A `HashMap` is the list of its entries; wherever the code walks
through a map, the order is arbitrary (`Scan` relates a segment to every order its map can come in).
-/

namespace JST.Export

open JST.Gkr

variable {F : Type} [Field F]

/-- `CoefType`, `prover/circuit/src/layered/gates.rs`. -/
inductive CoefTy where
  | const
  | rnd
  | pub (i : Nat)
  deriving DecidableEq, Repr

/-- A gate of the prover: `i_ids`, `o_id`, `coef`, `coef_type`. -/
structure PGate (F : Type) where
  ins : List Nat
  o : Nat
  coef : F
  ty : CoefTy
  deriving DecidableEq, Repr

/-- The prover's `Segment`, `ecc_circuit.rs:14-23`. -/
structure PSeg (F : Type) where
  inVars : Nat
  outVars : Nat
  muls : List (PGate F)
  adds : List (PGate F)
  csts : List (PGate F)
  kids : List (Nat × List (Nat × Nat))
  deriving Repr

/-- The prover's `CircuitLayer` before the coins are known. -/
structure PLayer (F : Type) where
  inVars : Nat
  outVars : Nat
  mul : List (PGate F)
  add : List (PGate F)
  cst : List (PGate F)
  deriving Repr

/-- `Coef::export_to_expander`, `circuit/layered/mod.rs:115-128`. -/
def Cf.export : Cf F → F × CoefTy
  | .const c => (c, .const)
  | .rnd => (0, .rnd)
  | .pub i => (0, .pub i)

/-- `Gate::export_to_expander`, `circuit/layered/mod.rs:286-307`. -/
def Gt.export (g : Gt F) : PGate F := ⟨g.ins, g.o, g.coef.export.1, g.coef.export.2⟩

/-- `export_to_expander`, `export.rs:13-62`, for one segment: sizes become numbers of variables by
`trailing_zeros`. -/
def Sg.export (s : Sg F) : PSeg F :=
  ⟨padicValNat 2 s.numIn, padicValNat 2 s.numOut, s.muls.map Gt.export, s.adds.map Gt.export,
    s.csts.map Gt.export, s.kids⟩

/-- `contain_gates`, `ecc_circuit.rs:26-32`. -/
def PSeg.containGates (s : PSeg F) : Bool := !s.muls.isEmpty || !s.adds.isEmpty || !s.csts.isEmpty

/-- A map from segment numbers to places. -/
abbrev Leaves := List (Nat × List (Nat × Nat))

/-- `ret.entry(id).or_insert_with(Vec::new)` and the pushes after it, `ecc_circuit.rs:52-61`. -/
def Leaves.push (m : Leaves) (id : Nat) (new : List (Nat × Nat)) : Leaves :=
  match m with
  | [] => [(id, new)]
  | e :: r => if e.1 = id then (e.1, e.2 ++ new) :: r else e :: Leaves.push r id new

/-- The loop over the leaves of one child, `ecc_circuit.rs:51-62`. -/
def Leaves.merge (m : Leaves) (places : List (Nat × Nat)) (leaves : Leaves) : Leaves :=
  leaves.foldl (fun m l => m.push l.1 (places.flatMap fun c => l.2.map fun a => (c.1 + a.1, c.2 + a.2))) m

/-- `ecc_circuit.rs:41-49`. -/
def PSeg.start (s : PSeg F) (id : Nat) : Leaves := if s.containGates then [(id, [(0, 0)])] else []

/-- The loop over the children, `ecc_circuit.rs:50-63`, given what the recursive calls can return. -/
def ScanKids (rec : Nat → Leaves → Prop) : List (Nat × List (Nat × Nat)) → Leaves → Leaves → Prop
  | [], m, m' => m' = m
  | k :: r, m, m' => ∃ leaves, rec k.1 leaves ∧ ScanKids rec r (m.merge k.2 leaves) m'

/-- `scan_leaf_segments`, `ecc_circuit.rs:35-65`, of segment `id`: the map, in any order of its entries. The
first argument bounds the depth of the recursion. -/
def Scan (segs : List (PSeg F)) : Nat → Nat → Leaves → Prop
  | 0, _, _ => False
  | d + 1, id, m' => ∃ s m, segs[id]? = some s ∧ ScanKids (Scan segs d) s.kids (s.start id) m ∧ m.Perm m'

/-- Moving a gate to its place, `ecc_circuit.rs:93-117`. -/
def PGate.shift (a : Nat × Nat) (g : PGate F) : PGate F := { g with ins := g.ins.map (a.1 + ·), o := a.2 + g.o }

/-- The gates of one kind which the loop over the leaves pushes, `ecc_circuit.rs:89-118`. -/
def gather (segs : List (PSeg F)) (kind : PSeg F → List (PGate F)) (leaves : Leaves) : List (PGate F) :=
  leaves.flatMap fun l => match segs[l.1]? with
    | none => []
    | some s => l.2.flatMap fun a => (kind s).map (PGate.shift a)

/-- One layer of `flatten`, `ecc_circuit.rs:80-131`. -/
def FlatLayer (segs : List (PSeg F)) (id : Nat) (l : PLayer F) : Prop :=
  ∃ s d leaves, segs[id]? = some s ∧ Scan segs d id leaves ∧
    l = ⟨max s.inVars 1, max s.outVars 1, gather segs PSeg.muls leaves, gather segs PSeg.adds leaves,
      gather segs PSeg.csts leaves⟩

/-- `flatten`, `ecc_circuit.rs:73-135`, of the exported circuit: `ls` is one of the circuits it can return. -/
def Flatten (c : Nested F) (ls : List (PLayer F)) : Prop :=
  List.Forall₂ (FlatLayer (c.segs.map Sg.export)) c.layers ls

/-! ### Coins -/

/-- The random gates of a list take the next coins, `circuit.rs:84-122` and `358-371`: `ρ` are the sampled
elements, `n` the number taken before. -/
def fillGates (ρ : Nat → F) : Nat → List (PGate F) → List (PGate F) × Nat
  | n, [] => ([], n)
  | n, g :: r =>
    if g.ty = .rnd then
      let t := fillGates ρ (n + 1) r
      ({ g with coef := ρ n } :: t.1, t.2)
    else
      let t := fillGates ρ n r
      (g :: t.1, t.2)

/-- The order within a layer: multiplications, additions, constants. -/
def fillLayer (ρ : Nat → F) (n : Nat) (l : PLayer F) : PLayer F × Nat :=
  let m := fillGates ρ n l.mul
  let a := fillGates ρ m.2 l.add
  let c := fillGates ρ a.2 l.cst
  ({ l with mul := m.1, add := a.1, cst := c.1 }, c.2)

/-- `fill_rnd_coefs`, `circuit.rs:358-371`. -/
def fillLayers (ρ : Nat → F) : Nat → List (PLayer F) → List (PLayer F)
  | _, [] => []
  | n, l :: r => let t := fillLayer ρ n l; t.1 :: fillLayers ρ t.2 r

/-- A gate in the language of the prover's model: `evaluate` (`circuit.rs:34-81`) takes two inputs of a
multiplication and one of an addition, uses `coef`, and looks at a public input for constants only. -/
def PGate.toMul (g : PGate F) : MulGate F := ⟨g.o, g.ins.getD 0 0, g.ins.getD 1 0, g.coef⟩

def PGate.toAdd (g : PGate F) : AddGate F := ⟨g.o, g.ins.getD 0 0, g.coef⟩

def PGate.toCst (g : PGate F) : CstGate F :=
  ⟨g.o, match g.ty with
    | .pub i => .pub i
    | _ => .coef g.coef⟩

def PLayer.toLayer (l : PLayer F) : Layer F :=
  ⟨l.inVars, l.outVars, l.mul.map PGate.toMul, l.add.map PGate.toAdd, l.cst.map PGate.toCst, []⟩

/-- `add_input_relay_layer`, `circuit.rs:394-420`. -/
def relayLayer (n : Nat) : PLayer F :=
  ⟨n, n, [], (List.range (2 ^ n)).map fun i => ⟨[i], i, 1, .const⟩, []⟩

/-- `pre_process_gkr`, `circuit.rs:341-348`: a layer of copies is put first if the first layer multiplies.
The code fixes the places of the coins before it adds the layer, and moves them; the layer has none. -/
def preprocess : List (PLayer F) → List (PLayer F)
  | [] => []
  | l :: r => if l.mul.isEmpty then l :: r else relayLayer l.inVars :: l :: r

/-- What prover and verifier run on: the flattened circuit with the coins `ρ` filled in. -/
def finish (ρ : Nat → F) (ls : List (PLayer F)) : List (Layer F) :=
  (fillLayers ρ 0 (preprocess ls)).map PLayer.toLayer

end JST.Export
