import Verif.Compiler.Builder
import Verif.Spec.Flat

/-!
# The compiler's second pass

Model of `compiler/expander_compiler/src/builder/final_build_opt.rs`, for circuits without calls and
custom gates: linear combinations and products of any length become expressions of degree two over
"mid" variables, which are the variables of the resulting circuit.

`none` is a Rust panic.  The costs (`circuit/config.rs`, `circuit/costs.rs`) are those of every
configuration but `GF2Config`, whose products cost 200; this configuration is not used by JSTprove.
`isize` arithmetic on layers (`costs.rs`, `cost_of_relay`) is done in `Nat`.
-/

namespace JST.Comp

open JST.Circ JST.Flat

variable {F R : Type} [Field F] [DecidableEq F]

/-- `final_build_opt.rs:62-66` `MidVarCoef`: the variable is `k * expr + b`. -/
structure MidCoef (F : Type) where
  k : F
  kinv : F
  b : F
  deriving DecidableEq

/-- `final_build_opt.rs:33-53` `Builder` and `final_build_opt.rs:55-59` `MidVarKey`: a key of the
pool is an expression and the flag `is_force_single`.  The reference counts are computed beforehand,
see `refCounts`; `output_layer` serves calls only. -/
structure FB (F R : Type) where
  inVar : List (Expr F)
  pool : List (Expr F × Bool)
  coefs : List (MidCoef F)
  layer : List Nat
  out : List (Nat × DInsn F R)

/-- `final_build_opt.rs:87-102` `Builder::new`. -/
def FB.new : FB F R :=
  { inVar := [zeroExpr], pool := [([], false)], coefs := [⟨1, 1, 0⟩], layer := [0], out := [] }

/-- `utils/pool.rs:16-28` `Pool::add`. -/
def poolAdd (P : List (Expr F × Bool)) (key : Expr F × Bool) : Nat × List (Expr F × Bool) :=
  if key ∈ P then (P.idxOf key, P) else (P.length, P ++ [key])

/-- `final_build_opt.rs:104-116` `new_var`. -/
def newVar (l : Nat) (b : FB F R) : Option (FB F R) :=
  let id := b.pool.length
  let (idx, P) := poolAdd b.pool (newLinear 1 id, false)
  if idx = id then
    some { b with pool := P, coefs := b.coefs ++ [⟨1, 1, 0⟩], layer := b.layer ++ [l] }
  else none

/-- `final_build_opt.rs:118-125` `add_in_vars`. -/
def addInVars (l : Nat) : Nat → FB F R → Option (FB F R)
  | 0, b => some b
  | n + 1, b => do
      let id := b.pool.length
      let b ← newVar l b
      addInVars l n { b with inVar := b.inVar ++ [newLinear 1 id] }

/-- `final_build_opt.rs:206-220` `layer_of_varspec`. -/
def varLayer (b : FB F R) : VarSpec → Option Nat
  | .const => some 0
  | .lin x => b.layer[x]?
  | .quad x y => do
      let lx ← b.layer[x]?
      let ly ← b.layer[y]?
      some (max lx ly)

/-- The layers of the terms of an expression. -/
def layers (b : FB F R) : List (Term F) → Option (List Nat)
  | [] => some []
  | t :: r => do
      let l ← varLayer b t.vars
      let ls ← layers b r
      some (l :: ls)

/-- `final_build_opt.rs:222-227` `layer_of_expr`. -/
def exprLayer (b : FB F R) (e : Expr F) : Option Nat := do
  let ls ← layers b e
  ls.max?

/-- `final_build_opt.rs:494-515` `strip_constants`; not the same as the first pass has
(`stripConstants`): the coefficient of a constant is 1. -/
def strip (e : Expr F) : Option (Expr F × F × F) :=
  match e.filter fun t => t.vars ≠ .const with
  | [] => some (zeroExpr, 1, constPart e)
  | t :: r => do
      let vi ← invOrPanic t.coef
      let e' ← fromTermsSorted ((t :: r).map fun s => ⟨s.coef * vi, s.vars⟩)
      some (e', t.coef, constPart e)

/-- `final_build_opt.rs:517-534` `unstrip_constants_single`: `v = k2*x + b2` in terms of
`u = k1*x + b1`. -/
def unstrip (vid : Nat) (coef constant : F) (mc : MidCoef F) : Option (Expr F) :=
  if vid = 0 then none
  else
    let nc := mc.kinv * coef
    let nk := constant - mc.b * nc
    some (fromTerms (⟨nc, .lin vid⟩ :: if nk = 0 then [] else [⟨nk, .const⟩]))

/-- The end of `make_single` and `make_really_single` for a key which is not in the pool. -/
def addMid (b : FB F R) (key : Expr F × Bool) (k c : F) (e : Expr F) : Option (FB F R) := do
  let ki ← invOrPanic k
  let l ← exprLayer b e
  some { b with pool := b.pool ++ [key], coefs := b.coefs ++ [⟨k, ki, c⟩],
                layer := b.layer ++ [l + 1] }

/-- The test of `final_build_opt.rs:132`: the stripped expression is one variable or a constant. -/
def small (s : Expr F) : Bool := decide (s.length = 1 ∧ degree s ≤ 1)

/-- `final_build_opt.rs:131-150` `make_single`.  (Whether the key is new is asked here before it is
added; the index is new exactly if the key is.) -/
def makeSingle (b : FB F R) (e : Expr F) : Option (Expr F × FB F R) := do
  let (s, k, c) ← strip e
  if small s then some (e, b)
  else if (s, false) ∈ b.pool then do
    let idx := b.pool.idxOf (s, false)
    let mc ← b.coefs[idx]?
    let r ← unstrip idx k c mc
    some (r, b)
  else do
    let b' ← addMid b (s, false) k c s
    some (newLinear 1 b.pool.length, b')

/-- `final_build_opt.rs:152-164` `try_make_single`. -/
def tryMakeSingle (b : FB F R) (e : Expr F) : Option (Expr F) := do
  let (s, k, c) ← strip e
  if small s then some e
  else if (s, false) ∈ b.pool then do
    let idx := b.pool.idxOf (s, false)
    let mc ← b.coefs[idx]?
    unstrip idx k c mc
  else some e

/-- `final_build_opt.rs:167-172`: the expression is a variable. -/
def isVar : Expr F → Option Nat
  | [⟨c, .lin x⟩] => if c = 1 then some x else none
  | _ => none

/-- `final_build_opt.rs:166-204` `make_really_single`. -/
def makeReallySingle (b : FB F R) (e : Expr F) : Option (Nat × FB F R) :=
  match isVar e with
  | some x => some (x, b)
  | none => do
      let (s, k, c) ← strip e
      if (s, false) ∈ b.pool then do
        let idx := b.pool.idxOf (s, false)
        let mc ← b.coefs[idx]?
        if k = mc.k ∧ c = mc.b then some (idx, b)
        else do
          let (e, b) ← makeSingle b e
          if (e, true) ∈ b.pool then some (b.pool.idxOf (e, true), b)
          else do
            let b' ← addMid b (e, true) 1 0 e
            some (b.pool.length, b')
      else do
        let b' ← addMid b (s, false) k c e
        some (b.pool.length, b')

/-- The sort key of `final_build_opt.rs:322-330`. -/
def layerLe (b : FB F R) (s t : Term F) : Bool :=
  let ls := (varLayer b s.vars).getD 0
  let lt := (varLayer b t.vars).getD 0
  decide (ls < lt ∨ (ls = lt ∧ s.vars ≤ t.vars))

/-- `final_build_opt.rs:331-343`: the loop of `layered_add`; before the first term of a layer, what
there is becomes a single variable. -/
def layeredLoop (b : FB F R) (cur : List (Term F)) (last : Option Nat) :
    List (Term F) → Option (Expr F × FB F R)
  | [] => some (fromTerms cur, b)
  | t :: r => do
      let l ← varLayer b t.vars
      if last = none ∨ last = some l then layeredLoop b (cur ++ [t]) (some l) r
      else do
        let (e, b) ← makeSingle b (fromTerms cur)
        layeredLoop b (e ++ [t]) (some l) r

/-- `final_build_opt.rs:305-344` `layered_add`. -/
def layeredAdd (b : FB F R) (ts : List (Term F)) : Option (Expr F × FB F R) :=
  if ts.length ≤ 1 then (fromTermsSorted ts).map fun e => (e, b)
  else do
    let ls ← layers b ts
    let mn ← ls.min?
    let mx ← ls.max?
    if mn = mx then (fromTermsSorted ts).map fun e => (e, b)
    else layeredLoop b [] none (ts.insertionSort fun s t => layerLe b s t)

/-- `final_build_opt.rs:256`. -/
def tryAll (b : FB F R) : List (Expr F × F) → Option (List (Expr F × F))
  | [] => some []
  | (e, c) :: r => do
      let e ← tryMakeSingle b e
      let r ← tryAll b r
      some ((e, c) :: r)

/-- `final_build_opt.rs:247-303` `lin_comb_inner`; the heap is as in the first pass
(`kmerge`, `pushTerm`). -/
def linInner (b : FB F R) (vars : List (Expr F × F)) : Option (Expr F × FB F R) :=
  match vars with
  | [] => some (zeroExpr, b)
  | [(e, c)] => do
      let e ← tryMakeSingle b e
      let r ← mulConstant e c
      layeredAdd b r
  | _ => do
      let es ← tryAll b vars
      let es := es.filter fun ec => ec.2 ≠ 0
      if es.any fun ec => ec.1 = [] then none
      else
        let qs := es.map fun ec => ec.1.map fun t => (⟨t.coef * ec.2, t.vars⟩ : Term F)
        let res := ((kmerge (qs.map List.length).sum qs).foldl pushTerm []).reverse
        if res = [] then some (zeroExpr, b) else layeredAdd b res

/-- The expressions of a list of variables. -/
def inExprs (b : FB F R) : List Nat → Option (List (Expr F))
  | [] => some []
  | x :: r => do
      let e ← b.inVar[x]?
      let es ← inExprs b r
      some (e :: es)

/-- `final_build_opt.rs:229-245` `lin_comb`. -/
def linComb (b : FB F R) (lc : LinComb F) : Option (Expr F × FB F R) := do
  let es ← inExprs b (lc.terms.map Prod.fst)
  linInner b (es.zip (lc.terms.map Prod.snd) ++
    if lc.constant = 0 then [] else [(newConst lc.constant, 1)])

/-! Costs: `circuit/config.rs:26-30` and `circuit/costs.rs:3-40`. -/

def costVariable : Nat := 100
def costMul : Nat := 10
def costAdd : Nat := 3
def costConst : Nat := 3

/-- `expr.rs:398-409` `count_of_degrees`. -/
def deg0 (e : Expr F) : Nat := e.countP fun t => t.vars = .const
def deg1 (e : Expr F) : Nat := e.countP fun t => t.vars.isLin
def deg2 (e : Expr F) : Nat := e.countP fun t => t.vars.isQuad

/-- `costs.rs:3-8`. -/
def costCompress (d0 d1 d2 : Nat) : Nat :=
  costMul * d2 + costAdd * d1 + costConst * d0 + costVariable

/-- `costs.rs:10-19`. -/
def costMultiply (a0 a1 b0 b1 : Nat) : Nat :=
  costMul * (a1 * b1) + costAdd * (a0 * b1 + a1 * b0) + costConst * (a0 * b0)

/-- `costs.rs:21-30`. -/
def costReferences (d0 d1 d2 refAdd refMul : Nat) : Nat :=
  costConst * (d0 * refAdd) + costAdd * (d1 * refAdd + d0 * refMul) +
    costMul * (d2 * refAdd + (d1 + d2 * 2) * refMul)

/-- `costs.rs:32-34`. -/
def costRelay (l1 l2 : Nat) : Nat := (max l1 l2 - min l1 l2) * (costVariable + costAdd)

/-- `final_build_opt.rs:420-448`: whether an operand of a product becomes a single variable, and
whether it is the first one. -/
def choose (a0 a1 b0 b1 len1 len2 l1 l2 : Nat) : Bool × Bool :=
  let direct := costMultiply a0 a1 b0 b1
  let c1 := costMultiply 0 1 b0 b1 + costCompress a0 a1 0
  let c2 := costMultiply a0 a1 0 1 + costCompress b0 b1 0
  let both := costMultiply 0 1 0 1 + costCompress a0 a1 0 + costCompress b0 b1 0
  if l1 = l2 then
    (decide (min (min c1 c2) both < direct), decide (c1 < min c2 both))
  else
    let direct := direct + costRelay l1 l2
    let c1 := c1 + costRelay (l1 + 1) l2
    let c2 := c2 + costRelay l1 (l2 + 1)
    if c1 < direct then (decide (2 < len1), true)
    else if c2 < direct then (decide (2 < len2), false)
    else (false, false)

/-- `final_build_opt.rs:387-466`: what one round of the loop of `mul_vec` puts back for the two
operands it has taken. -/
def mulStep (b : FB F R) (x y : Expr F) : Option (List (Expr F) × FB F R) :=
  if degree x = 0 then do
    let c ← constantValue x
    let r ← mulConstant y c
    some ([r], b)
  else if degree y = 0 then do
    let c ← constantValue y
    let r ← mulConstant x c
    some ([r], b)
  else if degree x = 2 then
    if degree y = 2 then do
      let (y, b) ← makeSingle b y
      let (x, b) ← makeSingle b x
      some ([y, x], b)
    else do
      let (x, b) ← makeSingle b x
      some ([y, x], b)
  else if degree y = 2 then do
    let (y, b) ← makeSingle b y
    some ([x, y], b)
  else do
    let l1 ← exprLayer b x
    let l2 ← exprLayer b y
    let (compress, first) :=
      choose (deg0 x) (deg1 x) (deg0 y) (deg1 y) x.length y.length l1 l2
    if compress then
      if first then do
        let (x, b) ← makeSingle b x
        some ([x, y], b)
      else do
        let (y, b) ← makeSingle b y
        some ([x, y], b)
    else do
      let rows ← mulRows y x
      let (r, b) ← linInner b rows
      some ([r], b)

/-- Which two operands the heap of `mul_vec` (`final_build_opt.rs:367-385`, `utils/heap.rs`) hands
out, and what is left.  The heap's order (`cmp_expr_for_mul`, `final_build_opt.rs:346-358`) is left
open: everything is proved for every choice of two operands. -/
structure Pick (F R : Type) where
  pick : FB F R → List (Expr F) → Expr F × Expr F × List (Expr F)
  perm : ∀ b es, 2 ≤ es.length → ((pick b es).1 :: (pick b es).2.1 :: (pick b es).2.2).Perm es

/-- `final_build_opt.rs:369-467`: the loop of `mul_vec`, for at most `n` rounds. -/
def mulLoop (pk : Pick F R) : Nat → FB F R → List (Expr F) → Option (Expr F × FB F R)
  | 0, _, _ => none
  | n + 1, b, es =>
      if es.length = 1 then do
        let e ← es.head?
        some (e, b)
      else if es = [] then none
      else
        let (x, y, rest) := pk.pick b es
        let (x, y) := if y.length < x.length then (y, x) else (x, y)
        do
          let (new, b) ← mulStep b x y
          mulLoop pk n b (rest ++ new)

/-- `final_build_opt.rs:360-470` `mul_vec`.  The Rust loop has no bound; `fuel` is one. -/
def mulVec (pk : Pick F R) (fuel : Nat) (b : FB F R) (xs : List Nat) :
    Option (Expr F × FB F R) :=
  if xs.length < 2 then none
  else do
    let es ← inExprs b xs
    let es ← tryAll b (es.map fun e => (e, 1))
    mulLoop pk fuel b (es.map Prod.fst)

/-- `final_build_opt.rs:69-74` `InVarRefCounts`. -/
structure Refs where
  add : Nat
  mul : Nat
  single : Nat

/-- `final_build_opt.rs:543-582`: how often a variable is used in sums, in products, and as
constraint or output. -/
def refCounts (c : HCircuit F R) (x : Nat) : Refs where
  add := (c.insns.map fun i => match i with
    | .linComb lc => (lc.terms.map Prod.fst).count x
    | _ => 0).sum
  mul := (c.insns.map fun i => match i with
    | .mul xs => xs.count x
    | _ => 0).sum
  single := c.outputs.count x + c.cons.count x

/-- `final_build_opt.rs:26`. -/
def compressThreshold : Nat := 64

/-- `final_build_opt.rs:472-486`: the decision of `add_and_check_if_should_make_single`. -/
def shouldCompress (rc : Refs) (e : Expr F) : Bool :=
  (decide (0 < rc.single) || decide (compressThreshold < deg0 e + deg1 e + deg2 e) ||
    decide (costCompress (deg0 e) (deg1 e) (deg2 e) + costReferences 0 1 0 rc.add rc.mul <
      costReferences (deg0 e) (deg1 e) (deg2 e) rc.add rc.mul)) && decide (0 < degree e)

/-- `final_build_opt.rs:472-491` `add_and_check_if_should_make_single`. -/
def addChecked (refs : Nat → Refs) (b : FB F R) (e : Expr F) : Option (FB F R) :=
  if shouldCompress (refs b.inVar.length) e then do
    let (e, b) ← makeSingle b e
    some { b with inVar := b.inVar ++ [e] }
  else some { b with inVar := b.inVar ++ [e] }

/-- `final_build_opt.rs:585-651`: one instruction. -/
def stepF (pk : Pick F R) (fuel : Nat) (refs : Nat → Refs) (b : FB F R) :
    HInsn F R → Option (FB F R)
  | .linComb lc => do
      let (e, b) ← linComb b lc
      addChecked refs b e
  | .mul xs => do
      let (e, b) ← mulVec pk fuel b xs
      addChecked refs b e
  | .constant c => some { b with inVar := b.inVar ++ [newConst c] }
  | .random r => addInVars 1 1 { b with out := b.out ++ [(b.pool.length, .random r)] }
  | .publicInput i => addInVars 1 1 { b with out := b.out ++ [(b.pool.length, .publicInput i)] }

def stepsF (pk : Pick F R) (fuel : Nat) (refs : Nat → Refs) :
    List (HInsn F R) → FB F R → Option (FB F R)
  | [], b => some b
  | i :: r, b => do
      let b ← stepF pk fuel refs b i
      stepsF pk fuel refs r b

/-- `final_build_opt.rs:658-670`: the constraints. -/
def consF : List Nat → FB F R → Except Fail (List Nat × FB F R)
  | [], b => .ok ([], b)
  | x :: r, b => do
      let e ← orPanic b.inVar[x]?
      match constantValue e with
      | some c => if c = 0 then consF r b else .error .user
      | none => do
          let (v, b) ← orPanic (makeReallySingle b e)
          let (vs, b) ← consF r b
          .ok (v :: vs, b)

/-- `final_build_opt.rs:671-675`: the outputs. -/
def outsF : List Nat → FB F R → Option (List Nat × FB F R)
  | [], b => some ([], b)
  | x :: r, b => do
      let e ← b.inVar[x]?
      let (v, b) ← makeReallySingle b e
      let (vs, b) ← outsF r b
      some (v :: vs, b)

/-- `final_build_opt.rs:694-702`: the expression of an internal variable. -/
def midExpr (e : Expr F) (mc : MidCoef F) : Option (Expr F) := do
  let e2 ← mulConstant e mc.k
  if mc.b = 0 then some e2 else some (fromTerms (e2 ++ [⟨mc.b, .const⟩]))

/-- `final_build_opt.rs:682-708`: the instructions, in the order of the mid variables `ids`. -/
def emit (b : FB F R) : List Nat → List (Nat × DInsn F R) → Option (List (DInsn F R))
  | [], o => some (o.map Prod.snd)
  | j :: ids, o => do
      let here := (o.takeWhile fun p => p.1 = j).map Prod.snd
      let o := o.dropWhile fun p => p.1 = j
      let key ← b.pool[j]?
      if key.1 = newLinear 1 j then do
        let r ← emit b ids o
        some (here ++ r)
      else do
        let mc ← b.coefs[j]?
        let e ← midExpr key.1 mc
        let r ← emit b ids o
        some (here ++ .iv e [] :: r)

/-- `final_build_opt.rs:536-718` `process_circuit`. -/
def finalBuild (pk : Pick F R) (fuel : Nat) (c : HCircuit F R) : Except Fail (DCircuit F R) := do
  let b ← orPanic (addInVars 0 c.numInputs FB.new)
  let b ← orPanic (stepsF pk fuel (refCounts c) c.insns b)
  let (cons, b) ← consF (c.cons.insertionSort fun x y => x ≤ y) b
  let (outputs, b) ← orPanic (outsF c.outputs b)
  let insns ← orPanic (emit b
    ((List.range (b.pool.length - (c.numInputs + 1))).map fun i => c.numInputs + 1 + i) b.out)
  .ok { insns := insns, cons := cons, outputs := outputs, numInputs := c.numInputs }

end JST.Comp
