import Verif.Compiler.Expr
import Verif.Spec.Circuit

/-!
# The compiler's first pass

Model of `compiler/expander_compiler/src/builder/basic.rs` (the builder) and of
`compiler/expander_compiler/src/builder/hint_normalize.rs` (the lowering of source instructions).

`Fail.panic` is a Rust panic, `Fail.user` an `Err(Error::UserError(..))`.
-/

namespace JST.Comp

open JST.Circ

variable {F : Type} [Field F] [DecidableEq F]

inductive Fail where
  | panic
  | user
  deriving DecidableEq, Repr

/-- `basic.rs:72-76` `ConstraintStatus`. -/
inductive Status where
  | marked
  | asserted
  deriving DecidableEq, Repr

/-- `basic.rs:34-63` `Builder`.  Maps are association lists whose first entry for a key is the
current one.  The only constraint type of the target language is "is zero", so the outer map of
`constraints` is left out.  `clash` is not in the Rust: it records that `mark` replaced an
`Asserted` entry. -/
structure B (F : Type) where
  cons : List (Expr F × Status)
  exprs : List (Expr F)
  pool : Pool F
  midToOut : List (Option (Nat × F × F))
  exprToOut : List (Expr F × Nat)
  inToOut : List Nat
  insns : List (OInsn F)
  clash : Bool

/-- `basic.rs:136-151` `Builder::new`. -/
def B.new : B F :=
  { cons := [], exprs := [zeroExpr], pool := [[]], midToOut := [none], exprToOut := [],
    inToOut := [0], insns := [], clash := false }

/-- Computations on the builder. -/
abbrev M (F : Type) (α : Type) := B F → Except Fail (α × B F)

def M.pure {α : Type} (x : α) : M F α := fun b => .ok (x, b)

def M.bind {α β : Type} (c : M F α) (f : α → M F β) : M F β := fun b =>
  match c b with
  | .ok (x, b') => f x b'
  | .error e => .error e

instance : Monad (M F) where
  pure := M.pure
  bind := M.bind

def M.fail {α : Type} (e : Fail) : M F α := fun _ => .error e

/-- A value, or a panic. -/
def orPanic {α : Type} : Option α → Except Fail α
  | some x => .ok x
  | none => .error .panic

/-- `basic.rs:473-485` (`expr.rs`) `LinComb::from_kx_plus_b`. -/
def fromKxB (x : Nat) (k b : F) : OInsn F :=
  if x = 0 ∨ k = 0 then .linComb ⟨[], b⟩ else .linComb ⟨[(x, k)], b⟩

/-- `*self.out_insns.last_mut().unwrap() = i` (`basic.rs:268`, `277`). -/
def setLast (b : B F) (i : OInsn F) : Except Fail (B F) :=
  if b.insns = [] then .error .panic else .ok { b with insns := b.insns.dropLast ++ [i] }

/-- `basic.rs:262-264`. -/
def padTo (n : Nat) (l : List (Option (Nat × F × F))) : List (Option (Nat × F × F)) :=
  l ++ List.replicate (n - l.length) none

/-- One round of the loop of `basic.rs:255-290` `fix_mid_to_out`, for the out variable `id`. -/
def fixOne (n id : Nat) (b : B F) : Except Fail (B F) := do
  let e ← orPanic b.exprs[id]?
  let ((eid, coef, constant), pool) ← orPanic (toSingleStripped b.pool e)
  let b := { b with exprToOut := (e, id) :: b.exprToOut, pool := pool,
                    midToOut := padTo pool.length b.midToOut }
  if eid = 0 then
    if n = 1 ∧ coef = 0 then setLast b (fromKxB 0 0 constant) else .error .panic
  else
    match b.midToOut[eid]? with
    | none => .error .panic
    | some (some (x, k, c)) =>
        if n = 1 then setLast b (fromKxB x (k * coef) (c * coef + constant)) else .error .panic
    | some none => do
        let ci ← orPanic (invOrPanic coef)
        .ok { b with midToOut := b.midToOut.set eid (some (id, ci, -ci * constant)) }

def fixLoop (n : Nat) : List Nat → B F → Except Fail (B F)
  | [], b => .ok b
  | id :: r, b => do
      let b ← fixOne n id b
      fixLoop n r b

/-- `basic.rs:255-290` `fix_mid_to_out`: the last `n` out variables, the last one first. -/
def fixMidToOut (n : Nat) (b : B F) : Except Fail (B F) :=
  fixLoop n ((List.range n).map fun i => b.exprs.length - (i + 1)) b

/-- `basic.rs:157-165` and `169-173`: new variables. -/
def newVars : Nat → B F → Except Fail (B F)
  | 0, b => .ok b
  | n + 1, b =>
      let id := b.pool.length
      let e := newLinear 1 id
      let (idx, pool) := b.pool.add e
      if idx = id then newVars n { b with pool := pool, exprs := b.exprs ++ [e] }
      else .error .panic

/-- `basic.rs:167-175` `add_out_vars`. -/
def addOutVars (n : Nat) (b : B F) : Except Fail (B F) := do
  let b ← newVars n b
  fixMidToOut n b

/-- The expressions of a list of out variables. -/
def getExprs (b : B F) : List Nat → Option (List (Expr F))
  | [] => some []
  | x :: r => do
      let e ← b.exprs[x]?
      let es ← getExprs b r
      some (e :: es)

/-- `basic.rs:177-200` `add_lin_comb`. -/
def addLinComb (lc : LinComb F) (b : B F) : Except Fail (B F) := do
  let es ← orPanic (getExprs b (lc.terms.map Prod.fst))
  let vars := es.zip (lc.terms.map Prod.snd) ++
    (if lc.constant = 0 then [] else [(newConst lc.constant, 1)])
  let (e, pool) ← orPanic (linCombInner b.pool vars)
  fixMidToOut 1 { b with pool := pool, exprs := b.exprs ++ [e] }

/-- `basic.rs:202-215` `add_mul_vec`; `le` is the order on expressions (`expr.rs:246-250`), which
depends on the order of field elements. -/
def addMulVec (le : Expr F → Expr F → Bool) (xs : List Nat) (b : B F) : Except Fail (B F) := do
  if xs.length < 2 then .error .panic
  else
    let es ← orPanic (getExprs b xs)
    match es.insertionSort (fun s t => le s t) with
    | e1 :: e2 :: r => do
        let (cur, pool) ← orPanic (mulTwo b.pool e1 e2)
        let (cur, pool) ← orPanic (mulMany pool cur r)
        fixMidToOut 1 { b with pool := pool, exprs := b.exprs ++ [cur] }
    | _ => .error .panic

/-- `basic.rs:217-220` `add_const`. -/
def addConst (c : F) (b : B F) : Except Fail (B F) :=
  fixMidToOut 1 { b with exprs := b.exprs ++ [newConst c] }

/-- `basic.rs:302-304`. -/
def reallySingles : Pool F → List (Expr F) → Pool F
  | P, [] => P
  | P, e :: r => reallySingles (toReallySingle P e) r

/-- `basic.rs:292-306` `sub_circuit_call`. -/
def subCircuitCall (xs : List Nat) (n : Nat) (b : B F) : Except Fail (B F) := do
  let es ← orPanic (getExprs b xs)
  addOutVars n { b with pool := reallySingles b.pool es }

/-- What the pass is run with: the order on expressions and the evaluation of the unconstrained
operations on constants (`source/mod.rs:413-485`; `none` is an error). -/
structure Cfg (F : Type) where
  le : Expr F → Expr F → Bool
  ev : UOp → F → F → Option F

/-- `hint_normalize.rs:330-369` `execute_out`. -/
def executeOut (cfg : Cfg F) (i : OInsn F) (b : B F) : Except Fail (B F) :=
  match i with
  | .linComb lc => addLinComb lc b
  | .mul xs => addMulVec cfg.le xs b
  | .hint _ _ n => addOutVars n b
  | .constant c => addConst c b
  | .random => addOutVars 1 b
  | .publicInput _ => addOutVars 1 b
  | .call _ xs n => subCircuitCall xs n b
  | .gate _ _ => addOutVars 1 b

/-- `basic.rs:314-343` `push_insn`, `push_insn_with_root`, `push_insn_multi_out`: the first of the
new out variables. -/
def push (cfg : Cfg F) (i : OInsn F) : M F Nat := fun b =>
  match executeOut cfg i { b with insns := b.insns ++ [i] } with
  | .ok b' => .ok (b'.exprs.length - i.numOut, b')
  | .error e => .error e

def lookup {α : Type} (e : Expr F) : List (Expr F × α) → Option α
  | [] => none
  | (k, v) :: r => if k = e then some v else lookup e r

/-- `basic.rs:222-233` `assert`. -/
def assertZ (t : Nat) : M F Unit := fun b => do
  let e ← orPanic b.exprs[t]?
  match lookup e b.cons with
  | some _ => .ok ((), b)
  | none => .ok ((), { b with cons := (e, .asserted) :: b.cons })

/-- `basic.rs:235-245` `mark`. -/
def mark (t : Nat) : M F Unit := fun b => do
  let e ← orPanic b.exprs[t]?
  .ok ((), { b with cons := (e, .marked) :: b.cons })

/-- No part of the Rust: remember whether the expression which is about to be marked is asserted,
so that the mark will overwrite the assertion. -/
def note (t : Nat) : M F Unit := fun b => do
  let e ← orPanic b.exprs[t]?
  .ok ((), { b with clash := b.clash || lookup e b.cons == some .asserted })

/-- `basic.rs:153-155` `constant_value`. -/
def constVal (x : Nat) : M F (Option F) := fun b => do
  let e ← orPanic b.exprs[x]?
  .ok (constantValue e, b)

/-- `hint_normalize.rs:29-67`. -/
def pushConst (cfg : Cfg F) (c : F) : M F Nat := push cfg (.constant c)
def pushAdd (cfg : Cfg F) (x y : Nat) : M F Nat := push cfg (.linComb ⟨[(x, 1), (y, 1)], 0⟩)
def pushSub (cfg : Cfg F) (x y : Nat) : M F Nat := push cfg (.linComb ⟨[(x, 1), (y, -1)], 0⟩)
def pushMul (cfg : Cfg F) (x y : Nat) : M F Nat := push cfg (.mul [x, y])

/-- `hint_normalize.rs:74-78` `bool_cond`. -/
def boolCond (cfg : Cfg F) (a : Nat) : M F Nat := do
  let one ← pushConst cfg 1
  let am ← pushSub cfg a one
  pushMul cfg a am

/-- `hint_normalize.rs:79-82` `assert_bool`. -/
def assertBool (cfg : Cfg F) (a : Nat) : M F Unit := do
  let t ← boolCond cfg a
  assertZ t

/-- `hint_normalize.rs:83-86` `mark_bool`. -/
def markBool (cfg : Cfg F) (a : Nat) : M F Unit := do
  let t ← boolCond cfg a
  mark t

/-- `hint_normalize.rs:83-86` `mark_bool`, as called for the result of a boolean operation
(`hint_normalize.rs:158`): the same, with the note. -/
def markBoolNote (cfg : Cfg F) (a : Nat) : M F Unit := do
  let t ← boolCond cfg a
  note t
  mark t

/-- `hints/builtin.rs:8-30` `BuiltinHintIds`. -/
def hintDiv : Nat := 0xccc000000001
def hintSelect : Nat := 0xccc000000009
def hintToBinary : Nat := 0xccc000000013

/-- `hint_normalize.rs:218-236`. -/
def hintOf : UOp → Nat
  | .div => 0xccc000000001
  | .eq => 0xccc000000002
  | .notEq => 0xccc000000003
  | .boolOr => 0xccc000000004
  | .boolAnd => 0xccc000000005
  | .bitOr => 0xccc000000006
  | .bitAnd => 0xccc000000007
  | .bitXor => 0xccc000000008
  | .pow => 0xccc00000000a
  | .intDiv => 0xccc00000000b
  | .mod => 0xccc00000000c
  | .shiftL => 0xccc00000000d
  | .shiftR => 0xccc00000000e
  | .lesserEq => 0xccc00000000f
  | .greaterEq => 0xccc000000010
  | .lesser => 0xccc000000011
  | .greater => 0xccc000000012

/-- `basic.rs:104-108` `InsnTransformResult` without its error case. -/
inductive Lowered (F : Type) where
  | insn (i : OInsn F)
  | vars (xs : List Nat)

/-- `hint_normalize.rs:95-133`: division. -/
def lowerDiv (cfg : Cfg F) (x y : Nat) (checked : Bool) : M F (Lowered F) := do
  let c ← constVal y
  match c with
  | some yv =>
      if yv = 0 then M.fail .user
      else do
        let y' ← pushConst cfg yv⁻¹
        M.pure (.insn (.mul [x, y']))
  | none =>
      if checked then do
        let one ← pushConst cfg 1
        let inv ← push cfg (.hint hintDiv [one, y] 1)
        let multy ← pushMul cfg y inv
        let sub1 ← pushSub cfg multy one
        assertZ sub1
        M.pure (.insn (.mul [x, inv]))
      else do
        let q ← push cfg (.hint hintDiv [x, y] 1)
        let multy ← pushMul cfg y q
        let subx ← pushSub cfg multy x
        assertZ subx
        M.pure (.vars [q])

/-- `hint_normalize.rs:134-160`: boolean operations. -/
def lowerBool (cfg : Cfg F) (x y : Nat) (op : BoolOp) : M F (Lowered F) := do
  assertBool cfg x
  assertBool cfg y
  let s ← pushAdd cfg x y
  let p ← pushMul cfg x y
  let res ← match op with
    | .and => M.pure p
    | .or => pushSub cfg s p
    | .xor => push cfg (.linComb ⟨[(s, 1), (p, -(1 + 1))], 0⟩)
  markBoolNote cfg res
  M.pure (.vars [res])

/-- `hint_normalize.rs:161-184`: the zero test. -/
def lowerIsZero (cfg : Cfg F) (x : Nat) : M F (Lowered F) := do
  let c ← constVal x
  match c with
  | some xv => M.pure (.insn (.constant (if xv = 0 then 1 else 0)))
  | none => do
      let one ← pushConst cfg 1
      let inv ← push cfg (.hint hintDiv [one, x] 1)
      let prod ← pushMul cfg x inv
      let m ← pushSub cfg one prod
      let xm ← pushMul cfg x m
      assertZ xm
      markBool cfg m
      M.pure (.vars [m])

/-- `hint_normalize.rs:275-285`: the loop over the bits. -/
def bitsLoop (cfg : Cfg F) : List Nat → F → Nat → M F Nat
  | [], _, sum => M.pure sum
  | bit :: r, coef, sum => do
      assertBool cfg bit
      let t ← push cfg (.linComb ⟨[(bit, coef)], 0⟩)
      let sum ← pushAdd cfg sum t
      bitsLoop cfg r (coef + coef) sum

/-- `hint_normalize.rs:267-303`: decomposition into bits. -/
def lowerToBinary (cfg : Cfg F) (x n : Nat) : M F (Lowered F) := do
  let first ← push cfg (.hint hintToBinary [x] n)
  let bits := (List.range n).map fun i => first + i
  let zero ← pushConst cfg 0
  let sum ← bitsLoop cfg bits 1 zero
  let d ← push cfg (.linComb ⟨[(sum, -1), (x, 1)], 0⟩)
  assertZ d
  M.pure (.vars bits)

/-- `hint_normalize.rs:208-243`: unconstrained binary operations. -/
def lowerUBin (cfg : Cfg F) (x y : Nat) (op : UOp) : M F (Lowered F) := do
  let xc ← constVal x
  let yc ← constVal y
  match xc, yc with
  | some xv, some yv =>
      match cfg.ev op xv yv with
      | some v => M.pure (.insn (.constant v))
      | none => M.fail .user
  | _, _ => M.pure (.insn (.hint (hintOf op) [x, y] 1))

/-- `hint_normalize.rs:244-262`: the unconstrained selection. -/
def lowerUSelect (c t f : Nat) : M F (Lowered F) := do
  let cv ← constVal c
  match cv with
  | some v => if v = 0 then M.pure (.vars [f]) else M.pure (.vars [t])
  | none => M.pure (.insn (.hint hintSelect [c, t, f] 1))

/-- `hint_normalize.rs:90-305` `transform_in_to_out`. -/
def transform (cfg : Cfg F) : SInsn F → M F (Lowered F)
  | .linComb lc => M.pure (.insn (.linComb lc))
  | .mul xs => M.pure (.insn (.mul xs))
  | .div x y checked => lowerDiv cfg x y checked
  | .boolBin x y op => lowerBool cfg x y op
  | .isZero x => lowerIsZero cfg x
  | .commit _ => M.pure (.insn .random)
  | .hint id xs n => M.pure (.insn (.hint id xs n))
  | .constant c => M.pure (.insn (.constant c))
  | .random => M.pure (.insn .random)
  | .publicInput i => M.pure (.insn (.publicInput i))
  | .call id xs n => M.pure (.insn (.call id xs n))
  | .uBin x y op => lowerUBin cfg x y op
  | .uSelect c t f => lowerUSelect c t f
  | .gate ty xs => M.pure (.insn (.gate ty xs))
  | .toBinary x n => lowerToBinary cfg x n

/-- `source/mod.rs:208-268` `replace_vars`. -/
def SInsn.replace (f : Nat → Nat) : SInsn F → SInsn F
  | .linComb lc => .linComb ⟨lc.terms.map fun t => (f t.1, t.2), lc.constant⟩
  | .mul xs => .mul (xs.map f)
  | .div x y checked => .div (f x) (f y) checked
  | .boolBin x y op => .boolBin (f x) (f y) op
  | .isZero x => .isZero (f x)
  | .commit xs => .commit (xs.map f)
  | .hint id xs n => .hint id (xs.map f) n
  | .constant c => .constant c
  | .random => .random
  | .publicInput i => .publicInput i
  | .call id xs n => .call id (xs.map f) n
  | .uBin x y op => .uBin (f x) (f y) op
  | .uSelect c t e => .uSelect (f c) (f t) (f e)
  | .gate ty xs => .gate ty (xs.map f)
  | .toBinary x n => .toBinary (f x) n

/-- `basic.rs:345-370` `process_insn`. -/
def processInsn (cfg : Cfg F) (i : SInsn F) : M F Unit := fun b =>
  if i.inputs.all (fun x => decide (x < b.inToOut.length)) then
    match transform cfg (SInsn.replace (fun x => b.inToOut.getD x 0) i) b with
    | .error e => .error e
    | .ok (.insn o, b1) =>
        if o.numOut ≠ i.numOut then .error .panic
        else
          let start := b1.exprs.length
          match push cfg o b1 with
          | .error e => .error e
          | .ok (_, b2) =>
              .ok ((), { b2 with inToOut := b2.inToOut ++
                (List.range i.numOut).map fun k => start + k })
    | .ok (.vars xs, b1) =>
        if xs.length ≠ i.numOut then .error .panic
        else .ok ((), { b1 with inToOut := b1.inToOut ++ xs })
  else .error .panic

def processInsns (cfg : Cfg F) : List (SInsn F) → M F Unit
  | [] => M.pure ()
  | i :: r => do
      processInsn cfg i
      processInsns cfg r

/-- `hint_normalize.rs:307-328` `transform_in_con_to_out`. -/
def transformCon (cfg : Cfg F) (x : Nat) : ConType → M F Nat
  | .zero => M.pure x
  | .bool => boolCond cfg x
  | .nonZero => do
      let one ← pushConst cfg 1
      let inv ← push cfg (.hint hintDiv [one, x] 1)
      let multy ← pushMul cfg x inv
      pushSub cfg multy one

/-- `basic.rs:372-377` `process_con`. -/
def processCon (cfg : Cfg F) (con : Nat × ConType) : M F Unit := fun b =>
  match b.inToOut[con.1]? with
  | none => .error .panic
  | some x => (do
      let t ← transformCon cfg x con.2
      assertZ t : M F Unit) b

def processCons (cfg : Cfg F) : List (Nat × ConType) → M F Unit
  | [] => M.pure ()
  | c :: r => do
      processCon cfg c
      processCons cfg r

/-- `basic.rs:247-253` `add_input`. -/
def addInput (n : Nat) : M F Unit := fun b =>
  match addOutVars n b with
  | .ok b => .ok ((), { b with inToOut := b.inToOut ++ (List.range n).map fun i => i + 1 })
  | .error e => .error e

/-- `basic.rs:607-614`: everything up to the collection of the constraints. -/
def runCircuit (cfg : Cfg F) (c : SCircuit F) : M F Unit := do
  addInput c.numInputs
  processInsns cfg c.insns
  processCons cfg c.cons

/-- `basic.rs:615-628`: an `Asserted` expression becomes a constraint on its out variable, a
`Marked` one does not.  The Rust goes through the keys of the map in sorted order; here they come
in the order of the association list, where an entry hidden by a later one is skipped. -/
def collect (b : B F) : List (Expr F × Status) → Option (List Nat)
  | [] => some []
  | (e, s) :: r => do
      let rest ← collect b r
      if s = .asserted ∧ lookup e b.cons = some .asserted then do
        let v ← lookup e b.exprToOut
        some (v :: rest)
      else some rest

/-- `basic.rs:629-638`: the outputs. -/
def mapOutputs (b : B F) : List Nat → Option (List Nat)
  | [] => some []
  | o :: r => do
      let x ← b.inToOut[o]?
      let rest ← mapOutputs b r
      some (x :: rest)

/-- `basic.rs:592-640` `process_circuit`. -/
def processCircuit (cfg : Cfg F) (c : SCircuit F) : Except Fail (OCircuit F × B F) := do
  let (_, b) ← runCircuit cfg c B.new
  let cons ← orPanic (collect b b.cons)
  let outputs ← orPanic (mapOutputs b c.outputs)
  .ok ({ insns := b.insns, cons := cons, outputs := outputs, numInputs := c.numInputs }, b)

end JST.Comp
