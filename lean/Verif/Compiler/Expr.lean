import Mathlib.Algebra.Field.Basic
import Mathlib.Algebra.BigOperators.Group.List.Basic
import Mathlib.Algebra.BigOperators.Ring.List
import Mathlib.Data.Prod.Lex
import Mathlib.Data.List.Sort
import Mathlib.Tactic.Ring
import Mathlib.Tactic.LinearCombination
import Mathlib.Tactic.FieldSimp

/-!
# The compiler's expressions

Model of `compiler/expander_compiler/src/circuit/ir/expr.rs` and of the free functions of
`compiler/expander_compiler/src/builder/basic.rs` which combine expressions (linear combination,
product, extraction of a single variable).

An expression is a list of terms; a term is a coefficient and a monomial of degree at most two in
the intermediate ("mid") variables.  `none` is a Rust panic (`assert!`, `unwrap`, `panic!`, slice
index out of range).

Left out: `VarSpec::Custom` and `VarSpec::RandomLinear`.  The first builder pass, which is the pass
modelled here, never creates either of them; the second one does.  The hash cached in an expression
(`expr.rs:207-236`) is left out: two expressions are equal exactly when their terms are.
-/

namespace JST.Comp

variable {F : Type*}

/-- `expr.rs:19-29` `VarSpec`, without `Custom` and `RandomLinear`. -/
inductive VarSpec where
  | const
  | lin (x : Nat)
  | quad (x y : Nat)
  deriving DecidableEq, Repr

namespace VarSpec

/-- The derived `Ord` of `expr.rs:19`: first the constructor, then the fields. -/
def key : VarSpec → ℕ ×ₗ ℕ ×ₗ ℕ
  | const => toLex (0, toLex (0, 0))
  | lin x => toLex (1, toLex (x, 0))
  | quad x y => toLex (2, toLex (x, y))

theorem key_injective : Function.Injective key := by
  intro a b h
  cases a <;> cases b <;> simp_all [key]

instance : LinearOrder VarSpec := LinearOrder.lift' key key_injective

/-- `expr.rs:32-44`. -/
def normalize : VarSpec → VarSpec
  | quad x y => if x < y then quad y x else quad x y
  | v => v

/-- `expr.rs:45-53`. -/
def isNormalized : VarSpec → Bool
  | quad x y => decide (y ≤ x)
  | _ => true

/-- `expr.rs:54-81`. -/
def mul : VarSpec → VarSpec → Option VarSpec
  | const, const => some const
  | const, lin x => some (lin x)
  | const, quad x y => some (quad x y)
  | lin x, const => some (lin x)
  | lin x, lin y => some (quad x y)
  | lin _, quad _ _ => none
  | quad x y, const => some (quad x y)
  | quad _ _, lin _ => none
  | quad _ _, quad _ _ => none

/-- The patterns of `expr.rs:384-388`. -/
def isQuad : VarSpec → Bool
  | quad _ _ => true
  | _ => false

def isLin : VarSpec → Bool
  | lin _ => true
  | _ => false

/-- The value of a monomial; specification of what `VarSpec` denotes. -/
def eval [CommSemiring F] (v : Nat → F) : VarSpec → F
  | const => 1
  | lin x => v x
  | quad x y => v x * v y

/-- Every variable of the monomial lies in `1 .. L-1`. -/
def Below (L : Nat) : VarSpec → Prop
  | const => True
  | lin x => 1 ≤ x ∧ x < L
  | quad x y => (1 ≤ x ∧ x < L) ∧ (1 ≤ y ∧ y < L)

end VarSpec

/-- `expr.rs:13-17` `Term`. -/
structure Term (F : Type*) where
  coef : F
  vars : VarSpec
  deriving DecidableEq, Repr

/-- `expr.rs:207-211` `Expression`: its terms. -/
abbrev Expr (F : Type*) := List (Term F)

variable [Field F] [DecidableEq F]

/-- The value of a term; specification. -/
def Term.eval (v : Nat → F) (t : Term F) : F := t.coef * t.vars.eval v

/-- The value of an expression under an assignment of the mid variables; specification. -/
def Expr.eval (v : Nat → F) (e : Expr F) : F := (e.map (Term.eval v)).sum

/-- `expr.rs:259-263` `Expression::default`. -/
def zeroExpr : Expr F := [⟨0, .const⟩]

/-- `expr.rs:297-302`. -/
def newConst (c : F) : Expr F := [⟨c, .const⟩]
def newLinear (c : F) (x : Nat) : Expr F := [⟨c, .lin x⟩]

/-- `expr.rs:142-144`. -/
def Term.normalize (t : Term F) : Term F := ⟨t.coef, t.vars.normalize⟩

/-- `expr.rs:157-162`. -/
def Term.mul (s t : Term F) : Option (Term F) :=
  (s.vars.mul t.vars).map fun v => ⟨s.coef * t.coef, v⟩

/-- `expr.rs:279-289`: adjacent terms with the same monomial are added up. -/
def mergeAdj : List (Term F) → List (Term F)
  | [] => []
  | [t] => [t]
  | t :: u :: r =>
      if t.vars = u.vars then mergeAdj (⟨t.coef + u.coef, t.vars⟩ :: r)
      else t :: mergeAdj (u :: r)
termination_by l => l.length

/-- `expr.rs:278-294` `compress_identical_terms`. -/
def compress (ts : List (Term F)) : Expr F :=
  let r := (mergeAdj ts).filter fun t => t.coef ≠ 0
  if r = [] then zeroExpr else r

/-- `expr.rs:312-319` `from_terms`.  The sort is by monomial only: the coefficient, the second sort
key of `expr.rs:96-105`, orders terms which the next step adds up. -/
def fromTerms (ts : List (Term F)) : Expr F :=
  compress ((ts.map Term.normalize).insertionSort fun s t => s.vars ≤ t.vars)

/-- `expr.rs:327`: strictly increasing monomials. -/
def strictly : List (Term F) → Bool
  | [] => true
  | [_] => true
  | t :: u :: r => decide (t.vars < u.vars) && strictly (u :: r)

/-- `expr.rs:320-329` `from_terms_sorted`. -/
def fromTermsSorted (ts : List (Term F)) : Option (Expr F) :=
  let ts := if ts = [] then zeroExpr else ts
  if ts.all (fun t => t.vars.isNormalized) && strictly ts then some ts else none

/-- `expr.rs:380-396` `degree`. -/
def degree (e : Expr F) : Nat :=
  if e.any (fun t => t.vars.isQuad) then 2
  else if e.any (fun t => t.vars.isLin) then 1
  else 0

/-- `expr.rs:410-416` `constant_value`. -/
def constantValue : Expr F → Option F
  | [⟨c, .const⟩] => some c
  | _ => none

/-- `expr.rs:417-429` `mul_constant`. -/
def mulConstant (e : Expr F) (c : F) : Option (Expr F) :=
  if c = 0 then some zeroExpr
  else fromTermsSorted (e.map fun t => ⟨t.coef * c, t.vars⟩)

/-- `utils/pool.rs:4-28` `Pool`: a list without repetitions; `add` returns the index of the value,
appending it when it is new.  (`map` is the inverse of `vec`.) -/
abbrev Pool (F : Type*) := List (Expr F)

def Pool.add (P : Pool F) (e : Expr F) : Nat × Pool F :=
  if e ∈ P then (P.idxOf e, P) else (P.length, P ++ [e])

/-- `optimistic_inv().unwrap()` of a field element. -/
def invOrPanic (c : F) : Option F := if c = 0 then none else some c⁻¹

/-- `basic.rs:428-434`: the coefficient of the (last) constant term, 0 if there is none. -/
def constPart (e : Expr F) : F :=
  e.foldl (fun c t => if t.vars = .const then t.coef else c) 0

/-- `basic.rs:423-444` `strip_constants`. -/
def stripConstants (e : Expr F) : Option (Expr F × F × F) :=
  let r := e.filter fun t => t.vars ≠ .const
  match r with
  | [] => some (zeroExpr, 0, constPart e)
  | t :: _ => do
      let vi ← invOrPanic t.coef
      let e' ← fromTermsSorted (r.map fun s => ⟨s.coef * vi, s.vars⟩)
      some (e', t.coef, constPart e)

/-- `basic.rs:446-457` `unstrip_constants_single`. -/
def unstripSingle (vid : Nat) (coef constant : F) : Option (Expr F) :=
  if vid = 0 then none
  else some (fromTerms (⟨coef, .lin vid⟩ :: if constant = 0 then [] else [⟨constant, .const⟩]))

/-- `basic.rs:380-387` `to_single`. -/
def toSingle (P : Pool F) (e : Expr F) : Option (Expr F × Pool F) := do
  let (s, coef, constant) ← stripConstants e
  if s.length = 1 ∧ degree s ≤ 1 then some (e, P)
  else
    let (idx, P) := P.add s
    let r ← unstripSingle idx coef constant
    some (r, P)

/-- `basic.rs:389-399` `to_single_stripped`. -/
def toSingleStripped (P : Pool F) (e : Expr F) : Option ((Nat × F × F) × Pool F) := do
  let (s, coef, constant) ← stripConstants e
  if degree s = 0 then some ((0, coef, constant), P)
  else
    let (idx, P) := P.add s
    some ((idx, coef, constant), P)

/-- `basic.rs:401-410` `to_really_single`, reduced to its effect on the pool (its only caller in
this pass, `basic.rs:303`, drops the returned expression). -/
def toReallySingle (P : Pool F) (e : Expr F) : Pool F :=
  match e with
  | [⟨c, .lin _⟩] => if c = 1 then P else (P.add e).2
  | _ => (P.add e).2

/-- `basic.rs:497-511`: one step of the heap: a term with the least monomial among the heads of the
operands, and the operands without it.  (Which of several equal heads is taken is up to Rust's
`BinaryHeap`; here it is the first.) -/
def popMin : List (List (Term F)) → Option (Term F × List (List (Term F)))
  | [] => none
  | [] :: qs => popMin qs
  | (t :: ts) :: qs =>
      match popMin qs with
      | none => some (t, [ts])
      | some (u, qs') => if u.vars < t.vars then some (u, (t :: ts) :: qs') else some (t, ts :: qs)

/-- `basic.rs:497`: the loop over the heap; `n` bounds the number of terms. -/
def kmerge : Nat → List (List (Term F)) → List (Term F)
  | 0, _ => []
  | n + 1, qs =>
      match popMin qs with
      | none => []
      | some (t, qs') => t :: kmerge n qs'

/-- `basic.rs:514-525`: one term is appended to the result (kept in reverse order). -/
def pushTerm (res : List (Term F)) (t : Term F) : List (Term F) :=
  if t.coef = 0 then res
  else match res with
    | last :: rest =>
        if last.vars = t.vars then
          if last.coef + t.coef = 0 then rest else ⟨last.coef + t.coef, last.vars⟩ :: rest
        else t :: res
    | [] => [t]

def compressThresholdAdd : Nat := 10   -- `basic.rs:459`
def compressThresholdMul : Nat := 40   -- `basic.rs:460`

/-- `basic.rs:475-495`: the operands of the heap.  Operands with coefficient zero are left out, long
ones are replaced by a single variable; each term carries its final coefficient
(`basic.rs:513`). -/
def linOperands : Pool F → List (Expr F × F) → Option (List (List (Term F)) × Pool F)
  | P, [] => some ([], P)
  | P, (e, c) :: r =>
      if c = 0 then linOperands P r
      else if compressThresholdAdd < e.length then do
        let (s, P) ← toSingle P e
        let (qs, P) ← linOperands P r
        some (s.map (fun t => ⟨t.coef * c, t.vars⟩) :: qs, P)
      else if e = [] then none
      else do
        let (qs, P) ← linOperands P r
        some (e.map (fun t => ⟨t.coef * c, t.vars⟩) :: qs, P)

/-- `basic.rs:462-532` `lin_comb_inner`. -/
def linCombInner (P : Pool F) (vars : List (Expr F × F)) : Option (Expr F × Pool F) :=
  match vars with
  | [] => some (zeroExpr, P)
  | [(e, c)] => do
      let r ← mulConstant e c
      some (r, P)
  | _ => do
      let (qs, P) ← linOperands P vars
      let res := ((kmerge (qs.map List.length).sum qs).foldl pushTerm []).reverse
      if res = [] then some (zeroExpr, P)
      else do
        let r ← fromTermsSorted res
        some (r, P)

/-- `basic.rs:578-580`: all products of one term with the terms of an expression. -/
def mulTerms (s : Term F) : List (Term F) → Option (List (Term F))
  | [] => some []
  | t :: r => do
      let u ← s.mul t
      let r ← mulTerms s r
      some (u :: r)

/-- `basic.rs:576-581`. -/
def mulRows (v2 : Expr F) : List (Term F) → Option (List (Expr F × F))
  | [] => some []
  | s :: r => do
      let ts ← mulTerms s v2
      let r ← mulRows v2 r
      some ((fromTerms ts, 1) :: r)

/-- `basic.rs:549-560`: an operand of degree two becomes a single variable. -/
def lowerDeg (P : Pool F) (e : Expr F) : Option (Expr F × Pool F) :=
  if degree e = 2 then toSingle P e else some (e, P)

/-- `basic.rs:564-575`: long operands become single variables. -/
def compressPair (P : Pool F) (v1 v2 : Expr F) : Option ((Expr F × Expr F) × Pool F) :=
  if compressThresholdMul < v1.length then do
    let (v1, P) ← toSingle P v1
    let (v2, P) ← toSingle P v2
    some ((v1, v2), P)
  else if compressThresholdMul < v1.length * v2.length then do
    let (v2, P) ← toSingle P v2
    some ((v1, v2), P)
  else some ((v1, v2), P)

/-- `basic.rs:534-587` `mul_two_expr`. -/
def mulTwo (P : Pool F) (a b : Expr F) : Option (Expr F × Pool F) :=
  if degree a = 0 then do
    let c ← constantValue a
    let r ← mulConstant b c
    some (r, P)
  else if degree b = 0 then do
    let c ← constantValue b
    let r ← mulConstant a c
    some (r, P)
  else do
    let (v1, P) ← lowerDeg P a
    let (v2, P) ← lowerDeg P b
    let (v1, v2) := if v2.length < v1.length then (v2, v1) else (v1, v2)
    let ((v1, v2), P) ← compressPair P v1 v2
    let rows ← mulRows v2 v1
    linCombInner P rows

/-- `basic.rs:210-212`: products of the remaining factors. -/
def mulMany (P : Pool F) (cur : Expr F) : List (Expr F) → Option (Expr F × Pool F)
  | [] => some (cur, P)
  | e :: r => do
      let (cur, P) ← mulTwo P cur e
      mulMany P cur r

end JST.Comp
