import Verif.Compiler.Root
import Verif.Compiler.Fold
import Verif.Compiler.ForgeGtRun
import Verif.Primes

/-!
# Properties C14, C15, C17, C18 and C44: the compiler's first pass

The specification of circuits, and of the relation between inputs and outputs which a circuit
defines, is `Verif/Spec/Circuit.lean`.
-/

set_option linter.unusedSectionVars false

namespace JST.Props

open JST JST.Comp JST.Circ

section
variable {F : Type} [Field F] [DecidableEq F]

/-! ## C17: expressions -/

/-- **C17, building.** Sorting, normalising and merging terms does not change the value. -/
theorem C17_from_terms (v : Nat → F) (l : List (Term F)) :
    Expr.eval v (fromTerms l) = (l.map fun t => t.coef * t.vars.eval v).sum :=
  fromTerms_eval v l

/-- **C17, scaling.** -/
theorem C17_scale {L : Nat} {e : Expr F} (he : Expr.WF L e) (c : F) :
    ∃ r, mulConstant e c = some r ∧ Expr.WF L r ∧ ∀ v, Expr.eval v r = Expr.eval v e * c :=
  mulConstant_ok he c

/-- **C17, splitting off factor and constant.** -/
theorem C17_strip {L : Nat} {e : Expr F} (he : Expr.WF L e) :
    ∃ s k c, stripConstants e = some (s, k, c) ∧ Expr.WF L s ∧
      ∀ v, Expr.eval v e = k * Expr.eval v s + c := by
  obtain ⟨s, k, c, h1, h2, h3, -⟩ := stripConstants_ok he
  exact ⟨s, k, c, h1, h2, h3⟩

/-- **C17, sums.** A linear combination never panics.  It may introduce variables for long operands,
which it appends to the table; in every assignment in which these have the values of their
expressions the result has the value of the linear combination. -/
theorem C17_lin_comb {P : Pool F} (h : PoolWF P) {vars : List (Expr F × F)}
    (hv : ∀ ec ∈ vars, Expr.WF P.length ec.1) :
    ∃ r P', linCombInner P vars = some (r, P') ∧ P <+: P' ∧ PoolWF P' ∧ Expr.WF P'.length r ∧
      ∀ m, PoolOk P' m → Expr.eval m r = (vars.map fun ec => Expr.eval m ec.1 * ec.2).sum := by
  obtain ⟨r, P', h1, h2⟩ := linCombInner_ok h hv
  exact ⟨r, P', h1, h2.ext, h2.pool, h2.wf, h2.eval⟩

/-- **C17, products.** As for sums, and of any number of factors. -/
theorem C17_mul {P : Pool F} (h : PoolWF P) {a : Expr F} (ha : Expr.WF P.length a)
    {es : List (Expr F)} (hes : ∀ e ∈ es, Expr.WF P.length e) :
    ∃ r P', mulMany P a es = some (r, P') ∧ P <+: P' ∧ PoolWF P' ∧ Expr.WF P'.length r ∧
      ∀ m, PoolOk P' m → Expr.eval m r = Expr.eval m a * (es.map (Expr.eval m)).prod := by
  obtain ⟨r, P', h1, h2⟩ := mulMany_ok h ha hes
  exact ⟨r, P', h1, h2.ext, h2.pool, h2.wf, h2.eval⟩

/-- **C17, substitution.** Replacing an expression by a variable (times a factor, plus a constant)
does not change its value. -/
theorem C17_substitute {P : Pool F} (h : PoolWF P) {e : Expr F} (he : Expr.WF P.length e) :
    ∃ r P', toSingle P e = some (r, P') ∧ P <+: P' ∧ PoolWF P' ∧ degree r ≤ 1 ∧
      ∀ m, PoolOk P' m → Expr.eval m r = Expr.eval m e := by
  obtain ⟨r, P', h1, h2, h3⟩ := toSingle_ok h he
  exact ⟨r, P', h1, h2.ext, h2.pool, h3, h2.eval⟩

/-- **C17, nothing is demanded of the old variables.** Every assignment of the old variables extends
to one in which the new variables have the values of their expressions. -/
theorem C17_extends {P P' : Pool F} (hP : PoolWF P) (h : PoolWF P') (hpre : P <+: P') {m : Nat → F}
    (hm : PoolOk P m) : ∃ m', PoolOk P' m' ∧ ∀ j, j < P.length → m' j = m j := by
  obtain ⟨q, rfl⟩ := hpre
  obtain ⟨m', h1, h2, -⟩ := extend_pool (by
    intro h0
    have := hP.length_pos
    rw [h0] at this
    simp at this) q h hm fun _ => 0
  exact ⟨m', h1, h2⟩

end

/-! Two variables: the product of `x + 1` and `y` is `xy + y`. -/

section
variable {F : Type} [Field F] [DecidableEq F]

def exPool : Pool F := [[], newLinear 1 1, newLinear 1 2]

theorem exPool_wf : PoolWF (exPool : Pool F) := by
  refine ⟨rfl, ?_, ?_⟩
  · simp [exPool, newLinear]
  · intro j e hj he
    match j, hj with
    | 1, _ => simp [exPool] at he; subst he; exact ⟨by simp [newLinear], Or.inl rfl⟩
    | 2, _ => simp [exPool] at he; subst he; exact ⟨by simp [newLinear], Or.inl rfl⟩
    | j + 3, _ => simp [exPool] at he

theorem exWF : Expr.WF 3 ([⟨1, .const⟩, ⟨1, .lin 1⟩] : Expr F) := by
  refine ⟨by simp, ?_, ?_, ?_, ?_⟩
  · rw [List.pairwise_pair]; show VarSpec.const < VarSpec.lin 1; decide
  · simp [VarSpec.isNormalized]
  · simp [VarSpec.Below]
  · right; simp

theorem exWF' : Expr.WF 3 (newLinear 1 2 : Expr F) := by
  refine ⟨by simp [newLinear], by simp [newLinear], ?_, ?_, ?_⟩
  · simp [newLinear, VarSpec.isNormalized]
  · simp [newLinear, VarSpec.Below]
  · right; simp [newLinear]

example : ∃ r P', mulMany (exPool : Pool F) [⟨1, .const⟩, ⟨1, .lin 1⟩] [newLinear 1 2] =
      some (r, P') ∧ ∀ m, PoolOk P' m → Expr.eval m r = (1 + m 1) * m 2 := by
  obtain ⟨r, P', h1, -, -, -, h2⟩ := C17_mul (exPool_wf (F := F)) exWF (es := [newLinear 1 2])
    (by intro e he; simp only [List.mem_singleton] at he; subst he; exact exWF')
  refine ⟨r, P', h1, fun m hm => ?_⟩
  rw [h2 m hm]
  simp [Expr.eval, Term.eval, VarSpec.eval, newLinear]

end

/-! ## C18: operations on constants -/

section
variable {p : Nat} [Fact p.Prime]

/-- **C18, the circuit API.** A call with constant operands returns the constants, or the error, of
evaluating the instruction which it stands for. -/
theorem C18_api (op : ApiOp) (a : Nat → ZMod p) :
    apiFold op (a 1) (a 2) = runInsn a (apiInsn op 1 2) := by
  have hbool : ∀ bop : BoolOp, ∀ f : Bool → Bool → Bool, (∀ s t, f s t = bop.apply s t) →
      (do needBool (a 1); needBool (a 2);
          some [bit (f (decide (a 1 ≠ 0)) (decide (a 2 ≠ 0)))] : Option (List (ZMod p))) =
        (boolEval bop (a 1) (a 2)).map fun v => [v] := by
    intro bop f hf
    unfold needBool boolEval
    by_cases h1 : a 1 ≠ 0 ∧ a 1 ≠ 1
    · rw [if_pos h1, if_pos h1]; rfl
    rw [if_neg h1, if_neg h1]
    by_cases h2 : a 2 ≠ 0 ∧ a 2 ≠ 1
    · rw [if_pos h2, if_pos h2]; rfl
    rw [if_neg h2, if_neg h2]
    have e1 : a 1 = 0 ∨ a 1 = 1 := by tauto
    have e2 : a 2 = 0 ∨ a 2 = 1 := by tauto
    simp only [hf]
    cases bop <;> rcases e1 with e1 | e1 <;> rcases e2 with e2 | e2 <;>
      simp [e1, e2, bit, BoolOp.apply] <;> ring
  cases op with
  | add => simp [apiFold, apiInsn, runInsn, LinComb.eval]
  | sub => simp [apiFold, apiInsn, runInsn, LinComb.eval]; ring
  | neg => simp [apiFold, apiInsn, runInsn, LinComb.eval]
  | mul => simp [apiFold, apiInsn, runInsn]
  | div checked =>
      simp only [apiFold, apiInsn, runInsn]
      by_cases h : a 2 = 0
      · rw [if_pos h, if_pos h]
        cases checked <;> by_cases h1 : a 1 = 0 <;> simp [h1]
      · rw [if_neg h, if_neg h]
  | xor =>
      have := hbool .xor (fun s t => s != t) (by decide)
      simp only [apiInsn, runInsn]
      rw [← this]
      simp only [apiFold]
      unfold needBool
      by_cases h1 : a 1 ≠ 0 ∧ a 1 ≠ 1
      · rw [if_pos h1]; rfl
      rw [if_neg h1]
      by_cases h2 : a 2 ≠ 0 ∧ a 2 ≠ 1
      · rw [if_pos h2]; rfl
      rw [if_neg h2]
      have e1 : a 1 = 0 ∨ a 1 = 1 := by tauto
      have e2 : a 2 = 0 ∨ a 2 = 1 := by tauto
      rcases e1 with e1 | e1 <;> rcases e2 with e2 | e2 <;> simp [e1, e2, bit]
  | or => exact hbool .or (fun s t => s || t) (by decide)
  | and => exact hbool .and (fun s t => s && t) (by decide)
  | isZero => rfl
  | toBinary n => rfl

/-- **C18, the first pass.** Where the pass computes an unconstrained operation on constants, the
result is what the witness solver would have computed. -/
theorem C18_unconstrained (op : UOp) (x y v : ZMod p) (h : uEval op x y = some v) :
    hintEval op x y = v := by
  cases op <;> simp only [uEval, hintEval] at h ⊢ <;> first | (cases h; rfl) | skip
  · split_ifs at h with h0; cases h; rw [if_neg h0]
  · split_ifs at h with h0; cases h; rw [if_neg h0]
  · split_ifs at h with h0; cases h; rw [if_neg h0]

/-- The pass computes everything but the divisions by zero. -/
theorem C18_unconstrained_total (op : UOp) (x y : ZMod p) :
    uEval op x y = none ↔ y = 0 ∧ (op = .div ∨ op = .intDiv ∨ op = .mod) := by
  have hv : y.val = 0 ↔ y = 0 := ZMod.val_eq_zero y
  cases op <;> simp [uEval, hv]

/-- **C18, a disagreement.** Division of constants by zero stops the compiler; the same operation on
values that are not constant gives zero at run time. -/
theorem C18_division_by_zero (op : UOp) (h : op = .div ∨ op = .intDiv ∨ op = .mod) (x : ZMod p) :
    uEval op x 0 = none ∧ hintEval op x 0 = 0 := by
  rcases h with rfl | rfl | rfl <;> simp [uEval, hintEval]

/-- **C18, powers.** Both compute the power. -/
theorem C18_pow (hp : p ≤ 2 ^ 256) (x y : ZMod p) :
    uEval .pow x y = some (x ^ y.val) ∧ hintEval .pow x y = x ^ y.val := by
  have : powLoop 256 x 1 y.val = x ^ y.val := by
    rw [powLoop_eq _ _ _ _ ((ZMod.val_lt y).trans_le hp), one_mul]
  exact ⟨by rw [uEval, this], by rw [hintEval, this]⟩

/-- **C18, binary digits.** -/
theorem C18_to_binary (a : Nat → ZMod p) (n : Nat) :
    apiFold (.toBinary n) (a 1) (a 2) = if (a 1).val < 2 ^ n then
      some ((List.range n).map fun i => (((a 1).val / 2 ^ i % 2 : Nat) : ZMod p)) else none :=
  toBinaryHint_eq _ n

example : (apiFold .xor 1 0 : Option (List (ZMod m31P))) = some [1] := by
  simp [apiFold, needBool, bit]
example : (uEval .intDiv 7 2 : Option (ZMod m31P)) = some 3 := by decide +kernel
example : bn254P ≤ 2 ^ 256 := by decide +kernel

/-- **C18, another disagreement.** `0 / 0` without check is `0` for the circuit API and for the
witness solver, but the first pass refuses a divisor which is the constant zero, whatever the
dividend. -/
theorem C18_unchecked_div_refused (cfg : Cfg (ZMod p)) :
    apiFold (.div false) (0 : ZMod p) 0 = some [0] ∧
    (∀ a : Nat → ZMod p, a 1 = 0 → a 2 = 0 → runInsn a (.div 1 2 false) = some [0]) ∧
    processCircuit cfg ⟨[.constant 0, .div 1 2 false], [], [3], 1⟩ = .error .user := by
  refine ⟨by simp [apiFold], fun a h1 h2 => by simp [runInsn, h1, h2], ?_⟩
  obtain ⟨b0, e0, i0, t0, ito0, ins0, cons0, -⟩ := addInput_ok (F := ZMod p) 1
  have hl0 : b0.inToOut.length = 2 := by rw [ito0]; rfl
  obtain ⟨b1, e1, l1, r1, x1⟩ := const_fwd (X := fun _ => False) cfg i0 t0 (by omega) 0
  rw [hl0] at x1 l1
  have hx : b1.exprs[b1.inToOut.getD 2 0]? = some (newConst 0) := x1
  have hdiv : processInsn cfg (.div 1 2 false) b1 = .error .user := by
    unfold processInsn
    rw [if_pos (by simp [SInsn.inputs]; omega)]
    have : transform cfg (SInsn.replace (fun x => b1.inToOut.getD x 0) (.div 1 2 false)) b1 =
        .error .user := by
      show lowerDiv cfg _ (b1.inToOut.getD 2 0) false b1 = _
      unfold lowerDiv
      have hc : constVal (b1.inToOut.getD 2 0) b1 = .ok (some (0 : ZMod p), b1) := by
        unfold constVal
        rw [hx]; rfl
      rw [bind_ok hc]
      simp only [if_true]
      rfl
    rw [this]
  have hins : processInsns cfg [.constant 0, .div 1 2 false] b0 = .error .user := by
    rw [processInsns, bind_ok e1, processInsns, bind_err hdiv]
  unfold processCircuit runCircuit
  rw [bind_ok e0, bind_err hins]
  rfl

end

/-! ## C44: the first pass preserves the relation -/

section
variable {F : Type} [Field F] [DecidableEq F]

/-- **C44, no panic.** On circuits whose instructions read variables that exist, the pass ends with
a result or with an error for the user. -/
theorem C44_no_panic (cfg : Cfg F) {cs : List (Nat × SCircuit F)}
    (hv : ∀ e ∈ cs, SCircuit.Valid e.2) :
    processRoot cfg cs = .error .user ∨ ∃ out, processRoot cfg cs = .ok out :=
  processRoot_total cfg hv

/-- **C44, completeness.** What an honest run of the source program relates, the compiled one
relates as well: at any depth of calls, for any public inputs and custom gates. -/
theorem C44_complete (cfg : Cfg F) {cs : List (Nat × SCircuit F)} {out : List (Nat × OCircuit F)}
    (hv : ∀ e ∈ cs, SCircuit.Valid e.2) (h : processRoot cfg cs = .ok out) (pub : Nat → F)
    (gate : Nat → List F → F) (d id : Nat) (ins outs : List F) :
    satIn (SCircuit.HonestSat cfg.ev) pub gate (find cs) d id ins outs →
      satIn OCircuit.Sat pub gate (find out) d id ins outs :=
  root_complete cfg hv h pub gate d id ins outs

/-- **C44, soundness for programs without `and`, `or`, `xor`.** Whatever the compiled program
relates, the source program relates. -/
theorem C44_sound_without_bool (cfg : Cfg F) {cs : List (Nat × SCircuit F)}
    {out : List (Nat × OCircuit F)} (hv : ∀ e ∈ cs, SCircuit.Valid e.2)
    (hb : ∀ e ∈ cs, ∀ i ∈ e.2.insns, ∀ x y op, i ≠ .boolBin x y op)
    (h : processRoot cfg cs = .ok out) (pub : Nat → F) (gate : Nat → List F → F) (d id : Nat)
    (ins outs : List F) :
    satIn OCircuit.Sat pub gate (find out) d id ins outs →
      satIn SCircuit.Sat pub gate (find cs) d id ins outs :=
  root_sound cfg hv h (fun e he _ _ hp => clash_of_noBool cfg e.2 (hb e he) hp) pub gate d id ins
    outs

/-- **C44, soundness (partial).** The same for every program in which no assertion is overwritten by
a mark: `clash` is the model's note that the result of an `and`, `or` or `xor` was marked as Boolean
although its Booleanity was an assertion.  Without this assumption it is false
(`C14_compiled_gate_unsound`). -/
theorem C44_sound_partial (cfg : Cfg F) {cs : List (Nat × SCircuit F)}
    {out : List (Nat × OCircuit F)} (hv : ∀ e ∈ cs, SCircuit.Valid e.2)
    (hcl : ∀ e ∈ cs, ∀ oc b, processCircuit cfg e.2 = .ok (oc, b) → b.clash = false)
    (h : processRoot cfg cs = .ok out) (pub : Nat → F) (gate : Nat → List F → F) (d id : Nat)
    (ins outs : List F) :
    satIn OCircuit.Sat pub gate (find out) d id ins outs →
      satIn SCircuit.Sat pub gate (find cs) d id ins outs :=
  root_sound cfg hv h hcl pub gate d id ins outs

/-- A program: circuit 0 calls circuit 1 on its input and divides; circuit 1 squares. -/
def exProgram : List (Nat × SCircuit F) :=
  [(0, ⟨[.call 1 [1] 1, .div 3 2 true], [(4, .nonZero)], [4], 2⟩),
   (1, ⟨[.mul [1, 1], .isZero 2], [], [2], 1⟩)]

theorem exProgram_valid : ∀ e ∈ (exProgram : List (Nat × SCircuit F)), SCircuit.Valid e.2 := by
  intro e he
  simp only [exProgram, List.mem_cons, List.not_mem_nil, or_false] at he
  rcases he with rfl | rfl
  · refine ⟨?_, ?_, ?_⟩ <;> simp [SInsn.ValidAll, SInsn.inputs, SInsn.numOut, totalOut]
  · refine ⟨?_, ?_, ?_⟩ <;> simp [SInsn.ValidAll, SInsn.inputs, SInsn.numOut, totalOut]

example : ∀ e ∈ (exProgram : List (Nat × SCircuit F)), ∀ i ∈ e.2.insns,
    ∀ x y op, i ≠ .boolBin x y op := by
  intro e he i hi
  simp only [exProgram, List.mem_cons, List.not_mem_nil, or_false] at he
  rcases he with rfl | rfl <;>
    (simp only [List.mem_cons, List.not_mem_nil, or_false] at hi
     rcases hi with rfl | rfl <;> simp)

/-- An honest run of it: `3² / 9 = 1`, over any field in which `9` is not zero. -/
example (h9 : (9 : F) ≠ 0) (ev : UOp → F → F → Option F) :
    satIn (SCircuit.HonestSat ev) (fun _ => 0) (fun _ _ => 0) (find exProgram) 2 0 [3, 9] [1] := by
  refine ⟨_, rfl, fun z => if z = 1 then 3 else if z = 2 then 9 else if z = 3 then 9 else 1, rfl,
    ⟨?_, ?_, trivial⟩, ⟨trivial, trivial, trivial⟩, ?_, rfl⟩
  · refine ⟨_, rfl, fun z => if z = 1 then 3 else if z = 2 then 9 else 0, rfl, ⟨?_, ?_, trivial⟩,
      ⟨trivial, trivial, trivial⟩, by simp, rfl⟩
    · simp [SInsn.Holds]; norm_num
    · simp [SInsn.Holds, SInsn.numOut, h9]
  · simp [SInsn.Holds, SInsn.numOut, h9]
  · simp [ConType.Holds]

/-! ## C14 and C15: an assertion that disappears -/

/-- In the source circuit `andOne`, which computes `x && 1` and asserts that `x` is a bit, the input
is a bit. -/
theorem C14_source_gate (env : Env F) (v o : F) :
    SCircuit.Sat env andOne [v] [o] ↔ ∃ p : Bool, v = ofBool p ∧ o = ofBool p := by
  constructor
  · rintro ⟨a, hin, ⟨h1, ⟨p, q, h2, h3, h4⟩, -⟩, -, hout⟩
    have hin' : [v] = [a 1] := hin
    have hout' : [o] = [a 3] := hout
    simp only [List.cons.injEq, and_true] at hin' hout'
    have h1' : a 2 = 1 := h1
    have h4' : a 3 = ofBool (p && q) := h4
    have hq : q = true := by
      cases q with
      | true => rfl
      | false => rw [h1'] at h3; simp [ofBool] at h3
    subst hq
    exact ⟨p, by rw [hin', h2], by rw [hout', h4', Bool.and_true]⟩
  · rintro ⟨p, rfl, rfl⟩
    refine ⟨fun z => if z = 2 then 1 else ofBool p, rfl, ⟨rfl, ⟨p, true, rfl, rfl, ?_⟩, trivial⟩, ?_,
      rfl⟩
    · cases p <;> rfl
    · intro con hcon
      simp only [andOne, List.mem_singleton] at hcon
      subst hcon
      cases p
      · exact Or.inl rfl
      · exact Or.inr rfl

/-- **C14 is false of the compiled circuit.** The first pass compiles `andOne` to a circuit which
accepts every value as the input of the gate: the mark that the result is a bit overwrites the
assertion that the operand is one, because the two are the same expression. -/
theorem C14_compiled_gate_unsound (cfg : Cfg F) (h2 : (1 + 1 : F) ≠ 0) :
    ∃ oc b, processCircuit cfg (andOne : SCircuit F) = .ok (oc, b) ∧
      ∀ (env : Env F) (v : F), OCircuit.Sat env oc [v] [v] :=
  andOne_forge cfg h2

/-- For instance with `5` over the Mersenne prime field. -/
example (cfg : Cfg (ZMod m31P)) (env : Env (ZMod m31P)) :
    (∃ oc b, processCircuit cfg andOne = .ok (oc, b) ∧ OCircuit.Sat env oc [5] [5]) ∧
      ¬ SCircuit.Sat env (andOne : SCircuit (ZMod m31P)) [5] [5] := by
  constructor
  · obtain ⟨oc, b, h1, h2⟩ := C14_compiled_gate_unsound cfg (by decide +kernel)
    exact ⟨oc, b, h1, h2 env 5⟩
  · rw [C14_source_gate]
    rintro ⟨p, h, -⟩
    cases p <;> revert h <;> decide +kernel

/-- **C15, comparison with a constant, in the source circuit.** The output is the comparison of the
constant with some binary digits whose value is the input. -/
theorem C15_gt_constant_source (env : Env F) (m : Nat) (y : Nat → Bool) (v ρ : F) :
    SCircuit.Sat env (gtConst (m + 1) y) [v] [ρ] ↔
      ∃ x : Nat → Bool, v = ((List.range (m + 1)).map fun i => 2 ^ i * ofBool (x i)).sum ∧
        ρ = ofBool (decide (natVal y (m + 1) < natVal x (m + 1))) :=
  gtConst_source env m y v ρ

/-- **C15, comparison with a constant, compiled.** The output can be proved to be true whenever the
constant has a zero digit above the last, and to be false whenever it has a one there; both whatever
the input. -/
theorem C15_gt_constant_unsound (cfg : Cfg F) (h2 : (1 + 1 : F) ≠ 0) {m : Nat} (hm : 1 ≤ m)
    (y : Nat → Bool) :
    ∃ oc b, processCircuit cfg (gtConst (m + 1) y : SCircuit F) = .ok (oc, b) ∧
      ∀ (env : Env F) (v : F) (t : Nat), 1 ≤ t → t < m + 1 →
        OCircuit.Sat env oc [v] [ofBool !y t] := by
  obtain ⟨oc, b, h1, -⟩ := gtConst_forge cfg h2 m y (t := 1) le_rfl (by omega)
  refine ⟨oc, b, h1, fun env v t ht htm => ?_⟩
  obtain ⟨oc', b', h1', h2'⟩ := gtConst_forge cfg h2 m y ht htm
  rw [h1] at h1'
  cases h1'
  exact h2' env v

/-- Both at once for a constant such as `2^(n-1)`; over BN254, with its 254 digits. -/
example (cfg : Cfg (ZMod bn254P)) : ∃ oc b,
    processCircuit cfg (gtConst 254 (fun i => decide (i = 253)) : SCircuit (ZMod bn254P)) =
      .ok (oc, b) ∧
    ∀ (env : Env (ZMod bn254P)) (v : ZMod bn254P),
      OCircuit.Sat env oc [v] [0] ∧ OCircuit.Sat env oc [v] [1] := by
  obtain ⟨oc, b, h1, h2⟩ := C15_gt_constant_unsound cfg (by decide +kernel) (m := 253) (by omega)
    (fun i => decide (i = 253))
  exact ⟨oc, b, h1, fun env v => ⟨h2 env v 253 (by omega) (by omega), h2 env v 1 (by omega)
    (by omega)⟩⟩

end

end JST.Props
