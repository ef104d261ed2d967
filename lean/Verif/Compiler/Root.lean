import Verif.Compiler.BuilderFinal

/-!
# The first pass on all circuits of a program
-/

namespace JST.Comp

open JST.Circ

variable {F : Type} [Field F] [DecidableEq F]

/-- `basic.rs:642-674` `process_root_circuit`: every circuit on its own.  The Rust goes through them
in the order of calls, which matters only for which error is reported. -/
def processRoot (cfg : Cfg F) : List (Nat × SCircuit F) → Except Fail (List (Nat × OCircuit F))
  | [] => .ok []
  | (id, c) :: r => do
      let (oc, _) ← processCircuit cfg c
      let rest ← processRoot cfg r
      .ok ((id, oc) :: rest)

/-- The circuit with a given number. -/
def find {C : Type} (cs : List (Nat × C)) (id : Nat) : Option C := List.lookup id cs

/-- What the pass does to the circuits of a program, one by one. -/
theorem processRoot_find (cfg : Cfg F) {cs : List (Nat × SCircuit F)}
    {out : List (Nat × OCircuit F)} (h : processRoot cfg cs = .ok out) (id : Nat) :
    (find cs id = none ∧ find out id = none) ∨
    ∃ c oc b, find cs id = some c ∧ find out id = some oc ∧ (id, c) ∈ cs ∧
      processCircuit cfg c = .ok (oc, b) := by
  induction cs generalizing out with
  | nil =>
      cases h
      exact Or.inl ⟨rfl, rfl⟩
  | cons e r ih =>
      obtain ⟨i, c⟩ := e
      unfold processRoot at h
      simp only [bind, Except.bind] at h
      cases hp : processCircuit cfg c with
      | error f => rw [hp] at h; cases h
      | ok v =>
          obtain ⟨oc, b⟩ := v
          rw [hp] at h
          simp only at h
          cases hr : processRoot cfg r with
          | error f => rw [hr] at h; cases h
          | ok rest =>
              rw [hr] at h
              simp only [Except.ok.injEq] at h
              subst h
              unfold find
              by_cases hid : id = i
              · subst hid
                refine Or.inr ⟨c, oc, b, ?_, ?_, List.mem_cons_self, hp⟩
                · simp
                · simp
              · have hb : (id == i) = false := by simpa using hid
                simp only [List.lookup_cons, hb]
                rcases ih hr with h1 | ⟨c', oc', b', h1, h2, h3, h4⟩
                · exact Or.inl h1
                · exact Or.inr ⟨c', oc', b', h1, h2, List.mem_cons_of_mem _ h3, h4⟩

theorem processRoot_total (cfg : Cfg F) {cs : List (Nat × SCircuit F)}
    (hv : ∀ e ∈ cs, SCircuit.Valid e.2) :
    processRoot cfg cs = .error .user ∨ ∃ out, processRoot cfg cs = .ok out := by
  induction cs with
  | nil => exact Or.inr ⟨_, rfl⟩
  | cons e r ih =>
      obtain ⟨i, c⟩ := e
      unfold processRoot
      simp only [bind, Except.bind]
      rcases processCircuit_ok cfg c (hv (i, c) List.mem_cons_self) with h | ⟨oc, b, h, -⟩
      · rw [h]; exact Or.inl rfl
      · rw [h]
        simp only
        rcases ih fun e he => hv e (List.mem_cons_of_mem _ he) with h' | ⟨out, h'⟩
        · rw [h']; exact Or.inl rfl
        · rw [h']; exact Or.inr ⟨_, rfl⟩

/-! ## Relations grow with the relations of the circuits called -/

theorem sinsn_holdAll_mono {env env' : Env F} (hp : env'.pub = env.pub) (hg : env'.gate = env.gate)
    (hc : ∀ id i o, env.call id i o → env'.call id i o) (a : Nat → F) :
    ∀ (l : List (SInsn F)) (n : Nat), SInsn.HoldAll env a n l → SInsn.HoldAll env' a n l
  | [], _, _ => trivial
  | i :: r, n, h => by
      refine ⟨?_, sinsn_holdAll_mono hp hg hc a r _ h.2⟩
      have h1 := h.1
      cases i <;> simp only [SInsn.Holds] at h1 ⊢ <;> first | exact h1 | skip
      · rw [hp]; exact h1
      · exact hc _ _ _ h1
      · rw [hg]; exact h1

theorem oinsn_holdAll_mono {env env' : Env F} (hp : env'.pub = env.pub) (hg : env'.gate = env.gate)
    (hc : ∀ id i o, env.call id i o → env'.call id i o) (a : Nat → F) :
    ∀ (l : List (OInsn F)) (n : Nat), OInsn.HoldAll env a n l → OInsn.HoldAll env' a n l
  | [], _, _ => trivial
  | i :: r, n, h => by
      refine ⟨?_, oinsn_holdAll_mono hp hg hc a r _ h.2⟩
      have h1 := h.1
      cases i <;> simp only [OInsn.Holds] at h1 ⊢ <;> first | exact h1 | skip
      · rw [hp]; exact h1
      · exact hc _ _ _ h1
      · rw [hg]; exact h1

theorem sat_mono {pub : Nat → F} {gate : Nat → List F → F} {r r' : Nat → List F → List F → Prop}
    (hc : ∀ id i o, r id i o → r' id i o) (c : SCircuit F) (ins outs : List F)
    (h : SCircuit.Sat ⟨pub, gate, r⟩ c ins outs) : SCircuit.Sat ⟨pub, gate, r'⟩ c ins outs := by
  obtain ⟨a, h1, h2, h3, h4⟩ := h
  exact ⟨a, h1, sinsn_holdAll_mono (env := ⟨pub, gate, r⟩)
    (env' := ⟨pub, gate, r'⟩) rfl rfl hc a _ _ h2, h3, h4⟩

theorem osat_mono {pub : Nat → F} {gate : Nat → List F → F} {r r' : Nat → List F → List F → Prop}
    (hc : ∀ id i o, r id i o → r' id i o) (c : OCircuit F) (ins outs : List F)
    (h : OCircuit.Sat ⟨pub, gate, r⟩ c ins outs) : OCircuit.Sat ⟨pub, gate, r'⟩ c ins outs := by
  obtain ⟨a, h1, h2, h3, h4⟩ := h
  exact ⟨a, h1, oinsn_holdAll_mono (env := ⟨pub, gate, r⟩)
    (env' := ⟨pub, gate, r'⟩) rfl rfl hc a _ _ h2, h3, h4⟩

theorem root_sound (cfg : Cfg F) {cs : List (Nat × SCircuit F)} {out : List (Nat × OCircuit F)}
    (hv : ∀ e ∈ cs, SCircuit.Valid e.2) (h : processRoot cfg cs = .ok out)
    (hcl : ∀ e ∈ cs, ∀ oc b, processCircuit cfg e.2 = .ok (oc, b) → b.clash = false)
    (pub : Nat → F) (gate : Nat → List F → F) (d : Nat) :
    ∀ (id : Nat) (ins outs : List F), satIn OCircuit.Sat pub gate (find out) d id ins outs →
      satIn SCircuit.Sat pub gate (find cs) d id ins outs := by
  induction d with
  | zero => intro id ins outs h; exact h
  | succ d ih =>
      rintro id ins outs ⟨oc, h1, h2⟩
      rcases processRoot_find cfg h id with ⟨-, hn⟩ | ⟨c, oc', b, k1, k2, k3, k4⟩
      · rw [hn] at h1; cases h1
      · rw [k2] at h1; cases h1
        refine ⟨c, k1, ?_⟩
        rcases processCircuit_ok cfg c (hv _ k3) with he | ⟨oc2, b2, he, hC⟩
        · rw [he] at k4; cases k4
        · rw [he] at k4; cases k4
          exact hC.sound (hcl _ k3 _ _ he) _ _ _ (osat_mono ih _ _ _ h2)

theorem root_complete (cfg : Cfg F) {cs : List (Nat × SCircuit F)} {out : List (Nat × OCircuit F)}
    (hv : ∀ e ∈ cs, SCircuit.Valid e.2) (h : processRoot cfg cs = .ok out)
    (pub : Nat → F) (gate : Nat → List F → F) (d : Nat) :
    ∀ (id : Nat) (ins outs : List F),
      satIn (SCircuit.HonestSat cfg.ev) pub gate (find cs) d id ins outs →
      satIn OCircuit.Sat pub gate (find out) d id ins outs := by
  induction d with
  | zero => intro id ins outs h; exact h
  | succ d ih =>
      rintro id ins outs ⟨c', h1, h2⟩
      rcases processRoot_find cfg h id with ⟨hn, -⟩ | ⟨c, oc', b, k1, k2, k3, k4⟩
      · rw [hn] at h1; cases h1
      · rw [k1] at h1
        simp only [Option.some.injEq] at h1
        subst h1
        refine ⟨oc', k2, ?_⟩
        rcases processCircuit_ok cfg c (hv _ k3) with he | ⟨oc2, b2, he, hC⟩
        · rw [he] at k4; cases k4
        · rw [he] at k4; cases k4
          exact osat_mono ih _ _ _ (hC.complete _ _ _ h2)

/-! ## Circuits without boolean operations -/

/-- A computation which leaves the note alone. -/
def Keeps {α : Type} (m : M F α) : Prop := ∀ b x b', m b = .ok (x, b') → b'.clash = b.clash

theorem keeps_pure {α : Type} (x : α) : Keeps (M.pure x : M F α) := by
  intro b y b' h; cases h; rfl

theorem keeps_fail {α : Type} (f : Fail) : Keeps (M.fail f : M F α) := by
  intro b y b' h; cases h

theorem keeps_bind {α β : Type} {m : M F α} {f : α → M F β} (hm : Keeps m)
    (hf : ∀ x, Keeps (f x)) : Keeps (m >>= f) := by
  intro b y b' h
  change M.bind m f b = _ at h
  unfold M.bind at h
  cases hmb : m b with
  | error e => rw [hmb] at h; cases h
  | ok v =>
      obtain ⟨x, b1⟩ := v
      rw [hmb] at h
      rw [hf x b1 y b' h, hm b x b1 hmb]

theorem keeps_constVal (x : Nat) : Keeps (constVal x : M F (Option F)) := by
  intro b y b' h
  unfold constVal at h
  simp only [bind, Except.bind] at h
  cases he : b.exprs[x]? with
  | none => rw [he] at h; cases h
  | some e => rw [he] at h; cases h; rfl

theorem keeps_assertZ (t : Nat) : Keeps (assertZ t : M F Unit) := by
  intro b y b' h
  unfold assertZ at h
  simp only [bind, Except.bind] at h
  cases he : b.exprs[t]? with
  | none => rw [he] at h; cases h
  | some e =>
      rw [he] at h
      simp only [orPanic] at h
      split at h <;> (cases h; rfl)

theorem keeps_mark (t : Nat) : Keeps (mark t : M F Unit) := by
  intro b y b' h
  unfold mark at h
  simp only [bind, Except.bind] at h
  cases he : b.exprs[t]? with
  | none => rw [he] at h; cases h
  | some e => rw [he] at h; cases h; rfl

theorem setLast_clash {b b' : B F} {i : OInsn F} (h : setLast b i = .ok b') :
    b'.clash = b.clash := by
  unfold setLast at h
  split_ifs at h
  cases h; rfl

theorem fixOne_clash {n id : Nat} {b b' : B F} (h : fixOne n id b = .ok b') :
    b'.clash = b.clash := by
  unfold fixOne at h
  simp only [bind, Except.bind] at h
  cases he : b.exprs[id]? with
  | none => rw [he] at h; cases h
  | some e =>
      rw [he] at h
      simp only [orPanic] at h
      cases hs : toSingleStripped b.pool e with
      | none => rw [hs] at h; cases h
      | some v =>
          obtain ⟨⟨eid, coef, c⟩, P⟩ := v
          rw [hs] at h
          simp only at h
          split_ifs at h
          · exact (setLast_clash h).trans rfl
          all_goals
            split at h
            · cases h
            · first
                | exact (setLast_clash h).trans rfl
                | cases h
            · split at h
              · cases h
              · cases h; rfl

theorem fixLoop_clash {n : Nat} : ∀ {l : List Nat} {b b' : B F}, fixLoop n l b = .ok b' →
    b'.clash = b.clash
  | [], b, b', h => by cases h; rfl
  | id :: r, b, b', h => by
      unfold fixLoop at h
      simp only [bind, Except.bind] at h
      cases h1 : fixOne n id b with
      | error e => rw [h1] at h; cases h
      | ok b1 =>
          rw [h1] at h
          rw [fixLoop_clash h, fixOne_clash h1]

theorem newVars_clash : ∀ {n : Nat} {b b' : B F}, newVars n b = .ok b' → b'.clash = b.clash
  | 0, b, b', h => by cases h; rfl
  | n + 1, b, b', h => by
      unfold newVars at h
      dsimp only at h
      split_ifs at h
      exact (newVars_clash h).trans rfl

theorem addOutVars_clash {n : Nat} {b b' : B F} (h : addOutVars n b = .ok b') :
    b'.clash = b.clash := by
  unfold addOutVars at h
  simp only [bind, Except.bind] at h
  cases h1 : newVars n b with
  | error e => rw [h1] at h; cases h
  | ok b1 =>
      rw [h1] at h
      unfold fixMidToOut at h
      rw [fixLoop_clash h, newVars_clash h1]

theorem executeOut_clash {cfg : Cfg F} {i : OInsn F} {b b' : B F}
    (h : executeOut cfg i b = .ok b') : b'.clash = b.clash := by
  cases i with
  | linComb lc =>
      simp only [executeOut, addLinComb, bind, Except.bind] at h
      cases h1 : getExprs b (lc.terms.map Prod.fst) with
      | none => rw [h1] at h; cases h
      | some es =>
          rw [h1] at h
          simp only [orPanic] at h
          cases h2 : linCombInner b.pool (es.zip (lc.terms.map Prod.snd) ++
              (if lc.constant = 0 then [] else [(newConst lc.constant, 1)])) with
          | none => rw [h2] at h; cases h
          | some v =>
              rw [h2] at h
              exact (fixLoop_clash h).trans rfl
  | mul xs =>
      simp only [executeOut, addMulVec, bind, Except.bind] at h
      split_ifs at h
      cases h1 : getExprs b xs with
      | none => rw [h1] at h; cases h
      | some es =>
          rw [h1] at h
          simp only [orPanic] at h
          split at h
          · rename_i e1 e2 r hsort
            cases h2 : mulTwo b.pool e1 e2 with
            | none => rw [h2] at h; cases h
            | some v =>
                rw [h2] at h
                simp only at h
                cases h3 : mulMany v.2 v.1 r with
                | none => rw [h3] at h; cases h
                | some w =>
                    rw [h3] at h
                    exact (fixLoop_clash h).trans rfl
          · cases h
  | hint id xs n => exact addOutVars_clash h
  | constant c => exact (fixLoop_clash h).trans rfl
  | random => exact addOutVars_clash h
  | publicInput i => exact addOutVars_clash h
  | call id xs n =>
      simp only [executeOut, subCircuitCall, bind, Except.bind] at h
      cases h1 : getExprs b xs with
      | none => rw [h1] at h; cases h
      | some es =>
          rw [h1] at h
          exact (addOutVars_clash h).trans rfl
  | gate ty xs => exact addOutVars_clash h

theorem keeps_push (cfg : Cfg F) (i : OInsn F) : Keeps (push cfg i) := by
  intro b y b' h
  unfold push at h
  cases h1 : executeOut cfg i { b with insns := b.insns ++ [i] } with
  | error e => rw [h1] at h; cases h
  | ok b1 =>
      rw [h1] at h
      cases h
      exact (executeOut_clash h1).trans rfl

theorem keeps_boolCond (cfg : Cfg F) (x : Nat) : Keeps (boolCond cfg x) :=
  keeps_bind (keeps_push _ _) fun _ => keeps_bind (keeps_push _ _) fun _ => keeps_push _ _

theorem keeps_assertBool (cfg : Cfg F) (x : Nat) : Keeps (assertBool cfg x) :=
  keeps_bind (keeps_boolCond cfg x) fun _ => keeps_assertZ _

theorem keeps_bitsLoop (cfg : Cfg F) : ∀ (l : List Nat) (c : F) (s : Nat),
    Keeps (bitsLoop cfg l c s)
  | [], _, _ => keeps_pure _
  | bit :: r, c, s => by
      unfold bitsLoop
      exact keeps_bind (keeps_assertBool cfg bit) fun _ => keeps_bind (keeps_push _ _) fun _ =>
        keeps_bind (keeps_push _ _) fun _ => keeps_bitsLoop cfg r _ _

theorem keeps_transform (cfg : Cfg F) (i : SInsn F) (hi : ∀ x y op, i ≠ .boolBin x y op) :
    Keeps (transform cfg i) := by
  cases i with
  | linComb lc => exact keeps_pure _
  | mul xs => exact keeps_pure _
  | div x y checked =>
      refine keeps_bind (keeps_constVal y) fun c => ?_
      cases c with
      | some yv =>
          dsimp only
          split_ifs
          · exact keeps_fail _
          · exact keeps_bind (keeps_push _ _) fun _ => keeps_pure _
      | none =>
          dsimp only
          split_ifs
          · exact keeps_bind (keeps_push _ _) fun _ => keeps_bind (keeps_push _ _) fun _ =>
              keeps_bind (keeps_push _ _) fun _ => keeps_bind (keeps_push _ _) fun _ =>
              keeps_bind (keeps_assertZ _) fun _ => keeps_pure _
          · exact keeps_bind (keeps_push _ _) fun _ => keeps_bind (keeps_push _ _) fun _ =>
              keeps_bind (keeps_push _ _) fun _ => keeps_bind (keeps_assertZ _) fun _ =>
              keeps_pure _
  | boolBin x y op => exact absurd rfl (hi x y op)
  | isZero x =>
      refine keeps_bind (keeps_constVal x) fun c => ?_
      cases c with
      | some xv => exact keeps_pure _
      | none =>
          exact keeps_bind (keeps_push _ _) fun _ => keeps_bind (keeps_push _ _) fun _ =>
            keeps_bind (keeps_push _ _) fun _ => keeps_bind (keeps_push _ _) fun _ =>
            keeps_bind (keeps_push _ _) fun _ => keeps_bind (keeps_assertZ _) fun _ =>
            keeps_bind (keeps_bind (keeps_boolCond _ _) fun _ => keeps_mark _) fun _ => keeps_pure _
  | commit xs => exact keeps_pure _
  | hint id xs n => exact keeps_pure _
  | constant c => exact keeps_pure _
  | random => exact keeps_pure _
  | publicInput i => exact keeps_pure _
  | call id xs n => exact keeps_pure _
  | uBin x y op =>
      refine keeps_bind (keeps_constVal x) fun xc => keeps_bind (keeps_constVal y) fun yc => ?_
      cases xc <;> cases yc <;> dsimp only <;> first | exact keeps_pure _ | skip
      split
      · exact keeps_pure _
      · exact keeps_fail _
  | uSelect c t f =>
      refine keeps_bind (keeps_constVal c) fun cv => ?_
      cases cv with
      | some v => dsimp only; split_ifs <;> exact keeps_pure _
      | none => exact keeps_pure _
  | gate ty xs => exact keeps_pure _
  | toBinary x n =>
      exact keeps_bind (keeps_push _ _) fun _ => keeps_bind (keeps_push _ _) fun _ =>
        keeps_bind (keeps_bitsLoop _ _ _ _) fun _ => keeps_bind (keeps_push _ _) fun _ =>
        keeps_bind (keeps_assertZ _) fun _ => keeps_pure _

theorem keeps_processInsn (cfg : Cfg F) (i : SInsn F) (hi : ∀ x y op, i ≠ .boolBin x y op) :
    Keeps (processInsn cfg i) := by
  intro b y b' h
  unfold processInsn at h
  split_ifs at h
  cases ht : transform cfg (SInsn.replace (fun x => b.inToOut.getD x 0) i) b with
  | error e => rw [ht] at h; cases h
  | ok v =>
      obtain ⟨lo, b1⟩ := v
      have hk := keeps_transform cfg (SInsn.replace (fun x => b.inToOut.getD x 0) i) (by
        intro x y op hh
        cases i with
        | boolBin x y op => exact hi x y op rfl
        | _ => simp [SInsn.replace] at hh) b lo b1 ht
      rw [ht] at h
      cases lo with
      | insn o =>
          simp only at h
          split_ifs at h
          cases hp : push cfg o b1 with
          | error e => rw [hp] at h; cases h
          | ok w =>
              rw [hp] at h
              cases h
              exact (keeps_push cfg o b1 _ _ hp).trans hk
      | vars xs =>
          simp only at h
          split_ifs at h
          cases h
          exact hk

theorem keeps_processInsns (cfg : Cfg F) : ∀ l : List (SInsn F),
    (∀ i ∈ l, ∀ x y op, i ≠ .boolBin x y op) → Keeps (processInsns cfg l)
  | [], _ => keeps_pure _
  | i :: r, h => by
      unfold processInsns
      exact keeps_bind (keeps_processInsn cfg i (h i List.mem_cons_self)) fun _ =>
        keeps_processInsns cfg r fun j hj => h j (List.mem_cons_of_mem _ hj)

theorem keeps_processCon (cfg : Cfg F) (c : Nat × ConType) : Keeps (processCon cfg c) := by
  intro b y b' h
  unfold processCon at h
  split at h
  · cases h
  · refine keeps_bind (m := transformCon cfg _ c.2) ?_ (fun _ => keeps_assertZ _) b y b' h
    cases c.2 with
    | zero => exact keeps_pure _
    | bool => exact keeps_boolCond _ _
    | nonZero =>
        exact keeps_bind (keeps_push _ _) fun _ => keeps_bind (keeps_push _ _) fun _ =>
          keeps_bind (keeps_push _ _) fun _ => keeps_push _ _

theorem keeps_processCons (cfg : Cfg F) : ∀ l : List (Nat × ConType), Keeps (processCons cfg l)
  | [] => keeps_pure _
  | c :: r => keeps_bind (keeps_processCon cfg c) fun _ => keeps_processCons cfg r

theorem keeps_addInput (n : Nat) : Keeps (addInput n : M F Unit) := by
  intro b y b' h
  unfold addInput at h
  cases h1 : addOutVars n b with
  | error e => rw [h1] at h; cases h
  | ok b1 =>
      rw [h1] at h
      cases h
      exact (addOutVars_clash h1).trans rfl

/-- Without boolean operations no assertion is ever noted as overwritten. -/
theorem clash_of_noBool (cfg : Cfg F) (c : SCircuit F)
    (hi : ∀ i ∈ c.insns, ∀ x y op, i ≠ .boolBin x y op) {oc : OCircuit F} {b : B F}
    (h : processCircuit cfg c = .ok (oc, b)) : b.clash = false := by
  have hk : Keeps (runCircuit cfg c) :=
    keeps_bind (keeps_addInput _) fun _ => keeps_bind (keeps_processInsns cfg _ hi) fun _ =>
      keeps_processCons cfg _
  unfold processCircuit at h
  simp only [bind, Except.bind] at h
  cases h1 : runCircuit cfg c B.new with
  | error e => rw [h1] at h; cases h
  | ok v =>
      obtain ⟨u, b1⟩ := v
      rw [h1] at h
      simp only at h
      cases h2 : collect b1 b1.cons with
      | none => rw [h2] at h; cases h
      | some cons =>
          rw [h2] at h
          simp only [orPanic] at h
          cases h3 : mapOutputs b1 c.outputs with
          | none => rw [h3] at h; cases h
          | some o =>
              rw [h3] at h
              cases h
              exact (hk _ _ _ h1).trans rfl

end JST.Comp
