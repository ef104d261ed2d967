import Verif.Gkr.Circuit

/-!
# The proof system with the raw commitment

Model of /repo/prover/gkr/src/{prover,verifier}/snark.rs with `RawExpanderGKR`
(/repo/prover/poly_commit/src/raw.rs), whose commitment is the vector of input values itself. The commitment
is the first thing in the proof, and `append_commitment` sets the transcript's state to a digest of it; here it
is a parameter of the programs, and the transcript's state when they start is a function of it.
-/

namespace JST.Gkr

open JST.Spec

variable {K : Type} [Field K]

/-- `RawExpanderGKR::verify`, raw.rs:197-209. -/
def rawOpen [DecidableEq K] (commit : Nat → Pack K) (rz rSimd : List K) (v : K) : Bool :=
  decide (v = evalAtChallenge commit rz rSimd)

/-- `post_gkr`, verifier/snark.rs:261-298. A raw opening is empty, so nothing is read or absorbed. -/
def postGkr [DecidableEq K] (commit : Nat → Pack K) (st : VState K) : Bool :=
  rawOpen commit st.chal.rz0 st.chal.rSimd st.v0 &&
    match st.chal.rz1, st.v1 with
    | some rz1, some v1 => rawOpen commit rz1 st.chal.rSimd v1
    | _, _ => true

/-- `Verifier::verify` after the output challenge is drawn. -/
def snarkVerifyFrom [DecidableEq K] (s : Nat) (layers : List (Layer K)) (pub : Nat → Pack K) (claimed : K)
    (commit : Nat → Pack K) (chal : Chal K) : VM K Bool := do
  let st ← gkrVerifyFrom s layers pub claimed chal
  pure (st.verified && postGkr commit st)

/-- `Verifier::verify`, verifier/snark.rs:303-349. -/
def snarkVerify [DecidableEq K] (s : Nat) (layers : List (Layer K)) (pub : Nat → Pack K) (claimed : K)
    (commit : Nat → Pack K) : VM K Bool := do
  let chal ← sampleChal (outVarsOf layers) s
  snarkVerifyFrom s layers pub claimed commit chal

/-- `Prover::prove`, prover/snark.rs:89-176: the claimed value; the messages are what the program absorbs. -/
def snarkProve (s : Nat) (layers : List (Layer K)) (pub w : Nat → Pack K) (sp : Bufs K) : VM K K := do
  let p ← gkrProve s layers pub w sp
  pure p.1

/-! ### Sampling -/

theorem run_squeezeN {K S : Type} (tr : Tr K S) (n : Nat) (t : S) :
    ∃ (rs : List K) (t' : S), rs.length = n ∧ ∀ inp, run tr (squeezeN n) t inp = ⟨rs, t', inp, []⟩ := by
  induction n generalizing t with
  | zero => exact ⟨[], t, rfl, fun _ => rfl⟩
  | succ n ih =>
    obtain ⟨rs, t', hl, h⟩ := ih (tr.squeeze t).2
    refine ⟨(tr.squeeze t).1 :: rs, t', by simp [hl], fun inp => ?_⟩
    show run tr ((squeezeN n).bind fun rs => .ret ((tr.squeeze t).1 :: rs)) (tr.squeeze t).2 inp = _
    rw [run_bind, h]
    rfl

omit [Field K] in
theorem run_sampleChal {S : Type} (tr : Tr K S) (n s : Nat) (t : S) :
    ∃ (chal : Chal K) (t' : S), chal.rz0.length = n ∧ chal.rz1 = none ∧ chal.rSimd.length = s ∧
      ∀ inp, run tr (sampleChal n s) t inp = ⟨chal, t', inp, []⟩ := by
  obtain ⟨rz, t1, h1, e1⟩ := run_squeezeN tr n t
  obtain ⟨rs, t2, h2, e2⟩ := run_squeezeN tr s t1
  refine ⟨⟨rz, none, rs⟩, t2, h1, rfl, h2, fun inp => ?_⟩
  show run tr ((squeezeN n).bind fun rz => (squeezeN s).bind fun rs =>
    .ret (Chal.mk rz none rs)) t inp = _
  rw [run_bind, e1]
  simp only
  rw [run_bind, e2]
  rfl

variable [DecidableEq K]

/-! ### Completeness -/

theorem postGkr_of_claim (st : VState K) (w : Nat → Pack K) (h : ClaimTrue st w) : postGkr w st = true := by
  rw [postGkr, rawOpen, evalAtChallenge_eq, ← h.1, decide_eq_true rfl, Bool.true_and]
  rcases h1 : st.chal.rz1 with _ | rz1 <;> rcases h2 : st.v1 with _ | v1 <;> simp only
  rw [rawOpen, evalAtChallenge_eq, ← h.2 rz1 v1 h1 h2, decide_eq_true rfl]

theorem claim_of_postGkr (st : VState K) (w : Nat → Pack K) (h : postGkr w st = true) : ClaimTrue st w := by
  rw [postGkr, Bool.and_eq_true, rawOpen, evalAtChallenge_eq, decide_eq_true_eq] at h
  refine ⟨h.1, fun rz1 v1 h1 h2 => ?_⟩
  have := h.2
  rw [h1, h2] at this
  simpa only [rawOpen, evalAtChallenge_eq, decide_eq_true_eq] using this

theorem snark_complete {S : Type} (h6 : (6 : K) ≠ 0) (tr : Tr K S) (t : S) (s n : Nat) (layers : List (Layer K))
    (hne : layers ≠ []) (pub w : Nat → Pack K) (sp : Bufs K) (hwf : CircWF n layers)
    (hpos : ∀ l ∈ layers, 0 < l.inVars) (rest : List K) :
    let p := run tr (snarkProve s layers pub w sp) t []
    let v := run tr (snarkVerify s layers pub p.val w) t (p.sent ++ rest)
    v.val = true ∧ v.state = p.state ∧ v.rest = rest := by
  obtain ⟨chal, t', h0, h1, h2, hrun⟩ := run_sampleChal tr (outVarsOf layers) s t
  rw [← lastVars_eq n layers hne] at h0
  have hsim := sim_gkrFrom h6 s n layers pub w sp chal hwf hpos h0 h1 h2
  have hsim2 : Sim (fun (p : K) (v : Bool) => p = mle2 (evalCircuit pub layers w) chal.rz0 chal.rSimd ∧ v = true)
      ((gkrProveFrom s layers pub w sp chal).bind fun p => .ret p.1)
      (snarkVerifyFrom s layers pub (mle2 (evalCircuit pub layers w) chal.rz0 chal.rSimd) w chal) := by
    refine Sim.bind hsim fun p v h => Sim.ret ⟨h.1, ?_⟩
    rw [h.2.ok, Bool.true_and]
    exact postGkr_of_claim v w h.2.claim
  have hP : run tr (snarkProve s layers pub w sp) t [] =
      run tr ((gkrProveFrom s layers pub w sp chal).bind fun p => .ret p.1) t' [] := by
    show run tr (((sampleChal (outVarsOf layers) s).bind fun chal => gkrProveFrom s layers pub w sp chal).bind
      fun p => .ret p.1) t [] = _
    rw [VM.bind_assoc, run_bind, hrun]
    rfl
  have hV : ∀ c inp, run tr (snarkVerify s layers pub c w) t inp =
      run tr (snarkVerifyFrom s layers pub c w chal) t' inp := by
    intro c inp
    show run tr ((sampleChal (outVarsOf layers) s).bind fun chal => snarkVerifyFrom s layers pub c w chal) t inp
      = _
    rw [run_bind, hrun]
    rfl
  have := Sim.run hsim2 tr t' rest []
  simp only at this ⊢
  rw [hP, hV, this.1.1]
  exact ⟨this.1.2, this.2⟩

/-! ### Soundness -/

theorem snark_sound (h6 : (6 : K) ≠ 0) (s n : Nat) (layers : List (Layer K)) (pub w : Nat → Pack K)
    (claimed : K) (chal : Chal K) (hwf : CircWF n layers)
    (h0 : chal.rz0.length = lastVars n layers) (h1 : chal.rz1 = none) (h2 : chal.rSimd.length = s)
    (hne : claimed ≠ mle2 (evalCircuit pub layers w) chal.rz0 chal.rSimd) :
    Err (fun b => b = true) (gkrErr s layers) (snarkVerifyFrom s layers pub claimed w chal) := by
  refine .absorbLocked ?_
  rw [← Nat.add_zero (gkrErr s layers)]
  refine err_layers h6 s pub layers n w (VState.init chal claimed) _ hwf ⟨h0, ?_, h2, ?_, fun _ => h1, ?_, ?_⟩
    ?_ ?_ ?_ ?_
  · intro rz1 h; rw [show (VState.init chal claimed).chal = chal from rfl, h1] at h; cases h
  · show (none : Option K).isSome = chal.rz1.isSome; rw [h1]; rfl
  · intro h; cases h
  · intro h; cases h
  · simp [AlphaOk, VState.init, h1]
  · simpa [claim0, target, VState.init, h1] using hne
  · intro st' h'
    refine .ret ?_
    simp [h']
  · intro st' hinv ha hne'
    refine .ret fun h => hne' (claim0_target _ _ _ _ _ hinv (claim_of_postGkr st' w ?_))
    exact (Bool.and_eq_true _ _ ▸ h).2

/-! ### Counting draws -/

omit [Field K] [DecidableEq K] in
theorem draws_squeezeN (n : Nat) : Draws n (squeezeN (K := K) n) := by
  induction n with
  | zero => exact .ret
  | succ n ih => exact .squeeze fun c => Draws.bind (b := 0) (f := fun rs => VM.ret (c :: rs)) ih fun _ => .ret

omit [Field K] [DecidableEq K] in
theorem draws_sampleChal (n s : Nat) : Draws (n + s) (sampleChal (K := K) n s) :=
  Draws.bind (draws_squeezeN n) fun _ => Draws.bind (b := 0) (draws_squeezeN s) fun _ => .ret

omit [DecidableEq K] in
theorem draws_readAbsorb (n : Nat) : Draws 0 (readAbsorb (K := K) n) := by
  induction n with
  | zero => exact .ret
  | succ n ih =>
    rw [readAbsorb_succ]
    exact .read fun m => .absorb (by simpa using Draws.bind ih fun vs => .ret)

theorem draws_verifyStep (deg : Nat) (claim : K) : Draws 1 (verifyStep deg claim) := by
  have := Draws.bind (b := 1) (draws_readAbsorb (K := K) (deg + 1)) (f := fun ps =>
    squeeze.bind fun r =>
      if deg = 2 then .ret (ps.2 && decide (ps.1.getD 0 0 + ps.1.getD 1 0 = claim), r,
        deg2Eval (ps.1.getD 0 0) (ps.1.getD 1 0) (ps.1.getD 2 0) r)
      else if deg = 3 then .ret (ps.2 && decide (ps.1.getD 0 0 + ps.1.getD 1 0 = claim), r, lagEval ps.1 r)
      else if deg = 6 then .ret (ps.2 && decide (ps.1.getD 0 0 + ps.1.getD 1 0 = claim), r, lagEval ps.1 r)
      else .ret (false, r, claim)) fun ps => .squeeze fun c => by
        simp only [VM.ret_bind]
        split_ifs <;> exact .ret
  exact this

theorem draws_verifyRounds (deg n : Nat) (sum : K) : Draws n (verifyRounds deg n sum) := by
  induction n generalizing sum with
  | zero => exact .ret
  | succ n ih =>
    rw [verifyRounds_succ, Nat.add_comm]
    exact Draws.bind (draws_verifyStep deg sum) fun a => by simpa using Draws.bind (ih a.2.2) fun b => .ret

theorem draws_layer (s : Nat) (l : Layer K) (pub : Nat → Pack K) (isOut : Bool) (st : VState K) :
    Draws (l.inVars + s + if l.skip then 0 else l.inVars + 1)
      ((verifyLayer s l pub isOut st).bind nextAlphaV) := by
  rw [verifyLayer_eq, VM.bind_assoc, Nat.add_assoc]
  refine Draws.bind (draws_verifyRounds _ _ _) fun x => ?_
  rw [VM.bind_assoc]
  refine Draws.bind (draws_verifyRounds _ _ _) fun y => ?_
  rw [layerTail, readField_bind]
  refine .read fun m => .absorb ?_
  by_cases h : l.skip = true
  · rw [if_pos h, if_pos h]; exact .ret
  · rw [if_neg h, if_neg h, VM.bind_assoc]
    refine Draws.bind (draws_verifyRounds _ _ _) fun z => ?_
    rw [readField_bind]
    exact .read fun m' => .absorb (.squeeze fun a => .ret)

theorem draws_layers (s : Nat) (pub : Nat → Pack K) (layers : List (Layer K)) (st : VState K) :
    Draws (gkrDraws s layers) (verifyLayers s pub layers st) := by
  induction layers with
  | nil => exact .ret
  | cons l ls ih =>
    exact Draws.bind ih fun st1 => draws_layer s l pub _ st1

theorem draws_snarkFrom (s : Nat) (layers : List (Layer K)) (pub w : Nat → Pack K) (claimed : K)
    (chal : Chal K) : Draws (gkrDraws s layers) (snarkVerifyFrom s layers pub claimed w chal) := by
  refine .absorbLocked ?_
  exact Draws.bind (b := 0) (draws_layers s pub layers (VState.init chal claimed)) fun st => .ret

theorem draws_snark (s : Nat) (layers : List (Layer K)) (pub w : Nat → Pack K) (claimed : K) :
    Draws (outVarsOf layers + s + gkrDraws s layers) (snarkVerify s layers pub claimed w) :=
  Draws.bind (draws_sampleChal _ _) fun chal => draws_snarkFrom s layers pub w claimed chal

/-! ### Sampling a point where a nonzero table does not vanish -/

section SZ

variable {V : Type} [AddCommGroup V] [Module K V]

/-- A table with a nonzero entry has a nonzero extension, except for one value of each challenge. -/
theorem err_squeezeN {α : Type} {P : α → Prop} {e : Nat} (n : Nat) :
    ∀ (f : Nat → V) (k : List K → VM K α), (∃ i < 2 ^ n, f i ≠ 0) →
      (∀ rs, rs.length = n → mle f rs ≠ 0 → Err P e (k rs)) →
      Err P (n + e) ((squeezeN n).bind k) := by
  classical
  induction n with
  | zero =>
    intro f k hf hk
    rw [Nat.zero_add]
    obtain ⟨i, hi, h⟩ := hf
    refine hk [] rfl ?_
    rw [mle_nil]
    have : i = 0 := by simpa using hi
    rwa [this] at h
  | succ n ih =>
    intro f k hf hk
    rw [show n + 1 + e = 1 + (n + e) by ring]
    obtain ⟨i, hi, h⟩ := hf
    -- the pair `f (2 * q), f (2 * q + 1)` is not zero
    have hq : f (2 * (i / 2)) ≠ 0 ∨ f (2 * (i / 2) + 1) ≠ 0 := by
      rcases Nat.even_or_odd i with he | ho
      · left; rwa [show 2 * (i / 2) = i by have := Nat.even_iff.mp he; omega]
      · right; rwa [show 2 * (i / 2) + 1 = i by have := Nat.odd_iff.mp ho; omega]
    have hqlt : i / 2 < 2 ^ n := by rw [pow_succ] at hi; omega
    set q := i / 2
    have hbad : ∃ B : Finset K, B.card ≤ 1 ∧ ∀ r, r ∉ B → foldv r f q ≠ 0 := by
      by_cases hd : f (2 * q + 1) - f (2 * q) = 0
      · refine ⟨∅, by simp, fun r _ => ?_⟩
        have e1 : f (2 * q + 1) = f (2 * q) := sub_eq_zero.mp hd
        simp only [foldv, hd, smul_zero, add_zero]
        rcases hq with h | h
        · exact h
        · rwa [e1] at h
      · by_cases hx : ∃ r : K, foldv r f q = 0
        · obtain ⟨r0, h0⟩ := hx
          refine ⟨{r0}, by simp, fun r hr h => ?_⟩
          apply hr
          rw [Finset.mem_singleton]
          simp only [foldv] at h h0
          have : (r - r0) • (f (2 * q + 1) - f (2 * q)) = 0 := by
            rw [sub_smul]
            have : r • (f (2 * q + 1) - f (2 * q)) = r0 • (f (2 * q + 1) - f (2 * q)) := by
              rw [← add_right_inj (f (2 * q)), h, h0]
            rw [this, sub_self]
          rcases smul_eq_zero.mp this with h | h
          · exact sub_eq_zero.mp h
          · exact absurd h hd
        · exact ⟨∅, by simp, fun r _ h => hx ⟨r, h⟩⟩
    obtain ⟨B, hB, hb⟩ := hbad
    show Err P (1 + (n + e)) (VM.squeeze fun r => ((squeezeN n).bind fun rs => .ret (r :: rs)).bind k)
    refine .squeeze B hB fun r hr => ?_
    rw [VM.bind_assoc]
    refine ih (foldv r f) _ ⟨q, hqlt, hb r hr⟩ fun rs hl hne => hk (r :: rs) (by simp [hl]) ?_
    rwa [mle_foldv] at hne

end SZ

/-- With the claim zero, a circuit whose output is not zero everywhere is rejected. -/
theorem snark_zero_sound (h6 : (6 : K) ≠ 0) (s n : Nat) (layers : List (Layer K)) (hnil : layers ≠ [])
    (pub w : Nat → Pack K) (hwf : CircWF n layers)
    (hout : ∃ i < 2 ^ lastVars n layers, ∃ k < 2 ^ s, evalCircuit pub layers w i k ≠ 0) :
    Err (fun b => b = true) (lastVars n layers + s + gkrErr s layers) (snarkVerify s layers pub 0 w) := by
  obtain ⟨i, hi, k, hk, hik⟩ := hout
  show Err _ _ (((squeezeN (outVarsOf layers)).bind fun rz => (squeezeN s).bind fun rs =>
    .ret (Chal.mk rz none rs)).bind fun chal => snarkVerifyFrom s layers pub 0 w chal)
  rw [VM.bind_assoc, ← lastVars_eq n layers hnil, Nat.add_assoc]
  refine err_squeezeN (lastVars n layers) (fun j => evalCircuit pub layers w j k) _ ⟨i, hi, hik⟩ ?_
  intro rz hrz hne
  rw [VM.bind_assoc]
  refine err_squeezeN s (mle (evalCircuit pub layers w) rz) _ ⟨k, hk, ?_⟩ ?_
  · intro h
    apply hne
    rw [← h]
    simp only [mle, Finset.sum_apply, Pi.smul_apply]
  · intro rs hrs hne2
    exact snark_sound h6 s n layers pub w 0 _ hwf hrz rfl hrs (Ne.symm hne2)

end JST.Gkr
