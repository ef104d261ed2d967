import Verif.Gkr.LayerProto

/-!
# The whole protocol: completeness and soundness
-/

namespace JST.Gkr

open JST.Spec

variable {K : Type} [Field K]

/-- The layers fit together, the first one reading `2 ^ n` wires. -/
def CircWF : Nat → List (Layer K) → Prop
  | _, [] => True
  | n, l :: ls => l.inVars = n ∧ l.WF ∧ CircWF l.outVars ls

/-- The number of output variables of a circuit with `n` input variables. -/
def lastVars : Nat → List (Layer K) → Nat
  | n, [] => n
  | _, l :: ls => lastVars l.outVars ls

omit [Field K] in
theorem lastVars_eq (n : Nat) (ls : List (Layer K)) (h : ls ≠ []) : lastVars n ls = outVarsOf ls := by
  induction ls generalizing n with
  | nil => exact absurd rfl h
  | cons l ls ih =>
    cases ls with
    | nil => simp [lastVars, outVarsOf]
    | cons l' ls =>
      rw [lastVars, ih l.outVars (by simp)]
      simp [outVarsOf, List.getLast?_cons_cons]

/-- The number of bad challenge values of the circuit: those of each layer, and one for each combination
of two claims. -/
def gkrErr (s : Nat) : List (Layer K) → Nat
  | [] => 0
  | l :: ls => gkrErr s ls + (layerErr s l + if l.skip then 0 else 1)

/-- The number of challenges the verifier draws for the layers. -/
def gkrDraws (s : Nat) : List (Layer K) → Nat
  | [] => 0
  | l :: ls => gkrDraws s ls + (l.inVars + s + if l.skip then 0 else l.inVars + 1)

variable [DecidableEq K]

/-! ### Completeness -/

theorem Agree.alphaSome {n s : Nat} {p : PState K} {v : VState K} {w : Nat → Pack K}
    (h : Agree n s false p v w) (a : Option K) :
    Agree n s false { p with alpha := a } { v with alpha := a } w :=
  ⟨h.chal, rfl, h.ok, ⟨h.inv.l0, h.inv.l1, h.inv.ls, h.inv.v1, h.inv.out, h.inv.rx, h.inv.ry⟩, h.claim, h.rx,
    h.simd⟩

theorem sim_nextAlpha (n s : Nat) (p : PState K) (v : VState K) (w : Nat → Pack K)
    (h : Agree n s false p v w) :
    Sim (fun p' v' => Agree n s false p' v' w ∧ AlphaOk v') (nextAlphaP p) (nextAlphaV v) := by
  have hp := h.chal
  unfold nextAlphaP nextAlphaV
  rcases h1 : v.chal.rz1 with _ | rz1 <;> rw [hp] at h1 <;> rw [h1] <;> rw [← hp] at h1
  · exact Sim.ret ⟨h.alphaSome none, by simp [AlphaOk, h1]⟩
  · exact Sim.squeeze fun a => Sim.ret ⟨h.alphaSome (some a), by simp [AlphaOk, h1]⟩

theorem sim_layers (h6 : (6 : K) ≠ 0) (s : Nat) (pub : Nat → Pack K) (layers : List (Layer K)) :
    ∀ (n : Nat) (w : Nat → Pack K) (p : PState K) (v : VState K), CircWF n layers →
      (∀ l ∈ layers, 0 < l.inVars) →
      Agree (lastVars n layers) s true p v (evalCircuit pub layers w) → AlphaOk v →
      Sim (fun p' v' => Agree n s layers.isEmpty p' v' w ∧ AlphaOk v') (proveLayers s pub layers w p)
        (verifyLayers s pub layers v) := by
  induction layers with
  | nil => intro n w p v _ _ h ha; exact Sim.ret ⟨h, ha⟩
  | cons l ls ih =>
    intro n w p v hwf hpos h ha
    obtain ⟨rfl, hl, hls⟩ := hwf
    refine Sim.bind (ih l.outVars (l.evaluate pub w) p v hls (fun l' h' => hpos l' (List.mem_cons_of_mem _ h'))
      h ha) ?_
    rintro p1 v1 ⟨h1, ha1⟩
    refine Sim.bind (sim_layer h6 s l hl (hpos l List.mem_cons_self) pub w _ p1 v1 h1 ha1) ?_
    intro p2 v2 h2
    exact sim_nextAlpha _ _ _ _ _ h2

omit [DecidableEq K] in
theorem agree_init (n s : Nat) (sp : Bufs K) (chal : Chal K) (out : Nat → Pack K) (f : Nat → K)
    (h0 : chal.rz0.length = n) (h1 : chal.rz1 = none) (h2 : chal.rSimd.length = s) [DecidableEq K] :
    Agree n s true ⟨chal, none, sp, f, f, f⟩ (VState.init chal (mle2 out chal.rz0 chal.rSimd)) out := by
  refine ⟨rfl, rfl, rfl, ⟨h0, ?_, h2, ?_, fun _ => h1, ?_, ?_⟩, ⟨rfl, ?_⟩, ?_, ?_⟩
  · intro rz1 h; rw [show (VState.init chal (mle2 out chal.rz0 chal.rSimd)).chal = chal from rfl, h1] at h; cases h
  · show (none : Option K).isSome = chal.rz1.isSome; rw [h1]; rfl
  · intro h; cases h
  · intro h; cases h
  · intro rz1 v1 h; rw [show (VState.init chal (mle2 out chal.rz0 chal.rSimd)).chal = chal from rfl, h1] at h; cases h
  · intro h; cases h
  · intro h; cases h

/-- The verifier accepts the honest prover's messages. -/
theorem sim_gkrFrom (h6 : (6 : K) ≠ 0) (s n : Nat) (layers : List (Layer K)) (pub w : Nat → Pack K)
    (sp : Bufs K) (chal : Chal K) (hwf : CircWF n layers) (hpos : ∀ l ∈ layers, 0 < l.inVars)
    (h0 : chal.rz0.length = lastVars n layers) (h1 : chal.rz1 = none) (h2 : chal.rSimd.length = s) :
    Sim (fun p v => p.1 = mle2 (evalCircuit pub layers w) chal.rz0 chal.rSimd ∧
        Agree n s layers.isEmpty p.2 v w)
      (gkrProveFrom s layers pub w sp chal)
      (gkrVerifyFrom s layers pub (mle2 (evalCircuit pub layers w) chal.rz0 chal.rSimd) chal) := by
  unfold gkrProveFrom gkrVerifyFrom
  rw [evalAtChallenge_eq]
  refine Sim.locked ?_
  have := sim_layers h6 s pub layers n w _ _ hwf hpos (agree_init _ s sp chal _ (fun _ => 0) h0 h1 h2)
    (by simp [AlphaOk, VState.init, h1])
  have := Sim.bind (g := fun v => VM.ret v) (f := fun st => VM.ret
    (mle2 (evalCircuit pub layers w) chal.rz0 chal.rSimd, st)) (Q := fun p v =>
      p.1 = mle2 (evalCircuit pub layers w) chal.rz0 chal.rSimd ∧ Agree n s layers.isEmpty p.2 v w)
    this fun p v h => Sim.ret ⟨rfl, h.1⟩
  rw [VM.bind_ret] at this
  exact this

/-! ### Soundness -/

theorem post_nextAlpha (st : VState K) : Post (fun st' => st'.verified = st.verified) (nextAlphaV st) := by
  unfold nextAlphaV
  rcases st.chal.rz1 with _ | rz1
  · exact .ret rfl
  · exact .squeeze fun a => .ret rfl

theorem post_layer (s : Nat) (l : Layer K) (pub : Nat → Pack K) (isOut : Bool) (st : VState K) :
    Post (fun st' => VInv l.inVars s false st' ∧ (st.verified = false → st'.verified = false))
      (verifyLayer s l pub isOut st) := by
  rw [verifyLayer_eq]
  refine Post.bind (post_rounds 2 l.inVars _) fun x hx => Post.bind (post_rounds 3 s _) fun y hy => ?_
  have := post_tail l st (prepareRz0 l isOut st) s x y hx hy
  have h2 := Post.bind (f := fun a => VM.ret a) (Q' := fun st' => VInv l.inVars s false st' ∧
    (st.verified = false → st'.verified = false)) this fun a ha => .ret ⟨ha.1, fun h => ha.2 (by rw [h]; rfl)⟩
  rwa [VM.bind_ret] at h2

/-- Two claims not both true combine to a false claim, for all but one `alpha`. -/
theorem err_nextAlpha {α : Type} {P : α → Prop} {e : Nat} (n s : Nat) (st : VState K) (w : Nat → Pack K)
    (hinv : VInv n s false st) (hc : ¬ ClaimTrue st w) (k : VState K → VM K α)
    (htrue : ∀ st', VInv n s false st' → AlphaOk st' → claim0 st' ≠ target st' w → Err P e (k st')) :
    Err P ((if st.chal.rz1.isSome then 1 else 0) + e) ((nextAlphaV st).bind k) := by
  have inv' : ∀ a, VInv n s false { st with alpha := a } := fun a =>
    ⟨hinv.l0, hinv.l1, hinv.ls, hinv.v1, hinv.out, hinv.rx, hinv.ry⟩
  have hv := hinv.v1
  unfold nextAlphaV
  rcases h1 : st.chal.rz1 with _ | rz1 <;> rcases h2 : st.v1 with _ | v1 <;> simp [h1, h2] at hv
  · simp only [Option.isSome_none, Bool.false_eq_true, if_false, Nat.zero_add]
    refine htrue _ (by simpa only [h2] using inv' none) (by simp [AlphaOk, h1]) ?_
    simp only [claim0, target, h1]
    intro h
    exact hc ⟨h, fun rz1 v1 h' => by rw [h1] at h'; cases h'⟩
  · simp only [Option.isSome_some, if_true]
    refine .squeeze (if v1 = mle2 w rz1 st.chal.rSimd then ∅ else
      {(mle2 w st.chal.rz0 st.chal.rSimd - st.v0) / (v1 - mle2 w rz1 st.chal.rSimd)}) ?_ fun a ha => ?_
    · split_ifs <;> simp
    · refine htrue _ (by simpa only [h2] using inv' (some a)) (by simp [AlphaOk, h1]) ?_
      simp only [claim0, target, h1]
      intro h
      by_cases hv1 : v1 = mle2 w rz1 st.chal.rSimd
      · refine hc ⟨?_, fun rz1' v1' h1' h2' => ?_⟩
        · rw [hv1] at h
          linear_combination h
        · rw [h1] at h1'; rw [h2] at h2'
          cases h1'; cases h2'; exact hv1
      · rw [if_neg hv1, Finset.mem_singleton] at ha
        apply ha
        have : v1 - mle2 w rz1 st.chal.rSimd ≠ 0 := sub_ne_zero.mpr hv1
        field_simp
        linear_combination h

theorem post_layer_rz1 (s : Nat) (l : Layer K) (pub : Nat → Pack K) (isOut : Bool) (st : VState K) :
    Post (fun st' => st'.chal.rz1.isSome = !l.skip) (verifyLayer s l pub isOut st) := by
  rw [verifyLayer_eq]
  refine Post.bind (post_rounds 2 l.inVars _) fun x hx => Post.bind (post_rounds 3 s _) fun y hy => ?_
  rw [layerTail, readField_bind]
  refine .read fun m => .absorb ?_
  split_ifs with h
  · exact .ret (by simp [skipState, h])
  · refine Post.bind (post_rounds 2 l.inVars _) fun z _ => ?_
    rw [readField_bind]
    exact .read fun m' => .absorb (.ret (by simp [mulState, h]))

theorem err_layers (h6 : (6 : K) ≠ 0) (s : Nat) (pub : Nat → Pack K) (layers : List (Layer K)) :
    ∀ {α : Type} {P : α → Prop} {e : Nat} (n : Nat) (w : Nat → Pack K) (st : VState K)
      (k : VState K → VM K α), CircWF n layers →
      VInv (lastVars n layers) s true st → AlphaOk st → claim0 st ≠ target st (evalCircuit pub layers w) →
      (∀ st', st'.verified = false → Err P e (k st')) →
      (∀ st', VInv n s layers.isEmpty st' → AlphaOk st' → claim0 st' ≠ target st' w → Err P e (k st')) →
      Err P (gkrErr s layers + e) ((verifyLayers s pub layers st).bind k) := by
  induction layers with
  | nil =>
    intro α P e n w st k _ hinv ha hne _ htrue
    rw [gkrErr, Nat.zero_add]
    exact htrue st hinv ha hne
  | cons l ls ih =>
    intro α P e n w st k hwf hinv ha hne hfalse htrue
    obtain ⟨rfl, hl, hls⟩ := hwf
    have key : verifyLayers s pub (l :: ls) st = (verifyLayers s pub ls st).bind fun st1 =>
      (verifyLayer s l pub ls.isEmpty st1).bind nextAlphaV := rfl
    have alphaFalse : ∀ st', st'.verified = false → Err P e ((nextAlphaV st').bind k) := fun st' h =>
      Err.bind_post (post_nextAlpha st') fun st'' h'' => hfalse st'' (h''.trans h)
    rw [key, VM.bind_assoc, show gkrErr s (l :: ls) + e =
      gkrErr s ls + (layerErr s l + ((if l.skip then 0 else 1) + e)) by rw [gkrErr]; ring]
    refine ih l.outVars (l.evaluate pub w) st _ hls hinv ha hne ?_ ?_
    · intro st1 h1
      rw [VM.bind_assoc]
      exact Err.bind_post (post_layer s l pub _ st1) fun st2 h2 => (alphaFalse st2 (h2.2 h1)).mono (by omega)
    · intro st1 hinv1 ha1 hne1
      rw [VM.bind_assoc]
      refine err_layer h6 s l hl pub w _ st1 hinv1 ha1 hne1 _ ?_ ?_
      · intro st2 h2
        exact (alphaFalse st2 h2).mono (by omega)
      · intro st2 hinv2 hrz hc
        have := err_nextAlpha (P := P) (e := e) l.inVars s st2 w hinv2 hc k htrue
        rw [hrz] at this
        convert this using 2
        cases l.skip <;> simp

end JST.Gkr
