import Verif.Gkr.Binding
import Verif.Props.Gkr

/-!
# C23: what the challenges depend on
-/

namespace JST.Props

open JST.Gkr JST.Spec JST.Transcript

/-- The strings hashed by a proof's transcript: for the commitment `cb`, for the events `es` after it, and for
`n` bytes drawn at the end. -/
def hashedStrings (H : Hasher) (cb : Bytes) (es : List Ev) (n : Nat) : List Bytes :=
  cb :: (List.range digestLoop).map (fun i => (H.hash)^[i] (H.hash cb)) ++
    (((BT.new H).appendCommitment H cb).map fun st => st.inputs H (es ++ [.gen n])).getD []

/-- The transcript after a commitment and the events. -/
def transcriptAfter (H : Hasher) (cb : Bytes) (es : List Ev) : Option BT :=
  ((BT.new H).appendCommitment H cb).bind fun st => st.evs H es

theorem initDigest_length (H : Hasher) (cb : Bytes) : (initDigest H cb).length = H.size := by
  unfold initDigest digestLoop
  rw [Function.iterate_succ_apply', H.len]

theorem start_spec (H : Hasher) (st : BT) (h : st.Ok H) (cb : Bytes) :
    ∃ r, st.appendCommitment H cb = some r ∧ r.Ok H ∧ r.digest = initDigest H cb ∧ r.pending = [] ∧
      r.proof = st.proof ++ cb := by
  have hl := initDigest_length H cb
  rw [BT.appendCommitment]
  generalize initDigest H cb = d at hl ⊢
  refine ⟨⟨d, st.proof ++ cb, (st.proof ++ cb).length, st.locked, st.lockedAt⟩, ?_, ?_, rfl, ?_, rfl⟩
  · rw [BT.setState, if_pos hl]
    rfl
  · exact ⟨le_rfl, h.unlocked, hl⟩
  · simp [BT.pending]

theorem iterate_inj (H : Hasher) (m : Nat) : ∀ x y : Bytes,
    (∀ i < m, (H.hash)^[i + 1] x = (H.hash)^[i + 1] y → (H.hash)^[i] x = (H.hash)^[i] y) →
    (H.hash)^[m] x = (H.hash)^[m] y → x = y := by
  induction m with
  | zero => intro x y _ h; exact h
  | succ m ih =>
    intro x y hc h
    exact ih x y (fun i hi => hc i (by omega)) (hc m (by omega) h)

theorem initDigest_inj (H : Hasher) (cb cb' : Bytes) (es es' : List Ev) (n n' : Nat)
    (hc : ∀ x ∈ hashedStrings H cb es n, ∀ y ∈ hashedStrings H cb' es' n', H.hash x = H.hash y → x = y)
    (h : initDigest H cb = initDigest H cb') : cb = cb' := by
  have h1 : H.hash cb = H.hash cb' := by
    refine iterate_inj H digestLoop _ _ (fun i hi h => ?_) h
    refine hc _ ?_ _ ?_ (by rwa [Function.iterate_succ_apply', Function.iterate_succ_apply'] at h)
    all_goals
      refine List.mem_append_left _ (List.mem_cons_of_mem _ (List.mem_map.mpr ⟨i, List.mem_range.mpr hi, rfl⟩))
  exact hc _ (by simp [hashedStrings]) _ (by simp [hashedStrings]) h1

/-- C23 (messages). Two proofs' transcripts whose events are of the same kinds and sizes, and whose digest is
the same when `n > 0` challenge bytes have been drawn at the end, have absorbed the same commitment and the same
data at every event, unless two of the strings they hashed collide. -/
theorem C23_binding (H : Hasher) (cb cb' : Bytes) (es es' : List Ev) (n : Nat) (hn : n ≠ 0)
    (hes : List.Forall₂ Ev.Same es es') (st st' : BT)
    (h1 : transcriptAfter H cb (es ++ [.gen n]) = some st)
    (h2 : transcriptAfter H cb' (es' ++ [.gen n]) = some st')
    (hd : st.digest = st'.digest)
    (hc : ∀ x ∈ hashedStrings H cb es n, ∀ y ∈ hashedStrings H cb' es' n, H.hash x = H.hash y → x = y) :
    cb = cb' ∧ es = es' := by
  obtain ⟨r, hr, ok, d1, p1, -⟩ := start_spec H _ ok_new cb
  obtain ⟨r', hr', ok', d1', p1', -⟩ := start_spec H _ ok_new cb'
  rw [transcriptAfter, hr, Option.bind_some] at h1
  rw [transcriptAfter, hr', Option.bind_some] at h2
  have pend : ∀ (es : List Ev) (r st : BT), r.Ok H → r.evs H (es ++ [.gen n]) = some st → st.pending = [] := by
    intro es
    induction es with
    | nil =>
      intro r st ok h
      simp only [List.nil_append, BT.evs, BT.ev, Option.bind_some, Option.some.injEq] at h
      rw [← h]
      exact (generate_spec n r ok).2.2.2 hn
    | cons e es ih =>
      intro r st ok h
      obtain ⟨s1, e1, ok1, -⟩ := ev_spec r ok e
      simp only [List.cons_append, BT.evs, e1, Option.bind_some] at h
      exact ih s1 st ok1 h
  have hs : List.Forall₂ Ev.Same (es ++ [.gen n]) (es' ++ [.gen n]) :=
    List.rel_append hes (.cons rfl .nil)
  have := evs_inj _ _ r r' ok ok' (by rw [p1, p1']) hs _ _ h1 h2 (fun x hx y hy => hc x
    (List.mem_append_right _ (by simpa [hr] using hx)) y (List.mem_append_right _ (by simpa [hr'] using hy))) hd
    (by rw [pend _ _ _ ok h1, pend _ _ _ ok' h2])
  rw [d1, d1'] at this
  exact ⟨initDigest_inj H cb cb' es es' n n hc this.1, List.append_cancel_right this.2.2⟩

/-- A toy hash: 2 bytes. -/
def demoHash : Hasher where
  size := 2
  hash := fun x => [x.foldl (fun a b => 31 * a + b) 7, UInt8.ofNat x.length]
  pos := by decide
  len := fun _ => rfl

/-- Histories with every kind of event have a final state. -/
example : ∃ st, transcriptAfter demoHash [1, 2, 3] [.append [4], .gen 3, .locked [5, 6], .append [7], .gen 2] =
    some st ∧ st.proof = [1, 2, 3, 4, 7] := by
  obtain ⟨r, hr, ok, -, -, hp⟩ := start_spec demoHash _ ok_new [1, 2, 3]
  obtain ⟨st, hst, -, hp'⟩ := evs_spec (H := demoHash)
    [.append [4], .gen 3, .locked [5, 6], .append [7], .gen 2] r ok
  exact ⟨st, by rw [transcriptAfter, hr, Option.bind_some, hst], by rw [hp', hp]; rfl⟩

/-- Of two histories that differ in one locked byte, the digests differ or the hash has a collision: here the
hashes differ. -/
example : ((BT.new demoHash).evs demoHash [.locked [5], .gen 2]).map (·.digest) ≠
    ((BT.new demoHash).evs demoHash [.locked [6], .gen 2]).map (·.digest) := by
  rw [BT.evs, BT.evs, ev_locked _ rfl, ev_locked _ rfl]
  simp only [Option.bind_some, BT.evs, BT.ev, generate_pos _ 2 (by decide)]
  decide +kernel

/-- C23 (proof bytes). What is sent is the commitment followed by the data of the unlocked appends, in order,
and nothing else. -/
theorem C23_proof_bytes (H : Hasher) (cb : Bytes) (es : List Ev) :
    ∃ st, transcriptAfter H cb es = some st ∧
      (st.finalize H).map (·.1) = some (cb ++ (es.filterMap fun e =>
        match e with | .append b => some b | _ => none).flatten) := by
  obtain ⟨r, hr, ok, -, -, hp⟩ := start_spec H _ ok_new cb
  obtain ⟨st, hst, ok', hp'⟩ := evs_spec (H := H) es r ok
  refine ⟨st, by rw [transcriptAfter, hr, Option.bind_some, hst], ?_⟩
  rw [BT.finalize, if_neg (by rw [ok'.unlocked]; decide), Option.map_some, hp', hp]
  simp only [BT.new, List.nil_append, Option.some.injEq, List.append_cancel_left_eq]
  clear hst hp' ok' st
  induction es with
  | nil => rfl
  | cons e es ih => cases e <;> simpa using ih

example : ([Ev.append [4], .gen 3, .locked [5, 6], .append [7]].filterMap fun e =>
    match e with | .append b => some b | _ => none).flatten = [4, 7] := rfl

/-- C23 (negation for anything absorbed before the commitment). Appending a commitment forgets all that was
absorbed before: whatever the transcripts, all later histories give the same digests and challenges. -/
theorem C23_commitment_resets (H : Hasher) (st st' : BT) (h : st.Ok H) (h' : st'.Ok H) (cb : Bytes) :
    ∃ r r', st.appendCommitment H cb = some r ∧ st'.appendCommitment H cb = some r' ∧
      ∀ n, (r.generate H n).1 = (r'.generate H n).1 := by
  obtain ⟨r, hr, ok, d1, p1, -⟩ := start_spec H st h cb
  obtain ⟨r', hr', ok', d1', p1', -⟩ := start_spec H st' h' cb
  refine ⟨r, r', hr, hr', fun n => ?_⟩
  rw [← d1'] at d1
  rw [← p1'] at p1
  clear hr hr' p1' d1'
  induction n using Nat.strong_induction_on generalizing r r' with
  | _ n ih =>
    by_cases hn : n = 0
    · subst hn; rw [generate_zero, generate_zero]
    · rw [generate_pos _ _ hn, generate_pos _ _ hn]
      have hd : (r.refresh H).digest = (r'.refresh H).digest := by
        rw [(refresh_spec r ok.start).1, (refresh_spec r' ok'.start).1, BT.input, BT.input, d1]
        exact congrArg (fun p => H.hash (r'.digest ++ p)) p1
      simp only
      rw [hd, ih (n - min H.size n) (by have := H.pos; omega) (r.refresh H) (refresh_ok r ok) (r'.refresh H)
        (by rw [(refresh_spec r ok.start).2.1, (refresh_spec r' ok'.start).2.1]) hd (refresh_ok r' ok')]

/-- Two transcripts that absorbed different data. -/
example : ((BT.new demoHash).append [1]).Ok demoHash ∧ ((BT.new demoHash).append [2]).Ok demoHash ∧
    (((BT.new demoHash).append [1]).generate demoHash 2).1 ≠
      (((BT.new demoHash).append [2]).generate demoHash 2).1 := by
  refine ⟨⟨by decide, rfl, rfl⟩, ⟨by decide, rfl, rfl⟩, ?_⟩
  simp only [generate_pos _ 2 (by decide)]
  decide +kernel

section Protocol

variable {K : Type} [Field K] [DecidableEq K]

/-- C23 (the verifier's messages). Take two runs of the verifier with the hash transcript, on circuits of the
same shape and any public inputs, with one more challenge drawn at the end. If the final digests are equal, the
two runs began with the same commitment, used the same claimed value and absorbed the same messages, unless two
of the strings they hashed collide. -/
theorem C23_verifier_messages (H : Hasher) (ser : K → Bytes) (hser : Function.Injective ser) (len : Nat)
    (hlen : ∀ x, (ser x).length = len) (uni : Bytes → K) (size : Nat) (hsize : size ≠ 0) (s : Nat)
    (layers layers' : List (Layer K))
    (hl : List.Forall₂ (fun l l' => l.inVars = l'.inVars ∧ l.outVars = l'.outVars ∧
      l.mul.isEmpty = l'.mul.isEmpty) layers layers')
    (pub pub' : Nat → Nat → K) (claimed claimed' : K) (w w' : Nat → Nat → K) (cb cb' : Bytes)
    (msgs msgs' : List K) (st st' : BT)
    (hst : (BT.new H).appendCommitment H cb = some st) (hst' : (BT.new H).appendCommitment H cb' = some st') :
    let prog := fun (layers : List (Layer K)) pub (claimed : K) w =>
      (snarkVerify s layers pub claimed w).bind fun _ => squeeze
    let tr := byteTr H ser uni size
    let run1 := run tr (prog layers pub claimed w) st msgs
    let run2 := run tr (prog layers' pub' claimed' w') st' msgs'
    let strings := fun cb st (t : List (KEv K)) =>
      cb :: (List.range digestLoop).map (fun i => (H.hash)^[i] (H.hash cb)) ++
        BT.inputs H st (t.map (KEv.toEv ser size))
    (∀ x ∈ strings cb st (trace tr (prog layers pub claimed w) st msgs),
      ∀ y ∈ strings cb' st' (trace tr (prog layers' pub' claimed' w') st' msgs'),
      H.hash x = H.hash y → x = y) →
    run1.state.digest = run2.state.digest →
    cb = cb' ∧ claimed = claimed' ∧ run1.sent = run2.sent := by
  intro prog tr run1 run2 strings hc hd
  obtain ⟨r, hr, ok, d1, p1, -⟩ := start_spec H _ ok_new cb
  obtain ⟨r', hr', ok', d1', p1', -⟩ := start_spec H _ ok_new cb'
  rw [hst] at hr
  rw [hst'] at hr'
  obtain rfl := Option.some.inj hr
  obtain rfl := Option.some.inj hr'
  have hal : Aligned (fun _ _ => True) (prog layers pub claimed w) (prog layers' pub' claimed' w') :=
    Aligned.bind (aligned_snark s layers layers' hl pub pub' claimed claimed' w w') fun _ _ _ =>
      .squeeze fun _ _ => .ret trivial
  have pend : ∀ (m : VM K Bool) (st : BT) (ms : List K), st.Ok H →
      (run tr (m.bind fun _ => squeeze) st ms).state.pending = [] := by
    intro m st ms hok
    rw [run_bind]
    have := trace_evs H ser uni size m st hok ms
    obtain ⟨q, hq, okq, -⟩ := evs_spec (H := H)
      ((trace (byteTr H ser uni size) m st ms).map (KEv.toEv ser size)) st hok
    rw [this] at hq
    have hq := Option.some.inj hq
    exact (generate_spec size _ (hq ▸ okq)).2.2.2 hsize
  have := hal.bound H ser hser len hlen uni size st st' ok ok' (by rw [p1, p1']) msgs msgs' hd
    ((pend _ _ _ ok).trans (pend _ _ _ ok').symm) fun x hx y hy =>
      hc x (List.mem_append_right _ hx) y (List.mem_append_right _ hy)
  obtain ⟨e1, -, e3⟩ := this
  have lk : ∀ (layers : List (Layer K)) pub claimed w (st : BT) ms,
      (trace tr (prog layers pub claimed w) st ms).filterMap KEv.locked? = [claimed] := by
    intro layers pub claimed w st ms
    rw [show trace tr (prog layers pub claimed w) st ms = trace tr (snarkVerify s layers pub claimed w) st ms ++
      [.squeeze] from trace_bind_squeeze tr _ st ms, List.filterMap_append, locked_snark]
    rfl
  refine ⟨?_, ?_, ?_⟩
  · rw [d1, d1'] at e1
    have h1 : H.hash cb = H.hash cb' := by
      refine iterate_inj H digestLoop _ _ (fun i hi h => ?_) e1
      refine hc _ ?_ _ ?_ (by rwa [Function.iterate_succ_apply', Function.iterate_succ_apply'] at h)
      all_goals
        refine List.mem_append_left _ (List.mem_cons_of_mem _ (List.mem_map.mpr ⟨i, List.mem_range.mpr hi, rfl⟩))
    exact hc _ (by simp [strings]) _ (by simp [strings]) h1
  · have h := lk layers pub claimed w st msgs
    rw [e3, lk] at h
    simpa using h.symm
  · rw [← trace_sent, ← trace_sent, e3]

/-- Little-endian residues are an injective serialization of fixed length. -/
example : Function.Injective (fun x : ZMod m31P => leEnc 4 x.val) ∧
    ∀ x : ZMod m31P, (leEnc 4 x.val).length = 4 := by
  refine ⟨fun x y h => ?_, fun x => by simp [leEnc_length]⟩
  have hx := x.val_lt
  have hy := y.val_lt
  have := congrArg leDec h
  simp only at this
  rw [leDec_leEnc _ _ (by unfold m31P at *; omega), leDec_leEnc _ _ (by unfold m31P at *; omega)] at this
  exact ZMod.val_injective _ this

/-- C23 (negation for public inputs and the circuit). The challenges of a run, and the transcript after it, are
the same for all public inputs, and for all circuits of the same shape. -/
theorem C23_public_inputs_not_bound {S : Type} (tr : Tr K S) (t : S) (s : Nat) (layers layers' : List (Layer K))
    (hl : List.Forall₂ (fun l l' => l.inVars = l'.inVars ∧ l.outVars = l'.outVars ∧
      l.mul.isEmpty = l'.mul.isEmpty) layers layers')
    (pub pub' : Nat → Nat → K) (claimed : K) (msgs : List K) :
    let a := run tr (gkrVerify s layers pub claimed) t msgs
    let b := run tr (gkrVerify s layers' pub' claimed) t msgs
    a.state = b.state ∧ a.val.chal = b.val.chal ∧ a.val.v0 = b.val.v0 ∧ a.val.v1 = b.val.v1 := by
  have := (blind_gkr s layers layers' hl pub pub' claimed).run tr t msgs
  exact ⟨this.2.1, this.1.1, this.1.2.1, this.1.2.2.1⟩

example : List.Forall₂ (fun l l' : Layer ℚ => l.inVars = l'.inVars ∧ l.outVars = l'.outVars ∧
    l.mul.isEmpty = l'.mul.isEmpty) (demoCircuit ℚ)
    [⟨1, 1, [⟨0, 0, 0, 5⟩], [], [], []⟩, ⟨1, 1, [], [⟨1, 1, 1⟩], [], []⟩] :=
  .cons ⟨rfl, rfl, rfl⟩ (.cons ⟨rfl, rfl, rfl⟩ .nil)

/-- The outputs are `w₀ + public input` and `w₁`. -/
def pubCircuit (K : Type) [Field K] : List (Layer K) :=
  [⟨1, 1, [], [⟨0, 0, 1⟩, ⟨1, 1, 1⟩], [⟨0, .pub 0⟩], []⟩]

/-- C23 (negation, consequence). Since challenges do not depend on the public inputs, a prover may choose the
public input after seeing the challenge. For every transcript, every committed input `w` and every first
challenge other than one there is a public input for which the verifier accepts the claimed value zero, although
the output `w₁` of the circuit does not depend on the public input and may be anything. -/
theorem C23_public_input_forgery {S : Type} (h6 : (6 : K) ≠ 0) (tr : Tr K S) (t : S) (w : Nat → Nat → K)
    (hr : (tr.squeeze t).1 ≠ 1) :
    ∃ x proof, evalCircuit (fun _ _ => x) (pubCircuit K) w 1 0 = w 1 0 ∧
      (run tr (snarkVerify 0 (pubCircuit K) (fun _ _ => x) 0 w) t proof).val = true := by
  set r := (tr.squeeze t).1 with hrd
  have h1 : 1 - r ≠ 0 := sub_ne_zero.mpr (Ne.symm hr)
  refine ⟨-w 0 0 - r / (1 - r) * w 1 0,
    (run tr (snarkProve 0 (pubCircuit K) (fun _ _ => -w 0 0 - r / (1 - r) * w 1 0) w
      ⟨fun _ _ => 0, fun _ _ => 0, fun _ => false⟩) t []).sent, ?_, ?_⟩
  · simp [pubCircuit, evalCircuit, Layer.evaluate, addAt]
  · have hc := C19_completeness h6 tr t 0 1 (pubCircuit K) (by simp [pubCircuit])
      ⟨rfl, ⟨by simp, by simp, by simp, rfl⟩, trivial⟩ (by simp [pubCircuit])
      (fun _ _ => -w 0 0 - r / (1 - r) * w 1 0) w ⟨fun _ _ => 0, fun _ _ => 0, fun _ => false⟩ []
    simp only [List.append_nil] at hc
    have hv : (run tr (snarkProve 0 (pubCircuit K) (fun _ _ => -w 0 0 - r / (1 - r) * w 1 0) w
        ⟨fun _ _ => 0, fun _ _ => 0, fun _ => false⟩) t []).val =
        evalAtChallenge (evalCircuit (fun _ _ => -w 0 0 - r / (1 - r) * w 1 0) (pubCircuit K) w) [r] [] := rfl
    rw [evalAtChallenge_eq] at hv
    have h0 : mle2 (evalCircuit (fun _ _ => -w 0 0 - r / (1 - r) * w 1 0) (pubCircuit K) w) [r] [] = 0 := by
      simp only [mle2, mle, pubCircuit, evalCircuit, Layer.evaluate, List.foldl, addAt, List.length_cons,
        List.length_nil, Finset.sum_range_succ, chi, CstVal.eval, pow_zero, pow_one,
        Finset.range_one, Finset.sum_singleton, Pi.add_apply, Pi.smul_apply, smul_eq_mul, zero_add]
      norm_num
      field_simp
      ring
    rw [hv, h0] at hc
    exact hc.1

end Protocol

end JST.Props
