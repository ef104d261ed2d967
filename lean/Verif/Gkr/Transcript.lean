import Verif.IO.Bytes
import Verif.Gkr.Proto

/-!
# The hash transcript

Model of /repo/prover/transcript/src/byte_hash_transcript.rs. The hash is an arbitrary function to strings
of `size` bytes; `hash_inplace` is that function applied to the buffer, as for SHA-256 and Keccak
(prover/hasher/src/sha2_256.rs:18-31). The failed assertions of `lock_proof`, `unlock_proof` and `set_state`
are `none`.
-/

namespace JST.Transcript

open JST

/-- `FiatShamirHasher`, prover/hasher/src/traits.rs:8-23. -/
structure Hasher where
  size : Nat
  hash : Bytes → Bytes
  pos : 0 < size
  len : ∀ x, (hash x).length = size

/-- `BytesHashTranscript`, byte_hash_transcript.rs:11-27. -/
structure BT where
  digest : Bytes
  proof : Bytes
  start : Nat
  locked : Bool
  lockedAt : Nat
  deriving DecidableEq

variable (H : Hasher)

/-- `new`, 44-53. -/
def BT.new : BT := ⟨List.replicate H.size 0, [], 0, false, 0⟩

/-- `append_u8_slice`, 68-70. -/
def BT.append (st : BT) (b : Bytes) : BT := { st with proof := st.proof ++ b }

/-- `refresh_digest`, 127-141. -/
def BT.refresh (st : BT) : BT :=
  if st.start < st.proof.length then
    { st with
      digest := H.hash (st.digest ++ (st.proof.drop st.start).take (st.proof.length - st.start)),
      start := st.proof.length }
  else { st with digest := H.hash st.digest }

/-- `generate_u8_slice`, 73-85: the loop, with `n` bytes still to fill. -/
def BT.generate (st : BT) (n : Nat) : Bytes × BT :=
  if h : n = 0 then ([], st)
  else
    let st := st.refresh H
    let k := min H.size n
    let r := BT.generate st (n - k)
    (st.digest.take k ++ r.1, r.2)
  termination_by n
  decreasing_by have := H.pos; omega

/-- `set_state`, 102-106. -/
def BT.setState (st : BT) (state : Bytes) : Option BT :=
  if state.length = H.size then some { st with start := st.proof.length, digest := state } else none

/-- `hash_and_return_state`, 96-99. -/
def BT.hashAndReturn (st : BT) : Bytes × BT := ((st.refresh H).digest, st.refresh H)

/-- `lock_proof`, 109-113. -/
def BT.lock (st : BT) : Option BT :=
  if st.locked then none else some { st with locked := true, lockedAt := st.proof.length }

/-- `Vec::resize` with zeros. -/
def resize (b : Bytes) (n : Nat) : Bytes := b.take n ++ List.replicate (n - b.length) 0

/-- `unlock_proof`, 116-124. -/
def BT.unlock (st : BT) : Option BT :=
  if st.locked then
    let st := { st with locked := false }
    let st := if st.start < st.proof.length then st.refresh H else st
    let p := resize st.proof st.lockedAt
    some { st with proof := p, start := p.length }
  else none

/-- `PCS_DIGEST_LOOP`, 8. -/
def digestLoop : Nat := 1000

/-- `hash_init_commitment`, 33-40. -/
def initDigest (b : Bytes) : Bytes := (H.hash)^[digestLoop] (H.hash b)

/-- `append_commitment`, 56-64. -/
def BT.appendCommitment (st : BT) (b : Bytes) : Option BT := (st.append b).setState H (initDigest H b)

/-- `finalize_and_get_proof`, 88-93. -/
def BT.finalize (st : BT) : Option (Bytes × BT) :=
  if st.locked then (st.unlock H).map fun st => (st.proof, st) else some (st.proof, st)

/-- What the protocol does with a transcript. -/
inductive Ev where
  | append (b : Bytes)
  | gen (n : Nat)
  /-- `lock_proof`, `append_u8_slice`, `unlock_proof`, as around the claimed value
  (verifier/gkr_vanilla.rs:41-43). -/
  | locked (b : Bytes)
  deriving DecidableEq

/-- One event. -/
def BT.ev (st : BT) : Ev → Option BT
  | .append b => some (st.append b)
  | .gen n => some (st.generate H n).2
  | .locked b => (st.lock).bind fun st => (st.append b).unlock H

/-- A history of events. -/
def BT.evs (st : BT) : List Ev → Option BT
  | [] => some st
  | e :: es => (st.ev H e).bind fun st => st.evs es

/-! ### The strings hashed -/

/-- What `refresh_digest` hashes. -/
def BT.input (st : BT) : Bytes := st.digest ++ st.proof.drop st.start

/-- What `generate_u8_slice` hashes. -/
def BT.genInputs (st : BT) (n : Nat) : List Bytes :=
  if h : n = 0 then []
  else st.input :: BT.genInputs (st.refresh H) (n - min H.size n)
  termination_by n
  decreasing_by have := H.pos; omega

/-- What an event hashes. -/
def BT.evInputs (st : BT) : Ev → List Bytes
  | .append _ => []
  | .gen n => st.genInputs H n
  | .locked b => if st.start < (st.append b).proof.length then [(st.append b).input] else []

/-- What a history hashes. -/
def BT.inputs (st : BT) : List Ev → List Bytes
  | [] => []
  | e :: es => st.evInputs H e ++
    match st.ev H e with
    | some st => st.inputs es
    | none => []

/-- The two events are of the same kind and size. -/
def Ev.Same : Ev → Ev → Prop
  | .append b, .append b' => b.length = b'.length
  | .gen n, .gen n' => n = n'
  | .locked b, .locked b' => b.length = b'.length
  | _, _ => False

/-! ### Proofs -/

variable {H}

/-- A transcript between two messages. -/
structure BT.Ok (H : Hasher) (st : BT) : Prop where
  start : st.start ≤ st.proof.length
  unlocked : st.locked = false
  digest : st.digest.length = H.size

/-- Unhashed data. -/
def BT.pending (st : BT) : Bytes := st.proof.drop st.start

theorem ok_new : (BT.new H).Ok H := ⟨le_rfl, rfl, by simp [BT.new]⟩

theorem refresh_spec (st : BT) (h : st.start ≤ st.proof.length) :
    (st.refresh H).digest = H.hash st.input ∧ (st.refresh H).pending = [] ∧
      (st.refresh H).proof = st.proof ∧ (st.refresh H).start = st.proof.length ∧
      (st.refresh H).locked = st.locked ∧ (st.refresh H).lockedAt = st.lockedAt := by
  unfold BT.refresh BT.pending BT.input
  split_ifs with hs
  · refine ⟨?_, by simp, rfl, rfl, rfl, rfl⟩
    rw [List.take_of_length_le (by simp)]
  · have : st.start = st.proof.length := by omega
    refine ⟨?_, by simp [this], rfl, this, rfl, rfl⟩
    simp [this]

theorem refresh_ok (st : BT) (h : st.Ok H) : (st.refresh H).Ok H := by
  obtain ⟨h1, h2, h3, h4, h5, _⟩ := refresh_spec (H := H) st h.start
  exact ⟨by rw [h3, h4], by rw [h5, h.unlocked], by rw [h1, H.len]⟩

theorem generate_zero (st : BT) : st.generate H 0 = ([], st) := by rw [BT.generate]; simp

theorem generate_pos (st : BT) (n : Nat) (h : n ≠ 0) :
    st.generate H n = ((st.refresh H).digest.take (min H.size n) ++
      ((st.refresh H).generate H (n - min H.size n)).1, ((st.refresh H).generate H (n - min H.size n)).2) := by
  rw [BT.generate, dif_neg h]

theorem genInputs_zero (st : BT) : st.genInputs H 0 = [] := by rw [BT.genInputs]; simp

theorem genInputs_pos (st : BT) (n : Nat) (h : n ≠ 0) :
    st.genInputs H n = st.input :: (st.refresh H).genInputs H (n - min H.size n) := by
  rw [BT.genInputs, dif_neg h]

/-- `n` bytes of challenge leave the proof alone. -/
theorem generate_spec (n : Nat) : ∀ st : BT, st.Ok H →
    (st.generate H n).1.length = n ∧ (st.generate H n).2.Ok H ∧ (st.generate H n).2.proof = st.proof ∧
      (n ≠ 0 → (st.generate H n).2.pending = []) := by
  induction n using Nat.strong_induction_on with
  | _ n ih =>
    intro st h
    by_cases hn : n = 0
    · subst hn; rw [generate_zero]; exact ⟨rfl, h, rfl, fun h => absurd rfl h⟩
    · have hpos := H.pos
      obtain ⟨r1, r2, r3, r4, r5, r6⟩ := refresh_spec (H := H) st h.start
      obtain ⟨g1, g2, g3, g4⟩ := ih (n - min H.size n) (by omega) _ (refresh_ok st h)
      rw [generate_pos st n hn]
      refine ⟨?_, g2, by rw [g3, r3], fun _ => ?_⟩
      · rw [List.length_append, g1, List.length_take, (refresh_ok st h).digest]
        omega
      · by_cases hz : n - min H.size n = 0
        · rw [hz, generate_zero, r2]
        · exact g4 hz

/-- Equal digests after drawing come from equal states, unless two hashed strings collide. -/
theorem generate_inj (n : Nat) : ∀ st st' : BT, st.Ok H → st'.Ok H → st.pending.length = st'.pending.length →
    (∀ x ∈ st.genInputs H n, ∀ y ∈ st'.genInputs H n, H.hash x = H.hash y → x = y) →
    (st.generate H n).2.digest = (st'.generate H n).2.digest →
    (st.generate H n).2.pending = (st'.generate H n).2.pending →
    st.digest = st'.digest ∧ st.pending = st'.pending := by
  induction n using Nat.strong_induction_on with
  | _ n ih =>
    intro st st' h h' hp hc hd hpe
    by_cases hn : n = 0
    · subst hn
      rw [generate_zero, generate_zero] at hd hpe
      exact ⟨hd, hpe⟩
    · have hpos := H.pos
      obtain ⟨r1, r2, -⟩ := refresh_spec (H := H) st h.start
      obtain ⟨r1', r2', -⟩ := refresh_spec (H := H) st' h'.start
      rw [generate_pos _ n hn, generate_pos _ n hn] at hd hpe
      rw [genInputs_pos _ n hn, genInputs_pos _ n hn] at hc
      have := ih (n - min H.size n) (by omega) _ _ (refresh_ok st h) (refresh_ok st' h') (by rw [r2, r2'])
        (fun x hx y hy => hc x (List.mem_cons_of_mem _ hx) y (List.mem_cons_of_mem _ hy)) hd hpe
      rw [r1, r1'] at this
      have hi := hc _ List.mem_cons_self _ List.mem_cons_self this.1
      exact List.append_inj hi (by rw [h.digest, h'.digest])

theorem ev_locked (st : BT) (h : st.locked = false) (b : Bytes) :
    st.ev H (.locked b) = some ⟨if st.start < (st.proof ++ b).length then
      H.hash (st.digest ++ (st.proof ++ b).drop st.start) else st.digest, st.proof, st.proof.length, false,
      st.proof.length⟩ := by
  obtain ⟨d, p, s, l, la⟩ := st
  simp only at h
  subst h
  have hr : ∀ n, List.replicate (p.length - (p.length + n)) (0 : UInt8) = [] := fun n => by
    rw [Nat.sub_eq_zero_of_le (by omega)]; rfl
  show some ((fun y : BT => (⟨y.digest, resize y.proof y.lockedAt, (resize y.proof y.lockedAt).length, y.locked,
    y.lockedAt⟩ : BT)) (if s < (p ++ b).length then
      BT.refresh H ⟨d, p ++ b, s, false, p.length⟩ else ⟨d, p ++ b, s, false, p.length⟩)) = _
  by_cases hc : s < (p ++ b).length
  · rw [if_pos hc, if_pos hc]
    simp only [BT.refresh, if_pos hc, resize]
    rw [List.take_of_length_le (by simp)]
    simp [hr]
  · rw [if_neg hc, if_neg hc]
    simp [resize, hr]

/-- The state after each kind of event. -/
theorem ev_spec (st : BT) (h : st.Ok H) (e : Ev) :
    ∃ st', st.ev H e = some st' ∧ st'.Ok H ∧
      st'.proof = st.proof ++ (match e with | .append b => b | _ => []) := by
  cases e with
  | append b =>
    refine ⟨_, rfl, ⟨?_, h.unlocked, h.digest⟩, rfl⟩
    have := h.start
    simp only [BT.append, List.length_append]; omega
  | gen n =>
    obtain ⟨_, g2, g3, _⟩ := generate_spec n st h
    exact ⟨_, rfl, g2, by simp [g3]⟩
  | locked b =>
    refine ⟨_, ev_locked st h.unlocked b, ⟨le_rfl, rfl, ?_⟩, by simp⟩
    dsimp only
    split_ifs
    · exact H.len _
    · exact h.digest

/-- Equal states after two events of the same kind and size come from equal states and equal data, unless two
hashed strings collide. -/
theorem ev_inj (st st' : BT) (h : st.Ok H) (h' : st'.Ok H) (hp : st.pending.length = st'.pending.length)
    (e e' : Ev) (he : e.Same e') (r r' : BT) (hr : st.ev H e = some r) (hr' : st'.ev H e' = some r')
    (hc : ∀ x ∈ st.evInputs H e, ∀ y ∈ st'.evInputs H e', H.hash x = H.hash y → x = y) :
    r.pending.length = r'.pending.length ∧
    (r.digest = r'.digest → r.pending = r'.pending →
      st.digest = st'.digest ∧ st.pending = st'.pending ∧ e = e') := by
  have hs := h.start
  have hs' := h'.start
  cases e <;> cases e' <;> simp only [Ev.Same] at he
  case append b b' =>
    simp only [BT.ev, Option.some.injEq] at hr hr'
    subst hr hr'
    have e1 : (st.append b).pending = st.pending ++ b := by
      simp only [BT.pending, BT.append]; exact List.drop_append_of_le_length hs
    have e2 : (st'.append b').pending = st'.pending ++ b' := by
      simp only [BT.pending, BT.append]; exact List.drop_append_of_le_length hs'
    rw [e1, e2]
    refine ⟨by simp [hp, he], fun h1 h2 => ?_⟩
    obtain ⟨h3, h4⟩ := List.append_inj h2 hp
    exact ⟨h1, h3, by rw [h4]⟩
  case gen n n' =>
    subst he
    simp only [BT.ev, Option.some.injEq] at hr hr'
    subst hr hr'
    obtain ⟨_, _, _, g4⟩ := generate_spec n st h
    obtain ⟨_, _, _, g4'⟩ := generate_spec n st' h'
    refine ⟨?_, fun h1 h2 => ?_⟩
    · by_cases hn : n = 0
      · subst hn; rw [generate_zero, generate_zero]; exact hp
      · rw [g4 hn, g4' hn]
    · have := generate_inj n st st' h h' hp hc h1 h2
      exact ⟨this.1, this.2, rfl⟩
  case locked b b' =>
    rw [ev_locked st h.unlocked, Option.some.injEq] at hr
    rw [ev_locked st' h'.unlocked, Option.some.injEq] at hr'
    subst hr hr'
    have e1 : (st.proof ++ b).drop st.start = st.pending ++ b := List.drop_append_of_le_length hs
    have e2 : (st'.proof ++ b').drop st'.start = st'.pending ++ b' := List.drop_append_of_le_length hs'
    have l1 : st.pending.length = st.proof.length - st.start := by simp [BT.pending]
    have l2 : st'.pending.length = st'.proof.length - st'.start := by simp [BT.pending]
    refine ⟨by simp [BT.pending], fun h1 _ => ?_⟩
    have hiff : st.start < (st.proof ++ b).length ↔ st'.start < (st'.proof ++ b').length := by
      rw [List.length_append, List.length_append]; omega
    by_cases hl : st.start < (st.proof ++ b).length
    · have hl' := hiff.mp hl
      simp only [if_pos hl, if_pos hl'] at h1
      have m1 : (st.append b).input ∈ st.evInputs H (.locked b) := by
        show _ ∈ (if st.start < (st.proof ++ b).length then [(st.append b).input] else [])
        rw [if_pos hl]; exact List.mem_singleton_self _
      have m2 : (st'.append b').input ∈ st'.evInputs H (.locked b') := by
        show _ ∈ (if st'.start < (st'.proof ++ b').length then [(st'.append b').input] else [])
        rw [if_pos hl']; exact List.mem_singleton_self _
      have := hc _ m1 _ m2 h1
      simp only [BT.input, BT.append] at this
      rw [e1, e2] at this
      obtain ⟨h3, h4⟩ := List.append_inj this (by rw [h.digest, h'.digest])
      obtain ⟨h5, h6⟩ := List.append_inj h4 hp
      exact ⟨h3, h5, by rw [h6]⟩
    · have hl' : ¬ st'.start < (st'.proof ++ b').length := fun h => hl (hiff.mpr h)
      simp only [if_neg hl, if_neg hl'] at h1
      rw [List.length_append] at hl hl'
      have b0 : b = [] := List.length_eq_zero_iff.mp (by omega)
      have b0' : b' = [] := List.length_eq_zero_iff.mp (by omega)
      refine ⟨h1, ?_, by rw [b0, b0']⟩
      rw [List.length_eq_zero_iff.mp (show st.pending.length = 0 by omega),
        List.length_eq_zero_iff.mp (show st'.pending.length = 0 by omega)]

theorem evs_inj (es : List Ev) : ∀ (es' : List Ev) (st st' : BT), st.Ok H → st'.Ok H →
    st.pending.length = st'.pending.length → List.Forall₂ Ev.Same es es' →
    ∀ r r', st.evs H es = some r → st'.evs H es' = some r' →
    (∀ x ∈ st.inputs H es, ∀ y ∈ st'.inputs H es', H.hash x = H.hash y → x = y) →
    r.digest = r'.digest → r.pending = r'.pending →
    st.digest = st'.digest ∧ st.pending = st'.pending ∧ es = es' := by
  induction es with
  | nil =>
    intro es' st st' _ _ _ hes r r' hr hr' _ h1 h2
    cases hes
    simp only [BT.evs, Option.some.injEq] at hr hr'
    subst hr hr'
    exact ⟨h1, h2, rfl⟩
  | cons e es ih =>
    intro es' st st' h h' hp hes r r' hr hr' hc h1 h2
    cases hes with
    | @cons _ e' _ es' he hes =>
    obtain ⟨s1, hs1, ok1, -⟩ := ev_spec st h e
    obtain ⟨s1', hs1', ok1', -⟩ := ev_spec st' h' e'
    simp only [BT.evs, hs1, hs1', Option.bind_some, BT.inputs] at hr hr' hc
    obtain ⟨hp1, hinj⟩ := ev_inj st st' h h' hp e e' he s1 s1' hs1 hs1' fun x hx y hy =>
      hc x (List.mem_append_left _ hx) y (List.mem_append_left _ hy)
    obtain ⟨h3, h4, h5⟩ := ih es' s1 s1' ok1 ok1' hp1 hes r r' hr hr' (fun x hx y hy =>
      hc x (List.mem_append_right _ hx) y (List.mem_append_right _ hy)) h1 h2
    obtain ⟨h6, h7, h8⟩ := hinj h3 h4
    exact ⟨h6, h7, by rw [h8, h5]⟩

theorem evs_spec (es : List Ev) : ∀ (st : BT), st.Ok H →
    ∃ st', st.evs H es = some st' ∧ st'.Ok H ∧
      st'.proof = st.proof ++ (es.map fun e => match e with | .append b => b | _ => []).flatten := by
  induction es with
  | nil => intro st h; exact ⟨st, rfl, h, by simp⟩
  | cons e es ih =>
    intro st h
    obtain ⟨s1, hs1, ok1, p1⟩ := ev_spec st h e
    obtain ⟨s2, hs2, ok2, p2⟩ := ih s1 ok1
    refine ⟨s2, by rw [BT.evs, hs1, Option.bind_some, hs2], ok2, ?_⟩
    rw [p2, p1, List.map_cons, List.flatten_cons, List.append_assoc]

end JST.Transcript
