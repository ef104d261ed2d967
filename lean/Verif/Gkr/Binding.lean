import Verif.Gkr.Snark
import Verif.Gkr.Transcript

/-!
# What the challenges of a run depend on
-/

namespace JST.Gkr

open JST.Spec JST.Transcript

/-! ### Programs that cannot be told apart by the transcript -/

section Blind

variable {K α β γ δ S : Type}

/-- Both programs read, absorb and draw the same. -/
inductive Blind (R : α → β → Prop) : VM K α → VM K β → Prop
  | ret {a b} : R a b → Blind R (.ret a) (.ret b)
  | read {k k'} : (∀ m, Blind R (k m) (k' m)) → Blind R (.read k) (.read k')
  | absorb {x k k'} : Blind R k k' → Blind R (.absorb x k) (.absorb x k')
  | locked {x k k'} : Blind R k k' → Blind R (.absorbLocked x k) (.absorbLocked x k')
  | squeeze {k k'} : (∀ c, Blind R (k c) (k' c)) → Blind R (.squeeze k) (.squeeze k')

theorem Blind.bind {R : α → β → Prop} {Q : γ → δ → Prop} {m : VM K α} {m' : VM K β} {f : α → VM K γ}
    {g : β → VM K δ} (h : Blind R m m') (hf : ∀ a b, R a b → Blind Q (f a) (g b)) :
    Blind Q (m.bind f) (m'.bind g) := by
  induction h with
  | ret r => exact hf _ _ r
  | read _ ih => exact .read ih
  | absorb _ ih => exact .absorb ih
  | locked _ ih => exact .locked ih
  | squeeze _ ih => exact .squeeze ih

theorem Blind.refl (m : VM K α) : Blind (fun a b => a = b) m m := by
  induction m with
  | ret a => exact .ret rfl
  | read k ih => exact .read ih
  | absorb x k ih => exact .absorb ih
  | absorbLocked x k ih => exact .locked ih
  | squeeze k ih => exact .squeeze ih

theorem Blind.run {R : α → β → Prop} {m : VM K α} {m' : VM K β} (h : Blind R m m') (tr : Tr K S) (t : S)
    (inp : List K) :
    R (Gkr.run tr m t inp).val (Gkr.run tr m' t inp).val ∧
      (Gkr.run tr m t inp).state = (Gkr.run tr m' t inp).state ∧
      (Gkr.run tr m t inp).sent = (Gkr.run tr m' t inp).sent ∧
      (Gkr.run tr m t inp).rest = (Gkr.run tr m' t inp).rest := by
  induction h generalizing t inp with
  | ret r => exact ⟨r, rfl, rfl, rfl⟩
  | read _ ih => cases inp with
    | nil => exact ih _ _ _
    | cons x inp => exact ih _ _ _
  | absorb _ ih =>
    simp only [Gkr.run]
    obtain ⟨h1, h2, h3, h4⟩ := ih (tr.absorb t _) inp
    exact ⟨h1, h2, by rw [h3], h4⟩
  | locked _ ih => exact ih _ _
  | squeeze _ ih => exact ih _ _ _

end Blind

/-! ### Programs of the same shape -/

section Aligned

variable {K α β γ δ S : Type} [Zero K]

/-- Both programs do the same things with possibly different data, and absorb each message right after
reading it. -/
inductive Aligned (R : α → β → Prop) : VM K α → VM K β → Prop
  | ret {a b} : R a b → Aligned R (.ret a) (.ret b)
  | msg {k : Option K → VM K α} {k' : Option K → VM K β} {f : Option K → VM K α} {f' : Option K → VM K β} :
      (∀ x, k x = .absorb (x.getD 0) (f x)) → (∀ x, k' x = .absorb (x.getD 0) (f' x)) →
      (∀ x x', Aligned R (f x) (f' x')) → Aligned R (.read k) (.read k')
  | locked {x x' k k'} : Aligned R k k' → Aligned R (.absorbLocked x k) (.absorbLocked x' k')
  | squeeze {k k'} : (∀ c c', Aligned R (k c) (k' c')) → Aligned R (.squeeze k) (.squeeze k')

theorem Aligned.bind {R : α → β → Prop} {Q : γ → δ → Prop} {m : VM K α} {m' : VM K β} {f : α → VM K γ}
    {g : β → VM K δ} (h : Aligned R m m') (hf : ∀ a b, R a b → Aligned Q (f a) (g b)) :
    Aligned Q (m.bind f) (m'.bind g) := by
  induction h with
  | ret r => exact hf _ _ r
  | @msg k k' f₀ f₀' h1 h2 _ ih =>
    exact .msg (f := fun x => (f₀ x).bind f) (f' := fun x => (f₀' x).bind g)
      (fun x => by simp only [h1 x]; rfl) (fun x => by simp only [h2 x]; rfl) ih
  | locked _ ih => exact .locked ih
  | squeeze _ ih => exact .squeeze ih

/-- What a run does to the transcript. -/
inductive KEv (K : Type) where
  | absorb (x : K)
  | locked (x : K)
  | squeeze
  deriving DecidableEq

/-- The history of a run. -/
def trace {K S α : Type} (tr : Tr K S) : VM K α → S → List K → List (KEv K)
  | .ret _, _, _ => []
  | .read k, t, [] => trace tr (k none) t []
  | .read k, t, x :: inp => trace tr (k (some x)) t inp
  | .absorb x k, t, inp => .absorb x :: trace tr k (tr.absorb t x) inp
  | .absorbLocked x k, t, inp => .locked x :: trace tr k (tr.absorbLocked t x) inp
  | .squeeze k, t, inp => .squeeze :: trace tr (k (tr.squeeze t).1) (tr.squeeze t).2 inp

/-- The absorbed messages of a history. -/
def KEv.msg? {K : Type} : KEv K → Option K
  | .absorb x => some x
  | _ => none

/-- The values absorbed but not sent. -/
def KEv.locked? {K : Type} : KEv K → Option K
  | .locked x => some x
  | _ => none

omit [Zero K] in
theorem trace_sent (tr : Tr K S) (m : VM K α) (t : S) (inp : List K) :
    (trace tr m t inp).filterMap KEv.msg? = (run tr m t inp).sent := by
  induction m generalizing t inp with
  | ret a => rfl
  | read k ih => cases inp <;> exact ih _ _ _
  | absorb x k ih => simp [trace, run, KEv.msg?, ih]
  | absorbLocked x k ih =>
    rw [trace, List.filterMap_cons_none rfl]
    exact ih _ _
  | squeeze k ih =>
    rw [trace, List.filterMap_cons_none rfl]
    exact ih _ _ _

omit [Zero K] in
theorem trace_bind_squeeze (tr : Tr K S) (m : VM K α) (t : S) (inp : List K) :
    trace tr (m.bind fun _ => squeeze) t inp = trace tr m t inp ++ [.squeeze] := by
  induction m generalizing t inp with
  | ret a => rfl
  | read k ih => cases inp <;> exact ih _ _ _
  | absorb x k ih => exact congrArg (KEv.absorb x :: ·) (ih _ _)
  | absorbLocked x k ih => exact congrArg (KEv.locked x :: ·) (ih _ _)
  | squeeze k ih => exact congrArg (KEv.squeeze :: ·) (ih _ _ _)

/-- The events of the byte transcript for an event of a run. -/
def KEv.toEv {K : Type} (ser : K → Bytes) (size : Nat) : KEv K → Ev
  | .absorb x => .append (ser x)
  | .locked x => .locked (ser x)
  | .squeeze => .gen size

/-- The byte transcript as the transcript of a run: elements are serialized, and a challenge is made from
`size` bytes (`generate_field_element`, definition.rs:56-58). -/
def byteTr {K : Type} (H : Hasher) (ser : K → Bytes) (uni : Bytes → K) (size : Nat) : Tr K BT where
  absorb := fun st x => st.append (ser x)
  absorbLocked := fun st x => (st.ev H (.locked (ser x))).getD st
  squeeze := fun st => (uni (st.generate H size).1, (st.generate H size).2)

omit [Zero K] in
theorem trace_evs (H : Hasher) (ser : K → Bytes) (uni : Bytes → K) (size : Nat) (m : VM K α) (st : BT)
    (h : st.Ok H) (inp : List K) :
    st.evs H ((trace (byteTr H ser uni size) m st inp).map (KEv.toEv ser size)) =
      some (run (byteTr H ser uni size) m st inp).state := by
  induction m generalizing st inp with
  | ret a => rfl
  | read k ih => cases inp <;> exact ih _ _ h _
  | absorb x k ih =>
    obtain ⟨s1, h1, ok1, -⟩ := ev_spec st h (.append (ser x))
    simp only [trace, List.map_cons, KEv.toEv, BT.evs, h1, Option.bind_some, run]
    simp only [BT.ev, Option.some.injEq] at h1
    subst h1
    exact ih _ ok1 _
  | absorbLocked x k ih =>
    obtain ⟨s1, h1, ok1, -⟩ := ev_spec st h (.locked (ser x))
    simp only [trace, List.map_cons, KEv.toEv, BT.evs, h1, Option.bind_some, run]
    have : (byteTr H ser uni size).absorbLocked st x = s1 := by simp [byteTr, h1]
    rw [this]
    exact ih _ ok1 _
  | squeeze k ih =>
    obtain ⟨s1, h1, ok1, -⟩ := ev_spec st h (.gen size)
    simp only [trace, List.map_cons, KEv.toEv, BT.evs, h1, Option.bind_some, run]
    simp only [BT.ev, Option.some.injEq] at h1
    subst h1
    exact ih _ _ ok1 _

theorem Aligned.trace {R : α → β → Prop} {m : VM K α} {m' : VM K β} (h : Aligned R m m')
    {S' : Type} (tr : Tr K S) (tr' : Tr K S') (ser : K → Bytes) (len size : Nat)
    (hlen : ∀ x, (ser x).length = len) (t : S) (t' : S') (inp inp' : List K) :
    List.Forall₂ Ev.Same ((Gkr.trace tr m t inp).map (KEv.toEv ser size))
      ((Gkr.trace tr' m' t' inp').map (KEv.toEv ser size)) := by
  induction h generalizing t t' inp inp' with
  | ret => exact .nil
  | @msg k k' f f' h1 h2 _ ih =>
    have e1 : ∃ x i1, Gkr.trace tr (.read k) t inp = Gkr.trace tr (k x) t i1 := by
      cases inp with
      | nil => exact ⟨none, [], rfl⟩
      | cons y ys => exact ⟨some y, ys, rfl⟩
    have e2 : ∃ x i1, Gkr.trace tr' (.read k') t' inp' = Gkr.trace tr' (k' x) t' i1 := by
      cases inp' with
      | nil => exact ⟨none, [], rfl⟩
      | cons y ys => exact ⟨some y, ys, rfl⟩
    obtain ⟨x, i1, e1⟩ := e1
    obtain ⟨x', i1', e2⟩ := e2
    rw [e1, e2, h1, h2]
    exact .cons (by simp [KEv.toEv, Ev.Same, hlen]) (ih x x' _ _ _ _)
  | locked _ ih => exact .cons (by simp [KEv.toEv, Ev.Same, hlen]) (ih _ _ _ _)
  | squeeze _ ih => exact .cons (by simp [KEv.toEv, Ev.Same]) (ih _ _ _ _ _ _)

theorem toEv_inj {ser : K → Bytes} (hser : Function.Injective ser) (size : Nat) :
    Function.Injective (KEv.toEv (K := K) ser size) := by
  intro a b h
  cases a <;> cases b <;> simp [KEv.toEv] at h ⊢
  · exact hser h
  · exact hser h

/-- If two runs of the same shape end in the same digest with nothing pending, they started in the same state
and absorbed the same, unless two of the hashed strings collide. -/
theorem Aligned.bound {R : α → β → Prop} {m : VM K α} {m' : VM K β} (h : Aligned R m m') (H : Hasher)
    (ser : K → Bytes) (hser : Function.Injective ser) (len : Nat) (hlen : ∀ x, (ser x).length = len)
    (uni : Bytes → K) (size : Nat) (st st' : BT) (ok : st.Ok H) (ok' : st'.Ok H)
    (hp : st.pending.length = st'.pending.length) (inp inp' : List K)
    (hd : (Gkr.run (byteTr H ser uni size) m st inp).state.digest =
      (Gkr.run (byteTr H ser uni size) m' st' inp').state.digest)
    (hpe : (Gkr.run (byteTr H ser uni size) m st inp).state.pending =
      (Gkr.run (byteTr H ser uni size) m' st' inp').state.pending)
    (hc : ∀ x ∈ st.inputs H ((Gkr.trace (byteTr H ser uni size) m st inp).map (KEv.toEv ser size)),
      ∀ y ∈ st'.inputs H ((Gkr.trace (byteTr H ser uni size) m' st' inp').map (KEv.toEv ser size)),
      H.hash x = H.hash y → x = y) :
    st.digest = st'.digest ∧ st.pending = st'.pending ∧
      Gkr.trace (byteTr H ser uni size) m st inp = Gkr.trace (byteTr H ser uni size) m' st' inp' := by
  have := evs_inj _ _ st st' ok ok' hp
    (h.trace (byteTr H ser uni size) (byteTr H ser uni size) ser len size hlen st st' inp inp') _ _
    (trace_evs H ser uni size m st ok inp) (trace_evs H ser uni size m' st' ok' inp') hc hd hpe
  exact ⟨this.1, this.2.1, (List.map_injective_iff.mpr (toEv_inj hser size)) this.2.2⟩

end Aligned

/-! ### The verifier -/

section Verifier

variable {K : Type} [Field K] [DecidableEq K]

/-- Layers that differ in their gates only. -/
def SameShape (l l' : Layer K) : Prop := l.inVars = l'.inVars ∧ l.outVars = l'.outVars ∧ l.skip = l'.skip

theorem blind_step (deg : Nat) (c c' : K) :
    Blind (fun a b => a.2.1 = b.2.1) (verifyStep deg c) (verifyStep deg c') := by
  refine Blind.bind (Blind.refl _) fun ps ps' h => ?_
  subst h
  refine .squeeze fun r => ?_
  show Blind _ (if deg = 2 then _ else if deg = 3 then _ else if deg = 6 then _ else _)
    (if deg = 2 then _ else if deg = 3 then _ else if deg = 6 then _ else _)
  split_ifs <;> exact .ret rfl

theorem blind_rounds (deg n : Nat) (c c' : K) :
    Blind (fun a b => a.2.1 = b.2.1) (verifyRounds deg n c) (verifyRounds deg n c') := by
  induction n generalizing c c' with
  | zero => exact .ret rfl
  | succ n ih =>
    refine Blind.bind (blind_step deg c c') fun a b h => ?_
    refine Blind.bind (ih _ _) fun a' b' h' => .ret ?_
    show a.2.1 :: a'.2.1 = b.2.1 :: b'.2.1
    rw [h, h']

/-- The verifier's states agree on the challenges and on the values claimed by the prover. -/
def SameView (st st' : VState K) : Prop :=
  st.chal = st'.chal ∧ st.v0 = st'.v0 ∧ st.v1 = st'.v1 ∧ st.alpha = st'.alpha

theorem blind_layer (s : Nat) (l l' : Layer K) (hl : SameShape l l') (pub pub' : Nat → Pack K) (isOut : Bool)
    (st st' : VState K) (h : SameView st st') :
    Blind SameView (verifyLayer s l pub isOut st) (verifyLayer s l' pub' isOut st') := by
  rw [verifyLayer_eq, verifyLayer_eq, ← hl.1]
  refine Blind.bind (blind_rounds _ _ _ _) fun x x' hx => Blind.bind (blind_rounds _ _ _ _) fun y y' hy => ?_
  rw [layerTail, layerTail, readField_bind, readField_bind, ← hl.1, ← hl.2.2]
  refine .read fun m => .absorb ?_
  split_ifs
  · exact .ret ⟨by simp only [skipState, hx, hy], rfl, rfl, h.2.2.2⟩
  · refine Blind.bind (blind_rounds _ _ _ _) fun z z' hz => ?_
    rw [readField_bind, readField_bind]
    exact .read fun m' => .absorb (.ret ⟨by simp only [mulState, hx, hy, hz], rfl, rfl, h.2.2.2⟩)

theorem blind_layers (s : Nat) (ls ls' : List (Layer K)) (hl : List.Forall₂ SameShape ls ls')
    (pub pub' : Nat → Pack K) (st st' : VState K) (h : SameView st st') :
    Blind SameView (verifyLayers s pub ls st) (verifyLayers s pub' ls' st') := by
  induction hl with
  | nil => exact .ret h
  | @cons l l' ls ls' h1 h2 ih =>
    refine Blind.bind ih fun a b hab => ?_
    have he : ls.isEmpty = ls'.isEmpty := by cases h2 <;> rfl
    rw [he]
    refine Blind.bind (blind_layer s l l' h1 pub pub' _ a b hab) fun a b hab => ?_
    have hc : a.chal.rz1 = b.chal.rz1 := by rw [hab.1]
    rw [nextAlphaV, nextAlphaV, ← hc]
    rcases a.chal.rz1 with _ | r
    · exact .ret ⟨hab.1, hab.2.1, hab.2.2.1, rfl⟩
    · exact .squeeze fun c => .ret ⟨hab.1, hab.2.1, hab.2.2.1, rfl⟩

omit [Field K] [DecidableEq K] in
theorem outVarsOf_same {ls ls' : List (Layer K)} (hl : List.Forall₂ SameShape ls ls') :
    outVarsOf ls = outVarsOf ls' := by
  have : ls.map (·.outVars) = ls'.map (·.outVars) := by
    induction hl with
    | nil => rfl
    | cons h _ ih => simp [h.2.1, ih]
  unfold outVarsOf
  rw [← List.getLast?_map, ← List.getLast?_map, this]

theorem blind_gkr (s : Nat) (ls ls' : List (Layer K)) (hl : List.Forall₂ SameShape ls ls')
    (pub pub' : Nat → Pack K) (claimed : K) :
    Blind SameView (gkrVerify s ls pub claimed) (gkrVerify s ls' pub' claimed) := by
  rw [gkrVerify, gkrVerify, outVarsOf_same hl]
  refine Blind.bind (Blind.refl _) fun c c' h => ?_
  subst h
  exact .locked (blind_layers s ls ls' hl pub pub' _ _ ⟨rfl, rfl, rfl, rfl⟩)

/-! Every message is absorbed as soon as it is read. -/

omit [DecidableEq K] in
theorem aligned_readAbsorb (n : Nat) :
    Aligned (fun _ _ => True) (readAbsorb (K := K) n) (readAbsorb n) := by
  induction n with
  | zero => exact .ret trivial
  | succ n ih =>
    rw [readAbsorb_succ]
    exact .msg (fun _ => rfl) (fun _ => rfl) fun x x' => Aligned.bind ih fun _ _ _ => .ret trivial

theorem aligned_step (deg : Nat) (c c' : K) :
    Aligned (fun _ _ => True) (verifyStep deg c) (verifyStep deg c') := by
  refine Aligned.bind (aligned_readAbsorb _) fun ps ps' _ => .squeeze fun r r' => ?_
  show Aligned _ (if deg = 2 then _ else if deg = 3 then _ else if deg = 6 then _ else _)
    (if deg = 2 then _ else if deg = 3 then _ else if deg = 6 then _ else _)
  split_ifs <;> exact .ret trivial

theorem aligned_rounds (deg n : Nat) (c c' : K) :
    Aligned (fun _ _ => True) (verifyRounds deg n c) (verifyRounds deg n c') := by
  induction n generalizing c c' with
  | zero => exact .ret trivial
  | succ n ih =>
    exact Aligned.bind (aligned_step deg c c') fun a b _ => Aligned.bind (ih _ _) fun _ _ _ => .ret trivial

theorem aligned_layer (s : Nat) (l l' : Layer K) (hl : SameShape l l') (pub pub' : Nat → Pack K) (isOut : Bool)
    (st st' : VState K) :
    Aligned (fun a b => a.chal.rz1.isSome = b.chal.rz1.isSome) (verifyLayer s l pub isOut st)
      (verifyLayer s l' pub' isOut st') := by
  rw [verifyLayer_eq, verifyLayer_eq, ← hl.1]
  refine Aligned.bind (aligned_rounds _ _ _ _) fun x x' _ => Aligned.bind (aligned_rounds _ _ _ _) fun y y' _ => ?_
  rw [layerTail, layerTail, readField_bind, readField_bind, ← hl.1, ← hl.2.2]
  refine .msg (fun _ => rfl) (fun _ => rfl) fun m m' => ?_
  split_ifs
  · exact .ret rfl
  · refine Aligned.bind (aligned_rounds _ _ _ _) fun z z' _ => ?_
    rw [readField_bind, readField_bind]
    exact .msg (fun _ => rfl) (fun _ => rfl) fun m m' => .ret rfl

theorem aligned_layers (s : Nat) (ls ls' : List (Layer K)) (hl : List.Forall₂ SameShape ls ls')
    (pub pub' : Nat → Pack K) (st st' : VState K) :
    Aligned (fun _ _ => True) (verifyLayers s pub ls st) (verifyLayers s pub' ls' st') := by
  induction hl with
  | nil => exact .ret trivial
  | @cons l l' ls ls' h1 h2 ih =>
    refine Aligned.bind ih fun a b _ => ?_
    have he : ls.isEmpty = ls'.isEmpty := by cases h2 <;> rfl
    rw [he]
    refine Aligned.bind (aligned_layer s l l' h1 pub pub' _ a b) fun a b hab => ?_
    rw [nextAlphaV, nextAlphaV]
    rcases ha : a.chal.rz1 with _ | r <;> rcases hb : b.chal.rz1 with _ | r' <;> rw [ha, hb] at hab
    · exact .ret trivial
    · simp at hab
    · simp at hab
    · exact .squeeze fun c c' => .ret trivial

theorem aligned_squeezeN (n : Nat) : Aligned (fun _ _ => True) (squeezeN (K := K) n) (squeezeN n) := by
  induction n with
  | zero => exact .ret trivial
  | succ n ih =>
    exact .squeeze fun c c' => Aligned.bind (m := squeezeN n) (m' := squeezeN n) ih fun _ _ _ => .ret trivial

theorem aligned_snark (s : Nat) (ls ls' : List (Layer K)) (hl : List.Forall₂ SameShape ls ls')
    (pub pub' : Nat → Pack K) (claimed claimed' : K) (w w' : Nat → Pack K) :
    Aligned (fun _ _ => True) (snarkVerify s ls pub claimed w) (snarkVerify s ls' pub' claimed' w') := by
  rw [snarkVerify, snarkVerify, outVarsOf_same hl]
  refine Aligned.bind (R := fun _ _ => True) (Aligned.bind (aligned_squeezeN _) fun _ _ _ => Aligned.bind (aligned_squeezeN _)
    fun _ _ _ => .ret trivial) fun c c' _ => ?_
  exact Aligned.bind (Aligned.locked (aligned_layers s ls ls' hl pub pub' _ _)) fun _ _ _ => .ret trivial

/-! The claimed value is the one thing absorbed without being sent. -/

/-- Programs that absorb nothing beside what is sent. -/
inductive Open {K α : Type} : VM K α → Prop
  | ret (a) : Open (.ret a)
  | read {k} : (∀ m, Open (k m)) → Open (.read k)
  | absorb {x k} : Open k → Open (.absorb x k)
  | squeeze {k} : (∀ c, Open (k c)) → Open (.squeeze k)

theorem Open.bind {K α β : Type} {m : VM K α} {f : α → VM K β} (h : Open m) (hf : ∀ a, Open (f a)) :
    Open (m.bind f) := by
  induction h with
  | ret a => exact hf a
  | read _ ih => exact .read ih
  | absorb _ ih => exact .absorb ih
  | squeeze _ ih => exact .squeeze ih

theorem Open.locked {K α S : Type} {m : VM K α} (h : Open m) (tr : Tr K S) (t : S) (inp : List K) :
    (Gkr.trace tr m t inp).filterMap KEv.locked? = [] := by
  induction h generalizing t inp with
  | ret a => rfl
  | read _ ih => cases inp <;> exact ih _ _ _
  | absorb _ ih => rw [Gkr.trace, List.filterMap_cons_none rfl]; exact ih _ _
  | squeeze _ ih => rw [Gkr.trace, List.filterMap_cons_none rfl]; exact ih _ _ _

omit [DecidableEq K] in
theorem open_readAbsorb (n : Nat) : Open (readAbsorb (K := K) n) := by
  induction n with
  | zero => exact .ret _
  | succ n ih =>
    rw [readAbsorb_succ]
    exact .read fun m => .absorb (Open.bind ih fun _ => .ret _)

theorem open_rounds (deg n : Nat) (c : K) : Open (verifyRounds deg n c) := by
  induction n generalizing c with
  | zero => exact .ret _
  | succ n ih =>
    refine Open.bind (Open.bind (open_readAbsorb _) fun ps => .squeeze fun r => ?_) fun a =>
      Open.bind (ih _) fun _ => .ret _
    show Open (if deg = 2 then _ else if deg = 3 then _ else if deg = 6 then _ else _)
    split_ifs <;> exact .ret _

theorem open_layers (s : Nat) (ls : List (Layer K)) (pub : Nat → Pack K) (st : VState K) :
    Open (verifyLayers s pub ls st) := by
  induction ls with
  | nil => exact .ret _
  | cons l ls ih =>
    refine Open.bind ih fun a => Open.bind ?_ fun b => ?_
    · rw [verifyLayer_eq]
      refine Open.bind (open_rounds _ _ _) fun x => Open.bind (open_rounds _ _ _) fun y => ?_
      rw [layerTail, readField_bind]
      refine .read fun m => .absorb ?_
      split_ifs
      · exact .ret _
      · refine Open.bind (open_rounds _ _ _) fun z => ?_
        rw [readField_bind]
        exact .read fun m => .absorb (.ret _)
    · rw [nextAlphaV]
      rcases b.chal.rz1 with _ | r
      · exact .ret _
      · exact .squeeze fun c => .ret _

omit [Field K] [DecidableEq K] in
theorem trace_squeezeN_bind {α S : Type} (tr : Tr K S) (n : Nat) (f : List K → VM K α) (t : S) (inp : List K) :
    ∃ rs t', trace tr ((squeezeN n).bind f) t inp = List.replicate n .squeeze ++ trace tr (f rs) t' inp := by
  induction n generalizing t f with
  | zero => exact ⟨[], t, rfl⟩
  | succ n ih =>
    obtain ⟨rs, t', h⟩ := ih (fun rs => f ((tr.squeeze t).1 :: rs)) (tr.squeeze t).2
    refine ⟨(tr.squeeze t).1 :: rs, t', ?_⟩
    show KEv.squeeze :: trace tr (((squeezeN n).bind fun rs => .ret ((tr.squeeze t).1 :: rs)).bind f)
      (tr.squeeze t).2 inp = _
    rw [VM.bind_assoc]
    exact congrArg (KEv.squeeze :: ·) h

theorem locked_snark {S : Type} (tr : Tr K S) (s : Nat) (ls : List (Layer K)) (pub : Nat → Pack K) (claimed : K)
    (w : Nat → Pack K) (t : S) (inp : List K) :
    (trace tr (snarkVerify s ls pub claimed w) t inp).filterMap KEv.locked? = [claimed] := by
  have rep : ∀ n (l : List (KEv K)), (List.replicate n KEv.squeeze ++ l).filterMap KEv.locked? =
      l.filterMap KEv.locked? := by
    intro n l
    induction n with
    | zero => rfl
    | succ n ih => rw [List.replicate_succ, List.cons_append, List.filterMap_cons_none rfl, ih]
  show (trace tr (((squeezeN (outVarsOf ls)).bind fun rz => (squeezeN s).bind fun rs =>
    .ret (Chal.mk rz none rs)).bind fun c => snarkVerifyFrom s ls pub claimed w c) t inp).filterMap _ = _
  rw [VM.bind_assoc]
  obtain ⟨rz, t1, h1⟩ := trace_squeezeN_bind tr (outVarsOf ls) (fun rz => ((squeezeN s).bind fun rs =>
    .ret (Chal.mk rz none rs)).bind fun c => snarkVerifyFrom s ls pub claimed w c) t inp
  rw [h1, rep, VM.bind_assoc]
  obtain ⟨rs, t2, h2⟩ := trace_squeezeN_bind tr s (fun rs => (VM.ret (Chal.mk rz none rs)).bind fun c =>
    snarkVerifyFrom s ls pub claimed w c) t1 inp
  rw [h2, rep]
  show (KEv.locked claimed :: trace tr ((verifyLayers s pub ls _).bind _) _ inp).filterMap KEv.locked? = _
  rw [List.filterMap_cons_some (f := KEv.locked?) (b := claimed) rfl]
  exact congrArg (claimed :: ·) (Open.locked (Open.bind (open_layers s ls pub _) fun _ => .ret _) _ _ _)

end Verifier

end JST.Gkr
