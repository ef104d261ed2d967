import Mathlib.Data.Finset.Card
import Mathlib.Data.Fintype.Pi
import Mathlib.Algebra.Order.BigOperators.Group.Finset
import Mathlib.Algebra.BigOperators.Ring.Finset
import Mathlib.Algebra.BigOperators.Group.Finset.Piecewise
import Mathlib.Data.Fintype.BigOperators
import Mathlib.Tactic.Ring
import Mathlib.Tactic.Linarith

/-!
# Programs that talk to a transcript

Prover and verifier of /repo/prover/gkr are programs that append field elements to a transcript, draw
challenges from it, and (the verifier) read field elements from the proof. `VM K α` is the tree of such a
program. Two interpretations are given: against a transcript (`run`), and against an interactive adversary
with uniformly random challenges (`exec`), for counting accepting challenge vectors.
-/

namespace JST.Gkr

/-- A program over the field type `K` with result `α`.
* `read`: `try_deserialize_field`, gkr/src/verifier/common.rs:12-17; `none` is a failed deserialisation.
* `absorb`: `Transcript::append_field_element`, gkr_engine/src/transcript/definition.rs; also appends to the
  proof of the transcript.
* `absorbLocked`: the same between `lock_proof` and `unlock_proof`: absorbed but not part of the proof.
* `squeeze`: `Transcript::generate_field_element`. -/
inductive VM (K : Type) (α : Type) : Type
  | ret (a : α)
  | read (k : Option K → VM K α)
  | absorb (x : K) (k : VM K α)
  | absorbLocked (x : K) (k : VM K α)
  | squeeze (k : K → VM K α)

namespace VM

variable {K α β γ : Type}

/-- Sequencing. -/
def bind : VM K α → (α → VM K β) → VM K β
  | ret a, f => f a
  | read k, f => read fun m => (k m).bind f
  | absorb x k, f => absorb x (k.bind f)
  | absorbLocked x k, f => absorbLocked x (k.bind f)
  | squeeze k, f => squeeze fun c => (k c).bind f

instance : Monad (VM K) where
  pure := ret
  bind := bind

theorem pure_eq (a : α) : (pure a : VM K α) = ret a := rfl
theorem bind_eq (m : VM K α) (f : α → VM K β) : m >>= f = m.bind f := rfl
@[simp] theorem ret_bind (a : α) (f : α → VM K β) : (ret a).bind f = f a := rfl
@[simp] theorem read_bind (k : Option K → VM K α) (f : α → VM K β) :
    (read k).bind f = read fun m => (k m).bind f := rfl
@[simp] theorem absorb_bind (x : K) (k : VM K α) (f : α → VM K β) :
    (absorb x k).bind f = absorb x (k.bind f) := rfl
@[simp] theorem absorbLocked_bind (x : K) (k : VM K α) (f : α → VM K β) :
    (absorbLocked x k).bind f = absorbLocked x (k.bind f) := rfl
@[simp] theorem squeeze_bind (k : K → VM K α) (f : α → VM K β) :
    (squeeze k).bind f = squeeze fun c => (k c).bind f := rfl

theorem bind_assoc (m : VM K α) (f : α → VM K β) (g : β → VM K γ) :
    (m.bind f).bind g = m.bind fun a => (f a).bind g := by
  induction m with
  | ret a => rfl
  | read k ih => simp [ih]
  | absorb x k ih => simp [ih]
  | absorbLocked x k ih => simp [ih]
  | squeeze k ih => simp [ih]

theorem bind_ret (m : VM K α) : m.bind ret = m := by
  induction m with
  | ret a => rfl
  | read k ih => simp [ih]
  | absorb x k ih => simp [ih]
  | absorbLocked x k ih => simp [ih]
  | squeeze k ih => simp [ih]

end VM

/-- Append a field element. -/
def absorb {K : Type} (x : K) : VM K Unit := .absorb x (.ret ())
/-- Append a field element while the proof is locked. -/
def absorbLocked {K : Type} (x : K) : VM K Unit := .absorbLocked x (.ret ())
/-- Draw a challenge. -/
def squeeze {K : Type} : VM K K := .squeeze .ret
/-- Read a field element from the proof. -/
def readOpt {K : Type} : VM K (Option K) := .read .ret

/-- `generate_field_elements`. -/
def squeezeN {K : Type} : Nat → VM K (List K)
  | 0 => pure []
  | n + 1 => do
    let r ← squeeze
    let rs ← squeezeN n
    pure (r :: rs)

/-! ### Against a transcript -/

/-- A transcript with state `S`: any functions. -/
structure Tr (K S : Type) where
  absorb : S → K → S
  absorbLocked : S → K → S
  squeeze : S → K × S

/-- The result of a run. -/
structure Res (K S α : Type) where
  val : α
  state : S
  /-- What is left of the proof being read. -/
  rest : List K
  /-- The elements appended to the proof being written. -/
  sent : List K

/-- Run a program on a transcript. A read past the end of the proof fails. -/
def run {K S α : Type} (tr : Tr K S) : VM K α → S → List K → Res K S α
  | .ret a, t, inp => ⟨a, t, inp, []⟩
  | .read k, t, [] => run tr (k none) t []
  | .read k, t, x :: inp => run tr (k (some x)) t inp
  | .absorb x k, t, inp =>
    let r := run tr k (tr.absorb t x) inp
    ⟨r.val, r.state, r.rest, x :: r.sent⟩
  | .absorbLocked x k, t, inp => run tr k (tr.absorbLocked t x) inp
  | .squeeze k, t, inp => run tr (k (tr.squeeze t).1) (tr.squeeze t).2 inp

variable {K S α β γ : Type}

theorem run_bind (tr : Tr K S) (m : VM K α) (f : α → VM K β) (t : S) (inp : List K) :
    run tr (m.bind f) t inp =
      let r := run tr m t inp
      let r' := run tr (f r.val) r.state r.rest
      ⟨r'.val, r'.state, r'.rest, r.sent ++ r'.sent⟩ := by
  induction m generalizing t inp with
  | ret a => simp [run]
  | read k ih => cases inp <;> simp [run, ih]
  | absorb x k ih => simp [run, ih]
  | absorbLocked x k ih => simp [run, ih]
  | squeeze k ih => simp [run, ih]

/-- Prover `m₁` and verifier `m₂` in lockstep: whatever the challenges, the verifier reads and absorbs what
the prover absorbs, and the two results are related. -/
inductive Sim (R : α → β → Prop) : VM K α → VM K β → Prop
  | ret {a b} : R a b → Sim R (.ret a) (.ret b)
  | msg {x k₁ k₂ m₂} : k₂ (some x) = .absorb x m₂ → Sim R k₁ m₂ → Sim R (.absorb x k₁) (.read k₂)
  | locked {x k₁ k₂} : Sim R k₁ k₂ → Sim R (.absorbLocked x k₁) (.absorbLocked x k₂)
  | squeeze {k₁ k₂} : (∀ c, Sim R (k₁ c) (k₂ c)) → Sim R (.squeeze k₁) (.squeeze k₂)

theorem Sim.bind {δ : Type} {R : α → β → Prop} {Q : γ → δ → Prop} {m₁ : VM K α} {m₂ : VM K β}
    {f : α → VM K γ} {g : β → VM K δ} (h : Sim R m₁ m₂) (hf : ∀ a b, R a b → Sim Q (f a) (g b)) :
    Sim Q (m₁.bind f) (m₂.bind g) := by
  induction h with
  | ret r => exact hf _ _ r
  | @msg x k₁ k₂ m₂ e _ ih => 
    exact Sim.msg (m₂ := m₂.bind g) (by rw [e]; rfl) ih
  | locked _ ih => exact Sim.locked ih
  | squeeze _ ih => exact Sim.squeeze ih

/-- In lockstep on the same transcript, the verifier reads exactly what the prover wrote, and both end with
the same transcript state. -/
theorem Sim.run {R : α → β → Prop} {m₁ : VM K α} {m₂ : VM K β} (h : Sim R m₁ m₂) (tr : Tr K S) (t : S)
    (rest inp : List K) :
    let p := Gkr.run tr m₁ t inp
    let v := Gkr.run tr m₂ t (p.sent ++ rest)
    R p.val v.val ∧ v.state = p.state ∧ v.rest = rest := by
  induction h generalizing t with
  | ret r => exact ⟨r, rfl, rfl⟩
  | @msg x k₁ k₂ m₂ e _ ih => 
    have := ih (tr.absorb t x)
    simp only [Gkr.run, List.cons_append, e]
    exact this
  | locked _ ih => exact ih _
  | squeeze _ ih => exact ih _ _

/-! ### Against an adversary -/

/-- Run a program against an adversary. The challenges are taken from a tape. The adversary answers the
`cnt`-th read knowing the challenges drawn so far; it may fail to answer. `none` if the tape is too short. -/
def exec (adv : List K → Nat → Option K) : VM K α → (hist : List K) → (cnt : Nat) → (tape : List K) →
    Option α
  | .ret a, _, _, _ => some a
  | .read k, hist, cnt, tape => exec adv (k (adv hist cnt)) hist (cnt + 1) tape
  | .absorb _ k, hist, cnt, tape => exec adv k hist cnt tape
  | .absorbLocked _ k, hist, cnt, tape => exec adv k hist cnt tape
  | .squeeze _, _, _, [] => none
  | .squeeze k, hist, cnt, c :: tape => exec adv (k c) (hist ++ [c]) cnt tape

/-- The program draws `n` challenges, whatever it reads. -/
inductive Draws : Nat → VM K α → Prop
  | ret {a} : Draws 0 (.ret a)
  | read {n k} : (∀ m, Draws n (k m)) → Draws n (.read k)
  | absorb {n x k} : Draws n k → Draws n (.absorb x k)
  | absorbLocked {n x k} : Draws n k → Draws n (.absorbLocked x k)
  | squeeze {n k} : (∀ c, Draws n (k c)) → Draws (n + 1) (.squeeze k)

theorem Draws.bind {a b : Nat} {m : VM K α} {f : α → VM K β} (h : Draws a m) (hf : ∀ x, Draws b (f x)) :
    Draws (a + b) (m.bind f) := by
  induction h with
  | ret => simpa using hf _
  | read _ ih => exact .read ih
  | absorb _ ih => exact .absorb ih
  | absorbLocked _ ih => exact .absorbLocked ih
  | squeeze _ ih => rw [Nat.add_right_comm]; exact .squeeze ih

/-- `Err P e m`: along every path of `m` on which no challenge is in its set of bad values, the result does
not satisfy `P`. Each challenge's set of bad values is fixed by what was read and drawn before it, and the
sizes of the sets add up to at most `e` on every path. -/
inductive Err (P : α → Prop) : Nat → VM K α → Prop
  | ret {e a} : ¬ P a → Err P e (.ret a)
  | read {e k} : (∀ m, Err P e (k m)) → Err P e (.read k)
  | absorb {e x k} : Err P e k → Err P e (.absorb x k)
  | absorbLocked {e x k} : Err P e k → Err P e (.absorbLocked x k)
  | squeeze {d e k} (B : Finset K) : B.card ≤ d → (∀ c, c ∉ B → Err P e (k c)) →
      Err P (d + e) (.squeeze k)

theorem Err.mono {P : α → Prop} {e e' : Nat} {m : VM K α} (h : Err P e m) (he : e ≤ e') :
    Err P e' m := by
  induction h generalizing e' with
  | ret h => exact .ret h
  | read _ ih => exact .read fun m => ih m he
  | absorb _ ih => exact .absorb (ih he)
  | absorbLocked _ ih => exact .absorbLocked (ih he)
  | @squeeze d e k B hB _ ih =>
    obtain ⟨x, rfl⟩ := Nat.exists_eq_add_of_le he
    rw [Nat.add_right_comm]
    exact .squeeze B (by omega) fun c hc => (ih c hc le_rfl)

/-- Every result of the program satisfies `Q`. -/
inductive Post (Q : α → Prop) : VM K α → Prop
  | ret {a} : Q a → Post Q (.ret a)
  | read {k} : (∀ m, Post Q (k m)) → Post Q (.read k)
  | absorb {x k} : Post Q k → Post Q (.absorb x k)
  | absorbLocked {x k} : Post Q k → Post Q (.absorbLocked x k)
  | squeeze {k} : (∀ c, Post Q (k c)) → Post Q (.squeeze k)

theorem Post.bind {Q : α → Prop} {Q' : β → Prop} {m : VM K α} {f : α → VM K β} (h : Post Q m)
    (hf : ∀ a, Q a → Post Q' (f a)) : Post Q' (m.bind f) := by
  induction h with
  | ret h => exact hf _ h
  | read _ ih => exact .read ih
  | absorb _ ih => exact .absorb ih
  | absorbLocked _ ih => exact .absorbLocked ih
  | squeeze _ ih => exact .squeeze ih

theorem Post.true (m : VM K α) : Post (fun _ => True) m := by
  induction m with
  | ret a => exact .ret trivial
  | read k ih => exact .read ih
  | absorb x k ih => exact .absorb ih
  | absorbLocked x k ih => exact .absorbLocked ih
  | squeeze k ih => exact .squeeze ih

/-- What comes first costs nothing if every continuation is bounded. -/
theorem Err.bind_post {P : β → Prop} {Q : α → Prop} {e : Nat} {m : VM K α} {f : α → VM K β}
    (h : Post Q m) (hf : ∀ a, Q a → Err P e (f a)) : Err P e (m.bind f) := by
  induction h with
  | ret h => exact hf _ h
  | read _ ih => exact .read ih
  | absorb _ ih => exact .absorb ih
  | absorbLocked _ ih => exact .absorbLocked ih
  | squeeze _ ih =>
    have := Err.squeeze (d := 0) (P := P) (e := e) (k := fun c => ((_ : K → VM K α) c).bind f) ∅ (by simp)
      fun c _ => ih c
    simpa using this

theorem Err.bind_all {P : β → Prop} {e : Nat} {m : VM K α} {f : α → VM K β}
    (hf : ∀ a, Err P e (f a)) : Err P e (m.bind f) :=
  Err.bind_post (Post.true m) fun a _ => hf a

open Classical in
/-- The challenge vectors of length `n` on which the run against the adversary ends in `P`. -/
noncomputable def hits [Fintype K] (P : α → Prop) (adv : List K → Nat → Option K)
    (m : VM K α) (hist : List K) (cnt n : Nat) : Finset (Fin n → K) :=
  Finset.univ.filter fun v => ∃ a, exec adv m hist cnt (List.ofFn v) = some a ∧ P a

/-- At most `e` in `|K|` of the challenge vectors lead any adversary to `P`. -/
theorem Err.count [Fintype K] {P : α → Prop} {e n : Nat} {m : VM K α} (h : Err P e m) (hd : Draws n m)
    (adv : List K → Nat → Option K) (hist : List K) (cnt : Nat) :
    (hits P adv m hist cnt n).card * Fintype.card K ≤ e * Fintype.card K ^ n := by
  classical
  induction h generalizing hist cnt n with
  | @ret e a hP =>
    have : hits P adv (.ret a) hist cnt n = ∅ := by
      refine Finset.filter_eq_empty_iff.mpr fun v _ => ?_
      rintro ⟨b, hb, hp⟩
      simp only [exec, Option.some.injEq] at hb
      exact hP (hb ▸ hp)
    rw [this]; simp
  | read _ ih => cases hd with | read hd => exact ih _ (hd _) _ _
  | absorb _ ih => cases hd with | absorb hd => exact ih hd _ _
  | absorbLocked _ ih => cases hd with | absorbLocked hd => exact ih hd _ _
  | @squeeze d e k B hB _ ih =>
    cases hd with
    | @squeeze n _ hd =>
      have hsub : hits P adv (.squeeze k) hist cnt (n + 1) ⊆
          Finset.univ.biUnion fun c => (hits P adv (k c) (hist ++ [c]) cnt n).image
            (fun v => (Fin.cons c v : Fin (n + 1) → K)) := by
        intro v hv
        simp only [hits, Finset.mem_filter, Finset.mem_univ, true_and, List.ofFn_succ, exec] at hv
        simp only [Finset.mem_biUnion, Finset.mem_univ, true_and, Finset.mem_image, hits,
          Finset.mem_filter]
        exact ⟨v 0, fun i => v i.succ, hv, Fin.cons_self_tail v⟩
      have hcard : (hits P adv (.squeeze k) hist cnt (n + 1)).card ≤
          ∑ c : K, (hits P adv (k c) (hist ++ [c]) cnt n).card :=
        (Finset.card_le_card hsub).trans (Finset.card_biUnion_le.trans
          (Finset.sum_le_sum fun c _ => Finset.card_image_le))
      have hall : ∀ c, (hits P adv (k c) (hist ++ [c]) cnt n).card ≤ Fintype.card K ^ n := fun c =>
        (Finset.card_filter_le _ _).trans (by simp)
      have hsum : (∑ c : K, (hits P adv (k c) (hist ++ [c]) cnt n).card) * Fintype.card K ≤
          ∑ c : K, ((if c ∈ B then Fintype.card K ^ (n + 1) else 0) + e * Fintype.card K ^ n) := by
        rw [Finset.sum_mul]
        refine Finset.sum_le_sum fun c _ => ?_
        by_cases hc : c ∈ B
        · rw [if_pos hc, pow_succ]
          exact le_trans (Nat.mul_le_mul_right _ (hall c)) (Nat.le_add_right _ _)
        · rw [if_neg hc, zero_add]
          exact ih c hc (hd c) _ _
      have hval : ∑ c : K, ((if c ∈ B then Fintype.card K ^ (n + 1) else 0) + e * Fintype.card K ^ n) =
          B.card * Fintype.card K ^ (n + 1) + Fintype.card K * (e * Fintype.card K ^ n) := by
        rw [Finset.sum_add_distrib, Finset.sum_ite_mem, Finset.univ_inter, Finset.sum_const,
          Finset.sum_const, Finset.card_univ]
        simp
      calc _ ≤ _ := Nat.mul_le_mul_right _ hcard
        _ ≤ _ := hsum
        _ = _ := hval
        _ ≤ d * Fintype.card K ^ (n + 1) + Fintype.card K * (e * Fintype.card K ^ n) :=
            Nat.add_le_add_right (Nat.mul_le_mul_right _ hB) _
        _ = _ := by rw [pow_succ]; ring

end JST.Gkr
