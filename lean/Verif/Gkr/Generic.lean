import Verif.Gkr.Snark
import Verif.Spec.Layered

/-!
# Soundness of the sumcheck rounds for any polynomial
-/

namespace JST.Gkr

open JST.Spec

variable {K : Type} [Field K] [DecidableEq K]

omit [DecidableEq K] in
theorem isPoly_add {d : Nat} {p q : K → K} (hp : IsPoly d p) (hq : IsPoly d q) : IsPoly d fun x => p x + q x := by
  obtain ⟨f, hf, ef⟩ := hp
  obtain ⟨g, hg, eg⟩ := hq
  refine ⟨f + g, (Polynomial.natDegree_add_le _ _).trans (max_le hf hg), fun x => ?_⟩
  rw [Polynomial.eval_add, ef, eg]

omit [DecidableEq K] in
theorem degreeLe_tail {d n : Nat} {g : List K → K} (h : DegreeLe d (n + 1) g) (x : K) :
    DegreeLe d n fun r => g (x :: r) := by
  intro pre post hl
  obtain ⟨f, hf, e⟩ := h (x :: pre) post (by simp; omega)
  exact ⟨f, hf, e⟩

omit [DecidableEq K] in
theorem isPoly_cubeSum {d : Nat} (n : Nat) : ∀ (g : K → List K → K),
    (∀ r, r.length = n → IsPoly d fun x => g x r) → IsPoly d fun x => cubeSum n (g x) := by
  induction n with
  | zero => intro g h; exact h [] rfl
  | succ n ih =>
    intro g h
    exact isPoly_add (ih (fun x r => g x (0 :: r)) fun r hr => h (0 :: r) (by simp [hr]))
      (ih (fun x r => g x (1 :: r)) fun r hr => h (1 :: r) (by simp [hr]))

theorem err_generic (d : Nat) {α : Type} {P : α → Prop} {e : Nat}
    (step : ∀ {e' : Nat} {claim : K} {T : K → K}, IsPoly d T → claim ≠ T 0 + T 1 →
      ∀ k : Bool × K × K → VM K α, (∀ r c, Err P e' (k (false, r, c))) →
      (∀ r c, c ≠ T r → Err P e' (k (true, r, c))) → Err P (d + e') ((verifyStep d claim).bind k)) (n : Nat) :
    ∀ (claim : K) (g : List K → K) (k : Bool × List K × K → VM K α), DegreeLe d n g → claim ≠ cubeSum n g →
      (∀ rs c, rs.length = n → Err P e (k (false, rs, c))) →
      (∀ rs c, rs.length = n → c ≠ g rs → Err P e (k (true, rs, c))) →
      Err P (d * n + e) ((verifyRounds d n claim).bind k) := by
  induction n with
  | zero =>
    intro claim g k _ hne _ htrue
    rw [Nat.mul_zero, Nat.zero_add]
    exact htrue [] claim rfl hne
  | succ n ih =>
    intro claim g k hd hne hfalse htrue
    rw [verifyRounds_succ, VM.bind_assoc, show d * (n + 1) + e = d + (d * n + e) by ring]
    refine step (isPoly_cubeSum n (fun x r => g (x :: r)) fun r hr => hd [] r (by simp; omega)) hne _ ?_ ?_
    · intro r c
      rw [VM.bind_assoc]
      refine Err.bind_post (post_rounds d n c) fun b hb => ?_
      exact (hfalse _ _ (by simp [hb])).mono (by omega)
    · intro r c hc
      rw [VM.bind_assoc]
      refine ih c (fun rs => g (r :: rs)) _ (degreeLe_tail hd r) hc ?_ ?_
      · intro rs c' hl; exact hfalse _ _ (by simp [hl])
      · intro rs c' hl hc'; exact htrue _ _ (by simp [hl]) hc'

end JST.Gkr
