import Verif.Gkr.Generic
import Verif.Primes
import Mathlib.Algebra.Field.ZMod
import Mathlib.Algebra.Field.Rat

/-!
# C19, C20, C21: the proof system

`snarkProve` and `snarkVerify` (Verif/Gkr/Snark.lean) are the prover and the verifier with the raw commitment.
They are run against an arbitrary transcript `tr`, of which nothing is assumed, or, for soundness, against an
arbitrary adversary with challenges counted over all challenge vectors (`hits`, Verif/Gkr/Proto.lean).
-/

namespace JST.Props

open JST.Gkr JST.Spec

variable {K : Type} [Field K] [DecidableEq K]

/-! ### Helpers -/

omit [DecidableEq K] in
private theorem circWF (n : Nat) (layers : List (Layer K)) (h : CircuitOk n layers) : CircWF n layers := by
  induction layers generalizing n with
  | nil => trivial
  | cons l ls ih => exact ⟨h.1, ⟨h.2.1.1, h.2.1.2.1, h.2.1.2.2.1, h.2.1.2.2.2⟩, ih _ h.2.2⟩

omit [Field K] [DecidableEq K] in
private theorem lastVars_spec (n : Nat) (layers : List (Layer K)) : lastVars n layers = outputVars n layers := by
  induction layers generalizing n with
  | nil => rfl
  | cons l ls ih => exact ih _

omit [DecidableEq K] in
private theorem mle2_spec (tab : Nat → Pack K) (rz rs : List K) :
    mle2 tab rz rs = tableAt rs.length tab rz rs := by
  simp only [mle2, mle, tableAt, Finset.sum_apply, Pi.smul_apply, smul_eq_mul, Finset.mul_sum]
  rw [Finset.sum_comm]
  exact Finset.sum_congr rfl fun i _ => Finset.sum_congr rfl fun k _ => by ring

omit [DecidableEq K] in
private theorem sum_filter_lane {G : Type} (gs : List G) (o : G → Nat) (x : G → Pack K) (j k : Nat) :
    (gs.map fun g => if o g = j then x g else 0).sum k = ((gs.filter (o · = j)).map fun g => x g k).sum := by
  induction gs with
  | nil => rfl
  | cons g gs ih =>
    rw [List.map_cons, List.sum_cons, Pi.add_apply, ih, List.filter_cons]
    by_cases h : o g = j <;> simp [h]

/-! ### C19 -/

/-- C19: evaluating a circuit computes, in every lane, the sums of its gates. -/
theorem C19_evaluate (pub w : Nat → Nat → K) (k : Nat) (layers : List (Layer K)) :
    IsRun pub k layers w (evalCircuit pub layers w) := by
  induction layers generalizing w with
  | nil => intro o; rfl
  | cons l ls ih =>
    refine ⟨l.evaluate pub w, fun o => ?_, ih _⟩
    simp only [Layer.evaluate]
    rw [foldl_addAt, foldl_addAt, foldl_addAt, foldl_addAt]
    simp only [Pi.add_apply, Pi.zero_apply, zero_add]
    rw [sum_filter_lane, sum_filter_lane, sum_filter_lane, sum_filter_lane]
    congr 1
    · congr 1
      exact congrArg List.sum (List.map_congr_left fun g _ => by cases g.val <;> rfl)
    · refine congrArg List.sum (List.map_congr_left fun g _ => ?_)
      cases g.kind <;> simp [UniKind.eval, smul_eq_mul]
      ring_nf
      tauto

/-- C19: the verifier accepts the proof and the claimed value of the honest prover, for every circuit with at
least one input variable in each layer, every input, every content of the prover's scratch space and every
transcript; the claimed value is the value of the circuit's outputs at the output challenge; both sides end
in the same transcript state, and trailing proof data is left unread. -/
theorem C19_completeness {S : Type} (h6 : (6 : K) ≠ 0) (tr : Tr K S) (t : S) (s n : Nat)
    (layers : List (Layer K)) (hnil : layers ≠ []) (hok : CircuitOk n layers)
    (hpos : ∀ l ∈ layers, 0 < l.inVars) (pub w : Nat → Nat → K) (sp : Bufs K) (rest : List K) :
    let p := run tr (snarkProve s layers pub w sp) t []
    let v := run tr (snarkVerify s layers pub p.val w) t (p.sent ++ rest)
    v.val = true ∧ v.state = p.state ∧ v.rest = rest :=
  snark_complete h6 tr t s n layers hnil pub w sp (circWF n layers hok) hpos rest

/-- A circuit with a multiplication, an addition, a constant and a public input, in two layers. -/
def demoCircuit (K : Type) [Field K] : List (Layer K) :=
  [⟨1, 1, [⟨0, 0, 1, 2⟩, ⟨1, 1, 1, 1⟩], [⟨1, 0, 3⟩], [⟨0, .pub 0⟩], []⟩,
   ⟨1, 1, [], [⟨0, 0, 1⟩, ⟨0, 1, -1⟩], [⟨0, .coef 4⟩], []⟩]

omit [DecidableEq K] in
theorem demoCircuit_ok : CircuitOk 1 (demoCircuit K) ∧ (∀ l ∈ demoCircuit K, 0 < l.inVars) ∧
    demoCircuit K ≠ [] ∧ outputVars 1 (demoCircuit K) = 1 := by
  refine ⟨⟨rfl, ⟨?_, ?_, ?_, rfl⟩, rfl, ⟨?_, ?_, ?_, rfl⟩, trivial⟩, ?_, ?_, rfl⟩ <;> simp [demoCircuit]

/-- A toy transcript over the rationals. -/
def demoTr : Tr ℚ ℚ := ⟨fun t x => 2 * t + x, fun t x => 3 * t + x, fun t => (t, t + 1)⟩

example : (6 : ℚ) ≠ 0 := by norm_num

example : (run demoTr (snarkProve 1 (demoCircuit ℚ) (fun _ _ => 5) (fun i k => i + k)
    ⟨fun _ _ => 9, fun _ _ => 9, fun _ => true⟩) 2 []).sent.length = 20 := by
  decide +kernel

example : (run demoTr (snarkVerify 1 (demoCircuit ℚ) (fun _ _ => 5) 7 fun i k => i + k) 2 []).val = false := by
  decide +kernel

/-- C19 (negation without input variables): if a layer has a single input wire, the prover sends what its
scratch buffer happens to hold instead of the wire's value, and its proof is rejected. -/
theorem C19_no_input_variable_rejected {S : Type} (tr : Tr K S) (t : S) (w : Nat → Nat → K) (hw : w 0 0 ≠ 0)
    (pub : Nat → Nat → K) :
    let layers : List (Layer K) := [⟨0, 0, [], [⟨0, 0, 1⟩], [], []⟩]
    let p := run tr (snarkProve 0 layers pub w ⟨fun _ _ => 0, fun _ _ => 0, fun _ => false⟩) t []
    CircuitOk 0 layers ∧ (run tr (snarkVerify 0 layers pub p.val w) t p.sent).val = false := by
  intro layers p
  have hval : p.val = w 0 0 := by
    show evalAtChallenge (evalCircuit pub layers w) [] [] = _
    rw [evalAtChallenge_eq, mle2, mle_nil, mle_nil]
    simp [layers, evalCircuit, Layer.evaluate, addAt]
  have hsent : p.sent = [0] := rfl
  refine ⟨⟨rfl, ⟨by simp, by simp, by simp, rfl⟩, trivial⟩, ?_⟩
  rw [hval, hsent]
  show ((true && (true && true && true && decide (w 0 0 - 0 - 0 *
    evalAdd [⟨0, 0, 1⟩] _ _ _ = 0)) && _) : Bool) = false
  simp [hw]

example : ∃ w : Nat → Nat → ℚ, w 0 0 ≠ 0 := ⟨fun _ _ => 1, by norm_num⟩

/-! ### C20 -/

/-- C20: in rounds of degree two, whatever the prover sends, if the claimed sum is wrong then at most `2 n` in
`|K|` of the challenge vectors make all rounds pass and the final claim right. -/
theorem C20_sumcheck_degree_two [Fintype K] (n : Nat) (g : List K → K) (hg : DegreeLe 2 n g) (claim : K)
    (hne : claim ≠ cubeSum n g) (adv : List K → Nat → Option K) :
    (hits (fun r => r.1 = true ∧ r.2.2 = g r.2.1) adv (verifyRounds 2 n claim) [] 0 n).card * Fintype.card K ≤
      2 * n * Fintype.card K ^ n := by
  have h := err_generic (K := K) 2 (P := fun r : Bool × List K × K => r.1 = true ∧ r.2.2 = g r.2.1) (e := 0)
    (fun hT hne k h1 h2 => err_step2 hT hne k h1 h2) n claim g .ret hg hne (fun rs c _ => .ret (by simp))
    (fun rs c _ hc => .ret (by simp [hc]))
  rw [VM.bind_ret, Nat.add_zero] at h
  exact h.count (draws_verifyRounds 2 n claim) adv [] 0

/-- C20: in rounds of degree three, at most `3 n` in `|K|`. -/
theorem C20_sumcheck_degree_three [Fintype K] (h6 : (6 : K) ≠ 0) (n : Nat) (g : List K → K)
    (hg : DegreeLe 3 n g) (claim : K) (hne : claim ≠ cubeSum n g) (adv : List K → Nat → Option K) :
    (hits (fun r => r.1 = true ∧ r.2.2 = g r.2.1) adv (verifyRounds 3 n claim) [] 0 n).card * Fintype.card K ≤
      3 * n * Fintype.card K ^ n := by
  have h := err_generic (K := K) 3 (P := fun r : Bool × List K × K => r.1 = true ∧ r.2.2 = g r.2.1) (e := 0)
    (fun hT hne k h1 h2 => err_step3 h6 hT hne k h1 h2) n claim g .ret hg hne (fun rs c _ => .ret (by simp))
    (fun rs c _ hc => .ret (by simp [hc]))
  rw [VM.bind_ret, Nat.add_zero] at h
  exact h.count (draws_verifyRounds 3 n claim) adv [] 0

/-- C20: the whole protocol. For every circuit, committed input, output challenge and claimed value that is not
the value of the circuit's outputs at the output challenge, whatever the prover sends, at most
`gkrErr s layers` in `|K|` of the challenge vectors make the verifier accept. -/
theorem C20_protocol [Fintype K] (h6 : (6 : K) ≠ 0) (s n : Nat) (layers : List (Layer K))
    (hok : CircuitOk n layers) (pub w : Nat → Nat → K) (claimed : K) (rz rs : List K)
    (hrz : rz.length = outputVars n layers) (hrs : rs.length = s)
    (hne : claimed ≠ tableAt s (evalCircuit pub layers w) rz rs) (adv : List K → Nat → Option K) :
    (hits (· = true) adv (snarkVerifyFrom s layers pub claimed w ⟨rz, none, rs⟩) [] 0
        (gkrDraws s layers)).card * Fintype.card K ≤
      gkrErr s layers * Fintype.card K ^ gkrDraws s layers := by
  refine (snark_sound h6 s n layers pub w claimed ⟨rz, none, rs⟩ (circWF n layers hok)
    (by rw [lastVars_spec]; exact hrz) rfl hrs ?_).count (draws_snarkFrom s layers pub w claimed _) adv [] 0
  rw [mle2_spec]
  rwa [← hrs] at hne

/-- The bound for the demonstration circuit over Mersenne-31 with 8 lanes, and a wrong claim. -/
example : gkrErr 3 (demoCircuit (ZMod m31P)) = 25 ∧ gkrDraws 3 (demoCircuit (ZMod m31P)) = 10 ∧
    (6 : ZMod m31P) ≠ 0 ∧
    (1 : ZMod m31P) ≠ tableAt 3 (evalCircuit (fun _ _ => 0) (demoCircuit _) fun _ _ => 0) [0] [0, 0, 0] := by
  refine ⟨rfl, rfl, by decide +kernel, by decide +kernel⟩

/-- The product of two variables has degree at most two in each; its sum over the square is one. -/
example : DegreeLe 2 2 (fun r : List ℚ => r.getD 0 0 * r.getD 1 0) ∧
    cubeSum 2 (fun r : List ℚ => r.getD 0 0 * r.getD 1 0) = 1 := by
  refine ⟨fun pre post h => ?_, by simp [cubeSum]⟩
  rcases pre with _ | ⟨a, pre⟩
  · obtain ⟨y, rfl⟩ : ∃ y, post = [y] := List.length_eq_one_iff.mp (by simp only [List.length_nil] at h; omega)
    exact (isPoly_quad 0 y 0).congr fun x => by simp [mul_comm]
  · simp only [List.length_cons] at h
    have h1 : pre = [] := List.length_eq_zero_iff.mp (by omega)
    have h2 : post = [] := List.length_eq_zero_iff.mp (by omega)
    subst h1 h2
    exact (isPoly_quad 0 a 0).congr fun x => by simp

/-! ### C21 -/

/-- C21 (negation): the verifier takes the claimed value of the outputs from whoever made the proof and never
compares it with anything, so for every circuit and every input, satisfying or not, there are a claimed value
and a proof it accepts. -/
theorem C21_unsatisfied_accepted {S : Type} (h6 : (6 : K) ≠ 0) (tr : Tr K S) (t : S) (s n : Nat)
    (layers : List (Layer K)) (hnil : layers ≠ []) (hok : CircuitOk n layers)
    (hpos : ∀ l ∈ layers, 0 < l.inVars) (pub w : Nat → Nat → K) :
    ∃ claimed proof, (run tr (snarkVerify s layers pub claimed w) t proof).val = true := by
  have := C19_completeness h6 tr t s n layers hnil hok hpos pub w
    ⟨fun _ _ => 0, fun _ _ => 0, fun _ => false⟩ []
  exact ⟨_, _, this.1⟩

/-- An input on which the demonstration circuit's output is not zero. -/
example : evalCircuit (fun _ _ => 5) (demoCircuit ℚ) (fun i k => i + k) 0 0 ≠ 0 := by decide +kernel

/-- C21 (partial: for a caller who fixes the claimed value to zero). If some output of the circuit on the
committed input is not zero, then, whatever the prover sends, at most `outputVars + s + gkrErr s layers` in
`|K|` of the challenge vectors make the verifier accept the claimed value zero. -/
theorem C21_zero_claim_sound_partial [Fintype K] (h6 : (6 : K) ≠ 0) (s n : Nat) (layers : List (Layer K))
    (hnil : layers ≠ []) (hok : CircuitOk n layers) (pub w : Nat → Nat → K)
    (hout : ∃ i < 2 ^ outputVars n layers, ∃ k < 2 ^ s, evalCircuit pub layers w i k ≠ 0)
    (adv : List K → Nat → Option K) :
    (hits (· = true) adv (snarkVerify s layers pub 0 w) [] 0
        (outputVars n layers + s + gkrDraws s layers)).card * Fintype.card K ≤
      (outputVars n layers + s + gkrErr s layers) *
        Fintype.card K ^ (outputVars n layers + s + gkrDraws s layers) := by
  have hv : outputVars n layers = lastVars n layers := (lastVars_spec n layers).symm
  rw [hv] at hout ⊢
  have hd := draws_snark s layers pub w (0 : K)
  rw [← lastVars_eq n layers hnil] at hd
  exact (snark_zero_sound h6 s n layers hnil pub w (circWF n layers hok) hout).count hd adv [] 0

example : ∃ i < 2 ^ outputVars 1 (demoCircuit (ZMod m31P)), ∃ k < 2 ^ 3,
    evalCircuit (fun _ _ => 5) (demoCircuit (ZMod m31P)) (fun i k => (i : ZMod m31P) + k) i k ≠ 0 :=
  ⟨0, by decide, 0, by decide, by decide +kernel⟩

end JST.Props
