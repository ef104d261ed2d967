import Verif.Pcs.WhirForge
import Verif.Pcs.BasefoldSoundStep

/-! # Proofs: what the sum-check of WHIR still shows, and the Goldilocks configurations -/

namespace JST.Pcs.Whir

open JST.Merkle JST.Spec JST.Gkr

variable {K L N τ : Type} [Field K] [Field L] [Algebra K L]

/-- The verifier's claim after the given messages and challenges. -/
def claimAfter (v : L) (ms : List (RoundMsg L)) (cs : List L) : L :=
  (ms.zip cs).foldl (fun c p => extrapolate2 (c - p.1.at1) p.1.at1 p.1.at2 p.2) v

theorem verifyFolds_claim (T : Transcript τ L N) (msgs : List (RoundMsg L)) (left : Nat) : ∀ (round : Nat) (c : L) (tr : τ)
    (r : List L × L × τ), verifyFolds T msgs left round c tr = some r →
    r.1.length = left ∧ r.2.1 = claimAfter c ((msgs.drop round).take left) r.1 := by
  induction left with
  | zero => intro round c tr r h; rw [verifyFolds] at h; rw [← Option.some.inj h]; exact ⟨rfl, by simp [claimAfter]⟩
  | succ left ih =>
    intro round c tr r h
    rw [verifyFolds, Option.bind_eq_some_iff] at h
    obtain ⟨m, hm, h⟩ := h
    dsimp only at h
    rw [Option.map_eq_some_iff] at h
    obtain ⟨r', hr', rfl⟩ := h
    obtain ⟨h1, h2⟩ := ih _ _ _ _ hr'
    obtain ⟨hlt, hm⟩ := List.getElem?_eq_some_iff.mp hm
    refine ⟨by simp [h1], ?_⟩
    dsimp only
    rw [h2, List.drop_eq_getElem_cons hlt, List.take_succ_cons, hm]
    rfl

theorem claimAfter_append (v : L) (ms ms' : List (RoundMsg L)) (cs cs' : List L) (h : ms.length = cs.length) :
    claimAfter v (ms ++ ms') (cs ++ cs') = claimAfter (claimAfter v ms cs) ms' cs' := by
  unfold claimAfter
  rw [List.zip_append h, List.foldl_append]

theorem verifyRounds_claim (T : Transcript τ L N) (op : Opening L N) (n : Nat) (hm : op.messages.length = n) (left : Nat) :
    ∀ (cr done : Nat) (c : L) (tr : τ) (r : List L × L × τ), done + 4 * left ≤ n →
      verifyRounds T op n left cr done c tr = some (some r) →
      r.1.length = n - done ∧ r.2.1 = claimAfter c (op.messages.drop done) r.1 := by
  induction left with
  | zero =>
    intro cr done c tr r hd h
    rw [verifyRounds, Option.map_eq_some_iff] at h
    obtain ⟨r', h1, h2⟩ := h
    obtain ⟨g1, g2⟩ := verifyFolds_claim T op.messages _ _ _ _ _ h1
    rw [← Option.some.inj h2]
    refine ⟨g1, ?_⟩
    dsimp only
    rw [g2, List.take_of_length_le (by rw [List.length_drop]; omega)]
  | succ left ih =>
    intro cr done c tr r hd h
    rw [verifyRounds, Option.bind_eq_some_iff] at h
    obtain ⟨r1, h1, h⟩ := h
    rw [Option.bind_eq_some_iff] at h
    obtain ⟨root, _, h⟩ := h
    rw [Option.bind_eq_some_iff] at h
    obtain ⟨vals, _, h⟩ := h
    by_cases hv : vals.length ≠ oodSamples
    · rw [if_pos hv] at h; exact absurd (Option.some.inj h) (by simp)
    rw [if_neg hv, Option.bind_eq_some_iff] at h
    obtain ⟨_, _, h⟩ := h
    rw [Option.map_eq_some_iff] at h
    obtain ⟨o, h2, h3⟩ := h
    rw [Option.map_eq_some_iff] at h3
    obtain ⟨r2, rfl, rfl⟩ := h3
    obtain ⟨g1, g2⟩ := verifyFolds_claim T op.messages _ _ _ _ _ h1
    obtain ⟨g3, g4⟩ := ih _ _ _ _ _ (by unfold foldingFactor; omega) h2
    unfold foldingFactor at *
    refine ⟨by dsimp only; rw [List.length_append, g1, g3]; omega, ?_⟩
    dsimp only
    rw [g4, g2, ← claimAfter_append _ _ _ _ _ (by rw [g1, List.length_take, List.length_drop]; omega), ← List.drop_drop,
      List.take_append_drop]

theorem mle_prefix (f : Nat → L) (cs zs : List L) : mle f (cs ++ zs) = mle (cs.foldl foldF f) zs := by
  induction cs generalizing f with
  | nil => rfl
  | cons c cs ih => rw [List.cons_append, mle_cons, List.foldl_cons, ← ih]; rfl

theorem eqEval_snoc (cs us : List L) (r u : L) (h : cs.length = us.length) :
    eqEval (cs ++ [r]) (us ++ [u]) = eqEval cs us * ((1 - r) * (1 - u) + r * u) := by
  unfold eqEval
  rw [List.zip_append h, List.foldl_append]
  rfl

/-- The claim an honest prover would be at after the challenges `cs`. -/
def trueClaim (f : Nat → L) (point cs : List L) : L :=
  eqEval cs (point.take cs.length) * mle f (cs ++ point.drop cs.length)

/-- The challenges after which a false claim becomes the true one. -/
def lucky (v : L) (f : Nat → L) (point : List L) (ms : List (RoundMsg L)) (cs : List L) : Set L :=
  {r | claimAfter v ms cs ≠ trueClaim f point cs ∧ claimAfter v ms (cs ++ [r]) = trueClaim f point (cs ++ [r])}

open Classical in
theorem lucky_card (v : L) (f : Nat → L) (point : List L) (ms : List (RoundMsg L)) (m : RoundMsg L) (cs : List L)
    (hm : ms.length = cs.length) (hc : cs.length < point.length) (R : Finset L)
    (hR : ∀ r ∈ R, r ∈ lucky v f point (ms ++ [m]) cs) : R.card ≤ 2 := by
  obtain ⟨u, us, hu⟩ : ∃ u us, point.drop cs.length = u :: us := ⟨_, _, List.drop_eq_getElem_cons hc⟩
  have hdrop : ∀ r : L, point.drop (cs ++ [r]).length = us := by
    intro r
    rw [List.length_append, List.length_singleton, ← List.drop_drop, hu]; rfl
  have htake : ∀ r : L, point.take (cs ++ [r]).length = point.take cs.length ++ [u] := by
    intro r
    rw [List.length_append, List.length_singleton, List.take_add, hu]; rfl
  by_cases he : R = ∅
  · rw [he]; simp
  · obtain ⟨r0, hr0⟩ := Finset.nonempty_iff_ne_empty.mpr he
    have hc0 : claimAfter v (ms ++ [m]) cs = claimAfter v ms cs := by
      have := claimAfter_append v ms [m] cs [] hm
      rw [List.append_nil] at this
      rw [this]; simp [claimAfter]
    refine sumcheck_two (claimAfter v ms cs) (eqEval cs (point.take cs.length)) m.at1 m.at2 u us (cs.foldl foldF f) ?_ R ?_
    · have := (hR r0 hr0).1
      rw [hc0] at this
      unfold trueClaim at this
      rwa [mle_prefix, hu] at this
    · intro r hr
      have := (hR r hr).2
      rw [claimAfter_append v ms [m] cs [r] hm] at this
      have h2 : claimAfter (claimAfter v ms cs) [m] [r] = extrapolate2 (claimAfter v ms cs - m.at1) m.at1 m.at2 r := rfl
      rw [h2] at this
      rw [this]
      unfold trueClaim
      rw [htake, hdrop, eqEval_snoc _ _ _ _ (by rw [List.length_take]; omega), mle_prefix, List.foldl_append]
      rfl

/-- The first lucky challenge. -/
theorem lucky_exists (v : L) (f : Nat → L) (point : List L) (ms : List (RoundMsg L)) (cs : List L)
    (hm : ms.length = cs.length) (h0 : v ≠ mle f point) (hend : claimAfter v ms cs = trueClaim f point cs) :
    ∃ i, ∃ h : i < cs.length, cs[i] ∈ lucky v f point (ms.take (i + 1)) (cs.take i) := by
  by_contra hno
  push Not at hno
  have key : ∀ i ≤ cs.length, claimAfter v (ms.take i) (cs.take i) ≠ trueClaim f point (cs.take i) := by
    intro i
    induction i with
    | zero =>
      intro _
      simpa [claimAfter, trueClaim, eqEval] using h0
    | succ i ih =>
      intro hi hcon
      have hlt : i < cs.length := by omega
      refine hno i hlt ⟨?_, ?_⟩
      · have hmi : ms.take (i + 1) = ms.take i ++ [ms[i]'(by omega)] := by rw [List.take_append_getElem]
        have := claimAfter_append v (ms.take i) [ms[i]'(by omega)] (cs.take i) [] (by simp [hm])
        rw [List.append_nil] at this
        rw [hmi, this]
        simpa [claimAfter] using ih (by omega)
      · rw [List.take_append_getElem hlt]
        exact hcon
  have := key cs.length le_rfl
  rw [List.take_length, ← hm, List.take_length] at this
  exact this hend

variable [DecidableEq L] [DecidableEq N]

/-- An accepted opening: its final values are one constant, whose product with the equality polynomial is the last claim. -/
theorem verify_end {S : Setup K L N τ} {fuel : Nat} {com : Commitment N} {point : List L} {v : L} {op : Opening L N}
    {tr tr' : τ} {chs : List L} {claim : L} (h : verify S fuel com point v op tr = some true)
    (hr : verifyRounds S.T op com.numVars (committedRounds com.numVars) 0 0 v (S.T.node tr com.root) = some (some (chs, claim, tr'))) :
    ∃ k, op.finalPoly.head? = some k ∧ k * eqEval chs point = claim ∧ ∀ x ∈ op.finalPoly, x = k := by
  have hs := verify_shape h
  unfold verify at h
  rw [if_neg (by simp [hs]), hr, Option.bind_some] at h
  dsimp only at h
  unfold verifyEnd at h
  cases hf : op.finalPoly with
  | nil => rw [hf] at h; exact absurd h (by simp)
  | cons k rest =>
    rw [hf] at h
    dsimp only at h
    by_cases c1 : rest.any (fun v => decide (v ≠ k)) = true
    · rw [if_pos c1] at h; exact absurd h (by simp)
    · rw [if_neg c1] at h
      by_cases c0 : chs.length ≠ point.length
      · rw [if_pos c0] at h; exact absurd h (by simp)
      · rw [if_neg c0] at h
        by_cases c2 : k * eqEval chs point ≠ claim
        · rw [if_pos c2] at h; exact absurd h (by simp)
        · refine ⟨k, rfl, not_not.mp c2, fun x hx => ?_⟩
          rcases List.mem_cons.mp hx with rfl | hx
          · rfl
          · by_contra hne
            exact c1 (List.any_eq_true.mpr ⟨x, hx, by simp [hne]⟩)

/-- The sum-check: if the last constant is the value at the challenges of the polynomial `f`, the claimed value is the
value of `f` at the point, or one of the challenges was lucky. -/
theorem sound_sumcheck {S : Setup K L N τ} {fuel : Nat} {com : Commitment N} {point : List L} {v : L} {op : Opening L N}
    {tr tr' : τ} {chs : List L} {claim : L} (h : verify S fuel com point v op tr = some true)
    (hr : verifyRounds S.T op com.numVars (committedRounds com.numVars) 0 0 v (S.T.node tr com.root) = some (some (chs, claim, tr')))
    (f : Nat → L) (hk : op.finalPoly.head? = some (mle f chs)) (hv : v ≠ mle f point) :
    ∃ i, ∃ hi : i < chs.length, chs[i] ∈ lucky v f point (op.messages.take (i + 1)) (chs.take i) := by
  obtain ⟨s1, _, _, s4, _⟩ := shape_spec (verify_shape h)
  obtain ⟨k, k1, k2, _⟩ := verify_end h hr
  obtain ⟨c1, c2⟩ := verifyRounds_claim S.T op com.numVars s4 _ 0 0 v _ _ (by have := rounds_le com.numVars; omega) hr
  dsimp only at c1 c2
  rw [List.drop_zero] at c2
  rw [Nat.sub_zero] at c1
  refine lucky_exists v f point op.messages chs (by omega) hv ?_
  rw [← c2, ← k2]
  rw [k1] at hk
  rw [Option.some.inj hk]
  unfold trueClaim
  rw [c1, ← s1, List.take_length, List.drop_length, List.append_nil, mul_comm]

end JST.Pcs.Whir
