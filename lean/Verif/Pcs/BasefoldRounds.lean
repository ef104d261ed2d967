import Verif.Pcs.BasefoldLeaves

/-! # Proofs: the rounds of BaseFold, prover against verifier -/

namespace JST.Pcs

open JST.Merkle JST.Spec JST.Gkr

variable {K L N τ : Type} [Field K] [Field L] [Algebra K L] [Inhabited N]

/-- What the completeness theorem asks of the parameters: the root of unity is one, the sizes divide a leaf with at
least four elements of the challenge field and two of the circuit field in it. -/
structure SetupOk (S : Setup K L N τ) (kb ke : Nat) : Prop where
  valid : S.F.Valid
  base : S.base.size * 2 ^ kb = leafBytes
  ext : S.ext.size * 2 ^ ke = leafBytes
  two : 2 ≤ ke
  one : 1 ≤ kb

theorem minTreeElems_spec {S : Setup K L N τ} {kb ke : Nat} (hS : SetupOk S kb ke) : minTreeElems S = 2 ^ (ke + 1) := by
  unfold minTreeElems
  rw [(perLeaf_spec S.ext ke hS.ext).1, ← pow_succ', max_eq_left]
  calc 4 = 2 ^ 2 := by norm_num
    _ ≤ 2 ^ (ke + 1) := Nat.pow_le_pow_right (by norm_num) (by have := hS.two; omega)

/-- The committed words of the honest prover, from a round with `left` rounds to go and table `f` on: each is the
codeword of the table folded once more, and after them comes the codeword `fin` sent in the clear. -/
def Chain (S : Setup K L N τ) (mem : Nat → List L → List Mem) (ke : Nat) (fin : List L) :
    List (N × Tree Mem N × List L) → Nat → Nat → List L → List L → Prop
  | _, _, _, _, [] => False
  | [], left, _, f, r :: _ => left < ke ∧ fin = enc S.F (left + 1) (foldTable f r)
  | (root, t, cw) :: rest, left, round, f, r :: rs =>
    ke ≤ left ∧ cw = enc S.F (left + 1) (foldTable f r) ∧ treeOf S.hash S.ext.size (mem round cw) = some t ∧
      t.root = some root ∧ Chain S mem ke fin rest (left - 1) (round + 1) (foldTable f r) rs

/-- The absorbed items of committed words. -/
def commits (chain : List (N × Tree Mem N × List L)) : List (Absorbed L N) :=
  chain.map fun x => .commit x.1 x.2.1 x.2.2

omit [Field L] [Inhabited N] in
theorem committedOf_spec (rounds : List (RoundMsg L × Absorbed L N)) (chain : List (N × Tree Mem N × List L))
    (fin : List L) (m : Nat)
    (h : rounds.map (·.2) = commits chain ++ .final fin :: List.replicate m .nothing) :
    committedOf rounds = chain ∧ finalOf rounds = some fin := by
  have nothing : ∀ (m : Nat) (rounds : List (RoundMsg L × Absorbed L N)), rounds.map (·.2) = List.replicate m .nothing →
      committedOf rounds = [] := by
    intro m
    induction m with
    | zero => intro rounds h; rw [List.map_eq_nil_iff.mp h]; rfl
    | succ m ih =>
      intro rounds h
      rcases rounds with _ | ⟨⟨a, b⟩, rounds⟩
      · rfl
      · rw [List.map_cons, List.replicate_succ, List.cons.injEq] at h
        dsimp only at h
        rw [h.1, committedOf, ih _ h.2]
        · simp
  induction chain generalizing rounds with
  | nil =>
    rcases rounds with _ | ⟨⟨a, b⟩, rounds⟩
    · simp [commits] at h
    · simp only [commits, List.map_nil, List.nil_append, List.map_cons, List.cons.injEq] at h
      rw [h.1]
      refine ⟨?_, rfl⟩
      rw [committedOf, nothing m _ h.2]
      simp
  | cons x chain ih =>
    rcases rounds with _ | ⟨⟨a, b⟩, rounds⟩
    · simp [commits] at h
    · simp only [commits, List.map_cons, List.cons_append, List.cons.injEq] at h
      obtain ⟨h1, h2⟩ := ih rounds h.2
      rw [h.1]
      exact ⟨by rw [committedOf, h1], by rw [finalOf, h2]; simp⟩

omit [Field L] in
theorem forall₂_length {c : Codec L} {cw : List L} {mem : List Mem} (h : List.Forall₂ (Canon c) cw mem) :
    ∀ b ∈ mem, b.length = c.size := by
  induction h with
  | nil => simp
  | cons h _ ih =>
    intro b hb
    rcases List.mem_cons.mp hb with rfl | hb
    · exact h.1
    · exact ih b hb

section

variable [DecidableEq L] [DecidableEq N]

/-- The rounds: the prover does not panic, the verifier of any opening with its messages and absorbed items draws the
same challenges and ends with the same transcript and with the value of the last claim. -/
theorem rounds_complete {S : Setup K L N τ} {kb ke : Nat} (hS : SetupOk S kb ke) (h2 : (2 : L) ≠ 0) (n : Nat)
    (h64 : n + 2 ≤ 64) (had : n + 2 ≤ S.F.adicity) (mem : Nat → List L → List Mem)
    (hmem : ∀ round cw, List.Forall₂ (Canon S.ext) cw (mem round cw)) (left : Nat) :
    ∀ (round : Nat) (f us : List L) (c : L) (captured : Bool) (tr : τ), round + left = n → f.length = 2 ^ left →
      us.length = left → (captured = true ↔ left < min n (ke - 1)) →
      ∃ rounds last tr' rs,
        proveRounds S mem (n + 2) left round f ((List.range (2 ^ left)).map fun i => c * chi us i)
          (enc S.F (left + 2) f) captured tr = some (rounds, last, tr') ∧
        rs.length = left ∧ rounds.length = left ∧ last = enc S.F 2 [mle (fun i => f.getD i 0) rs] ∧
        (left < min n (ke - 1) → rounds.map (·.2) = List.replicate left .nothing) ∧
        (min n (ke - 1) ≤ left → 1 ≤ left → ∃ chain fin, Chain S mem ke fin chain left round f rs ∧
          rounds.map (·.2) = commits chain ++ .final fin :: List.replicate (min n (ke - 1) - 1) .nothing) ∧
        ∀ op : Opening L N, (∀ j < left, op.messages[round + j]? = (rounds[j]?).map (·.1)) →
          (∀ j < left, ∀ tr, verifierAbsorb S (n + 2) op (round + j) tr = (rounds[j]?).map fun p => S.T.absorb tr p.2) →
          verifyRounds S (n + 2) op left round
            (dotTables f ((List.range (2 ^ left)).map fun i => c * chi us i)) tr =
            some (rs, mle (fun i => f.getD i 0) rs * (c * eqEval rs us), tr') := by
  induction left with
  | zero =>
    intro round f us c captured tr hn hf hu hcap
    obtain ⟨x, rfl⟩ : ∃ x, f = [x] := List.length_eq_one_iff.mp (by simpa using hf)
    obtain rfl : us = [] := List.length_eq_zero_iff.mp hu
    refine ⟨[], _, tr, [], rfl, rfl, rfl, by simp [mle_nil], fun _ => rfl, fun _ h => by omega, fun op _ _ => ?_⟩
    rw [verifyRounds]
    simp [dotTables, mle_nil, eqEval, chi]
  | succ left ih =>
    intro round f us c captured tr hn hf hu hcap
    obtain ⟨u, us, rfl⟩ : ∃ u us', us = u :: us' := by
      rcases us with _ | ⟨u, us⟩
      · simp at hu
      · exact ⟨u, us, rfl⟩
    simp only [List.length_cons, Nat.add_right_cancel_iff] at hu
    set eq := (List.range (2 ^ (left + 1))).map fun i => c * chi (u :: us) i with heq
    obtain ⟨m, hm⟩ : ∃ m, m = sumcheckMsg f eq := ⟨_, rfl⟩
    obtain ⟨rt, hrt⟩ : ∃ rt, rt = S.T.challenge (S.T.field (S.T.field tr m.at1) m.at2) := ⟨_, rfl⟩
    obtain ⟨r, tr1⟩ := rt
    have hfl : f.length = 2 * 2 ^ left := by rw [hf]; ring
    have heql : eq.length = 2 * 2 ^ left := by rw [heq, List.length_map, List.length_range]; ring
    have hfold := foldCodeword_enc (L := L) hS.valid (left + 2) (2 ^ left) (by omega) (by omega) f hfl r
    have hlev : n + 2 - 1 - round = left + 2 := by omega
    have hflen : (foldTable f r).length = 2 ^ left := by rw [length_foldTable, hfl]; omega
    have heqf : foldTable eq r = (List.range (2 ^ left)).map fun i => c * ((1 - r) * (1 - u) + r * u) * chi us i := by
      rw [heq, ← hu]; exact foldTable_chi c u us r
    have hclaim : extrapolate2 (dotTables f eq - m.at1) m.at1 m.at2 r = dotTables (foldTable f r) (foldTable eq r) := by
      rw [hm]; exact sumcheck_round h2 f eq (2 ^ left) hfl heql r
    have hmin := minTreeElems_spec hS
    have hke := hS.two
    -- one step, whatever is absorbed
    have step : ∀ (a : Absorbed L N) (captured' : Bool),
        roundEnd S mem round (enc S.F (left + 2) (foldTable f r)) captured = some (a, captured') →
        (captured' = true ↔ left < min n (ke - 1)) →
        ∃ rounds last tr' rs,
          proveRounds S mem (n + 2) (left + 1) round f eq (enc S.F (left + 1 + 2) f) captured tr =
            some ((m, a) :: rounds, last, tr') ∧
          rs.length = left ∧ rounds.length = left ∧ last = enc S.F 2 [mle (fun i => f.getD i 0) (r :: rs)] ∧
          (left < min n (ke - 1) → rounds.map (·.2) = List.replicate left .nothing) ∧
          (min n (ke - 1) ≤ left → 1 ≤ left → ∃ chain fin, Chain S mem ke fin chain left (round + 1) (foldTable f r) rs ∧
            rounds.map (·.2) = commits chain ++ .final fin :: List.replicate (min n (ke - 1) - 1) .nothing) ∧
          ∀ op : Opening L N, (∀ j < left + 1, op.messages[round + j]? = (((m, a) :: rounds)[j]?).map (·.1)) →
            (∀ j < left + 1, ∀ tr, verifierAbsorb S (n + 2) op (round + j) tr =
              (((m, a) :: rounds)[j]?).map fun p => S.T.absorb tr p.2) →
            verifyRounds S (n + 2) op (left + 1) round (dotTables f eq) tr =
              some (r :: rs, mle (fun i => f.getD i 0) (r :: rs) * (c * eqEval (r :: rs) (u :: us)), tr') := by
      intro a captured' ha hcap'
      obtain ⟨rounds, last, tr', rs, i1, i2, i3, i4, i5, i6, i7⟩ := ih (round + 1) (foldTable f r) us
        (c * ((1 - r) * (1 - u) + r * u)) captured' (S.T.absorb tr1 a) (by omega) hflen hu hcap'
      have hmle := mle_foldTable f r rs (by rw [hf, i2])
      refine ⟨rounds, last, tr', rs, ?_, i2, i3, by rw [i4, hmle], i5, i6, fun op o1 o2 => ?_⟩
      · rw [proveRounds]
        rw [← hm, ← hrt]
        dsimp only
        rw [hlev, hfold, Option.bind_some, ha, Option.bind_some, heqf, i1]
        rfl
      · rw [verifyRounds]
        have o10 := o1 0 (by omega)
        have o20 := o2 0 (by omega)
        simp only [Nat.add_zero, List.getElem?_cons_zero, Option.map_some] at o10 o20
        rw [o10, Option.bind_some]
        dsimp only
        rw [← hrt]
        dsimp only
        rw [o20, Option.bind_some, hclaim, heqf, i7 op (fun j hj => ?_) (fun j hj tr => ?_)]
        · rw [Option.map_some, hmle, eqEval_cons]
          congr 2
          ring_nf
        · have := o1 (j + 1) (by omega)
          rwa [List.getElem?_cons_succ, show round + (j + 1) = round + 1 + j by omega] at this
        · have := o2 (j + 1) (by omega) tr
          rwa [List.getElem?_cons_succ, show round + (j + 1) = round + 1 + j by omega] at this
    by_cases hcase : ke ≤ left + 1
    · -- committed round
      have hge : (enc S.F (left + 2) (foldTable f r)).length ≥ minTreeElems S := by
        rw [length_enc, hmin]; exact Nat.pow_le_pow_right (by norm_num) (by omega)
      have him := hmem round (enc S.F (left + 2) (foldTable f r))
      obtain ⟨t, root, t1, t2, _⟩ := treeOf_spec S.hash S.ext.size ke (left + 2) hS.ext (by omega) (by omega)
        (mem round (enc S.F (left + 2) (foldTable f r)))
        (fun b hb => by
          exact forall₂_length him b hb)
        (by rw [← him.length_eq, length_enc])
      obtain ⟨rounds, last, tr', rs, j1, j2, j3, j4, j5, j6, j7⟩ := step (.commit root t (enc S.F (left + 2) (foldTable f r))) captured
        (by rw [roundEnd, if_pos hge, t1, Option.bind_some, t2]; rfl)
        (by rw [hcap]; omega)
      refine ⟨_, last, tr', r :: rs, j1, by simp [j2], by simp [j3], j4, fun h => by omega, fun _ _ => ?_, j7⟩
      obtain ⟨chain, fin, c1, c2⟩ := j6 (by omega) (by omega)
      exact ⟨(root, t, enc S.F (left + 2) (foldTable f r)) :: chain, fin, ⟨hcase, rfl, t1, t2, by simpa using c1⟩, by
        simp [commits] at c2 ⊢; exact c2⟩
    · have hlt : ¬ (enc S.F (left + 2) (foldTable f r)).length ≥ minTreeElems S := by
        rw [length_enc, hmin, not_le]; exact Nat.pow_lt_pow_right (by norm_num) (by omega)
      by_cases hc2 : captured = true
      · obtain ⟨rounds, last, tr', rs, j1, j2, j3, j4, j5, j6, j7⟩ := step .nothing captured
          (by rw [roundEnd, if_neg hlt, if_pos hc2])
          (by rw [hcap] at *; omega)
        have hcl := hcap.mp hc2
        refine ⟨_, last, tr', r :: rs, j1, by simp [j2], by simp [j3], j4, fun h => ?_, fun h _ => by omega, j7⟩
        rw [List.map_cons, j5 (by omega)]; rfl
      · have hcl : ¬ left + 1 < min n (ke - 1) := fun h => hc2 (hcap.mpr h)
        have hlf : min n (ke - 1) = left + 1 := by omega
        obtain ⟨rounds, last, tr', rs, j1, j2, j3, j4, j5, j6, j7⟩ := step (.final (enc S.F (left + 2) (foldTable f r))) true
          (by rw [roundEnd, if_neg hlt, if_neg hc2])
          (by simp; omega)
        refine ⟨_, last, tr', r :: rs, j1, by simp [j2], by simp [j3], j4, fun h => by omega, fun _ _ => ?_, j7⟩
        refine ⟨[], _, ⟨by omega, rfl⟩, ?_⟩
        rw [List.map_cons, j5 (by omega), hlf]; rfl

end

end JST.Pcs
