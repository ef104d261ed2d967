import Verif.Pcs.BasefoldComplete

/-! # Proofs: the verifier of BaseFold does not panic, and small codewords are queried everywhere -/

namespace JST.Pcs

open JST.Merkle JST.Spec JST.Gkr

variable {K L N τ : Type} [Field K] [Field L] [Algebra K L] [Inhabited N] [DecidableEq L] [DecidableEq N]

omit [Field L] [Inhabited N] [DecidableEq N] in
theorem leafValuesOk_length {c : Codec L} {data : Mem} {values : List L} (h : leafValuesOk c data values = true) :
    values.length = c.perLeaf := by
  unfold leafValuesOk at h
  simp only [Bool.and_eq_true, decide_eq_true_eq] at h
  exact h.1.2

theorem verifyQueryRounds_total (S : Setup K L N τ) (he : 0 < S.ext.perLeaf) (log : Nat) (challenges fin : List L)
    (pairs : List (RoundProof L N × N)) : ∀ (round idx : Nat) (cur : L), round + pairs.length < challenges.length →
      idx < 2 ^ pairs.length * fin.length →
      ∃ b, verifyQueryRounds S log challenges fin pairs round idx cur = some b := by
  induction pairs with
  | nil =>
    intro round idx cur _ hi
    simp only [List.length_nil, pow_zero, one_mul] at hi
    rw [verifyQueryRounds, List.getElem?_eq_getElem hi]
    exact ⟨_, rfl⟩
  | cons x pairs ih =>
    obtain ⟨rp, root⟩ := x
    intro round idx cur hr hi
    simp only [List.length_cons] at hr hi
    rw [verifyQueryRounds]
    dsimp only
    by_cases c1 : (!rp.leafProof.verify S.hash root) = true
    · rw [if_pos c1]; exact ⟨_, rfl⟩
    rw [if_neg c1]
    by_cases c2 : rp.leafProof.index ≠ idx / 2 * 2 / S.ext.perLeaf
    · rw [if_pos c2]; exact ⟨_, rfl⟩
    rw [if_neg c2]
    by_cases c3 : (!leafValuesOk S.ext rp.leafProof.leaf rp.leafValues) = true
    · rw [if_pos c3]; exact ⟨_, rfl⟩
    rw [if_neg c3]
    have hl1 := leafValuesOk_length (by simpa using c3)
    by_cases c4 : idx % S.ext.perLeaf ≥ rp.leafValues.length
    · rw [if_pos c4]; exact ⟨_, rfl⟩
    rw [if_neg c4, List.getElem?_eq_getElem (not_le.mp c4)]
    simp only [Option.bind_eq_bind, Option.bind_some]
    by_cases c5 : rp.leafValues[idx % S.ext.perLeaf]'(not_le.mp c4) ≠ cur
    · rw [if_pos c5]; exact ⟨_, rfl⟩
    rw [if_neg c5]
    by_cases c6 : (!rp.siblingProof.verify S.hash root) = true
    · rw [if_pos c6]; exact ⟨_, rfl⟩
    rw [if_neg c6]
    by_cases c7 : rp.siblingProof.index ≠ (idx / 2 * 2 + 1) / S.ext.perLeaf
    · rw [if_pos c7]; exact ⟨_, rfl⟩
    rw [if_neg c7]
    by_cases c8 : (!leafValuesOk S.ext rp.siblingProof.leaf rp.siblingValues) = true
    · rw [if_pos c8]; exact ⟨_, rfl⟩
    rw [if_neg c8]
    have hl2 := leafValuesOk_length (by simpa using c8)
    have hm : ∀ x, x % S.ext.perLeaf < S.ext.perLeaf := fun x => Nat.mod_lt _ he
    have g1 : ∀ x, ∃ v, rp.leafValues[x % S.ext.perLeaf]? = some v := fun x =>
      ⟨_, List.getElem?_eq_getElem (by rw [hl1]; exact hm x)⟩
    have g2 : ∀ x, ∃ v, rp.siblingValues[x % S.ext.perLeaf]? = some v := fun x =>
      ⟨_, List.getElem?_eq_getElem (by rw [hl2]; exact hm x)⟩
    have hih := ih (round + 1) (idx / 2)
    have hb : idx / 2 < 2 ^ pairs.length * fin.length := by
      rw [pow_succ, mul_comm (2 ^ _) 2, mul_assoc] at hi
      omega
    have hch := List.getElem?_eq_getElem (show round + 1 < challenges.length by omega)
    obtain ⟨v1, e1⟩ := g1 (idx / 2 * 2)
    obtain ⟨v2, e2⟩ := g2 (idx / 2 * 2)
    obtain ⟨v3, e3⟩ := g1 (idx / 2 * 2 + 1)
    obtain ⟨v4, e4⟩ := g2 (idx / 2 * 2 + 1)
    rw [e1, e2, e3, e4, hch]
    simp only [Option.bind_some]
    split_ifs <;> exact hih _ (by omega) hb

theorem verifyQuery_total (S : Setup K L N τ) (he : 0 < S.ext.perLeaf) (root : N) (log : Nat) (op : Opening L N)
    (challenges : List L) (hc : op.commitments.length < challenges.length) (qp : QueryProof L N) (q : Nat)
    (hq : q < 2 ^ (op.commitments.length + 1) * op.finalPoly.length) :
    ∃ b, verifyQuery S root log op challenges qp q = some b := by
  unfold verifyQuery
  dsimp only
  by_cases c0 : qp.rounds.length ≠ op.commitments.length
  · rw [if_pos c0]; exact ⟨_, rfl⟩
  rw [if_neg c0]
  rw [not_not] at c0
  by_cases c1 : (!qp.leafProof.verify S.hash root) = true
  · rw [if_pos c1]; exact ⟨_, rfl⟩
  rw [if_neg c1]
  by_cases c2 : (!qp.siblingProof.verify S.hash root) = true
  · rw [if_pos c2]; exact ⟨_, rfl⟩
  rw [if_neg c2]
  by_cases c3 : qp.leafProof.index ≠ q / 2 * 2 / S.base.perLeaf
  · rw [if_pos c3]; exact ⟨_, rfl⟩
  rw [if_neg c3]
  by_cases c4 : qp.siblingProof.index ≠ (q / 2 * 2 + 1) / S.base.perLeaf
  · rw [if_pos c4]; exact ⟨_, rfl⟩
  rw [if_neg c4]
  rcases extractBase S.base qp.leafProof.leaf (q / 2 * 2 % S.base.perLeaf) with _ | l
  · exact ⟨_, rfl⟩
  dsimp only
  rcases extractBase S.base _ ((q / 2 * 2 + 1) % S.base.perLeaf) with _ | r
  · exact ⟨_, rfl⟩
  dsimp only
  rw [List.getElem?_eq_getElem (show 0 < challenges.length by omega)]
  simp only [Option.bind_eq_bind, Option.bind_some]
  have hz : (qp.rounds.zip op.commitments).length = op.commitments.length := by rw [List.length_zip, c0, min_self]
  refine verifyQueryRounds_total S he log challenges op.finalPoly _ 0 (q / 2) _ (by omega) ?_
  rw [hz]
  rw [pow_succ, mul_comm (2 ^ _) 2, mul_assoc] at hq
  omega

theorem verifyQueries_total (S : Setup K L N τ) (root : N) (log : Nat) (op : Opening L N)
    (challenges : List L) (l : List (QueryProof L N × Nat))
    (h : ∀ x ∈ l, ∃ b, verifyQuery S root log op challenges x.1 x.2 = some b) :
    ∃ b, verifyQueries S root log op challenges l = some b := by
  induction l with
  | nil => exact ⟨true, by rw [verifyQueries]⟩
  | cons x l ih =>
    obtain ⟨b, hb⟩ := h x (by simp)
    rw [verifyQueries, hb]
    simp only [Option.bind_eq_bind, Option.bind_some]
    rcases b with _ | _
    · exact ⟨false, by simp⟩
    · obtain ⟨b, hb⟩ := ih fun y hy => h y (by simp [hy])
      exact ⟨b, by simp [hb]⟩

omit [Inhabited N] [DecidableEq L] [DecidableEq N] in
theorem verifyRounds_total (S : Setup K L N τ) (log : Nat) (op : Opening L N) (left : Nat) :
    ∀ (round : Nat) (claim : L) (tr : τ), round + left ≤ op.messages.length →
      ∃ r, verifyRounds S log op left round claim tr = some r ∧ r.1.length = left := by
  induction left with
  | zero => intro round claim tr _; exact ⟨_, by rw [verifyRounds], rfl⟩
  | succ left ih =>
    intro round claim tr h
    rw [verifyRounds, List.getElem?_eq_getElem (show round < op.messages.length by omega), Option.bind_some]
    dsimp only
    obtain ⟨tr', htr⟩ : ∃ tr', verifierAbsorb S log op round (S.T.challenge (S.T.field (S.T.field tr op.messages[round].at1)
        op.messages[round].at2)).2 = some tr' := by
      unfold verifierAbsorb
      split_ifs with h1 h2
      · rw [List.getElem?_eq_getElem h1.2]; exact ⟨_, rfl⟩
      · exact ⟨_, rfl⟩
      · exact ⟨_, rfl⟩
    rw [htr, Option.bind_some]
    obtain ⟨r, h1, h2⟩ := ih (round + 1) (extrapolate2 (claim - op.messages[round].at1) op.messages[round].at1
      op.messages[round].at2 (S.T.challenge (S.T.field (S.T.field tr op.messages[round].at1) op.messages[round].at2)).1)
      tr' (by omega)
    rw [h1]
    exact ⟨_, rfl, by simp [h2]⟩

theorem verifyBf_total (S : Setup K L N τ) (he : 0 < S.ext.perLeaf) (fuel : Nat) (com : Commitment N) (point : List L)
    (claimed : L) (op : Opening L N) (tr : τ) (h : verifyBf S fuel com point claimed op tr = none) :
    ∃ tr', genQueries S.T fuel tr' (2 ^ (com.numVars + 2)) = none := by
  unfold verifyBf at h
  by_cases hs : (!shapeOk S com point op) = true
  · rw [if_pos hs] at h; simp at h
  rw [if_neg hs] at h
  have hs : shapeOk S com point op = true := by simpa using hs
  unfold shapeOk at hs
  have hrl : rateLog = 2 := rfl
  simp only [hrl, Bool.and_eq_true, decide_eq_true_eq] at hs
  obtain ⟨⟨⟨⟨⟨⟨⟨_, s2⟩, _⟩, s4⟩, s5⟩, _⟩, _⟩, s8⟩ := hs
  obtain ⟨⟨challenges, claim, tr'⟩, h1, h2⟩ := verifyRounds_total S (com.numVars + 2) op com.numVars 0 claimed tr (by omega)
  simp only [hrl, Option.bind_eq_bind, h1, Option.bind_some] at h
  dsimp only at h2
  rcases hf : foldRest S.F (com.numVars + 2) challenges
    (List.range' (op.commitments.length + 1) (com.numVars - (op.commitments.length + 1))) op.finalPoly with _ | ⟨k, rest⟩
  · rw [hf] at h; simp at h
  rw [hf] at h
  dsimp only at h
  by_cases c1 : (rest.any fun v => decide (v ≠ k)) = true
  · rw [if_pos c1] at h; simp at h
  rw [if_neg c1] at h
  by_cases c2 : k * eqEval challenges point ≠ claim
  · rw [if_pos c2] at h; simp at h
  rw [if_neg c2] at h
  rcases hq : genQueries S.T fuel tr' (2 ^ (com.numVars + 2)) with _ | ⟨qs, trq⟩
  · exact ⟨tr', hq⟩
  exfalso
  rw [hq] at h
  simp only [Option.bind_some] at h
  by_cases c3 : op.queries.length ≠ qs.length
  · rw [if_pos c3] at h; simp at h
  rw [if_neg c3] at h
  have hlt := queryLoop_lt S.T (2 ^ (com.numVars + 2)) _ (by positivity) fuel tr' [] (by simp) _ hq
  obtain ⟨b, hb⟩ := verifyQueries_total S com.root (com.numVars + 2) op challenges (op.queries.zip qs) fun x hx => by
    refine verifyQuery_total S he com.root _ op challenges (by omega) x.1 x.2 ?_
    rw [s8, ← pow_add]
    have := hlt x.2 (List.of_mem_zip hx).2
    rwa [show op.commitments.length + 1 + (com.numVars + 2 - 1 - op.commitments.length) = com.numVars + 2 by omega]
  rw [hb] at h
  simp at h

omit [Field L] [Inhabited N] [DecidableEq L] [DecidableEq N] in
theorem addBatch_nodup (len target : Nat) (batch : List Nat) : ∀ indices : List Nat, indices.Nodup → indices.length ≤ target →
    (addBatch len target indices batch).Nodup ∧ (addBatch len target indices batch).length ≤ target := by
  unfold addBatch
  induction batch with
  | nil => intro indices h h'; exact ⟨h, h'⟩
  | cons x batch ih =>
    intro indices h h'
    rw [List.foldl_cons]
    split_ifs with h1 h2
    · exact ih _ h h'
    · exact ih _ h h'
    · refine ih _ ?_ ?_
      · rw [List.nodup_append]
        refine ⟨h, by simp, fun a ha b hb hab => h2 ?_⟩
        rw [List.mem_singleton.mp hb] at hab
        rwa [← hab]
      · rw [List.length_append, List.length_singleton]; omega

omit [Field L] [Inhabited N] [DecidableEq L] [DecidableEq N] in
theorem queryLoop_nodup (T : Transcript τ L N) (len target : Nat) (fuel : Nat) : ∀ (tr : τ) (indices : List Nat),
    indices.Nodup → indices.length ≤ target →
    ∀ r, queryLoop T len target fuel tr indices = some r → r.1.Nodup ∧ r.1.length = target := by
  induction fuel with
  | zero =>
    intro tr indices h h' r hr
    rw [queryLoop.eq_def] at hr
    dsimp only at hr
    split_ifs at hr with hc
    rw [← Option.some.inj hr]; exact ⟨h, by dsimp only; omega⟩
  | succ fuel ih =>
    intro tr indices h h' r hr
    rw [queryLoop.eq_def] at hr
    dsimp only at hr
    split_ifs at hr with hc
    · rw [← Option.some.inj hr]; exact ⟨h, by dsimp only; omega⟩
    · obtain ⟨a, b⟩ := addBatch_nodup len target (T.usizes tr (target - indices.length)).1 indices h h'
      exact ih _ _ a b r hr

omit [Field L] [Inhabited N] [DecidableEq L] [DecidableEq N] in
/-- The queries are distinct, in range, and as many as asked. -/
theorem genQueries_spec (T : Transcript τ L N) (fuel : Nat) (tr : τ) (len : Nat) (hl : 0 < len) (r : List Nat × τ)
    (h : genQueries T fuel tr len = some r) :
    r.1.Nodup ∧ r.1.length = min numQueries len ∧ ∀ q ∈ r.1, q < len :=
  have h1 := queryLoop_nodup T len _ fuel tr [] (by simp) (by simp) r h
  ⟨h1.1, h1.2, queryLoop_lt T len _ hl fuel tr [] (by simp) r h⟩

omit [Field L] [Inhabited N] [DecidableEq L] [DecidableEq N] in
/-- A codeword no longer than the number of queries is queried everywhere. -/
theorem genQueries_all (T : Transcript τ L N) (fuel : Nat) (tr : τ) (len : Nat) (hl : 0 < len) (hlen : len ≤ numQueries)
    (r : List Nat × τ) (h : genQueries T fuel tr len = some r) (q : Nat) (hq : q < len) : q ∈ r.1 := by
  obtain ⟨h1, h2, h3⟩ := genQueries_spec T fuel tr len hl r h
  have hsub : r.1.toFinset ⊆ Finset.range len := fun x hx => Finset.mem_range.mpr (h3 x (List.mem_toFinset.mp hx))
  have hcard : r.1.toFinset.card = (Finset.range len).card := by
    rw [List.toFinset_card_of_nodup h1, h2, Finset.card_range]; omega
  have := Finset.eq_of_subset_of_card_le hsub (by omega)
  exact List.mem_toFinset.mp (by rw [this]; exact Finset.mem_range.mpr hq)

end JST.Pcs
