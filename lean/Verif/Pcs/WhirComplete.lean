import Verif.Pcs.WhirForge

/-! # Proofs: an honest WHIR opening is accepted -/

namespace JST.Pcs.Whir

open JST.Merkle JST.Spec JST.Gkr

variable {K L N τ : Type} [Field K] [Field L] [Algebra K L] [Inhabited N] [DecidableEq L] [DecidableEq N]

/-- What completeness asks of the parameters: the roots of unity are roots of unity and agree, and a leaf holds a power
of two of at most 16 elements. -/
structure SetupOk (S : Setup K L N τ) (kl : Nat) : Prop where
  base : S.F.Valid
  ext : S.E.Valid
  agree : ∀ k ≤ S.F.adicity, k ≤ S.E.adicity ∧ algebraMap K L (S.F.gen k) = S.E.gen k
  pos : 0 < S.size
  leaf : perLeaf S.size = some (2 ^ kl)
  small : kl ≤ 4

omit [Inhabited N] [DecidableEq L] [DecidableEq N] [Field L] [Algebra K L] [Field K] in
theorem roundLog_eq (n cr : Nat) (h : cr < committedRounds n) : roundLog n cr = n - cr ∧ 5 ≤ n - cr ∧ 4 * (cr + 1) < n := by
  unfold committedRounds foldingFactor at h
  unfold roundLog effectiveRateLog foldingFactor rateLog
  split_ifs at h with h'
  · omega
  · omega

/-! ### Re-encoding -/

omit [DecidableEq L] in
theorem polyAt_pad (f : List L) (m : Nat) (h : f.length ≤ m) (x : L) :
    polyAt f x = ∑ t ∈ Finset.range m, f.getD t 0 * x ^ t := by
  unfold polyAt
  refine Finset.sum_subset (Finset.range_subset_range.mpr h) fun t _ ht => ?_
  rw [Finset.mem_range, not_lt] at ht
  rw [List.getD_eq_default _ _ ht, zero_mul]

theorem coeffs_spec {F : FftField K} {E : FftField L} (hE : E.Valid)
    (ha : ∀ k ≤ F.adicity, k ≤ E.adicity ∧ algebraMap K L (F.gen k) = E.gen k) (k : Nat) (hk : k ≤ 64)
    (hk' : k ≤ F.adicity) (f : List L) (hf : f.length ≤ 2 ^ k) :
    ifftInPlace E (bitReverseSlice (enc F k f)) = some (f ++ List.replicate (2 ^ k - f.length) 0) := by
  obtain ⟨a1, a2⟩ := ha k hk'
  obtain ⟨b1, b2⟩ := bitReverseSlice_spec k hk (enc F k f) (length_enc F k f)
  rw [ifftInPlace_spec hE k hk a1 _ b1]
  congr 1
  have hp := gen_prim hE k a1
  have hval : ∀ i < 2 ^ k, (bitReverseSlice (enc F k f)).getD i 0 = polyAt f (E.gen k ^ i) := by
    intro i hi
    rw [getD_eq_of_getElem? (b2 i hi), enc, getD_map_range _ _ _ _ (revBits_lt _ _), JST.Pcs.point, revBits_revBits k i hi,
      map_pow, a2]
  refine list_eq_of_getD (0 : L) (n := 2 ^ k) (by simp) (by simp; omega) fun j hj => ?_
  rw [getD_map_range _ _ _ _ hj]
  have h2 : ((2 ^ k : Nat) : L) = (1 + 1) ^ k := by push_cast; norm_num
  have hne : ((1 + 1 : L)) ^ k ≠ 0 := by
    rcases Nat.eq_zero_or_pos k with rfl | h0
    · simp
    · exact pow_ne_zero _ (prim_two_ne hp h0)
  have key := dft_inverse hp (Nat.two_pow_pos k) (fun t => f.getD t 0) j hj
  have : polyAt (bitReverseSlice (enc F k f)) ((E.gen k)⁻¹ ^ j) = (1 + 1) ^ k * f.getD j 0 := by
    rw [← h2, ← key, polyAt, b1]
    refine Finset.sum_congr rfl fun i hi => ?_
    rw [hval i (Finset.mem_range.mp hi), polyAt_pad f (2 ^ k) hf]
  rw [this, mul_comm, ← mul_assoc, inv_mul_cancel₀ hne, one_mul]
  by_cases hjf : j < f.length
  · rw [List.getD_append _ _ _ _ hjf]
  · rw [List.getD_append_right _ _ _ _ (by omega), List.getD_eq_default _ _ (by omega), List.getD_eq_getElem _ _ (by simp; omega), List.getElem_replicate]

theorem reEncode_spec {F : FftField K} {E : FftField L} (hE : E.Valid)
    (ha : ∀ k ≤ F.adicity, k ≤ E.adicity ∧ algebraMap K L (F.gen k) = E.gen k) (d old new : Nat) (h1 : d + old ≤ 64)
    (h1' : d + old ≤ F.adicity) (h2 : d + new ≤ 64) (h2' : d + new ≤ F.adicity) (f : List L) (hf : f.length = 2 ^ d) :
    reEncode E (enc F (d + old) f) old new = some (enc F (d + new) f) := by
  have hle : 2 ^ d ≤ 2 ^ (d + old) := Nat.pow_le_pow_right (by norm_num) (by omega)
  unfold reEncode
  rw [coeffs_spec hE ha (d + old) h1 h1' f (by omega), Option.bind_some]
  have hdeg : (f ++ List.replicate (2 ^ (d + old) - f.length) (0 : L)).length >>> old = 2 ^ d := by
    rw [List.length_append, List.length_replicate, hf, Nat.shiftRight_eq_div_pow, Nat.add_sub_cancel' hle, pow_add,
      Nat.mul_div_cancel _ (Nat.two_pow_pos _)]
  dsimp only
  rw [hdeg, List.take_left' hf, Nat.shiftLeft_eq]
  have k := rsEncode_spec hE new d h2 (ha _ h2').1 f hf
  unfold rsEncodeWithRate at k
  rw [if_neg (by rw [hf, Nat.log_pow (by norm_num)]; simp), hf] at k
  refine Eq.trans k ?_
  congr 1
  unfold enc
  refine List.map_congr_left fun i _ => ?_
  rw [JST.Pcs.point, JST.Pcs.point, map_pow, (ha _ h2').2]

theorem proveOod_spec {S : Setup K L N τ} {kl : Nat} (hS : SetupOk S kl) (k : Nat) (hk : k ≤ 64)
    (hk' : k ≤ S.F.adicity) (f : List L) (hf : f.length ≤ 2 ^ k) (left : Nat) : ∀ tr : τ,
    ∃ vals tr', proveOod S (enc S.F k f) left tr = some (vals, tr') ∧ vals.length = left ∧ verifyOod S.T tr vals = tr' := by
  induction left with
  | zero => intro tr; exact ⟨[], tr, rfl, rfl, rfl⟩
  | succ left ih =>
    intro tr
    rw [proveOod]
    unfold evaluateOod
    rw [coeffs_spec hS.ext hS.agree k hk hk' f hf, Option.map_some, Option.bind_some]
    obtain ⟨vals, tr', h1, h2, h3⟩ := ih (S.T.field (S.T.challenge tr).2
      ((f ++ List.replicate (2 ^ k - f.length) 0).foldl (fun (acc : L × L) c => (acc.1 + c * acc.2, acc.2 * (S.T.challenge tr).1)) (0, 1)).1)
    rw [h1]
    exact ⟨_, _, rfl, by simp [h2], h3⟩

/-! ### Trees -/

/-- A tree of `2 ^ k` leaves that opens all of them. -/
def GoodTree (h : Hash Mem N) (t : Tree Mem N) (root : N) (m : Nat) : Prop :=
  t.leaves.length = m ∧ ∀ i < m, ∃ p, indexQuery t i = some p ∧ p.verify h root = true ∧ p.index = i

theorem tree_spec {S : Setup K L N τ} {kl : Nat} (hS : SetupOk S kl) (log : Nat) (hl : 5 ≤ log) (hl' : log ≤ 64)
    (mem : List Mem) (cw : List L) (hc : cw.length = 2 ^ log) (hm : mem.length = 2 ^ log)
    (hm' : ∀ b ∈ mem, b.length = S.size) :
    ∃ t root, treeOfCodeword S mem cw = some t ∧ t.root = some root ∧
      GoodTree S.hash t root ((2 ^ log + 2 ^ kl - 1) / 2 ^ kl) := by
  have hkl := hS.small
  have hnum : (2 ^ log + 2 ^ kl - 1) / 2 ^ kl = 2 ^ (log - kl) := by
    have h1 : 2 ^ log = 2 ^ (log - kl) * 2 ^ kl := by rw [← pow_add, Nat.sub_add_cancel (by omega)]
    have h2 := Nat.two_pow_pos kl
    rw [h1, Nat.add_sub_assoc h2, Nat.mul_comm, Nat.mul_add_div h2, Nat.div_eq_of_lt (by omega), Nat.add_zero]
  have build : ∀ leaves : List Mem, leaves.length = 2 ^ (log - kl) → ∃ t root, newWithLeaves S.hash leaves = some t ∧
      t.root = some root ∧ GoodTree S.hash t root (2 ^ (log - kl)) := by
    intro leaves l2
    obtain ⟨t, t1, t2, t3⟩ := JST.Props.C24_root S.hash (log - kl) leaves l2
    refine ⟨t, _, t1, t3, by rw [t2, l2], fun i hi => ?_⟩
    obtain ⟨t', p, q1, q2, _, q4, _, q6⟩ := JST.Props.C24_opening S.hash (log - kl) (by omega) (by omega) leaves l2 i (by omega)
    obtain rfl : t' = t := Option.some.inj (q1.symm.trans t1)
    exact ⟨p, q2, q6, q4⟩
  rw [hnum]
  unfold treeOfCodeword
  have hleaf := hS.leaf
  by_cases hdiv : S.size > 0 ∧ leafBytes % S.size = 0
  · rw [if_pos hdiv]
    have hs : S.size * 2 ^ kl = leafBytes := by
      unfold perLeaf slot at hleaf
      rw [if_pos hdiv.2] at hleaf
      split_ifs at hleaf
      rw [← Option.some.inj hleaf, Nat.mul_div_cancel' (Nat.dvd_of_mod_eq_zero hdiv.2)]
    obtain ⟨leaves, l1, l2, _⟩ := leavesOf_spec S.size kl log hs (by omega) mem hm' hm
    obtain ⟨t, root, b⟩ := build leaves l2
    exact ⟨t, root, by unfold treeOf; rw [l1, Option.bind_some]; exact b.1, b.2⟩
  · rw [if_neg hdiv]
    unfold paddedLeaves
    rw [hleaf, Option.bind_some]
    dsimp only
    rw [hc, hnum, if_neg (by rw [Nat.log_pow (by norm_num)]; simp), Option.bind_some]
    exact build _ (by simp)

/-! ### Rounds -/

/-- One run of folds: the prover does not panic, its codeword stays the codeword of its table, and the verifier's claim
stays the claim about the tables. -/
theorem folds_complete {S : Setup K L N τ} {kl : Nat} (hS : SetupOk S kl) (h2 : (2 : L) ≠ 0) (rate m : Nat) (left : Nat) :
    ∀ (round : Nat) (f us : List L) (c : L) (tr : τ), m + left + rate ≤ 64 → m + left + rate ≤ S.F.adicity →
      f.length = 2 ^ (m + left) → us.length = m + left →
      ∃ msgs rs f' tr', proveFolds S left ⟨f, (List.range (2 ^ (m + left))).map fun i => c * chi us i,
          enc S.F (m + left + rate) f, m + left + rate, tr⟩ =
          some (msgs, ⟨f', (List.range (2 ^ m)).map fun i => c * eqEval rs (us.take left) * chi (us.drop left) i,
            enc S.F (m + rate) f', m + rate, tr'⟩) ∧
        msgs.length = left ∧ rs.length = left ∧ f'.length = 2 ^ m ∧
        (∀ xs : List L, xs.length = m → mle (fun i => f'.getD i 0) xs = mle (fun i => f.getD i 0) (rs ++ xs)) ∧
        ∀ all : List (RoundMsg L), (all.drop round).take left = msgs →
          verifyFolds S.T all left round (dotTables f ((List.range (2 ^ (m + left))).map fun i => c * chi us i)) tr =
            some (rs, dotTables f' ((List.range (2 ^ m)).map fun i => c * eqEval rs (us.take left) * chi (us.drop left) i), tr') := by
  induction left with
  | zero =>
    intro round f us c tr _ _ hf hu
    refine ⟨[], [], f, tr, by simp [proveFolds, eqEval], rfl, rfl, hf, fun xs _ => rfl, fun all _ => ?_⟩
    simp [verifyFolds, eqEval]
  | succ left ih =>
    intro round f us c tr h64 had hf hu
    obtain ⟨u, us, rfl⟩ : ∃ u us', us = u :: us' := by
      rcases us with _ | ⟨u, us⟩
      · simp at hu
      · exact ⟨u, us, rfl⟩
    replace hu : us.length = m + left := by simpa [← add_assoc] using hu
    set eq := (List.range (2 ^ (m + (left + 1)))).map fun i => c * chi (u :: us) i with heq
    obtain ⟨msg, hmsg⟩ : ∃ msg, msg = sumcheckMsg f eq := ⟨_, rfl⟩
    obtain ⟨rt, hrt⟩ : ∃ rt, rt = S.T.challenge (S.T.field (S.T.field tr msg.at1) msg.at2) := ⟨_, rfl⟩
    obtain ⟨r, tr1⟩ := rt
    have hfl : f.length = 2 * 2 ^ (m + left) := by rw [hf, ← add_assoc]; ring
    have heql : eq.length = 2 * 2 ^ (m + left) := by
      rw [heq, List.length_map, List.length_range, ← add_assoc]; ring
    have hfold := foldCodeword_enc (L := L) hS.base (m + left + rate) (2 ^ (m + left)) (by omega) (by omega) f hfl r
    have hflen : (foldTable f r).length = 2 ^ (m + left) := by rw [length_foldTable, hfl]; omega
    have heqf : foldTable eq r = (List.range (2 ^ (m + left))).map fun i => c * ((1 - r) * (1 - u) + r * u) * chi us i := by
      rw [heq, ← add_assoc, ← hu]; exact foldTable_chi c u us r
    have hclaim : extrapolate2 (dotTables f eq - msg.at1) msg.at1 msg.at2 r = dotTables (foldTable f r) (foldTable eq r) := by
      rw [hmsg]; exact sumcheck_round h2 f eq (2 ^ (m + left)) hfl heql r
    obtain ⟨msgs, rs, f', tr', i1, i2, i3, i4, i5, i6⟩ := ih (round + 1) (foldTable f r) us (c * ((1 - r) * (1 - u) + r * u)) tr1
      (by omega) (by omega) hflen hu
    have hc : ∀ i, c * ((1 - r) * (1 - u) + r * u) * eqEval rs (us.take left) * chi (us.drop left) i =
        c * eqEval (r :: rs) ((u :: us).take (left + 1)) * chi ((u :: us).drop (left + 1)) i := by
      intro i
      rw [List.take_succ_cons, List.drop_succ_cons, eqEval_cons]; ring
    simp only [hc] at i1 i6
    refine ⟨msg :: msgs, r :: rs, f', tr', ?_, by simp [i2], by simp [i3], i4, fun xs hxs => ?_, fun all hall => ?_⟩
    · rw [proveFolds]
      dsimp only
      rw [← hmsg, ← hrt]
      dsimp only
      rw [show m + (left + 1) + rate - 1 = m + left + rate by omega,
        show m + (left + 1) + rate = m + left + rate + 1 by omega, hfold, Option.bind_some, heqf, i1]
      rfl
    · rw [i5 xs hxs, mle_foldTable f r (rs ++ xs) (by rw [hf, List.length_append, i3, hxs]; congr 1; omega)]; rfl
    · have hlt : round < all.length := by
        by_contra hn
        rw [List.drop_eq_nil_of_le (by omega)] at hall
        simp at hall
      rw [List.drop_eq_getElem_cons hlt, List.take_succ_cons, List.cons.injEq] at hall
      rw [verifyFolds, List.getElem?_eq_getElem hlt, hall.1, Option.bind_some]
      dsimp only
      rw [← hrt]
      dsimp only
      rw [hclaim, heqf, i6 all hall.2]
      rfl

omit [Inhabited N] [DecidableEq L] [DecidableEq N] in
theorem enc_const (F : FftField K) (log : Nat) (v : L) : enc F log [v] = List.replicate (2 ^ log) v := by
  unfold enc
  rw [List.eq_replicate_iff]
  refine ⟨by simp, fun x hx => ?_⟩
  obtain ⟨i, _, rfl⟩ := List.mem_map.mp hx
  simp [polyAt]

/-- All rounds. -/
theorem rounds_complete {S : Setup K L N τ} {kl : Nat} (hS : SetupOk S kl) (h2 : (2 : L) ≠ 0) (n : Nat) (h64 : n + 1 ≤ 64)
    (had : n + 1 ≤ S.F.adicity) (mem : Nat → List L → List Mem)
    (hmem : ∀ round cw, (mem round cw).length = cw.length ∧ ∀ b ∈ mem round cw, b.length = S.size) (left : Nat) :
    ∀ (cr : Nat) (f us : List L) (c : L) (tr : τ), cr + left = committedRounds n → f.length = 2 ^ (n - 4 * cr) →
      us.length = n - 4 * cr →
      ∃ (run : Run L N τ) (rs : List L) (v : L),
        proveRounds S mem n left cr (4 * cr) (1 + 3 * cr) ⟨f, (List.range (2 ^ (n - 4 * cr))).map fun i => c * chi us i,
          enc S.F (n - 4 * cr + (1 + 3 * cr)) f, n - 4 * cr + (1 + 3 * cr), tr⟩ = some run ∧
        run.messages.length = n - 4 * cr ∧ rs.length = n - 4 * cr ∧ v = mle (fun i => f.getD i 0) rs ∧
        run.final = List.replicate (2 ^ (1 + 3 * (cr + left))) v ∧ run.rounds.length = left ∧
        (∀ j x, run.rounds[j]? = some x → x.2.2.length = 2 ∧ GoodTree S.hash x.2.1 x.1 (numLeaves n (2 ^ kl) (cr + j))) ∧
        ∀ op : Opening L N, op.messages.drop (4 * cr) = run.messages → op.finalPoly = run.final →
          (∀ j < left, op.commitments[cr + j]? = (run.rounds[j]?).map (·.1)) →
          (∀ j < left, op.ood[cr + j]? = (run.rounds[j]?).map (·.2.2)) →
          (∀ j < left, op.nonces[cr + j]? = some 0) →
          verifyRounds S.T op n left cr (4 * cr) (dotTables f ((List.range (2 ^ (n - 4 * cr))).map fun i => c * chi us i)) tr =
            some (some (rs, v * (c * eqEval rs us), run.tr)) := by
  induction left with
  | zero =>
    intro cr f us c tr hcr hf hu
    have hr := rounds_le n
    obtain ⟨msgs, rs, f', tr', i1, i2, i3, i4, i5, i6⟩ := folds_complete hS h2 (1 + 3 * cr) 0 (n - 4 * cr) (4 * cr) f us c tr (by omega)
      (by omega) (by rw [hf, Nat.zero_add]) (by omega)
    rw [Nat.zero_add] at i1 i6
    obtain ⟨x, rfl⟩ : ∃ x, f' = [x] := List.length_eq_one_iff.mp (by simpa using i4)
    have hx : x = mle (fun i => f.getD i 0) rs := by
      have := i5 [] rfl
      rw [List.append_nil] at this
      rw [← this]; simp [mle_nil]
    refine ⟨_, rs, x, by rw [proveRounds, i1]; rfl, by rw [i2], i3, hx, ?_, rfl, fun j x hj => by simp at hj, fun op o1 o2 _ _ _ => ?_⟩
    · dsimp only; rw [enc_const, Nat.zero_add, Nat.add_zero]
    · rw [verifyRounds, i6 op.messages (by rw [o1, ← i2, List.take_length]), o2]
      dsimp only
      rw [Option.map_some]
      dsimp only
      have : us.drop (n - 4 * cr) = [] := List.drop_eq_nil_of_le (by omega)
      have ht : us.take (n - 4 * cr) = us := List.take_of_length_le (by omega)
      rw [this, ht]
      simp [dotTables, chi]
  | succ left ih =>
    intro cr f us c tr hcr hf hu
    obtain ⟨hlog, h5, hlt⟩ := roundLog_eq n cr (by omega)
    set m := n - 4 * (cr + 1) with hm
    have hm4 : n - 4 * cr = m + 4 := by omega
    rw [hm4] at hf hu
    obtain ⟨msgs, rs, f', tr1, i1, i2, i3, i4, i5, i6⟩ := folds_complete hS h2 (1 + 3 * cr) m 4 (4 * cr) f us c tr (by omega)
      (by omega) hf hu
    have hrate : effectiveRateLog cr = 1 + 3 * (cr + 1) := by unfold effectiveRateLog rateLog foldingFactor; ring
    have hre := reEncode_spec (F := S.F) hS.ext hS.agree m (1 + 3 * cr) (1 + 3 * (cr + 1)) (by omega) (by omega) (by omega) (by omega) f' i4
    obtain ⟨mm1, mm2⟩ := hmem cr (enc S.F (m + (1 + 3 * (cr + 1))) f')
    obtain ⟨t, root, t1, t2, t3⟩ := tree_spec hS (m + (1 + 3 * (cr + 1))) (by omega) (by omega)
      (mem cr (enc S.F (m + (1 + 3 * (cr + 1))) f')) (enc S.F (m + (1 + 3 * (cr + 1))) f') (length_enc _ _ _)
      (by rw [mm1, length_enc]) mm2
    obtain ⟨vals, tr2, o1, o2, o3⟩ := proveOod_spec hS (m + (1 + 3 * (cr + 1))) (by omega) (by omega) f'
      (by rw [i4]; exact Nat.pow_le_pow_right (by norm_num) (by omega)) 2 (S.T.node tr1 root)
    obtain ⟨run, rs', v, j1, j2, j3, j4, j5, j6, j7, j8⟩ := ih (cr + 1) f' (us.drop 4) (c * eqEval rs (us.take 4)) tr2 (by omega)
      i4 (by rw [List.length_drop]; omega)
    rw [← hm] at j1 j2 j3 j8
    refine ⟨⟨msgs ++ run.messages, (root, t, vals) :: run.rounds, run.final, run.tr⟩, rs ++ rs', v, ?_, ?_, ?_, ?_, ?_, ?_, ?_, ?_⟩
    · rw [hm4, proveRounds, show foldingFactor = 4 from rfl, i1, Option.bind_some]
      dsimp only
      rw [hrate, hre, Option.bind_some, t1, Option.bind_some, t2, Option.bind_some, show oodSamples = 2 from rfl, o1,
        Option.bind_some]
      dsimp only
      rw [show 4 * cr + 4 = 4 * (cr + 1) by ring, ← hm, j1]
      rfl
    · dsimp only; rw [List.length_append, i2, j2]; omega
    · rw [List.length_append, i3, j3]; omega
    · rw [j4, i5 rs' j3]
    · dsimp only; rw [j5]; congr 2; omega
    · simp [j6]
    · intro j x hx
      cases j with
      | zero =>
        rw [List.getElem?_cons_zero] at hx
        rw [← Option.some.inj hx]
        refine ⟨o2, ?_⟩
        unfold numLeaves
        rw [Nat.add_zero, show roundLog n cr = m + (1 + 3 * (cr + 1)) by omega]
        exact t3
      | succ j =>
        rw [List.getElem?_cons_succ] at hx
        rw [show cr + (j + 1) = cr + 1 + j by omega]
        exact j7 j x hx
    · intro op p1 p2 p3 p4 p5
      dsimp only at p1 p2 p3 p4
      have hd : op.messages.drop (4 * (cr + 1)) = run.messages := by
        rw [show 4 * (cr + 1) = 4 * cr + 4 by ring, ← List.drop_drop, p1, List.drop_left' i2]
      have ht : (op.messages.drop (4 * cr)).take 4 = msgs := by rw [p1, List.take_left' i2]
      rw [hm4, verifyRounds, show foldingFactor = 4 from rfl, i6 op.messages ht, Option.bind_some]
      have q3 := p3 0 (by omega)
      have q4 := p4 0 (by omega)
      have q5 := p5 0 (by omega)
      simp only [Nat.add_zero, List.getElem?_cons_zero, Option.map_some] at q3 q4 q5
      rw [q3, Option.bind_some, q4, Option.bind_some, if_neg (by simp [o2, oodSamples]), q5, Option.bind_some]
      dsimp only
      rw [o3, show 4 * cr + 4 = 4 * (cr + 1) by ring, j8 op hd p2 ?_ ?_ ?_]
      · simp only [Option.map_some, Option.some.injEq, Prod.mk.injEq, true_and, and_true]
        have key : ∀ (a b x y : List L), a.length = b.length → eqEval a b * eqEval x y = eqEval (a ++ x) (b ++ y) := by
          intro a
          induction a with
          | nil => intro b x y h; rw [List.length_eq_zero_iff.mp h.symm]; simp [eqEval]
          | cons p a ih =>
            intro b x y h
            cases b with
            | nil => simp at h
            | cons q b =>
              rw [List.cons_append, List.cons_append, eqEval_cons, eqEval_cons, mul_assoc, ih b x y (by simpa using h)]
        have h4 : (us.take 4).length = 4 := by rw [List.length_take]; omega
        have := key rs (us.take 4) rs' (us.drop 4) (by rw [i3, h4])
        rw [List.take_append_drop] at this
        rw [← this]; ring
      · intro j hj
        have := p3 (j + 1) (by omega)
        rwa [List.getElem?_cons_succ, show cr + (j + 1) = cr + 1 + j by omega] at this
      · intro j hj
        have := p4 (j + 1) (by omega)
        rwa [List.getElem?_cons_succ, show cr + (j + 1) = cr + 1 + j by omega] at this
      · intro j hj
        have := p5 (j + 1) (by omega)
        rwa [show cr + (j + 1) = cr + 1 + j by omega] at this

/-! ### Paths -/

theorem paths_complete {S : Setup K L N τ} {kl : Nat} (hS : SetupOk S kl) (fuel n : Nat)
    (hq : ∀ tr len count, 0 < len → ∃ r, genQueries S.T fuel tr len count = some r) (rounds : List (N × Tree Mem N × List L)) :
    ∀ (cr : Nat) (tr : τ),
      (∀ j x, rounds[j]? = some x → GoodTree S.hash x.2.1 x.1 (numLeaves n (2 ^ kl) (cr + j))) →
      ∃ ps, openPaths S fuel (rounds.map (·.2.1)) cr tr = some ps ∧ ps.length = rounds.length ∧
        ∀ op : Opening L N, (∀ j < rounds.length, op.commitments[cr + j]? = (rounds[j]?).map (·.1)) →
          (∀ j < rounds.length, op.queries[cr + j]? = ps[j]?) →
          verifyPaths S fuel n op rounds.length cr tr = some true := by
  induction rounds with
  | nil => intro cr tr _; exact ⟨[], rfl, rfl, fun op _ _ => rfl⟩
  | cons x rounds ih =>
    intro cr tr hg
    obtain ⟨g1, g2⟩ := hg 0 x rfl
    rw [Nat.add_zero] at g1 g2
    have hpos : 0 < numLeaves n (2 ^ kl) cr := by
      unfold numLeaves
      refine Nat.div_pos ?_ (Nat.two_pow_pos _)
      have := Nat.two_pow_pos (roundLog n cr)
      omega
    obtain ⟨r, hr⟩ := hq tr (numLeaves n (2 ^ kl) cr) (S.queries cr) hpos
    have hlt : ∀ q ∈ r.1, q < numLeaves n (2 ^ kl) cr := by
      unfold genQueries at hr
      rw [if_neg (by omega)] at hr
      exact queryLoop_lt S.T _ _ hpos fuel tr [] (by simp) r hr
    obtain ⟨ps, p1, p2, p3⟩ := ih (cr + 1) r.2 (fun j y hy => by
      have := hg (j + 1) y (by rw [List.getElem?_cons_succ]; exact hy)
      rwa [show cr + (j + 1) = cr + 1 + j by omega] at this)
    have hmap : ∀ qs : List Nat, (∀ q ∈ qs, q < numLeaves n (2 ^ kl) cr) → ∃ l, qs.mapM (indexQuery x.2.1) = some l ∧
        l.length = qs.length ∧ pathsOk S.hash x.1 l qs = true := by
      intro qs
      induction qs with
      | nil => intro _; exact ⟨[], rfl, rfl, rfl⟩
      | cons q qs ihq =>
        intro hqs
        obtain ⟨l, l1, l2, l3⟩ := ihq fun a ha => hqs a (by simp [ha])
        obtain ⟨p, e1, e2, e3⟩ := g2 q (hqs q (by simp))
        refine ⟨p :: l, ?_, by simp [l2], ?_⟩
        · rw [List.mapM_cons, e1, l1]; rfl
        · unfold pathsOk at l3 ⊢
          rw [List.zip_cons_cons, List.all_cons, l3, e2, e3]; simp
    obtain ⟨l, l1, l2, l3⟩ := hmap r.1 hlt
    refine ⟨l :: ps, ?_, by simp [p2], fun op hc hp => ?_⟩
    · rw [List.map_cons, openPaths, g1, hr, Option.bind_some, l1, Option.bind_some, p1]; rfl
    · have hc0 := hc 0 (by simp)
      have hp0 := hp 0 (by simp)
      simp only [Nat.add_zero, List.getElem?_cons_zero, Option.map_some] at hc0 hp0
      rw [List.length_cons, verifyPaths, hS.leaf, Option.bind_some, hr, Option.bind_some, hp0, Option.bind_some, hc0,
        Option.bind_some, if_neg (by simp [l2]), if_pos l3]
      refine p3 op (fun j hj => ?_) fun j hj => ?_
      · have := hc (j + 1) (by simpa using hj)
        rwa [List.getElem?_cons_succ, show cr + (j + 1) = cr + 1 + j by omega] at this
      · have := hp (j + 1) (by simpa using hj)
        rwa [List.getElem?_cons_succ, show cr + (j + 1) = cr + 1 + j by omega] at this

/-- Completeness. -/
theorem complete {S : Setup K L N τ} {kl : Nat} (hS : SetupOk S kl) (h2 : (2 : L) ≠ 0) (fuel n : Nat) (h1 : 1 ≤ n)
    (h64 : n + 1 < 64) (had : n + 1 ≤ S.F.adicity)
    (hq : ∀ tr len count, 0 < len → ∃ r, genQueries S.T fuel tr len count = some r)
    (mem : Nat → List L → List Mem)
    (hmem : ∀ round cw, (mem round cw).length = cw.length ∧ ∀ b ∈ mem round cw, b.length = S.size)
    (evals : List L) (he : evals.length = 2 ^ n) (point : List L) (hp : point.length = n) (root : N) (tr : τ) :
    ∃ op, openWhir S fuel mem evals (enc S.F (n + 1) evals) root n point tr = some op ∧
      verify S fuel ⟨root, n⟩ point (mle (fun i => evals.getD i 0) point) op tr = some true := by
  obtain ⟨run, rs, v, i1, i2, i3, i4, i5, i6, i7, i8⟩ := rounds_complete hS h2 n (by omega) had mem hmem (committedRounds n) 0 evals point 1
    (S.T.node tr root) (by omega) (by simpa using he) (by simpa using hp)
  simp only [Nat.mul_zero, Nat.sub_zero, Nat.add_zero, Nat.zero_add, one_mul] at i1 i2 i3 i5 i7 i8
  have heq : buildEqTable point = (List.range (2 ^ n)).map (chi point) := by rw [buildEqTable_spec, hp]
  have hdot := dot_chi evals point (by rw [he, hp])
  rw [hp] at hdot
  have hz : (List.range (2 ^ n)).map (fun i => chi point i) = (List.range (2 ^ n)).map (chi point) := rfl
  rw [hz] at i1 i8
  rw [hdot] at i8
  set tr2 := (if run.rounds.length = 0 then S.T.node run.tr root else run.tr) with htr2
  obtain ⟨ps, p1, p2, p3⟩ := paths_complete hS fuel n hq run.rounds 0 tr2 (fun j x hx => by
    rw [Nat.zero_add]; exact (i7 j x hx).2)
  set op : Opening L N := ⟨run.rounds.map (·.1), run.messages, run.rounds.map (·.2.2), run.rounds.map fun _ => 0, run.final, ps⟩ with hop
  have hcl : op.commitments.length = committedRounds n := by simp [hop, i6]
  have hfin : finalLen n = 2 ^ (1 + 3 * committedRounds n) := by
    unfold finalLen effectiveRateLog rateLog foldingFactor
    congr 1
    split_ifs with hc
    · omega
    · omega
  refine ⟨op, ?_, ?_⟩
  · unfold openWhir
    rw [if_neg (by rintro (h | h); exact h hp; exact h he), heq, show n + rateLog = n + 1 from rfl, show rateLog = 1 from rfl,
      i1, Option.bind_some]
    dsimp only
    rw [← htr2, p1]
    rfl
  · unfold verify
    rw [if_neg]
    · dsimp only
      rw [i8 op (by rw [List.drop_zero]) rfl (fun j _ => by simp only [hop, List.getElem?_map])
        (fun j _ => by simp only [hop, List.getElem?_map])
        (fun j hj => by simp only [hop]; rw [List.getElem?_map, List.getElem?_eq_getElem (by omega)]; rfl), Option.bind_some]
      dsimp only
      unfold verifyEnd
      have hf : op.finalPoly = v :: List.replicate (2 ^ (1 + 3 * committedRounds n) - 1) v := by
        show run.final = _
        rw [i5, ← List.replicate_succ]
        congr 1
        have := Nat.two_pow_pos (1 + 3 * committedRounds n)
        omega
      rw [hf]
      dsimp only
      rw [if_neg (by simp), if_neg (by omega), if_neg (by simp)]
      have hcr : op.commitments.length = run.rounds.length := by simp [hop]
      rw [hcr, ← htr2]
      exact p3 op (fun j _ => by rw [Nat.zero_add]; simp only [hop, List.getElem?_map]) fun j _ => by rw [Nat.zero_add]
    · unfold shapeOk
      have : op.finalPoly.length = finalLen n := by rw [hfin]; show run.final.length = _; rw [i5]; simp
      have a1 : op.messages.length = n := i2
      have a2 : op.queries.length = committedRounds n := by rw [← i6, ← p2]
      have a3 : op.ood.length = committedRounds n := by simp [hop, i6]
      have a4 : op.nonces.length = committedRounds n := by simp [hop, i6]
      rw [this, hcl, a1, a2, a3, a4, hp]
      have b1 : n ≠ 0 := by omega
      have b2 : n + rateLog < 64 := h64
      simp [b1, b2]

end JST.Pcs.Whir
