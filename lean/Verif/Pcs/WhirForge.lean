import Verif.Pcs.Whir
import Verif.Pcs.BasefoldTotal

/-! # Proofs: the verifier of WHIR does not panic and accepts every value for every commitment -/

namespace JST.Pcs.Whir

open JST.Merkle JST.Spec

variable {K L N τ : Type} [Field K] [Field L] [Algebra K L] [DecidableEq L] [DecidableEq N]

/-! ### Trees whose leaves are all the same -/

/-- The nodes of the uniform tree over `leaf`, from the leaf's digest up. -/
def level (h : Hash Mem N) (leaf : Mem) : Nat → N
  | 0 => h.leaf leaf
  | d + 1 => h.node (level h leaf d) (level h leaf d)

/-- A path of the uniform tree of depth `d`. -/
def uniformPath (h : Hash Mem N) (leaf : Mem) (d index : Nat) : Path Mem N :=
  ⟨leaf, ((List.range d).map (level h leaf)).reverse, index⟩

omit [DecidableEq N] in
theorem hashUp_uniform (h : Hash Mem N) (leaf : Mem) (index k : Nat) : ∀ (i j : Nat),
    hashUp h index i (level h leaf j) ((List.range' j k).map (level h leaf)) = level h leaf (j + k) := by
  induction k with
  | zero => intro i j; rfl
  | succ k ih =>
    intro i j
    rw [List.range'_succ, List.map_cons]
    show hashUp h index (i + 1) (if _ then _ else _) _ = _
    rw [show (if index / 2 ^ (i % 64) % 2 ≠ 0 then h.node (level h leaf j) (level h leaf j)
      else h.node (level h leaf j) (level h leaf j)) = level h leaf (j + 1) from ite_self _]
    rw [ih (i + 1) (j + 1)]
    congr 1; omega

theorem uniformPath_verify (h : Hash Mem N) (leaf : Mem) (d index : Nat) :
    (uniformPath h leaf d index).verify h (level h leaf d) = true := by
  unfold Path.verify Path.root uniformPath
  dsimp only
  rw [List.reverse_reverse, List.range_eq_range', ← Nat.zero_add d, decide_eq_true_eq]
  have k := hashUp_uniform h leaf index d 0 0
  rw [Nat.zero_add] at k ⊢
  exact k

/-! ### The messages of a constant polynomial -/

omit [DecidableEq L] in
theorem eq_step (c u r : L) :
    extrapolate2 (c - c * u) (c * u) (c * (3 * u - 1)) r = c * ((1 - r) * (1 - u) + r * u) := by
  unfold extrapolate2
  have : c * (3 * u - 1) - c * u - c * u + (c - c * u) = 0 := by ring
  dsimp only
  rw [this]; ring

omit [DecidableEq L] [DecidableEq N] in
theorem folds_forge (T : Transcript τ L N) (us : List L) : ∀ (round : Nat) (c : L) (tr : τ),
    ∃ (msgs : List (RoundMsg L)) (chs : List L) (tr' : τ), msgs.length = us.length ∧ chs.length = us.length ∧
      ∀ all : List (RoundMsg L), (all.drop round).take us.length = msgs →
        verifyFolds T all us.length round c tr = some (chs, c * eqEval chs us, tr') := by
  induction us with
  | nil => intro round c tr; exact ⟨[], [], tr, rfl, rfl, fun all _ => by simp [verifyFolds, eqEval]⟩
  | cons u us ih =>
    intro round c tr
    set ch := T.challenge (T.field (T.field tr (c * u)) (c * (3 * u - 1))) with hch
    obtain ⟨msgs, chs, tr', h1, h2, h3⟩ := ih (round + 1) (c * ((1 - ch.1) * (1 - u) + ch.1 * u)) ch.2
    refine ⟨⟨c * u, c * (3 * u - 1)⟩ :: msgs, ch.1 :: chs, tr', by simp [h1], by simp [h2], fun all hall => ?_⟩
    have hlt : round < all.length := by
      by_contra hn
      rw [List.drop_eq_nil_of_le (by omega)] at hall
      simp at hall
    rw [List.drop_eq_getElem_cons hlt, List.length_cons, List.take_succ_cons, List.cons.injEq] at hall
    rw [List.length_cons, verifyFolds, List.getElem?_eq_getElem hlt, hall.1]
    show (verifyFolds T all us.length (round + 1) (extrapolate2 (c - c * u) (c * u) (c * (3 * u - 1)) ch.1) ch.2).map _ = _
    rw [eq_step, h3 all hall.2, eqEval_cons, ← mul_assoc]
    rfl

/-- The opening after round `cr`: what the verifier's loop reads. -/
theorem rounds_forge (T : Transcript τ L N) (n : Nat) (fin : List L) (roots : Nat → N) (left : Nat) :
    ∀ (cr done : Nat) (us : List L) (c : L) (tr : τ), done + us.length = n → 4 * left ≤ us.length →
    ∃ (msgs : List (RoundMsg L)) (chs : List L) (tr' : τ), msgs.length = us.length ∧ chs.length = us.length ∧
      ∀ op : Opening L N, op.messages.drop done = msgs → op.finalPoly = fin →
        (∀ j, cr ≤ j → j < cr + left → op.commitments[j]? = some (roots j)) →
        (∀ j, cr ≤ j → j < cr + left → op.ood[j]? = some [0, 0]) →
        (∀ j, cr ≤ j → j < cr + left → op.nonces[j]? = some 0) →
        verifyRounds T op n left cr done c tr = some (some (chs, c * eqEval chs us, tr')) := by
  induction left with
  | zero =>
    intro cr done us c tr hn hl
    obtain ⟨msgs, chs, tr', h1, h2, h3⟩ := folds_forge T us done c tr
    refine ⟨msgs, chs, fin.foldl T.field tr', h1, h2, fun op hm hf _ _ _ => ?_⟩
    rw [verifyRounds, show n - done = us.length by omega, h3 op.messages (by rw [hm, List.take_of_length_le h1.le]), hf]
    rfl
  | succ left ih =>
    intro cr done us c tr hn hl
    obtain ⟨m1, c1, t1, h1, h2, h3⟩ := folds_forge T (us.take 4) done c tr
    have hlen : (us.take 4).length = 4 := by rw [List.length_take]; omega
    obtain ⟨m2, c2, t2, g1, g2, g3⟩ := ih (cr + 1) (done + 4) (us.drop 4) (c * eqEval c1 (us.take 4))
      (verifyOod T (T.node t1 (roots cr)) [0, 0]) (by rw [List.length_drop]; omega) (by rw [List.length_drop]; omega)
    refine ⟨m1 ++ m2, c1 ++ c2, t2, ?_, ?_, fun op hm hf hc ho hp => ?_⟩
    · rw [List.length_append, h1, g1, hlen, List.length_drop]; omega
    · rw [List.length_append, h2, g2, hlen, List.length_drop]; omega
    · have hd : op.messages.drop (done + 4) = m2 := by
        rw [← List.drop_drop, hm, List.drop_left' (by rw [h1, hlen])]
      have ht : (op.messages.drop done).take 4 = m1 := by rw [hm, List.take_left' (by rw [h1, hlen])]
      rw [hlen] at h3
      rw [verifyRounds, show foldingFactor = 4 from rfl, h3 op.messages ht, Option.bind_some, hc cr le_rfl (by omega),
        Option.bind_some, ho cr le_rfl (by omega), Option.bind_some]
      rw [if_neg (by simp [oodSamples]), hp cr le_rfl (by omega), Option.bind_some]
      rw [g3 op hd hf (fun j a b => hc j (by omega) (by omega)) (fun j a b => ho j (by omega) (by omega))
        (fun j a b => hp j (by omega) (by omega))]
      simp only [Option.map_some, Option.some.injEq, Prod.mk.injEq, true_and, and_true]
      rw [mul_assoc]
      congr 1
      have key : ∀ (a b x y : List L), a.length = b.length → eqEval a b * eqEval x y = eqEval (a ++ x) (b ++ y) := by
        intro a
        induction a with
        | nil => intro b x y h; rw [List.length_eq_zero_iff.mp h.symm]; simp [eqEval]
        | cons p a ih =>
          intro b x y h
          cases b with
          | nil => simp at h
          | cons q b =>
            rw [List.cons_append, List.cons_append, eqEval_cons, eqEval_cons, mul_assoc, ih b x y (by simpa using h)]
      rw [key _ _ _ _ h2, List.take_append_drop]

/-! ### The paths -/

theorem paths_forge (S : Setup K L N τ) (fuel n epl : Nat) (hepl : perLeaf S.size = some epl) (he : 0 < epl) (leaf : Mem)
    (d : Nat → Nat) (hq : ∀ tr len count, 0 < len → ∃ r, genQueries S.T fuel tr len count = some r) (left : Nat) :
    ∀ (cr : Nat) (tr : τ), ∃ qs : List (List Nat), qs.length = left ∧
      ∀ op : Opening L N,
        (∀ j < left, op.commitments[cr + j]? = some (level S.hash leaf (d (cr + j)))) →
        (∀ j (h : j < qs.length), op.queries[cr + j]? = some (qs[j].map (uniformPath S.hash leaf (d (cr + j))))) →
        verifyPaths S fuel n op left cr tr = some true := by
  induction left with
  | zero => intro cr tr; exact ⟨[], rfl, fun op _ _ => rfl⟩
  | succ left ih =>
    intro cr tr
    have hpos : 0 < numLeaves n epl cr := by
      unfold numLeaves
      refine Nat.div_pos ?_ he
      have := Nat.two_pow_pos (roundLog n cr)
      omega
    obtain ⟨r, hr⟩ := hq tr (numLeaves n epl cr) (S.queries cr) hpos
    obtain ⟨qs, h1, h2⟩ := ih (cr + 1) r.2
    refine ⟨r.1 :: qs, by simp [h1], fun op hc hp => ?_⟩
    have hc0 := hc 0 (by omega)
    have hp0 := hp 0 (by simp)
    rw [Nat.add_zero] at hc0 hp0
    rw [verifyPaths, hepl, Option.bind_some, hr, Option.bind_some, hp0, Option.bind_some, hc0, Option.bind_some]
    rw [if_neg (by simp), if_pos]
    · refine h2 op (fun j hj => ?_) fun j hj => ?_
      · have := hc (j + 1) (by omega)
        rwa [show cr + (j + 1) = cr + 1 + j by omega] at this
      · have := hp (j + 1) (by simpa using hj)
        rwa [show cr + (j + 1) = cr + 1 + j by omega] at this
    · unfold pathsOk
      rw [List.all_eq_true]
      intro p hp
      rw [List.getElem_cons_zero, List.zip_map_left] at hp
      obtain ⟨⟨a, b⟩, hab, rfl⟩ := List.mem_map.mp hp
      have hab' : a = b := by
        have key : ∀ (l : List Nat) (x : Nat × Nat), x ∈ l.zip l → x.1 = x.2 := by
          intro l x hx
          induction l with
          | nil => simp at hx
          | cons y l ih =>
            rw [List.zip_cons_cons, List.mem_cons] at hx
            rcases hx with rfl | hx
            · rfl
            · exact ih hx
        exact key _ _ hab
      show ((uniformPath S.hash leaf (d cr) a).verify S.hash (level S.hash leaf (d cr)) && decide (a = b)) = true
      rw [uniformPath_verify, hab']; simp

omit [DecidableEq L] [DecidableEq N] [Field L] in
theorem rounds_le (n : Nat) : 4 * committedRounds n ≤ n := by
  unfold committedRounds foldingFactor
  split_ifs <;> omega

/-- For every commitment, every point and every value there is an opening that the verifier accepts, whatever the
transcript answers. The depths `d` of the trees of the opening are arbitrary. -/
theorem forge (S : Setup K L N τ) (fuel : Nat) (hsize : ∃ epl, 0 < epl ∧ perLeaf S.size = some epl)
    (hq : ∀ tr len count, 0 < len → ∃ r, genQueries S.T fuel tr len count = some r) (leaf : Mem) (d : Nat → Nat)
    (com : Commitment N) (point : List L) (v : L) (hn : 1 ≤ com.numVars) (hn' : com.numVars ≤ 62)
    (hp : point.length = com.numVars) (tr : τ) :
    ∃ op : Opening L N, verify S fuel com point v op tr = some true ∧
      (∀ cr ps, op.queries[cr]? = some ps → ∀ p ∈ ps, p.leaf = leaf ∧ p.pathNodes.length = d cr) ∧
      op.finalPoly = List.replicate (finalLen com.numVars) v := by
  obtain ⟨epl, he, hepl⟩ := hsize
  set n := com.numVars with hnd
  set c := committedRounds n with hc
  obtain ⟨msgs, chs, t1, h1, h2, h3⟩ := rounds_forge S.T n (List.replicate (finalLen n) v) (fun j => level S.hash leaf (d j)) c 0 0 point
    v (S.T.node tr com.root) (by omega) (by rw [hp]; exact rounds_le n)
  obtain ⟨qs, g1, g2⟩ := paths_forge S fuel n epl hepl he leaf d hq c 0 (if c = 0 then S.T.node t1 com.root else t1)
  set op : Opening L N := ⟨(List.range c).map fun j => level S.hash leaf (d j), msgs, List.replicate c [0, 0],
    List.replicate c 0, List.replicate (finalLen n) v, (qs.zipIdx).map fun q => q.1.map (uniformPath S.hash leaf (d q.2))⟩ with hop
  have hfin : 0 < finalLen n := Nat.two_pow_pos _
  have hqs : ∀ j (h : j < qs.length), op.queries[j]? = some (qs[j].map (uniformPath S.hash leaf (d j))) := by
    intro j hj
    simp only [hop, List.getElem?_map, List.getElem?_zipIdx, List.getElem?_eq_getElem hj, Option.map_some, Nat.zero_add]
  refine ⟨op, ?_, ?_, rfl⟩
  · unfold verify
    rw [if_neg]
    · rw [← hnd, h3 op (by rw [List.drop_zero]) rfl
        (fun j _ hj => by simp only [hop]; rw [List.getElem?_map, List.getElem?_range (by omega)]; rfl)
        (fun j _ hj => by simp only [hop]; rw [List.getElem?_replicate, if_pos (by omega)])
        (fun j _ hj => by simp only [hop]; rw [List.getElem?_replicate, if_pos (by omega)])]
      show verifyEnd S fuel com point op (chs, v * eqEval chs point, t1) = some true
      unfold verifyEnd
      have hf : op.finalPoly = v :: List.replicate (finalLen n - 1) v := by
        show List.replicate (finalLen n) v = _
        rw [← List.replicate_succ]; congr 1; omega
      have hcl : op.commitments.length = c := by simp [hop]
      rw [hf]
      dsimp only
      rw [if_neg (by simp), if_neg (by rw [h2]; simp), if_neg (by simp), hcl, ← hnd]
      refine g2 op (fun j hj => ?_) fun j hj => ?_
      · rw [Nat.zero_add]; simp only [hop]; rw [List.getElem?_map, List.getElem?_range (by omega)]; rfl
      · rw [Nat.zero_add]; exact hqs j hj
    · unfold shapeOk
      simp [hop, ← hnd, hp, h1, g1, ← hc, rateLog]
      omega
  · intro cr ps hps p hpm
    have hlt : cr < qs.length := by
      by_contra hcon
      rw [List.getElem?_eq_none (by simp [hop]; omega)] at hps
      exact absurd hps (by simp)
    rw [hqs cr hlt] at hps
    rw [← Option.some.inj hps] at hpm
    obtain ⟨q, _, rfl⟩ := List.mem_map.mp hpm
    exact ⟨rfl, by simp [uniformPath]⟩

/-! ### Totality -/

omit [DecidableEq L] [DecidableEq N] in
theorem verifyFolds_total (T : Transcript τ L N) (msgs : List (RoundMsg L)) (left : Nat) : ∀ (round : Nat) (c : L) (tr : τ),
    round + left ≤ msgs.length → ∃ r, verifyFolds T msgs left round c tr = some r ∧ r.1.length = left := by
  induction left with
  | zero => intro round c tr _; exact ⟨_, rfl, rfl⟩
  | succ left ih =>
    intro round c tr h
    rw [verifyFolds, List.getElem?_eq_getElem (by omega), Option.bind_some]
    obtain ⟨r, hr, hl⟩ := ih (round + 1) _ _ (by omega)
    dsimp only
    exact ⟨_, by rw [hr]; rfl, by simp [hl]⟩

omit [DecidableEq L] [DecidableEq N] in
theorem verifyRounds_total (T : Transcript τ L N) (op : Opening L N) (n : Nat) (hm : op.messages.length = n) (left : Nat) :
    ∀ (cr done : Nat) (c : L) (tr : τ), done + 4 * left ≤ n → cr + left ≤ op.commitments.length →
      cr + left ≤ op.ood.length → cr + left ≤ op.nonces.length →
      ∃ r, verifyRounds T op n left cr done c tr = some r ∧ ∀ s, r = some s → s.1.length = n - done := by
  induction left with
  | zero =>
    intro cr done c tr h _ _ _
    obtain ⟨r, hr, hl⟩ := verifyFolds_total T op.messages (n - done) done c tr (by omega)
    rw [verifyRounds, hr]
    exact ⟨_, rfl, fun s hs => by rw [← Option.some.inj hs]; exact hl⟩
  | succ left ih =>
    intro cr done c tr h h1 h2 h3
    obtain ⟨r, hr, hl⟩ := verifyFolds_total T op.messages 4 done c tr (by omega)
    rw [verifyRounds, show foldingFactor = 4 from rfl, hr, Option.bind_some, List.getElem?_eq_getElem (by omega),
      Option.bind_some, List.getElem?_eq_getElem (by omega), Option.bind_some]
    by_cases hv : (op.ood[cr]'(by omega)).length ≠ oodSamples
    · rw [if_pos hv]; exact ⟨none, rfl, fun s hs => by simp at hs⟩
    · rw [if_neg hv, List.getElem?_eq_getElem (by omega), Option.bind_some]
      obtain ⟨r', hr', hl'⟩ := ih (cr + 1) (done + 4) r.2.1
        (verifyOod T (T.node r.2.2 (op.commitments[cr]'(by omega))) (op.ood[cr]'(by omega))) (by omega) (by omega) (by omega) (by omega)
      rw [hr']
      refine ⟨_, rfl, fun s hs => ?_⟩
      cases r' with
      | none => simp at hs
      | some s' =>
        have := hl' s' rfl
        rw [← Option.some.inj hs]
        dsimp only
        rw [List.length_append, hl, this]; omega

theorem verifyPaths_total (S : Setup K L N τ) (fuel n : Nat) (op : Opening L N) (epl : Nat) (hepl : perLeaf S.size = some epl)
    (he : 0 < epl) (hq : ∀ tr len count, 0 < len → ∃ r, genQueries S.T fuel tr len count = some r) (left : Nat) :
    ∀ (cr : Nat) (tr : τ), cr + left ≤ op.commitments.length → cr + left ≤ op.queries.length →
      ∃ b, verifyPaths S fuel n op left cr tr = some b := by
  induction left with
  | zero => intro cr tr _ _; exact ⟨true, rfl⟩
  | succ left ih =>
    intro cr tr h1 h2
    have hpos : 0 < numLeaves n epl cr := by
      unfold numLeaves
      refine Nat.div_pos ?_ he
      have := Nat.two_pow_pos (roundLog n cr)
      omega
    obtain ⟨r, hr⟩ := hq tr (numLeaves n epl cr) (S.queries cr) hpos
    rw [verifyPaths, hepl, Option.bind_some, hr, Option.bind_some, List.getElem?_eq_getElem (by omega), Option.bind_some,
      List.getElem?_eq_getElem (by omega), Option.bind_some]
    split_ifs
    · exact ⟨_, rfl⟩
    · exact ih _ _ (by omega) (by omega)
    · exact ⟨_, rfl⟩

theorem shape_spec {com : Commitment N} {point : List L} {op : Opening L N} (h : shapeOk com point op = true) :
    point.length = com.numVars ∧ com.numVars ≠ 0 ∧ com.numVars + 1 < 64 ∧ op.messages.length = com.numVars ∧
      op.commitments.length = committedRounds com.numVars ∧ op.queries.length = op.commitments.length ∧
      op.ood.length = op.commitments.length ∧ op.nonces.length = op.commitments.length ∧
      op.finalPoly.length = finalLen com.numVars := by
  unfold shapeOk at h
  simp only [Bool.and_eq_true, decide_eq_true_eq] at h
  obtain ⟨⟨⟨⟨⟨⟨⟨⟨a, b⟩, c⟩, d⟩, e⟩, f⟩, g⟩, i⟩, j⟩ := h
  exact ⟨a, b, c, d, e, f, g, i, j⟩

/-- The verifier ends without a panic on every input, provided the query loops end. -/
theorem verify_total (S : Setup K L N τ) (fuel : Nat) (hsize : ∃ epl, 0 < epl ∧ perLeaf S.size = some epl)
    (hq : ∀ tr len count, 0 < len → ∃ r, genQueries S.T fuel tr len count = some r)
    (com : Commitment N) (point : List L) (v : L) (op : Opening L N) (tr : τ) :
    ∃ b, verify S fuel com point v op tr = some b := by
  obtain ⟨epl, he, hepl⟩ := hsize
  unfold verify
  by_cases hs : shapeOk com point op = true
  · rw [if_neg (by simp [hs])]
    obtain ⟨s1, s2, s3, s4, s5, s6, s7, s8, s9⟩ := shape_spec hs
    obtain ⟨r, hr, hl⟩ := verifyRounds_total S.T op com.numVars s4 (committedRounds com.numVars) 0 0 v (S.T.node tr com.root)
      (by have := rounds_le com.numVars; omega) (by omega) (by omega) (by omega)
    rw [hr, Option.bind_some]
    cases r with
    | none => exact ⟨false, rfl⟩
    | some r =>
      have hlen := hl r rfl
      dsimp only
      unfold verifyEnd
      cases hf : op.finalPoly with
      | nil =>
        rw [hf] at s9
        exact absurd s9.symm (Nat.two_pow_pos _).ne'
      | cons k rest =>
        dsimp only
        by_cases c1 : rest.any (fun v => decide (v ≠ k)) = true
        · rw [if_pos c1]; exact ⟨_, rfl⟩
        · rw [if_neg c1, if_neg (by omega)]
          by_cases c2 : k * eqEval r.1 point ≠ r.2.1
          · rw [if_pos c2]; exact ⟨_, rfl⟩
          · rw [if_neg c2]
            exact verifyPaths_total S fuel com.numVars op epl hepl he hq _ _ _ (by omega) (by omega)
  · rw [if_pos (by simpa using hs)]; exact ⟨false, rfl⟩

/-- An accepted opening has the shape asked for. -/
theorem verify_shape {S : Setup K L N τ} {fuel : Nat} {com : Commitment N} {point : List L} {v : L} {op : Opening L N}
    {tr : τ} (h : verify S fuel com point v op tr = some true) : shapeOk com point op = true := by
  unfold verify at h
  by_contra hs
  rw [if_pos (by rw [Bool.not_eq_true] at hs; rw [hs]; rfl)] at h
  exact absurd h (by simp)

theorem accepted_unreadable {S : Setup K L N τ} {fuel : Nat} {com : Commitment N} {point : List L} {v : L}
    {op : Opening L N} {tr : τ} (h : verify S fuel com point v op tr = some true) (hn : 29 ≤ com.numVars) :
    readable op = false := by
  obtain ⟨_, _, _, _, _, _, _, _, s9⟩ := shape_spec (verify_shape h)
  have : 2 ^ 21 ≤ op.finalPoly.length := by
    rw [s9]
    unfold finalLen
    refine Nat.pow_le_pow_right (by norm_num) ?_
    have h1 : 7 ≤ committedRounds com.numVars := by
      unfold committedRounds foldingFactor; rw [if_neg (by omega)]; omega
    rw [if_pos (by omega)]
    unfold effectiveRateLog rateLog foldingFactor
    omega
  have hnot : ¬ op.finalPoly.length ≤ 2 ^ 20 := by
    intro hle; have := le_trans this hle; norm_num at this
  unfold readable
  rw [decide_eq_false hnot]
  simp

end JST.Pcs.Whir
