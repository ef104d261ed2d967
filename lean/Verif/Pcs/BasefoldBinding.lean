import Verif.Pcs.BasefoldComplete

/-! # One BaseFold commitment, two polynomials

`Path::verify` takes paths of any length. -/

namespace JST.Pcs

open JST.Merkle JST.Spec JST.Gkr

section Tree

variable {X N : Type}

theorem hashUp_append (h : Hash X N) (idx : Nat) (ss tt : List N) : ∀ (i : Nat) (a : N),
    hashUp h idx i a (ss ++ tt) = hashUp h idx (i + ss.length) (hashUp h idx i a ss) tt := by
  induction ss with
  | nil => intro i a; rfl
  | cons s ss ih =>
    intro i a
    rw [List.cons_append, hashUp, hashUp, ih, List.length_cons, show i + 1 + ss.length = i + (ss.length + 1) by omega]

theorem hashUp_left (h : Hash X N) (idx : Nat) (ss : List N) : ∀ (i : Nat) (a : N),
    (∀ j, i ≤ j → j < i + ss.length → idx / 2 ^ (j % 64) % 2 = 0) → hashUp h idx i a ss = ss.foldl h.node a := by
  induction ss with
  | nil => intros; rfl
  | cons s ss ih =>
    intro i a hz
    rw [hashUp, if_neg (by rw [hz i (le_refl _) (by simp)]; simp), List.foldl_cons]
    exact ih _ _ fun j h1 h2 => hz j (by omega) (by simp; omega)

theorem hashUp_node {Y : Type} (h : Hash X N) (h' : Hash Y N) (hn : h.node = h'.node) (idx : Nat) (ss : List N) :
    ∀ (i : Nat) (a : N), hashUp h idx i a ss = hashUp h' idx i a ss := by
  induction ss with
  | nil => intros; rfl
  | cons s ss ih => intro i a; rw [hashUp, hashUp, hn, ih]

variable [Inhabited N] [DecidableEq N]

/-- The hash that takes a node for a leaf. -/
def graftHash (h : Hash X N) (r : N) : Hash (Option X) N := ⟨fun x => x.elim r h.leaf, h.node⟩

/-- A tree whose first leaf is replaced with another tree: all leaves but the first open at their places with the usual
length, and all leaves of the other tree open at the same places with twice that length. -/
theorem graft (h : Hash X N) (k : Nat) (hk : 1 ≤ k) (hk' : 2 * k ≤ 64) (leaves : List X) (hl : leaves.length = 2 ^ k) (r : N) :
    ∃ root top, (∃ nodes : Nat → List N, ∀ i x, 0 < i → leaves[i]? = some x → Path.verify h ⟨x, nodes i, i⟩ root = true) ∧
      ∀ i x ns, i < 2 ^ k → ns.length = k → Path.verify h ⟨x, ns, i⟩ r = true →
        Path.verify h ⟨x, top ++ ns, i⟩ root = true := by
  obtain ⟨ls, hls⟩ : ∃ ls : List (Option X), ls = (leaves.map some).set 0 none := ⟨_, rfl⟩
  have hlen : ls.length = 2 ^ k := by rw [hls]; simp [hl]
  have key := fun i (hi : i < ls.length) => JST.Props.C24_opening (graftHash h r) k hk (by omega) ls hlen i hi
  obtain ⟨root, hroot⟩ : ∃ root, root = treeRoot (graftHash h r) k (ls.map (graftHash h r).leaf) := ⟨_, rfl⟩
  rw [← hroot] at key
  have h0 : 0 < ls.length := by rw [hlen]; positivity
  obtain ⟨t, p, _, _, z1, z2, z3, z4⟩ := key 0 h0
  refine ⟨root, p.pathNodes, ⟨fun i => if hi : i < ls.length then (key i hi).choose_spec.choose.pathNodes else [], ?_⟩, ?_⟩
  · intro i x hi hx
    have hil : i < ls.length := by
      rw [hlen, ← hl]
      exact (List.getElem?_eq_some_iff.mp hx).1
    dsimp only
    rw [dif_pos hil]
    obtain ⟨_, _, q1, q2, _, q4⟩ := (key i hil).choose_spec.choose_spec
    generalize (key i hil).choose_spec.choose = q at *
    have hxi : ls[i]? = some (some x) := by
      rw [hls, List.getElem?_set_ne (by omega), List.getElem?_map, hx]; rfl
    have hq : q.leaf = some x := Option.some.inj (q1.symm.trans hxi)
    unfold Path.verify Path.root at q4 ⊢
    rw [q2, hq] at q4
    rw [hashUp_node h (graftHash h r) rfl]
    exact q4
  · intro i x ns hi hns hv
    have hleaf : p.leaf = none := by
      have : ls[0]? = some none := by
        rw [hls, List.getElem?_set_self (by rw [List.length_map, hl]; positivity)]
      exact Option.some.inj (z1.symm.trans this)
    unfold Path.verify Path.root at hv z4 ⊢
    rw [decide_eq_true_eq] at hv z4 ⊢
    dsimp only at hv ⊢
    rw [z2, hleaf] at z4
    rw [List.reverse_append, hashUp_append, hv, List.length_reverse, hns]
    have e1 := hashUp_left (graftHash h r) 0 p.pathNodes.reverse 0 r (fun j _ _ => by simp)
    have e2 := hashUp_left h i p.pathNodes.reverse (0 + k) r (fun j j1 j2 => by
      rw [List.length_reverse, z3] at j2
      rw [Nat.mod_eq_of_lt (show j < 64 by omega), Nat.div_eq_of_lt (lt_of_lt_of_le hi (Nat.pow_le_pow_right (by norm_num) (by omega)))])
    rw [e2]
    rw [← z4]
    exact e1.symm

end Tree

variable {K L N τ : Type} [Field K] [Field L] [Algebra K L] [Inhabited N] [DecidableEq L] [DecidableEq N]

/-- The opening with the paths of the first tree replaced. -/
def replacePaths (f : Path Mem N → Path Mem N) (op : Opening L N) : Opening L N :=
  ⟨op.commitments, op.messages, op.finalPoly, op.queries.map fun q => ⟨f q.leafProof, f q.siblingProof, q.rounds⟩⟩

/-- The path is put where the leaf stays, the index stays, and it verifies. -/
def Moves (h : Hash Mem N) (root' : N) (f : Path Mem N → Path Mem N) (p : Path Mem N) : Prop :=
  (f p).leaf = p.leaf ∧ (f p).index = p.index ∧ (f p).verify h root' = true

theorem verifyQuery_moves {S : Setup K L N τ} {root root' : N} {log : Nat} {op op' : Opening L N} {ch : List L}
    {f : Path Mem N → Path Mem N} {qp : QueryProof L N} {q : Nat} (hc : op'.commitments = op.commitments)
    (hf : op'.finalPoly = op.finalPoly) (h : verifyQuery S root log op ch qp q = some true)
    (h1 : Moves S.hash root' f qp.leafProof) (h2 : Moves S.hash root' f qp.siblingProof) :
    verifyQuery S root' log op' ch ⟨f qp.leafProof, f qp.siblingProof, qp.rounds⟩ q = some true := by
  obtain ⟨a1, a2, a3⟩ := h1
  obtain ⟨b1, b2, b3⟩ := h2
  unfold verifyQuery at h ⊢
  dsimp only at h ⊢
  rw [a1, a2, a3, b1, b2, b3, hc, hf]
  by_cases c1 : qp.rounds.length ≠ op.commitments.length
  · rw [if_pos c1] at h; simp at h
  rw [if_neg c1] at h ⊢
  by_cases c2 : (!qp.leafProof.verify S.hash root) = true
  · rw [if_pos c2] at h; simp at h
  rw [if_neg c2] at h
  by_cases c3 : (!qp.siblingProof.verify S.hash root) = true
  · rw [if_pos c3] at h; simp at h
  rw [if_neg c3] at h
  simpa using h

theorem verifyRounds_replace (S : Setup K L N τ) (log : Nat) (f : Path Mem N → Path Mem N) (op : Opening L N) :
    ∀ (left round : Nat) (claim : L) (tr : τ),
      verifyRounds S log (replacePaths f op) left round claim tr = verifyRounds S log op left round claim tr := by
  intro left
  induction left with
  | zero => intros; rfl
  | succ left ih =>
    intro round claim tr
    rw [verifyRounds, verifyRounds]
    simp only [ih]
    rfl

theorem verifyQueries_moves {S : Setup K L N τ} {root root' : N} {log : Nat} {op op' : Opening L N} {ch : List L}
    {f : Path Mem N → Path Mem N} (hc : op'.commitments = op.commitments) (hf : op'.finalPoly = op.finalPoly) :
    ∀ (qps : List (QueryProof L N)) (qs : List Nat), (∀ qp ∈ qps, Moves S.hash root' f qp.leafProof ∧ Moves S.hash root' f qp.siblingProof) →
      verifyQueries S root log op ch (qps.zip qs) = some true →
      verifyQueries S root' log op' ch ((qps.map fun q => (⟨f q.leafProof, f q.siblingProof, q.rounds⟩ : QueryProof L N)).zip qs) = some true := by
  intro qps
  induction qps with
  | nil => intro qs _ _; simp [verifyQueries]
  | cons qp qps ih =>
    intro qs hm h
    rcases qs with _ | ⟨q, qs⟩
    · simp [verifyQueries]
    rw [List.zip_cons_cons, verifyQueries] at h
    rw [List.map_cons, List.zip_cons_cons, verifyQueries]
    rcases hb : verifyQuery S root log op ch qp q with _ | b
    · rw [hb] at h; simp at h
    rcases b with _ | _
    · rw [hb] at h; simp at h
    rw [hb] at h
    obtain ⟨m1, m2⟩ := hm qp (by simp)
    rw [verifyQuery_moves hc hf hb m1 m2]
    simp only [Option.bind_eq_bind, Option.bind_some, if_true] at h ⊢
    exact ih qs (fun x hx => hm x (by simp [hx])) h

/-- An accepted opening whose paths can be moved to another root is accepted for that root. -/
theorem verifyBf_moves {S : Setup K L N τ} {fuel n : Nat} {root root' : N} {point : List L} {v : L} {op : Opening L N} {tr : τ}
    (f : Path Mem N → Path Mem N) (h : verifyBf S fuel ⟨root, n⟩ point v op tr = some true)
    (hm : ∀ qp ∈ op.queries, Moves S.hash root' f qp.leafProof ∧ Moves S.hash root' f qp.siblingProof) :
    verifyBf S fuel ⟨root', n⟩ point v (replacePaths f op) tr = some true := by
  unfold verifyBf at h ⊢
  rw [show shapeOk S ⟨root', n⟩ point (replacePaths f op) = shapeOk S ⟨root, n⟩ point op from rfl]
  by_cases c1 : (!shapeOk S ⟨root, n⟩ point op) = true
  · rw [if_pos c1] at h; simp at h
  rw [if_neg c1] at h ⊢
  dsimp only at h ⊢
  rw [verifyRounds_replace]
  rcases hr : verifyRounds S (n + rateLog) op n 0 v tr with _ | ⟨ch, claim, tr1⟩
  · rw [hr] at h; simp at h
  rw [hr] at h
  simp only [Option.bind_eq_bind, Option.bind_some] at h ⊢
  rw [show (replacePaths f op).commitments = op.commitments from rfl, show (replacePaths f op).finalPoly = op.finalPoly from rfl]
  rcases hk : foldRest S.F (n + rateLog) ch (List.range' (op.commitments.length + 1) (n - (op.commitments.length + 1))) op.finalPoly with _ | ⟨k, rest⟩
  · rw [hk] at h; simp at h
  rw [hk] at h
  dsimp only at h ⊢
  by_cases c2 : (rest.any fun v => decide (v ≠ k)) = true
  · rw [if_pos c2] at h; simp at h
  rw [if_neg c2] at h ⊢
  by_cases c3 : k * eqEval ch point ≠ claim
  · rw [if_pos c3] at h; simp at h
  rw [if_neg c3] at h ⊢
  rcases hg : genQueries S.T fuel tr1 (2 ^ (n + rateLog)) with _ | ⟨qs, tr2⟩
  · rw [hg] at h; simp at h
  rw [hg] at h
  simp only [Option.bind_some] at h ⊢
  have hl : (replacePaths f op).queries.length = op.queries.length := by simp [replacePaths]
  rw [hl]
  by_cases c4 : op.queries.length ≠ qs.length
  · rw [if_pos c4] at h; simp at h
  rw [if_neg c4] at h ⊢
  exact verifyQueries_moves (root' := root') (f := f) (op := op) (op' := replacePaths f op) rfl rfl op.queries qs hm h

omit [Field K] [Field L] [Algebra K L] [Inhabited N] [DecidableEq L] [DecidableEq N] in
/-- The paths of an honest opening. -/
theorem openQuery_paths {S : Setup K L N τ} {t : Tree Mem N} {chain : List (N × Tree Mem N × List L)} {q : Nat} {qp : QueryProof L N}
    (h : openQuery S t chain q = some qp) :
    indexQuery t (q / 2 * 2 / S.base.perLeaf) = some qp.leafProof ∧
      (indexQuery t (q / 2 * 2 / S.base.perLeaf) = some qp.siblingProof ∨
        indexQuery t ((q / 2 * 2 + 1) / S.base.perLeaf) = some qp.siblingProof) := by
  unfold openQuery openPair at h
  dsimp only at h
  rcases h1 : indexQuery t (q / 2 * 2 / S.base.perLeaf) with _ | p
  · rw [h1] at h; simp at h
  rw [h1] at h
  by_cases hc : (q / 2 * 2 + 1) / S.base.perLeaf ≠ q / 2 * 2 / S.base.perLeaf
  · rcases h2 : indexQuery t ((q / 2 * 2 + 1) / S.base.perLeaf) with _ | p'
    · simp only [Option.bind_eq_bind, Option.bind_some, if_pos hc, h2, Option.bind_none] at h; simp at h
    simp only [Option.bind_eq_bind, Option.bind_some, if_pos hc, h2] at h
    rcases h3 : openRounds S.ext.perLeaf chain (q / 2) with _ | rps
    · rw [h3] at h; simp at h
    rw [h3] at h
    obtain rfl := Option.some.inj h
    exact ⟨rfl, Or.inr rfl⟩
  · simp only [Option.bind_eq_bind, Option.bind_some, if_neg hc] at h
    rcases h3 : openRounds S.ext.perLeaf chain (q / 2) with _ | rps
    · rw [h3] at h; simp at h
    rw [h3] at h
    obtain rfl := Option.some.inj h
    exact ⟨rfl, Or.inl rfl⟩

theorem forall₂_mem_right {A B : Type} {R : A → B → Prop} {as : List A} {bs : List B} (h : List.Forall₂ R as bs) :
    ∀ b ∈ bs, ∃ a ∈ as, R a b := by
  induction h with
  | nil => simp
  | cons h1 _ ih =>
    intro b hb
    rcases List.mem_cons.mp hb with rfl | hb
    · exact ⟨_, by simp, h1⟩
    · obtain ⟨a, ha, hr⟩ := ih b hb
      exact ⟨a, by simp [ha], hr⟩

omit [Field L] [DecidableEq L] in
theorem honest_path (h : Hash Mem N) (s kb log : Nat) (hs : s * 2 ^ kb = leafBytes) (hk : kb + 1 ≤ log) (hk' : log ≤ 64) (mem : List Mem)
    (hm : ∀ b ∈ mem, b.length = s) (hl : mem.length = 2 ^ log) (t : Tree Mem N) (root : N) (ht : treeOf h s mem = some t)
    (hr : t.root = some root) :
    ∃ leaves : List Mem, leaves.length = 2 ^ (log - kb) ∧ ∀ i p, i < 2 ^ (log - kb) → indexQuery t i = some p →
      leaves[p.index]? = some p.leaf ∧ p.index = i ∧ p.pathNodes.length = log - kb ∧ p.verify h root = true := by
  obtain ⟨leaves, l1, l2, _⟩ := leavesOf_spec s kb log hs (by omega) mem hm hl
  obtain ⟨t', t1, _, t3⟩ := JST.Props.C24_root h (log - kb) leaves l2
  have htt : t' = t := by
    unfold treeOf at ht
    rw [l1, Option.bind_some] at ht
    exact Option.some.inj (t1.symm.trans ht)
  rw [htt] at t1 t3
  refine ⟨leaves, l2, fun i p hi hp => ?_⟩
  obtain ⟨t2, p2, q1, q2, q3, q4, q5, q6⟩ := JST.Props.C24_opening h (log - kb) (by omega) (by omega) leaves l2 i (by omega)
  have e1 : t2 = t := Option.some.inj (q1.symm.trans t1)
  rw [e1] at q2
  have e2 : p2 = p := Option.some.inj (q2.symm.trans hp)
  rw [e2] at q3 q4 q5 q6
  have e3 := Option.some.inj (hr.symm.trans t3)
  rw [e3, q4]
  exact ⟨q3, rfl, q5, q6⟩

/-- Two polynomials behind one root. -/
theorem basefold_equivocate {S : Setup K L N τ} {kb ke : Nat} (hS : SetupOk S kb ke) (n : Nat) (hn : 1 ≤ n) (hkb : kb ≤ n + 1)
    (h64 : n + 2 < 64) (hdepth : 2 * (n + 2 - kb) ≤ 64) (had : n + 2 ≤ S.F.adicity)
    (evalsA evalsB : List K) (heA : evalsA.length = 2 ^ n) (heB : evalsB.length = 2 ^ n) (cwA cwB : List K)
    (hcwA : rsEncode (fieldOps K) S.F evalsA = some cwA) (hcwB : rsEncode (fieldOps K) S.F evalsB = some cwB)
    (memA memB : List Mem) (hmA : List.Forall₂ (Canon S.base) cwA memA) (hmB : List.Forall₂ (Canon S.base) cwB memB)
    (mem : Nat → List L → List Mem) (hmem : ∀ round cw, List.Forall₂ (Canon S.ext) cw (mem round cw)) :
    ∃ root, ∀ (fuel : Nat) (point : List L) (tr : τ), point.length = n →
      (∃ trq, ∀ r, genQueries S.T fuel trq (2 ^ (n + 2)) = some r →
        ∃ op, verifyBf S fuel ⟨root, n⟩ point (mle (fun i => algebraMap K L (evalsB.getD i 0)) point) op tr = some true) ∧
      (∃ trq, ∀ r, genQueries S.T fuel trq (2 ^ (n + 2)) = some r → (∀ q ∈ r.1, 2 ^ kb ≤ q) →
        ∃ op, verifyBf S fuel ⟨root, n⟩ point (mle (fun i => algebraMap K L (evalsA.getD i 0)) point) op tr = some true) := by
  have hlen : ∀ (evals cw : List K) (mem0 : List Mem), evals.length = 2 ^ n → rsEncode (fieldOps K) S.F evals = some cw →
      List.Forall₂ (Canon S.base) cw mem0 → mem0.length = 2 ^ (n + 2) := by
    intro evals cw mem0 he hcw hm
    have hspec := rsEncode_spec hS.valid 2 n (by omega) had evals he
    rw [← hm.length_eq, Option.some.inj (hcw.symm.trans hspec)]; simp
  have hlA := hlen evalsA cwA memA heA hcwA hmA
  have hlB := hlen evalsB cwB memB heB hcwB hmB
  have hper := (perLeaf_spec S.base kb hS.base).1
  obtain ⟨rootA, tA, a1, a2, a3, _, a5⟩ := basefold_run hS n hn hkb h64 had evalsA heA cwA hcwA memA (forall₂_length hmA) hlA mem hmem
  obtain ⟨rootB, tB, b1, b2, b3, _, b5⟩ := basefold_run hS n hn hkb h64 had evalsB heB cwB hcwB memB (forall₂_length hmB) hlB mem hmem
  obtain ⟨leavesA, la1, la2⟩ := honest_path S.hash S.base.size kb (n + 2) hS.base (by omega) (by omega) memA (forall₂_length hmA) hlA tA rootA a1 a2
  obtain ⟨leavesB, lb1, lb2⟩ := honest_path S.hash S.base.size kb (n + 2) hS.base (by omega) (by omega) memB (forall₂_length hmB) hlB tB rootB b1 b2
  obtain ⟨root, top, ⟨nodes, g1⟩, g2⟩ := graft S.hash (n + 2 - kb) (by omega) hdepth leavesA la1 rootB
  have hidx : ∀ q, q < 2 ^ (n + 2) → q / 2 * 2 / S.base.perLeaf < 2 ^ (n + 2 - kb) ∧ (q / 2 * 2 + 1) / S.base.perLeaf < 2 ^ (n + 2 - kb) := by
    intro q hq
    have e : 2 ^ (n + 2) = 2 ^ (n + 2 - kb) * 2 ^ kb := by rw [← pow_add]; congr 1; omega
    have e2 : 2 ^ (n + 2) = 2 * 2 ^ (n + 1) := by rw [← pow_succ']
    rw [hper]
    constructor
    · rw [Nat.div_lt_iff_lt_mul (by positivity), ← e]; omega
    · rw [Nat.div_lt_iff_lt_mul (by positivity), ← e]; omega
  refine ⟨root, fun fuel point tr hp => ⟨?_, ?_⟩⟩
  · obtain ⟨trq, _, h⟩ := b5 fuel point tr hp
    refine ⟨trq, fun r hr => ?_⟩
    obtain ⟨op, chain, op0, r0, rs0, qps, k1, k2, k3, k4, k5, k6, k7⟩ := h r hr
    have hacc : verifyBf S fuel ⟨rootB, n⟩ point (mle (fun i => algebraMap K L (evalsB.getD i 0)) point) op tr = some true := by
      rw [k6]
      refine queries_complete k5 fun q hq qp ho => ?_
      obtain ⟨qp', o1, o2⟩ := query_complete hS n hn hkb (by omega) had mem hmem _ op0 chain k1 _ (by rw [List.length_map, heB]) r0 rs0 rfl k2
        cwB memB hmB b3 tB rootB b1 b2 q (k3 q hq)
      rwa [Option.some.inj (ho.symm.trans o1)]
    refine ⟨_, verifyBf_moves (root' := root) (fun p => ⟨p.leaf, top ++ p.pathNodes, p.index⟩) hacc fun qp hqp => ?_⟩
    have hmv : ∀ i p, i < 2 ^ (n + 2 - kb) → indexQuery tB i = some p →
        Moves S.hash root (fun p => ⟨p.leaf, top ++ p.pathNodes, p.index⟩) p := by
      intro i p hi hip
      obtain ⟨v1, v2, v3, v4⟩ := lb2 i p hi hip
      exact ⟨rfl, rfl, g2 p.index p.leaf p.pathNodes (by rw [v2]; exact hi) v3 v4⟩
    rw [k7] at hqp
    obtain ⟨q, hq, ho⟩ := forall₂_mem_right k5 qp hqp
    obtain ⟨p1, p2⟩ := openQuery_paths ho
    obtain ⟨i1, i2⟩ := hidx q (k3 q hq)
    exact ⟨hmv _ _ i1 p1, p2.elim (hmv _ _ i1) (hmv _ _ i2)⟩
  · obtain ⟨trq, _, h⟩ := a5 fuel point tr hp
    refine ⟨trq, fun r hr hbig => ?_⟩
    obtain ⟨op, chain, op0, r0, rs0, qps, k1, k2, k3, k4, k5, k6, k7⟩ := h r hr
    have hacc : verifyBf S fuel ⟨rootA, n⟩ point (mle (fun i => algebraMap K L (evalsA.getD i 0)) point) op tr = some true := by
      rw [k6]
      refine queries_complete k5 fun q hq qp ho => ?_
      obtain ⟨qp', o1, o2⟩ := query_complete hS n hn hkb (by omega) had mem hmem _ op0 chain k1 _ (by rw [List.length_map, heA]) r0 rs0 rfl k2
        cwA memA hmA a3 tA rootA a1 a2 q (k3 q hq)
      rwa [Option.some.inj (ho.symm.trans o1)]
    refine ⟨_, verifyBf_moves (root' := root) (fun p => ⟨p.leaf, nodes p.index, p.index⟩) hacc fun qp hqp => ?_⟩
    have hmv : ∀ i p, i < 2 ^ (n + 2 - kb) → 0 < i → indexQuery tA i = some p →
        Moves S.hash root (fun p => ⟨p.leaf, nodes p.index, p.index⟩) p := by
      intro i p hi hi0 hip
      obtain ⟨v1, v2, _, _⟩ := la2 i p hi hip
      exact ⟨rfl, rfl, g1 p.index p.leaf (by rw [v2]; exact hi0) v1⟩
    rw [k7] at hqp
    obtain ⟨q, hq, ho⟩ := forall₂_mem_right k5 qp hqp
    obtain ⟨p1, p2⟩ := openQuery_paths ho
    obtain ⟨i1, i2⟩ := hidx q (k3 q hq)
    have hqk := hbig q hq
    have hk1 := hS.one
    have e3 : 2 ^ kb = 2 * 2 ^ (kb - 1) := by rw [← pow_succ']; congr 1; omega
    have z1 : 0 < q / 2 * 2 / S.base.perLeaf := by rw [hper]; exact Nat.div_pos (by omega) (by positivity)
    have z2 : 0 < (q / 2 * 2 + 1) / S.base.perLeaf := by rw [hper]; exact Nat.div_pos (by omega) (by positivity)
    exact ⟨hmv _ _ i1 z1 p1, p2.elim (hmv _ _ i1 z1) (hmv _ _ i2 z2)⟩

end JST.Pcs
