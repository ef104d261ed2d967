import Verif.Spec.BasefoldGame
import Verif.Pcs.BasefoldSoundStep
import Verif.Pcs.BasefoldTotal

/-! # Soundness of BaseFold: what an accepted opening says about the words -/

namespace JST.Pcs

open JST.Spec JST.Gkr JST.Merkle

section game

variable {K L N : Type} [Field K] [Field L] [Algebra K L] [DecidableEq L]

/-- The claim after the challenges, which come in reverse order. -/
def claimR (P : Prover L N) (v : L) : List L → L
  | [] => v
  | r :: rs => extrapolate2 (claimR P v rs - (P.msg rs.reverse).at1) (P.msg rs.reverse).at1 (P.msg rs.reverse).at2 r

/-- The word after the challenges: committed or sent by the prover up to round `c`, folded by the verifier afterwards. -/
def wordR (F : FftField K) (n c : Nat) (P : Prover L N) : List L → Nat → L
  | [] => P.word []
  | r :: rs => if rs.length ≤ c then P.word (r :: rs).reverse else foldW F (n + 1 - rs.length) (wordR F n c P rs) r

/-- A round is consistent at an index. -/
def ConsR (F : FftField K) (n c : Nat) (P : Prover L N) (q : Nat) : List L → Prop
  | [] => True
  | r :: rs => wordR F n c P (r :: rs) (q / 2 ^ (rs.length + 1)) =
      foldW F (n + 1 - rs.length) (wordR F n c P rs) r (q / 2 ^ (rs.length + 1))

/-- The indices consistent so far. -/
def goodR (F : FftField K) (n c : Nat) (P : Prover L N) : List L → Finset Nat
  | [] => Finset.range (2 ^ (n + 2))
  | r :: rs => (goodR F n c P rs).filter fun q => wordR F n c P (r :: rs) (q / 2 ^ (rs.length + 1)) =
      foldW F (n + 1 - rs.length) (wordR F n c P rs) r (q / 2 ^ (rs.length + 1))

/-- The factor of the claim. -/
def eqR (point : List L) : List L → L
  | [] => 1
  | r :: rs => eqR point rs * ((1 - r) * (1 - point.getD rs.length 0) + r * point.getD rs.length 0)

omit [DecidableEq L] in
theorem wordR_cons (F : FftField K) (n c : Nat) (P : Prover L N) (r : L) (rs : List L) : wordR F n c P (r :: rs) =
    if rs.length ≤ c then P.word (r :: rs).reverse else foldW F (n + 1 - rs.length) (wordR F n c P rs) r := rfl

theorem mem_goodR (F : FftField K) (n c : Nat) (P : Prover L N) (q : Nat) (l : List L) (hq : q < 2 ^ (n + 2))
    (h : ∀ t, t <:+ l → ConsR F n c P q t) : q ∈ goodR F n c P l := by
  induction l with
  | nil => exact Finset.mem_range.mpr hq
  | cons r l ih =>
    exact Finset.mem_filter.mpr ⟨ih fun t ht => h t (ht.trans (List.suffix_cons _ _)), h _ (List.suffix_refl _)⟩

theorem goodR_lt (F : FftField K) (n c : Nat) (P : Prover L N) (l : List L) : ∀ q ∈ goodR F n c P l, q < 2 ^ (n + 2) := by
  induction l with
  | nil => intro q hq; exact Finset.mem_range.mp hq
  | cons r l ih => intro q hq; exact ih q (Finset.mem_filter.mp hq).1

/-- The suffixes of a reversed list. -/
theorem suffix_reverse {α : Type} (rs t : List α) (h : t <:+ rs.reverse) : t = (rs.take t.length).reverse := by
  obtain ⟨u, hu⟩ := h
  have : rs = t.reverse ++ u.reverse := by
    have := congrArg List.reverse hu
    simpa using this.symm
  rw [this, List.take_append_of_le_length (by simp), List.take_of_length_le (by simp), List.reverse_reverse]

theorem eqR_spec (point : List L) : ∀ rs : List L, rs.length ≤ point.length → eqR point rs.reverse = eqEval rs point := by
  intro rs
  induction rs using List.reverseRecOn with
  | nil => intro _; rfl
  | append_singleton rs r ih =>
    intro h
    rw [List.length_append, List.length_singleton] at h
    rw [List.reverse_append, List.reverse_singleton, List.singleton_append, eqR, ih (by omega), List.length_reverse]
    unfold eqEval
    have hz : (rs ++ [r]).zip point = rs.zip point ++ [(r, point.getD rs.length 0)] := by
      obtain ⟨a, z, b, hp, hlen⟩ : ∃ a z b, point = a ++ z :: b ∧ rs.length = a.length :=
        ⟨point.take rs.length, point[rs.length], point.drop (rs.length + 1),
          by rw [← List.drop_eq_getElem_cons (by omega), List.take_append_drop], by rw [List.length_take]; omega⟩
      have h1 := List.zip_append (l₁ := rs) (r₁ := []) (l₂ := a) (r₂ := z :: b) hlen
      rw [List.append_nil, List.zip_nil_left, List.append_nil] at h1
      rw [hp, List.zip_append hlen, h1, hlen, List.getD_append_right _ _ _ _ (le_refl _)]
      simp
    rw [hz, List.foldl_append]
    rfl

end game

variable {K L N : Type} [Field K] [Field L] [Algebra K L] [DecidableEq L] [DecidableEq N]

omit [DecidableEq L] [DecidableEq N] [Field K] [Algebra K L] in
theorem coins_fields (xs : List L) (t : List L × List Nat) : xs.foldl (coins (L := L) (N := N)).field t = t := by
  induction xs with
  | nil => rfl
  | cons x xs ih => exact ih

omit [DecidableEq L] [DecidableEq N] [Field K] [Algebra K L] in
theorem absorb_coins {S : Setup K L N (List L × List Nat)} (hT : S.T = coins) (log : Nat) (op : Opening L N) (round : Nat)
    (t t' : List L × List Nat) (h : verifierAbsorb S log op round t = some t') : t' = t := by
  unfold verifierAbsorb at h
  rw [hT] at h
  split_ifs at h
  · rw [Option.map_eq_some_iff] at h
    obtain ⟨_, _, h⟩ := h
    exact h.symm
  · rw [coins_fields] at h
    exact (Option.some.inj h).symm
  · exact (Option.some.inj h).symm

omit [DecidableEq L] [DecidableEq N] in
theorem verifyRounds_coins {S : Setup K L N (List L × List Nat)} (hT : S.T = coins) (log : Nat) (op : Opening L N) (P : Prover L N) (v : L)
    (us : List Nat) (all : List L) (hm : ∀ i < all.length, op.messages[i]? = some (P.msg (all.take i))) (rs : List L) :
    ∀ (pre : List L), all = pre ++ rs → ∀ out, verifyRounds S log op rs.length pre.length (claimR P v pre.reverse) (rs, us) = some out →
      out = (rs, claimR P v all.reverse, [], us) := by
  induction rs with
  | nil =>
    intro pre he out h
    rw [List.append_nil] at he
    rw [List.length_nil, verifyRounds] at h
    rw [he]
    exact (Option.some.inj h).symm
  | cons r rs ih =>
    intro pre he out h
    have hlen : pre.length < all.length := by rw [he]; simp
    rw [List.length_cons, verifyRounds, hm _ hlen, Option.bind_some] at h
    have htake : all.take pre.length = pre := by rw [he]; simp
    rw [htake] at h
    dsimp only at h
    rw [Option.bind_eq_some_iff] at h
    obtain ⟨t, ht, h⟩ := h
    have ht := absorb_coins hT _ _ _ _ _ ht
    rw [hT] at ht h
    subst ht
    rw [Option.map_eq_some_iff] at h
    obtain ⟨rest, hr, h⟩ := h
    have key := ih (pre ++ [r]) (by rw [he]; simp) rest (by
      rw [List.length_append, List.length_singleton, List.reverse_append, List.reverse_singleton, List.singleton_append, claimR,
        List.reverse_reverse]
      exact hr)
    rw [key] at h
    exact h.symm

omit [DecidableEq L] [DecidableEq N] in
/-- The verifier's folding of the final codeword follows the words. -/
theorem foldRest_word (F : FftField K) (n c : Nat) (P : Prover L N) (all : List L) (m : Nat) :
    ∀ (r0 : Nat) (cw : List L), c < r0 → r0 + m = n → all.length = n → cw.length = 2 ^ (m + 2) →
      (∀ y < cw.length, cw.getD y 0 = wordR F n c P (all.take r0).reverse y) →
      (foldRest F (n + 2) all (List.range' r0 m) cw).length = 4 ∧
        ∀ y < 4, (foldRest F (n + 2) all (List.range' r0 m) cw).getD y 0 = wordR F n c P all.reverse y := by
  induction m with
  | zero =>
    intro r0 cw _ h2 h3 h4 h5
    have : all.take r0 = all := List.take_of_length_le (by omega)
    rw [this] at h5
    have h4' : cw.length = 4 := by rw [h4]; rfl
    rw [h4'] at h5
    exact ⟨h4', h5⟩
  | succ m ih =>
    intro r0 cw h1 h2 h3 h4 h5
    have hlen : cw.length / 2 = 2 ^ (m + 2) := by
      rw [h4, show m + 1 + 2 = m + 2 + 1 by omega, pow_succ, Nat.mul_div_cancel _ (by norm_num)]
    rw [List.range'_succ, foldRest, if_neg (by rw [hlen]; positivity), hlen]
    refine ih (r0 + 1) _ (by omega) (by omega) h3 (by simp) ?_
    intro y hy
    simp only [List.length_map, List.length_range] at hy
    have hcl : cw.length = 2 * 2 ^ (m + 2) := by rw [h4]; ring
    rw [getD_map_range _ _ _ _ hy, h5 _ (by omega), h5 _ (by omega)]
    have ht : (all.take (r0 + 1)).reverse = all.getD r0 0 :: (all.take r0).reverse := by
      rw [List.take_succ_eq_append_getElem (by omega), List.reverse_append, List.getD_eq_getElem _ _ (by omega)]; rfl
    have hl : (all.take r0).reverse.length = r0 := by rw [List.length_reverse, List.length_take]; omega
    rw [ht, wordR, hl, if_neg (by omega)]
    rfl

/-- The rounds of a query. `W j` is the word before round `j`. -/
theorem queryRounds_link {S : Setup K L N (List L × List Nat)} (e' : Nat) (he' : 0 < e') (he : S.ext.perLeaf = 2 * e') (n : Nat) (q : Nat) (all fin : List L)
    (W : Nat → Nat → L) (c : Nat) (pairs : List (RoundProof L N × N)) : ∀ (j : Nat) (cur : L), j + pairs.length = c →
      (∀ y v, fin[y]? = some v → v = W (c + 1) y) →
      (∀ (i : Nat) rp root', pairs[i]? = some (rp, root') → ∀ p vals,
        (p = rp.leafProof ∧ vals = rp.leafValues) ∨ (p = rp.siblingProof ∧ vals = rp.siblingValues) →
        p.verify S.hash root' = true → leafValuesOk S.ext p.leaf vals = true →
        ∀ (o : Nat) v, vals[o]? = some v → v = W (j + i + 1) (p.index * S.ext.perLeaf + o)) →
      cur = foldW S.F (n + 1 - j) (W j) (all.getD j 0) (q / 2 ^ (j + 1)) →
      verifyQueryRounds S (n + 2) all fin pairs j (q / 2 ^ (j + 1)) cur = some true →
      ∀ i, j ≤ i → i ≤ c → W (i + 1) (q / 2 ^ (i + 1)) = foldW S.F (n + 1 - i) (W i) (all.getD i 0) (q / 2 ^ (i + 1)) := by
  induction pairs with
  | nil =>
    intro j cur hj hfin _ hcur h i hi hi'
    simp only [List.length_nil, Nat.add_zero] at hj
    obtain rfl : i = j := by omega
    subst hj
    rw [verifyQueryRounds] at h
    rw [Option.bind_eq_bind, Option.bind_eq_some_iff] at h
    obtain ⟨v, hv, h⟩ := h
    have h := of_decide_eq_true (Option.some.inj h)
    rw [← hfin _ _ hv, h, hcur]
  | cons x pairs ih =>
    obtain ⟨rp, root⟩ := x
    intro j cur hj hfin hread hcur h
    have hrd := hread 0 rp root rfl
    rw [verifyQueryRounds] at h
    dsimp only at h
    generalize hidx : q / 2 ^ (j + 1) = idx at *
    obtain ⟨g1, g2, g3⟩ := pair_leaf e' idx he'
    rw [← he] at g1 g2 g3
    by_cases c1 : (!rp.leafProof.verify S.hash root) = true
    · rw [if_pos c1] at h; cases h
    rw [if_neg c1] at h
    by_cases c2 : rp.leafProof.index ≠ idx / 2 * 2 / S.ext.perLeaf
    · rw [if_pos c2] at h; cases h
    rw [if_neg c2] at h
    by_cases c3 : (!leafValuesOk S.ext rp.leafProof.leaf rp.leafValues) = true
    · rw [if_pos c3] at h; cases h
    rw [if_neg c3] at h
    by_cases c4 : idx % S.ext.perLeaf ≥ rp.leafValues.length
    · rw [if_pos c4] at h; cases h
    rw [if_neg c4, List.getElem?_eq_getElem (not_le.mp c4)] at h
    simp only [Option.bind_eq_bind, Option.bind_some] at h
    by_cases c5 : rp.leafValues[idx % S.ext.perLeaf]'(not_le.mp c4) ≠ cur
    · rw [if_pos c5] at h; cases h
    rw [if_neg c5] at h
    by_cases c6 : (!rp.siblingProof.verify S.hash root) = true
    · rw [if_pos c6] at h; cases h
    rw [if_neg c6] at h
    by_cases c7 : rp.siblingProof.index ≠ (idx / 2 * 2 + 1) / S.ext.perLeaf
    · rw [if_pos c7] at h; cases h
    rw [if_neg c7] at h
    by_cases c8 : (!leafValuesOk S.ext rp.siblingProof.leaf rp.siblingValues) = true
    · rw [if_pos c8] at h; cases h
    rw [if_neg c8] at h
    simp only [Bool.not_eq_true', Bool.not_eq_false] at c1 c3 c6 c8
    push Not at c2 c5 c7
    have hl := hrd _ _ (Or.inl ⟨rfl, rfl⟩) c1 c3
    have hs := hrd _ _ (Or.inr ⟨rfl, rfl⟩) c6 c8
    rw [c2, g2] at hl
    rw [c7, g1] at hs
    have e1 : idx / S.ext.perLeaf * S.ext.perLeaf + idx % S.ext.perLeaf = idx := by rw [mul_comm]; exact Nat.div_add_mod _ _
    have e2 : idx / S.ext.perLeaf * S.ext.perLeaf + idx / 2 * 2 % S.ext.perLeaf = 2 * (idx / 2) := by
      rw [← g2, mul_comm, Nat.div_add_mod, mul_comm]
    have e3 : idx / S.ext.perLeaf * S.ext.perLeaf + (idx / 2 * 2 + 1) % S.ext.perLeaf = 2 * (idx / 2) + 1 := by
      rw [← g1, mul_comm, Nat.div_add_mod, mul_comm]
    have hact : W (j + 1) idx = cur := by
      have := hl _ _ (List.getElem?_eq_getElem (not_le.mp c4))
      rw [e1, c5] at this
      exact this.symm
    rw [if_pos (g1.trans g2.symm)] at h
    obtain ⟨lo, hi, r, klo, khi, hr, h⟩ : ∃ lo hi r, lo = W (j + 1) (2 * (idx / 2)) ∧ hi = W (j + 1) (2 * (idx / 2) + 1) ∧
        all[j + 1]? = some r ∧ verifyQueryRounds S (n + 2) all fin pairs (j + 1) (idx / 2)
          (foldSingle lo hi r (foldCoeff S.F (n + 2 - 2 - j) (idx / 2 * 2 / 2))) = some true := by
      by_cases hpar : idx = idx / 2 * 2
      · rw [if_pos hpar, Option.bind_eq_some_iff] at h
        obtain ⟨lo, hlo, h⟩ := h
        rw [if_pos hpar, Option.bind_eq_some_iff] at h
        obtain ⟨hi, hhi, h⟩ := h
        rw [Option.bind_eq_some_iff] at h
        obtain ⟨r, hr, h⟩ := h
        exact ⟨lo, hi, r, (hl _ _ hlo).trans (by rw [e2]), (hl _ _ hhi).trans (by rw [e3]), hr, h⟩
      · rw [if_neg hpar, Option.bind_eq_some_iff] at h
        obtain ⟨lo, hlo, h⟩ := h
        rw [if_neg hpar, Option.bind_eq_some_iff] at h
        obtain ⟨hi, hhi, h⟩ := h
        rw [Option.bind_eq_some_iff] at h
        obtain ⟨r, hr, h⟩ := h
        exact ⟨lo, hi, r, (hs _ _ hlo).trans (by rw [e2]), (hl _ _ hhi).trans (by rw [e3]), hr, h⟩
    have hnext : idx / 2 = q / 2 ^ (j + 1 + 1) := by rw [← hidx, Nat.div_div_eq_div_mul, ← pow_succ]
    simp only [List.length_cons] at hj
    rw [hnext] at h klo khi
    have key := ih (j + 1) _ (by omega) hfin (fun i rp root' hi => by
      have := hread (i + 1) rp root' hi
      rwa [show j + (i + 1) + 1 = j + 1 + i + 1 by omega] at this) (by
      rw [klo, khi, Nat.mul_div_cancel _ (show 0 < 2 by norm_num), List.getD_eq_getElem?_getD, hr,
        show n + 2 - 2 - j = n + 1 - (j + 1) by omega]
      rfl) h
    intro i hij hic
    rcases Nat.lt_or_ge j i with hlt | hge
    · exact key i (by omega) hic
    · obtain rfl : i = j := by omega
      rw [hidx, hact, hcur]

/-- One query. -/
theorem query_link {S : Setup K L N (List L × List Nat)} {kb ke : Nat} (hS : SetupOk S kb ke) (root : N) (n : Nat) (all : List L) (hall : all.length = n)
    (P : Prover L N) (hP : Keeps S root n P) (qs : List Nat) (qp : QueryProof L N) (hqp : qp ∈ (P.opening all qs).queries) (q : Nat)
    (hc : (P.opening all qs).commitments.length < n)
    (h : verifyQuery S root (n + 2) (P.opening all qs) all qp q = some true) (i : Nat) (hi : i ≤ (P.opening all qs).commitments.length) :
    P.word (all.take (i + 1)) (q / 2 ^ (i + 1)) =
      foldW S.F (n + 1 - i) (P.word (all.take i)) (all.getD i 0) (q / 2 ^ (i + 1)) := by
  have hb : S.base.perLeaf = 2 * 2 ^ (kb - 1) := by
    rw [(perLeaf_spec S.base kb hS.base).1, ← pow_succ']; congr 1; have := hS.one; omega
  have he : S.ext.perLeaf = 2 * 2 ^ (ke - 1) := by
    rw [(perLeaf_spec S.ext ke hS.ext).1, ← pow_succ']; congr 1; have := hS.two; omega
  unfold verifyQuery at h
  dsimp only at h
  obtain ⟨g1, g2, _⟩ := pair_leaf (2 ^ (kb - 1)) q (Nat.two_pow_pos _)
  rw [← hb] at g1 g2
  by_cases c1 : qp.rounds.length ≠ (P.opening all qs).commitments.length
  · rw [if_pos c1] at h; cases h
  rw [if_neg c1] at h
  by_cases c2 : (!qp.leafProof.verify S.hash root) = true
  · rw [if_pos c2] at h; cases h
  rw [if_neg c2] at h
  by_cases c3 : (!qp.siblingProof.verify S.hash root) = true
  · rw [if_pos c3] at h; cases h
  rw [if_neg c3] at h
  by_cases c4 : qp.leafProof.index ≠ q / 2 * 2 / S.base.perLeaf
  · rw [if_pos c4] at h; cases h
  rw [if_neg c4] at h
  by_cases c5 : qp.siblingProof.index ≠ (q / 2 * 2 + 1) / S.base.perLeaf
  · rw [if_pos c5] at h; cases h
  rw [if_neg c5] at h
  simp only [Bool.not_eq_true', Bool.not_eq_false] at c2 c3
  push Not at c1 c4 c5
  rw [if_pos (by rw [g1, g2])] at h
  rcases hx : extractBase S.base qp.leafProof.leaf (q / 2 * 2 % S.base.perLeaf) with _ | l
  · rw [hx] at h; cases h
  rw [hx] at h
  dsimp only at h
  rcases hy : extractBase S.base qp.leafProof.leaf ((q / 2 * 2 + 1) % S.base.perLeaf) with _ | r
  · rw [hy] at h; cases h
  rw [hy] at h
  dsimp only at h
  rw [Option.bind_eq_bind, Option.bind_eq_some_iff] at h
  obtain ⟨ch, hch, h⟩ := h
  have hfirst := hP.first all qs hall qp hqp _ (Or.inl rfl) c2
  have hpos : 0 < S.base.perLeaf := by rw [hb]; positivity
  have kl := hfirst _ _ (Nat.mod_lt _ hpos) hx
  have kr := hfirst _ _ (Nat.mod_lt _ hpos) hy
  rw [c4, mul_comm, Nat.div_add_mod] at kl
  rw [c4, ← (g1.trans g2.symm), mul_comm, Nat.div_add_mod] at kr
  refine queryRounds_link (2 ^ (ke - 1)) (Nat.two_pow_pos _) he n q all _ (fun j => P.word (all.take j)) _ (qp.rounds.zip (P.opening all qs).commitments) 0 _
    ?_ ?_ ?_ ?_ (by rw [pow_one]; exact h) i (Nat.zero_le _) hi
  · rw [List.length_zip, c1]; simp
  · intro y v hv
    have hlt := (List.getElem?_eq_some_iff.mp hv).1
    have := hP.final all qs hall y hlt
    exact Option.some.inj (hv.symm.trans this)
  · intro i rp root' hz p vals hpv h1 h2 o v ho
    rw [List.getElem?_zip_eq_some] at hz
    have := hP.later all qs hall qp hqp i rp root' hz.1 hz.2 p vals hpv h1 h2 o v ho
    rwa [show 0 + i + 1 = i + 1 by omega]
  · rw [kl, kr, List.getD_eq_getElem?_getD, hch, pow_one]
    unfold foldW
    rw [show q / 2 * 2 = 2 * (q / 2) by omega, show 2 * (q / 2) / 2 = q / 2 by omega]
    rfl

end JST.Pcs
