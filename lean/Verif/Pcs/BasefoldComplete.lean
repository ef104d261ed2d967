import Verif.Pcs.BasefoldRounds

/-! # Proofs: completeness of BaseFold -/

namespace JST.Pcs

open JST.Merkle JST.Spec JST.Gkr

variable {K L N τ : Type} [Field K] [Field L] [Algebra K L] [Inhabited N]

theorem foldSingle_enc {F : FftField K} (hF : F.Valid) (log n : Nat) (hl : log ≤ 64) (hl' : log + 1 ≤ F.adicity)
    (g : List L) (hg : g.length = 2 * n) (r : L) (i : Nat) (hi : i < 2 ^ log) :
    foldSingle ((enc F (log + 1) g).getD (2 * i) 0) ((enc F (log + 1) g).getD (2 * i + 1) 0) r (foldCoeff F log i) =
      (enc F log (foldTable g r)).getD i 0 := by
  have h := foldCodeword_enc hF log n hl hl' g hg r
  have hlen : (enc F (log + 1) g).length / 2 = 2 ^ log := by
    rw [length_enc, pow_succ, Nat.mul_div_cancel _ (by norm_num)]
  unfold foldCodeword at h
  rw [if_neg (by rw [hlen]; simp [twiddleCoeffs]), hlen] at h
  rw [← Option.some.inj h, getD_map_range _ _ _ _ hi, twiddleCoeffs, getD_map_range _ _ _ _ hi]

theorem foldRest_spec {F : FftField K} (hF : F.Valid) (log : Nat) (hl : log ≤ 64) (hl' : log ≤ F.adicity) (challenges : List L)
    (m : Nat) : ∀ (r0 : Nat) (g rs : List L), r0 + m + 2 = log → g.length = 2 ^ m → challenges.drop r0 = rs →
      rs.length = m →
      foldRest F log challenges (List.range' r0 m) (enc F (m + 2) g) = enc F 2 [mle (fun i => g.getD i 0) rs] := by
  induction m with
  | zero =>
    intro r0 g rs h1 h2 h3 h4
    obtain ⟨x, rfl⟩ : ∃ x, g = [x] := List.length_eq_one_iff.mp (by simpa using h2)
    obtain rfl : rs = [] := List.length_eq_zero_iff.mp h4
    simp [foldRest, mle_nil]
  | succ m ih =>
    intro r0 g rs h1 h2 h3 h4
    obtain ⟨r, rs, rfl⟩ : ∃ r rs', rs = r :: rs' := by
      rcases rs with _ | ⟨r, rs⟩
      · simp at h4
      · exact ⟨r, rs, rfl⟩
    simp only [List.length_cons, Nat.add_right_cancel_iff] at h4
    have hlen : (enc F (m + 1 + 2) g).length / 2 = 2 ^ (m + 2) := by
      rw [length_enc, show m + 1 + 2 = m + 2 + 1 by omega, pow_succ, Nat.mul_div_cancel _ (by norm_num)]
    have hr : challenges.getD r0 0 = r := by
      rw [List.getD_eq_getElem?_getD]
      have := congrArg (fun l => l[0]?) h3
      simp only [List.getElem?_drop, Nat.add_zero, List.getElem?_cons_zero] at this
      rw [this]; rfl
    rw [List.range'_succ, foldRest, if_neg (by rw [hlen]; positivity), hlen, hr]
    have hfold : (List.range (2 ^ (m + 2))).map (fun i => foldSingle ((enc F (m + 1 + 2) g).getD (2 * i) 0)
        ((enc F (m + 1 + 2) g).getD (2 * i + 1) 0) r (foldCoeff F (log - 1 - r0) i)) = enc F (m + 2) (foldTable g r) := by
      refine list_eq_of_getD (0 : L) (by simp) (length_enc _ _ _) fun i hi => ?_
      rw [getD_map_range _ _ _ _ hi, show log - 1 - r0 = m + 2 by omega]
      exact foldSingle_enc hF (m + 2) (2 ^ m) (by omega) (by omega) g (by rw [h2]; ring) r i hi
    rw [hfold, ih (r0 + 1) (foldTable g r) rs (by omega) (by rw [length_foldTable, h2]; omega)
      (by rw [← List.drop_drop, h3]; rfl) h4, mle_foldTable g r rs (by rw [h2, h4])]

section

variable [DecidableEq L] [DecidableEq N]

omit [Algebra K L] [Field K] [Field L] [Inhabited N] [DecidableEq L] [DecidableEq N] in
theorem slice_getElem? (cw : List L) (e l off : Nat) (hoff : off < e) (hl : l * e + e ≤ cw.length) :
    ((cw.take (min (l * e + e) cw.length)).drop (l * e))[off]? = cw[l * e + off]? := by
  rw [List.getElem?_drop, List.getElem?_take, if_pos (by omega)]

omit [Algebra K L] [Field K] [Field L] [Inhabited N] [DecidableEq L] [DecidableEq N] in
theorem slice_length (cw : List L) (e l : Nat) (hl : l * e + e ≤ cw.length) :
    ((cw.take (min (l * e + e) cw.length)).drop (l * e)).length = e := by
  rw [List.length_drop, List.length_take]; omega

/-- The geometry of a pair: both elements in the same leaf of an even number of elements. -/
theorem pair_leaf (e' idx : Nat) (he : 0 < e') :
    (idx / 2 * 2 + 1) / (2 * e') = idx / (2 * e') ∧ idx / 2 * 2 / (2 * e') = idx / (2 * e') ∧
    (idx / 2 * 2 + 1) % (2 * e') = idx / 2 * 2 % (2 * e') + 1 := by
  have h1 : ∀ x, x / (2 * e') = x / 2 / e' := fun x => (Nat.div_div_eq_div_mul _ _ _).symm
  refine ⟨?_, ?_, ?_⟩
  · rw [h1, h1]; congr 1; omega
  · rw [h1, h1]; congr 1; omega
  · have h2 : idx / 2 * 2 % (2 * e') = 2 * (idx / 2 % e') := by rw [mul_comm, Nat.mul_mod_mul_left]
    have h3 := Nat.mod_lt (idx / 2) he
    rw [Nat.add_mod, h2, Nat.mod_eq_of_lt (a := 1) (by omega), Nat.mod_eq_of_lt (by omega)]

theorem queryRounds_complete {S : Setup K L N τ} {kb ke : Nat} (hS : SetupOk S kb ke) (n : Nat)
    (h64 : n + 2 ≤ 64) (had : n + 2 ≤ S.F.adicity) (mem : Nat → List L → List Mem)
    (hmem : ∀ round cw, List.Forall₂ (Canon S.ext) cw (mem round cw)) (challenges fin : List L)
    (chain : List (N × Tree Mem N × List L)) :
    ∀ (left round : Nat) (f : List L) (r : L) (rs : List L) (idx : Nat), Chain S mem ke fin chain left round f (r :: rs) →
      f.length = 2 ^ left → challenges.drop round = r :: rs → round + left = n → 1 ≤ left → idx < 2 ^ (left + 1) →
      ∃ rps, openRounds S.ext.perLeaf chain idx = some rps ∧ rps.length = chain.length ∧
        verifyQueryRounds S (n + 2) challenges fin (rps.zip (chain.map (·.1))) round idx
          ((enc S.F (left + 1) (foldTable f r)).getD idx 0) = some true := by
  induction chain with
  | nil =>
    intro left round f r rs idx hc hf hd hn hl hi
    obtain ⟨_, hfin⟩ := hc
    refine ⟨[], rfl, rfl, ?_⟩
    rw [List.map_nil, List.zip_nil_right, verifyQueryRounds, hfin,
      List.getElem?_eq_getElem (by rw [length_enc]; exact hi)]
    simp only [Option.bind_eq_bind, Option.bind_some]
    rw [List.getD_eq_getElem _ _ (by rw [length_enc]; exact hi)]
    simp
  | cons x chain ih =>
    obtain ⟨root, t, cw⟩ := x
    intro left round f r rs idx hc hf hd hn hl hi
    obtain ⟨hke, hcw, ht, hroot, hrest⟩ := hc
    obtain ⟨r', rs, rfl⟩ : ∃ r' rs', rs = r' :: rs' := by
      rcases rs with _ | ⟨r', rs'⟩
      · simp [Chain] at hrest
      · exact ⟨r', rs', rfl⟩
    have hke2 := hS.two
    obtain ⟨he, _⟩ := perLeaf_spec S.ext ke hS.ext
    have he2 : 2 ^ ke = 2 * 2 ^ (ke - 1) := by rw [← pow_succ', Nat.sub_add_cancel (by omega)]
    have hcwl : cw.length = 2 ^ (left + 1) := by rw [hcw, length_enc]
    have him := hmem round cw
    obtain ⟨t', root', q1, q2, q3⟩ := treeOf_spec S.hash S.ext.size ke (left + 1) hS.ext (by omega) (by omega) (mem round cw)
      (forall₂_length him) (by rw [← him.length_eq, hcwl])
    obtain rfl : t' = t := Option.some.inj (q1.symm.trans ht)
    obtain rfl : root' = root := Option.some.inj (q2.symm.trans hroot)
    obtain ⟨g1, g2, g3⟩ := pair_leaf (2 ^ (ke - 1)) idx (by positivity)
    rw [← he2] at g1 g2 g3
    have hpow : 2 ^ (left + 1) = 2 ^ (left + 1 - ke) * 2 ^ ke := by rw [← pow_add, Nat.sub_add_cancel (by omega)]
    have hleaf : idx / 2 ^ ke < 2 ^ (left + 1 - ke) := by
      rw [Nat.div_lt_iff_lt_mul (by positivity), ← hpow]; exact hi
    have hle : idx / 2 ^ ke * 2 ^ ke + 2 ^ ke ≤ cw.length := by
      rw [hcwl, hpow]
      have : (idx / 2 ^ ke + 1) * 2 ^ ke ≤ 2 ^ (left + 1 - ke) * 2 ^ ke := Nat.mul_le_mul_right _ hleaf
      rwa [add_mul, one_mul] at this
    obtain ⟨p, p1, p2, p3, p4, p5⟩ := q3 _ hleaf
    have hidx : idx / 2 ^ ke * 2 ^ ke + idx % 2 ^ ke = idx := by rw [mul_comm]; exact Nat.div_add_mod _ _
    have heven : idx / 2 ^ ke * 2 ^ ke + idx / 2 * 2 % 2 ^ ke = idx / 2 * 2 := by
      rw [← g2, mul_comm]; exact Nat.div_add_mod _ _
    have hodd : idx / 2 ^ ke * 2 ^ ke + (idx / 2 * 2 + 1) % 2 ^ ke = idx / 2 * 2 + 1 := by
      rw [← g1, mul_comm]; exact Nat.div_add_mod _ _
    have hlt : ∀ x, x % 2 ^ ke < 2 ^ ke := fun x => Nat.mod_lt _ (by positivity)
    obtain ⟨rps, r1, r2, r3⟩ := ih (left - 1) (round + 1) (foldTable f r) r' rs (idx / 2) hrest
      (by rw [length_foldTable, hf, show left = left - 1 + 1 by omega, pow_succ, Nat.mul_div_cancel _ (by norm_num),
        Nat.add_sub_cancel]) (by rw [← List.drop_drop, hd]; rfl) (by omega) (by omega)
      (by rw [Nat.sub_add_cancel hl]; rw [pow_succ] at hi; omega)
    rw [Nat.sub_add_cancel hl] at r3
    obtain ⟨vals, hvals⟩ : ∃ vals, vals = (cw.take (min (idx / 2 ^ ke * 2 ^ ke + 2 ^ ke) cw.length)).drop
      (idx / 2 ^ ke * 2 ^ ke) := ⟨_, rfl⟩
    have hv1 : vals.length = 2 ^ ke := by rw [hvals]; exact slice_length cw _ _ hle
    have hv2 : ∀ off < 2 ^ ke, vals[off]? = cw[idx / 2 ^ ke * 2 ^ ke + off]? := fun off ho => by
      rw [hvals]; exact slice_getElem? cw _ _ off ho hle
    have hev : idx / 2 * 2 + 1 < cw.length := by rw [hcwl, pow_succ] at *; omega
    refine ⟨⟨p, p, vals, vals⟩ :: rps, ?_, by simp [r2], ?_⟩
    · rw [openRounds]
      dsimp only
      rw [he] at r1
      rw [he, g1, g2, openPair, p1]
      simp only [Option.bind_eq_bind, Option.bind_some, ne_eq, not_true_eq_false, if_false, r1]
      rw [hvals]
    · rw [List.map_cons, List.zip_cons_cons, verifyQueryRounds]
      dsimp only
      have hok := leafValuesOk_leaf hS.ext him hcwl p4 p5 (by rw [← hcwl]; exact hle) vals hv1 hv2
      rw [he, g1, g2, p2, p3, hok]
      simp only [Bool.not_true, Bool.false_eq_true, if_false, ne_eq, not_true_eq_false]
      rw [if_neg (by rw [hv1]; exact not_le.mpr (hlt _)), hv2 _ (hlt _), hidx]
      rw [List.getElem?_eq_getElem (by rw [hcwl]; exact hi)]
      simp only [Option.bind_eq_bind, Option.bind_some]
      rw [← hcw, List.getD_eq_getElem _ _ (by rw [hcwl]; exact hi)]
      simp only [not_true_eq_false, if_false, if_true, ite_self]
      rw [hv2 _ (hlt _), hv2 _ (hlt _), heven, hodd, List.getElem?_eq_getElem (by omega), List.getElem?_eq_getElem hev]
      have hch : challenges[round + 1]? = some r' := by
        have := congrArg (fun l => l[1]?) hd
        simpa [List.getElem?_drop] using this
      simp only [Option.bind_some, hch]
      have hfs := foldSingle_enc (L := L) hS.valid left (2 ^ (left - 2)) (by omega) (by omega) (foldTable f r)
        (by
          rw [length_foldTable, hf, show left = left - 2 + 1 + 1 by omega, pow_succ, Nat.mul_div_cancel _ (by norm_num),
            pow_succ, mul_comm]; congr 1) r' (idx / 2) (by rw [pow_succ] at hi; omega)
      rw [← hcw, List.getD_eq_getElem _ _ (by omega), List.getD_eq_getElem _ _ (by omega)] at hfs
      have e1 : n + 2 - 2 - round = left := by omega
      have e2 : idx / 2 * 2 / 2 = idx / 2 := by omega
      rw [e1, e2]
      simp only [mul_comm 2 (idx / 2)] at hfs
      rw [hfs]
      exact r3

theorem query_run {S : Setup K L N τ} {kb ke : Nat} (hS : SetupOk S kb ke) (n : Nat) (hn : 1 ≤ n) (hkb : kb ≤ n + 1)
    (h64 : n + 2 ≤ 64) (had : n + 2 ≤ S.F.adicity) (mem : Nat → List L → List Mem)
    (hmem : ∀ round cw, List.Forall₂ (Canon S.ext) cw (mem round cw)) (challenges : List L) (op : Opening L N)
    (chain : List (N × Tree Mem N × List L)) (hop : op.commitments = chain.map (·.1)) (f : List L) (hf : f.length = 2 ^ n)
    (r : L) (rs : List L) (hch : challenges = r :: rs) (hc : Chain S mem ke op.finalPoly chain n 0 f (r :: rs))
    (mem0 : List Mem) (hm0 : ∀ b ∈ mem0, b.length = S.base.size) (hlen : mem0.length = 2 ^ (n + 2)) (t : Tree Mem N) (root : N)
    (ht : treeOf S.hash S.base.size mem0 = some t) (hroot : t.root = some root) (q : Nat) (hq : q < 2 ^ (n + 2)) :
    ∃ (qp : QueryProof L N) (rps : List (RoundProof L N)), openQuery S t chain q = some qp ∧
      verifyQueryRounds S (n + 2) challenges op.finalPoly (rps.zip (chain.map (·.1))) 0 (q / 2)
        ((enc S.F (n + 1) (foldTable f r)).getD (q / 2) 0) = some true ∧
      verifyQuery S root (n + 2) op challenges qp q =
        match S.base.de (mem0.getD (q / 2 * 2) []), S.base.de (mem0.getD (q / 2 * 2 + 1) []) with
        | some x, some y => verifyQueryRounds S (n + 2) challenges op.finalPoly (rps.zip (chain.map (·.1))) 0 (q / 2)
            (foldSingle (algebraMap K L x) (algebraMap K L y) r (foldCoeff S.F (n + 1) (q / 2)))
        | _, _ => some false := by
  obtain ⟨rps, r1, r2, r3⟩ := queryRounds_complete hS n h64 had mem hmem challenges op.finalPoly chain n 0 f r rs (q / 2) hc hf
    (by rw [List.drop_zero, hch]) (by omega) hn (by rw [pow_succ] at hq; omega)
  obtain ⟨t', root', q1, q2, q3⟩ := treeOf_spec S.hash S.base.size kb (n + 2) hS.base (by omega) (by omega) mem0
    hm0 hlen
  obtain rfl : t' = t := Option.some.inj (q1.symm.trans ht)
  obtain rfl : root' = root := Option.some.inj (q2.symm.trans hroot)
  have he := (perLeaf_spec S.base kb hS.base).1
  have hone := hS.one
  have he2 : 2 ^ kb = 2 * 2 ^ (kb - 1) := by rw [← pow_succ', Nat.sub_add_cancel (by omega)]
  obtain ⟨g1, g2, g3⟩ := pair_leaf (2 ^ (kb - 1)) q (by positivity)
  rw [← he2] at g1 g2 g3
  have hpow : 2 ^ (n + 2) = 2 ^ (n + 2 - kb) * 2 ^ kb := by rw [← pow_add, Nat.sub_add_cancel (by omega)]
  have hleaf : q / 2 ^ kb < 2 ^ (n + 2 - kb) := by
    rw [Nat.div_lt_iff_lt_mul (by positivity), ← hpow]; exact hq
  obtain ⟨p, p1, p2, p3, p4, p5⟩ := q3 _ hleaf
  have heven : q / 2 ^ kb * 2 ^ kb + q / 2 * 2 % 2 ^ kb = q / 2 * 2 := by
    rw [← g2, mul_comm]; exact Nat.div_add_mod _ _
  have hodd : q / 2 ^ kb * 2 ^ kb + (q / 2 * 2 + 1) % 2 ^ kb = q / 2 * 2 + 1 := by
    rw [← g1, mul_comm]; exact Nat.div_add_mod _ _
  have hlt : ∀ x, x % 2 ^ kb < 2 ^ kb := fun x => Nat.mod_lt _ (by positivity)
  have hql : q / 2 * 2 + 1 < 2 ^ (n + 2) := by rw [pow_succ] at *; omega
  refine ⟨⟨p, p, rps⟩, rps, ?_, r3, ?_⟩
  · rw [openQuery]
    dsimp only
    rw [he, g1, g2, openPair, p1]
    simp only [Option.bind_eq_bind, Option.bind_some, ne_eq, not_true_eq_false, if_false, r1]
  · rw [verifyQuery]
    dsimp only
    have x1 := extractBase_raw hS.base p4 p5 _ (hlt (q / 2 * 2))
    have x2 := extractBase_raw hS.base p4 p5 _ (hlt (q / 2 * 2 + 1))
    rw [heven] at x1
    rw [hodd] at x2
    rw [he, g1, g2, p2, p3, if_neg (by rw [r2, hop, List.length_map]; simp)]
    simp only [Bool.not_true, Bool.false_eq_true, if_false, ne_eq, not_true_eq_false, if_true]
    rw [x1, x2]
    rcases S.base.de (mem0.getD (q / 2 * 2) []) with _ | x
    · rfl
    rcases S.base.de (mem0.getD (q / 2 * 2 + 1) []) with _ | y
    · rfl
    have hc0 : challenges[0]? = some r := by rw [hch]; rfl
    simp only [Option.bind_eq_bind, hc0, Option.bind_some, hop]
    rw [show n + 2 - 1 = n + 1 from rfl, show q / 2 * 2 / 2 = q / 2 by omega]

theorem query_complete {S : Setup K L N τ} {kb ke : Nat} (hS : SetupOk S kb ke) (n : Nat) (hn : 1 ≤ n) (hkb : kb ≤ n + 1)
    (h64 : n + 2 ≤ 64) (had : n + 2 ≤ S.F.adicity) (mem : Nat → List L → List Mem)
    (hmem : ∀ round cw, List.Forall₂ (Canon S.ext) cw (mem round cw)) (challenges : List L) (op : Opening L N)
    (chain : List (N × Tree Mem N × List L)) (hop : op.commitments = chain.map (·.1)) (f : List L) (hf : f.length = 2 ^ n)
    (r : L) (rs : List L) (hch : challenges = r :: rs) (hc : Chain S mem ke op.finalPoly chain n 0 f (r :: rs))
    (cw0 : List K) (mem0 : List Mem) (hm0 : List.Forall₂ (Canon S.base) cw0 mem0)
    (hcw : cw0.map (algebraMap K L) = enc S.F (n + 2) f) (t : Tree Mem N) (root : N)
    (ht : treeOf S.hash S.base.size mem0 = some t) (hroot : t.root = some root) (q : Nat) (hq : q < 2 ^ (n + 2)) :
    ∃ qp, openQuery S t chain q = some qp ∧ verifyQuery S root (n + 2) op challenges qp q = some true := by
  have hlen : cw0.length = 2 ^ (n + 2) := by
    have := congrArg List.length hcw
    rwa [List.length_map, length_enc] at this
  obtain ⟨qp, rps, h1, h2, h3⟩ := query_run hS n hn hkb h64 had mem hmem challenges op chain hop f hf r rs hch hc mem0
    (forall₂_length hm0) (by rw [← hm0.length_eq, hlen]) t root ht hroot q hq
  refine ⟨qp, h1, ?_⟩
  have hql : q / 2 * 2 + 1 < 2 ^ (n + 2) := by rw [pow_succ] at *; omega
  rw [h3, (getD_of_forall₂ hm0 0 (q / 2 * 2) (by omega)).2, (getD_of_forall₂ hm0 0 (q / 2 * 2 + 1) (by omega)).2]
  dsimp only
  have hfs := foldSingle_enc (L := L) hS.valid (n + 1) (2 ^ (n - 1)) (by omega) (by omega) f
    (by rw [hf, ← pow_succ', Nat.sub_add_cancel hn]) r (q / 2) (by rw [pow_succ] at hq; omega)
  rw [show n + 1 + 1 = n + 2 from rfl, ← hcw] at hfs
  have hmap : ∀ j < 2 ^ (n + 2), (cw0.map (algebraMap K L)).getD j 0 = algebraMap K L (cw0.getD j 0) := fun j hj => by
    rw [List.getD_eq_getElem _ _ (by rw [List.length_map]; omega), List.getElem_map, List.getD_eq_getElem _ _ (by omega)]
  rw [hmap _ (by omega), hmap _ (by omega), mul_comm 2 (q / 2)] at hfs
  rw [hfs]
  exact h2

/-- What the chain says of the word in the clear. -/
theorem chain_final {S : Setup K L N τ} {ke : Nat} (mem : Nat → List L → List Mem) (fin : List L)
    (chain : List (N × Tree Mem N × List L)) : ∀ (left round : Nat) (f rs : List L),
      Chain S mem ke fin chain left round f rs → f.length = 2 ^ left → rs.length = left →
      ∃ m g, fin = enc S.F (m + 2) g ∧ g.length = 2 ^ m ∧ chain.length + 1 + m = left ∧
        mle (fun i => g.getD i 0) (rs.drop (chain.length + 1)) = mle (fun i => f.getD i 0) rs := by
  induction chain with
  | nil =>
    intro left round f rs hc hf hr
    rcases rs with _ | ⟨r, rs⟩
    · exact hc.elim
    · obtain ⟨_, hfin⟩ := hc
      simp only [List.length_cons] at hr
      subst hr
      refine ⟨rs.length, foldTable f r, hfin, ?_, by simp [add_comm], ?_⟩
      · rw [length_foldTable, hf, pow_succ, Nat.mul_div_cancel _ (by norm_num)]
      · simpa using mle_foldTable f r rs hf
  | cons x chain ih =>
    obtain ⟨root, t, cw⟩ := x
    intro left round f rs hc hf hr
    rcases rs with _ | ⟨r, rs⟩
    · exact hc.elim
    · obtain ⟨_, _, _, _, hrest⟩ := hc
      simp only [List.length_cons] at hr
      subst hr
      obtain ⟨m, g, e1, e2, e3, e4⟩ := ih rs.length (round + 1) (foldTable f r) rs hrest
        (by rw [length_foldTable, hf, pow_succ, Nat.mul_div_cancel _ (by norm_num)]) rfl
      refine ⟨m, g, e1, e2, by simp only [List.length_cons]; omega, ?_⟩
      rw [List.length_cons, List.drop_succ_cons, e4, mle_foldTable f r rs hf]

omit [Field L] [Inhabited N] [DecidableEq L] [DecidableEq N] in
theorem addBatch_lt (len target : Nat) (hl : 0 < len) (batch : List Nat) : ∀ indices : List Nat, (∀ q ∈ indices, q < len) →
    ∀ q ∈ addBatch len target indices batch, q < len := by
  unfold addBatch
  induction batch with
  | nil => intro indices h; exact h
  | cons x batch ih =>
    intro indices h
    rw [List.foldl_cons]
    refine ih _ fun q hq => ?_
    split_ifs at hq
    · exact h q hq
    · exact h q hq
    · rcases List.mem_append.mp hq with hq | hq
      · exact h q hq
      · rw [List.mem_singleton.mp hq]; exact Nat.mod_lt _ hl

omit [Field L] [Inhabited N] [DecidableEq L] [DecidableEq N] in
theorem queryLoop_lt (T : Transcript τ L N) (len target : Nat) (hl : 0 < len) (fuel : Nat) : ∀ (tr : τ) (indices : List Nat),
    (∀ q ∈ indices, q < len) → ∀ r, queryLoop T len target fuel tr indices = some r → ∀ q ∈ r.1, q < len := by
  induction fuel with
  | zero =>
    intro tr indices h r hr
    rw [queryLoop.eq_def] at hr
    dsimp only at hr
    split_ifs at hr
    rw [← Option.some.inj hr]; exact h
  | succ fuel ih =>
    intro tr indices h r hr
    rw [queryLoop.eq_def] at hr
    dsimp only at hr
    split_ifs at hr
    · rw [← Option.some.inj hr]; exact h
    · exact ih _ _ (addBatch_lt len target hl _ _ h) r hr

theorem queries_open {S : Setup K L N τ} {t : Tree Mem N} {chain : List (N × Tree Mem N × List L)} (qs : List Nat)
    (h : ∀ q ∈ qs, ∃ qp, openQuery S t chain q = some qp) :
    ∃ qps, qs.mapM (openQuery S t chain) = some qps ∧ List.Forall₂ (fun q qp => openQuery S t chain q = some qp) qs qps := by
  induction qs with
  | nil => exact ⟨[], rfl, .nil⟩
  | cons q qs ih =>
    obtain ⟨qp, h1⟩ := h q (by simp)
    obtain ⟨qps, i1, i2⟩ := ih fun x hx => h x (by simp [hx])
    exact ⟨qp :: qps, by rw [List.mapM_cons, h1, i1]; rfl, .cons h1 i2⟩

theorem queries_complete {S : Setup K L N τ} {root : N} {log : Nat} {op : Opening L N} {challenges : List L}
    {t : Tree Mem N} {chain : List (N × Tree Mem N × List L)} {qs : List Nat} {qps : List (QueryProof L N)}
    (h : List.Forall₂ (fun q qp => openQuery S t chain q = some qp) qs qps)
    (hv : ∀ q ∈ qs, ∀ qp, openQuery S t chain q = some qp → verifyQuery S root log op challenges qp q = some true) :
    verifyQueries S root log op challenges (qps.zip qs) = some true := by
  induction h with
  | nil => rw [List.zip_nil_right, verifyQueries]
  | @cons q qp qs qps h1 _ ih =>
    rw [List.zip_cons_cons, verifyQueries, hv q (by simp) qp h1]
    simp only [Option.bind_eq_bind, Option.bind_some, if_true, ih fun x hx => hv x (by simp [hx])]

theorem queries_reject {S : Setup K L N τ} {root : N} {log : Nat} {op : Opening L N} {challenges : List L}
    {t : Tree Mem N} {chain : List (N × Tree Mem N × List L)} {qs : List Nat} {qps : List (QueryProof L N)}
    (h : List.Forall₂ (fun q qp => openQuery S t chain q = some qp) qs qps)
    (hv : ∃ q ∈ qs, ∀ qp, openQuery S t chain q = some qp → verifyQuery S root log op challenges qp q = some false) :
    verifyQueries S root log op challenges (qps.zip qs) ≠ some true := by
  induction h with
  | nil => simp at hv
  | @cons q qp qs qps h1 _ ih =>
    rw [List.zip_cons_cons, verifyQueries]
    rcases hb : verifyQuery S root log op challenges qp q with _ | b
    · simp
    rcases b with _ | _
    · simp
    obtain ⟨x, hx, hx'⟩ := hv
    simp only [Option.bind_eq_bind, Option.bind_some, if_true]
    refine ih ⟨x, ?_, hx'⟩
    rcases List.mem_cons.mp hx with rfl | hx
    · rw [hx' qp h1] at hb; simp at hb
    · exact hx

theorem verifyQuery_congr (S : Setup K L N τ) (root : N) (log : Nat) (op op' : Opening L N) (challenges : List L)
    (h1 : op.commitments = op'.commitments) (h2 : op.finalPoly = op'.finalPoly) (qp : QueryProof L N) (q : Nat) :
    verifyQuery S root log op challenges qp q = verifyQuery S root log op' challenges qp q := by
  unfold verifyQuery
  rw [h1, h2]

theorem algebraMap_polyAt (a : List K) (x : K) :
    algebraMap K L (polyAt a x) = polyAt (a.map (algebraMap K L)) (algebraMap K L x) := by
  unfold polyAt
  rw [map_sum, List.length_map]
  refine Finset.sum_congr rfl fun t ht => ?_
  have ht := Finset.mem_range.mp ht
  rw [map_mul, map_pow, List.getD_eq_getElem _ _ ht, List.getD_eq_getElem _ _ (by rw [List.length_map]; exact ht),
    List.getElem_map]

/-- The honest run, whatever the memory of the committed codeword decodes to: it opens, and the verifier comes to the
queries with the challenges of the prover. -/
theorem basefold_run {S : Setup K L N τ} {kb ke : Nat} (hS : SetupOk S kb ke) (n : Nat) (hn : 1 ≤ n) (hkb : kb ≤ n + 1)
    (h64 : n + 2 < 64) (had : n + 2 ≤ S.F.adicity) (evals : List K) (he : evals.length = 2 ^ n) (cw : List K)
    (hcw : rsEncode (fieldOps K) S.F evals = some cw)
    (mem0 : List Mem) (hm0 : ∀ b ∈ mem0, b.length = S.base.size) (hlen : mem0.length = 2 ^ (n + 2))
    (mem : Nat → List L → List Mem) (hmem : ∀ round cw, List.Forall₂ (Canon S.ext) cw (mem round cw)) :
    ∃ root t, treeOf S.hash S.base.size mem0 = some t ∧ t.root = some root ∧
      cw.map (algebraMap K L) = enc S.F (n + 2) (evals.map (algebraMap K L)) ∧
      commitTree S evals.length mem0 = some (⟨root, n⟩, t) ∧
      ∀ (fuel : Nat) (point : List L) (tr : τ), point.length = n → ∃ trq,
        (genQueries S.T fuel trq (2 ^ (n + 2)) = none →
          openBf S fuel mem (evals.map (algebraMap K L)) (cw.map (algebraMap K L)) t n point tr = none) ∧
        ∀ r, genQueries S.T fuel trq (2 ^ (n + 2)) = some r →
        ∃ op chain op0 r0 rs0 qps, op0.commitments = chain.map (·.1) ∧
          Chain S mem ke op0.finalPoly chain n 0 (evals.map (algebraMap K L)) (r0 :: rs0) ∧
          (∀ q ∈ r.1, q < 2 ^ (n + 2)) ∧
          openBf S fuel mem (evals.map (algebraMap K L)) (cw.map (algebraMap K L)) t n point tr = some (op, r.2) ∧
          List.Forall₂ (fun q qp => openQuery S t chain q = some qp) r.1 qps ∧
          verifyBf S fuel ⟨root, n⟩ point (mle (fun i => algebraMap K L (evals.getD i 0)) point) op tr =
            verifyQueries S root (n + 2) op0 (r0 :: rs0) (qps.zip r.1) ∧ op.queries = qps := by
  have hspec := rsEncode_spec hS.valid 2 n (by omega) had evals he
  have hcw' := Option.some.inj (hcw.symm.trans hspec)
  set f := evals.map (algebraMap K L) with hfdef
  have hf : f.length = 2 ^ n := by rw [hfdef, List.length_map, he]
  have henc : cw.map (algebraMap K L) = enc S.F (n + 2) f := by
    rw [hcw', enc, List.map_map]
    exact List.map_congr_left fun i _ => algebraMap_polyAt _ _
  obtain ⟨t, root, q1, q2, _⟩ := treeOf_spec S.hash S.base.size kb (n + 2) hS.base (by omega) (by omega) mem0
    hm0 hlen
  have hlog : Nat.log 2 evals.length = n := by rw [he]; exact Nat.log_pow (by norm_num) n
  refine ⟨root, t, q1, q2, henc, ?_, ?_⟩
  · unfold commitTree
    simp only [Option.bind_eq_bind, q1, Option.bind_some, q2, hlog]
  intro fuel point tr hp
  have h2 : (2 : L) ≠ 0 := by
    have h := prim_two_ne (gen_prim hS.valid (n + 2) had) (by omega)
    rw [one_add_one_eq_two] at h
    intro h'
    apply h
    apply (algebraMap K L).injective
    rw [map_zero, map_ofNat]; exact h'
  have hke := hS.two
  obtain ⟨rounds, last, tr', rs, i1, i2, i3, i4, i5, i6, i7⟩ := rounds_complete hS h2 n (by omega) had mem hmem n 0 f point 1
    false tr (by omega) hf hp (by simp)
  obtain ⟨chain, fin, c1, c2⟩ := i6 (by omega) hn
  obtain ⟨d1, d2⟩ := committedOf_spec rounds chain fin _ c2
  obtain ⟨m, g, e1, e2, e3, e4⟩ := chain_final mem fin chain n 0 f rs c1 hf i2
  have hcl : chain.length + min n (ke - 1) = n := by
    have := congrArg List.length c2
    simp only [List.length_map, commits, List.length_append, List.length_cons, List.length_replicate] at this
    omega
  have hmin := minTreeElems_spec hS
  have hmle : mle (fun i => f.getD i 0) point = mle (fun i => algebraMap K L (evals.getD i 0)) point := by
    refine mle_congr _ _ _ fun i hi => ?_
    rw [hp, ← he] at hi
    rw [List.getD_eq_getElem _ _ (by rw [hfdef, List.length_map]; exact hi), List.getD_eq_getElem _ _ hi]
    simp [hfdef]
  refine ⟨tr', fun hr => ?_, fun r hr => ?_⟩
  · rw [openBf, if_neg (by simp [hp, hf]), buildEqTable_spec, henc, hp]
    simp only [one_mul] at i1
    have hrl : rateLog = 2 := rfl
    simp only [hrl, Option.bind_eq_bind, i1, Option.bind_some, hr, Option.bind_none]
  obtain ⟨qs, trq⟩ := r
  have hqs := queryLoop_lt S.T (2 ^ (n + 2)) _ (by positivity) fuel tr' [] (by simp) _ hr
  obtain ⟨r0, rs0, hrs⟩ : ∃ r0 rs0, rs = r0 :: rs0 := by
    rcases rs with _ | ⟨a, b⟩
    · simp at i2; omega
    · exact ⟨a, b, rfl⟩
  obtain ⟨op0, hop0⟩ : ∃ op0 : Opening L N, op0 = ⟨chain.map (·.1), rounds.map (·.1), fin, []⟩ := ⟨_, rfl⟩
  obtain ⟨qps, s1, s2⟩ := queries_open (S := S) (t := t) (chain := chain) qs fun q hq => by
    obtain ⟨qp, _, h, _⟩ := query_run hS n hn hkb (by omega) had mem hmem rs op0 chain (by rw [hop0]) f hf r0 rs0 hrs
      (by rw [hop0, ← hrs]; exact c1) mem0 hm0 hlen t root q1 q2 q (hqs q hq)
    exact ⟨qp, h⟩
  refine ⟨⟨chain.map (·.1), rounds.map (·.1), fin, qps⟩, chain, op0, r0, rs0, qps, by rw [hop0],
    by rw [hop0, ← hrs]; exact c1, hqs, ?_, s2, ?_, rfl⟩
  · rw [openBf, if_neg (by simp [hp, hf]), buildEqTable_spec, henc, hp]
    simp only [one_mul] at i1
    have hrl : rateLog = 2 := rfl
    simp only [hrl, Option.bind_eq_bind, i1, Option.bind_some, hr, d1, s1, d2, Option.getD_some]
  · have hshape : shapeOk S ⟨root, n⟩ point ⟨chain.map (·.1), rounds.map (·.1), fin, qps⟩ = true := by
      unfold shapeOk
      have hrl : rateLog = 2 := rfl
      simp only [hrl, List.length_map, hmin, e1, length_enc, i3, hp, Bool.and_eq_true, Bool.or_eq_true, decide_eq_true_eq]
      refine ⟨⟨⟨⟨⟨⟨⟨trivial, by omega⟩, h64⟩, trivial⟩, by omega⟩, ?_⟩, ?_⟩, ?_⟩
      · by_cases h0 : chain.length = 0
        · exact Or.inl h0
        · exact Or.inr (Nat.pow_le_pow_right (by norm_num) (by omega))
      · exact Nat.pow_lt_pow_right (by norm_num) (by omega)
      · congr 1; omega
    have habs : ∀ j < n, ∀ tr, verifierAbsorb S (n + 2) ⟨chain.map (·.1), rounds.map (·.1), fin, qps⟩ (0 + j) tr =
        (rounds[j]?).map fun p => S.T.absorb tr p.2 := by
      intro j hj tr
      have hr2 : (rounds[j]?).map (fun p => S.T.absorb tr p.2) = ((rounds.map (·.2))[j]?).map (S.T.absorb tr) := by
        rw [List.getElem?_map, Option.map_map]; rfl
      rw [hr2, c2, Nat.zero_add]
      unfold verifierAbsorb
      simp only [List.length_map, hmin]
      rcases Nat.lt_trichotomy j chain.length with h | h | h
      · rw [if_pos ⟨Nat.pow_le_pow_right (by norm_num) (by omega), h⟩,
          List.getElem?_append_left (by simpa [commits] using h), commits, List.getElem?_map, List.getElem?_map,
          Option.map_map, Option.map_map]
        rfl
      · rw [if_neg (by omega), if_pos h, List.getElem?_append_right (by simp [commits, h])]
        simp [commits, h, Transcript.absorb]
      · rw [if_neg (by omega), if_neg (by omega), List.getElem?_append_right (by simp [commits]; omega)]
        have : j - (commits chain).length = j - chain.length - 1 + 1 := by simp [commits]; omega
        rw [this, List.getElem?_cons_succ, List.getElem?_replicate, if_pos (by omega)]
        rfl
    have hver := i7 ⟨chain.map (·.1), rounds.map (·.1), fin, qps⟩ (fun j _ => by simp [List.getElem?_map]) habs
    have hdot : dotTables f ((List.range (2 ^ n)).map fun i => 1 * chi point i) =
        mle (fun i => algebraMap K L (evals.getD i 0)) point := by
      simp only [one_mul]
      rw [← hmle, ← dot_chi f point (by rw [hp, hf]), hp]
    rw [hdot] at hver
    have hrest := foldRest_spec hS.valid (n + 2) (by omega) had rs m (chain.length + 1) g (rs.drop (chain.length + 1)) (by omega) e2
      rfl (by rw [List.length_drop, i2]; omega)
    rw [verifyBf, hshape]
    have hrl : rateLog = 2 := rfl
    simp only [hrl, Bool.not_true, Bool.false_eq_true, if_false, Option.bind_eq_bind, hver, Option.bind_some, List.length_map]
    rw [show n - (chain.length + 1) = m by omega, e1, hrest, e4]
    have henc2 : ∀ x : L, enc S.F 2 [x] = [x, x, x, x] := fun x => by
      simp [enc, polyAt, List.range_succ]
    rw [henc2]
    simp only [List.any_cons, List.any_nil, ne_eq, not_true_eq_false, decide_false, Bool.or_self, Bool.false_eq_true, if_false,
      one_mul, hr, Option.bind_some, s2.length_eq]
    have hvq : ∀ l : List (QueryProof L N × Nat),
        verifyQueries S root (n + 2) ⟨chain.map (·.1), rounds.map (·.1), enc S.F (m + 2) g, qps⟩ rs l =
          verifyQueries S root (n + 2) op0 rs l := by
      intro l
      induction l with
      | nil => rfl
      | cons x l ih =>
        rw [verifyQueries, verifyQueries, ih,
          verifyQuery_congr S root (n + 2) _ op0 rs (by rw [hop0]) (by rw [hop0, e1])]
    rw [hvq, hrs]

theorem basefold_complete {S : Setup K L N τ} {kb ke : Nat} (hS : SetupOk S kb ke) (n : Nat) (hn : 1 ≤ n) (hkb : kb ≤ n + 1)
    (h64 : n + 2 < 64) (had : n + 2 ≤ S.F.adicity) (evals : List K) (he : evals.length = 2 ^ n) (cw : List K)
    (hcw : rsEncode (fieldOps K) S.F evals = some cw)
    (mem0 : List Mem) (hm0 : List.Forall₂ (Canon S.base) cw mem0)
    (mem : Nat → List L → List Mem) (hmem : ∀ round cw, List.Forall₂ (Canon S.ext) cw (mem round cw)) :
    ∃ com t, commitTree S evals.length mem0 = some (com, t) ∧ com.numVars = n ∧
      ∀ (fuel : Nat) (point : List L) (tr : τ), point.length = n → ∃ trq,
        ((∃ r, genQueries S.T fuel trq (2 ^ (n + 2)) = some r) →
          ∃ op tr', openBf S fuel mem (evals.map (algebraMap K L)) (cw.map (algebraMap K L)) t n point tr = some (op, tr')) ∧
        ∀ op tr', openBf S fuel mem (evals.map (algebraMap K L)) (cw.map (algebraMap K L)) t n point tr = some (op, tr') →
          verifyBf S fuel com point (mle (fun i => algebraMap K L (evals.getD i 0)) point) op tr = some true := by
  have hspec := rsEncode_spec hS.valid 2 n (by omega) had evals he
  have hlen : cw.length = 2 ^ (n + 2) := by rw [Option.some.inj (hcw.symm.trans hspec)]; simp
  obtain ⟨root, t, h1, h2, h3, h4, h5⟩ := basefold_run hS n hn hkb h64 had evals he cw hcw mem0 (forall₂_length hm0)
    (by rw [← hm0.length_eq, hlen]) mem hmem
  refine ⟨_, t, h4, rfl, fun fuel point tr hp => ?_⟩
  obtain ⟨trq, hnone, h⟩ := h5 fuel point tr hp
  refine ⟨trq, fun ⟨r, hr⟩ => ?_, fun op tr' hopen => ?_⟩
  · obtain ⟨op, _, _, _, _, _, _, _, _, k4, _⟩ := h r hr
    exact ⟨op, r.2, k4⟩
  rcases hg : genQueries S.T fuel trq (2 ^ (n + 2)) with _ | r
  · rw [hnone hg] at hopen; simp at hopen
  obtain ⟨op', chain, op0, r0, rs0, qps, k1, k2, k3, k4, k5, k6, _⟩ := h r hg
  obtain rfl : op' = op := (Prod.ext_iff.mp (Option.some.inj (k4.symm.trans hopen))).1
  rw [k6]
  refine queries_complete k5 fun q hq qp ho => ?_
  obtain ⟨qp', o1, o2⟩ := query_complete hS n hn hkb (by omega) had mem hmem _ op0 chain k1 _ (by rw [List.length_map, he]) r0 rs0 rfl k2
    cw mem0 hm0 h3 t root h1 h2 q (k3 q hq)
  rwa [Option.some.inj (ho.symm.trans o1)]

theorem basefold_reject {S : Setup K L N τ} {kb ke : Nat} (hS : SetupOk S kb ke) (n : Nat) (hn : 1 ≤ n) (hkb : kb ≤ n + 1)
    (h64 : n + 2 < 64) (had : n + 2 ≤ S.F.adicity) (evals : List K) (he : evals.length = 2 ^ n) (cw : List K)
    (hcw : rsEncode (fieldOps K) S.F evals = some cw)
    (mem0 : List Mem) (hm0 : ∀ b ∈ mem0, b.length = S.base.size) (hlen : mem0.length = 2 ^ (n + 2))
    (i : Nat) (hi : S.base.de (mem0.getD i []) = none)
    (mem : Nat → List L → List Mem) (hmem : ∀ round cw, List.Forall₂ (Canon S.ext) cw (mem round cw)) :
    ∃ com t, commitTree S evals.length mem0 = some (com, t) ∧
      ∀ (fuel : Nat) (point : List L) (tr : τ), point.length = n → ∃ trq,
        ((∃ r, genQueries S.T fuel trq (2 ^ (n + 2)) = some r) →
          ∃ op tr', openBf S fuel mem (evals.map (algebraMap K L)) (cw.map (algebraMap K L)) t n point tr = some (op, tr')) ∧
        ∀ op tr', openBf S fuel mem (evals.map (algebraMap K L)) (cw.map (algebraMap K L)) t n point tr = some (op, tr') →
          (∀ r, genQueries S.T fuel trq (2 ^ (n + 2)) = some r → ∃ q ∈ r.1, q / 2 = i / 2) →
          verifyBf S fuel com point (mle (fun i => algebraMap K L (evals.getD i 0)) point) op tr ≠ some true := by
  obtain ⟨root, t, h1, h2, h3, h4, h5⟩ := basefold_run hS n hn hkb h64 had evals he cw hcw mem0 hm0 hlen mem hmem
  refine ⟨_, t, h4, fun fuel point tr hp => ?_⟩
  obtain ⟨trq, hnone, h⟩ := h5 fuel point tr hp
  refine ⟨trq, fun ⟨r, hr⟩ => ?_, fun op tr' hopen hq => ?_⟩
  · obtain ⟨op, _, _, _, _, _, _, _, _, k4, _⟩ := h r hr
    exact ⟨op, r.2, k4⟩
  rcases hg : genQueries S.T fuel trq (2 ^ (n + 2)) with _ | r
  · rw [hnone hg] at hopen; simp at hopen
  obtain ⟨op', chain, op0, r0, rs0, qps, k1, k2, k3, k4, k5, k6, _⟩ := h r hg
  obtain rfl : op' = op := (Prod.ext_iff.mp (Option.some.inj (k4.symm.trans hopen))).1
  rw [k6]
  obtain ⟨q, hq, hqi⟩ := hq r hg
  refine queries_reject k5 ⟨q, hq, fun qp ho => ?_⟩
  obtain ⟨qp', rps, o1, _, o3⟩ := query_run hS n hn hkb (by omega) had mem hmem _ op0 chain k1 _ (by rw [List.length_map, he]) r0 rs0 rfl k2
    mem0 hm0 hlen t root h1 h2 q (k3 q hq)
  rw [Option.some.inj (ho.symm.trans o1), o3]
  have : i = q / 2 * 2 ∨ i = q / 2 * 2 + 1 := by omega
  rcases this with h | h
  · rw [← h, hi]
  · rw [← h, hi]
    cases S.base.de (mem0.getD (q / 2 * 2) []) <;> rfl

end

end JST.Pcs
