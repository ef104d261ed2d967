import Verif.Pcs.BasefoldGold

/-!
# Properties of the BaseFold commitment: transforms, encoding, completeness, totality of the verifier

The specification is `Verif/Spec/Fft.lean` (the value of a polynomial, the mirror image of a bit string) and
`Verif/Spec/Mle.lean` (the multilinear extension).
-/

namespace JST.Props

open JST.Pcs JST.Spec JST.Merkle JST.Gkr

section

variable {K : Type} [Field K]

/-- C66. The table-driven bit reversal mirrors the low bits, for every number and every width up to 64. -/
theorem C66_bit_reverse (n w : Nat) (hw : w ≤ 64) : bitReverse n w = mirror w n := by
  rw [bitReverse_spec n w hw, mirror_eq]

example : bitReverse 6 4 = 6 ∧ bitReverse 1 10 = 512 ∧ bitReverse 3 64 = 3 * 2 ^ 62 := by decide +kernel

/-- C66. The in-place FFT of `2^k` coefficients evaluates their polynomial at the powers of a primitive `2^k`-th root
of unity, in order; the inverse FFT undoes it, and it the inverse. -/
theorem C66_fft [DecidableEq K] (F : FftField K) (hF : IsPrimitiveRoot F.root (2 ^ F.adicity)) (k : Nat) (hk : k ≤ 64)
    (hk' : k ≤ F.adicity) (a : List K) (ha : a.length = 2 ^ k) :
    ∃ ω, IsPrimitiveRoot ω (2 ^ k) ∧ ∃ b c, fftInPlace (fieldOps K) F a = some b ∧
      b = (List.range (2 ^ k)).map (fun i => polyAt a (ω ^ i)) ∧ ifftInPlace F b = some a ∧
      ifftInPlace F a = some c ∧ fftInPlace (fieldOps K) F c = some a := by
  have hω := gen_prim (F := F) hF k hk'
  have h2 : (((2 ^ k : Nat) : K)) ≠ 0 := by
    have : NeZero (2 ^ k) := ⟨by positivity⟩
    exact (hω.neZero').out
  have hz : ((1 + 1 : K) ^ k) = ((2 ^ k : Nat) : K) := by push_cast; norm_num
  refine ⟨F.gen k, hω, _, _, fftInPlace_spec hF k hk hk' a ha, rfl, ?_, ifftInPlace_spec hF k hk hk' a ha, ?_⟩
  · rw [ifftInPlace_spec hF k hk hk' _ (by simp)]
    congr 1
    apply List.ext_getElem (by simp [ha])
    intro j hj _
    rw [List.length_map, List.length_range] at hj
    rw [List.getElem_map, List.getElem_range, polyAt_map_range]
    simp only [polyAt, ha]
    rw [dft_inverse hω (by positivity) (fun t => a.getD t 0) j hj, hz, mul_comm, ← mul_assoc, inv_mul_cancel₀ h2, one_mul,
      List.getD_eq_getElem _ _ (by omega)]
  · rw [fftInPlace_spec hF k hk hk' _ (by simp)]
    congr 1
    apply List.ext_getElem (by simp [ha])
    intro j hj _
    rw [List.length_map, List.length_range] at hj
    rw [List.getElem_map, List.getElem_range, polyAt_map_range]
    simp only [polyAt, ha]
    have := dft_inverse hω.inv (by positivity) (fun t => a.getD t 0) j hj
    rw [inv_inv] at this
    rw [Finset.sum_congr rfl (fun t _ => mul_right_comm _ _ _), ← Finset.sum_mul, this, hz, mul_comm, ← mul_assoc,
      inv_mul_cancel₀ h2, one_mul, List.getD_eq_getElem _ _ (by omega)]

/-- C66. The roots of unity in the code are primitive, of the orders the code claims. -/
theorem C66_roots : IsPrimitiveRoot (goldRoot : ZMod goldP) (2 ^ 32) ∧
    IsPrimitiveRoot (extElem goldP 2 7 [0, goldRoot2]) (2 ^ 33) := ⟨goldFft_valid, goldFft2_valid⟩

/-- C66. The encoding of `2^n` values is the list of the values, at the powers of a primitive root of order four times
as large and in bit-reversed order, of the polynomial with these coefficients. -/
theorem C66_encode (F : FftField K) (hF : IsPrimitiveRoot F.root (2 ^ F.adicity)) (n : Nat) (hn : n + 2 ≤ 64)
    (hn' : n + 2 ≤ F.adicity) (evals : List K) (he : evals.length = 2 ^ n) :
    ∃ ω, IsPrimitiveRoot ω (2 ^ (n + 2)) ∧ rsEncode (fieldOps K) F evals =
      some ((List.range (2 ^ (n + 2))).map fun i => polyAt evals (ω ^ mirror (n + 2) i)) := by
  refine ⟨F.gen (n + 2), gen_prim (F := F) hF _ hn', ?_⟩
  have := rsEncode_spec (F := F) hF 2 n hn hn' evals he
  unfold rsEncode rateLog
  rw [this]
  simp only [mirror_eq, point]

/-- C66. On the `u64` limbs of Goldilocks, whatever representatives they hold, the encoding does not fail and stands
for the encoding of the values. -/
theorem C66_encode_goldilocks (n : Nat) (hn : n ≤ 30) (limbs : List Nat) (hl : limbs.length = 2 ^ n)
    (h64 : ∀ x ∈ limbs, x < 2 ^ 64) :
    ∃ ω : ZMod goldP, IsPrimitiveRoot ω (2 ^ (n + 2)) ∧ ∃ cw, rsEncode goldOps goldFftRep limbs = some cw ∧
      (∀ x ∈ cw, x < 2 ^ 64) ∧ cw.map Gold.val =
        (List.range (2 ^ (n + 2))).map fun i => polyAt (limbs.map Gold.val) (ω ^ mirror (n + 2) i) := by
  obtain ⟨ω, hω, h⟩ := C66_encode goldFft goldFft_valid n (by omega) (by show n + 2 ≤ 32; omega) (limbs.map Gold.val)
    (by simpa using hl)
  refine ⟨ω, hω, ?_⟩
  have hs : ∃ cw, rsEncode goldOps goldFftRep limbs = some cw := by
    unfold rsEncode rsEncodeWithRate
    rw [hl, Nat.log_pow (by norm_num), if_neg (by simp)]
    have hlen : (limbs ++ List.replicate (2 ^ n * 2 ^ rateLog - 2 ^ n) goldOps.zero).length = 2 ^ (n + 2) := by
      rw [List.length_append, List.length_replicate, hl, show rateLog = 2 from rfl, pow_add]; omega
    unfold fftInPlace radix2Fft
    dsimp only
    simp only [hlen, Nat.log_pow (show 1 < 2 by norm_num), ne_eq, not_true_eq_false, if_false, Option.map_some]
    exact ⟨_, rfl⟩
  obtain ⟨cw, hcw⟩ := hs
  obtain ⟨h1, h2⟩ := gold_rsEncode_val limbs h64 cw hcw
  exact ⟨cw, hcw, h1, Option.some.inj (h2.symm.trans h)⟩

example : ∃ cw, rsEncode goldOps goldFftRep [3, 2 ^ 64 - 1] = some cw ∧ cw.map Gold.val =
    (rsEncode (fieldOps (ZMod goldP)) goldFft [3, Gold.val (2 ^ 64 - 1)]).getD [] := by
  obtain ⟨ω, _, cw, h1, h2, h3⟩ := C66_encode_goldilocks 1 (by norm_num) [3, 2 ^ 64 - 1] rfl (by simp)
  obtain ⟨_, h5⟩ := gold_rsEncode_val [3, 2 ^ 64 - 1] (by simp) cw h1
  refine ⟨cw, h1, ?_⟩
  have : [3, 2 ^ 64 - 1].map Gold.val = [3, Gold.val (2 ^ 64 - 1)] := by simp [Gold.val]
  rw [this] at h5
  rw [h5]; rfl

end

section

variable {K L N τ : Type} [Field K] [Field L] [Algebra K L] [Inhabited N] [DecidableEq L] [DecidableEq N]

/-- C66. The query indices are pairwise different, below the length of the codeword, and as many as the smaller of 128
and that length. -/
theorem C66_queries (T : Transcript τ L N) (fuel : Nat) (tr : τ) (len : Nat) (hl : 0 < len) (qs : List Nat) (tr' : τ)
    (h : genQueries T fuel tr len = some (qs, tr')) :
    qs.Nodup ∧ qs.length = min 128 len ∧ ∀ q ∈ qs, q < len := genQueries_spec T fuel tr len hl _ h

/-- C66. The verifier gives a verdict on every opening, of whatever shape, for every commitment, point and value: it
does not panic. The one way out is that drawing the query indices never ends. -/
theorem C66_verifier_total (S : Setup K L N τ) (he : 0 < S.ext.perLeaf) (fuel : Nat) (com : Commitment N)
    (point : List L) (claimed : L) (op : Opening L N) (tr : τ)
    (hq : ∀ tr', genQueries S.T fuel tr' (2 ^ (com.numVars + 2)) ≠ none) :
    ∃ b, verifyBf S fuel com point claimed op tr = some b := by
  rcases h : verifyBf S fuel com point claimed op tr with _ | b
  · obtain ⟨tr', h'⟩ := verifyBf_total S he fuel com point claimed op tr h
    exact absurd h' (hq tr')
  · exact ⟨b, rfl⟩

/-- C66. Completeness, for fields whose elements come 2^kb and 2^ke to a leaf: the commitment succeeds on every vector of
values of at least two leaves' worth of codeword, the opening succeeds at every point whenever drawing the queries ends,
and the verifier accepts it with the value of the multilinear extension there. *Missing*: the memory images of the
codewords are assumed canonical (see `C66_noncanonical_rejected`). -/
theorem C66_complete_partial {S : Setup K L N τ} {kb ke : Nat} (hF : IsPrimitiveRoot S.F.root (2 ^ S.F.adicity))
    (hbase : S.base.size * 2 ^ kb = 64) (hext : S.ext.size * 2 ^ ke = 64) (h1 : 1 ≤ kb) (h2 : 2 ≤ ke)
    (n : Nat) (hn : 1 ≤ n) (hkb : kb ≤ n + 1) (h64 : n + 2 < 64) (had : n + 2 ≤ S.F.adicity)
    (evals : List K) (he : evals.length = 2 ^ n) :
    ∃ cw, rsEncode (fieldOps K) S.F evals = some cw ∧
    ∀ (mem0 : List Mem) (_ : List.Forall₂ (fun x b => b.length = S.base.size ∧ S.base.de b = some x) cw mem0)
      (mem : Nat → List L → List Mem)
      (_ : ∀ round w, List.Forall₂ (fun x b => b.length = S.ext.size ∧ S.ext.de b = some x) w (mem round w)),
    ∃ com t, commitTree S evals.length mem0 = some (com, t) ∧ com.numVars = n ∧
      ∀ (fuel : Nat) (point : List L) (tr : τ), point.length = n → ∃ trq,
        ((∃ r, genQueries S.T fuel trq (2 ^ (n + 2)) = some r) →
          ∃ op tr', openBf S fuel mem (evals.map (algebraMap K L)) (cw.map (algebraMap K L)) t n point tr = some (op, tr')) ∧
        ∀ op tr', openBf S fuel mem (evals.map (algebraMap K L)) (cw.map (algebraMap K L)) t n point tr = some (op, tr') →
          verifyBf S fuel com point (mle (fun i => algebraMap K L (evals.getD i 0)) point) op tr = some true := by
  have hcw := rsEncode_spec (F := S.F) hF 2 n (by omega) had evals he
  exact ⟨_, hcw, fun mem0 hm0 mem hmem =>
    basefold_complete ⟨hF, hbase, hext, h2, h1⟩ n hn hkb h64 had evals he _ hcw mem0 hm0 mem hmem⟩

end

section

variable {N τ : Type} [Inhabited N] [DecidableEq N]

/-- C66. Completeness for the shipped Goldilocks configuration, on the limbs: values given by any `u64` limbs, as long
as the limbs of the codeword the code computes are reduced. *Missing*: they need not be, see
`C66_noncanonical_rejected`; a vector of two values makes the prover panic, see `C66_two_values_panic`. -/
theorem C66_goldilocks_complete_partial (h : Hash Mem N) (T : Transcript τ (ExtRing goldP 2 7) N) (n : Nat) (hn : 2 ≤ n) (hn' : n ≤ 30)
    (limbs : List Nat) (hl : limbs.length = 2 ^ n) (h64 : ∀ x ∈ limbs, x < 2 ^ 64) (cw : List Nat)
    (hcw : rsEncode goldOps goldFftRep limbs = some cw) (hred : ∀ x ∈ cw, x < goldP)
    (mem : Nat → List (ExtRing goldP 2 7) → List Mem)
    (hmem : ∀ round w, List.Forall₂ (fun x b => b.length = 16 ∧ goldDe2 b = some x) w (mem round w)) :
    ∃ com t, commitTree (goldSetup h T) limbs.length (cw.map goldMem) = some (com, t) ∧
      ∀ (fuel : Nat) (point : List (ExtRing goldP 2 7)) (tr : τ), point.length = n → ∃ trq,
        ((∃ r, genQueries T fuel trq (2 ^ (n + 2)) = some r) →
          ∃ op tr', openBf (goldSetup h T) fuel mem ((limbs.map Gold.val).map (algebraMap _ _))
            ((cw.map Gold.val).map (algebraMap _ _)) t n point tr = some (op, tr')) ∧
        ∀ op tr', openBf (goldSetup h T) fuel mem ((limbs.map Gold.val).map (algebraMap _ _))
            ((cw.map Gold.val).map (algebraMap _ _)) t n point tr = some (op, tr') →
          verifyBf (goldSetup h T) fuel com point
            (mle (fun i => algebraMap _ _ ((limbs.map Gold.val).getD i 0)) point) op tr = some true := by
  obtain ⟨_, hv⟩ := gold_rsEncode_val limbs h64 cw hcw
  obtain ⟨com, t, k1, _, k3⟩ := basefold_complete (goldSetup_ok h T) n (by omega) (by omega) (by omega)
    (by show n + 2 ≤ 32; omega) (limbs.map Gold.val) (by simpa using hl) _ hv (cw.map goldMem)
    (by
      rw [List.forall₂_map_left_iff, List.forall₂_map_right_iff, List.forall₂_same]
      exact fun x hx => goldMem_canon x (hred x hx)) mem hmem
  rw [List.length_map] at k1
  exact ⟨com, t, k1, k3⟩

/-- C66. Completeness for the shipped configuration whose circuit field is the degree-two extension. -/
theorem C66_goldilocks2_complete_partial (h : Hash Mem N) (T : Transcript τ (ExtRing goldP 2 7) N) (n : Nat) (hn : 1 ≤ n) (hn' : n ≤ 31)
    (evals : List (ExtRing goldP 2 7)) (he : evals.length = 2 ^ n) :
    ∃ cw, rsEncode (fieldOps (ExtRing goldP 2 7)) goldFft2 evals = some cw ∧
    ∀ (mem0 : List Mem) (_ : List.Forall₂ (fun x b => b.length = 16 ∧ goldDe2 b = some x) cw mem0)
      (mem : Nat → List (ExtRing goldP 2 7) → List Mem)
      (_ : ∀ round w, List.Forall₂ (fun x b => b.length = 16 ∧ goldDe2 b = some x) w (mem round w)),
    ∃ com t, commitTree (goldSetup2 h T) evals.length mem0 = some (com, t) ∧
      ∀ (fuel : Nat) (point : List (ExtRing goldP 2 7)) (tr : τ), point.length = n → ∃ trq,
        ((∃ r, genQueries T fuel trq (2 ^ (n + 2)) = some r) →
          ∃ op tr', openBf (goldSetup2 h T) fuel mem evals cw t n point tr = some (op, tr')) ∧
        ∀ op tr', openBf (goldSetup2 h T) fuel mem evals cw t n point tr = some (op, tr') →
          verifyBf (goldSetup2 h T) fuel com point (mle (fun i => evals.getD i 0) point) op tr = some true := by
  have hcw := rsEncode_spec (F := goldFft2) goldFft2_valid 2 n (by omega) (by show n + 2 ≤ 33; omega) evals he
  refine ⟨_, hcw, fun mem0 hm0 mem hmem => ?_⟩
  obtain ⟨com, t, k1, _, k3⟩ := basefold_complete (goldSetup2_ok h T) n hn (by omega) (by omega)
    (by show n + 2 ≤ 33; omega) evals he _ hcw mem0 hm0 mem hmem
  refine ⟨com, t, k1, ?_⟩
  simp only [Algebra.algebraMap_self, RingHom.id_apply, RingHom.coe_id, List.map_id] at k3
  exact k3

/-- C66 fails without that assumption. For the values a, p - a, 0, 0, … the first limb of the codeword is p, which is
what the leaf holds and what the verifier refuses to read: the honest opening at any point is refused whenever the
first or the second position is queried, which is always so up to five variables. -/
theorem C66_noncanonical_rejected (h : Hash Mem N) (T : Transcript τ (ExtRing goldP 2 7) N) (n : Nat) (hn : 2 ≤ n) (hn' : n ≤ 30)
    (a : Nat) (h0 : 0 < a) (ha : a < goldP)
    (mem : Nat → List (ExtRing goldP 2 7) → List Mem)
    (hmem : ∀ round w, List.Forall₂ (fun x b => b.length = 16 ∧ goldDe2 b = some x) w (mem round w)) :
    ∃ limbs, limbs = a :: (goldP - a) :: List.replicate (2 ^ n - 2) 0 ∧
    ∃ cw, rsEncode goldOps goldFftRep limbs = some cw ∧
    ∃ com t, commitTree (goldSetup h T) limbs.length (cw.map goldMem) = some (com, t) ∧
      ∀ (fuel : Nat) (point : List (ExtRing goldP 2 7)) (tr : τ), point.length = n → ∃ trq,
        ((∃ r, genQueries T fuel trq (2 ^ (n + 2)) = some r) →
          ∃ op tr', openBf (goldSetup h T) fuel mem ((limbs.map Gold.val).map (algebraMap _ _))
            ((cw.map Gold.val).map (algebraMap _ _)) t n point tr = some (op, tr')) ∧
        ∀ op tr', openBf (goldSetup h T) fuel mem ((limbs.map Gold.val).map (algebraMap _ _))
            ((cw.map Gold.val).map (algebraMap _ _)) t n point tr = some (op, tr') →
          (n ≤ 5 ∨ ∀ r, genQueries T fuel trq (2 ^ (n + 2)) = some r → 0 ∈ r.1 ∨ 1 ∈ r.1) →
          verifyBf (goldSetup h T) fuel com point
            (mle (fun i => algebraMap _ _ ((limbs.map Gold.val).getD i 0)) point) op tr ≠ some true := by
  refine ⟨_, rfl, ?_⟩
  have hp : goldP = Gold.MOD := rfl
  have hlt : goldP < 2 ^ 64 := by norm_num [goldP]
  obtain ⟨cw, hcw, hlen, hfirst⟩ := gold_first n (by omega) (by omega) a h0 (by rw [← hp]; exact ha)
  rw [← hp] at hcw hfirst
  obtain ⟨limbs, hlimbs⟩ : ∃ limbs, limbs = a :: (goldP - a) :: List.replicate (2 ^ n - 2) 0 := ⟨_, rfl⟩
  rw [← hlimbs] at hcw ⊢
  refine ⟨cw, hcw, ?_⟩
  have h2 : 2 ≤ 2 ^ n := by
    calc 2 = 2 ^ 1 := rfl
      _ ≤ 2 ^ n := Nat.pow_le_pow_right (by norm_num) (by omega)
  have hll : limbs.length = 2 ^ n := by
    rw [hlimbs]; simp only [List.length_cons, List.length_replicate]; omega
  have h64 : ∀ x ∈ limbs, x < 2 ^ 64 := by
    intro x hx
    rw [hlimbs, List.mem_cons, List.mem_cons] at hx
    rcases hx with rfl | rfl | hx
    · omega
    · omega
    · rw [List.eq_of_mem_replicate hx]; norm_num
  obtain ⟨_, hv⟩ := gold_rsEncode_val limbs h64 cw hcw
  obtain ⟨com, t, k1, k2⟩ := basefold_reject (goldSetup_ok h T) n (by omega) (by omega) (by omega)
    (by show n + 2 ≤ 32; omega) (limbs.map Gold.val) (by simpa using hll) _ hv (cw.map goldMem)
    (by
      intro b hb
      obtain ⟨x, _, rfl⟩ := List.mem_map.mp hb
      exact leEnc_length 8 x)
    (by rw [List.length_map, hlen]) 0
    (by
      have h0' : (cw.map goldMem).getD 0 [] = goldMem goldP := by
        rcases cw with _ | ⟨c, cw⟩
        · simp at hlen
          exact absurd hlen.symm (by positivity)
        · rw [List.getD_cons_zero] at hfirst
          rw [List.map_cons, List.getD_cons_zero, hfirst]
      have := goldCodec_de goldP hlt
      rw [if_neg (by rw [hp]; omega)] at this
      rw [h0']
      exact this) mem hmem
  rw [List.length_map] at k1
  refine ⟨com, t, k1, fun fuel point tr hpt => ?_⟩
  obtain ⟨trq, q1, q2⟩ := k2 fuel point tr hpt
  refine ⟨trq, q1, fun op tr' hop hq => q2 op tr' hop fun r hr => ?_⟩
  rcases hq with hq | hq
  · refine ⟨0, genQueries_all T fuel trq _ (by positivity) ?_ r hr 0 (by positivity), rfl⟩
    calc 2 ^ (n + 2) ≤ 2 ^ 7 := Nat.pow_le_pow_right (by norm_num) (by omega)
      _ ≤ numQueries := by decide
  · rcases hq r hr with h | h
    · exact ⟨0, h, rfl⟩
    · exact ⟨1, h, rfl⟩

/-- C66 fails for two values over Goldilocks: the codeword fills one leaf, and opening a tree of one leaf panics
(`C24_single_leaf_panics`), whatever the values, the codeword and the point. -/
theorem C66_two_values_panic (h : Hash Mem N) (T : Transcript τ (ExtRing goldP 2 7) N) (mem0 : List Mem)
    (hm0 : ∀ b ∈ mem0, b.length = 8) (hlen : mem0.length = 8)
    (mem : Nat → List (ExtRing goldP 2 7) → List Mem) :
    ∃ com t, commitTree (goldSetup h T) 2 mem0 = some (com, t) ∧
      ∀ (fuel : Nat) (evals cw point : List (ExtRing goldP 2 7)) (tr : τ),
        openBf (goldSetup h T) fuel mem evals cw t 1 point tr = none := by
  obtain ⟨leaves, l1, l2, _⟩ := leavesOf_spec 8 3 3 rfl (by omega) mem0 hm0 hlen
  obtain ⟨x, rfl⟩ := List.length_eq_one_iff.mp l2
  obtain ⟨t, t1, t2, t3⟩ := C24_single_leaf_panics h x
  have htree : treeOf h 8 mem0 = some t := by unfold treeOf; rw [l1]; exact t1
  refine ⟨_, t, by unfold commitTree; rw [show treeOf (goldSetup h T).hash (goldSetup h T).base.size mem0 = some t from htree]; simp [t2]; rfl, ?_⟩
  intro fuel evals cw point tr
  unfold openBf
  split_ifs
  · rfl
  rcases hr : proveRounds (goldSetup h T) mem (1 + rateLog) 1 0 evals (buildEqTable point) cw false tr with _ | ⟨rounds, last, tr1⟩
  · simp [hr]
  rcases hg : genQueries (goldSetup h T).T fuel tr1 (2 ^ (1 + rateLog)) with _ | ⟨qs, tr2⟩
  · simp [hr, hg]
  obtain ⟨_, g2, g3⟩ := genQueries_spec _ fuel tr1 _ (by positivity) _ hg
  have hq : ∀ q < 8, ∀ rs, openQuery (goldSetup h T) t rs q = none := by
    intro q hq rs
    unfold openQuery openPair
    have e : (goldSetup h T).base.perLeaf = 8 := (perLeaf_spec goldCodec 3 rfl).1
    dsimp only
    rw [e, show q / 2 * 2 / 8 = 0 by omega, t3]
    rfl
  rcases qs with _ | ⟨q, qs⟩
  · exact absurd g2 (by simp [numQueries, rateLog])
  · have := g3 q (by simp)
    simp [hr, hg, List.mapM_cons, hq q (by simpa [rateLog] using this)]

example : ∃ b : List Mem, (∀ x ∈ b, x.length = 8) ∧ b.length = 8 :=
  ⟨List.replicate 8 (goldMem 3), by simp [goldMem, leEnc_length], by simp⟩

/-- A transcript that ignores what it absorbs. -/
noncomputable def toyTranscript : Transcript Unit (ExtRing goldP 2 7) Nat :=
  ⟨fun _ _ => (), fun _ _ => (), fun _ => (5, ()), fun _ k => (List.range k, ())⟩

/-- A toy hash. -/
def toyHash : Hash Mem Nat := ⟨fun b => b.length, fun x y => x + 2 * y + 1⟩

theorem toy_queries : ∃ r, genQueries toyTranscript 1 () (2 ^ (2 + 2)) = some r := ⟨_, rfl⟩

/-- The canonical memory of the elements of the challenge field. -/
noncomputable def canonMem (w : List (ExtRing goldP 2 7)) : List Mem := w.map fun z => (goldCodec2_canon z).choose

theorem canonMem_canon (w : List (ExtRing goldP 2 7)) :
    List.Forall₂ (fun x b => b.length = 16 ∧ goldDe2 b = some x) w (canonMem w) := by
  unfold canonMem
  rw [List.forall₂_map_right_iff, List.forall₂_same]
  exact fun z _ => (goldCodec2_canon z).choose_spec

/-- The honest opening of the values 7, 0, 0, 0 at (2, 3) is accepted with 14 … -/
example : ∃ com t op tr', commitTree (goldSetup toyHash toyTranscript) 4 (List.replicate 16 (goldMem 7)) = some (com, t) ∧
    openBf (goldSetup toyHash toyTranscript) 1 (fun _ => canonMem) (([7, 0, 0, 0].map Gold.val).map (algebraMap _ _))
      (((List.replicate 16 7).map Gold.val).map (algebraMap _ _)) t 2 [2, 3] () = some (op, tr') ∧
    verifyBf (goldSetup toyHash toyTranscript) 1 com [2, 3] 14 op () = some true := by
  obtain ⟨com, t, h1, h2⟩ := C66_goldilocks_complete_partial toyHash toyTranscript 2 (by norm_num) (by norm_num) [7, 0, 0, 0]
    rfl (by simp) (List.replicate 16 7) (by decide +kernel) (by decide) (fun _ => canonMem) (fun _ => canonMem_canon)
  obtain ⟨trq, h3, h4⟩ := h2 1 [2, 3] () rfl
  obtain ⟨op, tr', h5⟩ := h3 toy_queries
  refine ⟨com, t, op, tr', h1, h5, ?_⟩
  have h6 := h4 op tr' h5
  have hm : ∀ (f : ZMod goldP →+* ExtRing goldP 2 7), mle (fun i => f (([7, 0, 0, 0].map Gold.val).getD i 0))
      ([2, 3] : List (ExtRing goldP 2 7)) = 14 := by
    intro f
    have h7 : f (Gold.val 7) = 7 := by rw [show Gold.val 7 = ((7 : Nat) : ZMod goldP) from rfl, map_natCast]; rfl
    have h0 : f (Gold.val 0) = 0 := by rw [show Gold.val 0 = ((0 : Nat) : ZMod goldP) from rfl, map_natCast]; simp
    have h7' : f 7 = 7 := h7
    simp [mle, chi, Finset.sum_range_succ, h7']
    norm_num
  rw [hm] at h6
  exact h6

/-- … and that of 1, -1, 0, 0 is refused. -/
example : ∃ com t cw op tr', commitTree (goldSetup toyHash toyTranscript) 4 (cw.map goldMem) = some (com, t) ∧
    rsEncode goldOps goldFftRep [1, goldP - 1, 0, 0] = some cw ∧
    openBf (goldSetup toyHash toyTranscript) 1 (fun _ => canonMem) (([1, goldP - 1, 0, 0].map Gold.val).map (algebraMap _ _))
      ((cw.map Gold.val).map (algebraMap _ _)) t 2 [2, 3] () = some (op, tr') ∧
    verifyBf (goldSetup toyHash toyTranscript) 1 com [2, 3]
      (mle (fun i => algebraMap (ZMod goldP) (ExtRing goldP 2 7) (([1, goldP - 1, 0, 0].map Gold.val).getD i 0))
        ([2, 3] : List (ExtRing goldP 2 7)))
      op () ≠ some true := by
  obtain ⟨limbs, hl, cw, h0, com, t, h1, h2⟩ := C66_noncanonical_rejected toyHash toyTranscript 2 (by norm_num) (by norm_num) 1
    (by norm_num) (by norm_num [goldP]) (fun _ => canonMem) (fun _ => canonMem_canon)
  obtain ⟨trq, h3, h4⟩ := h2 1 [2, 3] () rfl
  obtain ⟨op, tr', h5⟩ := h3 toy_queries
  obtain rfl : limbs = [1, goldP - 1, 0, 0] := hl
  exact ⟨com, t, cw, op, tr', h1, h0, h5, h4 op tr' h5 (Or.inl (by norm_num))⟩

end

end JST.Props
