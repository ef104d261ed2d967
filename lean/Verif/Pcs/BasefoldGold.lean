import Mathlib.RingTheory.RootsOfUnity.PrimitiveRoots
import Verif.Pcs.BasefoldTotal
import Verif.Field.ExtField
import Verif.Props.Fields

/-! # BaseFold over Goldilocks -/

namespace JST.Pcs

open JST.Merkle JST.Spec

/-- The operations of `Goldilocks` on the `u64` limb; none of them fails on a `u64`. -/
def goldOps : Ops Nat :=
  ⟨0, 1, fun a b => (Gold.add a b).getD 0, fun a b => (Gold.sub a b).getD 0, fun a b => (Gold.mul a b).getD 0⟩

/-- `root_of_unity`, goldilocks.rs:277-281. -/
def goldRoot : Nat := 0x185629dcda58878c

/-- `FFTField for Goldilocks`, goldilocks.rs:269-282, on the limb. -/
def goldFftRep : FftField Nat := ⟨32, goldRoot⟩

/-- The same, on the field element. -/
def goldFft : FftField (ZMod goldP) := ⟨32, (goldRoot : ZMod goldP)⟩

/-- `deserialize_from`, goldilocks.rs:68-76, as an element. -/
def goldDe (b : Mem) : Option (ZMod goldP) :=
  match Gold.de b with
  | .ok (v, _) => some (v : ZMod goldP)
  | .error _ => none

/-- `deserialize_from` of `GoldilocksExt2`, derived at goldilocks_ext.rs:16: the limbs one after the other. -/
noncomputable def goldDe2 (b : Mem) : Option (ExtRing goldP 2 7) :=
  match Gold.de b with
  | .error _ => none
  | .ok (v, rest) =>
    match Gold.de rest with
    | .error _ => none
    | .ok (w, _) => some (extElem goldP 2 7 [v, w])

/-- `Goldilocks`, with `SIZE = 8`, goldilocks.rs:82. -/
def goldCodec : Codec (ZMod goldP) := ⟨8, goldDe⟩

/-- `GoldilocksExt2`, with `SIZE = 16`, goldilocks_ext.rs:26. -/
noncomputable def goldCodec2 : Codec (ExtRing goldP 2 7) := ⟨16, goldDe2⟩

/-- The memory of a limb. -/
def goldMem (v : Nat) : Mem := leEnc 8 v

theorem goldOps_computes : Computes goldOps (fun v => v < 2 ^ 64) Gold.val where
  zero := ⟨by norm_num [goldOps], by simp [goldOps]⟩
  one := ⟨by norm_num [goldOps], by simp [goldOps]⟩
  add a b ha hb := by
    obtain ⟨r, h, h1, h2⟩ := Gold.add_spec ha hb
    simp only [goldOps, h, Option.getD_some]; exact ⟨h1, h2⟩
  sub a b ha hb := by
    obtain ⟨r, h, h1, h2⟩ := Gold.sub_spec ha hb
    simp only [goldOps, h, Option.getD_some]; exact ⟨h1, h2⟩
  mul a b ha hb := by
    obtain ⟨r, h, h1, h2⟩ := Gold.mul_spec ha hb
    simp only [goldOps, h, Option.getD_some]; exact ⟨h1, h2⟩

theorem gold_pow_chain (k : Nat) : ((goldRoot : ZMod goldP)) ^ 2 ^ k =
    (((fun x => x * x % goldP)^[k] goldRoot : Nat) : ZMod goldP) := by
  induction k with
  | zero => simp
  | succ k ih =>
    rw [pow_succ, pow_mul, ih, Function.iterate_succ_apply', pow_two, ← Nat.cast_mul]
    exact (ZMod.natCast_mod _ _).symm

theorem goldFft_valid : goldFft.Valid := by
  show IsPrimitiveRoot (goldRoot : ZMod goldP) (2 ^ 32)
  have h1 : (goldRoot : ZMod goldP) ^ 2 ^ 31 ≠ 1 := by
    rw [gold_pow_chain, show (fun x => x * x % goldP)^[31] goldRoot = goldP - 1 by decide +kernel]
    intro h
    have : ((goldP - 1 : Nat) : ZMod goldP) = ((1 : Nat) : ZMod goldP) := by rw [h]; simp
    rw [ZMod.natCast_eq_natCast_iff'] at this
    revert this
    decide +kernel
  have h2 : (goldRoot : ZMod goldP) ^ 2 ^ (31 + 1) = 1 := by
    rw [gold_pow_chain, show (fun x => x * x % goldP)^[31 + 1] goldRoot = 1 by decide +kernel]
    simp
  have : Fact (Nat.Prime 2) := ⟨Nat.prime_two⟩
  have := orderOf_eq_prime_pow h1 h2
  exact IsPrimitiveRoot.iff_orderOf.mpr this

/-- `root_of_unity` of `GoldilocksExt2`, goldilocks_ext.rs:351-360: this times `X`. -/
def goldRoot2 : Nat := 0xd95051a31cf4a6ef

/-- `FFTField for GoldilocksExt2`, goldilocks_ext.rs:347-361, and, the same, `GoldilocksExt2Scalar`,
goldilocks_ext2_scalar.rs:206-213. -/
noncomputable def goldFft2 : FftField (ExtRing goldP 2 7) := ⟨33, extElem goldP 2 7 [0, goldRoot2]⟩

theorem goldFft2_valid : goldFft2.Valid := by
  show IsPrimitiveRoot (extElem goldP 2 7 [0, goldRoot2]) (2 ^ 33)
  have hsq : extElem goldP 2 7 [0, goldRoot2] ^ 2 = extC goldP 2 7 (goldRoot : ZMod goldP) := by
    have h1 : extElem goldP 2 7 [0, goldRoot2] = extC goldP 2 7 (goldRoot2 : ZMod goldP) * extX goldP 2 7 := by
      simp [extElem, Finset.sum_range_succ]
    rw [h1, mul_pow, Ext.extX_pow, ← map_pow, ← map_mul]
    have hnat : (goldRoot2 : ZMod goldP) ^ 2 * ((7 : Nat) : ZMod goldP) = (goldRoot : ZMod goldP) := by
      rw [← Nat.cast_pow, ← Nat.cast_mul]
      exact (ZMod.natCast_eq_natCast_iff' _ _ _).mpr (by decide +kernel)
    exact congrArg _ hnat
  have hpow : ∀ k, extElem goldP 2 7 [0, goldRoot2] ^ 2 ^ (k + 1) = extC goldP 2 7 ((goldRoot : ZMod goldP) ^ 2 ^ k) :=
    fun k => by rw [pow_succ' (2 : ℕ) k, pow_mul, hsq]; exact (map_pow (AdjoinRoot.of _) _ _).symm
  have hv : IsPrimitiveRoot (goldRoot : ZMod goldP) (2 ^ 32) := goldFft_valid
  have h1 : ¬ extElem goldP 2 7 [0, goldRoot2] ^ 2 ^ 32 = 1 := by
    rw [hpow 31]
    intro h
    have h' : (goldRoot : ZMod goldP) ^ 2 ^ 31 = 1 := by
      apply (AdjoinRoot.of (Polynomial.X ^ 2 - Polynomial.C ((7 : Nat) : ZMod goldP))).injective
      rw [map_one]; exact h
    exact hv.pow_ne_one_of_pos_of_lt (by norm_num) (by norm_num) h'
  have h2 : extElem goldP 2 7 [0, goldRoot2] ^ 2 ^ (32 + 1) = 1 := by
    rw [hpow 32, hv.pow_eq_one]; exact map_one (AdjoinRoot.of _)
  have : Fact (Nat.Prime 2) := ⟨Nat.prime_two⟩
  have := orderOf_eq_prime_pow h1 h2
  exact IsPrimitiveRoot.iff_orderOf.mpr this

/-- What the encoding of the limbs stands for. -/
theorem gold_rsEncode_val (evals : List Nat) (he : ∀ x ∈ evals, x < 2 ^ 64) (cw : List Nat)
    (h : rsEncode goldOps goldFftRep evals = some cw) :
    (∀ x ∈ cw, x < 2 ^ 64) ∧ rsEncode (fieldOps (ZMod goldP)) goldFft (evals.map Gold.val) =
      some (cw.map Gold.val) := by
  unfold rsEncode rsEncodeWithRate at h ⊢
  rw [List.length_map]
  split_ifs at h with hl
  rw [if_neg hl]
  obtain ⟨a, ha⟩ : ∃ a, a = evals ++ List.replicate (evals.length * 2 ^ rateLog - evals.length) goldOps.zero := ⟨_, rfl⟩
  have ha' : (evals.map Gold.val) ++ List.replicate (evals.length * 2 ^ rateLog - evals.length)
      (fieldOps (ZMod goldP)).zero = a.map Gold.val := by
    rw [ha, List.map_append, List.map_replicate]
    simp [fieldOps, goldOps]
  have hP : ∀ x ∈ a, x < 2 ^ 64 := by
    intro x hx
    rw [ha] at hx
    rcases List.mem_append.mp hx with hx | hx
    · exact he x hx
    · rw [List.eq_of_mem_replicate hx]; norm_num [goldOps]
  rw [ha']
  rw [← ha] at h
  obtain ⟨r1, r2⟩ := genOps_val goldOps_computes goldFftRep (by norm_num [goldFftRep, goldRoot]) (Nat.log 2 a.length)
  obtain ⟨q1, q2⟩ := radix2Fft_val goldOps_computes a hP _ r1
  unfold fftInPlace at h ⊢
  rcases hr : radix2Fft goldOps a (goldFftRep.genOps goldOps (Nat.log 2 a.length)) with _ | r
  · rw [hr] at h; simp at h
  rw [hr] at h q2
  rw [Option.map_some] at h q2
  have hcw := Option.some.inj h
  have hgen : goldFft.genOps (fieldOps (ZMod goldP)) (Nat.log 2 (a.map Gold.val).length) =
      Gold.val (goldFftRep.genOps goldOps (Nat.log 2 a.length)) := by
    rw [r2, List.length_map]; rfl
  rw [hgen, ← q2, Option.map_some]
  have hmap : ∀ (l : List Nat), bitReverseSlice (l.map Gold.val) =
      (bitReverseSlice l).map Gold.val := by
    intro l
    unfold bitReverseSlice
    rw [List.length_map]
    split_ifs with hle
    · rfl
    · clear hle
      generalize List.range l.length = is
      generalize Nat.log 2 l.length = bits
      induction is generalizing l with
      | nil => rfl
      | cons i is ih =>
        rw [List.foldl_cons, List.foldl_cons, ← ih]
        congr 1
        unfold bitReverseSliceStep
        split_ifs
        · exact (swap_map _ _ _ _).symm
        · rfl
  have hmem : ∀ (l : List Nat) x, x ∈ bitReverseSlice l → x ∈ l := by
    intro l x
    unfold bitReverseSlice
    split_ifs with hle
    · exact id
    · clear hle
      generalize List.range l.length = is
      generalize Nat.log 2 l.length = bits
      induction is generalizing l with
      | nil => exact id
      | cons i is ih =>
        rw [List.foldl_cons]
        intro hx
        have := ih _ hx
        unfold bitReverseSliceStep at this
        split_ifs at this
        · exact mem_swap _ _ _ _ this
        · exact this
  refine ⟨fun x hx => q1 r hr x (hmem r x (by rw [hcw]; exact hx)), ?_⟩
  rw [hmap, hcw]

section

variable {R : Type} (O : Ops R)

theorem fftPass_mult (tw : List R) (s stride c : Nat) (a : List R) (hc : c * 2 ^ (s + 1) < a.length) :
    (fftPass O tw (2 ^ s) stride a).getD (c * 2 ^ (s + 1)) O.zero =
      O.add (a.getD (2 * c * 2 ^ s) O.zero) (a.getD ((2 * c + 1) * 2 ^ s) O.zero) := by
  unfold fftPass
  rw [getD_map_range _ _ _ _ hc]
  have h1 : 2 * 2 ^ s = 2 ^ (s + 1) := by ring
  dsimp only
  rw [h1, Nat.mul_mod_left, if_pos (Nat.two_pow_pos s), if_pos rfl]
  have e1 : c * 2 ^ (s + 1) = 2 * c * 2 ^ s := by ring
  have e2 : (2 * c + 1) * 2 ^ s = c * 2 ^ (s + 1) + 2 ^ s := by ring
  rw [e2, e1]

/-- Two values, one at each half, meet at the first position in the last pass. -/
theorem fftPasses_zero (x y z : R) (hx : O.add x z = x) (hy : O.add y z = y) (hz : O.add z z = z) (tw : List R) (k : Nat) :
    ∀ (r s stride : Nat) (a : List R), s + r = k → 1 ≤ r → a.length = 2 ^ k →
      (∀ c < 2 ^ r, a.getD (c * 2 ^ s) O.zero = if c = 0 then x else if c = 2 ^ (r - 1) then y else z) →
      (fftPasses O tw r (2 ^ s) stride a).getD 0 O.zero = O.add x y := by
  intro r
  induction r with
  | zero => intro s stride a _ h; omega
  | succ r ih =>
    intro s stride a hk _ hl hinv
    rw [fftPasses, show 2 * 2 ^ s = 2 ^ (s + 1) by ring]
    have hpos : ∀ c < 2 ^ r, c * 2 ^ (s + 1) < a.length := fun c hc => by
      rw [hl, ← hk, show s + (r + 1) = r + (s + 1) by omega, pow_add 2 r (s + 1)]
      exact Nat.mul_lt_mul_of_pos_right hc (Nat.two_pow_pos _)
    rcases Nat.eq_zero_or_pos r with rfl | hr
    · rw [fftPasses]
      have := fftPass_mult O tw s stride 0 a (hpos 0 (by norm_num))
      rw [Nat.zero_mul] at this
      rw [this]
      have h0 := hinv 0 (by norm_num)
      have h1 := hinv 1 (by norm_num)
      simp only [Nat.zero_mul, if_true] at h0
      rw [if_neg (by norm_num), if_pos (by norm_num)] at h1
      rw [Nat.mul_zero, Nat.zero_mul, Nat.zero_add, h0, h1]
    · refine ih (s + 1) _ _ (by omega) hr (by simp [fftPass, hl]) fun c hc => ?_
      rw [fftPass_mult O tw s stride c a (hpos c hc)]
      have hp : 2 ^ (r + 1) = 2 * 2 ^ r := by ring
      have hp' : 2 ^ r = 2 * 2 ^ (r - 1) := by rw [← pow_succ', Nat.sub_add_cancel hr]
      have h0 := hinv (2 * c) (by omega)
      have h1 := hinv (2 * c + 1) (by omega)
      rw [Nat.add_sub_cancel] at h0 h1
      rw [if_neg (by omega), if_neg (by omega)] at h1
      rw [h1, h0]
      by_cases hc0 : c = 0
      · rw [if_pos (by omega), if_pos hc0, hx]
      · rw [if_neg (by omega), if_neg hc0]
        by_cases hc1 : c = 2 ^ (r - 1)
        · rw [if_pos (by omega), if_pos hc1, hy]
        · rw [if_neg (by omega), if_neg hc1, hz]

/-- The first element of the encoding of `x, y, 0, 0, …` is `x + y`, as the addition of the code computes it. -/
theorem rsEncode_first (F : FftField R) (n : Nat) (hn : 1 ≤ n) (h64 : n + 2 ≤ 64) (x y : R) (hx : O.add x O.zero = x)
    (hy : O.add y O.zero = y) (hz : O.add O.zero O.zero = O.zero) :
    ∃ cw, rsEncode O F (x :: y :: List.replicate (2 ^ n - 2) O.zero) = some cw ∧ cw.length = 2 ^ (n + 2) ∧
      cw.getD 0 O.zero = O.add x y := by
  have h2 : 2 ≤ 2 ^ n := by
    calc 2 = 2 ^ 1 := rfl
      _ ≤ 2 ^ n := Nat.pow_le_pow_right (by norm_num) hn
  have hlen : (x :: y :: List.replicate (2 ^ n - 2) O.zero).length = 2 ^ n := by
    simp only [List.length_cons, List.length_replicate]; omega
  unfold rsEncode rsEncodeWithRate
  rw [hlen, Nat.log_pow (by norm_num), if_neg (by simp)]
  have hrl : rateLog = 2 := rfl
  obtain ⟨a, ha⟩ : ∃ a, a = (x :: y :: List.replicate (2 ^ n - 2) O.zero) ++
    List.replicate (2 ^ n * 2 ^ rateLog - 2 ^ n) O.zero := ⟨_, rfl⟩
  have hal : a.length = 2 ^ (n + 2) := by
    rw [ha, List.length_append, hlen, List.length_replicate, hrl, pow_add]; omega
  have hget : ∀ i, a.getD i O.zero = if i = 0 then x else if i = 1 then y else O.zero := by
    intro i
    rw [ha]
    rcases i with _ | _ | i
    · rfl
    · rfl
    · rw [if_neg (by omega), if_neg (by omega), List.cons_append, List.cons_append, List.getD_cons_succ, List.getD_cons_succ,
        List.replicate_append_replicate, List.getD_eq_getElem?_getD, List.getElem?_replicate]
      split_ifs <;> rfl
  rw [← ha]
  unfold fftInPlace radix2Fft
  dsimp only
  simp only [hal, Nat.log_pow (show 1 < 2 by norm_num), ne_eq, not_true_eq_false, if_false, Option.map_some]
  obtain ⟨b1, b2⟩ := length_bitReverseSwap a (n + 2) h64 hal
  obtain ⟨p, hp⟩ : ∃ p, p = fftPasses O (powers O (F.genOps O (n + 2)) (2 ^ (n + 2) / 2) O.one) (n + 2) 1 (2 ^ (n + 2) / 2)
    (bitReverseSwap a) := ⟨_, rfl⟩
  have hpl : ∀ (r h stride : Nat) (tw b : List R), (fftPasses O tw r h stride b).length = b.length := by
    intro r
    induction r with
    | zero => intros; rfl
    | succ r ih => intro h stride tw b; rw [fftPasses, ih]; simp [fftPass]
  have hp0 : p.getD 0 O.zero = O.add x y := by
    rw [hp]
    refine fftPasses_zero O x y O.zero hx hy hz _ (n + 2) (n + 2) 0 _ _ (by omega) (by omega) b1 fun c hc => ?_
    rw [pow_zero, Nat.mul_one, getD_eq_of_getElem? (b2 c hc), hget]
    have hr1 : revBits (n + 2) 1 = 2 ^ (n + 1) := by
      have := revBits_odd (n + 1) 0
      rwa [revBits_zero] at this
    have hr0 : revBits (n + 2) 0 = 0 := revBits_zero _
    have i1 : revBits (n + 2) c = 0 ↔ c = 0 :=
      ⟨fun h => revBits_inj (n + 2) c 0 hc (by positivity) (by rw [h, hr0]), fun h => by rw [h, hr0]⟩
    have hlt : 1 < 2 ^ (n + 2) := Nat.one_lt_two_pow (by omega)
    have i2 : revBits (n + 2) c = 1 ↔ c = 2 ^ (n + 2 - 1) := by
      rw [show n + 2 - 1 = n + 1 from rfl, ← hr1]
      exact ⟨fun h => by rw [← revBits_revBits (n + 2) c hc, h], fun h => by rw [h, revBits_revBits _ _ hlt]⟩
    simp only [i1, i2]
  obtain ⟨c1, c2⟩ := bitReverseSlice_spec (n + 2) h64 p (by rw [hp, hpl, b1])
  refine ⟨_, rfl, by rw [← hp]; exact c1, ?_⟩
  rw [← hp, getD_eq_of_getElem? (c2 0 (by positivity)), revBits_zero, hp0]

end

/-- The first element of the codeword of `a, -a, 0, 0, …` is the limb `p`, not 0. -/
theorem gold_first (n : Nat) (hn : 1 ≤ n) (h64 : n + 2 ≤ 64) (a : Nat) (h0 : 0 < a) (ha : a < Gold.MOD) :
    ∃ cw, rsEncode goldOps goldFftRep (a :: (Gold.MOD - a) :: List.replicate (2 ^ n - 2) 0) = some cw ∧
      cw.length = 2 ^ (n + 2) ∧ cw.getD 0 0 = Gold.MOD := by
  have key : ∀ u v, u + v ≤ Gold.MOD → goldOps.add u v = u + v := by
    intro u v h
    rw [Gold.gMOD_eq] at h
    have hov : Gold.ovAdd u v = (u + v, false) := by
      unfold Gold.ovAdd
      rw [Nat.mod_eq_of_lt (by omega), decide_eq_false (by omega)]
    have hov' : Gold.ovAdd (u + v) 0 = (u + v, false) := by
      unfold Gold.ovAdd
      rw [Nat.add_zero, Nat.mod_eq_of_lt (by omega), decide_eq_false (by omega)]
    simp only [goldOps, Gold.add, hov, Bool.false_eq_true, if_false, hov', Option.getD_some]
  obtain ⟨cw, h1, h2, h3⟩ := rsEncode_first goldOps goldFftRep n hn h64 a (Gold.MOD - a)
    (by rw [show goldOps.zero = 0 from rfl, key _ _ (by omega)]; rfl)
    (by rw [show goldOps.zero = 0 from rfl, key _ _ (by omega)]; rfl)
    (by rw [show goldOps.zero = 0 from rfl, key _ _ (by omega)])
  refine ⟨cw, h1, h2, ?_⟩
  have h3' : cw.getD 0 0 = goldOps.add a (Gold.MOD - a) := h3
  rw [h3', key _ _ (by omega)]
  omega

theorem goldCodec_de_eq : goldCodec.de = goldDe := rfl

theorem goldCodec2_de_eq : goldCodec2.de = goldDe2 := rfl

theorem goldCodec_de (v : Nat) (hv : v < 2 ^ 64) :
    goldCodec.de (goldMem v) = if v < Gold.MOD then some (v : ZMod goldP) else none := by
  rw [goldCodec_de_eq, goldDe, goldMem]
  have hC := JST.Props.C29_goldilocks_decoding.1
  by_cases h : v < Gold.MOD
  · rw [if_pos h, (hC (leEnc 8 v) [] v).mpr ⟨by rw [Gold.gMOD_eq] at h; omega, by simp⟩]
  · rw [if_neg h]
    rcases hd : Gold.de (leEnc 8 v) with e | ⟨w, rest⟩
    · rfl
    · exfalso
      obtain ⟨h1, h2⟩ := (hC (leEnc 8 v) rest w).mp hd
      have hl := congrArg List.length h2
      rw [List.length_append, leEnc_length, leEnc_length] at hl
      rw [List.length_eq_zero_iff.mp (show rest.length = 0 by omega), List.append_nil] at h2
      have := leEnc_inj (by norm_num; omega) (by norm_num; omega) h2
      rw [Gold.gMOD_eq] at h
      omega

theorem goldMem_canon (v : Nat) (hv : v < Gold.MOD) : Canon goldCodec (v : ZMod goldP) (goldMem v) :=
  ⟨leEnc_length 8 v, by rw [goldCodec_de v (by rw [Gold.gMOD_eq] at hv; omega), if_pos hv]⟩

/-- Every element of the challenge field has a canonical memory image. -/
theorem goldCodec2_canon (z : ExtRing goldP 2 7) : ∃ b, Canon goldCodec2 z b := by
  obtain ⟨l, hl, hv, rfl⟩ := Ext.extElem_surj (p := goldP) (n := 2) (w := 7) (by norm_num) z
  match l, hl with
  | [x, y], _ =>
    have hx : x < Gold.MOD := hv x (by simp)
    have hy : y < Gold.MOD := hv y (by simp)
    refine ⟨leEnc 8 x ++ leEnc 8 y, by simp [leEnc_length, goldCodec2], ?_⟩
    have hx' := (JST.Props.C29_goldilocks_decoding.1 (leEnc 8 x ++ leEnc 8 y) (leEnc 8 y) x).mpr
      ⟨by rw [Gold.gMOD_eq] at hx; omega, rfl⟩
    have hy' := (JST.Props.C29_goldilocks_decoding.1 (leEnc 8 y) [] y).mpr
      ⟨by rw [Gold.gMOD_eq] at hy; omega, by simp⟩
    rw [goldCodec2_de_eq, goldDe2, hx']
    dsimp only
    rw [hy']

/-- `Goldilocksx1ConfigSha2Basefold`, gkr_configs.rs:131-137: the circuit field is `Goldilocks`, the challenge field
`GoldilocksExt2` (gkr_engine/src/field_engine/goldilocks_x1.rs:16-20). -/
noncomputable def goldSetup {N τ : Type} (h : Hash Mem N) (T : Transcript τ (ExtRing goldP 2 7) N) :
    Setup (ZMod goldP) (ExtRing goldP 2 7) N τ := ⟨goldFft, goldCodec, goldCodec2, h, T⟩

/-- `GoldilocksExt2x1ConfigSha2Basefold`, gkr_configs.rs:175-181: both fields are `GoldilocksExt2Scalar`
(goldilocks_ext2_x1.rs:18-22). -/
noncomputable def goldSetup2 {N τ : Type} (h : Hash Mem N) (T : Transcript τ (ExtRing goldP 2 7) N) :
    Setup (ExtRing goldP 2 7) (ExtRing goldP 2 7) N τ := ⟨goldFft2, goldCodec2, goldCodec2, h, T⟩

theorem goldSetup_ok {N τ : Type} [Inhabited N] (h : Hash Mem N) (T : Transcript τ (ExtRing goldP 2 7) N) :
    SetupOk (goldSetup h T) 3 2 where
  valid := goldFft_valid
  base := rfl
  ext := rfl
  two := le_refl _
  one := by norm_num

theorem goldSetup2_ok {N τ : Type} [Inhabited N] (h : Hash Mem N) (T : Transcript τ (ExtRing goldP 2 7) N) :
    SetupOk (goldSetup2 h T) 2 2 where
  valid := goldFft2_valid
  base := rfl
  ext := rfl
  two := le_refl _
  one := by norm_num

end JST.Pcs
