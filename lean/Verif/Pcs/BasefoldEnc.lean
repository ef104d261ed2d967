import Verif.Pcs.Basefold
import Verif.Pcs.FftProofs

/-! # Proofs: the Reed-Solomon encoding of BaseFold and its folding -/

namespace JST.Pcs

open JST.Spec

theorem reverseBits_spec (x b : Nat) (hb : b ≤ 64) : reverseBits x b = revBits b x := by
  unfold reverseBits
  split_ifs with h
  · rw [h]; rfl
  · have := revBits_shiftRight b (64 - b) x
    rwa [show b + (64 - b) = 64 by omega] at this

theorem bitReverseSlice_loop {T : Type} (k : Nat) (hk : k ≤ 64) (a : List T) (ha : a.length = 2 ^ k) (m : Nat)
    (hm : m ≤ 2 ^ k) :
    ((List.range m).foldl (bitReverseSliceStep k) a).length = 2 ^ k ∧
      ∀ i < 2 ^ k, ((List.range m).foldl (bitReverseSliceStep k) a)[i]? =
        if min i (revBits k i) < m then a[revBits k i]? else a[i]? := by
  induction m with
  | zero => exact ⟨ha, fun i _ => by simp⟩
  | succ m ih =>
    obtain ⟨h2, h3⟩ := ih (by omega)
    rw [List.range_succ, List.foldl_append, List.foldl_cons, List.foldl_nil]
    generalize hb : (List.range m).foldl (bitReverseSliceStep k) a = b at *
    rw [bitReverseSliceStep, reverseBits_spec _ _ hk]
    have hr := revBits_lt k m
    have hrr := revBits_revBits k m (by omega)
    by_cases h : m < revBits k m
    · rw [if_pos h]
      refine ⟨by rw [length_swap, h2], fun i hi => ?_⟩
      rw [swap_getElem? b m (revBits k m) i (by omega) (by omega)]
      by_cases e2 : i = revBits k m
      · subst e2
        rw [if_pos rfl, hrr, if_pos (by omega), h3 _ (by omega), if_neg (by omega)]
      · rw [if_neg e2]
        by_cases e1 : i = m
        · subst e1
          rw [if_pos rfl, if_pos (by omega), h3 _ hr, hrr, if_neg (by omega)]
        · rw [if_neg e1, h3 _ hi]
          have hne : revBits k i ≠ m := fun hh => e2 (by rw [← hh, revBits_revBits k i hi])
          have : min i (revBits k i) < m ↔ min i (revBits k i) < m + 1 := by omega
          simp only [this]
    · rw [if_neg h]
      refine ⟨h2, fun i hi => ?_⟩
      rw [h3 _ hi]
      by_cases e1 : min i (revBits k i) = m
      · rw [if_neg (by omega), if_pos (by omega)]
        have : revBits k i = i := by
          by_cases e2 : i = m
          · subst e2; omega
          · have e3 : revBits k i = m := by omega
            rw [← e3, revBits_revBits k i hi] at h
            omega
        rw [this]
      · have : min i (revBits k i) < m ↔ min i (revBits k i) < m + 1 := by omega
        simp only [this]

theorem bitReverseSlice_spec {T : Type} (k : Nat) (hk : k ≤ 64) (a : List T) (ha : a.length = 2 ^ k) :
    (bitReverseSlice a).length = 2 ^ k ∧ ∀ i < 2 ^ k, (bitReverseSlice a)[i]? = a[revBits k i]? := by
  unfold bitReverseSlice
  by_cases h : a.length ≤ 1
  · rw [if_pos h]
    refine ⟨ha, fun i hi => ?_⟩
    obtain rfl : k = 0 := by
      rcases Nat.eq_zero_or_pos k with h0 | h0
      · exact h0
      · have : 2 ^ 1 ≤ 2 ^ k := Nat.pow_le_pow_right (by norm_num) h0
        omega
    obtain rfl : i = 0 := by omega
    rfl
  · rw [if_neg h, ha, Nat.log_pow (by norm_num)]
    obtain ⟨h1, h2⟩ := bitReverseSlice_loop k hk a ha (2 ^ k) le_rfl
    refine ⟨h1, fun i hi => ?_⟩
    rw [h2 i hi, if_pos (by omega)]

variable {K L : Type} [Field K] [Field L] [Algebra K L]

theorem polyAt_append_zeros (a : List K) (m : Nat) (x : K) : polyAt (a ++ List.replicate m 0) x = polyAt a x := by
  unfold polyAt
  rw [List.length_append, List.length_replicate, Finset.sum_range_add]
  have h0 : ∑ t ∈ Finset.range m, (a ++ List.replicate m 0).getD (a.length + t) 0 * x ^ (a.length + t) = 0 := by
    refine Finset.sum_eq_zero fun t _ => ?_
    rw [List.getD_append_right _ _ _ _ (by omega), Nat.add_sub_cancel_left]
    rw [List.getD_eq_getElem?_getD, List.getElem?_replicate]
    split_ifs <;> simp
  rw [h0, add_zero]
  refine Finset.sum_congr rfl fun t ht => ?_
  rw [List.getD_append _ _ _ _ (Finset.mem_range.mp ht)]

/-- The points of the code of length `2 ^ log`, in the order of the codeword. -/
def point (F : FftField K) (log i : Nat) : K := F.gen log ^ revBits log i

/-- The codeword of the message `f`, of length `2 ^ log`. -/
def enc (F : FftField K) (log : Nat) (f : List L) : List L :=
  (List.range (2 ^ log)).map fun i => polyAt f (algebraMap K L (point F log i))

theorem length_enc (F : FftField K) (log : Nat) (f : List L) : (enc F log f).length = 2 ^ log := by simp [enc]

theorem rsEncode_spec {F : FftField K} (hF : F.Valid) (rate n : Nat) (hn : n + rate ≤ 64) (hn' : n + rate ≤ F.adicity)
    (evals : List K) (he : evals.length = 2 ^ n) :
    rsEncodeWithRate (fieldOps K) F evals rate =
      some ((List.range (2 ^ (n + rate))).map fun i => polyAt evals (point F (n + rate) i)) := by
  unfold rsEncodeWithRate
  have hlen : (evals ++ List.replicate (evals.length * 2 ^ rate - evals.length) (fieldOps K).zero).length =
      2 ^ (n + rate) := by
    rw [List.length_append, List.length_replicate, he, ← pow_add]
    have : 2 ^ n ≤ 2 ^ (n + rate) := Nat.pow_le_pow_right (by norm_num) (by omega)
    omega
  rw [if_neg (by rw [he, Nat.log_pow (by norm_num)]; simp), fftInPlace_spec hF (n + rate) hn hn' _ hlen]
  rw [Option.map_some]
  congr 1
  obtain ⟨h1, h2⟩ := bitReverseSlice_spec (n + rate) hn
    ((List.range (2 ^ (n + rate))).map fun i =>
      polyAt (evals ++ List.replicate (evals.length * 2 ^ rate - evals.length) (fieldOps K).zero)
        (F.gen (n + rate) ^ i)) (by simp)
  refine list_eq_of_getD (0 : K) h1 (by simp) fun i hi => ?_
  rw [getD_eq_of_getElem? (h2 i hi), getD_map_range _ _ _ _ (revBits_lt _ _), getD_map_range _ _ _ _ hi]
  exact polyAt_append_zeros evals _ _

/-- The coefficients of even degree. -/
def evens (f : List L) : List L := (List.range (f.length / 2)).map fun i => f.getD (2 * i) 0

/-- The coefficients of odd degree. -/
def odds (f : List L) : List L := (List.range (f.length / 2)).map fun i => f.getD (2 * i + 1) 0

theorem polyAt_split (f : List L) (n : Nat) (hf : f.length = 2 * n) (x : L) :
    polyAt f x = polyAt (evens f) (x * x) + x * polyAt (odds f) (x * x) := by
  have h2 : f.length / 2 = n := by omega
  rw [evens, odds, h2, polyAt_map_range, polyAt_map_range, polyAt, hf, sum_even_odd, Finset.mul_sum]
  congr 1 <;> refine Finset.sum_congr rfl fun t _ => ?_
  · rw [pow_mul, pow_two]
  · rw [pow_succ, pow_mul, pow_two]; ring

theorem polyAt_foldTable (f : List L) (r x : L) :
    polyAt (foldTable f r) x = polyAt (evens f) x * (1 - r) + polyAt (odds f) x * r := by
  rw [foldTable, evens, odds, polyAt_map_range, polyAt_map_range, polyAt_map_range, Finset.sum_mul, Finset.sum_mul,
    ← Finset.sum_add_distrib]
  exact Finset.sum_congr rfl fun t _ => by ring

theorem length_foldTable (f : List L) (r : L) : (foldTable f r).length = f.length / 2 := by simp [foldTable]

/-- A pair of points: opposite, with the next point as square. -/
theorem point_pair {F : FftField K} (hF : F.Valid) (log i : Nat) (hl : log + 1 ≤ F.adicity) :
    point F (log + 1) (2 * i + 1) = -point F (log + 1) (2 * i) ∧
      point F (log + 1) (2 * i) * point F (log + 1) (2 * i) = point F log i ∧ point F (log + 1) (2 * i) ≠ 0 := by
  have hp := gen_prim hF (log + 1) hl
  unfold point
  rw [revBits_even, revBits_odd]
  refine ⟨?_, ?_, pow_ne_zero _ (prim_ne_zero hp)⟩
  · rw [pow_add]
    have := prim_half hp (by omega)
    rw [Nat.add_sub_cancel] at this
    rw [this]; ring
  · rw [← mul_pow, gen_sq log hl]

theorem foldCoeff_spec {F : FftField K} (level i : Nat) (hl : level ≤ 64) :
    foldCoeff F level i = (point F (level + 1) (2 * i))⁻¹ * 2⁻¹ := by
  rw [foldCoeff, reverseBits_spec _ _ hl, point, revBits_even, inv_pow]

/-- Folding interpolates: the values at the two points of a pair, of a function that is `e + x o` there, fold to
`(1 - r) e + r o`. -/
theorem foldSingle_spec {F : FftField K} (hF : F.Valid) (level i : Nat) (hl : level ≤ 64) (hl' : level + 1 ≤ F.adicity)
    (e o r : L) :
    foldSingle (e + algebraMap K L (point F (level + 1) (2 * i)) * o)
      (e + algebraMap K L (point F (level + 1) (2 * i + 1)) * o) r (foldCoeff F level i) = e * (1 - r) + o * r := by
  obtain ⟨h1, _, h3⟩ := point_pair hF level i hl'
  have h2 : (2 : K) ≠ 0 := by
    have := prim_two_ne (gen_prim hF (level + 1) hl') (by omega)
    rwa [one_add_one_eq_two] at this
  have h2' : (2 : L) ≠ 0 := by
    intro h
    apply h2
    have : algebraMap K L 2 = 0 := by rw [map_ofNat]; exact h
    exact (map_eq_zero_iff _ (algebraMap K L).injective).mp this
  rw [h1, foldCoeff_spec _ _ hl]
  generalize hx : point F (level + 1) (2 * i) = x at *
  have hx' : algebraMap K L x ≠ 0 := fun h => h3 ((map_eq_zero_iff _ (algebraMap K L).injective).mp h)
  unfold foldSingle
  dsimp only
  rw [map_neg, map_mul, map_inv₀, map_inv₀, map_ofNat]
  field_simp
  ring

theorem foldCodeword_enc {F : FftField K} (hF : F.Valid) (log n : Nat) (hl : log ≤ 64) (hl' : log + 1 ≤ F.adicity)
    (f : List L) (hf : f.length = 2 * n) (r : L) :
    foldCodeword (enc F (log + 1) f) r (twiddleCoeffs F log) = some (enc F log (foldTable f r)) := by
  have hlen : (enc F (log + 1) f).length / 2 = 2 ^ log := by rw [length_enc, pow_succ, Nat.mul_div_cancel _ (by norm_num)]
  unfold foldCodeword
  rw [if_neg (by rw [hlen]; simp [twiddleCoeffs]), hlen]
  congr 1
  unfold enc
  refine List.map_congr_left fun i hi => ?_
  rw [List.mem_range] at hi
  have h2 : 2 ^ (log + 1) = 2 * 2 ^ log := by ring
  rw [getD_map_range _ _ _ _ (by omega), getD_map_range _ _ _ _ (by omega), twiddleCoeffs,
    getD_map_range _ _ _ _ hi, polyAt_split f n hf, polyAt_split f n hf]
  obtain ⟨h1, h3, _⟩ := point_pair hF log i hl'
  have hsq : algebraMap K L (point F (log + 1) (2 * i + 1)) * algebraMap K L (point F (log + 1) (2 * i + 1)) =
      algebraMap K L (point F log i) := by rw [← map_mul, h1, neg_mul_neg, h3]
  have hsq' : algebraMap K L (point F (log + 1) (2 * i)) * algebraMap K L (point F (log + 1) (2 * i)) =
      algebraMap K L (point F log i) := by rw [← map_mul, h3]
  rw [hsq, hsq', foldSingle_spec hF log i hl hl', polyAt_foldTable]

end JST.Pcs
