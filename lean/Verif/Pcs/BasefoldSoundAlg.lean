import Mathlib.LinearAlgebra.Lagrange
import Verif.Pcs.BasefoldEnc
import Verif.Gkr.MleProofs

/-! # Soundness of BaseFold: distance, correlated agreement, one round -/

namespace JST.Pcs

open JST.Spec JST.Gkr Finset

variable {K L : Type} [Field K] [Field L] [Algebra K L]

/-- The codeword of the message `f` of length `2^m`, at position `y` of its `2^(m+2)` positions. -/
def cwF (F : FftField K) (m : Nat) (f : Nat → L) (y : Nat) : L :=
  ∑ t ∈ range (2 ^ m), f t * algebraMap K L (point F (m + 2) y) ^ t

/-- A word folded, at one position. -/
def foldW (F : FftField K) (lev : Nat) (w : Nat → L) (r : L) (y : Nat) : L :=
  foldSingle (w (2 * y)) (w (2 * y + 1)) r (foldCoeff F lev y)

/-- A message folded. -/
def foldF (f : Nat → L) (r : L) (t : Nat) : L := f (2 * t) + r * (f (2 * t + 1) - f (2 * t))

theorem cwF_congr (F : FftField K) (m : Nat) (f g : Nat → L) (y : Nat) (h : ∀ t < 2 ^ m, f t = g t) :
    cwF F m f y = cwF F m g y :=
  Finset.sum_congr rfl fun t ht => by rw [h t (Finset.mem_range.mp ht)]

theorem cwF_line (F : FftField K) (m : Nat) (f g : Nat → L) (r : L) (y : Nat) :
    cwF F m (fun t => f t + r * g t) y = cwF F m f y + r * cwF F m g y := by
  unfold cwF
  rw [Finset.mul_sum, ← Finset.sum_add_distrib]
  exact Finset.sum_congr rfl fun t _ => by ring

theorem point_inj {F : FftField K} (hF : F.Valid) (log : Nat) (hl : log ≤ F.adicity) {x y : Nat} (hx : x < 2 ^ log)
    (hy : y < 2 ^ log) (h : point F log x = point F log y) : x = y := by
  refine revBits_inj log x y hx hy ?_
  exact (gen_prim hF log hl).pow_inj (revBits_lt _ _) (revBits_lt _ _) h

/-- Two messages whose codewords agree at a quarter of the positions are the same. -/
theorem cwF_inj {F : FftField K} (hF : F.Valid) (m : Nat) (hl : m + 2 ≤ F.adicity) (f g : Nat → L) (Y : Finset Nat)
    (hY : ∀ y ∈ Y, y < 2 ^ (m + 2)) (hcard : 2 ^ m ≤ Y.card) (h : ∀ y ∈ Y, cwF F m f y = cwF F m g y) :
    ∀ t < 2 ^ m, f t = g t := by
  classical
  obtain ⟨P, hP⟩ : ∃ P : Polynomial L, P = ∑ t ∈ range (2 ^ m), Polynomial.C (f t - g t) * Polynomial.X ^ t := ⟨_, rfl⟩
  have hcoeff : ∀ s, P.coeff s = if s < 2 ^ m then f s - g s else 0 := by
    intro s
    rw [hP, Polynomial.finsetSum_coeff]
    simp only [Polynomial.coeff_C_mul_X_pow]
    by_cases hs : s < 2 ^ m
    · rw [if_pos hs, Finset.sum_eq_single s]
      · simp
      · intro b _ hb; rw [if_neg (Ne.symm hb)]
      · intro hn; exact absurd (Finset.mem_range.mpr hs) hn
    · rw [if_neg hs]
      refine Finset.sum_eq_zero fun b hb => ?_
      rw [Finset.mem_range] at hb
      rw [if_neg (by omega)]
  have hinj : Set.InjOn (fun y => algebraMap K L (point F (m + 2) y)) Y := by
    intro x hx y hy hxy
    exact point_inj hF _ hl (hY x hx) (hY y hy) ((algebraMap K L).injective hxy)
  have h0 : P = 0 := by
    apply Polynomial.eq_zero_of_degree_lt_of_eval_finset_eq_zero (Y.image fun y => algebraMap K L (point F (m + 2) y))
    · rw [Finset.card_image_of_injOn hinj, Polynomial.degree_lt_iff_coeff_zero]
      intro s hs
      rw [hcoeff, if_neg (by omega)]
    · intro x hx
      obtain ⟨y, hy, rfl⟩ := Finset.mem_image.mp hx
      have := h y hy
      unfold cwF at this
      rw [hP, Polynomial.eval_finsetSum]
      simp only [Polynomial.eval_mul, Polynomial.eval_C, Polynomial.eval_pow, Polynomial.eval_X, sub_mul, Finset.sum_sub_distrib]
      rw [this, sub_self]
  intro t ht
  have := hcoeff t
  rw [h0, Polynomial.coeff_zero, if_pos ht] at this
  exact (sub_eq_zero.mp this.symm)

/-- The same, on the indices below `2^(m+2+s)`, of which `2^s` share a position. -/
theorem cwF_agree {F : FftField K} (hF : F.Valid) (m s : Nat) (hl : m + 2 ≤ F.adicity) (f g : Nat → L) (Q : Finset Nat)
    (hQ : ∀ q ∈ Q, q < 2 ^ (m + 2 + s)) (hcard : 2 ^ (m + 2 + s) ≤ 4 * Q.card)
    (h : ∀ q ∈ Q, cwF F m f (q / 2 ^ s) = cwF F m g (q / 2 ^ s)) : ∀ t < 2 ^ m, f t = g t := by
  classical
  refine cwF_inj hF m hl f g (Q.image fun q => q / 2 ^ s) ?_ ?_ ?_
  · intro y hy
    obtain ⟨q, hq, rfl⟩ := Finset.mem_image.mp hy
    rw [Nat.div_lt_iff_lt_mul (by positivity), ← pow_add]
    exact hQ q hq
  · have := Finset.card_le_mul_card_image (f := fun q => q / 2 ^ s) Q (2 ^ s) (by
      intro y _
      have hsub : (Q.filter fun q => q / 2 ^ s = y) ⊆ Finset.Ico (y * 2 ^ s) (y * 2 ^ s + 2 ^ s) := by
        intro q hq
        obtain ⟨_, hq⟩ := Finset.mem_filter.mp hq
        rw [Finset.mem_Ico, ← hq]
        have h1 := Nat.div_mul_le_self q (2 ^ s)
        have h2 := Nat.lt_div_mul_add (a := q) (b := 2 ^ s) (by positivity)
        exact ⟨h1, h2⟩
      refine (Finset.card_le_card hsub).trans ?_
      simp)
    have e : 2 ^ (m + 2 + s) = 4 * (2 ^ s * 2 ^ m) := by rw [pow_add, pow_add]; ring
    rw [e] at hcard
    have h3 : 2 ^ s * 2 ^ m ≤ 2 ^ s * (Q.image fun q => q / 2 ^ s).card := by omega
    exact Nat.le_of_mul_le_mul_left h3 (by positivity)
  · intro y hy
    obtain ⟨q, hq, rfl⟩ := Finset.mem_image.mp hy
    exact h q hq

theorem three_inter {α : Type} [DecidableEq α] (A S T U : Finset α) (N : Nat) (hA : A.card ≤ N) (hS : S ⊆ A) (hT : T ⊆ A) (hU : U ⊆ A)
    (h1 : 3 * N ≤ 4 * S.card) (h2 : 3 * N ≤ 4 * T.card) (h3 : 3 * N ≤ 4 * U.card) : N ≤ 4 * (S ∩ T ∩ U).card := by
  have a1 := Finset.card_inter_add_card_union S T
  have a2 := Finset.card_inter_add_card_union (S ∩ T) U
  have b1 := Finset.card_le_card (Finset.union_subset hS hT)
  have b2 := Finset.card_le_card (Finset.union_subset (Finset.inter_subset_left.trans hS : S ∩ T ⊆ A) hU)
  omega

/-- Correlated agreement: if the words `a + r d` are close to the code, on the indices in `A`, for many `r`, then `a` and `d`
are so on one set, and the close codewords lie on a line. -/
theorem correlated [DecidableEq L] {F : FftField K} (hF : F.Valid) (m s : Nat) (hl : m + 2 ≤ F.adicity) (A : Finset Nat)
    (hA : ∀ q ∈ A, q < 2 ^ (m + 2 + s)) (a d : Nat → L) (R : Finset L)
    (hR : ∀ r ∈ R, ∃ f : Nat → L, 3 * 2 ^ (m + 2 + s) ≤
      4 * (A.filter fun q => a (q / 2 ^ s) + r * d (q / 2 ^ s) = cwF F m f (q / 2 ^ s)).card)
    (hcard : 2 ^ (m + 2 + s) < R.card) :
    ∃ fa fd : Nat → L, 3 * 2 ^ (m + 2 + s) ≤
        4 * (A.filter fun q => a (q / 2 ^ s) = cwF F m fa (q / 2 ^ s) ∧ d (q / 2 ^ s) = cwF F m fd (q / 2 ^ s)).card ∧
      ∀ (r : L) (f : Nat → L), 3 * 2 ^ (m + 2 + s) ≤
          4 * (A.filter fun q => a (q / 2 ^ s) + r * d (q / 2 ^ s) = cwF F m f (q / 2 ^ s)).card →
        ∀ t < 2 ^ m, f t = fa t + r * fd t := by
  obtain ⟨N, hN⟩ : ∃ N, N = 2 ^ (m + 2 + s) := ⟨_, rfl⟩
  rw [← hN] at hR hcard ⊢
  have hN0 : 0 < N := by rw [hN]; positivity
  have hAc : A.card ≤ N := by
    rw [hN]
    have : A ⊆ Finset.range (2 ^ (m + 2 + s)) := fun q hq => Finset.mem_range.mpr (hA q hq)
    simpa using Finset.card_le_card this
  obtain ⟨r0, h0, r1, h1, hne⟩ := Finset.one_lt_card.mp (show 1 < R.card by omega)
  obtain ⟨f0, hf0⟩ := hR r0 h0
  obtain ⟨f1, hf1⟩ := hR r1 h1
  have hd : r1 - r0 ≠ 0 := sub_ne_zero.mpr (Ne.symm hne)
  obtain ⟨fd, hfd⟩ : ∃ fd : Nat → L, fd = fun t => (r1 - r0)⁻¹ * f1 t + -(r1 - r0)⁻¹ * f0 t := ⟨_, rfl⟩
  obtain ⟨fa, hfa⟩ : ∃ fa : Nat → L, fa = fun t => f0 t + -r0 * fd t := ⟨_, rfl⟩
  have cd : ∀ y, cwF F m fd y = (r1 - r0)⁻¹ * (cwF F m f1 y - cwF F m f0 y) := by
    intro y
    rw [hfd, cwF_line]
    have := cwF_line F m (fun _ => 0) f1 (r1 - r0)⁻¹ y
    simp only [zero_add] at this
    rw [this]
    unfold cwF
    simp only [zero_mul, Finset.sum_const_zero]
    ring
  have ca : ∀ y, cwF F m fa y = cwF F m f0 y - r0 * cwF F m fd y := by
    intro y; rw [hfa, cwF_line]; ring
  have hline : ∀ (r : L) (f : Nat → L), 3 * N ≤ 4 * (A.filter fun q => a (q / 2 ^ s) + r * d (q / 2 ^ s) = cwF F m f (q / 2 ^ s)).card →
      ∀ t < 2 ^ m, f t = fa t + r * fd t := by
    intro r f hf
    have hi := three_inter A _ _ _ N hAc (Finset.filter_subset _ _) (Finset.filter_subset _ _) (Finset.filter_subset _ _) hf0 hf1 hf
    refine cwF_agree hF m s hl f (fun t => fa t + r * fd t) _ ?_ (by rw [← hN]; exact hi) ?_
    · intro q hq
      simp only [Finset.mem_inter, Finset.mem_filter] at hq
      exact hA q hq.1.1.1
    · intro q hq
      simp only [Finset.mem_inter, Finset.mem_filter] at hq
      obtain ⟨⟨⟨_, e0⟩, _, e1⟩, _, e2⟩ := hq
      rw [cwF_line, ca, cd, ← e0, ← e1, ← e2]
      field_simp
      ring
  refine ⟨fa, fd, ?_, hline⟩
  by_contra hc
  obtain ⟨T, hT⟩ : ∃ T, T = A.filter fun q => a (q / 2 ^ s) = cwF F m fa (q / 2 ^ s) ∧ d (q / 2 ^ s) = cwF F m fd (q / 2 ^ s) := ⟨_, rfl⟩
  rw [← hT] at hc
  obtain ⟨U, hU⟩ : ∃ U : L → Finset Nat, U = fun r =>
    (A.filter fun q => a (q / 2 ^ s) + r * d (q / 2 ^ s) = cwF F m fa (q / 2 ^ s) + r * cwF F m fd (q / 2 ^ s)) \ T := ⟨_, rfl⟩
  have hone : ∀ r ∈ R, 1 ≤ (U r).card := by
    intro r hr
    obtain ⟨f, hf⟩ := hR r hr
    have hfl := hline r f hf
    have heq : (A.filter fun q => a (q / 2 ^ s) + r * d (q / 2 ^ s) = cwF F m f (q / 2 ^ s)) =
        A.filter fun q => a (q / 2 ^ s) + r * d (q / 2 ^ s) = cwF F m fa (q / 2 ^ s) + r * cwF F m fd (q / 2 ^ s) := by
      refine Finset.filter_congr fun q _ => ?_
      rw [cwF_congr F m f _ _ hfl, cwF_line]
    rw [heq] at hf
    have := Finset.le_card_sdiff T (A.filter fun q => a (q / 2 ^ s) + r * d (q / 2 ^ s) = cwF F m fa (q / 2 ^ s) + r * cwF F m fd (q / 2 ^ s))
    rw [hU]
    dsimp only
    omega
  have hdisj : (R : Set L).PairwiseDisjoint U := by
    intro r _ r' _ hrr
    rw [Function.onFun, Finset.disjoint_left]
    intro q hq hq'
    rw [hU] at hq hq'
    simp only [Finset.mem_sdiff, Finset.mem_filter, hT, not_and] at hq hq'
    obtain ⟨⟨qa, e1⟩, hn⟩ := hq
    obtain ⟨⟨_, e2⟩, _⟩ := hq'
    have hdd : d (q / 2 ^ s) = cwF F m fd (q / 2 ^ s) := by
      have : (r - r') * (d (q / 2 ^ s) - cwF F m fd (q / 2 ^ s)) = 0 := by linear_combination e1 - e2
      rcases mul_eq_zero.mp this with h | h
      · exact absurd (sub_eq_zero.mp h) hrr
      · exact sub_eq_zero.mp h
    rw [hdd] at e1
    exact hn qa (add_right_cancel e1) hdd
  have hsum : R.card ≤ (R.biUnion U).card := by
    rw [Finset.card_biUnion hdisj]
    calc R.card = ∑ _r ∈ R, 1 := by simp
      _ ≤ ∑ r ∈ R, (U r).card := Finset.sum_le_sum hone
  have hsub : R.biUnion U ⊆ A := by
    intro q hq
    obtain ⟨r, _, hq⟩ := Finset.mem_biUnion.mp hq
    rw [hU] at hq
    exact (Finset.mem_filter.mp (Finset.mem_sdiff.mp hq).1).1
  have := Finset.card_le_card hsub
  omega

/-- Splitting a codeword. -/
theorem cwF_split {F : FftField K} (hF : F.Valid) (m : Nat) (hl : m + 3 ≤ F.adicity) (f : Nat → L) (y : Nat) :
    cwF F (m + 1) f (2 * y) = cwF F m (fun t => f (2 * t)) y +
        algebraMap K L (point F (m + 3) (2 * y)) * cwF F m (fun t => f (2 * t + 1)) y ∧
      cwF F (m + 1) f (2 * y + 1) = cwF F m (fun t => f (2 * t)) y +
        algebraMap K L (point F (m + 3) (2 * y + 1)) * cwF F m (fun t => f (2 * t + 1)) y := by
  obtain ⟨h1, h2, _⟩ := point_pair hF (m + 2) y hl
  have key : ∀ x : L, x * x = algebraMap K L (point F (m + 2) y) →
      ∑ t ∈ range (2 ^ (m + 1)), f t * x ^ t = cwF F m (fun t => f (2 * t)) y + x * cwF F m (fun t => f (2 * t + 1)) y := by
    intro x hx
    unfold cwF
    rw [pow_succ, mul_comm (2 ^ m) 2, sum_even_odd, Finset.mul_sum, ← hx]
    congr 1 <;> refine Finset.sum_congr rfl fun t _ => ?_
    · rw [pow_mul, pow_two]
    · rw [pow_succ, pow_mul, pow_two]; ring
  exact ⟨key _ (by rw [← map_mul, h2]), key _ (by rw [← map_mul, h1, neg_mul_neg, h2])⟩

/-- A word from its folds at 0 and 1. -/
theorem foldW_unfold {F : FftField K} (hF : F.Valid) (lev : Nat) (hl : lev ≤ 64) (hl' : lev + 1 ≤ F.adicity) (w : Nat → L) (y : Nat) :
    (∀ r, foldW F lev w r y = foldW F lev w 0 y + r * (foldW F lev w 1 y - foldW F lev w 0 y)) ∧
      w (2 * y) = foldW F lev w 0 y + algebraMap K L (point F (lev + 1) (2 * y)) * foldW F lev w 1 y ∧
      w (2 * y + 1) = foldW F lev w 0 y + algebraMap K L (point F (lev + 1) (2 * y + 1)) * foldW F lev w 1 y := by
  obtain ⟨h1, _, h3⟩ := point_pair hF lev y hl'
  have h2 : (2 : K) ≠ 0 := by
    have := prim_two_ne (gen_prim hF (lev + 1) hl') (by omega)
    rwa [one_add_one_eq_two] at this
  have h2' : (2 : L) ≠ 0 := by
    intro h
    apply h2
    have : algebraMap K L 2 = 0 := by rw [map_ofNat]; exact h
    exact (map_eq_zero_iff _ (algebraMap K L).injective).mp this
  unfold foldW
  rw [h1, foldCoeff_spec _ _ hl]
  generalize point F (lev + 1) (2 * y) = x at *
  have hx' : algebraMap K L x ≠ 0 := fun h => h3 ((map_eq_zero_iff _ (algebraMap K L).injective).mp h)
  unfold foldSingle
  dsimp only
  rw [map_neg, map_mul, map_inv₀, map_inv₀, map_ofNat]
  refine ⟨fun r => by ring, ?_, ?_⟩ <;> field_simp <;> ring

end JST.Pcs
