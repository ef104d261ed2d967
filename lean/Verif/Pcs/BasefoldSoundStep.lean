import Verif.Pcs.BasefoldSoundAlg
import Verif.Pcs.BasefoldTables

/-! # Soundness of BaseFold: one round, and counting the challenges -/

namespace JST.Pcs

open JST.Spec JST.Gkr Finset

variable {K L : Type} [Field K] [Field L] [Algebra K L]

theorem mle_line (f g : Nat → L) (r : L) (zs : List L) : mle (fun t => f t + r * g t) zs = mle f zs + r * mle g zs := by
  unfold mle
  rw [Finset.mul_sum, ← Finset.sum_add_distrib]
  refine Finset.sum_congr rfl fun t _ => ?_
  simp only [smul_eq_mul]
  ring

/-- A quadratic with three roots is zero. -/
theorem quad_zero {a b c x y z : L} (hxy : x ≠ y) (hxz : x ≠ z) (hyz : y ≠ z) (hx : a + b * x + c * x ^ 2 = 0)
    (hy : a + b * y + c * y ^ 2 = 0) (hz : a + b * z + c * z ^ 2 = 0) : a = 0 ∧ b = 0 ∧ c = 0 := by
  have h1 : b + c * (x + y) = 0 := by
    have : (x - y) * (b + c * (x + y)) = 0 := by linear_combination hx - hy
    exact (mul_eq_zero.mp this).resolve_left (sub_ne_zero.mpr hxy)
  have h2 : b + c * (x + z) = 0 := by
    have : (x - z) * (b + c * (x + z)) = 0 := by linear_combination hx - hz
    exact (mul_eq_zero.mp this).resolve_left (sub_ne_zero.mpr hxz)
  have h3 : c = 0 := by
    have : (y - z) * c = 0 := by linear_combination h1 - h2
    exact (mul_eq_zero.mp this).resolve_left (sub_ne_zero.mpr hyz)
  rw [h3] at h1 hx
  have h4 : b = 0 := by linear_combination h1
  rw [h4] at hx
  exact ⟨by linear_combination hx, h4, h3⟩

/-- One round of the sum-check: a false claim survives at most two challenges. -/
theorem sumcheck_two [DecidableEq L] (claim e a1 a2 z : L) (zs : List L) (f : Nat → L) (h : claim ≠ e * mle f (z :: zs)) (R : Finset L)
    (hR : ∀ r ∈ R, extrapolate2 (claim - a1) a1 a2 r = e * ((1 - r) * (1 - z) + r * z) * mle (foldF f r) zs) : R.card ≤ 2 := by
  by_contra hc
  obtain ⟨x, y, w, hx, hy, hw, hxy, hxw, hyw⟩ := Finset.two_lt_card_iff.mp (not_le.mp hc)
  obtain ⟨M, hM⟩ : ∃ M, M = mle (fun t => f (2 * t)) zs := ⟨_, rfl⟩
  obtain ⟨D, hD⟩ : ∃ D, D = mle (fun t => f (2 * t + 1) - f (2 * t)) zs := ⟨_, rfl⟩
  have hm : ∀ r, mle (foldF f r) zs = M + r * D := by
    intro r; rw [hM, hD, ← mle_line]; rfl
  have hmz : mle f (z :: zs) = M + z * D := by
    rw [mle_cons, ← hm]; rfl
  obtain ⟨a, ha⟩ : ∃ a, a = (a2 - a1 - a1 + (claim - a1)) * 2⁻¹ := ⟨_, rfl⟩
  have key : ∀ r ∈ R, ((claim - a1) - e * (1 - z) * M) + ((a1 - (claim - a1) - a) - e * ((2 * z - 1) * M + (1 - z) * D)) * r +
      (a - e * (2 * z - 1) * D) * r ^ 2 = 0 := by
    intro r hr
    have := hR r hr
    unfold extrapolate2 at this
    rw [hm, ← ha] at this
    linear_combination this
  obtain ⟨k0, k1, k2⟩ := quad_zero hxy hxw hyw (key x hx) (key y hy) (key w hw)
  apply h
  rw [hmz]
  linear_combination 2 * k0 + k1 + k2

/-- A claim that no close codeword supports. `A` are the indices on which the words so far are consistent, `w` is the current
word of `2^(m+2)` positions, `N` the number of indices. -/
def Doomed (F : FftField K) (N : Nat) (m s : Nat) (A : Finset Nat) (w : Nat → L) [DecidableEq L] (claim e : L) (zs : List L) : Prop :=
  ∀ f : Nat → L, 3 * N ≤ 4 * (A.filter fun q => w (q / 2 ^ s) = cwF F m f (q / 2 ^ s)).card → claim ≠ e * mle f zs

open Classical in
/-- One round: at most one challenge per index saves a doomed claim, whatever word the prover sends next. -/
theorem doomed_step [Fintype L] {F : FftField K} (hF : F.Valid) (m s : Nat) (hl : m + 3 ≤ F.adicity) (hl' : m + 2 ≤ 64)
    (A : Finset Nat) (hA : ∀ q ∈ A, q < 2 ^ (m + 3 + s)) (w : Nat → L) (claim e z : L) (zs : List L) (hz : zs.length = m)
    (hd : Doomed F (2 ^ (m + 3 + s)) (m + 1) s A w claim e (z :: zs)) (a1 a2 : L) (w' : L → Nat → L) :
    (Finset.univ.filter fun r => ¬ Doomed F (2 ^ (m + 3 + s)) m (s + 1)
      (A.filter fun q => w' r (q / 2 ^ (s + 1)) = foldW F (m + 2) w r (q / 2 ^ (s + 1))) (w' r)
      (extrapolate2 (claim - a1) a1 a2 r) (e * ((1 - r) * (1 - z) + r * z)) zs).card ≤ 2 ^ (m + 3 + s) := by
  obtain ⟨R, hR⟩ : ∃ R, R = (Finset.univ.filter fun r => ¬ Doomed F (2 ^ (m + 3 + s)) m (s + 1)
      (A.filter fun q => w' r (q / 2 ^ (s + 1)) = foldW F (m + 2) w r (q / 2 ^ (s + 1))) (w' r)
      (extrapolate2 (claim - a1) a1 a2 r) (e * ((1 - r) * (1 - z) + r * z)) zs) := ⟨_, rfl⟩
  rw [← hR]
  by_contra hc
  push Not at hc
  have hexp : m + 3 + s = m + 2 + (s + 1) := by omega
  have hun := fun y => foldW_unfold hF (m + 2) hl' hl w y
  have hclose : ∀ r ∈ R, ∃ f : Nat → L, 3 * 2 ^ (m + 2 + (s + 1)) ≤ 4 * (A.filter fun q =>
        foldW F (m + 2) w 0 (q / 2 ^ (s + 1)) + r * (foldW F (m + 2) w 1 (q / 2 ^ (s + 1)) - foldW F (m + 2) w 0 (q / 2 ^ (s + 1))) =
          cwF F m f (q / 2 ^ (s + 1))).card ∧
      extrapolate2 (claim - a1) a1 a2 r = e * ((1 - r) * (1 - z) + r * z) * mle f zs := by
    intro r hr
    rw [hR, Finset.mem_filter] at hr
    have hr := hr.2
    unfold Doomed at hr
    push Not at hr
    obtain ⟨f, h1, h2⟩ := hr
    refine ⟨f, ?_, h2⟩
    rw [hexp] at h1
    refine h1.trans (Nat.mul_le_mul_left _ (Finset.card_le_card ?_))
    intro q hq
    simp only [Finset.mem_filter] at hq ⊢
    refine ⟨hq.1.1, ?_⟩
    rw [← (hun _).1 r, ← hq.1.2, hq.2]
  obtain ⟨fa, fd, hT, hline⟩ := correlated hF m (s + 1) (by omega) A (by rw [← hexp]; exact hA)
    (fun y => foldW F (m + 2) w 0 y) (fun y => foldW F (m + 2) w 1 y - foldW F (m + 2) w 0 y) R
    (fun r hr => by obtain ⟨f, h, _⟩ := hclose r hr; exact ⟨f, h⟩) (by rw [← hexp]; exact hc)
  obtain ⟨f', hf'⟩ : ∃ f' : Nat → L, f' = fun t => if t % 2 = 0 then fa (t / 2) else fa (t / 2) + fd (t / 2) := ⟨_, rfl⟩
  have fe : ∀ t, f' (2 * t) = fa t := by
    intro t; rw [hf']; simp
  have fo : ∀ t, f' (2 * t + 1) = fa t + 1 * fd t := by
    intro t; rw [hf']; dsimp only; rw [if_neg (by omega), show (2 * t + 1) / 2 = t by omega, one_mul]
  have hclose' : 3 * 2 ^ (m + 3 + s) ≤ 4 * (A.filter fun q => w (q / 2 ^ s) = cwF F (m + 1) f' (q / 2 ^ s)).card := by
    rw [hexp]
    refine hT.trans (Nat.mul_le_mul_left _ (Finset.card_le_card ?_))
    intro q hq
    simp only [Finset.mem_filter] at hq ⊢
    obtain ⟨hqa, h0, h1⟩ := hq
    refine ⟨hqa, ?_⟩
    have hy : q / 2 ^ (s + 1) = q / 2 ^ s / 2 := by rw [pow_succ, Nat.div_div_eq_div_mul]
    rw [hy] at h0 h1
    generalize q / 2 ^ s = x at h0 h1
    obtain ⟨_, u1, u2⟩ := hun (x / 2)
    obtain ⟨c1, c2⟩ := cwF_split hF m hl f' (x / 2)
    have e1 : cwF F m (fun t => f' (2 * t)) (x / 2) = foldW F (m + 2) w 0 (x / 2) := by
      rw [h0]; exact cwF_congr _ _ _ _ _ fun t _ => fe t
    have e2 : cwF F m (fun t => f' (2 * t + 1)) (x / 2) = foldW F (m + 2) w 1 (x / 2) := by
      rw [cwF_congr F m _ (fun t => fa t + 1 * fd t) _ fun t _ => fo t, cwF_line, ← h0, ← h1]; ring
    rw [e1, e2] at c1 c2
    have hx2 : x = 2 * (x / 2) ∨ x = 2 * (x / 2) + 1 := by omega
    generalize x / 2 = y at *
    rcases hx2 with rfl | rfl
    · rw [u1, c1]
    · rw [u2, c2]
  have h2 := sumcheck_two claim e a1 a2 z zs f' (hd f' hclose') R (by
    intro r hr
    obtain ⟨f, h1, h2⟩ := hclose r hr
    rw [h2]
    congr 1
    apply mle_congr
    intro t ht
    rw [hz] at ht
    rw [hline r f h1 t ht]
    unfold foldF
    rw [fe, fo]
    ring)
  have : 2 ^ 3 ≤ 2 ^ (m + 3 + s) := Nat.pow_le_pow_right (by norm_num) (by omega)
  omega

omit [Field L] in
open Classical in
/-- Counting: a property that each challenge loses with probability at most `B / |L|` is lost after `n` challenges with
probability at most `n B / |L|`. -/
theorem count_lost [Fintype L] (P : List L → Prop) (B : Nat) (h0 : P []) (n : Nat)
    (hstep : ∀ rs : List L, rs.length < n → P rs → (Finset.univ.filter fun r => ¬ P (rs ++ [r])).card ≤ B) :
    (Finset.univ.filter fun v : Fin n → L => ¬ P (List.ofFn v)).card * Fintype.card L ≤ n * B * Fintype.card L ^ n := by
  induction n with
  | zero => simp [h0]
  | succ n ih =>
    have ih := ih fun rs hrs => hstep rs (by omega)
    obtain ⟨Bad, hBad⟩ : ∃ Bad : Finset (Fin n → L), Bad = Finset.univ.filter fun v => ¬ P (List.ofFn v) := ⟨_, rfl⟩
    rw [← hBad] at ih
    have hsub : (Finset.univ.filter fun v : Fin (n + 1) → L => ¬ P (List.ofFn v)).card ≤
        ∑ v : Fin n → L, if v ∈ Bad then Fintype.card L else B := by
      have h1 : (Finset.univ.filter fun v : Fin (n + 1) → L => ¬ P (List.ofFn v)) ⊆
          Finset.univ.biUnion fun v : Fin n → L =>
            (Finset.univ.filter fun r => ¬ P (List.ofFn v ++ [r])).image fun r => (Fin.snoc v r : Fin (n + 1) → L) := by
        intro v hv
        simp only [Finset.mem_filter, Finset.mem_univ, true_and] at hv
        simp only [Finset.mem_biUnion, Finset.mem_univ, true_and, Finset.mem_image, Finset.mem_filter]
        refine ⟨Fin.init v, v (Fin.last n), ?_, Fin.snoc_init_self v⟩
        rw [List.ofFn_succ_last] at hv
        exact hv
      refine (Finset.card_le_card h1).trans (Finset.card_biUnion_le.trans (Finset.sum_le_sum fun v _ => ?_))
      refine Finset.card_image_le.trans ?_
      by_cases hv : v ∈ Bad
      · rw [if_pos hv]
        exact (Finset.card_filter_le _ _).trans (by simp)
      · rw [if_neg hv]
        rw [hBad, Finset.mem_filter] at hv
        push Not at hv
        exact hstep _ (by simp) (hv (Finset.mem_univ _))
    have hval : ∑ v : Fin n → L, (if v ∈ Bad then Fintype.card L else B) ≤ Bad.card * Fintype.card L + Fintype.card L ^ n * B := by
      calc _ ≤ ∑ v : Fin n → L, ((if v ∈ Bad then Fintype.card L else 0) + B) :=
            Finset.sum_le_sum fun v _ => by split <;> omega
        _ = _ := by
          rw [Finset.sum_add_distrib, Finset.sum_ite_mem, Finset.univ_inter, Finset.sum_const, Finset.sum_const, Finset.card_univ]
          simp
    calc _ ≤ (Bad.card * Fintype.card L + Fintype.card L ^ n * B) * Fintype.card L := Nat.mul_le_mul_right _ (hsub.trans hval)
      _ ≤ (n * B * Fintype.card L ^ n + Fintype.card L ^ n * B) * Fintype.card L :=
          Nat.mul_le_mul_right _ (Nat.add_le_add_right ih _)
      _ = _ := by rw [pow_succ]; ring

end JST.Pcs
