import Verif.Quant.Sem

/-! # Lemmas about activation bounds -/

namespace JST.Quant

theorem maxOf_nonneg (l : List ℝ) : 0 ≤ maxOf l := by
  unfold maxOf
  induction l with
  | nil => simp
  | cons a l ih => simp only [List.foldr_cons]; exact le_max_of_le_right ih

theorem le_maxOf {l : List ℝ} {x : ℝ} (h : x ∈ l) : x ≤ maxOf l := by
  unfold maxOf
  induction l with
  | nil => simp at h
  | cons a l ih =>
    simp only [List.foldr_cons]
    rcases List.mem_cons.mp h with rfl | h
    · exact le_max_left _ _
    · exact le_max_of_le_right (ih h)

theorem maxAbs_nonneg (l : List ℝ) : 0 ≤ maxAbs l := maxOf_nonneg _

theorem le_maxAbs {l : List ℝ} {x : ℝ} (h : x ∈ l) : |x| ≤ maxAbs l :=
  le_maxOf (List.mem_map_of_mem h)

theorem l1_nonneg (l : List ℝ) : 0 ≤ l1 l := by
  unfold l1
  apply List.sum_nonneg
  intro x hx
  obtain ⟨a, _, rfl⟩ := List.mem_map.mp hx
  exact abs_nonneg a

theorem l1_append (a b : List ℝ) : l1 (a ++ b) = l1 a + l1 b := by simp [l1]

theorem l1_take_drop_le (l : List ℝ) (a b : Nat) : l1 ((l.drop a).take b) ≤ l1 l := by
  have h1 := l1_append ((l.drop a).take b) ((l.drop a).drop b)
  have h2 := l1_append (l.take a) (l.drop a)
  rw [List.take_append_drop] at h1 h2
  have := l1_nonneg ((l.drop a).drop b)
  have := l1_nonneg (l.take a)
  linarith

theorem dot_le {xs ws : List ℝ} {m : ℝ} (hm : 0 ≤ m) (hx : ∀ x ∈ xs, |x| ≤ m) :
    |dot xs ws| ≤ l1 ws * m := by
  unfold dot l1
  induction xs generalizing ws with
  | nil =>
    have := mul_nonneg (l1_nonneg ws) hm
    unfold l1 at this
    simpa using this
  | cons x xs ih =>
    cases ws with
    | nil => simp
    | cons w ws =>
      simp only [List.zipWith_cons_cons, List.sum_cons, List.map_cons]
      have h1 := ih (ws := ws) (fun x h => hx x (List.mem_cons_of_mem _ h))
      have h2 : |x * w| ≤ |w| * m := by
        rw [abs_mul, mul_comm]
        exact mul_le_mul_of_nonneg_left (hx x (by simp)) (abs_nonneg w)
      calc _ ≤ |x * w| + |(List.zipWith (· * ·) xs ws).sum| := abs_add_le _ _
        _ ≤ _ := by rw [add_mul]; exact add_le_add h2 h1

theorem IsDot.le {S : Set ℝ} {ws : List ℝ} {y m : ℝ} (hm : 0 ≤ m) (hS : ∀ x ∈ S, |x| ≤ m)
    (h : IsDot S ws y) : |y| ≤ l1 ws * m := by
  obtain ⟨xs, _, hx, rfl⟩ := h
  refine dot_le hm fun x h => ?_
  rcases hx x h with h | rfl
  · exact hS x h
  · simpa using hm

theorem IsBias.le {bias : List ℝ} {b : ℝ} (h : IsBias bias b) : |b| ≤ maxAbs bias := by
  rcases h with h | ⟨_, rfl⟩
  · exact le_maxAbs h
  · simpa using maxAbs_nonneg bias

theorem IsDot.convex {S : Set ℝ} {ws : List ℝ} {y m : ℝ} (hm : 0 ≤ m) (hS : ∀ x ∈ S, |x| ≤ m)
    (hw : ∀ w ∈ ws, 0 ≤ w) (h1 : ws.sum = 1) (h : IsDot S ws y) : |y| ≤ m := by
  have := h.le hm hS
  have e : l1 ws = ws.sum := by
    unfold l1
    congr 1
    conv_rhs => rw [← List.map_id ws]
    exact List.map_congr_left fun w hw' => abs_of_nonneg (hw w hw')
  rw [e, h1, one_mul] at this
  exact this

theorem stepFrom_eq_colOf {w : List ℝ} {k n c : Nat} (hw : w.length = k * n) (hc : c < n) :
    stepFrom w c n = colOf w k n c := by
  unfold stepFrom colOf
  have : (w.length - c + n - 1) / n = k := by
    rw [hw]
    cases k with
    | zero => rw [Nat.div_eq_of_lt]; omega
    | succ k =>
      rw [Nat.succ_mul]
      have : k * n + n - c + n - 1 = (n - 1 - c + n) + n * k := by
        have : k * n = n * k := Nat.mul_comm _ _
        omega
      rw [this, Nat.add_mul_div_left _ _ (by omega)]
      have : (n - 1 - c + n) / n = 1 := by
        rw [Nat.add_div_right _ (by omega), Nat.div_eq_of_lt (by omega)]
      omega
  rw [this]
  refine List.map_congr_left fun r _ => ?_
  rw [Nat.add_comm]

theorem foldr_min_le {v : ℝ} {vs : List ℝ} {x : ℝ} (h : x ∈ v :: vs) : vs.foldr Min.min v ≤ x := by
  induction vs with
  | nil => simp at h; simp [h]
  | cons a vs ih =>
    simp only [List.foldr_cons]
    simp only [List.mem_cons] at h ih
    rcases h with rfl | rfl | h
    · exact min_le_of_right_le (ih (.inl rfl))
    · exact min_le_left _ _
    · exact min_le_of_right_le (ih (.inr h))

theorem foldr_min_pos {v : ℝ} {vs : List ℝ} (h : ∀ x ∈ v :: vs, 0 < x) : 0 < vs.foldr Min.min v := by
  induction vs with
  | nil => simpa using h
  | cons a vs ih =>
    simp only [List.foldr_cons]
    exact lt_min (h a (by simp)) (ih fun x hx => h x (by
      rcases List.mem_cons.mp hx with rfl | hx <;> simp [*]))

theorem maxOutputChannelL1_le {w : List ℝ} {k : Nat} {l : ℝ} (h : maxOutputChannelL1 w k = some l) :
    0 ≤ l ∧ w ≠ [] ∧ 0 < k ∧ ∀ oc < k, l1 (rowOf w (w.length / k) oc) ≤ l := by
  unfold maxOutputChannelL1 at h
  split_ifs at h with h1 h2
  push Not at h1 h2
  cases h
  refine ⟨maxOf_nonneg _, h1.2, by omega, fun oc hoc => le_maxOf ?_⟩
  exact List.mem_map.mpr ⟨oc, List.mem_range.mpr hoc, rfl⟩

theorem sum_le_length {xs : List ℝ} {m : ℝ} (h : ∀ x ∈ xs, |x| ≤ m) :
    |xs.sum| ≤ m * xs.length := by
  induction xs with
  | nil => simp
  | cons x xs ih =>
    simp only [List.sum_cons, List.length_cons, Nat.cast_add, Nat.cast_one]
    have h1 := h x (by simp)
    have h2 := ih fun y hy => h y (List.mem_cons_of_mem _ hy)
    calc _ ≤ |x| + |xs.sum| := abs_add_le _ _
      _ ≤ _ := by nlinarith

theorem l1_le_length {ws : List ℝ} {m : ℝ} (h : ∀ x ∈ ws, |x| ≤ m) : l1 ws ≤ m * ws.length := by
  unfold l1
  induction ws with
  | nil => simp
  | cons x xs ih =>
    simp only [List.map_cons, List.sum_cons, List.length_cons, Nat.cast_add, Nat.cast_one]
    have h1 := h x (by simp)
    have h2 := ih fun y hy => h y (List.mem_cons_of_mem _ hy)
    nlinarith

/-- What an operator needs, beyond what `compute_layer_bound` looks at, for its bound to be right. -/
def Guard (m : Nat → ℝ) (S : Nat → Set ℝ) (n : Nat) : Op → Prop
  | .max | .min => ∀ i < n, m i ≤ m 0
  | .clip lo hi => lo ≤ m 0 ∧ -m 0 ≤ hi
  | .divDyn => ∀ b ∈ S 1, 1 ≤ |b|
  | .constant vals => ∀ v ∈ vals, |v| ≤ 1
  | .constantOfShape v => |v| ≤ 1
  | .range k => k ≤ 2
  | .norm eps _ _ => 1e-12 ≤ eps
  | .convTranspose _ _ kernel w _ => w ≠ [] ∧ kernel ≠ 0
  | _ => True

theorem layerBound_sound {alpha : ℝ} (ha : 0 < alpha) {m : Nat → ℝ} {S : Nat → Set ℝ} {n : Nat}
    (hm : ∀ i, 0 ≤ m i) (hS : ∀ i, ∀ x ∈ S i, |x| ≤ m i) {op : Op} {b : ℝ}
    (hg : Guard m S n op) (hb : layerBound alpha m n op = some b) :
    0 ≤ b ∧ ∀ y, OutElem alpha S n op y → |y| ≤ b := by
  have hm0 := hm 0
  have hS0 := hS 0
  -- a channel of weights plus a bias
  have key : ∀ {ws bias : List ℝ} {l d bb : ℝ}, IsDot (S 0) ws d → IsBias bias bb → l1 ws ≤ l →
      |d + bb| ≤ l * m 0 + maxAbs bias := by
    intro ws bias l d bb hd hbb hl
    refine (abs_add_le _ _).trans (add_le_add ?_ hbb.le)
    exact (hd.le hm0 hS0).trans (mul_le_mul_of_nonneg_right hl hm0)
  cases op with
  | conv shape w bias =>
    simp only [layerBound, Option.map_eq_some_iff] at hb
    obtain ⟨l, hl, rfl⟩ := hb
    obtain ⟨h0, hw, _, hrow⟩ := maxOutputChannelL1_le hl
    refine ⟨add_nonneg (mul_nonneg h0 hm0) (maxAbs_nonneg _), ?_⟩
    rintro y ⟨oc, hoc, d, bb, hd, hbb, rfl⟩
    refine key hd hbb ?_
    by_cases h4 : 4 ≤ shape.length
    · rw [if_pos h4] at hrow
      exact hrow oc hoc
    · rw [if_neg h4] at hrow
      have := hrow 0 (by norm_num)
      refine le_trans ?_ this
      have e : rowOf w (w.length / 1) 0 = w := by simp [rowOf]
      rw [e]
      exact l1_take_drop_le _ _ _
  | gemm t w rows cols bias =>
    cases t with
    | true =>
      simp only [layerBound, Option.map_eq_some_iff] at hb
      obtain ⟨l, hl, rfl⟩ := hb
      obtain ⟨h0, hw, hk, hrow⟩ := maxOutputChannelL1_le hl
      refine ⟨add_nonneg (mul_nonneg h0 hm0) (maxAbs_nonneg _), ?_⟩
      rintro y ⟨r, hr, d, bb, hwl, hd, hbb, rfl⟩
      refine key hd hbb ?_
      have e : w.length / rows = cols := by rw [hwl, Nat.mul_div_cancel_left _ hk]
      rw [← e]; exact hrow r hr
    | false =>
      simp only [layerBound] at hb
      split_ifs at hb with hc
      cases hb
      refine ⟨add_nonneg (mul_nonneg (maxOf_nonneg _) hm0) (maxAbs_nonneg _), ?_⟩
      rintro y ⟨c, hc', d, bb, hd, hbb, rfl⟩
      exact key hd hbb (le_maxOf (List.mem_map.mpr ⟨c, List.mem_range.mpr hc', rfl⟩))
  | batchNorm mul bias =>
    cases hb
    refine ⟨add_nonneg (mul_nonneg (maxAbs_nonneg _) hm0) (maxAbs_nonneg _), ?_⟩
    rintro y ⟨x, hx, g, hg', bb, hbb, rfl⟩
    refine (abs_add_le _ _).trans (add_le_add ?_ hbb.le)
    rw [abs_mul]
    exact mul_le_mul (le_maxAbs hg') (hS0 x hx) (abs_nonneg _) (maxAbs_nonneg _)
  | mul =>
    cases hb
    refine ⟨mul_nonneg hm0 (hm 1), ?_⟩
    rintro y ⟨a, h1, c, h2, rfl⟩
    rw [abs_mul]
    exact mul_le_mul (hS0 a h1) (hS 1 c h2) (abs_nonneg _) hm0
  | add =>
    cases hb
    refine ⟨add_nonneg hm0 (hm 1), ?_⟩
    rintro y ⟨a, h1, c, h2, rfl⟩
    exact (abs_add_le _ _).trans (add_le_add (hS0 a h1) (hS 1 c h2))
  | sub =>
    cases hb
    refine ⟨add_nonneg hm0 (hm 1), ?_⟩
    rintro y ⟨a, h1, c, h2, rfl⟩
    exact (abs_sub _ _).trans (add_le_add (hS0 a h1) (hS 1 c h2))
  | divConst d =>
    simp only [layerBound] at hb
    have hpos : ∀ x ∈ (d.map abs).filter (fun v => decide (0 < v)), 0 < x := fun x hx => by
      simpa using (List.mem_filter.mp hx).2
    have hmem : ∀ c ∈ d, c ≠ 0 → |c| ∈ (d.map abs).filter (fun v => decide (0 < v)) := fun c hc h0 =>
      List.mem_filter.mpr ⟨List.mem_map_of_mem hc, by simpa using h0⟩
    rcases hf : (d.map abs).filter (fun v => decide (0 < v)) with _ | ⟨v, vs⟩ <;> rw [hf] at hb hpos hmem
    · cases hb
      refine ⟨by simpa using hm0, ?_⟩
      rintro y ⟨a, h1, c, hc, h0, rfl⟩
      exact absurd (hmem c hc h0) (by simp)
    · cases hb
      have hp := foldr_min_pos hpos
      refine ⟨div_nonneg hm0 hp.le, ?_⟩
      rintro y ⟨a, h1, c, hc, h0, rfl⟩
      rw [abs_div]
      exact div_le_div₀ hm0 (hS0 a h1) hp (foldr_min_le (hmem c hc h0))
  | divDyn =>
    cases hb
    refine ⟨by simpa using hm0, ?_⟩
    rintro y ⟨a, h1, c, hc, h0, rfl⟩
    rw [abs_div]
    exact div_le_div₀ hm0 (hS0 a h1) one_pos (hg c hc)
  | relu =>
    cases hb
    refine ⟨hm0, ?_⟩
    rintro y ⟨x, hx, rfl⟩
    have := hS0 x hx
    rw [abs_of_nonneg (le_max_right x 0)]
    exact max_le ((le_abs_self x).trans this) hm0
  | maxPool => cases hb; exact ⟨hm0, fun y h => hS0 y h⟩
  | max =>
    cases hb
    refine ⟨hm0, ?_⟩
    rintro y ⟨i, hi, v, hv, -, rfl⟩
    exact (hS i _ (hv i hi)).trans (hg i hi)
  | min =>
    cases hb
    refine ⟨hm0, ?_⟩
    rintro y ⟨i, hi, v, hv, -, rfl⟩
    exact (hS i _ (hv i hi)).trans (hg i hi)
  | clip lo hi =>
    cases hb
    refine ⟨hm0, ?_⟩
    rintro y ⟨x, hx, rfl⟩
    have hx' := abs_le.mp (hS0 x hx)
    refine abs_le.mpr ⟨le_min hg.2 (hx'.1.trans (le_max_right _ _)), ?_⟩
    exact (min_le_right _ _).trans (max_le hg.1 hx'.2)
  | pass => cases hb; exact ⟨hm0, fun y h => hS0 y h⟩
  | topK => cases hb; exact ⟨hm0, fun y h => hS0 y h⟩
  | average =>
    cases hb
    refine ⟨hm0, ?_⟩
    rintro y ⟨ws, hw, h1, hd⟩
    exact hd.convex hm0 hS0 hw h1
  | reduceMean =>
    cases hb
    refine ⟨hm0, ?_⟩
    rintro y ⟨ws, hw, h1, hd⟩
    exact hd.convex hm0 hS0 hw h1
  | concat =>
    cases hb
    refine ⟨maxOf_nonneg _, ?_⟩
    rintro y ⟨i, hi, hy⟩
    exact (hS i y hy).trans (le_maxOf (List.mem_map.mpr ⟨i, List.mem_range.mpr hi, rfl⟩))
  | log =>
    cases hb
    refine ⟨le_max_of_le_left hm0, ?_⟩
    rintro y ⟨x, hx, hlo, rfl⟩
    have hx0 : 0 < x := lt_of_lt_of_le (by positivity) hlo
    have h1 := Real.log_le_sub_one_of_pos hx0
    have h2 := (le_abs_self x).trans (hS0 x hx)
    have h3 := Real.log_le_log (by positivity) hlo
    rw [one_div, Real.log_inv] at h3
    refine abs_le.mpr ⟨?_, le_max_of_le_left (by linarith)⟩
    have := le_max_right (m 0) (Real.log alpha)
    linarith
  | matmulRight w nOut =>
    simp only [layerBound] at hb
    have h0 : 0 ≤ b := by
      split_ifs at hb <;> cases hb
      · exact mul_nonneg (maxOf_nonneg _) hm0
      · exact mul_nonneg (maxAbs_nonneg _) hm0
    refine ⟨h0, ?_⟩
    rintro y ⟨k, c, hw, hc, hd⟩
    by_cases hk : k = 0
    · subst hk
      have e : colOf w 0 nOut c = [] := rfl
      rw [e] at hd
      have := hd.le hm0 hS0
      simp only [l1, List.map_nil, List.sum_nil, zero_mul] at this
      exact this.trans h0
    · have hdiv : w.length / nOut = k := by rw [hw, Nat.mul_div_cancel _ (by omega)]
      rw [if_pos ⟨by omega, by omega⟩] at hb
      cases hb
      refine (hd.le hm0 hS0).trans (mul_le_mul_of_nonneg_right ?_ hm0)
      rw [← stepFrom_eq_colOf hw hc]
      exact le_maxOf (List.mem_map.mpr ⟨c, List.mem_range.mpr hc, rfl⟩)
  | matmulLeft w nCols =>
    simp only [layerBound] at hb
    have h0 : 0 ≤ b := by
      split_ifs at hb <;> cases hb
      · exact mul_nonneg (maxOf_nonneg _) (hm 1)
      · exact mul_nonneg (maxAbs_nonneg _) (hm 1)
    refine ⟨h0, ?_⟩
    rintro y ⟨r, k, hw, hr, hd⟩
    have hle := hd.le (hm 1) (hS 1)
    by_cases hn : nCols = 0
    · have e : rowOf w nCols r = [] := by simp [rowOf, hn]
      rw [e] at hle
      simp only [l1, List.map_nil, List.sum_nil, zero_mul] at hle
      exact hle.trans h0
    · have hdiv : w.length / nCols = k := by rw [hw, Nat.mul_div_cancel _ (by omega)]
      rw [if_pos ⟨by omega, by omega⟩] at hb
      cases hb
      refine hle.trans (mul_le_mul_of_nonneg_right ?_ (hm 1))
      exact le_maxOf (List.mem_map.mpr ⟨r, List.mem_range.mpr (by omega), rfl⟩)
  | matmulDyn k =>
    cases hb
    refine ⟨by have := hm 1; positivity, ?_⟩
    rintro y ⟨as, bs, hla, hlb, ha', hb', rfl⟩
    have h1 := dot_le (ws := bs) hm0 (fun x hx => hS0 x (ha' x hx))
    have h2 := l1_le_length (fun x hx => hS 1 x (hb' x hx))
    have h3 : (bs.length : ℝ) ≤ (Nat.max k 1 : Nat) := by
      rw [hlb]; exact_mod_cast Nat.le_max_left _ _
    have h4 : m 1 * (bs.length : ℝ) ≤ m 1 * (Nat.max k 1 : Nat) := mul_le_mul_of_nonneg_left h3 (hm 1)
    calc _ ≤ l1 bs * m 0 := h1
      _ ≤ (m 1 * (Nat.max k 1 : Nat)) * m 0 := mul_le_mul_of_nonneg_right (h2.trans h4) hm0
      _ = _ := by ring
  | pad =>
    cases hb
    refine ⟨le_max_of_le_left hm0, ?_⟩
    rintro y (h | h)
    · exact le_max_of_le_left (hS0 y h)
    · exact le_max_of_le_right ((hS 2 y h).trans (le_abs_self _))
  | where_ =>
    cases hb
    refine ⟨le_max_of_le_left (hm 1), ?_⟩
    rintro y (h | h)
    · exact le_max_of_le_left (hS 1 y h)
    · exact le_max_of_le_right (hS 2 y h)
  | pow e =>
    simp only [layerBound] at hb
    have hmono : ∀ x ∈ S 0, 0 ≤ e → |x| ^ e ≤ (m 0) ^ e := fun x hx he =>
      Real.rpow_le_rpow (abs_nonneg x) (hS0 x hx) he
    have hval : ∀ y, OutElem alpha S n (.pow e) y → ∃ x ∈ S 0, |y| = |x| ^ e := by
      rintro y ⟨x, hx, ⟨h0, rfl⟩ | ⟨k, rfl, rfl⟩⟩
      · exact ⟨x, hx, by rw [abs_of_nonneg h0, abs_of_nonneg (Real.rpow_nonneg h0 e)]⟩
      · exact ⟨x, hx, by rw [abs_pow, Real.rpow_natCast]⟩
    split_ifs at hb with h1 h2
    · cases hb
      refine ⟨Real.rpow_nonneg hm0 e, fun y hy => ?_⟩
      obtain ⟨x, hx, e'⟩ := hval y hy
      rw [e']; exact hmono x hx (by linarith)
    · cases hb
      refine ⟨le_max_of_le_left hm0, fun y hy => ?_⟩
      obtain ⟨x, hx, e'⟩ := hval y hy
      rw [e']; exact le_max_of_le_right (hmono x hx h2)
  | sqrt =>
    cases hb
    refine ⟨le_max_of_le_left hm0, ?_⟩
    rintro y ⟨x, hx, h0, rfl⟩
    rw [abs_of_nonneg (Real.sqrt_nonneg x)]
    exact le_max_of_le_right (Real.sqrt_le_sqrt ((le_abs_self x).trans (hS0 x hx)))
  | tanh =>
    cases hb
    refine ⟨zero_le_one, ?_⟩
    rintro y ⟨x, hx, rfl⟩
    exact (Real.abs_tanh_lt_one x).le
  | convTranspose cIn cOut kernel w bias =>
    simp only [layerBound] at hb
    split_ifs at hb with h1
    · cases hb
      refine ⟨hm0, ?_⟩
      rintro y ⟨oc, hoc, _⟩
      have := hg.1; have := hg.2
      rcases h1 with h1 | h1 | h1
      · exact absurd h1 hg.1
      · omega
      · omega
    · cases hb
      refine ⟨add_nonneg (mul_nonneg (maxOf_nonneg _) hm0) (maxAbs_nonneg _), ?_⟩
      rintro y ⟨oc, hoc, d, bb, hd, hbb, rfl⟩
      exact key hd hbb (le_maxOf (List.mem_map.mpr ⟨oc, List.mem_range.mpr hoc, rfl⟩))
  | reduceSum f =>
    cases hb
    refine ⟨by positivity, ?_⟩
    rintro y ⟨xs, hl, hx, rfl⟩
    have h1 := sum_le_length fun x h => hS0 x (hx x h)
    have h3 : (xs.length : ℝ) ≤ (Nat.max f 1 : Nat) := by
      rw [hl]; exact_mod_cast Nat.le_max_left _ _
    exact h1.trans (mul_le_mul_of_nonneg_left h3 hm0)
  | exp =>
    cases hb
    refine ⟨(Real.exp_pos _).le, ?_⟩
    rintro y ⟨x, hx, rfl⟩
    rw [abs_of_pos (Real.exp_pos x)]
    exact Real.exp_le_exp.mpr ((le_abs_self x).trans (hS0 x hx))
  | leakyRelu a =>
    cases hb
    refine ⟨le_max_of_le_left hm0, ?_⟩
    rintro y ⟨x, hx, rfl⟩
    split_ifs
    · exact le_max_of_le_left (hS0 x hx)
    · rw [abs_mul]
      exact le_max_of_le_right (mul_le_mul_of_nonneg_left (hS0 x hx) (abs_nonneg a))
  | neg =>
    cases hb
    refine ⟨hm0, ?_⟩
    rintro y ⟨x, hx, rfl⟩
    rw [abs_neg]; exact hS0 x hx
  | softmax =>
    cases hb
    refine ⟨zero_le_one, ?_⟩
    rintro y ⟨x, hx, rest, rfl⟩
    have h1 := Real.exp_pos x
    have h2 : 0 ≤ (rest.map Real.exp).sum := by
      apply List.sum_nonneg
      intro z hz
      obtain ⟨a, _, rfl⟩ := List.mem_map.mp hz
      exact (Real.exp_pos a).le
    rw [abs_of_nonneg (by positivity), div_le_one (by positivity)]
    linarith
  | sigmoid =>
    cases hb
    refine ⟨zero_le_one, ?_⟩
    rintro y ⟨x, hx, rfl⟩
    have h1 := Real.exp_pos (-x)
    rw [abs_of_nonneg (by positivity), div_le_one (by positivity)]
    linarith
  | constant vals => cases hb; exact ⟨zero_le_one, fun y h => hg y h⟩
  | constantOfShape v => cases hb; refine ⟨zero_le_one, ?_⟩; rintro y rfl; exact hg
  | range k =>
    cases hb
    refine ⟨zero_le_one, ?_⟩
    rintro y ⟨i, hi, rfl⟩
    have : i ≤ 1 := by have : k ≤ 2 := hg; omega
    rw [abs_of_nonneg (by positivity)]
    exact_mod_cast this
  | hardSwish =>
    cases hb
    refine ⟨hm0, ?_⟩
    rintro y ⟨x, hx, rfl⟩
    have h1 : 0 ≤ Max.max 0 (Min.min 1 (x / 6 + 1 / 2)) := le_max_left _ _
    have h2 : Max.max 0 (Min.min 1 (x / 6 + 1 / 2)) ≤ 1 := max_le zero_le_one (min_le_left _ _)
    rw [abs_mul, abs_of_nonneg h1]
    exact (mul_le_of_le_one_right (abs_nonneg x) h2).trans (hS0 x hx)
  | norm eps gamma beta =>
    cases hb
    have he : (1e-12 : ℝ) ≤ eps := hg
    have hme : Max.max eps 1e-12 = eps := max_eq_left he
    have he0 : 0 < eps := lt_of_lt_of_le (by norm_num) he
    rw [hme]
    have hs : 0 < Real.sqrt eps := Real.sqrt_pos.mpr he0
    refine ⟨add_nonneg (mul_nonneg (maxAbs_nonneg _) (by positivity)) (maxAbs_nonneg _), ?_⟩
    rintro y ⟨x, hx, mu, var, g, bb, ⟨ws, hw, h1, hd⟩, hv, hg', hbb, rfl⟩
    have hmu := hd.convex hm0 hS0 hw h1
    refine (abs_add_le _ _).trans (add_le_add ?_ hbb.le)
    rw [abs_mul]
    refine mul_le_mul (le_maxAbs hg') ?_ (abs_nonneg _) (maxAbs_nonneg _)
    rw [abs_div, abs_of_nonneg (Real.sqrt_nonneg _)]
    refine div_le_div₀ (by positivity) ?_ hs (Real.sqrt_le_sqrt (by linarith))
    have := (abs_sub x mu).trans (add_le_add (hS0 x hx) hmu)
    linarith

theorem computeNBits_fits {alpha b y : ℝ} (ha : 0 ≤ alpha) (hy : |y| ≤ b) :
    |alpha * y| ≤ 2 ^ (computeNBits alpha b - 1) := by
  have hab : |alpha * y| ≤ |alpha * b| := by
    rw [abs_mul, abs_mul]
    exact mul_le_mul_of_nonneg_left (hy.trans (le_abs_self b)) (abs_nonneg _)
  unfold computeNBits
  split_ifs with h
  · exact hab.trans (h.trans (by norm_num))
  · push Not at h
    rw [Nat.add_sub_cancel]
    refine hab.trans ?_
    have h0 : 0 < |alpha * b| := by linarith
    have h1 : |alpha * b| = (2 : ℝ) ^ Real.logb 2 |alpha * b| :=
      (Real.rpow_logb (by norm_num) (by norm_num) h0).symm
    calc |alpha * b| = (2 : ℝ) ^ Real.logb 2 |alpha * b| := h1
      _ ≤ (2 : ℝ) ^ ((⌈Real.logb 2 |alpha * b|⌉₊ : Nat) : ℝ) :=
        Real.rpow_le_rpow_of_exponent_le (by norm_num) (Nat.le_ceil _)
      _ = _ := Real.rpow_natCast _ _

/-! ## Whole models -/

theorem Env.get_cons {α} (n : String) (v : α) (e : Env α) (k : String) :
    Env.get ((n, v) :: e) k = if n = k then some v else Env.get e k := by
  unfold Env.get
  by_cases h : n = k <;> simp [List.find?_cons, h]

/-- Bounds and values agree on the tensors they know, and the bounds are right. -/
def Agree (bounds : Env ℝ) (vals : Env (Set ℝ)) : Prop :=
  ∀ k, (bounds.get k = none ∧ vals.get k = none) ∨
    ∃ b S, bounds.get k = some b ∧ vals.get k = some S ∧ 0 ≤ b ∧ ∀ x ∈ S, |x| ≤ b

theorem Agree.outputs {bounds : Env ℝ} {vals : Env (Set ℝ)} (h : Agree bounds vals) {b : ℝ}
    {S : Set ℝ} (hb : 0 ≤ b) (hS : ∀ x ∈ S, |x| ≤ b) (outs : List String) :
    Agree (outs.map (fun o => (o, b)) ++ bounds) (outs.map (fun o => (o, S)) ++ vals) := by
  induction outs with
  | nil => exact h
  | cons o outs ih =>
    intro k
    simp only [List.map_cons, List.cons_append, Env.get_cons]
    by_cases hk : o = k
    · right; exact ⟨b, S, by simp [hk], by simp [hk], hb, hS⟩
    · simp only [hk, if_false]; exact ih k

theorem Agree.inputBound {bounds : Env ℝ} {vals : Env (Set ℝ)} (h : Agree bounds vals) (node : Node)
    (i : Nat) : 0 ≤ getInputBound node bounds i ∧
      ∀ x ∈ inElems node vals i, |x| ≤ getInputBound node bounds i := by
  unfold getInputBound inElems
  rcases node.inputs[i]? with _ | nm
  · simp
  · rcases h nm with ⟨h1, h2⟩ | ⟨b, S, h1, h2, h3, h4⟩
    · simp only [h1, h2]
      rcases Env.get node.consts nm with _ | c
      · simp
      · simp only
        split_ifs with hc
        · subst hc; simp
        · exact ⟨maxAbs_nonneg _, fun x hx => le_maxAbs hx⟩
    · simp only [h1, h2]
      exact ⟨h3, h4⟩

/-- The guards of all layers of a model, run in order. -/
def Guards (alpha : ℝ) : (Env ℝ × Env Nat) → (Env (Set ℝ) × Env (Set ℝ)) → List Node → Prop
  | _, _, [] => True
  | bs, vs, node :: rest =>
    Guard (getInputBound node bs.1) (inElems node vs.1) node.inputs.length node.op ∧
    ∀ bs', boundStep alpha bs node = some bs' → Guards alpha bs' (runStep alpha vs node) rest

/-- The recorded bit widths are right for the recorded values. -/
def WidthsOk (alpha : ℝ) (nbits : Env Nat) (vals : Env (Set ℝ)) : Prop :=
  ∀ name k S, nbits.get name = some k → (name, S) ∈ vals → ∀ y ∈ S, |alpha * y| ≤ 2 ^ (k - 1)

theorem Env.get_isSome {α} {e : Env α} {k : String} {v : α} (h : e.get k = some v) : k ∈ e.map (·.1) := by
  unfold Env.get at h
  simp only [Option.map_eq_some_iff] at h
  obtain ⟨x, hx, rfl⟩ := h
  have h1 := List.find?_some hx
  have h2 := List.mem_of_find?_eq_some hx
  simp only [beq_iff_eq] at h1
  exact List.mem_map.mpr ⟨x, h2, h1⟩

theorem bounds_fold {alpha : ℝ} (ha : 0 < alpha) (layers : List Node) :
    ∀ (bs : Env ℝ × Env Nat) (vs : Env (Set ℝ) × Env (Set ℝ)) (bs' : Env ℝ × Env Nat),
      Agree bs.1 vs.1 → WidthsOk alpha bs.2 vs.2 → (∀ n ∈ bs.2.map (·.1), n ∈ vs.2.map (·.1)) →
      Guards alpha bs vs layers → (layers.map (·.name)).Nodup →
      (∀ n ∈ layers.map (·.name), n ∉ vs.2.map (·.1)) →
      layers.foldlM (boundStep alpha) bs = some bs' →
      Agree bs'.1 (layers.foldl (runStep alpha) vs).1 ∧
        WidthsOk alpha bs'.2 (layers.foldl (runStep alpha) vs).2 := by
  induction layers with
  | nil =>
    intro bs vs bs' h1 h2 _ _ _ _ h
    cases h
    exact ⟨h1, h2⟩
  | cons node rest ih =>
    intro bs vs bs' hA hW hsub hG hnd hfresh h
    simp only [List.foldlM_cons, Option.bind_eq_bind, Option.bind_eq_some_iff] at h
    obtain ⟨bs1, hstep, hrest⟩ := h
    simp only [List.foldl_cons]
    obtain ⟨hg, hG'⟩ := hG
    have hG1 := hG' bs1 hstep
    unfold boundStep at hstep
    rcases hl : layerBound alpha (getInputBound node bs.1) node.inputs.length node.op with _ | b
    · rw [hl] at hstep; cases hstep
    rw [hl] at hstep
    simp only [Option.some.injEq] at hstep
    obtain ⟨hb0, hbS⟩ := layerBound_sound ha (fun i => (hA.inputBound node i).1)
      (fun i => (hA.inputBound node i).2) hg hl
    simp only [List.map_cons, List.nodup_cons] at hnd
    have hnode : node.name ∉ vs.2.map (·.1) := hfresh _ (by simp)
    refine ih bs1 _ bs' ?_ ?_ ?_ hG1 hnd.2 ?_ hrest
    · rw [← hstep]
      exact hA.outputs hb0 hbS node.outputs
    · intro name k S hk hS y hy
      simp only [runStep, List.mem_cons, Prod.mk.injEq] at hS
      rw [← hstep] at hk
      simp only at hk
      rcases hS with ⟨rfl, rfl⟩ | hS
      · split_ifs at hk
        · rw [Env.get_cons, if_pos rfl] at hk
          cases hk
          exact computeNBits_fits ha.le (hbS y hy)
        · exact absurd (hsub _ (Env.get_isSome hk)) hnode
      · have hne : node.name ≠ name := fun e => hnode (e ▸ List.mem_map.mpr ⟨_, hS, rfl⟩)
        split_ifs at hk
        · rw [Env.get_cons, if_neg hne] at hk
          exact hW name k S hk hS y hy
        · exact hW name k S hk hS y hy
    · intro n hn
      rw [← hstep] at hn
      simp only [runStep, List.map_cons, List.mem_cons]
      simp only at hn
      split_ifs at hn
      · simp only [List.map_cons, List.mem_cons] at hn
        exact hn.imp id (hsub n)
      · exact .inr (hsub n hn)
    · intro n hn
      simp only [runStep, List.map_cons, List.mem_cons, not_or]
      refine ⟨fun e => hnd.1 (e ▸ hn), hfresh n (by simp only [List.map_cons]; exact List.mem_cons_of_mem _ hn)⟩

end JST.Quant
