import Verif.Tensor.Resize
import Verif.Tensor.LayerLemmas
import Mathlib.Tactic.Ring
import Mathlib.Tactic.FieldSimp
import Mathlib.Tactic.Positivity
import Mathlib.Algebra.Order.Round

/-!
# Resize: coordinates, corners and weights
-/

namespace JST.Layers

open JST.Shape JST.Spec

/-! ## Nearest -/

theorem coordOf_eq (m : CoordMode) (o : Nat) {i s : Nat} :
    coordOf m o i s = originalCoord m ((s : ℚ) / i) i s o := by
  cases m <;> simp only [coordOf, originalCoord, div_div_eq_mul_div]

theorem coordOf_denom (m : CoordMode) (o i s : Nat) (hs : 0 < s) :
    ∃ k : Nat, 0 < k ∧ k ≤ s ∧ ∃ N : Int, 2 * (k : ℚ) * coordOf m o i s = N := by
  have hs' : (s : ℚ) ≠ 0 := by positivity
  have e1 : (2 * (s : ℚ)) * ((o + 1 / 2) * i / s - 1 / 2) = (((2 * o + 1) * i - s : Int) : ℚ) := by
    push_cast; field_simp
  cases m with
  | halfPixel => exact ⟨s, hs, le_refl _, _, e1⟩
  | asymmetric =>
    refine ⟨s, hs, le_refl _, 2 * o * i, ?_⟩
    simp only [coordOf]; push_cast; field_simp
  | alignCorners =>
    by_cases h : s ≤ 1
    · exact ⟨s, hs, le_refl _, 0, by simp [coordOf, h]⟩
    · refine ⟨s - 1, by omega, by omega, 2 * o * (i - 1), ?_⟩
      have h1 : (1 : ℚ) < s := by exact_mod_cast not_le.1 h
      have h2 : (s : ℚ) - 1 ≠ 0 := by linarith
      simp only [coordOf, if_neg h]
      rw [Nat.cast_sub hs]; push_cast; field_simp
  | pytorchHalfPixel =>
    by_cases h : s > 1
    · refine ⟨s, hs, le_refl _, (2 * o + 1) * i - s, ?_⟩
      simp only [coordOf, if_pos h]; exact e1
    · exact ⟨s, hs, le_refl _, 0, by simp [coordOf, h]⟩
  | tfHalfPixelForNN =>
    refine ⟨s, hs, le_refl _, (2 * o + 1) * i, ?_⟩
    simp only [coordOf]; push_cast; field_simp

/-- A number with a small denominator is within the tolerance of a tie only when it is one. -/
theorem isTie_iff {x : ℚ} {k : Nat} (hk : 0 < k) (hk' : k ≤ 5 * 10 ^ 9) {N : Int} (hN : 2 * (k : ℚ) * x = N) :
    isTie x ↔ x = ⌊x⌋ + 1 / 2 := by
  unfold isTie
  constructor
  · intro h
    have hk0 : (0 : ℚ) < k := by exact_mod_cast hk
    have hk1 : (k : ℚ) ≤ 5 * 10 ^ 9 := by exact_mod_cast hk'
    have e : 2 * (k : ℚ) * (x - ⌊x⌋ - 1 / 2) = ((N - 2 * k * ⌊x⌋ - k : Int) : ℚ) := by
      push_cast; rw [← hN]; ring
    have h1 : |((N - 2 * k * ⌊x⌋ - k : Int) : ℚ)| < 1 := by
      rw [← e, abs_mul, abs_of_pos (by positivity : (0 : ℚ) < 2 * k)]
      calc 2 * (k : ℚ) * |x - ⌊x⌋ - 1 / 2| < 2 * k * (1 / 10 ^ 10) := by
            exact mul_lt_mul_of_pos_left h (by positivity)
        _ ≤ 1 := by nlinarith
    have h2 : N - 2 * k * ⌊x⌋ - k = 0 := by
      have : |(N - 2 * k * ⌊x⌋ - k : Int)| < 1 := by exact_mod_cast h1
      exact Int.abs_lt_one_iff.1 this
    rw [h2] at e
    have : x - ⌊x⌋ - 1 / 2 = 0 := by
      rcases mul_eq_zero.1 (e.trans (by simp)) with h | h
      · linarith
      · exact h
    linarith
  · intro h
    rw [show x - ⌊x⌋ - 1 / 2 = 0 by linarith]; simp

theorem floor_of_half {x : ℚ} (i : Int) (h : x = i + 1 / 2) : x = ⌊x⌋ + 1 / 2 := by
  have : ⌊x⌋ = i := by rw [Int.floor_eq_iff]; constructor <;> linarith
  rw [this]; exact h

theorem roundAway_near {x : ℚ} (h : x ≠ ⌊x⌋ + 1 / 2) :
    x - 1 / 2 < roundAway x ∧ (roundAway x : ℚ) < x + 1 / 2 := by
  unfold roundAway
  split_ifs with hx
  · have h1 := Int.floor_le (-x + 1 / 2)
    have h2 := Int.lt_floor_add_one (-x + 1 / 2)
    push_cast
    refine ⟨lt_of_le_of_ne (by linarith) fun e => h ?_, by linarith⟩
    refine floor_of_half (-⌊-x + 1 / 2⌋) ?_
    push_cast; linarith
  · have h1 := Int.floor_le (x + 1 / 2)
    have h2 := Int.lt_floor_add_one (x + 1 / 2)
    refine ⟨by linarith, lt_of_le_of_ne h1 fun e => h ?_⟩
    refine floor_of_half (⌊x + 1 / 2⌋ - 1) ?_
    push_cast; linarith

theorem roundMode_nearest (m : NearestMode) {x : ℚ} {k : Nat} (hk : 0 < k) (hk' : k ≤ 5 * 10 ^ 9) {N : Int}
    (hN : 2 * (k : ℚ) * x = N) : IsNearest m x (roundMode m x) := by
  have hf := Int.floor_le x
  have hf' := Int.lt_floor_add_one x
  have hc := Int.le_ceil x
  have hc' := Int.ceil_lt_add_one x
  cases m with
  | roundPreferFloor =>
    simp only [IsNearest, roundMode]
    split_ifs with h <;> rw [isTie_iff hk hk' hN] at h
    · constructor <;> linarith
    · have := roundAway_near h
      constructor <;> linarith
  | roundPreferCeil =>
    simp only [IsNearest, roundMode]
    split_ifs with h <;> rw [isTie_iff hk hk' hN] at h
    · have : ⌈x⌉ = ⌊x⌋ + 1 := by
        rw [Int.ceil_eq_iff]; push_cast; constructor <;> linarith
      rw [this]; push_cast; constructor <;> linarith
    · have := roundAway_near h
      constructor <;> linarith
  | floor => exact ⟨hf, hf'⟩
  | ceil => exact ⟨hc, by simp only [roundMode]; linarith⟩

theorem isNearest_unique {m : NearestMode} {x : ℚ} {i j : Int} (hi : IsNearest m x i) (hj : IsNearest m x j) :
    i = j := by
  have key : (i : ℚ) < j + 1 ∧ (j : ℚ) < i + 1 := by
    cases m <;> obtain ⟨a, b⟩ := hi <;> obtain ⟨c, d⟩ := hj <;> constructor <;> linarith
  have h1 : i < j + 1 := by exact_mod_cast key.1
  have h2 : j < i + 1 := by exact_mod_cast key.2
  omega

theorem clampI_clamped {size : Nat} (h : 0 < size) (i : Int) :
    IsClamped size i (clampI i 0 ((size : Int) - 1)).toNat := by
  unfold IsClamped clampI
  split_ifs <;> omega

theorem isClamped_unique {size : Nat} {i : Int} {k l : Nat} (hk : IsClamped size i k) (hl : IsClamped size i l) :
    k = l := by
  unfold IsClamped at hk hl; omega

theorem isClamped_lt {size : Nat} (h : 0 < size) {i : Int} {k : Nat} (hk : IsClamped size i k) : k < size := by
  unfold IsClamped at hk; split_ifs at hk <;> omega

theorem nearestPoint_unique {cm : CoordMode} {nm : NearestMode} {sIn sOut c a b : List Nat}
    (ha : NearestPoint cm nm sIn sOut c a) (hb : NearestPoint cm nm sIn sOut c b) : a = b := by
  refine List.ext_getElem (ha.1.trans hb.1.symm) fun d h1 h2 => ?_
  obtain ⟨i, hi, hi'⟩ := ha.2 d (by rw [← ha.1]; exact h1)
  obtain ⟨j, hj, hj'⟩ := hb.2 d (by rw [← hb.1]; exact h2)
  obtain rfl := isNearest_unique hi hj
  have := isClamped_unique hi' hj'
  rwa [List.getD_eq_getElem _ _ h1, List.getD_eq_getElem _ _ h2] at this

/-- The point that `build_nearest_index_map` reads. -/
def nearestSrc (cm : CoordMode) (nm : NearestMode) (inShape outShape c : List Nat) : List Nat :=
  (List.range outShape.length).map fun d =>
    (clampI (roundMode nm (coordOf cm (c.getD d 0) (inShape.getD d 0) (outShape.getD d 0))) 0
      ((inShape.getD d 0 : Int) - 1)).toNat

theorem getD_map_rangeR {α : Type} {n d : Nat} (f : Nat → α) (a : α) (h : d < n) :
    ((List.range n).map f).getD d a = f d := by
  rw [List.getD_eq_getElem _ _ (by simpa using h)]; simp

theorem nearestSrc_point {cm : CoordMode} {nm : NearestMode} {sIn sOut c : List Nat}
    (hin : ∀ d, d < sOut.length → 0 < sIn.getD d 0) (hc : InRange sOut c)
    (hbig : ∀ s ∈ sOut, s ≤ 5 * 10 ^ 9) : NearestPoint cm nm sIn sOut c (nearestSrc cm nm sIn sOut c) := by
  refine ⟨by simp [nearestSrc], fun d hd => ?_⟩
  have hpos : 0 < sOut.getD d 0 := by
    have := (inRange_iff.1 hc).2 d hd; omega
  have hle : sOut.getD d 0 ≤ 5 * 10 ^ 9 := by
    rw [List.getD_eq_getElem _ _ hd]; exact hbig _ (List.getElem_mem _)
  obtain ⟨k, hk, hk', N, hN⟩ := coordOf_denom cm (c.getD d 0) (sIn.getD d 0) (sOut.getD d 0) hpos
  refine ⟨roundMode nm (coordOf cm (c.getD d 0) (sIn.getD d 0) (sOut.getD d 0)), ?_, ?_⟩
  · rw [← coordOf_eq]
    exact roundMode_nearest nm hk (le_trans hk' hle) hN
  · rw [nearestSrc, getD_map_rangeR _ _ hd]
    exact clampI_clamped (hin d hd) _

theorem nearestSrc_inRange {cm : CoordMode} {nm : NearestMode} {sIn sOut c : List Nat}
    (hl : sIn.length = sOut.length) (hin : ∀ d, d < sOut.length → 0 < sIn.getD d 0) :
    InRange sIn (nearestSrc cm nm sIn sOut c) := by
  rw [inRange_iff]
  refine ⟨by simp [nearestSrc, hl], fun d hd => ?_⟩
  rw [hl] at hd
  rw [nearestSrc, getD_map_rangeR _ _ hd]
  exact isClamped_lt (hin d hd) (clampI_clamped (hin d hd) _)

theorem buildNearest_ok {cm : CoordMode} {nm : NearestMode} {sIn sOut : List Nat}
    (hl : sIn.length = sOut.length) (hin : ∀ d, d < sOut.length → 0 < sIn.getD d 0) :
    buildNearest cm nm sIn sOut = .ok ((List.range sOut.prod).map fun f =>
      rowMajor sIn (nearestSrc cm nm sIn sOut (unravel f sOut))) := by
  refine mapM_ok fun flat _ => ?_
  have : (List.range sOut.length).mapM (fun d => nearestIdx nm
      (coordOf cm ((unravel flat sOut).getD d 0) (sIn.getD d 0) (sOut.getD d 0)) (sIn.getD d 0)) =
      .ok (nearestSrc cm nm sIn sOut (unravel flat sOut)) := by
    refine mapM_ok fun d hd => ?_
    have := hin d (List.mem_range.1 hd)
    rw [nearestIdx, if_neg (by omega)]
  simp only [this, bind, Except.bind]
  exact ravelR_ok (by simp [nearestSrc, hl])

/-! ## Corners -/

theorem clampCoord_eq {size : Nat} (h : 0 < size) (x : ℚ) :
    clampQ x ((size - 1 : Nat) : ℚ) = clampCoord size x := by
  have h1 : (1 : ℚ) ≤ size := by exact_mod_cast h
  rw [Nat.cast_sub h]; push_cast
  unfold clampCoord clampQ
  dsimp only
  split_ifs <;> first | rfl | linarith

theorem clampCoord_bounds {size : Nat} (h : 0 < size) (x : ℚ) :
    0 ≤ clampCoord size x ∧ clampCoord size x ≤ ((size - 1 : Nat) : ℚ) := by
  have h1 : (1 : ℚ) ≤ size := by exact_mod_cast h
  rw [Nat.cast_sub h]; push_cast
  unfold clampCoord
  split_ifs <;> constructor <;> linarith

theorem clampCoord_int {size o : Nat} (h : o < size) : clampCoord size (o : ℚ) = o := by
  unfold clampCoord
  have : (o : ℚ) + 1 ≤ size := by exact_mod_cast h
  have h0 : (0 : ℚ) ≤ o := by positivity
  rw [if_neg (by linarith), if_neg (by linarith)]

/-- The neighbours of a point and their weights. -/
def infoOf (pt : Nat → ℚ) (d : Nat) : Nat × Nat × Nat × ℚ × ℚ :=
  (d, ⌊pt d⌋₊, ⌈pt d⌉₊, 1 - (pt d - ⌊pt d⌋₊), pt d - ⌊pt d⌋₊)

theorem linearCorners_ok {size : Nat} (h : 0 < size) (x : ℚ) :
    linearCorners x size = .ok (⌊clampCoord size x⌋₊, ⌈clampCoord size x⌉₊,
      1 - (clampCoord size x - ⌊clampCoord size x⌋₊), clampCoord size x - ⌊clampCoord size x⌋₊) := by
  unfold linearCorners
  rw [if_neg (by omega)]
  dsimp only
  rw [clampCoord_eq h, min_eq_left (Nat.ceil_le.2 (clampCoord_bounds h x).2)]

theorem sum_range_double (g : Nat → ℚ) (n : Nat) :
    ((List.range (2 * n)).map g).sum = ((List.range n).map fun i => g (2 * i) + g (2 * i + 1)).sum := by
  induction n with
  | zero => rfl
  | succ n ih =>
    rw [show 2 * (n + 1) = 2 * n + 1 + 1 by ring, List.range_succ, List.range_succ, List.range_succ]
    simp only [List.map_append, List.sum_append, List.map_cons, List.map_nil, List.sum_cons, List.sum_nil, ih]
    ring

/-- Interpolation along the listed axes, one after another. -/
def iter (f : List Nat → ℚ) : List (Nat × Nat × Nat × ℚ × ℚ) → List Nat → ℚ
  | [], c => f c
  | (d, lo, hi, wl, wh) :: r, c => wl * iter f r (c.set d lo) + wh * iter f r (c.set d hi)

/-- The sum over the masks is the interpolation axis by axis. -/
theorem corner_sum (f : List Nat → ℚ) : ∀ (info : List (Nat × Nat × Nat × ℚ × ℚ)) (c : List Nat) (w : ℚ),
    ((List.range (2 ^ info.length)).map fun m => (cornerOf info m c w).2 * f (cornerOf info m c w).1).sum =
      w * iter f info c
  | [], c, w => by simp [cornerOf, iter]
  | (d, lo, hi, wl, wh) :: r, c, w => by
    rw [List.length_cons, pow_succ, mul_comm, sum_range_double]
    have e : ∀ i : Nat, (cornerOf ((d, lo, hi, wl, wh) :: r) (2 * i) c w).2 *
          f (cornerOf ((d, lo, hi, wl, wh) :: r) (2 * i) c w).1 +
        (cornerOf ((d, lo, hi, wl, wh) :: r) (2 * i + 1) c w).2 *
          f (cornerOf ((d, lo, hi, wl, wh) :: r) (2 * i + 1) c w).1 =
        (cornerOf r i (c.set d lo) (w * wl)).2 * f (cornerOf r i (c.set d lo) (w * wl)).1 +
        (cornerOf r i (c.set d hi) (w * wh)).2 * f (cornerOf r i (c.set d hi) (w * wh)).1 := by
      intro i
      simp only [cornerOf]
      rw [if_pos (by omega), if_neg (by omega), show 2 * i / 2 = i by omega, show (2 * i + 1) / 2 = i by omega]
    simp only [e, List.sum_map_add, corner_sum f r, iter]
    ring

theorem lerp_int (g : Nat → ℚ) (o : Nat) : lerp g (o : ℚ) = g o := by
  simp [lerp]

theorem iter_multilinear (f : List Nat → ℚ) (sel : Nat → Bool) (pt : Nat → ℚ) : ∀ (rest pre : List Nat),
    (∀ i (h : i < rest.length), sel (pre.length + i) = false → pt (pre.length + i) = (rest[i] : ℚ)) →
    iter f (((List.range' pre.length rest.length).filter sel).map (infoOf pt)) (pre ++ rest) =
      multilinear (fun s => f (pre ++ s)) ((List.range' pre.length rest.length).map pt)
  | [], pre, _ => by simp [iter, multilinear]
  | o :: rest, pre, h => by
    have ih := fun v => iter_multilinear f sel pt rest (pre ++ [v]) fun i hi hs => by
      have := h (i + 1) (by simpa using hi)
      simp only [List.length_append, List.length_singleton] at hs ⊢
      rw [show pre.length + 1 + i = pre.length + (i + 1) by ring] at hs ⊢
      simpa using this hs
    simp only [List.length_append, List.length_singleton, List.append_assoc, List.singleton_append] at ih
    simp only [List.length_cons, List.range'_succ, List.map_cons, multilinear]
    by_cases hs : sel pre.length = true
    · rw [List.filter_cons_of_pos hs]
      simp only [List.map_cons, infoOf, iter, lerp]
      rw [List.set_append_right _ _ (le_refl _), List.set_append_right _ _ (le_refl _)]
      simp only [Nat.sub_self, List.set_cons_zero]
      have ih1 := ih ⌊pt pre.length⌋₊
      have ih2 := ih ⌈pt pre.length⌉₊
      rw [← ih1, ← ih2]
    · rw [List.filter_cons_of_neg hs, ih o]
      have := h 0 (by simp) (by simpa using hs)
      simp only [Nat.add_zero, List.getElem_cons_zero] at this
      rw [this, lerp_int]

/-! ## Weights -/

theorem modify_sum (q : List Int) : ∀ (i : Nat) (delta : Int), i < q.length →
    (q.modify i (· + delta)).sum = q.sum + delta := by
  induction q with
  | nil => intro i _ h; simp at h
  | cons a q ih =>
    intro i delta h
    cases i with
    | zero => simp [List.modify]; ring
    | succ i =>
      rw [List.modify_succ_cons, List.sum_cons, ih i delta (by simpa using h), List.sum_cons]; ring

theorem bump_length (delta : Int) : ∀ (is : List Nat) (q : List Int), (bump delta q is).length = q.length
  | [], q => rfl
  | i :: is, q => by
    have := bump_length delta is (q.modify i (· + delta))
    simp only [bump, List.foldl_cons] at this ⊢
    rw [this, List.length_modify]

theorem bump_sum (delta : Int) : ∀ (is : List Nat) (q : List Int), (∀ i ∈ is, i < q.length) →
    (bump delta q is).sum = q.sum + delta * is.length
  | [], q, _ => by simp [bump]
  | i :: is, q, h => by
    have := bump_sum delta is (q.modify i (· + delta)) (by
      intro j hj; rw [List.length_modify]; exact h j (by simp [hj]))
    simp only [bump, List.foldl_cons] at this ⊢
    rw [this, modify_sum q i delta (h i (by simp))]
    push_cast [List.length_cons]; ring

theorem bump_getD (delta : Int) : ∀ (is : List Nat) (q : List Int) (j : Nat), j < q.length →
    (bump delta q is).getD j 0 = q.getD j 0 + delta * is.count j
  | [], q, j, _ => by simp [bump]
  | i :: is, q, j, h => by
    have := bump_getD delta is (q.modify i (· + delta)) j (by rw [List.length_modify]; exact h)
    simp only [bump, List.foldl_cons] at this ⊢
    rw [this, List.count_cons, List.getD_eq_getElem _ _ (by rw [List.length_modify]; exact h),
      List.getD_eq_getElem _ _ h, List.getElem_modify]
    by_cases hij : i = j
    · subst hij; simp; ring
    · simp [hij]

theorem roundAway_err {x : ℚ} (h : 0 ≤ x) : |(roundAway x : ℚ) - x| ≤ 1 / 2 := by
  unfold roundAway
  rw [if_neg (by linarith), abs_le]
  have h1 := Int.floor_le (x + 1 / 2)
  have h2 := Int.lt_floor_add_one (x + 1 / 2)
  constructor <;> linarith

theorem roundAway_nonneg {x : ℚ} (h : 0 ≤ x) : 0 ≤ roundAway x := by
  unfold roundAway
  rw [if_neg (by linarith)]
  exact Int.floor_nonneg.2 (by linarith)

theorem roundAway_natCast (k : Nat) : roundAway (k : ℚ) = k := by
  unfold roundAway
  rw [if_neg (by have : (0 : ℚ) ≤ k := by positivity
                 linarith), Int.floor_eq_iff]
  push_cast; constructor <;> linarith

theorem roundSum_err : ∀ raw : List ℚ, (∀ r ∈ raw, 0 ≤ r) →
    |(((raw.map roundAway).sum : Int) : ℚ) - raw.sum| ≤ raw.length / 2
  | [], _ => by simp
  | r :: raw, h => by
    have h1 := roundAway_err (h r (by simp))
    have h2 := roundSum_err raw fun r hr => h r (by simp [hr])
    simp only [List.map_cons, List.sum_cons, List.length_cons]
    push_cast
    rw [abs_le] at *
    push_cast at h2
    constructor <;> linarith

/-- What the largest-remainder step does: the entries of a duplicate-free list of indices move by one. -/
theorem quantise_shape (raw : List ℚ) (scaling : Nat) (h0 : ∀ r ∈ raw, 0 ≤ r) (hs : raw.sum = scaling) :
    ∃ (is : List Nat) (delta : Int), quantise raw scaling = bump delta (raw.map roundAway) is ∧ is.Nodup ∧
      (∀ i ∈ is, i < raw.length) ∧ |delta| ≤ 1 ∧
      delta * is.length = (scaling : Int) - (raw.map roundAway).sum := by
  have herr := roundSum_err raw h0
  rw [hs] at herr
  have hle : ((scaling : Int) - (raw.map roundAway).sum).natAbs ≤ raw.length := by
    have : |(((scaling : Int) - (raw.map roundAway).sum : Int) : ℚ)| ≤ raw.length := by
      push_cast
      rw [abs_sub_comm]
      push_cast at herr
      have : (0 : ℚ) ≤ raw.length := by positivity
      linarith
    have h2 : |(scaling : Int) - (raw.map roundAway).sum| ≤ (raw.length : Int) := by exact_mod_cast this
    rw [Int.abs_eq_natAbs] at h2
    exact_mod_cast h2
  unfold quantise
  dsimp only
  rw [min_eq_left hle]
  generalize (scaling : Int) - (raw.map roundAway).sum = res at *
  have key : ∀ (r : Nat → Nat → Prop) [DecidableRel r],
      (((List.range raw.length).insertionSort r).take res.natAbs).Nodup ∧
      (∀ i ∈ ((List.range raw.length).insertionSort r).take res.natAbs, i < raw.length) ∧
      (((List.range raw.length).insertionSort r).take res.natAbs).length = res.natAbs := by
    intro r _
    have hp := List.perm_insertionSort r (List.range raw.length)
    refine ⟨(hp.nodup_iff.2 List.nodup_range).sublist (List.take_sublist _ _), fun i hi => ?_, ?_⟩
    · exact List.mem_range.1 (hp.mem_iff.1 ((List.take_sublist _ _).subset hi))
    · rw [List.length_take, hp.length_eq, List.length_range]; omega
  split_ifs with h1 h2
  · exact ⟨[], 0, by simp [bump], by simp, by simp, by simp, by simp [h1]⟩
  · obtain ⟨a, b, c⟩ := key fun a b => fracOf raw b ≤ fracOf raw a
    exact ⟨_, 1, rfl, a, b, by simp, by rw [c]; omega⟩
  · obtain ⟨a, b, c⟩ := key fun a b => fracOf raw a ≤ fracOf raw b
    exact ⟨_, -1, rfl, a, b, by simp, by rw [c]; omega⟩

theorem quantise_length (raw : List ℚ) (scaling : Nat) (h0 : ∀ r ∈ raw, 0 ≤ r) (hs : raw.sum = scaling) :
    (quantise raw scaling).length = raw.length := by
  obtain ⟨is, delta, e, _⟩ := quantise_shape raw scaling h0 hs
  rw [e, bump_length, List.length_map]

theorem quantise_sum (raw : List ℚ) (scaling : Nat) (h0 : ∀ r ∈ raw, 0 ≤ r) (hs : raw.sum = scaling) :
    (quantise raw scaling).sum = scaling := by
  obtain ⟨is, delta, e, _, h2, _, h4⟩ := quantise_shape raw scaling h0 hs
  rw [e, bump_sum _ _ _ (by simpa using h2), h4]; ring

theorem quantise_err (raw : List ℚ) (scaling : Nat) (h0 : ∀ r ∈ raw, 0 ≤ r) (hs : raw.sum = scaling) (j : Nat)
    (hj : j < raw.length) : |(((quantise raw scaling).getD j 0 : Int) : ℚ) - raw.getD j 0| ≤ 3 / 2 := by
  obtain ⟨is, delta, e, h1, h2, h3, h4⟩ := quantise_shape raw scaling h0 hs
  rw [e, bump_getD _ _ _ _ (by simpa using hj)]
  have hc : is.count j ≤ 1 := List.nodup_iff_count_le_one.1 h1 j
  have hd : |((delta * is.count j : Int) : ℚ)| ≤ 1 := by
    have : |delta * is.count j| ≤ 1 := by
      rw [abs_mul]
      have : |((is.count j : Nat) : Int)| ≤ 1 := by rw [abs_of_nonneg (by positivity)]; exact_mod_cast hc
      nlinarith [abs_nonneg delta, abs_nonneg ((is.count j : Nat) : Int)]
    exact_mod_cast this
  have hr := roundAway_err (h0 _ (List.getElem_mem hj))
  rw [List.getD_eq_getElem (raw.map roundAway) _ (by simpa using hj), List.getD_eq_getElem raw _ hj,
    List.getElem_map]
  rw [abs_le] at *
  push_cast at hd ⊢
  constructor <;> linarith

/-- When every weight is an integer, the fixed-point weights are exact. -/
theorem quantise_exact (raw : List ℚ) (scaling : Nat) (hi : ∀ r ∈ raw, ∃ k : Nat, r = k)
    (hs : raw.sum = scaling) : quantise raw scaling = raw.map roundAway := by
  have h : ∀ raw : List ℚ, (∀ r ∈ raw, ∃ k : Nat, r = k) → (((raw.map roundAway).sum : Int) : ℚ) = raw.sum := by
    intro raw
    induction raw with
    | nil => intro _; rfl
    | cons r raw ih =>
      intro hi
      obtain ⟨k, rfl⟩ := hi r (by simp)
      simp only [List.map_cons, List.sum_cons, roundAway_natCast]
      push_cast [← ih fun r hr => hi r (by simp [hr])]
      rfl
  have e : (scaling : Int) - (raw.map roundAway).sum = 0 := by
    have := h raw hi
    rw [hs] at this
    have : (raw.map roundAway).sum = (scaling : Int) := by exact_mod_cast this
    omega
  unfold quantise
  simp only [e, if_true]

/-- With at most two corners no weight is negative. -/
theorem quantise_nonneg_pair (raw : List ℚ) (scaling : Nat) (hl : raw.length ≤ 2) (h0 : ∀ r ∈ raw, 0 ≤ r)
    (hs : raw.sum = scaling) : ∀ w ∈ quantise raw scaling, 0 ≤ w := by
  intro w hw
  obtain ⟨is, delta, e, h1, h2, h3, h4⟩ := quantise_shape raw scaling h0 hs
  obtain ⟨j, hj, rfl⟩ := List.mem_iff_getElem.1 hw
  have hj' : j < raw.length := by rw [← quantise_length raw scaling h0 hs]; exact hj
  rw [← List.getD_eq_getElem _ 0 hj, e, bump_getD _ _ _ _ (by simpa using hj')]
  have hc : is.count j ≤ 1 := List.nodup_iff_count_le_one.1 h1 j
  rw [List.getD_eq_getElem _ _ (by simpa using hj'), List.getElem_map]
  have hn := roundAway_nonneg (h0 _ (List.getElem_mem hj'))
  have hlen : 0 ≤ (is.length : Int) := by positivity
  have hd := abs_le.1 h3
  rcases le_or_gt 0 delta with hdel | hdel
  · have : 0 ≤ delta * (is.count j : Int) := by positivity
    omega
  · obtain rfl : delta = -1 := by omega
    have herr : ∀ r ∈ raw, (roundAway r : ℚ) ≤ r + 1 / 2 := fun r hr => by
      have := (abs_le.1 (roundAway_err (h0 r hr))).2; linarith
    have hcount : is.count j = 0 ∨ 1 ≤ roundAway raw[j] := by
      by_contra hcon
      push Not at hcon
      obtain ⟨hc1, hc2⟩ := hcon
      have hz : roundAway raw[j] = 0 := by omega
      have hpos : 0 < is.length := List.length_pos_of_mem (List.count_pos_iff.1 (by omega : 0 < is.count j))
      have hlow := roundAway_err (h0 _ (List.getElem_mem hj'))
      have hge : (scaling : Int) + 1 ≤ (raw.map roundAway).sum := by push_cast at h4; omega
      have hge' : (scaling : ℚ) + 1 ≤ (((raw.map roundAway).sum : Int) : ℚ) := by exact_mod_cast hge
      match raw, hl, hj' with
      | [a], _, hj' =>
        obtain rfl : j = 0 := by simpa using hj'
        simp at hz hge' hs
        rw [hz] at hge'
        have := h0 a (by simp)
        simp at hge'
        rw [← hs] at hge'; linarith
      | [a, b], _, hj' =>
        have ha := herr a (by simp)
        have hb := herr b (by simp)
        have ha0 := h0 a (by simp)
        have hb0 := h0 b (by simp)
        simp only [List.map_cons, List.map_nil, List.sum_cons, List.sum_nil, add_zero] at hge' hs
        push_cast at hge'
        rcases (by simp at hj'; omega : j = 0 ∨ j = 1) with rfl | rfl
        · simp only [List.getElem_cons_zero] at hz
          rw [hz] at hge'; push_cast at hge'; linarith
        · simp only [List.getElem_cons_succ, List.getElem_cons_zero] at hz
          rw [hz] at hge'; push_cast at hge'; linarith
    rcases hcount with h | h
    · rw [h]; simpa using hn
    · omega

end JST.Layers
