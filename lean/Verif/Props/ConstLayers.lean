import Verif.Tensor.ConstLayers
import Verif.Tensor.SliceProofs
import Verif.Spec.ConstLayers
import Verif.Props.Elementwise
import Mathlib.Tactic.Positivity
import Mathlib.Tactic.FieldSimp

/-!
# C80: Range, Shape, ConstantOfShape, Constant and Cast
-/

namespace JST.Props
open JST.Shape JST.Layers JST.ConstLayers JST.Spec

variable {p : Nat}

/-! ## Range -/

theorem rangeSeq_eq {delta : Int} : ∀ (n : Nat) (c : Int), (∀ k < n, i64Low ≤ c + k * delta ∧ c + k * delta ≤ i64High) →
    rangeSeq delta n c = (List.range n).map fun k : Nat => c + (k : Int) * delta := by
  intro n
  induction n with
  | zero => intro c _; rfl
  | succ n ih =>
    intro c h
    rw [List.range_succ_eq_map, List.map_cons, List.map_map]
    unfold rangeSeq
    rcases Nat.eq_zero_or_pos n with rfl | hn
    · simp [rangeSeq]
    · have h1 := h 1 (by omega)
      have e : satAdd c delta = c + delta := by
        unfold satAdd
        rw [min_eq_right (by push_cast at h1; linarith [h1.2]), max_eq_right (by push_cast at h1; linarith [h1.1])]
      rw [e, ih (c + delta) fun k hk => by
        have := h (k + 1) (by omega)
        push_cast at this
        constructor <;> linarith [this.1, this.2]]
      congr 1
      · push_cast; ring
      · refine List.map_congr_left fun k _ => ?_
        simp only [Function.comp]; push_cast; ring

theorem lt_rangeLength {start limit delta : Int} {k : Nat} :
    k < rangeLength start limit delta ↔ ((k : Int) : ℚ) < ((limit : ℚ) - start) / delta := by
  unfold rangeLength
  rw [← Int.lt_ceil]
  omega

theorem rangeLen_spec {start limit delta : Int} (hd : delta ≠ 0) {n : Nat} (h : rangeLen start limit delta = .ok n) :
    n = rangeLength start limit delta := by
  have key : ∀ k : Nat, k < n ↔ k < rangeLength start limit delta := by
    intro k
    rw [lt_rangeLength]
    unfold rangeLen at h
    by_cases hc : (0 < delta ∧ start < limit) ∨ (delta < 0 ∧ limit < start)
    · rw [if_pos hc] at h
      by_cases hb : i64Low ≤ limit - start ∧ limit - start ≤ i64High
      · rw [if_pos hb] at h
        obtain rfl := Except.ok.inj h
        rw [lt_divCeil (by omega)]
        rcases hc with ⟨h1, h2⟩ | ⟨h1, h2⟩
        · have h1' : (0 : ℚ) < delta := by exact_mod_cast h1
          rw [lt_div_iff₀ h1']
          have : (k * delta.natAbs < (limit - start).natAbs) ↔ (k : Int) * delta < limit - start := by
            rw [← Int.ofNat_lt]; push_cast
            rw [abs_of_pos h1, abs_of_pos (by omega)]
          rw [this]
          exact_mod_cast Iff.rfl
        · have h1' : (delta : ℚ) < 0 := by exact_mod_cast h1
          rw [lt_div_iff_of_neg h1']
          have : (k * delta.natAbs < (limit - start).natAbs) ↔ limit - start < (k : Int) * delta := by
            rw [← Int.ofNat_lt]; push_cast
            rw [abs_of_neg h1, abs_of_neg (by omega)]
            constructor <;> intro h <;> linarith
          rw [this]
          exact_mod_cast Iff.rfl
      · rw [if_neg hb] at h; simp at h
    · rw [if_neg hc] at h
      obtain rfl := Except.ok.inj h
      have hk : (0 : ℚ) ≤ ((k : Int) : ℚ) := by positivity
      have : ((limit : ℚ) - start) / delta ≤ 0 := by
        rcases lt_or_gt_of_ne hd with h1 | h1
        · exact div_nonpos_of_nonneg_of_nonpos
            (by have : start ≤ limit := by omega
                have : (start : ℚ) ≤ limit := by exact_mod_cast this
                linarith) (by exact_mod_cast h1.le)
        · exact div_nonpos_of_nonpos_of_nonneg
            (by have : limit ≤ start := by omega
                have : (limit : ℚ) ≤ start := by exact_mod_cast this
                linarith) (by exact_mod_cast h1.le)
      constructor
      · intro h; omega
      · intro h; linarith
  rcases lt_trichotomy n (rangeLength start limit delta) with h1 | h1 | h1
  · exact absurd ((key n).2 h1) (lt_irrefl _)
  · exact h1
  · exact absurd ((key _).1 h1) (lt_irrefl _)

/-- Every entry of the range lies between `start` and `limit`. -/
theorem range_between {start limit delta : Int} (hd : delta ≠ 0) {k : Nat} (hk : k < rangeLength start limit delta) :
    (start ≤ start + k * delta ∧ start + k * delta < limit) ∨ (limit < start + k * delta ∧ start + k * delta ≤ start) := by
  rw [lt_rangeLength] at hk
  rcases lt_or_gt_of_ne hd with h1 | h1
  · right
    have h1' : (delta : ℚ) < 0 := by exact_mod_cast h1
    rw [lt_div_iff_of_neg h1'] at hk
    have : limit - start < (k : Int) * delta := by exact_mod_cast hk
    have h2 : (k : Int) * delta ≤ 0 := mul_nonpos_of_nonneg_of_nonpos (by omega) h1.le
    constructor <;> linarith
  · left
    have h1' : (0 : ℚ) < delta := by exact_mod_cast h1
    rw [lt_div_iff₀ h1'] at hk
    have : (k : Int) * delta < limit - start := by exact_mod_cast hk
    have h2 : 0 ≤ (k : Int) * delta := mul_nonneg (by omega) h1.le
    constructor <;> linarith

/-- **C80, Range.** When the three constants are 64-bit integers and the layer is built, the result is ONNX's. -/
theorem C80_range {start limit delta : Int} (hs : i64Low ≤ start ∧ start ≤ i64High)
    (hl : i64Low ≤ limit ∧ limit ≤ i64High) {out : Arr (ZMod p)} (h : rangeLayer p start limit delta = .ok out) :
    IsRange start limit delta out := by
  unfold rangeLayer at h
  by_cases hd : delta = 0
  · rw [if_pos hd] at h; simp at h
  rw [if_neg hd] at h
  cases hn : rangeLen start limit delta with
  | error e => rw [hn] at h; simp [bind, Except.bind] at h
  | ok n =>
    rw [hn] at h
    simp only [bind, Except.bind] at h
    obtain rfl := rangeLen_spec hd hn
    rw [rangeSeq_eq _ _ fun k hk => by
      rcases range_between hd hk with ⟨h1, h2⟩ | ⟨h1, h2⟩
      · constructor <;> linarith [hs.1, hl.2]
      · constructor <;> linarith [hl.1, hs.2]] at h
    unfold fromShapeVec at h
    rw [if_pos (by simp)] at h
    obtain rfl := Except.ok.inj h
    refine ⟨by simp, by simp [Arr.WF], fun k hk => ?_⟩
    simp [elem, rowMajor, hk]

/-- **C80, Range is built** whenever delta is not zero and `limit − start` is a 64-bit integer. -/
theorem C80_range_total {start limit delta : Int} (hd : delta ≠ 0)
    (hb : i64Low ≤ limit - start ∧ limit - start ≤ i64High) : ∃ out, rangeLayer p start limit delta = .ok out := by
  have : ∃ n, rangeLen start limit delta = .ok n := by
    unfold rangeLen
    split_ifs
    · exact ⟨_, rfl⟩
    · exact ⟨_, rfl⟩
  obtain ⟨n, hn⟩ := this
  unfold rangeLayer
  rw [if_neg hd, hn]
  simp only [bind, Except.bind, fromShapeVec]
  exact ⟨_, if_pos (by simp)⟩

/-- **C80, the recorded shape of Range** is that of the result, for integers. -/
theorem C80_range_shape {start limit delta : Int} (hs : i64Low ≤ start ∧ start ≤ i64High)
    (hl : i64Low ≤ limit ∧ limit ≤ i64High) {out : Arr (ZMod p)} (h : rangeLayer p start limit delta = .ok out) :
    inferRange start limit delta = .ok out.shape := by
  have hd : delta ≠ 0 := by
    rintro rfl
    simp [rangeLayer] at h
  rw [(C80_range hs hl h).1]
  unfold inferRange rangeLength
  rw [if_neg (by exact_mod_cast hd)]
  congr 2
  omega

theorem asI64_of_floor {q : ℚ} {n : Int} (h0 : 0 ≤ q) (hf : ⌊q⌋ = n) (hn : i64Low ≤ n ∧ n ≤ i64High) : asI64 q = n := by
  unfold asI64
  rw [if_pos h0, hf, min_eq_right hn.2, max_eq_right hn.1]

theorem small_i64 {n : Int} (h : -1000 ≤ n ∧ n ≤ 1000) : i64Low ≤ n ∧ n ≤ i64High := by
  unfold i64Low i64High
  constructor
  · have : (-2 ^ 63 : Int) ≤ -1000 := by norm_num
    linarith [h.1]
  · have : (1000 : Int) ≤ 2 ^ 63 - 1 := by norm_num
    linarith [h.2]

/-- **C80, Range of fractions is wrong**: `Range(0, 5/2, 1)` has three entries, the recorded shape is `[3]`, and the
layer produces two. -/
theorem C80_range_fraction : inferRange 0 (5 / 2) 1 = .ok [3] ∧
    ∃ out, rangeBuild p 0 (5 / 2) 1 = .ok out ∧ out.shape = [2] := by
  constructor
  · unfold inferRange
    rw [if_neg (by norm_num)]
    have : ⌈((5 / 2 - 0) / 1 : ℚ)⌉ = 3 := by rw [Int.ceil_eq_iff]; norm_num
    rw [this]; rfl
  · unfold rangeBuild
    rw [asI64_of_floor (n := 0) le_rfl (by simp) (small_i64 (by norm_num)),
      asI64_of_floor (n := 2) (by norm_num) (by rw [Int.floor_eq_iff]; norm_num) (small_i64 (by norm_num)),
      asI64_of_floor (n := 1) (by norm_num) (by simp) (small_i64 (by norm_num))]
    exact ⟨_, rfl, rfl⟩

/-- **C80, a fractional step** below one is refused. -/
theorem C80_range_small_step (start limit delta : ℚ) (h : 0 < delta ∧ delta < 1) :
    rangeBuild p start limit delta = .error .invalid := by
  unfold rangeBuild rangeLayer
  rw [if_pos]
  exact asI64_of_floor h.1.le (by rw [Int.floor_eq_iff]; constructor <;> push_cast <;> linarith [h.1, h.2])
    (small_i64 (by norm_num))

/-! ## Shape -/

theorem shapeEnd_spec (rank : Nat) (raw : Int) : IsShapeEnd rank raw (shapeEnd rank raw) := by
  unfold IsShapeEnd shapeEnd
  split_ifs <;> omega

/-- **C80, Shape**: the result is the slice of the recorded dimensions that ONNX prescribes, and the layer is always
built. -/
theorem C80_shape (dims : List Nat) (start stop : Option Int) : ∃ out, shapeLayer p dims start stop = .ok out ∧
    IsShapeOf dims (start.getD 0) (stop.getD dims.length) out ∧ out.shape = inferShapeOp dims start stop := by
  have h1 := shapeEnd_spec dims.length (start.getD 0)
  have h2 := shapeEnd_spec dims.length (stop.getD dims.length)
  have hd : shapeDims dims start stop = (dims.drop (shapeEnd dims.length (start.getD 0))).take
      (shapeEnd dims.length (stop.getD dims.length) - shapeEnd dims.length (start.getD 0)) := by
    unfold shapeDims
    dsimp only
    split_ifs with h
    · rfl
    · rw [Nat.sub_eq_zero_of_le (by omega)]; simp
  have he : shapeEnd dims.length (stop.getD dims.length) ≤ dims.length := by
    unfold IsShapeEnd at h2; omega
  have hlen : (shapeDims dims start stop).length =
      shapeEnd dims.length (stop.getD dims.length) - shapeEnd dims.length (start.getD 0) := by
    rw [hd, List.length_take, List.length_drop]; omega
  refine ⟨⟨[(shapeDims dims start stop).length], (shapeDims dims start stop).map fun d : Nat => (d : ZMod p)⟩, ?_, ?_, ?_⟩
  · unfold shapeLayer fromShapeVec
    rw [if_pos (by simp)]
  · refine ⟨_, _, h1, h2, by rw [hlen], by simp [Arr.WF], fun k hk => ?_⟩
    have hlt : shapeEnd dims.length (start.getD 0) + k < dims.length := by omega
    refine ⟨dims[shapeEnd dims.length (start.getD 0) + k], by simp [hlt], ?_⟩
    simp only [elem, rowMajor, List.prod_nil, mul_one, add_zero, List.getElem?_map, hd, List.getElem?_take, if_pos hk,
      List.getElem?_drop, List.getElem?_eq_getElem hlt, Option.map_some]
  · simp only [inferShapeOp, hlen]

/-! ## ConstantOfShape -/

theorem asUsize_nonneg {v : Int} (h : 0 ≤ v ∧ v ≤ i64High) : asUsize v = v.toNat := by
  unfold asUsize
  unfold i64High at h
  rw [Int.emod_eq_of_lt h.1 (lt_of_le_of_lt h.2 (by norm_num))]

theorem asUsize_neg {v : Int} (h : i64Low ≤ v ∧ v < 0) : 2 ^ 63 ≤ asUsize v := by
  unfold asUsize
  unfold i64Low at h
  have : v % 2 ^ 64 = v + 2 ^ 64 := by
    rw [← Int.add_emod_right, Int.emod_eq_of_lt (by linarith [h.1]) (by linarith [h.2])]
  rw [this]
  have h3 : (2 ^ 63 : Int) ≤ v + 2 ^ 64 := by linarith [h.1]
  have : ((2 ^ 63 : Nat) : Int).toNat ≤ (v + 2 ^ 64).toNat := Int.toNat_le_toNat (by exact_mod_cast h3)
  rwa [Int.toNat_natCast] at this

theorem prodU_ok : ∀ (ds : List Nat) (a t : Nat), prodU ds a = .ok t → t = a * ds.prod := by
  intro ds
  induction ds with
  | nil => intro a t h; simp [prodU] at h; simp [h]
  | cons d ds ih =>
    intro a t h
    unfold prodU usz at h
    by_cases hc : a * d < usizeMax
    · rw [if_pos hc] at h
      simp only [bind, Except.bind] at h
      rw [ih _ _ h, List.prod_cons, mul_assoc]
    · rw [if_neg hc] at h; simp [bind, Except.bind] at h

/-- **C80, ConstantOfShape** that is built has the requested dimensions, none of them negative, and is filled with the
image of the value rounded towards zero. -/
theorem C80_constOfShape {dims : List Int} (hd : ∀ v ∈ dims, i64Low ≤ v ∧ v ≤ i64High) {fill : ℚ} {out : Arr (ZMod p)}
    (h : constOfShape p dims fill = .ok out) :
    (∀ v ∈ dims, 0 ≤ v) ∧ IsFilled (dims.map Int.toNat) ((asI64 fill : Int) : ZMod p) out := by
  unfold constOfShape at h
  dsimp only at h
  cases ht : prodU (dims.map asUsize) 1 with
  | error e => rw [ht] at h; simp [bind, Except.bind] at h
  | ok t =>
    rw [ht] at h
    simp only [bind, Except.bind] at h
    by_cases hbig : ((dims.map asUsize).filter (· ≠ 0)).prod ≥ 2 ^ 63
    · rw [if_pos hbig] at h; simp at h
    rw [if_neg hbig] at h
    have hnn : ∀ v ∈ dims, 0 ≤ v := by
      intro v hv
      by_contra hneg
      have hge := asUsize_neg ⟨(hd v hv).1, by omega⟩
      have hmem : asUsize v ∈ (dims.map asUsize).filter (· ≠ 0) := by
        rw [List.mem_filter]
        refine ⟨List.mem_map_of_mem hv, ?_⟩
        have : 0 < asUsize v := lt_of_lt_of_le (by norm_num) hge
        simp; omega
      have hpos : 0 < ((dims.map asUsize).filter (· ≠ 0)).prod := by
        refine List.prod_pos fun a ha => ?_
        have := (List.mem_filter.1 ha).2
        simp at this; omega
      exact hbig (le_trans hge (Nat.le_of_dvd hpos (List.dvd_prod hmem)))
    have hdims : dims.map asUsize = dims.map Int.toNat :=
      List.map_congr_left fun v hv => asUsize_nonneg ⟨hnn v hv, (hd v hv).2⟩
    have ht' := prodU_ok _ _ _ ht
    unfold fromShapeVec at h
    rw [if_pos (by rw [List.length_replicate, ht', one_mul])] at h
    obtain rfl := Except.ok.inj h
    rw [one_mul] at ht'
    rw [hdims] at ht' ⊢
    refine ⟨hnn, rfl, by simp [Arr.WF, ht'], fun c hc => ?_⟩
    have hlt := rowMajor_lt hc
    simp only [elem]
    rw [List.getElem?_replicate, if_pos (by rw [ht']; exact hlt)]

/-- **C80, ConstantOfShape is built** for dimensions that are not negative and whose non-zero ones multiply to less
than `2^63`. -/
theorem C80_constOfShape_total {dims : List Int} (hd : ∀ v ∈ dims, 0 ≤ v ∧ v ≤ i64High)
    (hb : ((dims.map Int.toNat).filter (· ≠ 0)).prod < 2 ^ 63) (fill : ℚ) :
    ∃ out, constOfShape p dims fill = .ok out := by
  have hdims : dims.map asUsize = dims.map Int.toNat :=
    List.map_congr_left fun v hv => asUsize_nonneg (hd v hv)
  have key : ∀ (ds : List Nat) (a m : Nat), a ≤ m → m * (ds.filter (· ≠ 0)).prod < 2 ^ 63 → 0 < m →
      prodU ds a = .ok (a * ds.prod) := by
    intro ds
    induction ds with
    | nil => intro a m _ _ _; simp [prodU]
    | cons d ds ih =>
      intro a m ham hlt hm
      have hpos : 0 < (ds.filter (· ≠ 0)).prod := by
        refine List.prod_pos fun x hx => ?_
        have := (List.mem_filter.1 hx).2
        simp at this; omega
      have hu : ∀ q, q < 2 ^ 63 → usz q = .ok q := fun q hq => if_pos (lt_trans hq (by unfold usizeMax; norm_num))
      unfold prodU
      by_cases h0 : d = 0
      · subst h0
        rw [List.filter_cons_of_neg (by simp)] at hlt
        rw [hu _ (by norm_num)]
        simp only [bind, Except.bind]
        rw [ih (a * 0) m (by omega) hlt hm]
        simp
      · rw [List.filter_cons_of_pos (by simpa using h0), List.prod_cons, ← mul_assoc] at hlt
        have hle : a * d ≤ m * d := Nat.mul_le_mul_right _ ham
        rw [hu _ (lt_of_le_of_lt (le_trans hle (Nat.le_mul_of_pos_right _ hpos)) hlt)]
        simp only [bind, Except.bind]
        rw [ih (a * d) (m * d) hle hlt (Nat.mul_pos hm (by omega)), List.prod_cons, mul_assoc]
  unfold constOfShape
  dsimp only
  rw [hdims, key _ 1 1 le_rfl (by rwa [one_mul]) one_pos]
  simp only [bind, Except.bind]
  rw [if_neg (by omega)]
  exact ⟨_, if_pos (by simp)⟩

/-- Conversion to a 64-bit integer is towards zero, within range. -/
theorem asI64_trunc {q : ℚ} (h : |q| < 2 ^ 63) : IsTrunc q (asI64 q) := by
  rw [abs_lt] at h
  have hb : ∀ n : Int, (-(2 ^ 63) : ℚ) ≤ n → (n : ℚ) < 2 ^ 63 → max i64Low (min i64High n) = n := by
    intro n h1 h2
    have h1' : i64Low ≤ n := by
      unfold i64Low
      have : ((-2 ^ 63 : Int) : ℚ) ≤ n := by push_cast; exact h1
      exact_mod_cast this
    have h2' : n ≤ i64High := by
      unfold i64High
      have : n < (2 ^ 63 : Int) := by
        have : (n : ℚ) < ((2 ^ 63 : Int) : ℚ) := by push_cast; exact h2
        exact_mod_cast this
      omega
    rw [min_eq_right h2', max_eq_right h1']
  unfold asI64 IsTrunc
  split_ifs with h0
  · have hf := Int.floor_le q
    have hf0 : (0 : ℚ) ≤ ⌊q⌋ := by exact_mod_cast Int.floor_nonneg.2 h0
    rw [hb _ (by linarith) (by linarith), abs_of_nonneg h0, abs_of_nonneg hf0]
    exact ⟨hf, Int.lt_floor_add_one q, mul_nonneg hf0 h0⟩
  · have h0' : q < 0 := lt_of_not_ge h0
    have hf := Int.le_ceil q
    have hf0 : (⌈q⌉ : ℚ) ≤ 0 := by
      have : ⌈q⌉ ≤ 0 := Int.ceil_le.2 (by exact_mod_cast h0'.le)
      exact_mod_cast this
    rw [hb _ (by linarith) (by linarith), abs_of_neg h0', abs_of_nonpos hf0]
    exact ⟨by linarith, by linarith [Int.ceil_lt_add_one q], mul_nonneg_of_nonpos_of_nonpos hf0 h0'.le⟩

/-- **C80, the value of ConstantOfShape is not scaled**: filled with one half, the tensor holds zeros, whatever the
scale; so no scale makes it represent one half. -/
theorem C80_constOfShape_fraction [NeZero p] (hp : 2 < p) (κ : Nat) (hκ : 0 < κ) (hk : 2 ^ κ < p) :
    ∃ out, constOfShape p [1] (1 / 2) = .ok out ∧ out.data = [0] ∧
      (((2 ^ κ / 2 : Nat) : ZMod p)) ≠ 0 := by
  refine ⟨⟨[1], [0]⟩, ?_, rfl, ?_⟩
  · have h0 : asI64 (1 / 2) = 0 :=
      asI64_of_floor (by norm_num) (by rw [Int.floor_eq_iff]; norm_num) (small_i64 (by norm_num))
    unfold constOfShape
    rw [h0]
    have : asUsize 1 = 1 := rfl
    simp [this, prodU, usz, usizeMax, bind, Except.bind, fromShapeVec]
  · rw [Ne, ZMod.natCast_eq_zero_iff]
    intro hdvd
    obtain ⟨k, rfl⟩ : ∃ k, κ = k + 1 := ⟨κ - 1, by omega⟩
    have e : 2 ^ (k + 1) / 2 = 2 ^ k := by rw [pow_succ]; omega
    rw [e] at hdvd
    have := Nat.le_of_dvd (by positivity) hdvd
    rw [pow_succ] at hk
    omega

/-! ## Constant -/

/-- **C80, Constant.** -/
theorem C80_constant {values : Arr Int} (hw : values.WF) : constantLayer p values = .ok (castArr p values) := by
  unfold constantLayer fromShapeVec castArr
  rw [if_pos (by rw [List.length_map]; exact hw)]

/-! ## Cast -/

variable [Fact p.Prime] {T : Tables (ZMod p)}

theorem sound_toBool (v : ZMod p) : Sound T (toBool v) (fun w => w = if v = 0 then 0 else 1) := by
  refine (sound_isZero v).bind ?_
  rintro _ rfl
  refine Sound.pure ?_
  split_ifs <;> simp

theorem complete_toBool (v : ZMod p) : Complete T (toBool v) (fun w => w = if v = 0 then 0 else 1) := by
  refine (complete_isZero v).bind ?_
  rintro _ rfl
  refine Complete.pure ?_
  split_ifs <;> simp

theorem intCast_eq_zero_small {u : Int} (h : |u| < p) : (u : ZMod p) = 0 ↔ u = 0 := by
  rw [ZMod.intCast_zmod_eq_zero_iff_dvd]
  constructor
  · intro hd
    exact Int.eq_zero_of_abs_lt_dvd hd h
  · rintro rfl; simp

/-- **C80, Cast to BOOL** accepts exactly the tensor with 0 where the input is zero and 1 elsewhere. -/
theorem C80_cast_bool (x : Arr Int) (hw : x.WF) (hx : ∀ u ∈ x.data, |u| < p) :
    Sound T (castLayer 9 (castArr p x)) (IsUnary x fun u w => w = if u = 0 then 0 else 1) ∧
    Complete T (castLayer 9 (castArr p x)) (IsUnary x fun u w => w = if u = 0 then 0 else 1) := by
  have e : castLayer 9 (castArr p x) = mapLayer toBool (castArr p x) := by
    unfold castLayer
    rw [if_neg (by simp [castTypes]), if_pos rfl]
  rw [e]
  constructor
  · refine sound_mapLayer hw fun u hu => (sound_toBool _).conseq fun w h => ?_
    simpa only [intCast_eq_zero_small (hx u hu)] using h
  · refine complete_mapLayer hw fun u hu => (complete_toBool _).conseq fun w h => ?_
    simpa only [intCast_eq_zero_small (hx u hu)] using h

/-- **C80, Cast to an unsupported type** is refused. -/
theorem C80_cast_unsupported {ty : Int} (h : ty ∉ castTypes) (x : Arr (ZMod p)) :
    Sound T (castLayer ty x) fun _ => False := by
  unfold castLayer
  rw [if_pos h]
  exact Sound.throwErr

/-- **C80, Cast to any other supported type** returns its input unchanged. -/
theorem C80_cast_other {ty : Int} (h : ty ∈ castTypes) (h9 : ty ≠ 9) (x : Arr (ZMod p)) : castLayer ty x = pure x := by
  unfold castLayer
  rw [if_neg (by simpa using h), if_neg h9]

theorem natCast_ne_small {a b : Nat} (ha : a < p) (hb : b < p) (h : a ≠ b) : (a : ZMod p) ≠ (b : ZMod p) := by
  rw [Ne, ZMod.natCast_eq_natCast_iff, Nat.ModEq, Nat.mod_eq_of_lt ha, Nat.mod_eq_of_lt hb]
  exact h

/-- **C80, Cast from float to an integer type does not truncate**: three halves, `3·2^(κ−1)` at scale `2^κ`, stays as it
is, which is the image of the truncated value neither unscaled nor scaled. -/
theorem C80_cast_not_truncated {κ : Nat} (hκ : 1 ≤ κ) (hp : 2 ^ (κ + 1) < p) :
    castLayer 7 (castArr p ⟨[1], [3 * 2 ^ (κ - 1)]⟩) = pure (castArr p ⟨[1], [3 * 2 ^ (κ - 1)]⟩) ∧
    ∀ n : Int, IsTrunc (3 / 2) n → ((3 * 2 ^ (κ - 1) : Int) : ZMod p) ≠ (n : ZMod p) ∧
      ((3 * 2 ^ (κ - 1) : Int) : ZMod p) ≠ ((n * 2 ^ κ : Int) : ZMod p) := by
  refine ⟨C80_cast_other (by decide) (by decide) _, fun n hn => ?_⟩
  obtain ⟨h1, h2, h3⟩ := hn
  have h0 : (0 : ℚ) ≤ n := by nlinarith
  rw [abs_of_nonneg h0, abs_of_nonneg (by norm_num)] at h1 h2
  have a1 : n < 2 := by
    have : (n : ℚ) < ((2 : Int) : ℚ) := by push_cast; linarith
    exact_mod_cast this
  have a2 : 0 < n := by
    have : ((0 : Int) : ℚ) < n := by push_cast; linarith
    exact_mod_cast this
  obtain rfl : n = 1 := by omega
  obtain ⟨k, rfl⟩ : ∃ k, κ = k + 1 := ⟨κ - 1, by omega⟩
  have hk : 0 < 2 ^ k := by positivity
  have e1 : 2 ^ (k + 1 + 1) = 4 * 2 ^ k := by ring
  have e2 : 2 ^ (k + 1) = 2 * 2 ^ k := by ring
  rw [e1] at hp
  have q1 := natCast_ne_small (p := p) (a := 3 * 2 ^ k) (b := 1) (by omega) (by omega) (by omega)
  have q2 := natCast_ne_small (p := p) (a := 3 * 2 ^ k) (b := 2 ^ (k + 1)) (by omega) (by omega) (by omega)
  rw [Nat.add_sub_cancel]
  constructor
  · intro h; apply q1; push_cast at h ⊢; exact h
  · intro h; apply q2; push_cast at h ⊢; simpa using h

/-- **C80, Cast from an integer type to float does not scale**: one stays one, and `1.0` is `2^κ`. -/
theorem C80_cast_not_scaled {κ : Nat} (hκ : 1 ≤ κ) (hp : 2 ^ κ < p) :
    castLayer 1 (castArr p ⟨[1], [1]⟩) = pure (castArr p ⟨[1], [1]⟩) ∧ ((1 : Nat) : ZMod p) ≠ ((2 ^ κ : Nat) : ZMod p) := by
  refine ⟨C80_cast_other (by decide) (by decide) _, ?_⟩
  have : 2 ^ 1 ≤ 2 ^ κ := Nat.pow_le_pow_right (by norm_num) hκ
  exact natCast_ne_small (by omega) hp (by omega)

/-! ## The theorems are not vacuous -/

example : rangeLayer 101 5 (-2) (-3) = .ok ⟨[3], [5, 2, -1]⟩ := rfl
example : rangeLength 5 (-2) (-3) = 3 := by
  unfold rangeLength
  have : ⌈((-2 - 5) / -3 : ℚ)⌉ = 3 := by rw [Int.ceil_eq_iff]; norm_num
  rw [this]; rfl
example : shapeLayer 101 [7, 8, 9] (some (-2)) none = .ok ⟨[2], [8, 9]⟩ := rfl
example : constOfShape 101 [2, 0, 3] 4 = .ok ⟨[2, 0, 3], []⟩ := by
  have : asI64 4 = 4 := asI64_of_floor (by norm_num) (by rw [Int.floor_eq_iff]; norm_num) (small_i64 (by norm_num))
  unfold constOfShape
  rw [this]; rfl

end JST.Props
