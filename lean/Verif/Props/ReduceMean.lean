import Verif.Props.Reduce

/-!
# C55: what ReduceMean can and cannot prove

Completeness, the lanes for which the honest prover fails, the lanes for which a wrong mean can be proved,
and what the three reduction layers refuse.
-/

namespace JST.Props

open JST.Shape JST.Layers JST.Spec

variable {p : Nat} [Fact p.Prime] {T : Tables (ZMod p)}

theorem sum_range {a b : Int} : ∀ xs : List Int, (∀ x ∈ xs, a ≤ x ∧ x ≤ b) →
    xs.length * a ≤ xs.sum ∧ xs.sum ≤ xs.length * b
  | [], _ => by simp
  | x :: xs, h => by
    have h1 := h x (by simp)
    have h2 := sum_range xs fun y hy => h y (List.mem_cons_of_mem _ hy)
    simp only [List.sum_cons, List.length_cons]
    push_cast
    constructor <;> linarith

/-- The rounded mean lies between the smallest and the largest entry. -/
theorem mean_range {a b : Int} {xs : List Int} (hne : xs ≠ []) (h : ∀ x ∈ xs, a ≤ x ∧ x ≤ b) :
    a ≤ roundedMean xs.sum xs.length ∧ roundedMean xs.sum xs.length ≤ b := by
  have h0 : 0 < xs.length := List.length_pos_iff.2 hne
  obtain ⟨h1, h2⟩ := sum_range xs h
  rw [roundedMean_eq]
  constructor
  · rw [Int.le_ediv_iff_mul_le (by omega), mul_comm]
    omega
  · have : (xs.sum + (xs.length / 2 : Nat)) / (xs.length : Int) < b + 1 := by
      refine Int.ediv_lt_of_lt_mul (by omega) ?_
      rw [add_mul, mul_comm b, one_mul]
      omega
    omega

/-- A lane of one entry: the honest prover succeeds for every sign. -/
theorem complete_laneMean_one {rc : RangeCtx} (hT : IsRangeTable T rc) {nb : Nat}
    (hun : RangeUsable p rc nb) (huk : RangeUsable p rc (remainderBits 1)) {X : Int}
    (h0 : -2 ^ (nb - 1) ≤ X) (h1 : X < 2 ^ (nb - 1)) :
    Complete T (laneMean rc nb 1 (X : ZMod p)) (fun out => out = (X : ZMod p)) := by
  have hpp : 1 < p := (Fact.out : p.Prime).one_lt
  have eN : (X : ZMod p) + ((1 / 2 : Nat) : ZMod p) = (((X : ZMod p).val : Nat) : ZMod p) := by
    rw [ZMod.natCast_zmod_val]; simp
  obtain ⟨cq, cr⟩ := laneHonest (T := T) (p := p) (N := (X : ZMod p).val) (n := 1) (by omega)
    (ZMod.val_lt _) hpp
  rw [Nat.div_one] at cq
  rw [Nat.mod_one] at cr
  unfold laneMean
  dsimp only
  rw [eN]
  refine cq.bind ?_; rintro _ rfl
  refine cr.bind ?_; rintro _ rfl
  refine (Det.assertEq (by simp)).complete.bind fun _ _ => ?_
  refine (huk.complete hT (k := 0) (by positivity) rfl).bind fun _ _ => ?_
  refine Complete.bind (P := fun _ => True) (Complete.pure trivial) fun _ _ => ?_
  rw [ZMod.natCast_zmod_val]
  refine (hun.completeInt hT (k := X + 2 ^ (nb - 1)) (by omega) ?_ (by push_cast; rfl)).bind fun _ _ =>
    Complete.pure rfl
  have h2 : (2 : Int) ^ nb = 2 ^ (nb - 1) * 2 := by
    rw [← pow_succ, show nb - 1 + 1 = nb by have := hun.n_pos; omega]
  omega

theorem roundedMean_one (X : Int) : roundedMean X 1 = X := by rw [roundedMean_eq]; simp

/-- The layer once its axes are known. -/
theorem complete_meanCore {rc : RangeCtx} (hT : IsRangeTable T rc)
    {nb n : Nat} {raw : Option (List Int)} {keep : Bool} {x : Arr Int} (hw : x.WF) {axes : List Nat}
    (hax : meanAxes x.shape.length raw = .ok axes) (h1 : axes = axesFrom axes 0 x.shape.length)
    (hr : ∀ v ∈ x.data, -2 ^ (nb - 1) ≤ v ∧ v < 2 ^ (nb - 1))
    (hn : ∀ o, InRange (reduceShape keep axes x.shape) o → (lane keep axes x o).length = n ∧
      (n = 1 ∨ 0 ≤ roundedMean (lane keep axes x o).sum n))
    (hs : 0 < laneSize axes x.shape) (hun : RangeUsable p rc nb)
    (huk : RangeUsable p rc (remainderBits n)) (hp : n * (2 ^ (nb - 1) + 1) ≤ p) :
    Complete T (reduceMeanLayer rc raw keep x.shape nb (castArr p x))
      (IsReduced x keep axes IsLaneMean) := by
  unfold reduceMeanLayer
  refine Complete.bind (complete_liftR hax) ?_
  intro axes' e'
  rw [e']
  dsimp only
  have c1 : ¬ (axes.map fun a => x.shape.getD a 0).prod = 0 := by
    have := hs; unfold laneSize at this; omega
  have hn0 := hun.n_pos
  have hn1 := hun.n_le
  rw [if_neg c1, if_neg (by omega), if_neg (by simp [castArr])]
  refine complete_reduceAll (T := T)
    (f := fun vs => laneMean rc nb (axes.map fun a => x.shape.getD a 0).prod (sumVars vs))
    (castArr_WF (p := p) hw) (keep := keep) h1
    (R := fun o v => IsLaneMean (lane keep axes x o) v) ?_
  intro o ho
  have hl := lane_length hw h1 (keep := keep) (o := o) ho
  obtain ⟨hl2, hm⟩ := hn o ho
  have hmem : ∀ v ∈ lane keep axes x o, -2 ^ (nb - 1) ≤ v ∧ v ≤ 2 ^ (nb - 1) - 1 := fun v hv => by
    have := hr v (lane_mem hv); omega
  have hne : lane keep axes x o ≠ [] := by
    intro h; rw [h, List.length_nil] at hl; omega
  have hrange := mean_range hne hmem
  have hsum := sum_range _ hmem
  rw [hl2] at hl
  unfold laneSize at hl hs
  rw [← hl, lane_cast, sumVars_cast]
  unfold IsLaneMean
  rw [hl2] at hrange hsum ⊢
  by_cases hone : n = 1
  · subst hone
    rw [roundedMean_one] at hrange ⊢
    exact complete_laneMean_one hT hun huk hrange.1 (by omega)
  · have hm := hm.resolve_left hone
    have hnpos : 0 < n := by omega
    refine complete_laneMean hT (by omega) hun huk ?_ ?_ ?_ (by omega)
    · have : n * 1 < n * (2 ^ (nb - 1) + 1) := by
        refine Nat.mul_lt_mul_of_pos_left ?_ hnpos
        have : 0 < 2 ^ (nb - 1) := by positivity
        omega
      omega
    · rw [roundedMean_eq] at hm
      by_contra hneg
      have := Int.ediv_neg_of_neg_of_pos (a := (lane keep axes x o).sum + (n / 2 : Nat)) (b := n) (by omega) (by omega)
      omega
    · have h6 : (n : Int) * (2 ^ (nb - 1) + 1) ≤ p := by exact_mod_cast hp
      have h7 : (n : Int) * (2 ^ (nb - 1) - 1) = n * (2 ^ (nb - 1) + 1) - 2 * n := by ring
      have := hsum.2
      omega

/-- Width of the remainder check for lanes of `n` entries. -/
theorem remainderBits_max {n : Nat} (h : 1 ≤ n) : remainderBits n = max (Nat.clog 2 n) 1 := by
  by_cases h2 : 2 ≤ n
  · rw [remainderBits_eq h2]
    have : 0 < Nat.clog 2 n := Nat.clog_pos (by norm_num) h2
    omega
  · obtain rfl : n = 1 := by omega
    simp [remainderBits, nextPow2Log]

/-- **C55, ReduceMean is complete** for lanes whose mean is not negative (and for lanes of one entry), for
every digit width. -/
theorem C55_reduce_mean_complete {rc : RangeCtx} (hT : IsRangeTable T rc)
    {nb n : Nat} (raw : Option (List Int)) (hraw : raw ≠ some []) (keep : Bool) (x : Arr Int) (hw : x.WF)
    (hv : ∀ r ∈ raw.getD [], ∃ a, AxisOf x.shape.length r a) (hs : ∀ d ∈ x.shape, 0 < d)
    (hr : ∀ v ∈ x.data, -2 ^ (nb - 1) ≤ v ∧ v < 2 ^ (nb - 1))
    (hn : ∀ axes o, ReduceAxes x.shape.length (raw.getD []) axes → InRange (reduceShape keep axes x.shape) o →
      (lane keep axes x o).length = n ∧ (n = 1 ∨ 0 ≤ roundedMean (lane keep axes x o).sum n)) (h1 : 1 ≤ n)
    (hun : RangeUsable p rc nb) (huk : RangeUsable p rc (max (Nat.clog 2 n) 1))
    (hp : n * (2 ^ (nb - 1) + 1) ≤ p) :
    Complete T (reduceMeanLayer rc raw keep x.shape nb (castArr p x))
      (fun out => ∃ axes, ReduceAxes x.shape.length (raw.getD []) axes ∧
        IsReduced x keep axes IsLaneMean out) := by
  obtain ⟨axes, hax⟩ := maxAxes_accepts hv
  obtain ⟨ha1, ha2⟩ := maxAxes_ok hax
  rw [← meanAxes_eq hraw] at hax
  exact (complete_meanCore hT hw hax ha1 hr (fun o ho => hn axes o ha2 ho) (laneSize_pos ha1 hs) hun
    (by rwa [remainderBits_max h1]) hp).conseq fun out h => ⟨axes, ha2, h⟩

/-! ## Negative means -/

theorem Replay.laneMean (rc : RangeCtx) (nb n : Nat) (s : ZMod p) : Replay (JST.laneMean rc nb n s) := by
  unfold JST.laneMean
  refine Replay.bind Replay.hint2 fun q => Replay.bind Replay.hint2 fun r => ?_
  refine Replay.bind Replay.assertEq fun _ => Replay.bind (Replay.rangeCheck _ _ _) fun _ => ?_
  refine Replay.bind ?_ fun _ => Replay.bind (Replay.rangeCheck _ _ _) fun _ => Replay.pure
  unfold laneUpper
  split_ifs
  · exact Replay.pure
  · exact Replay.rangeCheck _ _ _

theorem Replay.liftR {α : Type} (r : R α) : Replay (Layers.liftR r : G (ZMod p) α) := by
  cases r with
  | ok a => exact Replay.pure
  | error e => cases e <;> first | exact Replay.panicWith | exact Replay.throwErr

/-- If one step cannot be completed honestly, neither can the loop. -/
theorem not_succeeds_collectG {α β : Type} {f : α → G (ZMod p) β} (hf : ∀ a, Replay (f a)) :
    ∀ l : List α, (∃ a ∈ l, ¬ Complete T (f a) (fun _ => True)) → ¬ Succeeds T (collectG f l) .honest
  | [], h => by simp at h
  | a :: l, h => by
    intro hs
    unfold collectG at hs
    obtain ⟨o, h1, h2, h3⟩ := hs.unbind
    have hrest := (hf a o h1).1
    obtain ⟨b, hb, hnb⟩ := h
    rcases List.mem_cons.1 hb with rfl | hb
    · exact hnb ⟨o, h1, hrest, h2, trivial⟩
    · rw [hrest] at h3
      obtain ⟨o2, k1, k2, _⟩ := h3.unbind
      exact not_succeeds_collectG hf l ⟨b, hb, hnb⟩ ⟨o2, k1, k2⟩

/-- **C55, ReduceMean of a negative lane.** If some lane of at least two entries has a negative (rounded)
mean, the honest prover fails: it divides the field representative, not the integer. Together with
`C55_reduce_mean_complete` this says exactly which inputs it can prove. -/
theorem C55_reduce_mean_negative {rc : RangeCtx} (hT : IsRangeTable T rc) (hc : 0 < rc.chunk)
    {nb n : Nat} (raw : Option (List Int)) (hraw : raw ≠ some []) (keep : Bool) (x : Arr Int) (hw : x.WF)
    (hr : ∀ v ∈ x.data, |v| ≤ 2 ^ nb) (h2 : 2 ≤ n)
    (hneg : ∀ axes, ReduceAxes x.shape.length (raw.getD []) axes →
      ∃ o, InRange (reduceShape keep axes x.shape) o ∧ (lane keep axes x o).length = n ∧
        roundedMean (lane keep axes x o).sum n < 0)
    (hp : n * 2 ^ (nb + rc.chunk + 2) ≤ p) (Q : Arr (ZMod p) → Prop) :
    ¬ Complete T (reduceMeanLayer rc raw keep x.shape nb (castArr p x)) Q := by
  rintro ⟨o, h1, h2', h3, -⟩
  have hs : Succeeds T (reduceMeanLayer rc raw keep x.shape nb (castArr p x)) .honest := ⟨o, h1, h3⟩
  clear h1 h2' h3
  unfold reduceMeanLayer at hs
  obtain ⟨o1, k1, -, hs⟩ := hs.unbind
  have hrest := (Replay.liftR _ o1 k1).1
  rw [hrest] at hs
  have hax : meanAxes x.shape.length raw = .ok o1.val := sound_liftR (T := T) _ _ k1 (by
    revert k1
    cases meanAxes x.shape.length raw with
    | ok a => intro k1; cases k1; exact Sat.nil
    | error e => cases e <;> intro k1 <;> cases k1)
  generalize o1.val = axes at hs hax
  rw [meanAxes_eq hraw] at hax
  obtain ⟨ha1, ha2⟩ := maxAxes_ok hax
  obtain ⟨q, hq, hl, hm⟩ := hneg axes ha2
  have hl' := lane_length hw ha1 (keep := keep) (o := q) hq
  dsimp only at hs
  by_cases c1 : (axes.map fun a => x.shape.getD a 0).prod = 0
  · rw [if_pos c1] at hs; obtain ⟨_, h, _⟩ := hs; cases h
  by_cases c2 : nb = 0 ∨ nb > 128
  · rw [if_neg c1, if_pos c2] at hs; obtain ⟨_, h, _⟩ := hs; cases h
  rw [if_neg c1, if_neg c2, if_neg (by simp [castArr])] at hs
  unfold reduceAll at hs
  obtain ⟨o2, k2, k3, -⟩ := hs.unbind
  refine not_succeeds_collectG (T := T) (fun a => ?_) _ ⟨rowMajor (reduceShape keep axes x.shape) q, ?_, ?_⟩
    ⟨o2, k2, k3⟩
  · exact Replay.bind (Replay.liftR _) fun _ => Replay.laneMean _ _ _ _
  · rw [List.mem_range, reducedShape_eq]; exact rowMajor_lt hq
  · rw [reducedShape_eq]
    have hlv := laneValues_ok (castArr_WF (p := p) hw) (keep := keep) (k := rowMajor (reduceShape keep axes x.shape) q)
      ha1 (rowMajor_lt hq)
    change laneValues _ _ _ x.shape (reduceShape keep axes x.shape) _ =
      .ok (lane keep axes (castArr p x) (unravel _ (reduceShape keep axes x.shape))) at hlv
    rw [hlv, unravel_rowMajor hq, lane_cast]
    intro hcomp
    obtain ⟨o3, m1, m2, m3, -⟩ := hcomp
    have hs3 : Succeeds T _ .honest := ⟨o3, m1, m3⟩
    have hs4 := hs3.complete (complete_liftR rfl)
    dsimp only at hs4
    obtain ⟨o5, n1, n2⟩ := hs4
    have hcl : Complete T _ (fun _ => True) := ⟨o5, n1, (Replay.laneMean _ _ _ _ o5 n1).1, n2, trivial⟩
    rw [hl] at hl'
    unfold laneSize at hl'
    rw [← hl', sumVars_cast] at hcl
    refine laneMean_negative hT hc h2 ?_ (by omega) ?_ _ hcl
    · rw [roundedMean_eq] at hm
      by_contra hge
      have := Int.ediv_nonneg (a := (lane keep axes x q).sum + (n / 2 : Nat)) (b := n) (by omega) (by omega)
      omega
    · have hs' := abs_sum_le (lane keep axes x q) (B := 2 ^ nb) fun v hv => hr v (lane_mem hv)
      rw [hl] at hs'
      have h4 : (2 : Int) ^ (nb + slackBits rc.chunk nb + 1) ≤ 2 ^ (nb + rc.chunk) :=
        pow_le_pow_right₀ (by norm_num) (by have := slack_lt (n := nb) hc; omega)
      have h5 : (2 : Int) ^ nb ≤ 2 ^ (nb + rc.chunk) := pow_le_pow_right₀ (by norm_num) (by omega)
      have h6 : (n : Int) * 2 ^ (nb + rc.chunk + 2) ≤ p := by exact_mod_cast hp
      rw [pow_add _ (nb + rc.chunk)] at h6
      have h7 : (0 : Int) ≤ n := by positivity
      have h8 : (0 : Int) ≤ 2 ^ (nb + rc.chunk) := by positivity
      have h9 := neg_abs_le (lane keep axes x q).sum
      nlinarith [mul_le_mul_of_nonneg_left h4 h7, mul_le_mul_of_nonneg_left h5 h7, mul_nonneg h7 h8]

/-! ## Means that are not forced -/

/-- Lanes for which the remainder check leaves a choice: one entry; or a digit width that does not divide
`⌈log₂ n⌉` and a size that is a power of two or at most two thirds of the next one. -/
def MeanOpen (chunk n : Nat) : Prop :=
  n = 1 ∨ (2 ≤ n ∧ ¬ chunk ∣ Nat.clog 2 n ∧ (n = 2 ^ Nat.clog 2 n ∨ 3 * n ≤ 2 ^ (Nat.clog 2 n + 1)))

theorem isPow2_two_pow (k : Nat) : isPow2 (2 ^ k) = true := by
  unfold isPow2
  rw [Nat.log2_two_pow]
  simp

theorem forge_wrong_lane {rc : RangeCtx} (hT : IsRangeTable T rc) {nb : Nat} {xs : List Int} (hne : xs ≠ [])
    (hx : ∀ x ∈ xs, -2 ^ (nb - 1) < x ∧ x < 2 ^ (nb - 1) - 1) (hun : RangeCallable rc nb)
    (huk : RangeCallable rc (max (Nat.clog 2 xs.length) 1)) (ho : MeanOpen rc.chunk xs.length) (hp : 2 < p) :
    ∃ v : ZMod p, ¬ IsLaneMean xs v ∧
      Forge T (laneMean rc nb xs.length ((xs.sum : Int) : ZMod p)) (fun out => out = v) := by
  have h1 : 1 ≤ xs.length := List.length_pos_iff.2 hne
  have hm := mean_range (a := -2 ^ (nb - 1) + 1) (b := 2 ^ (nb - 1) - 2) hne fun x h => by
    have := hx x h; omega
  have hpow : (2 : Int) ^ nb = 2 ^ (nb - 1) * 2 := by
    rw [← pow_succ, show nb - 1 + 1 = nb by have := hun.n_pos; omega]
  have hwrong : ∀ δ : Int, δ = 1 ∨ δ = -1 →
      ¬ IsLaneMean xs ((roundedMean xs.sum xs.length + δ : Int) : ZMod p) := by
    intro δ hδ h
    unfold IsLaneMean at h
    rw [Int.cast_add, add_eq_left] at h
    have : (p : Int) ∣ δ := (ZMod.intCast_zmod_eq_zero_iff_dvd δ p).1 h
    rcases hδ with rfl | rfl
    · have := Int.le_of_dvd (by norm_num) this; omega
    · have := Int.le_of_dvd (by norm_num) ((dvd_neg (b := (1 : Int))).1 this); omega
  have hrb := remainderBits_max h1
  have hforge := fun (Y : Int) hY hs ht => forge_laneMean (T := T) (p := p) hT h1 hun (by rwa [hrb])
    (X := xs.sum) (Y := Y) hY hs ht
  have hn0 : (0 : Int) < xs.length := by omega
  have hdm := Int.mul_ediv_add_emod (xs.sum + (xs.length / 2 : Nat)) xs.length
  have hr0 := Int.emod_nonneg (xs.sum + (xs.length / 2 : Nat)) hn0.ne'
  have hr1 := Int.emod_lt_of_pos (xs.sum + (xs.length / 2 : Nat)) hn0
  rw [roundedMean_eq] at hm hwrong
  have hY1 : AcceptedInt rc.chunk nb
      ((xs.sum + (xs.length / 2 : Nat)) / xs.length + 1 + 2 ^ (nb - 1)) :=
    accepted_nonneg (by omega) (by omega)
  have hY2 : AcceptedInt rc.chunk nb
      ((xs.sum + (xs.length / 2 : Nat)) / xs.length + -1 + 2 ^ (nb - 1)) :=
    accepted_nonneg (by omega) (by omega)
  rcases ho with hone | ⟨h2, hnd, ho⟩
  · refine ⟨_, hwrong (-1) (Or.inr rfl), hforge _ hY2 ?_ ?_⟩
    · rw [hrb, hone] at *
      refine accepted_nonneg ?_ ?_
      · rw [mul_add]; omega
      · rw [mul_add]; simp
    · intro h
      rw [hone] at h
      exact absurd h (by decide)
  · have hclog : 0 < Nat.clog 2 xs.length := Nat.clog_pos (by norm_num) h2
    have hrb2 : remainderBits xs.length = Nat.clog 2 xs.length := remainderBits_eq h2
    have hcl : (xs.length : Int) ≤ 2 ^ Nat.clog 2 xs.length := by
      exact_mod_cast Nat.le_pow_clog (by norm_num) _
    rcases ho with hpw | h3
    · refine ⟨_, hwrong 1 (Or.inl rfl), hforge _ hY1 ?_ ?_⟩
      · rw [hrb2]
        refine accepted_neg huk.chunk_pos hnd ?_ ?_ <;> rw [mul_add, mul_one] <;> omega
      · intro h
        rw [hpw, isPow2_two_pow] at h
        cases h
    · have h3' : 3 * (xs.length : Int) ≤ 2 * 2 ^ Nat.clog 2 xs.length := by
        rw [pow_succ] at h3
        have : (3 * xs.length : Nat) ≤ (2 : Int) ^ Nat.clog 2 xs.length * 2 := by exact_mod_cast h3
        push_cast at this; linarith
      by_cases hcase :
          (xs.sum + (xs.length / 2 : Nat)) % xs.length + xs.length < (2 : Int) ^ Nat.clog 2 xs.length
      · refine ⟨_, hwrong (-1) (Or.inr rfl), hforge _ hY2 ?_ fun _ => ?_⟩ <;> rw [hrb2] <;>
          refine accepted_neg huk.chunk_pos hnd ?_ ?_ <;> rw [mul_add, mul_neg_one] <;> omega
      · refine ⟨_, hwrong 1 (Or.inl rfl), hforge _ hY1 ?_ fun _ => ?_⟩ <;> rw [hrb2] <;>
          refine accepted_neg huk.chunk_pos hnd ?_ ?_ <;> rw [mul_add, mul_one] <;> omega

/-- **C55, means of lanes can be forged.** For a lane size that is open, and data strictly inside the
range, a proof exists in which *every* output differs from the mean of its lane. -/
theorem C55_reduce_mean_unsound {rc : RangeCtx} (hT : IsRangeTable T rc)
    {nb n : Nat} (raw : Option (List Int)) (hraw : raw ≠ some []) (keep : Bool) (x : Arr Int) (hw : x.WF)
    (hv : ∀ r ∈ raw.getD [], ∃ a, AxisOf x.shape.length r a) (hs : ∀ d ∈ x.shape, 0 < d)
    (hr : ∀ v ∈ x.data, -2 ^ (nb - 1) < v ∧ v < 2 ^ (nb - 1) - 1)
    (hn : ∀ axes o, ReduceAxes x.shape.length (raw.getD []) axes → InRange (reduceShape keep axes x.shape) o →
      (lane keep axes x o).length = n)
    (ho : MeanOpen rc.chunk n) (hun : RangeCallable rc nb) (huk : RangeCallable rc (max (Nat.clog 2 n) 1))
    (hp : 2 < p) :
    Forge T (reduceMeanLayer rc raw keep x.shape nb (castArr p x))
      (fun out => ∃ axes, ReduceAxes x.shape.length (raw.getD []) axes ∧
        IsReduced x keep axes (fun l v => ¬ IsLaneMean l v) out) := by
  obtain ⟨axes, hax⟩ := maxAxes_accepts hv
  obtain ⟨ha1, ha2⟩ := maxAxes_ok hax
  rw [← meanAxes_eq hraw] at hax
  unfold reduceMeanLayer
  rw [hax]
  refine Forge.bind (Forge.pure (Q := fun o => o = axes) rfl) (a := axes) (fun _ h => h) ?_
  dsimp only
  have hs' := laneSize_pos ha1 hs
  have c1 : ¬ (axes.map fun a => x.shape.getD a 0).prod = 0 := by
    have := hs'; unfold laneSize at this; omega
  have hn0 := hun.n_pos
  have hn1 := hun.n_le
  rw [if_neg c1, if_neg (by omega), if_neg (by simp [castArr])]
  have key := forge_reduceAll (T := T)
    (f := fun vs => laneMean rc nb (axes.map fun a => x.shape.getD a 0).prod (sumVars vs))
    (castArr_WF (p := p) hw) (keep := keep) ha1
    (R := fun o v => ¬ IsLaneMean (lane keep axes x o) v) ?_
  · exact key.conseq fun out h => ⟨axes, ha2, h⟩
  · intro o ho'
    have hl := lane_length hw ha1 (keep := keep) (o := o) ho'
    have hl2 := hn axes o ha2 ho'
    have hne : lane keep axes x o ≠ [] := by
      intro h; rw [h, List.length_nil] at hl; omega
    obtain ⟨v, h1, h2⟩ := forge_wrong_lane (T := T) (p := p) hT (nb := nb) hne
      (fun v hv => hr v (lane_mem hv)) hun (by rwa [hl2]) (by rwa [hl2]) hp
    refine ⟨v, h1, ?_⟩
    rw [hl] at h2
    unfold laneSize at h2
    rw [lane_cast, sumVars_cast]
    exact h2

/-! ## Explicitly empty axes -/

theorem reduceShape_none (keep : Bool) (s : List Nat) : reduceShape keep [] s = s := by
  rw [← reducedShape_eq]
  unfold reducedShape
  cases keep <;> simp [List.zipIdx_map_fst]

theorem reduceShape_all {keep : Bool} {axes s : List Nat} (h : ∀ a, a ∈ axes ↔ a < s.length) :
    ∀ d ∈ reduceShape keep axes s, d = 1 := by
  rw [← reducedShape_eq]
  unfold reducedShape
  have hi : ∀ di ∈ s.zipIdx, di.2 ∈ axes := by
    intro di hdi
    have := List.snd_lt_of_mem_zipIdx hdi
    exact (h _).2 (by omega)
  cases keep with
  | true =>
    rw [if_pos rfl]
    intro d hd
    obtain ⟨di, h1, rfl⟩ := List.mem_map.1 hd
    rw [if_pos (hi di h1)]
  | false =>
    rw [if_neg (by simp)]
    intro d hd
    obtain ⟨di, h1, h2⟩ := List.mem_filterMap.1 hd
    rw [if_pos (hi di h1)] at h2
    cases h2

theorem lane_none {α : Type} {x : Arr α} (hw : x.WF) {keep : Bool} {o : List Nat} (ho : InRange x.shape o) :
    ∃ a, elem x o = some a ∧ lane keep [] x o = [a] := by
  have hl := lane_length hw (keep := keep) (axes := []) (o := o) (by simp [axesFrom])
    (by rwa [reduceShape_none])
  have hlt : rowMajor x.shape o < x.data.length := by rw [hw]; exact rowMajor_lt ho
  have ha : elem x o = some x.data[rowMajor x.shape o] := List.getElem?_eq_getElem hlt
  refine ⟨_, ha, ?_⟩
  obtain ⟨b, hb⟩ := List.length_eq_one_iff.1 hl
  rw [hb]
  have hc : collapse keep [] o = o := by
    unfold collapse
    cases keep with
    | true =>
      simp only [List.not_mem_nil, if_false, if_true]
      exact List.ext_getElem (by simp) (by intro i h1 h2; simp at h1; simp [h1])
    | false =>
      exact reduceShape_none false o
  have hmem : x.data[rowMajor x.shape o] ∈ lane keep [] x o := by
    unfold lane
    rw [List.mem_filterMap]
    exact ⟨o, List.mem_filter.2 ⟨mem_coordsOf.2 ho, by simp [hc]⟩, ha⟩
  rw [hb] at hmem
  rw [List.mem_singleton.1 hmem]

/-- **C55, an empty list of axes.** ReduceMean does not reduce at all, although ReduceSum and ReduceMax
(and ONNX) reduce every axis: the honest output is the input, whose shape is not that of the mean. -/
theorem C55_reduce_mean_empty_axes {rc : RangeCtx} (hT : IsRangeTable T rc)
    {nb : Nat} (keep : Bool) (x : Arr Int) (hw : x.WF)
    (hr : ∀ v ∈ x.data, -2 ^ (nb - 1) ≤ v ∧ v < 2 ^ (nb - 1))
    (hun : RangeUsable p rc nb) (huk : RangeUsable p rc 1)
    (hp : 2 ^ (nb - 1) + 1 ≤ p) (hd : ∃ d ∈ x.shape, d ≠ 1) :
    Complete T (reduceMeanLayer rc (some []) keep x.shape nb (castArr p x))
      (fun out => out.shape = x.shape ∧
        (∀ o, InRange x.shape o → elem out o = (elem x o).map fun z : Int => (z : ZMod p)) ∧
        ¬ ∃ axes, ReduceAxes x.shape.length [] axes ∧ out.shape = reduceShape keep axes x.shape) := by
  have hax : meanAxes x.shape.length (some []) = .ok [] := by simp [meanAxes, explicitAxes, dedupAdj]
  refine (complete_meanCore (n := 1) (keep := keep) hT hw hax (by simp [axesFrom]) hr (fun o ho => ?_)
    (by simp [laneSize]) hun huk (by omega)).conseq ?_
  · rw [reduceShape_none] at ho
    obtain ⟨a, _, h⟩ := lane_none hw (keep := keep) ho
    exact ⟨by rw [h]; rfl, Or.inl rfl⟩
  · rintro out ⟨h1, h2, h3⟩
    rw [reduceShape_none] at h1
    refine ⟨h1, fun o ho => ?_, ?_⟩
    · obtain ⟨v, hv, hm⟩ := h3 o (by rwa [h1])
      obtain ⟨a, ha, hl⟩ := lane_none hw (keep := keep) ho
      rw [hv, ha]
      unfold IsLaneMean at hm
      rw [hl] at hm
      simp only [List.sum_cons, List.sum_nil, add_zero, List.length_cons, List.length_nil, zero_add,
        roundedMean_one] at hm
      rw [hm]; rfl
    · rintro ⟨axes, ha, he⟩
      rcases ha with ⟨_, ha⟩ | ⟨h, _⟩
      · obtain ⟨d, hd1, hd2⟩ := hd
        rw [h1] at he
        rw [he] at hd1
        exact hd2 (reduceShape_all ha d hd1)
      · exact h rfl

/-! ## What is refused -/

theorem mapM_invalid {α β : Type} {f : α → R β} (hf : ∀ a, f a = .error .invalid ∨ ∃ b, f a = .ok b) :
    ∀ l : List α, (l.mapM f = .error .invalid ∨ ∃ b, l.mapM f = .ok b) ∧
      ((∃ a ∈ l, f a = .error .invalid) → l.mapM f = .error .invalid)
  | [] => ⟨Or.inr ⟨[], rfl⟩, by simp⟩
  | a :: l => by
    obtain ⟨h1, h2⟩ := mapM_invalid hf l
    rw [List.mapM_cons]
    rcases hf a with e | ⟨b, e⟩
    · rw [e]; exact ⟨Or.inl rfl, fun _ => rfl⟩
    · rw [e]
      refine ⟨?_, fun h => ?_⟩
      · rcases h1 with e1 | ⟨c, e1⟩
        · rw [e1]; exact Or.inl rfl
        · rw [e1]; exact Or.inr ⟨_, rfl⟩
      · obtain ⟨c, hc, ec⟩ := h
        rcases List.mem_cons.1 hc with rfl | hc
        · rw [e] at ec; cases ec
        · rw [h2 ⟨c, hc, ec⟩]; rfl

theorem normAxis_cases (rank : Nat) (a : Int) :
    (normAxis rank a = .error .invalid ∨ ∃ b, normAxis rank a = .ok b) ∧
      (a < -rank ∨ (rank : Int) ≤ a → normAxis rank a = .error .invalid) := by
  unfold normAxis
  dsimp only
  refine ⟨?_, fun h => ?_⟩
  · split_ifs <;> simp
  · rw [if_pos]; split_ifs <;> omega

theorem explicitAxes_cases (rank : Nat) (raw : List Int) :
    (explicitAxes rank raw = .error .invalid ∨ ∃ b, explicitAxes rank raw = .ok b) ∧
      ((∃ r ∈ raw, r < -rank ∨ (rank : Int) ≤ r) → explicitAxes rank raw = .error .invalid) := by
  obtain ⟨h1, h2⟩ := mapM_invalid (fun a => (normAxis_cases rank a).1) raw
  unfold explicitAxes
  refine ⟨?_, fun ⟨r, hr, h⟩ => ?_⟩
  · rcases h1 with e | ⟨b, e⟩
    · rw [e]; exact Or.inl rfl
    · rw [e]; exact Or.inr ⟨_, rfl⟩
  · rw [h2 ⟨r, hr, (normAxis_cases rank r).2 h⟩]; rfl

theorem axes_cases (rank : Nat) (raw : Option (List Int)) (noop : Bool) :
    ∀ f ∈ [sumAxes rank raw noop, maxAxes rank raw, meanAxes rank raw],
      (f = .error .invalid ∨ ∃ b, f = .ok b) ∧
      ((∃ r ∈ raw.getD [], r < -rank ∨ (rank : Int) ≤ r) → f = .error .invalid) := by
  cases raw with
  | none => cases noop <;> simp [sumAxes, maxAxes, meanAxes]
  | some v =>
    have h := explicitAxes_cases rank v
    have hv : v.isEmpty = true → v = [] := List.isEmpty_iff.1
    intro f hf
    simp only [List.mem_cons, List.not_mem_nil, or_false, sumAxes, maxAxes, meanAxes] at hf
    rw [Option.getD_some]
    rcases hf with rfl | rfl | rfl
    · split_ifs with c
      · rw [Bool.and_eq_true] at c
        rw [hv c.1]; simp
      · exact h
    · split_ifs with c
      · rw [hv c]; simp
      · exact h
    · exact h

theorem liftR_bind_refuses {α β : Type} {r : R α} {f : α → G (ZMod p) β} {hs : Hints (ZMod p)}
    (hr : r = .error .invalid ∨ ∃ a, r = .ok a) (hf : ∀ a, r = .ok a → ∃ m, f a hs = .error (.err m)) :
    ∃ m, ((liftR r : G (ZMod p) α) >>= f) hs = .error (.err m) := by
  rcases hr with e | ⟨a, e⟩
  · rw [e]; exact ⟨_, rfl⟩
  · obtain ⟨m, hm⟩ := hf a e
    rw [e]; exact ⟨m, pure_bind_err hm⟩

/-- **C55, refusals.** All three layers reject an axis outside `[-rank, rank)` and a tensor of another
shape than the recorded one. -/
theorem C55_reduce_refuses {rc : RangeCtx} (raw : Option (List Int)) (noop keep : Bool) (shape : List Nat)
    (nb : Nat) (x : Arr (ZMod p))
    (h : x.shape ≠ shape ∨ ∃ r ∈ raw.getD [], r < -shape.length ∨ (shape.length : Int) ≤ r)
    (hs : Hints (ZMod p)) :
    (∃ m, reduceSumLayer raw noop keep shape x hs = .error (.err m)) ∧
    (∃ m, reduceMaxLayer rc raw keep shape nb x hs = .error (.err m)) ∧
    (∃ m, reduceMeanLayer rc raw keep shape nb x hs = .error (.err m)) := by
  have hc := axes_cases shape.length raw noop
  simp only [List.mem_cons, List.not_mem_nil, or_false, forall_eq_or_imp, forall_eq] at hc
  obtain ⟨c1, c2, c3⟩ := hc
  have key : ∀ {r : R (List Nat)} {a : List Nat},
      ((∃ q ∈ raw.getD [], q < -shape.length ∨ (shape.length : Int) ≤ q) → r = .error .invalid) → r = .ok a →
      x.shape ≠ shape := by
    intro r a h1 h2
    rcases h with h | h
    · exact h
    · rw [h1 h] at h2; cases h2
  refine ⟨?_, ?_, ?_⟩
  · refine liftR_bind_refuses c1.1 fun a ha => ?_
    rw [if_pos (key c1.2 ha)]; exact ⟨_, rfl⟩
  · refine liftR_bind_refuses c2.1 fun a ha => ?_
    rw [if_pos (key c2.2 ha)]; exact ⟨_, rfl⟩
  · refine liftR_bind_refuses c3.1 fun a ha => ?_
    by_cases d1 : (a.map fun a => shape.getD a 0).prod = 0
    · rw [if_pos d1]; exact ⟨_, rfl⟩
    by_cases d2 : nb = 0 ∨ nb > 128
    · rw [if_neg d1, if_pos d2]; exact ⟨_, rfl⟩
    rw [if_neg d1, if_neg d2, if_pos (key c3.2 ha)]; exact ⟨_, rfl⟩

theorem laneSize_zero {axes s : List Nat} {a : Nat} (ha : a ∈ axes) (h0 : s[a]? = some 0) :
    laneSize axes s = 0 := by
  unfold laneSize
  rw [List.prod_eq_zero_iff, List.mem_map]
  exact ⟨a, ha, by rw [List.getD_eq_getElem?_getD, h0]; rfl⟩

theorem reduceAxes_mem {rank : Nat} {raw : List Int} {a b : List Nat} (ha : ReduceAxes rank raw a)
    (hb : ReduceAxes rank raw b) (c : Nat) : c ∈ a ↔ c ∈ b := by
  rcases ha with ⟨h1, h2⟩ | ⟨h1, _, h2⟩ <;> rcases hb with ⟨k1, k2⟩ | ⟨k1, _, k2⟩
  · rw [h2, k2]
  · exact absurd h1 k1
  · exact absurd k1 h1
  · rw [h2, k2]

/-- **C55, empty lanes.** When a reduced axis has size zero, ReduceMean is refused, as it is for bit widths
other than 1..128; ReduceMax is refused if there is any output to compute. -/
theorem C55_reduce_empty_lane {rc : RangeCtx} (raw : Option (List Int)) (hraw : raw ≠ some []) (keep : Bool)
    (nb : Nat) (x : Arr (ZMod p)) (hw : x.WF) (hs : Hints (ZMod p)) (axes : List Nat)
    (hax : ReduceAxes x.shape.length (raw.getD []) axes) :
    (nb = 0 ∨ nb > 128 ∨ (∃ a ∈ axes, x.shape[a]? = some 0) →
      ∃ m, reduceMeanLayer rc raw keep x.shape nb x hs = .error (.err m)) ∧
    ((∃ a ∈ axes, x.shape[a]? = some 0) → (∀ d ∈ reduceShape keep axes x.shape, 0 < d) →
      ∃ m, reduceMaxLayer rc raw keep x.shape nb x hs = .error (.err m)) := by
  have hc := axes_cases x.shape.length raw false
  simp only [List.mem_cons, List.not_mem_nil, or_false, forall_eq_or_imp, forall_eq] at hc
  obtain ⟨-, c2, c3⟩ := hc
  constructor
  · intro h
    refine liftR_bind_refuses c3.1 fun b hb => ?_
    rw [meanAxes_eq hraw] at hb
    obtain ⟨hb1, hb2⟩ := maxAxes_ok hb
    by_cases d1 : (b.map fun a => x.shape.getD a 0).prod = 0
    · rw [if_pos d1]; exact ⟨_, rfl⟩
    by_cases d2 : nb = 0 ∨ nb > 128
    · rw [if_neg d1, if_pos d2]; exact ⟨_, rfl⟩
    exfalso
    rcases h with h | h | ⟨a, ha, h0⟩
    · exact d2 (Or.inl h)
    · exact d2 (Or.inr h)
    · exact d1 (laneSize_zero ((reduceAxes_mem hax hb2 a).1 ha) h0)
  · rintro ⟨a, ha, h0⟩ hpos
    refine liftR_bind_refuses c2.1 fun b hb => ?_
    obtain ⟨hb1, hb2⟩ := maxAxes_ok hb
    have hsame : reduceShape keep b x.shape = reduceShape keep axes x.shape := by
      rw [← reducedShape_eq, ← reducedShape_eq]
      unfold reducedShape
      simp only [reduceAxes_mem hb2 hax]
    rw [if_neg (by simp)]
    unfold ShiftCtx.new
    by_cases h64 : nb - 1 ≥ 64
    · rw [if_pos h64]; exact ⟨_, rfl⟩
    rw [if_neg h64]
    have hprod : 0 < (reduceShape keep b x.shape).prod := by
      rw [hsame]; exact List.prod_pos hpos
    have hz := laneSize_zero ((reduceAxes_mem hax hb2 a).1 ha) h0
    have hl : lane keep b x (unravel 0 (reduceShape keep b x.shape)) = [] :=
      List.length_eq_zero_iff.1 ((lane_length hw hb1 (unravel_inRange hprod)).trans hz)
    refine ⟨"ReduceMax: empty reduction lane", ?_⟩
    have e1 : ∀ sc : ShiftCtx p, reduceAll (maxLane sc rc) x.data b keep x.shape
        (reducedShape b keep x.shape) hs = .error (.err "ReduceMax: empty reduction lane") := by
      intro sc
      rw [reducedShape_eq]
      unfold reduceAll
      obtain ⟨m, hm⟩ : ∃ m, (reduceShape keep b x.shape).prod = m + 1 := ⟨_, (Nat.succ_pred_eq_of_pos hprod).symm⟩
      rw [hm, List.range_succ_eq_map]
      unfold collectG
      rw [laneValues_ok hw hb1 hprod, hl]
      rfl
    exact pure_bind_err (a := (⟨nb - 1, ((2 ^ (nb - 1) : Nat) : ZMod p)⟩ : ShiftCtx p)) (e1 _)

/-! ## Concrete cases -/

/-- A 2×3 matrix. -/
def redX : Arr Int := ⟨[2, 3], [5, 1, 7, 2, 9, 4]⟩
/-- A 2×4 matrix with a negative row. -/
def redY : Arr Int := ⟨[2, 4], [5, 1, 7, 2, -9, -4, -3, -8]⟩

example : lane false [0] redX [1] = [1, 9] := by decide +kernel
example : lane true [1] redX [1, 0] = [2, 9, 4] := by decide +kernel
example : lane false [0, 1] redX [] = [5, 1, 7, 2, 9, 4] := by decide +kernel
example : reduceShape true [1] [2, 3] = [2, 1] := by decide +kernel
example : roundedMean [5, 1, 7, 2].sum 4 = 4 := by decide +kernel

/-- The second axis, counted from the end. -/
theorem axes_last {axes : List Nat} (h : ReduceAxes 2 [-1] axes) : ∀ a, a ∈ axes ↔ a = 1 := by
  rcases h with ⟨h, _⟩ | ⟨_, _, h⟩
  · cases h
  · intro a
    rw [h]
    simp only [List.mem_singleton, exists_eq_left, AxisOf]
    omega

theorem lane_congr {α : Type} {x : Arr α} {keep : Bool} {a b : List Nat} (h : ∀ c, c ∈ a ↔ c ∈ b) :
    lane keep a x = lane keep b x ∧ ∀ s, reduceShape keep a s = reduceShape keep b s := by
  constructor
  · unfold lane
    have : collapse keep a = collapse keep b := by
      funext c
      simp only [collapse, dropAxes, h]
    rw [this]
  · intro s
    simp only [reduceShape, dropAxes, h]

theorem redY_lanes {axes o : List Nat} (h : ReduceAxes 2 [-1] axes) (ho : InRange (reduceShape false axes [2, 4]) o) :
    (o = [0] ∧ lane false axes redY o = [5, 1, 7, 2]) ∨ (o = [1] ∧ lane false axes redY o = [-9, -4, -3, -8]) := by
  have hm : ∀ c, c ∈ axes ↔ c ∈ [1] := fun c => by rw [axes_last h]; simp
  have hc := lane_congr (x := redY) (keep := false) hm
  rw [hc.2, show reduceShape false [1] [2, 4] = [2] by decide +kernel, ← mem_coordsOf,
    show coordsOf [2] = [[0], [1]] by decide +kernel] at ho
  rw [hc.1]
  simp only [List.mem_cons, List.not_mem_nil, or_false] at ho
  rcases ho with rfl | rfl
  · exact Or.inl ⟨rfl, by decide +kernel⟩
  · exact Or.inr ⟨rfl, by decide +kernel⟩

example : Complete (rangeTables goldP ⟨0, 8⟩) (reduceSumLayer (some [-1, 1]) false true [2, 3] (castArr goldP redX))
    (IsReduceSum (some [-1, 1]) false true (castArr goldP redX)) :=
  (C55_reduce_sum (T := rangeTables goldP ⟨0, 8⟩) (some [-1, 1]) false true (castArr goldP redX) rfl).2 (by
    intro r hr
    simp only [Option.getD_some, List.mem_cons, List.not_mem_nil, or_false] at hr
    rcases hr with rfl | rfl <;> exact ⟨1, by decide, by decide⟩)

example : Sound (rangeTables goldP ⟨0, 8⟩) (reduceMaxLayer ⟨0, 8⟩ none true [2, 4] 16 (castArr goldP redY))
    (fun out => ∃ axes, ReduceAxes 2 [] axes ∧ IsReduced redY true axes IsLaneMax out) :=
  C55_reduce_max_sound_partial (rangeTables_spec _) (by norm_num) (nb := 16) (by norm_num) (by norm_num)
    (by norm_num [goldP]) none true redY rfl (by decide +kernel)

example : Complete (rangeTables goldP ⟨0, 8⟩) (reduceMaxLayer ⟨0, 8⟩ none true [2, 4] 16 (castArr goldP redY))
    (fun out => ∃ axes, ReduceAxes 2 [] axes ∧ IsReduced redY true axes IsLaneMax out) :=
  C55_reduce_max_complete (rangeTables_spec _) (nb := 16) (by norm_num) (by norm_num)
    ⟨by norm_num, by norm_num, by norm_num, by norm_num, by norm_num, by norm_num [slackBits, goldP]⟩
    none true redY rfl (by decide +kernel) (by simp) (by decide)

/-- Rows of four entries with digits of one or two bits: the mean is forced. -/
example : Sound (rangeTables goldP ⟨0, 2⟩) (reduceMeanLayer ⟨0, 2⟩ (some [-1]) false [2, 4] 16 (castArr goldP redY))
    (fun out => ∃ axes, ReduceAxes 2 [-1] axes ∧ IsReduced redY false axes IsLaneMean out) :=
  C55_reduce_mean_sound_partial (rangeTables_spec _) (by norm_num) (nb := 16) (n := 4) (some [-1]) (by simp) false
    redY rfl (by decide +kernel)
    (fun axes o h ho => by rcases redY_lanes h ho with ⟨_, e⟩ | ⟨_, e⟩ <;> rw [e] <;> rfl) (by norm_num)
    (by rw [show Nat.clog 2 4 = 2 by decide +kernel]) (by norm_num [goldP])

/-- The second row has a negative mean: the honest prover fails. -/
example (Q) : ¬ Complete (rangeTables goldP ⟨0, 8⟩)
    (reduceMeanLayer ⟨0, 8⟩ (some [-1]) false [2, 4] 16 (castArr goldP redY)) Q :=
  C55_reduce_mean_negative (rangeTables_spec _) (by norm_num) (nb := 16) (n := 4) (some [-1]) (by simp) false
    redY rfl (by decide +kernel) (by norm_num)
    (fun axes h => by
      have hm : ∀ c, c ∈ axes ↔ c ∈ [1] := fun c => by rw [axes_last h]; simp
      have hin : InRange (reduceShape false axes redY.shape) [1] := by
        rw [(lane_congr (x := redY) (keep := false) hm).2,
          show reduceShape false [1] redY.shape = [2] by decide +kernel]
        exact List.Forall₂.cons (by norm_num) List.Forall₂.nil
      rcases redY_lanes h hin with ⟨e, _⟩ | ⟨_, e⟩
      · cases e
      · exact ⟨[1], hin, by rw [e]; rfl, by rw [e]; decide +kernel⟩)
    (by norm_num [goldP]) Q

/-- With digits of eight bits, every row mean can be forged. -/
example : Forge (rangeTables goldP ⟨0, 8⟩) (reduceMeanLayer ⟨0, 8⟩ (some [-1]) false [2, 4] 16 (castArr goldP redY))
    (fun out => ∃ axes, ReduceAxes 2 [-1] axes ∧ IsReduced redY false axes (fun l v => ¬ IsLaneMean l v) out) :=
  have e4 : Nat.clog 2 4 = 2 := by decide +kernel
  C55_reduce_mean_unsound (rangeTables_spec _) (nb := 16) (n := 4) (some [-1]) (by simp) false
    redY rfl (fun r hr => ⟨1, by
      simp only [Option.getD_some, List.mem_singleton] at hr
      subst hr; exact ⟨by decide, by decide⟩⟩) (by decide) (by decide +kernel)
    (fun axes o h ho => by rcases redY_lanes h ho with ⟨_, e⟩ | ⟨_, e⟩ <;> rw [e] <;> rfl)
    (Or.inr ⟨by norm_num, by rw [e4]; norm_num, Or.inl (by rw [e4]; norm_num)⟩)
    ⟨by norm_num, by norm_num, by norm_num, by norm_num, by norm_num⟩
    (by rw [e4]; exact ⟨by norm_num, by norm_num, by norm_num, by norm_num, by norm_num⟩) (by norm_num [goldP])

/-- A non-negative matrix: the honest prover succeeds. -/
example : Complete (rangeTables goldP ⟨0, 8⟩) (reduceMeanLayer ⟨0, 8⟩ none true [2, 3] 16 (castArr goldP redX))
    (fun out => ∃ axes, ReduceAxes 2 [] axes ∧ IsReduced redX true axes IsLaneMean out) :=
  have e6 : Nat.clog 2 6 = 3 := by decide +kernel
  C55_reduce_mean_complete (rangeTables_spec _) (nb := 16) (n := 6) none (by simp) true redX rfl (by simp)
    (by decide) (by decide +kernel)
    (fun axes o h ho => by
      rcases h with ⟨_, h⟩ | ⟨h, _⟩
      · have hm : ∀ c, c ∈ axes ↔ c ∈ [0, 1] := fun c => by rw [h]; simp [redX]; omega
        have hc := lane_congr (x := redX) (keep := true) hm
        rw [hc.2, show reduceShape true [0, 1] redX.shape = [1, 1] by decide +kernel, ← mem_coordsOf,
          show coordsOf [1, 1] = [[0, 0]] by decide +kernel] at ho
        rw [hc.1, List.mem_singleton.1 ho,
          show lane true [0, 1] redX [0, 0] = [5, 1, 7, 2, 9, 4] by decide +kernel]
        exact ⟨rfl, Or.inr (by decide +kernel)⟩
      · exact absurd rfl h) (by norm_num)
    ⟨by norm_num, by norm_num, by norm_num, by norm_num, by norm_num, by norm_num [slackBits, goldP]⟩
    (by rw [e6]; exact ⟨by norm_num, by norm_num, by norm_num, by norm_num, by norm_num, by norm_num [slackBits, goldP]⟩)
    (by norm_num [goldP])

example : Complete (rangeTables goldP ⟨0, 8⟩) (reduceMeanLayer ⟨0, 8⟩ (some []) true [2, 3] 16 (castArr goldP redX))
    (fun out => out.shape = [2, 3] ∧
      (∀ o, InRange [2, 3] o → elem out o = (elem redX o).map fun z : Int => (z : ZMod goldP)) ∧
      ¬ ∃ axes, ReduceAxes 2 [] axes ∧ out.shape = reduceShape true axes [2, 3]) :=
  C55_reduce_mean_empty_axes (rangeTables_spec _) (nb := 16) true redX rfl (by decide +kernel)
    ⟨by norm_num, by norm_num, by norm_num, by norm_num, by norm_num, by norm_num [slackBits, goldP]⟩
    ⟨by norm_num, by norm_num, by norm_num, by norm_num, by norm_num, by norm_num [slackBits, goldP]⟩
    (by norm_num [goldP]) ⟨2, by decide, by norm_num⟩

example (hs : Hints (ZMod goldP)) : ∃ m, reduceMaxLayer ⟨0, 8⟩ none true [0, 2] 16
    (⟨[0, 2], []⟩ : Arr (ZMod goldP)) hs = .error (.err m) :=
  (C55_reduce_empty_lane (p := goldP) none (by simp) true 16 ⟨[0, 2], []⟩ rfl hs [0, 1]
    (Or.inl ⟨rfl, fun a => by simp; omega⟩)).2 ⟨0, by simp, rfl⟩ (by decide +kernel)

end JST.Props
