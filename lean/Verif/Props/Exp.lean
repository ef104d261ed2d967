import Verif.Gadgets.Exp
import Verif.Props.LogUp

/-!
# Property C43: the exponential gadget

The honest output on an integer `X` of the signed `totalBits` domain is
`⌊f(hi) * f(lo) / scale⌋` with `X = hi + lo`, `lo = X mod 2^chunkBits`.
-/

set_option linter.unusedSectionVars false

namespace JST.Props

open JST

variable {p : Nat} [Fact p.Prime] {T : Tables (ZMod p)}

/-- The product of the two table values that belong to `X`. -/
def expProduct (f : Int → Int) (chunkBits : Nat) (X : Int) : Int :=
  f (X / 2 ^ chunkBits * 2 ^ chunkBits) * f (X % 2 ^ chunkBits)

theorem fieldToI64_cast (X : Int) (h1 : X.natAbs < 2 ^ 63) (h2 : 2 * X.natAbs < p) :
    fieldToI64 ((X : Int) : ZMod p) = X := by
  have hp0 : 0 < p := (Fact.out : p.Prime).pos
  rcases le_or_gt 0 X with h | h
  · obtain ⟨n, rfl⟩ := Int.eq_ofNat_of_zero_le h
    have hv : ((n : Int) : ZMod p).val = n := by
      rw [Int.cast_natCast, ZMod.val_natCast, Nat.mod_eq_of_lt (by simp at h2; omega)]
    unfold fieldToI64
    rw [hv]
    simp at h1 h2
    rw [if_neg (by omega), if_neg (by omega)]
  · have hv : ((X : Int) : ZMod p).val = p - X.natAbs := by
      have e : ((X : Int) : ZMod p) = ((p - X.natAbs : Nat) : ZMod p) := by
        rw [Nat.cast_sub (by omega), ZMod.natCast_self, zero_sub]
        conv_lhs => rw [show X = -(X.natAbs : Int) by omega]
        rw [Int.cast_neg, Int.cast_natCast]
      rw [e, ZMod.val_natCast, Nat.mod_eq_of_lt (by omega)]
    unfold fieldToI64
    rw [hv, if_pos (by omega), if_neg (by omega)]
    omega

/-- Membership in the two tables, in integers. -/
theorem mem_signedRows {f : Int → Int} {n : Nat} (hn : 0 < n) (hp : 2 ^ n ≤ p)
    (hf : ∀ x : Int, -2 ^ (n - 1) ≤ x → x < 2 ^ (n - 1) → (f x).natAbs ≤ p) (a b : ZMod p) :
    [a, b] ∈ signedRows p f n ↔
      ∃ x : Int, -2 ^ (n - 1) ≤ x ∧ x < 2 ^ (n - 1) ∧ a = (x : ZMod p) ∧ b = (f x : ZMod p) := by
  have hpow : (2 : Int) ^ n = 2 * 2 ^ (n - 1) := by
    obtain ⟨k, rfl⟩ := Nat.exists_eq_succ_of_ne_zero (Nat.pos_iff_ne_zero.mp hn)
    simp [pow_succ]; ring
  have hpos : (0 : Int) < 2 ^ (n - 1) := by positivity
  have hp' : (2 : Int) ^ n ≤ p := by exact_mod_cast hp
  constructor
  · intro hab
    obtain ⟨i, hi, e⟩ := List.mem_map.mp hab
    have hi : (i : Int) < 2 ^ n := by exact_mod_cast List.mem_range.mp hi
    have hx1 : -(2 : Int) ^ (n - 1) ≤ (i : Int) - 2 ^ (n - 1) := by linarith [Int.natCast_nonneg i]
    have hx2 : (i : Int) - 2 ^ (n - 1) < 2 ^ (n - 1) := by linarith
    simp only [List.cons.injEq, and_true] at e
    refine ⟨_, hx1, hx2, ?_, ?_⟩
    · rw [← e.1, i64ToField_eq]; omega
    · rw [← e.2, i64ToField_eq _ _ (hf _ hx1 hx2)]
  · rintro ⟨x, h1, h2, rfl, rfl⟩
    obtain ⟨i, hi⟩ := Int.eq_ofNat_of_zero_le (show 0 ≤ x + 2 ^ (n - 1) by linarith)
    refine List.mem_map.mpr ⟨i, List.mem_range.mpr ?_, ?_⟩
    · have : (i : Int) < 2 ^ n := by omega
      exact_mod_cast this
    · have e : (i : Int) - 2 ^ (n - 1) = x := by omega
      simp only [e]
      rw [i64ToField_eq _ _ (by omega), i64ToField_eq _ _ (hf _ h1 h2)]

theorem mem_unsignedRows {f : Int → Int} {n : Nat}
    (hf : ∀ x : Int, 0 ≤ x → x < 2 ^ n → (f x).natAbs ≤ p) (a b : ZMod p) :
    [a, b] ∈ unsignedRows p f n ↔
      ∃ x : Int, 0 ≤ x ∧ x < 2 ^ n ∧ a = (x : ZMod p) ∧ b = (f x : ZMod p) := by
  constructor
  · intro hab
    obtain ⟨i, hi, e⟩ := List.mem_map.mp hab
    have hi' : (i : Int) < 2 ^ n := by exact_mod_cast List.mem_range.mp hi
    simp only [List.cons.injEq, and_true] at e
    refine ⟨i, by positivity, hi', ?_, ?_⟩
    · rw [← e.1]; simp
    · rw [← e.2, i64ToField_eq _ _ (hf _ (by positivity) hi')]
  · rintro ⟨x, h1, h2, rfl, rfl⟩
    obtain ⟨i, rfl⟩ := Int.eq_ofNat_of_zero_le h1
    refine List.mem_map.mpr ⟨i, List.mem_range.mpr (by exact_mod_cast h2), ?_⟩
    rw [i64ToField_eq _ _ (hf _ h1 h2)]
    simp

/-- The setting of the theorems below: the gadget's parameters and tables. -/
structure ExpSetting (p : Nat) (T : Tables (ZMod p)) (e : ExpCtx) : Prop where
  range : IsRangeTable T e.rc
  chunk_pos : 0 < e.rc.chunk
  tables : IsExpTables T e
  bits : 2 ≤ e.totalBits
  fits : 2 ^ (e.totalBits + 1) ≤ p
  nonneg : ∀ x : Int, 0 ≤ e.f x
  bounded : ∀ x : Int, -2 ^ (e.totalBits - 1) ≤ x → x < 2 ^ (e.totalBits - 1) → e.f x ≤ p

namespace ExpSetting
variable {e : ExpCtx}

theorem split (h : ExpSetting p T e) : e.highBits + e.chunkBits = e.totalBits ∧ 0 < e.highBits ∧
    0 < e.chunkBits ∧ e.chunkBits ≤ e.totalBits - 1 ∧
    e.highBits - 1 + e.chunkBits = e.totalBits - 1 := by
  have := h.bits
  unfold ExpCtx.highBits ExpCtx.chunkBits
  omega

theorem high_mem (h : ExpSetting p T e) (a b : ZMod p) : T e.tidHigh [a, b] ↔
    ∃ x : Int, -2 ^ (e.highBits - 1) ≤ x ∧ x < 2 ^ (e.highBits - 1) ∧ a = (x : ZMod p) ∧
      b = (e.f (x * 2 ^ e.chunkBits) : ZMod p) := by
  obtain ⟨s1, s2, s3, s4, s5⟩ := h.split
  rw [h.tables.1, mem_signedRows s2]
  · exact le_trans (Nat.pow_le_pow_right (by norm_num) (by omega)) h.fits
  · intro x hx1 hx2
    have hc : (0 : Int) < 2 ^ e.chunkBits := by positivity
    have hp : (2 : Int) ^ (e.totalBits - 1) = 2 ^ (e.highBits - 1) * 2 ^ e.chunkBits := by
      rw [← s5, pow_add]
    have := h.bounded (x * 2 ^ e.chunkBits) (by rw [hp]; nlinarith) (by rw [hp]; nlinarith)
    have := h.nonneg (x * 2 ^ e.chunkBits)
    omega

theorem low_mem (h : ExpSetting p T e) (a b : ZMod p) : T e.tidLow [a, b] ↔
    ∃ x : Int, 0 ≤ x ∧ x < 2 ^ e.chunkBits ∧ a = (x : ZMod p) ∧ b = (e.f x : ZMod p) := by
  obtain ⟨s1, s2, s3, s4, s5⟩ := h.split
  rw [h.tables.2, mem_unsignedRows]
  intro x hx1 hx2
  have h1 : (2 : Int) ^ e.chunkBits ≤ 2 ^ (e.totalBits - 1) := pow_le_pow_right₀ (by norm_num) s4
  have := h.bounded x (by linarith [show (0 : Int) < 2 ^ (e.totalBits - 1) by positivity]) (by linarith)
  have := h.nonneg x
  omega

end ExpSetting

/-- **C43, proved part.** Whatever hints the prover supplies, a satisfied exponential gadget implies
that `x` is in the signed domain and that `y * scale + r = f(hi) * f(lo)` holds *in the field* for some
remainder `r` accepted by the range check (`-(2^(scaleBits+slack) - 2^scaleBits) ≤ r < 2^scaleBits`). Missing: `y` is never
range-checked and `r` is not compared with `scale`, so `y` is not pinned, see `C43_exp_unsound`. -/
theorem C43_exp_sound_partial {e : ExpCtx} (h : ExpSetting p T e) (x : ZMod p) :
    Sound T (verifyExp e x) (fun y => ∃ X : Int, -2 ^ (e.totalBits - 1) ≤ X ∧
      X < 2 ^ (e.totalBits - 1) ∧ x = (X : ZMod p) ∧ ∃ r : Int,
      -((2 : Int) ^ (e.scaleBits + slackBits e.rc.chunk e.scaleBits) - 2 ^ e.scaleBits) ≤ r ∧
      r < 2 ^ e.scaleBits ∧
      y * (e.scale : ZMod p) + (r : ZMod p) = (expProduct e.f e.chunkBits X : ZMod p)) := by
  obtain ⟨s1, s2, s3, s4, s5⟩ := h.split
  unfold verifyExp
  refine Sound.bind (sound_hint2 (T := T)) fun xHighU _ => ?_
  refine Sound.bind (sound_hint2 (T := T)) fun xLow _ => ?_
  refine Sound.bind Sound.assertEq fun _ hrec => ?_
  refine Sound.bind (P := fun _ => True) (fun _ _ _ _ => trivial) fun _ _ => ?_
  refine Sound.bind (P := fun _ => True) (fun _ _ _ _ => trivial) fun eh _ => ?_
  refine Sound.bind (P := fun _ => True) (fun _ _ _ _ => trivial) fun el _ => ?_
  refine Sound.bind Sound.lookup fun _ hhi => ?_
  refine Sound.bind Sound.lookup fun _ hlo => ?_
  refine Sound.bind (sound_hint2 (T := T)) fun y _ => ?_
  refine Sound.bind (sound_hint2 (T := T)) fun r _ => ?_
  refine Sound.bind Sound.assertEq fun _ hy => ?_
  refine Sound.bind (sound_rangeCheck_exact h.range h.chunk_pos r e.scaleBits) fun _ hr => ?_
  refine Sound.pure ?_
  obtain ⟨xh, h1, h2, h3, h4⟩ := (h.high_mem _ _).mp hhi
  obtain ⟨xl, h5, h6, h7, h8⟩ := (h.low_mem _ _).mp hlo
  obtain ⟨R, hR1, hR2, rfl⟩ := hr
  have hc : (0 : Int) < 2 ^ e.chunkBits := by positivity
  have hp : (2 : Int) ^ (e.totalBits - 1) = 2 ^ (e.highBits - 1) * 2 ^ e.chunkBits := by
    rw [← s5, pow_add]
  have hpN : ((2 ^ (e.totalBits - 1) : Nat) : ZMod p) =
      ((2 ^ (e.highBits - 1) : Nat) : ZMod p) * ((2 ^ e.chunkBits : Nat) : ZMod p) := by
    rw [← s5, pow_add]; push_cast; ring
  refine ⟨xh * 2 ^ e.chunkBits + xl, by rw [hp]; nlinarith, by rw [hp]; nlinarith, ?_, R, hR1, hR2, ?_⟩
  · have : xHighU = (xh : ZMod p) + ((2 ^ (e.highBits - 1) : Nat) : ZMod p) := by
      rw [← h3]; ring
    rw [this, hpN, h7] at hrec
    push_cast at hrec ⊢
    linear_combination -hrec
  · rw [hy, h4, h8]
    unfold expProduct
    have e1 : (xh * 2 ^ e.chunkBits + xl) / 2 ^ e.chunkBits = xh := by
      rw [add_comm, Int.add_mul_ediv_right _ _ hc.ne', Int.ediv_eq_zero_of_lt h5 h6, zero_add]
    have e2 : (xh * 2 ^ e.chunkBits + xl) % 2 ^ e.chunkBits = xl := by
      rw [add_comm, Int.add_mul_emod_self_right, Int.emod_eq_of_lt h5 h6]
    rw [e1, e2]
    push_cast
    rfl

theorem natAbs_bounds {a B : Int} {q : Nat} (h1 : -B ≤ a) (h2 : a ≤ B) (hB : B ≤ 2 ^ 62)
    (hq : 4 * B ≤ q) (hpos : 0 < B) : a.natAbs < 2 ^ 63 ∧ 2 * a.natAbs < q := by
  constructor <;> omega

/-- Every remainder below `2^scaleBits` can be used by the prover. -/
theorem forge_exp {e : ExpCtx} (h : ExpSetting p T e) (hs : (e.scale : ZMod p) ≠ 0)
    (hcc : RangeCallable e.rc e.chunkBits) (hcs : RangeCallable e.rc e.scaleBits) (X : Int)
    (hX : -2 ^ (e.totalBits - 1) ≤ X) (hX' : X < 2 ^ (e.totalBits - 1)) (r : Int) (hr : 0 ≤ r)
    (hr' : r < 2 ^ e.scaleBits) :
    Forge T (verifyExp e (X : ZMod p)) (fun y => y =
      ((expProduct e.f e.chunkBits X - r : Int) : ZMod p) / (e.scale : ZMod p)) := by
  obtain ⟨s1, s2, s3, s4, s5⟩ := h.split
  have hc : (0 : Int) < 2 ^ e.chunkBits := by positivity
  have hp : (2 : Int) ^ (e.totalBits - 1) = 2 ^ (e.highBits - 1) * 2 ^ e.chunkBits := by
    rw [← s5, pow_add]
  have hpN : ((2 ^ (e.totalBits - 1) : Nat) : ZMod p) =
      ((2 ^ (e.highBits - 1) : Nat) : ZMod p) * ((2 ^ e.chunkBits : Nat) : ZMod p) := by
    rw [← s5, pow_add]; push_cast; ring
  set hi := X / 2 ^ e.chunkBits with hhi
  set lo := X % 2 ^ e.chunkBits with hlo
  have hlo0 : 0 ≤ lo := Int.emod_nonneg _ hc.ne'
  have hlo1 : lo < 2 ^ e.chunkBits := Int.emod_lt_of_pos _ hc
  have hsum : hi * 2 ^ e.chunkBits + lo = X := by rw [hhi, hlo]; exact Int.ediv_mul_add_emod _ _
  have hhi0 : -2 ^ (e.highBits - 1) ≤ hi := by
    by_contra hcon; push Not at hcon; rw [hp] at hX; nlinarith
  have hhi1 : hi < 2 ^ (e.highBits - 1) := by
    by_contra hcon; push Not at hcon; rw [hp] at hX'; nlinarith
  unfold verifyExp
  refine (forge_hint2 _ _ _ ((hi : ZMod p) + ((2 ^ (e.highBits - 1) : Nat) : ZMod p))).bind
    (fun _ h => h) ?_
  refine (forge_hint2 _ _ _ (lo : ZMod p)).bind (fun _ h => h) ?_
  refine Forge.seq (Det.assertEq ?_).forge ?_
  · rw [hpN, ← hsum]; push_cast; ring
  refine Forge.seq (hcc.forge h.range (k := lo) (accepted_nonneg hlo0 hlo1) rfl) ?_
  refine (Forge.newHint _ _ [(e.f (hi * 2 ^ e.chunkBits) : ZMod p)] rfl).bind (fun _ h => h) ?_
  refine (Forge.newHint _ _ [(e.f lo : ZMod p)] rfl).bind (fun _ h => h) ?_
  refine Forge.seq (Det.lookup ((h.high_mem _ _).mpr ⟨hi, hhi0, hhi1, by ring, rfl⟩)).forge ?_
  refine Forge.seq (Det.lookup ((h.low_mem _ _).mpr ⟨lo, hlo0, hlo1, rfl, rfl⟩)).forge ?_
  refine (forge_hint2 _ _ _ (((expProduct e.f e.chunkBits X - r : Int) : ZMod p) /
    (e.scale : ZMod p))).bind (fun _ h => h) ?_
  refine (forge_hint2 _ _ _ (r : ZMod p)).bind (fun _ h => h) ?_
  refine Forge.seq (Det.assertEq ?_).forge ?_
  · rw [div_mul_cancel₀ _ hs]
    unfold expProduct
    simp only [List.headD_cons]
    push_cast; ring
  refine Forge.seq (hcs.forge h.range (k := r) (accepted_nonneg hr hr') rfl) ?_
  exact Forge.pure rfl

/-- **C43 is false.** Already when all widths are multiples of the chunk width: for every in-domain `x`
and every scale, the prover can make the exponential gadget (hence the `Exp` layer, whose output it is)
return a field element different from the honest value. -/
theorem C43_exp_unsound {e : ExpCtx} (h : ExpSetting p T e) (hs0 : 0 < e.scale)
    (hs : (e.scale : ZMod p) ≠ 0) (hcc : RangeCallable e.rc e.chunkBits)
    (hcs : RangeCallable e.rc e.scaleBits) (X : Int)
    (hX : -2 ^ (e.totalBits - 1) ≤ X) (hX' : X < 2 ^ (e.totalBits - 1)) :
    ∃ y : ZMod p, y ≠ ((expProduct e.f e.chunkBits X / e.scale : Int) : ZMod p) ∧
      Forge T (verifyExp e (X : ZMod p)) (fun v => v = y) := by
  have hsb : (2 : Int) ^ 1 ≤ 2 ^ e.scaleBits := by
    refine pow_le_pow_right₀ (by norm_num) ?_
    unfold ExpCtx.scaleBits bitLen; rw [if_neg (by omega)]; omega
  norm_num at hsb
  have f0 := forge_exp h hs hcc hcs X hX hX' 0 (by norm_num) (by linarith)
  have f1 := forge_exp h hs hcc hcs X hX hX' 1 (by norm_num) (by linarith)
  by_cases hy : ((expProduct e.f e.chunkBits X - 0 : Int) : ZMod p) / (e.scale : ZMod p) =
      ((expProduct e.f e.chunkBits X / e.scale : Int) : ZMod p)
  · refine ⟨_, ?_, f1⟩
    rw [← hy]
    intro hcon
    rw [div_eq_div_iff hs hs] at hcon
    have := mul_right_cancel₀ hs hcon
    push_cast at this
    have h1 : (1 : ZMod p) = 0 := by linear_combination -this
    exact one_ne_zero h1
  · exact ⟨_, hy, f0⟩

/-- A prover has at least `scale` different outputs to choose from. -/
theorem C43_exp_many_outputs {e : ExpCtx} (h : ExpSetting p T e)
    (hs : (e.scale : ZMod p) ≠ 0) (hcc : RangeCallable e.rc e.chunkBits)
    (hcs : RangeCallable e.rc e.scaleBits) (hp : 2 ^ e.scaleBits ≤ p) (X : Int)
    (hX : -2 ^ (e.totalBits - 1) ≤ X) (hX' : X < 2 ^ (e.totalBits - 1)) :
    ∃ ys : Finset (ZMod p), ys.card = 2 ^ e.scaleBits ∧
      ∀ y ∈ ys, Forge T (verifyExp e (X : ZMod p)) (fun v => v = y) := by
  classical
  refine ⟨(Finset.range (2 ^ e.scaleBits)).image fun r : Nat =>
    ((expProduct e.f e.chunkBits X - r : Int) : ZMod p) / (e.scale : ZMod p), ?_, ?_⟩
  · rw [Finset.card_image_of_injOn, Finset.card_range]
    intro a ha b hb hab
    have ha := Finset.mem_range.mp ha
    have hb := Finset.mem_range.mp hb
    simp only at hab
    rw [div_eq_div_iff hs hs] at hab
    have := mul_right_cancel₀ hs hab
    push_cast at this
    have h1 : (a : ZMod p) = (b : ZMod p) := by linear_combination -this
    have := congrArg ZMod.val h1
    rwa [ZMod.val_natCast, ZMod.val_natCast, Nat.mod_eq_of_lt (by omega),
      Nat.mod_eq_of_lt (by omega)] at this
  · intro y hy
    obtain ⟨r, hr, rfl⟩ := Finset.mem_image.mp hy
    have hr := Finset.mem_range.mp hr
    exact forge_exp h hs hcc hcs X hX hX' r (by positivity) (by exact_mod_cast hr)

/-- **C43, completeness.** On every in-domain `x` the honest prover satisfies the gadget and gets
`⌊f(hi) f(lo) / scale⌋`, provided the product fits the field. -/
theorem C43_exp_complete {e : ExpCtx} (h : ExpSetting p T e) (hs0 : 0 < e.scale)
    (hs64 : e.scale < 2 ^ 64) (hsp : e.scale < p) (htb : e.totalBits ≤ 63)
    (huc : RangeUsable p e.rc e.chunkBits) (hus : RangeUsable p e.rc e.scaleBits) (X : Int)
    (hX : -2 ^ (e.totalBits - 1) ≤ X) (hX' : X < 2 ^ (e.totalBits - 1))
    (hprod : expProduct e.f e.chunkBits X < p) :
    Complete T (verifyExp e (X : ZMod p)) (fun y => y =
      ((expProduct e.f e.chunkBits X / e.scale : Int) : ZMod p)) := by
  obtain ⟨s1, s2, s3, s4, s5⟩ := h.split
  have hc : (0 : Int) < 2 ^ e.chunkBits := by positivity
  have hp : (2 : Int) ^ (e.totalBits - 1) = 2 ^ (e.highBits - 1) * 2 ^ e.chunkBits := by
    rw [← s5, pow_add]
  have hpN : ((2 ^ (e.totalBits - 1) : Nat) : ZMod p) =
      ((2 ^ (e.highBits - 1) : Nat) : ZMod p) * ((2 ^ e.chunkBits : Nat) : ZMod p) := by
    rw [← s5, pow_add]; push_cast; ring
  have htot : (2 : Int) ^ (e.totalBits + 1) = 4 * 2 ^ (e.totalBits - 1) := by
    rw [show e.totalBits + 1 = (e.totalBits - 1) + 2 by have := h.bits; omega, pow_add]; ring
  have hfitsI : (2 : Int) ^ (e.totalBits + 1) ≤ p := by exact_mod_cast h.fits
  have hposT : (0 : Int) < 2 ^ (e.totalBits - 1) := by positivity
  have h63 : (2 : Int) ^ (e.totalBits - 1) ≤ 2 ^ 62 := pow_le_pow_right₀ (by norm_num) (by omega)
  set hi := X / 2 ^ e.chunkBits with hhi
  set lo := X % 2 ^ e.chunkBits with hlo
  have hlo0 : 0 ≤ lo := Int.emod_nonneg _ hc.ne'
  have hlo1 : lo < 2 ^ e.chunkBits := Int.emod_lt_of_pos _ hc
  have hsum : hi * 2 ^ e.chunkBits + lo = X := by rw [hhi, hlo]; exact Int.ediv_mul_add_emod _ _
  have hhi0 : -2 ^ (e.highBits - 1) ≤ hi := by
    by_contra hcon; push Not at hcon; rw [hp] at hX; nlinarith
  have hhi1 : hi < 2 ^ (e.highBits - 1) := by
    by_contra hcon; push Not at hcon; rw [hp] at hX'; nlinarith
  have hcT : (2 : Int) ^ e.chunkBits ≤ 2 ^ (e.totalBits - 1) := pow_le_pow_right₀ (by norm_num) s4
  -- naturals
  obtain ⟨S, hS⟩ := Int.eq_ofNat_of_zero_le (show 0 ≤ X + 2 ^ (e.totalBits - 1) by linarith)
  obtain ⟨L, hL⟩ := Int.eq_ofNat_of_zero_le hlo0
  obtain ⟨H, hH⟩ := Int.eq_ofNat_of_zero_le (show 0 ≤ hi + 2 ^ (e.highBits - 1) by linarith)
  have hSHL : S = H * 2 ^ e.chunkBits + L := by
    have : (S : Int) = H * 2 ^ e.chunkBits + L := by
      rw [← hS, ← hH, ← hL, hp, ← hsum]; ring
    exact_mod_cast this
  have hLlt : L < 2 ^ e.chunkBits := by
    have : (L : Int) < 2 ^ e.chunkBits := by rw [← hL]; exact hlo1
    exact_mod_cast this
  have hSp : S < p := by
    have : (S : Int) < p := by rw [← hS]; linarith
    exact_mod_cast this
  have hSd : S / 2 ^ e.chunkBits = H := by
    rw [hSHL, add_comm, Nat.add_mul_div_right _ _ (by positivity), Nat.div_eq_of_lt hLlt, zero_add]
  have hSm : S % 2 ^ e.chunkBits = L := by
    rw [hSHL, add_comm, Nat.add_mul_mod_self_right, Nat.mod_eq_of_lt hLlt]
  have hcp : 2 ^ e.chunkBits < p := by
    have : (2 : Int) ^ e.chunkBits < p := by linarith
    exact_mod_cast this
  have hcv : ((2 ^ e.chunkBits : Nat) : ZMod p).val = 2 ^ e.chunkBits := by
    rw [ZMod.val_natCast, Nat.mod_eq_of_lt hcp]
  have hSF : ((X : Int) : ZMod p) + ((2 ^ (e.totalBits - 1) : Nat) : ZMod p) = (S : ZMod p) := by
    have : ((X + 2 ^ (e.totalBits - 1) : Int) : ZMod p) = ((S : Int) : ZMod p) := by rw [hS]
    push_cast at this ⊢; exact this
  have hSv : ((S : Nat) : ZMod p).val = S := by rw [ZMod.val_natCast, Nat.mod_eq_of_lt hSp]
  have hscv : ((e.scale : Nat) : ZMod p).val = e.scale := by
    rw [ZMod.val_natCast, Nat.mod_eq_of_lt hsp]
  have hhint : ∀ Y : Int, Y.natAbs < 2 ^ 63 → 2 * Y.natAbs < p → ∀ y : ZMod p, y = (Y : ZMod p) →
      expHint e [y, (e.scale : ZMod p)] = .ok [((e.f Y : Int) : ZMod p)] := by
    rintro Y h1 h2 _ rfl
    unfold expHint
    simp only
    rw [hscv, if_neg (by rw [Nat.mod_eq_of_lt hs64]; omega), fieldToI64_cast Y h1 h2]
  obtain ⟨P, hP⟩ := Int.eq_ofNat_of_zero_le
    (show 0 ≤ expProduct e.f e.chunkBits X from mul_nonneg (h.nonneg _) (h.nonneg _))
  have hPp : P < p := by
    have : (P : Int) < p := by rw [← hP]; exact hprod
    exact_mod_cast this
  have hPv : ((P : Nat) : ZMod p).val = P := by rw [ZMod.val_natCast, Nat.mod_eq_of_lt hPp]
  have hb1 : (hi * 2 ^ e.chunkBits) ≤ 2 ^ (e.totalBits - 1) := by
    rw [hp]; exact mul_le_mul_of_nonneg_right hhi1.le hc.le
  have hb2 : -2 ^ (e.totalBits - 1) ≤ (hi * 2 ^ e.chunkBits) := by
    rw [hp, ← neg_mul]; exact mul_le_mul_of_nonneg_right hhi0 hc.le
  have nb1 := natAbs_bounds hb2 hb1 h63 (htot ▸ hfitsI) hposT
  have nb2 := natAbs_bounds (a := lo) (by linarith) (by linarith) h63 (htot ▸ hfitsI) hposT
  unfold verifyExp
  simp only
  rw [hSF]
  refine (complete_hint2 (v := (H : ZMod p)) ?_).bind ?_
  · simp only [hSv, hcv]; rw [if_neg (by positivity), hSd]
  rintro _ rfl
  refine (complete_hint2 (v := (L : ZMod p)) ?_).bind ?_
  · simp only [hSv, hcv]; rw [if_neg (by positivity), hSm]
  rintro _ rfl
  refine (Det.assertEq ?_).complete.bind fun _ _ => ?_
  · rw [hSHL]; push_cast; ring
  refine (huc.complete h.range hLlt rfl).bind fun _ _ => ?_
  have hHF : (H : ZMod p) - ((2 ^ (e.highBits - 1) : Nat) : ZMod p) = (hi : ZMod p) := by
    have : ((hi + 2 ^ (e.highBits - 1) : Int) : ZMod p) = ((H : Int) : ZMod p) := by rw [hH]
    push_cast at this ⊢; rw [← this]; ring
  rw [hHF]
  refine (Complete.newHint (hhint (hi * 2 ^ e.chunkBits) nb1.1 nb1.2 _
    (by push_cast; ring)) rfl).bind ?_
  rintro _ rfl
  refine (Complete.newHint (hhint lo nb2.1 nb2.2 _ (by rw [hL]; simp)) rfl).bind ?_
  rintro _ rfl
  simp only [List.headD_cons]
  refine (Det.lookup ((h.high_mem _ _).mpr ⟨hi, hhi0, hhi1, rfl, rfl⟩)).complete.bind fun _ _ => ?_
  refine (Det.lookup ((h.low_mem _ _).mpr ⟨lo, hlo0, hlo1, by rw [hL]; simp, rfl⟩)).complete.bind
    fun _ _ => ?_
  have hprodF : ((e.f (hi * 2 ^ e.chunkBits) : Int) : ZMod p) * ((e.f lo : Int) : ZMod p) = (P : ZMod p) := by
    have : ((expProduct e.f e.chunkBits X : Int) : ZMod p) = ((P : Int) : ZMod p) := by rw [hP]
    unfold expProduct at this
    push_cast at this ⊢
    exact this
  rw [hprodF]
  refine (complete_hint2 (v := ((P / e.scale : Nat) : ZMod p)) ?_).bind ?_
  · simp only [hPv, hscv]; rw [if_neg (by omega)]
  rintro _ rfl
  refine (complete_hint2 (v := ((P % e.scale : Nat) : ZMod p)) ?_).bind ?_
  · simp only [hPv, hscv]; rw [if_neg (by omega)]
  rintro _ rfl
  refine (Det.assertEq ?_).complete.bind fun _ _ => ?_
  · rw [← Nat.cast_mul, ← Nat.cast_add, Nat.div_add_mod']
  have hrlt : P % e.scale < 2 ^ e.scaleBits := by
    refine lt_trans (Nat.mod_lt _ hs0) ?_
    unfold ExpCtx.scaleBits bitLen
    rw [if_neg (by omega)]
    exact Nat.lt_log2_self
  refine (hus.complete h.range hrlt rfl).bind fun _ _ => ?_
  refine Complete.pure ?_
  rw [hP]
  have : ((P : Int) / (e.scale : Int)) = ((P / e.scale : Nat) : Int) := by simp
  rw [this, Int.cast_natCast]

/-- A concrete setting: BN254, default 12-bit range table, scale `2^18`, 24-bit domain; the tabulated
function here is a bounded non-negative stand-in. -/
def expDemo : ExpCtx := ⟨⟨0, 12⟩, 1, 2, 24, 2 ^ 18, fun x => x.natAbs + 1⟩

def expDemoTables : Tables (ZMod bn254P) := fun tid r =>
  if tid = 1 then r ∈ signedRows bn254P (fun x => expDemo.f (x * 2 ^ expDemo.chunkBits)) expDemo.highBits
  else if tid = 2 then r ∈ unsignedRows bn254P expDemo.f expDemo.chunkBits
  else rangeTables bn254P ⟨0, 12⟩ tid r

theorem expDemo_setting : ExpSetting bn254P expDemoTables expDemo where
  range := fun q => rangeTables_spec (p := bn254P) ⟨0, 12⟩ q
  chunk_pos := by norm_num [expDemo]
  tables := ⟨fun r => by simp [expDemoTables, expDemo], fun r => by simp [expDemoTables, expDemo]⟩
  bits := by norm_num [expDemo]
  fits := by norm_num [expDemo, bn254P]
  nonneg := fun x => by simp only [expDemo]; positivity
  bounded := fun x h1 h2 => by
    simp only [expDemo] at *
    norm_num at h1 h2
    have : ((x.natAbs : Int) + 1) ≤ 2 ^ 24 := by omega
    exact le_trans this (by norm_num [bn254P])

example : ∃ y : ZMod bn254P, y ≠ ((expProduct expDemo.f expDemo.chunkBits (-5000) / expDemo.scale : Int) : ZMod bn254P) ∧
    Forge expDemoTables (verifyExp expDemo ((-5000 : Int) : ZMod bn254P)) (fun v => v = y) :=
  C43_exp_unsound expDemo_setting (by norm_num [expDemo]) (by decide +kernel)
    ⟨by norm_num [expDemo], by norm_num [expDemo], by decide, by decide, by decide⟩
    ⟨by norm_num [expDemo], by norm_num [expDemo], by decide +kernel, by decide +kernel,
      by decide +kernel⟩
    _ (by norm_num [expDemo]) (by norm_num [expDemo])

example : Complete expDemoTables (verifyExp expDemo ((-5000 : Int) : ZMod bn254P)) (fun y => y =
      ((expProduct expDemo.f expDemo.chunkBits (-5000) / expDemo.scale : Int) : ZMod bn254P)) :=
  C43_exp_complete expDemo_setting (by norm_num [expDemo]) (by norm_num [expDemo])
    (by norm_num [expDemo, bn254P]) (by norm_num [expDemo])
    ⟨by norm_num [expDemo], by norm_num [expDemo], by decide, by decide, by decide,
      by decide +kernel⟩
    ⟨by norm_num [expDemo], by norm_num [expDemo], by decide +kernel, by decide +kernel,
      by decide +kernel, by decide +kernel⟩
    _ (by norm_num [expDemo]) (by norm_num [expDemo]) (by decide +kernel)

end JST.Props
