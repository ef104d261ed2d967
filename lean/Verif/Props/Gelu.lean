import Verif.Props.FunctionExp

/-!
# C60, continued: the Gelu layer

Neither the result nor the three intermediate quotients are range-checked, and the quotients are computed by hints that
divide canonical representatives. So a prover can choose results, and honest provers fail on negative inputs.
-/

set_option linter.unusedSectionVars false

namespace JST.Props

open JST.Shape JST.Layers JST.Spec

variable {p : Nat} [Fact p.Prime] {T : Tables (ZMod p)}

theorem forge_divRem {rc : RangeCtx} (hT : IsRangeTable T rc) {num den q : ZMod p} {n : Nat} (hc : RangeCallable rc n)
    {k : Int} (h0 : 0 ≤ k) (hk : k < 2 ^ n) (heq : q * den + (k : ZMod p) = num) :
    Forge T (divRem rc num den n) (fun v => v = q) := by
  unfold divRem uIntDiv uMod
  refine (forge_hint2 _ _ _ q).bind (fun _ h => h) ?_
  refine (forge_hint2 _ _ _ (k : ZMod p)).bind (fun _ h => h) ?_
  refine Forge.seq (Det.assertEq heq).forge ?_
  exact Forge.seq (hc.forge hT (accepted_nonneg h0 hk) rfl) (Forge.pure rfl)

theorem clog_five (κ : Nat) : Nat.clog 2 (2 * (5 * 2 ^ κ)) = κ + 4 := by
  have hpos : 0 < 2 ^ κ := by positivity
  refine le_antisymm (Nat.clog_le_of_le_pow ?_) ?_
  · rw [show (2 : Nat) ^ (κ + 4) = 16 * 2 ^ κ by ring]; omega
  · by_contra hc
    have h1 := Nat.le_pow_clog (b := 2) (by norm_num) (2 * (5 * 2 ^ κ))
    have h2 : (2 : Nat) ^ Nat.clog 2 (2 * (5 * 2 ^ κ)) ≤ 2 ^ (κ + 3) := Nat.pow_le_pow_right (by norm_num) (by omega)
    rw [show (2 : Nat) ^ (κ + 3) = 8 * 2 ^ κ by ring] at h2
    omega

theorem pow_ne_zero_mod {κ : Nat} (h : 2 ^ κ < p) : ((2 ^ κ : Nat) : ZMod p) ≠ 0 := by
  intro hc
  have := congrArg ZMod.val hc
  rw [ZMod.val_natCast, Nat.mod_eq_of_lt h, ZMod.val_zero] at this
  have : 0 < 2 ^ κ := by positivity
  omega

section
variable {hint : List (ZMod p) → Except Err (List (ZMod p))} {f : Int → Int} {rc : RangeCtx} {th tl κ coef outer : Nat}

theorem forge_geluElem (h : ExpSetting p T (expCtx f rc th tl κ)) (hκp : 2 ^ κ < p)
    (c1 : RangeCallable rc (lookupBits κ / 2)) (c2 : RangeCallable rc (κ + 1)) (c3 : RangeCallable rc κ)
    (c4 : RangeCallable rc (2 * κ)) (c5 : RangeCallable rc (κ + 4)) {u d : Int}
    (hd : InSigned (lookupBits κ) (-geluArg κ coef outer u)) (hd0 : 0 ≤ d) (hd1 : d < 10 * 2 ^ κ)
    (hden : ((2 ^ κ + expVal f κ (-geluArg κ coef outer u) / 2 ^ κ : Int) : ZMod p) ≠ 0) :
    Forge T (geluElem hint (expCtx f rc th tl κ) κ coef outer (5 * 2 ^ κ) (Nat.clog 2 (2 * (5 * 2 ^ κ))) (u : ZMod p))
      (fun w => w = ((u * 2 ^ κ - 5 * 2 ^ κ + d : Int) : ZMod p) /
        ((2 ^ κ + expVal f κ (-geluArg κ coef outer u) / 2 ^ κ : Int) : ZMod p)) := by
  have hpos : (0 : Int) < 2 ^ κ := by positivity
  have hpos2 : (0 : Int) < (2 ^ κ) ^ 2 := by positivity
  have e4 : (2 : Int) ^ (κ + 4) = 16 * 2 ^ κ := by rw [pow_add]; ring
  have e2 : (2 : Int) ^ (2 * κ) = (2 ^ κ) ^ 2 := by rw [mul_comm, pow_mul]
  rw [clog_five]
  unfold geluElem
  refine (Forge.newHint _ _ [((u * 2 ^ κ - 5 * 2 ^ κ + d : Int) : ZMod p) /
        ((2 ^ κ + expVal f κ (-geluArg κ coef outer u) / 2 ^ κ : Int) : ZMod p)] rfl).bind (fun _ h => h) ?_
  simp only [List.headD_cons]
  refine (forge_divRem h.range c3 (q := ((u ^ 2 / 2 ^ κ : Int) : ZMod p)) (k := u ^ 2 % 2 ^ κ)
    (Int.emod_nonneg _ hpos.ne') (Int.emod_lt_of_pos _ hpos) ?_).bind (fun _ h => h) ?_
  · have := congrArg (Int.cast (R := ZMod p)) (Int.ediv_mul_add_emod (u ^ 2) (2 ^ κ))
    simp only [expCtx, Int.cast_add, Int.cast_mul, Int.cast_pow, Int.cast_ofNat, Nat.cast_pow, Nat.cast_ofNat] at this ⊢
    rw [this]; ring
  refine (forge_divRem h.range c4
    (q := ((coef * (u ^ 2 / 2 ^ κ * u) / (2 ^ κ) ^ 2 : Int) : ZMod p)) (k := coef * (u ^ 2 / 2 ^ κ * u) % (2 ^ κ) ^ 2)
    (Int.emod_nonneg _ hpos2.ne') (by rw [e2]; exact Int.emod_lt_of_pos _ hpos2) ?_).bind (fun _ h => h) ?_
  · have := congrArg (Int.cast (R := ZMod p)) (Int.ediv_mul_add_emod (coef * (u ^ 2 / 2 ^ κ * u)) ((2 ^ κ) ^ 2))
    simp only [expCtx, Int.cast_add, Int.cast_mul, Int.cast_pow, Int.cast_ofNat, Int.cast_natCast, Nat.cast_mul,
      Nat.cast_pow, Nat.cast_ofNat] at this ⊢
    rw [← this]; ring
  refine (forge_divRem h.range c3 (q := ((geluArg κ coef outer u : Int) : ZMod p))
    (k := outer * (u + coef * (u ^ 2 / 2 ^ κ * u) / (2 ^ κ) ^ 2) % 2 ^ κ)
    (Int.emod_nonneg _ hpos.ne') (Int.emod_lt_of_pos _ hpos) ?_).bind (fun _ h => h) ?_
  · have := congrArg (Int.cast (R := ZMod p))
      (Int.ediv_mul_add_emod (outer * (u + coef * (u ^ 2 / 2 ^ κ * u) / (2 ^ κ) ^ 2)) (2 ^ κ))
    unfold geluArg
    simp only [expCtx, Int.cast_add, Int.cast_mul, Int.cast_pow, Int.cast_ofNat, Int.cast_natCast, Nat.cast_mul,
      Nat.cast_pow, Nat.cast_ofNat] at this ⊢
    rw [← this]
  have hneg : (0 : ZMod p) - ((geluArg κ coef outer u : Int) : ZMod p) = ((-geluArg κ coef outer u : Int) : ZMod p) := by
    push_cast; ring
  rw [hneg]
  generalize hZ : -geluArg κ coef outer u = Z at *
  have hs := pow_ne_zero_mod hκp
  have k := forge_exp h hs c1 (by rw [scaleBits_pow]; exact c2) Z hd.1 hd.2 (expVal f κ Z % 2 ^ κ)
    (Int.emod_nonneg _ hpos.ne')
    (by
      rw [scaleBits_pow]
      have := Int.emod_lt_of_pos (expVal f κ Z) hpos
      have e1 : (2 : Int) ^ (κ + 1) = 2 * 2 ^ κ := by rw [pow_succ]; ring
      linarith)
  rw [expVal_eq] at k
  have hq : ((expVal f κ Z - expVal f κ Z % 2 ^ κ : Int) : ZMod p) / (((expCtx f rc th tl κ).scale : Nat) : ZMod p) =
      ((expVal f κ Z / 2 ^ κ : Int) : ZMod p) := by
    rw [div_eq_iff (by exact hs)]
    have := Int.ediv_mul_add_emod (expVal f κ Z) (2 ^ κ)
    have e : expVal f κ Z - expVal f κ Z % 2 ^ κ = expVal f κ Z / 2 ^ κ * 2 ^ κ := by linarith
    rw [e]
    simp [expCtx]
  rw [hq] at k
  refine k.bind (fun _ h => h) ?_
  refine Forge.seq (c5.forge h.range (k := d) (accepted_nonneg hd0 (by linarith)) ?_) (Forge.pure rfl)
  have e : (((expCtx f rc th tl κ).scale : Nat) : ZMod p) + ((expVal f κ Z / 2 ^ κ : Int) : ZMod p) =
      ((2 ^ κ + expVal f κ Z / 2 ^ κ : Int) : ZMod p) := by simp [expCtx]
  rw [e, div_mul_cancel₀ _ hden]
  simp only [expCtx, Int.cast_add, Int.cast_sub, Int.cast_mul, Int.cast_pow, Int.cast_ofNat, Nat.cast_mul,
    Nat.cast_pow, Nat.cast_ofNat]
  ring

/-- **C60 is false of Gelu.** For every input tensor whose arguments are in the look-up's domain there is an accepted
output that, at every position, is none of the integers `V` for which the checked equation cannot wrap: not the Gelu
value, nor anything near it. -/
theorem C60_gelu_unsound (h : ExpSetting p T (expCtx f rc th tl κ)) (hκ : κ < 32) (hκ0 : 0 < κ) (hκp : 2 ^ κ < p)
    (c1 : RangeCallable rc (lookupBits κ / 2)) (c2 : RangeCallable rc (κ + 1)) (c3 : RangeCallable rc κ)
    (c4 : RangeCallable rc (2 * κ)) (c5 : RangeCallable rc (κ + 4)) (x : Arr Int) (hx : x.WF)
    (hd : ∀ u ∈ x.data, InSigned (lookupBits κ) (-geluArg κ coef outer u) ∧
      2 ^ κ + expVal f κ (-geluArg κ coef outer u) / 2 ^ κ < p) :
    ∃ g : Int → ZMod p, Forge T (geluLayer hint f rc th tl κ coef outer true (castArr p x))
        (IsUnary x fun u w => w = g u) ∧
      ∀ u ∈ x.data, ∀ V : Int, |V| * (2 ^ κ + expVal f κ (-geluArg κ coef outer u) / 2 ^ κ) + (|u| + 6) * 2 ^ κ < p →
        g u ≠ (V : ZMod p) := by
  have hpos : (0 : Int) < 2 ^ κ := by positivity
  have h2 : (2 : Int) ^ 1 ≤ 2 ^ κ := pow_le_pow_right₀ (by norm_num) hκ0
  norm_num at h2
  let D : Int → Int := fun u => 2 ^ κ + expVal f κ (-geluArg κ coef outer u) / 2 ^ κ
  let d : Int → Int := fun u => if D u ∣ u * 2 ^ κ - 5 * 2 ^ κ then 1 else 0
  have hD : ∀ u, 2 ≤ D u := fun u => by
    have : 0 ≤ expVal f κ (-geluArg κ coef outer u) / 2 ^ κ :=
      Int.ediv_nonneg (mul_nonneg (h.nonneg _) (h.nonneg _)) hpos.le
    simp only [D]; linarith
  have hd01 : ∀ u, 0 ≤ d u ∧ d u ≤ 1 := fun u => by simp only [d]; split_ifs <;> norm_num
  have hden : ∀ u ∈ x.data, ((D u : Int) : ZMod p) ≠ 0 := by
    intro u hm hc
    have h0 : ((D u : Int) : ZMod p) = ((0 : Int) : ZMod p) := by rw [hc]; simp
    have hDu := hD u
    have := int_eq_of_cast_eq (p := p) h0 (by rw [sub_zero, abs_of_nonneg (by linarith)]; exact (hd u hm).2)
    linarith
  refine ⟨fun u => ((u * 2 ^ κ - 5 * 2 ^ κ + d u : Int) : ZMod p) / ((D u : Int) : ZMod p), ?_, ?_⟩
  · unfold geluLayer
    rw [if_neg (by simp), if_neg (by omega)]
    refine forge_mapLayer hx fun u hm => ?_
    exact forge_geluElem h hκp c1 c2 c3 c4 c5 (hd u hm).1 (hd01 u).1 (by linarith [(hd01 u).2]) (hden u hm)
  · intro u hm V hV hc
    dsimp only at hc
    rw [div_eq_iff (hden u hm), ← Int.cast_mul] at hc
    have hDu := hD u
    have hVD : |V * D u| = |V| * D u := by rw [abs_mul, abs_of_nonneg (by linarith : 0 ≤ D u)]
    have e := int_eq_of_cast_eq (p := p) hc (by
      have a1 := abs_sub (u * 2 ^ κ - 5 * 2 ^ κ + d u) (V * D u)
      have a2 := abs_add_le (u * 2 ^ κ - 5 * 2 ^ κ) (d u)
      have a3 := abs_sub (u * 2 ^ κ) (5 * 2 ^ κ)
      have a4 : |u * 2 ^ κ| = |u| * 2 ^ κ := by rw [abs_mul, abs_of_pos hpos]
      have a5 : |(5 : Int) * 2 ^ κ| = 5 * 2 ^ κ := abs_of_nonneg (by positivity)
      have a6 : |d u| ≤ 1 := by rw [abs_of_nonneg (hd01 u).1]; exact (hd01 u).2
      have hV' : |V| * D u + (|u| + 6) * 2 ^ κ < p := hV
      have : (|u| + 6) * 2 ^ κ = |u| * 2 ^ κ + 6 * 2 ^ κ := by ring
      rw [hVD] at a1
      linarith)
    by_cases hdv : D u ∣ u * 2 ^ κ - 5 * 2 ^ κ
    · have hd1 : d u = 1 := if_pos hdv
      rw [hd1] at e
      have h1 : D u ∣ 1 := (Int.dvd_add_right hdv).1 ⟨V, by rw [e]; ring⟩
      have := Int.le_of_dvd (by norm_num) h1
      linarith
    · have hd0 : d u = 0 := if_neg hdv
      rw [hd0, add_zero] at e
      exact hdv ⟨V, by rw [e]; ring⟩

/-! ### Honest provers -/

theorem honest_divRem {rc : RangeCtx} {num den : ZMod p} {n : Nat} (hden : den.val ≠ 0) :
    Honest T (divRem rc num den n) (fun q => q = ((num.val / den.val : Nat) : ZMod p)) := by
  unfold divRem uIntDiv uMod
  refine Honest.bind (Complete.honest (complete_hint2 (v := ((num.val / den.val : Nat) : ZMod p)) (by rw [if_neg hden]))) ?_
  rintro _ rfl
  refine Honest.bind (trivial_honest Replay.hint2) fun _ _ => ?_
  refine Honest.bind (trivial_honest Replay.assertEq) fun _ _ => ?_
  exact Honest.bind (trivial_honest (Replay.rangeCheck _ _ _)) fun _ _ => Honest.pure rfl

theorem replay_divRem (rc : RangeCtx) (num den : ZMod p) (n : Nat) : Replay (divRem rc num den n) := by
  unfold divRem uIntDiv uMod
  exact Replay.hint2.bind fun _ => Replay.hint2.bind fun _ => Replay.assertEq.bind fun _ =>
    (Replay.rangeCheck _ _ _).bind fun _ => Replay.pure

theorem replay_geluElem (e : ExpCtx) (κ coef outer tol tb : Nat) (x : ZMod p) :
    Replay (geluElem hint e κ coef outer tol tb x) := by
  unfold geluElem
  exact Replay.newHint.bind fun _ => (replay_divRem _ _ _ _).bind fun _ => (replay_divRem _ _ _ _).bind fun _ =>
    (replay_divRem _ _ _ _).bind fun _ => (replay_verifyExp _ _).bind fun _ => (Replay.rangeCheck _ _ _).bind fun _ =>
    Replay.pure

theorem val_nat {n : Nat} (h : n < p) : ((n : Nat) : ZMod p).val = n := by rw [ZMod.val_natCast, Nat.mod_eq_of_lt h]

theorem val_neg_nat {n : Nat} (h0 : 0 < n) (h : n ≤ p) : (-((n : Nat) : ZMod p)).val = (p - n) % p := by
  have : -((n : Nat) : ZMod p) = ((p - n : Nat) : ZMod p) := by
    rw [Nat.cast_sub h, ZMod.natCast_self, zero_sub]
  rw [this, ZMod.val_natCast]

/-- The exponential gadget has no proof for `-q` with `q` far from the multiples of `p`. -/
theorem sound_exp_far (h : ExpSetting p T (expCtx f rc th tl κ)) {q : Nat} (h1 : 2 ^ (lookupBits κ - 1) < q)
    (h2 : q + 2 ^ (lookupBits κ - 1) < p) {Q : ZMod p → Prop} :
    Sound T (verifyExp (expCtx f rc th tl κ) (0 - (q : ZMod p))) Q := by
  refine (C43_exp_sound_partial h _).conseq ?_
  rintro y ⟨X, x1, x2, ex, -⟩
  exfalso
  change -2 ^ (lookupBits κ - 1) ≤ X at x1
  change X < 2 ^ (lookupBits κ - 1) at x2
  have h1' : (2 : Int) ^ (lookupBits κ - 1) < q := by exact_mod_cast h1
  have h2' : (q : Int) + 2 ^ (lookupBits κ - 1) < p := by exact_mod_cast h2
  have e : ((-(q : Int) : Int) : ZMod p) = (X : ZMod p) := by rw [← ex]; push_cast; ring
  have := int_eq_of_cast_eq (p := p) e (by rw [abs_lt]; constructor <;> linarith)
  linarith

theorem far_zero {p α o m t : Nat} (hα : 2 ≤ α) (ho1 : α ≤ o) (ho2 : o ≤ 2 * α) (hm : 0 < m)
    (hp : α ^ 2 * (m + t + 1) < p) :
    0 < o * m ∧ o * m < p ∧ t < (p - o * m) / α ∧ (p - o * m) / α + t < p := by
  have h1 : o * m ≤ α ^ 2 * m := Nat.mul_le_mul_right _ (le_trans ho2 (by rw [pow_two]; exact Nat.mul_le_mul_right _ hα))
  have h2 : 0 < o * m := Nat.mul_pos (by omega) hm
  have h3 : α ^ 2 * (m + t + 1) = α ^ 2 * m + α ^ 2 * (t + 1) := by ring
  have h4 : α * (t + 1) ≤ α ^ 2 * (t + 1) := Nat.mul_le_mul_right _ (by nlinarith)
  have h5 : 2 * (t + 1) ≤ α * (t + 1) := Nat.mul_le_mul_right _ hα
  have h6 : (p - o * m) / α ≤ (p - o * m) / 2 := Nat.div_le_div_left hα (by norm_num)
  rw [h3] at hp
  generalize α ^ 2 * m = A at *
  generalize α ^ 2 * (t + 1) = B at *
  generalize o * m = C at *
  have h7 : t + 1 ≤ (p - C) / α := (Nat.le_div_iff_mul_le (by omega)).2 (by rw [mul_comm]; omega)
  omega

theorem far_pos {p α o m t M : Nat} (hα : 2 ≤ α) (ho1 : α ≤ o) (ho2 : o ≤ 2 * α) (hm : 0 < m)
    (hp : M + α ^ 2 * (m + t + 1) < p) :
    m ≤ (p - M) / α ^ 2 ∧ o * ((p - M) / α ^ 2 - m) < p ∧ t < o * ((p - M) / α ^ 2 - m) / α ∧
      o * ((p - M) / α ^ 2 - m) / α + t < p := by
  have h0 : 0 < α ^ 2 := by positivity
  have hC : m + t + 1 ≤ (p - M) / α ^ 2 := (Nat.le_div_iff_mul_le h0).2 (by rw [mul_comm]; omega)
  have hCp : (p - M) / α ^ 2 * α ^ 2 ≤ p - M := Nat.div_mul_le_self _ _
  generalize (p - M) / α ^ 2 = C at *
  have h1 : o * (C - m) < C * α ^ 2 := by
    rw [mul_comm C]
    exact Nat.mul_lt_mul_of_le_of_lt (le_trans ho2 (by rw [pow_two]; exact Nat.mul_le_mul_right _ hα)) (by omega) h0
  have h2 : (t + 1) * α ≤ o * (C - m) := by
    rw [mul_comm o]; exact Nat.mul_le_mul (by omega) ho1
  have h3 : t + 1 ≤ o * (C - m) / α := (Nat.le_div_iff_mul_le (by omega)).2 h2
  have h4 : o * (C - m) / α ≤ 2 * (C - m) := by
    refine Nat.div_le_of_le_mul ?_
    calc o * (C - m) ≤ 2 * α * (C - m) := Nat.mul_le_mul_right _ ho2
      _ = α * (2 * (C - m)) := by ring
  have h5 : C * 4 ≤ C * α ^ 2 := Nat.mul_le_mul_left _ (by nlinarith)
  have h6 : 0 < α ^ 2 * (m + t + 1) := by positivity
  generalize o * (C - m) / α = q at *
  generalize o * (C - m) = r at *
  generalize C * α ^ 2 = s at *
  generalize α ^ 2 * (m + t + 1) = v at *
  omega

/-- **Findings on C60: Gelu cannot be proved on negative inputs.** The hints divide canonical representatives, so for a
negative argument the "quotient" is about `p/α`, which the look-up rejects: if any input is negative, the honest prover
has no proof. -/
theorem C60_gelu_negative (h : ExpSetting p T (expCtx f rc th tl κ)) (hκ0 : 0 < κ) (ho1 : 2 ^ κ ≤ outer)
    (ho2 : outer ≤ 2 * 2 ^ κ) (tanh : Bool) (x : Arr Int) {u : Int} (hm : u ∈ x.data) (hneg : u < 0)
    (hp1 : u.natAbs ^ 2 < p)
    (hp2 : coef * (u.natAbs ^ 2 / 2 ^ κ * u.natAbs) + (2 ^ κ) ^ 2 * (u.natAbs + 2 ^ (lookupBits κ - 1) + 1) < p) :
    Honest T (geluLayer hint f rc th tl κ coef outer tanh (castArr p x)) (fun _ => False) := by
  unfold geluLayer
  split_ifs with ht hκ
  · intro o e _; exact absurd e (by simp [throwErr])
  · intro o e _; exact absurd e (by simp [throwErr])
  rw [mapLayer_eq]
  refine Honest.bind (honest_collectG_false (fun _ => replay_geluElem _ _ _ _ _ _ _) _ ⟨u, hm, ?_⟩) fun _ h => h.elim
  obtain ⟨m, hmu⟩ : ∃ m : Nat, u = -(m : Int) := ⟨u.natAbs, by rw [Int.ofNat_natAbs_of_nonpos hneg.le]; ring⟩
  subst hmu
  have hm0 : 0 < m := by omega
  simp only [Int.natAbs_neg, Int.natAbs_natCast] at hp1 hp2
  have hα : 2 ≤ 2 ^ κ := by
    calc 2 = 2 ^ 1 := rfl
      _ ≤ 2 ^ κ := Nat.pow_le_pow_right (by norm_num) hκ0
  have hα2 : 2 * 2 ^ κ ≤ (2 ^ κ) ^ 2 := by rw [pow_two]; exact Nat.mul_le_mul_right _ hα
  set α : Nat := 2 ^ κ with hαdef
  set t : Nat := 2 ^ (lookupBits κ - 1) with htdef
  set M : Nat := coef * (m ^ 2 / α * m) with hM
  have hbig : α ^ 2 * 1 ≤ α ^ 2 * (m + t + 1) := Nat.mul_le_mul_left _ (Nat.le_add_left _ _)
  have hα2p : α ^ 2 < p := by omega
  have hαp : α < p := by omega
  have hMp : M < p := by omega
  unfold geluElem
  refine Honest.bind (trivial_honest Replay.newHint) fun out _ => ?_
  have esc : (expCtx f rc th tl κ).scale = α := rfl
  rw [esc]
  refine Honest.bind (honest_divRem (by rw [val_nat hαp]; omega)) ?_
  rintro _ rfl
  have e1 : (((-(m : Int) : Int) : ZMod p) * ((-(m : Int) : Int) : ZMod p)) = ((m ^ 2 : Nat) : ZMod p) := by
    push_cast; ring
  rw [e1, val_nat hp1, val_nat hαp]
  refine Honest.bind (honest_divRem (by rw [← pow_two, val_nat hα2p]; omega)) ?_
  rintro _ rfl
  have e2 : (coef : ZMod p) * (((m ^ 2 / α : Nat) : ZMod p) * ((-(m : Int) : Int) : ZMod p)) = -((M : Nat) : ZMod p) := by
    rw [hM]; simp only [Nat.cast_mul, Int.cast_neg, Int.cast_natCast]; ring
  rw [e2, ← pow_two, val_nat hα2p]
  refine Honest.bind (honest_divRem (by rw [val_nat hαp]; omega)) ?_
  rintro _ rfl
  rw [val_nat hαp]
  refine Honest.bind (P := fun _ => False) (Sound.honest (sound_exp_far h ?_ ?_) (replay_verifyExp _ _)) fun _ h => h.elim
  all_goals
    rcases Nat.eq_zero_or_pos M with hM0 | hM0
    · have e3 : (outer : ZMod p) * (((-(m : Int) : Int) : ZMod p) + (((-((M : Nat) : ZMod p)).val / α ^ 2 : Nat) : ZMod p)) =
          -((outer * m : Nat) : ZMod p) := by
        rw [hM0]; simp
      obtain ⟨k1, k2, k3, k4⟩ := far_zero hα ho1 ho2 hm0 (lt_of_le_of_lt (Nat.le_add_left _ _) hp2)
      rw [e3, val_neg_nat k1 k2.le, Nat.mod_eq_of_lt (Nat.sub_lt (by omega) k1)]
      assumption
    · have hval : (-((M : Nat) : ZMod p)).val = p - M := by
        rw [val_neg_nat hM0 hMp.le, Nat.mod_eq_of_lt (Nat.sub_lt (by omega) hM0)]
      obtain ⟨k1, k2, k3, k4⟩ := far_pos hα ho1 ho2 hm0 hp2
      have e3 : (outer : ZMod p) * (((-(m : Int) : Int) : ZMod p) + (((p - M) / α ^ 2 : Nat) : ZMod p)) =
          ((outer * ((p - M) / α ^ 2 - m) : Nat) : ZMod p) := by
        rw [Nat.cast_mul, Nat.cast_sub k1]; simp only [Int.cast_neg, Int.cast_natCast]; ring
      rw [hval, e3, val_nat k2]
      assumption

theorem complete_divRem {rc : RangeCtx} (hT : IsRangeTable T rc) {N D n : Nat} (hN : N < p) (hD : D < p) (hD0 : 0 < D)
    (hn : RangeUsable p rc n) (hr : N % D < 2 ^ n) {num den : ZMod p} (e1 : num = (N : ZMod p)) (e2 : den = (D : ZMod p)) :
    Complete T (divRem rc num den n) (fun q => q = ((N / D : Nat) : ZMod p)) := by
  subst e1 e2
  unfold divRem uIntDiv uMod
  refine Complete.bind (complete_hint2 (v := ((N / D : Nat) : ZMod p))
    (by rw [val_nat hN, val_nat hD, if_neg (by omega)])) ?_
  rintro _ rfl
  refine Complete.bind (complete_hint2 (v := ((N % D : Nat) : ZMod p))
    (by rw [val_nat hN, val_nat hD, if_neg (by omega)])) ?_
  rintro _ rfl
  refine Complete.bind (Det.assertEq ?_).complete fun _ _ => ?_
  · rw [← Nat.cast_mul, ← Nat.cast_add, Nat.div_add_mod']
  exact Complete.bind (hn.complete hT hr rfl) fun _ _ => Complete.pure rfl

/-- **C60, Gelu, completeness on non-negative inputs.** There the honest prover succeeds when the hint's value meets the
cross-multiplied tolerance of `5α`, and the products fit the field. -/
theorem C60_gelu_complete_partial (h : ExpSetting p T (expCtx f rc th tl κ)) (hκ : κ < 32) (hκp : (2 ^ κ) ^ 2 < p)
    (h1 : RangeUsable p rc (lookupBits κ / 2)) (h2 : RangeUsable p rc (κ + 1)) (h3 : RangeUsable p rc κ)
    (h4 : RangeUsable p rc (2 * κ)) (h5 : RangeUsable p rc (κ + 4)) (x : Arr Int) (hx : x.WF) (Y : Int → Int)
    (hd : ∀ u ∈ x.data, 0 ≤ u ∧ u ^ 2 < p ∧ coef * (u ^ 2 / 2 ^ κ * u) < p ∧
      outer * (u + coef * (u ^ 2 / 2 ^ κ * u) / (2 ^ κ) ^ 2) < p ∧
      InSigned (lookupBits κ) (-geluArg κ coef outer u) ∧ expVal f κ (-geluArg κ coef outer u) < p)
    (hY : ∀ u ∈ x.data, hint [(u : ZMod p), ((2 ^ κ : Nat) : ZMod p)] = .ok [((Y u : Int) : ZMod p)] ∧
      -(5 * 2 ^ κ) ≤ Y u * (2 ^ κ + expVal f κ (-geluArg κ coef outer u) / 2 ^ κ) - u * 2 ^ κ ∧
      Y u * (2 ^ κ + expVal f κ (-geluArg κ coef outer u) / 2 ^ κ) - u * 2 ^ κ < 5 * 2 ^ κ) :
    Complete T (geluLayer hint f rc th tl κ coef outer true (castArr p x))
      (IsUnary x fun u w => w = (Y u : ZMod p)) := by
  have hpos : (0 : Int) < 2 ^ κ := by positivity
  have e4 : (2 : Int) ^ (κ + 4) = 16 * 2 ^ κ := by rw [pow_add]; ring
  have hle : 2 ^ κ ≤ (2 ^ κ) ^ 2 := Nat.le_self_pow (by norm_num) _
  unfold geluLayer
  rw [if_neg (by simp), if_neg (by omega), clog_five]
  refine complete_mapLayer hx fun u hm => ?_
  obtain ⟨u0, u1, u2, u3, u4, u5⟩ := hd u hm
  obtain ⟨y1, y2, y3⟩ := hY u hm
  obtain ⟨m, rfl⟩ := Int.eq_ofNat_of_zero_le u0
  have n1 : m ^ 2 < p := by exact_mod_cast u1
  have n2 : coef * (m ^ 2 / 2 ^ κ * m) < p := by exact_mod_cast u2
  have n3 : outer * (m + coef * (m ^ 2 / 2 ^ κ * m) / (2 ^ κ) ^ 2) < p := by exact_mod_cast u3
  have eg : geluArg κ coef outer m = ((outer * (m + coef * (m ^ 2 / 2 ^ κ * m) / (2 ^ κ) ^ 2) / 2 ^ κ : Nat) : Int) := by
    unfold geluArg; push_cast; rfl
  unfold geluElem
  refine Complete.bind (Complete.newHint y1 rfl) ?_
  rintro _ rfl
  simp only [List.headD_cons]
  refine Complete.bind (complete_divRem h.range n1 (by omega : 2 ^ κ < p) (by positivity) h3
    (Nat.mod_lt _ (by positivity)) (by push_cast; ring) rfl) ?_
  rintro _ rfl
  refine Complete.bind (complete_divRem h.range n2 hκp (by positivity) h4
    (by rw [mul_comm 2 κ, pow_mul]; exact Nat.mod_lt _ (by positivity)) (by push_cast; ring) ?_) ?_
  · simp only [expCtx]; rw [← pow_two]
  rintro _ rfl
  refine Complete.bind (complete_divRem h.range n3 (by omega : 2 ^ κ < p) (by positivity) h3
    (Nat.mod_lt _ (by positivity)) ?_ rfl) ?_
  · simp only [Nat.cast_mul, Nat.cast_add, Int.cast_natCast]
  rintro _ rfl
  have hneg : (0 : ZMod p) - ((outer * (m + coef * (m ^ 2 / 2 ^ κ * m) / (2 ^ κ) ^ 2) / 2 ^ κ : Nat) : ZMod p) =
      ((-geluArg κ coef outer m : Int) : ZMod p) := by
    rw [eg, Int.cast_neg, Int.cast_natCast, zero_sub]
  rw [hneg]
  refine Complete.bind (complete_expInt h (by omega) (by omega) h1 h2 u4 u5) ?_
  rintro _ rfl
  refine Complete.bind (h5.completeInt h.range
    (k := Y m * (2 ^ κ + expVal f κ (-geluArg κ coef outer m) / 2 ^ κ) - m * 2 ^ κ + 5 * 2 ^ κ)
    (by linarith) (by linarith) ?_) fun _ _ => Complete.pure rfl
  simp only [expCtx, Int.cast_add, Int.cast_sub, Int.cast_mul, Int.cast_pow, Int.cast_ofNat, Int.cast_natCast,
    Nat.cast_mul, Nat.cast_pow, Nat.cast_ofNat]

/-- The layer refuses the exact (`erf`) form and scale exponents of 32 and more. -/
theorem C60_gelu_refuses {tanh : Bool} (hbad : tanh = false ∨ 32 ≤ κ) (x : Arr (ZMod p)) (s : Hints (ZMod p)) :
    ∃ m, geluLayer hint f rc th tl κ coef outer tanh x s = .error (.err m) := by
  unfold geluLayer
  split_ifs with h1 h2
  · exact ⟨_, rfl⟩
  · exact ⟨_, rfl⟩
  · rcases hbad with hb | hb
    · exact absurd hb h1
    · omega

end

/-! ## Concrete instances: scale `2^18`, the quantised coefficients 11722 and 418312. -/

example : ∃ g : Int → ZMod bn254P, Forge stairTables
    (geluLayer (fun _ => .ok []) stairs ⟨0, 12⟩ 1 2 18 11722 418312 true (castArr bn254P stairIn))
        (IsUnary stairIn fun u w => w = g u) ∧
      ∀ u ∈ stairIn.data, ∀ V : Int,
        |V| * (2 ^ 18 + expVal stairs 18 (-geluArg 18 11722 418312 u) / 2 ^ 18) + (|u| + 6) * 2 ^ 18 < bn254P →
        g u ≠ (V : ZMod bn254P) :=
  C60_gelu_unsound stair_setting (by norm_num) (by norm_num) (by norm_num [bn254P])
    ⟨by decide +kernel, by decide +kernel, by decide +kernel, by decide +kernel, by decide +kernel⟩
    ⟨by decide +kernel, by decide +kernel, by decide +kernel, by decide +kernel, by decide +kernel⟩
    ⟨by decide +kernel, by decide +kernel, by decide +kernel, by decide +kernel, by decide +kernel⟩
    ⟨by decide +kernel, by decide +kernel, by decide +kernel, by decide +kernel, by decide +kernel⟩
    ⟨by decide +kernel, by decide +kernel, by decide +kernel, by decide +kernel, by decide +kernel⟩
    stairIn rfl (fun u hm => by
      have : ∀ u ∈ stairIn.data, (-2 ^ (lookupBits 18 - 1) ≤ -geluArg 18 11722 418312 u ∧
          -geluArg 18 11722 418312 u < 2 ^ (lookupBits 18 - 1)) ∧
        2 ^ 18 + expVal stairs 18 (-geluArg 18 11722 418312 u) / 2 ^ 18 < (bn254P : Int) := by decide +kernel
      exact this u hm)

/-- One negative input (-0.5) suffices. -/
example {hint : List (ZMod bn254P) → Except Err (List (ZMod bn254P))} : Honest stairTables
    (geluLayer hint stairs ⟨0, 12⟩ 1 2 18 11722 418312 true (castArr bn254P stairIn)) (fun _ => False) :=
  C60_gelu_negative stair_setting (by norm_num) (by norm_num) (by norm_num) true stairIn (u := -131072)
    (by decide) (by norm_num) (by decide +kernel) (by decide +kernel)

/-- Nearest values of `x α / (α + E)` on the staircase. -/
def stairGelu (u : Int) : Int := if u = 262144 then 209715 else 493447

example : Complete stairTables (geluLayer (stairHint stairGelu) stairs ⟨0, 12⟩ 1 2 18 11722 418312 true
    (castArr bn254P ⟨[2], [262144, 524288]⟩))
    (IsUnary ⟨[2], [262144, 524288]⟩ fun u w => w = (stairGelu u : ZMod bn254P)) :=
  C60_gelu_complete_partial stair_setting (by norm_num) (by norm_num [bn254P])
    ⟨by decide +kernel, by decide +kernel, by decide +kernel, by decide +kernel, by decide +kernel, by decide +kernel⟩
    ⟨by decide +kernel, by decide +kernel, by decide +kernel, by decide +kernel, by decide +kernel, by decide +kernel⟩
    ⟨by decide +kernel, by decide +kernel, by decide +kernel, by decide +kernel, by decide +kernel, by decide +kernel⟩
    ⟨by decide +kernel, by decide +kernel, by decide +kernel, by decide +kernel, by decide +kernel, by decide +kernel⟩
    ⟨by decide +kernel, by decide +kernel, by decide +kernel, by decide +kernel, by decide +kernel, by decide +kernel⟩
    ⟨[2], [262144, 524288]⟩ rfl stairGelu
    (fun u hm => by
      have : ∀ u ∈ [(262144 : Int), 524288], 0 ≤ u ∧ u ^ 2 < (bn254P : Int) ∧
        (11722 : Nat) * (u ^ 2 / 2 ^ 18 * u) < (bn254P : Int) ∧
        (418312 : Nat) * (u + (11722 : Nat) * (u ^ 2 / 2 ^ 18 * u) / (2 ^ 18) ^ 2) < (bn254P : Int) ∧
        (-2 ^ (lookupBits 18 - 1) ≤ -geluArg 18 (11722 : Nat) (418312 : Nat) u ∧
          -geluArg 18 (11722 : Nat) (418312 : Nat) u < 2 ^ (lookupBits 18 - 1)) ∧
        expVal stairs 18 (-geluArg 18 (11722 : Nat) (418312 : Nat) u) < (bn254P : Int) := by decide +kernel
      exact this u hm)
    (fun u hm => by
      have : ∀ u ∈ [(262144 : Int), 524288],
        -(5 * 2 ^ 18) ≤ stairGelu u * (2 ^ 18 + expVal stairs 18 (-geluArg 18 (11722 : Nat) (418312 : Nat) u) / 2 ^ 18) -
          u * 2 ^ 18 ∧
        stairGelu u * (2 ^ 18 + expVal stairs 18 (-geluArg 18 (11722 : Nat) (418312 : Nat) u) / 2 ^ 18) - u * 2 ^ 18 <
          5 * 2 ^ 18 := by decide +kernel
      refine ⟨?_, this u hm⟩
      have hs : ∀ u ∈ [(262144 : Int), 524288], u.natAbs < 2 ^ 63 ∧ 2 * u.natAbs < bn254P := by decide +kernel
      simp only [stairHint, List.headD_cons]
      rw [fieldToI64_cast u (hs u hm).1 (hs u hm).2])

end JST.Props
