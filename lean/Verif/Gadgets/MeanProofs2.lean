import Verif.Gadgets.MeanProofs

/-!
# What the constraints of a ReduceMean lane enforce
-/

namespace JST

open JST.Spec

variable {p : Nat} [Fact p.Prime] {T : Tables (ZMod p)}

/-- The run from `h` succeeds with all constraints satisfied. -/
def Succeeds {α : Type} (T : Tables (ZMod p)) (g : G (ZMod p) α) (h : Hints (ZMod p)) : Prop :=
  ∃ o, g h = .ok o ∧ Sat T o.cons

theorem Succeeds.unbind {α β : Type} {g : G (ZMod p) α} {f : α → G (ZMod p) β} {h : Hints (ZMod p)}
    (hs : Succeeds T (g >>= f) h) :
    ∃ o, g h = .ok o ∧ Sat T o.cons ∧ Succeeds T (f o.val) o.rest := by
  obtain ⟨o, e, s⟩ := hs
  obtain ⟨o1, o2, e1, e2, rfl⟩ := bind_eq_ok e
  exact ⟨o1, e1, (Sat.app.1 s).1, o2, e2, (Sat.app.1 s).2⟩

theorem Succeeds.complete {α β : Type} {g : G (ZMod p) α} {f : α → G (ZMod p) β} {a : α}
    (hs : Succeeds T (g >>= f) .honest) (hc : Complete T g (fun v => v = a)) :
    Succeeds T (f a) .honest := by
  obtain ⟨o, e, -, s⟩ := hs.unbind
  obtain ⟨o', e', r', -, v'⟩ := hc
  rw [e] at e'
  cases Except.ok.inj e'
  rw [v', r'] at s
  exact s

/-- Width of the remainder check, reduce_mean.rs:81-82. -/
def remainderBits (n : Nat) : Nat := max (nextPow2Log n) 1

theorem le_remainderBits (n : Nat) : n ≤ 2 ^ remainderBits n := by
  unfold remainderBits nextPow2Log
  split_ifs with h
  · simp; omega
  · have := Nat.lt_log2_self (n := n - 1)
    rw [Nat.max_eq_left (by omega)]; omega

theorem isPow2_remainderBits {n : Nat} (h2 : 2 ≤ n) (h : isPow2 n = true) : n = 2 ^ remainderBits n := by
  unfold isPow2 at h
  simp only [Bool.and_eq_true, decide_eq_true_eq] at h
  have hl : Nat.log2 n ≠ 0 := by
    intro e; have := h.2; rw [e] at this; omega
  have : Nat.log2 (n - 1) = Nat.log2 n - 1 := by
    rw [Nat.log2_eq_iff (by omega)]
    have e : 2 ^ (Nat.log2 n - 1) * 2 = n := by
      rw [← pow_succ, show Nat.log2 n - 1 + 1 = Nat.log2 n by omega]; exact h.2
    rw [pow_succ, e]
    have : 1 ≤ 2 ^ (Nat.log2 n - 1) := Nat.one_le_two_pow
    omega
  unfold remainderBits nextPow2Log
  rw [if_neg (by omega), this, Nat.max_eq_left (by omega), show Nat.log2 n - 1 + 1 = Nat.log2 n by omega]
  exact h.2.symm

/-- **ReduceMean lane, soundness.** -/
theorem sound_laneMean {rc : RangeCtx} (hT : IsRangeTable T rc) (hc : 0 < rc.chunk) {nb n : Nat}
    (h2 : 2 ≤ n) (hk : rc.chunk ∣ remainderBits n) (hpk : 2 ^ (remainderBits n + 2) ≤ p) {X : Int}
    (hp : |X| + n * 2 ^ (nb + slackBits rc.chunk nb + 1) + n ≤ p) :
    Sound T (laneMean rc nb n (X : ZMod p)) (fun out => out = ((roundedMean X n : Int) : ZMod p)) := by
  unfold laneMean uIntDiv uMod
  dsimp only
  refine sound_hint2.bind fun q _ => sound_hint2.bind fun r _ => Sound.assertEq.bind fun _ he =>
    (sound_rangeCheckInt hT hc _ _).bind fun _ hr => ?_
  change ∃ R : Int, AcceptedInt rc.chunk (remainderBits n) R ∧ _ at hr
  obtain ⟨R, hR, rfl⟩ := hr
  refine Sound.bind (P := fun _ => 0 ≤ R ∧ R < n) ?_ fun _ hRn => ?_
  · cases hpow : isPow2 n with
    | true =>
      simp only [laneUpper, hpow, if_true]
      refine Sound.pure ?_
      rw [acceptedInt_of_dvd hk] at hR
      have := isPow2_remainderBits h2 hpow
      refine ⟨hR.1, ?_⟩
      have h3 : (n : Int) = 2 ^ remainderBits n := by exact_mod_cast this
      rw [h3]; exact hR.2
    | false =>
      simp only [laneUpper, hpow, Bool.false_eq_true, if_false]
      refine (sound_rangeCheckInt hT hc _ _).conseq fun _ h => ?_
      obtain ⟨t, ht, et⟩ := h
      exact residual_bounds (by omega) (le_remainderBits n) (Or.inl hk) (by rw [slack_zero hk]; exact hpk)
        hR ht rfl et
  · refine (sound_rangeCheckInt hT hc _ _).bind fun _ hq => Sound.pure ?_
    obtain ⟨K, hK, eK⟩ := hq
    have eq : q = ((K - 2 ^ (nb - 1) : Int) : ZMod p) := by
      push_cast at eK ⊢; rw [← eK]; ring
    subst eq
    rw [roundedMean_eq]
    congr 1
    have hle : (2 : Int) ^ nb ≤ 2 ^ (nb + slackBits rc.chunk nb) :=
      pow_le_pow_right₀ (by norm_num) (by omega)
    have hle' : (2 : Int) ^ (nb - 1) ≤ 2 ^ (nb + slackBits rc.chunk nb) :=
      pow_le_pow_right₀ (by norm_num) (by omega)
    have h0 : (0 : Int) < 2 ^ nb := by positivity
    have h0' : (0 : Int) < 2 ^ (nb - 1) := by positivity
    refine mean_forced (by omega) hRn.1 hRn.2 (B := 2 ^ (nb + slackBits rc.chunk nb + 1)) ?_ hp ?_
    · rw [pow_succ]
      obtain ⟨k1, k2⟩ := hK
      rw [abs_le]; constructor <;> linarith
    · have := he
      rw [add_comm] at this
      linear_combination -he

/-- **ReduceMean lane, forgery**: every value whose remainder passes the checks can be proved. -/
theorem forge_laneMean {rc : RangeCtx} (hT : IsRangeTable T rc) {nb n : Nat} (hn : 1 ≤ n)
    (hun : RangeCallable rc nb) (huk : RangeCallable rc (remainderBits n)) {X Y : Int}
    (hY : AcceptedInt rc.chunk nb (Y + 2 ^ (nb - 1)))
    (hs : AcceptedInt rc.chunk (remainderBits n) (X + (n / 2 : Nat) - n * Y))
    (ht : isPow2 n = false → AcceptedInt rc.chunk (remainderBits n) (n - 1 - (X + (n / 2 : Nat) - n * Y))) :
    Forge T (laneMean rc nb n (X : ZMod p)) (fun out => out = (Y : ZMod p)) := by
  unfold laneMean uIntDiv uMod
  dsimp only
  refine (forge_hint2 _ _ _ (Y : ZMod p)).bind (fun _ h => h) ?_
  refine (forge_hint2 _ _ _ (((X + (n / 2 : Nat) - n * Y : Int)) : ZMod p)).bind (fun _ h => h) ?_
  refine (Det.assertEq ?_).forge.bind (a := ()) (fun _ _ => rfl) ?_
  · simp only [Int.cast_add, Int.cast_sub, Int.cast_mul, Int.cast_natCast]; ring
  refine (huk.forge hT hs rfl).bind (a := ()) (fun _ _ => rfl) ?_
  refine Forge.bind (P := fun _ => True) (a := ()) ?_ (fun _ _ => rfl) ?_
  · cases hpow : isPow2 n with
    | true => simp only [laneUpper, hpow, if_true]; exact Forge.pure trivial
    | false =>
      simp only [laneUpper, hpow, Bool.false_eq_true, if_false]
      refine huk.forge hT (ht hpow) ?_
      rw [Nat.cast_sub hn]; simp only [Int.cast_add, Int.cast_sub, Int.cast_mul, Int.cast_natCast, Int.cast_one, Nat.cast_one]
  · exact (hun.forge hT hY (by push_cast; rfl)).bind (a := ()) (fun _ _ => rfl) (Forge.pure rfl)

theorem laneHonest {N n : Nat} (hn : 0 < n) (hN : N < p) (hnp : n < p) :
    Complete T (uIntDiv (N : ZMod p) (n : ZMod p)) (fun v => v = ((N / n : Nat) : ZMod p)) ∧
      Complete T (uMod (N : ZMod p) (n : ZMod p)) (fun v => v = ((N % n : Nat) : ZMod p)) := by
  constructor
  · unfold uIntDiv
    refine complete_hint2 ?_
    rw [val_natCast_small hN, val_natCast_small hnp, if_neg (by omega)]
  · unfold uMod
    refine complete_hint2 ?_
    rw [val_natCast_small hN, val_natCast_small hnp, if_neg (by omega)]

/-- **ReduceMean lane, completeness** for a non-negative biased sum. -/
theorem complete_laneMean {rc : RangeCtx} (hT : IsRangeTable T rc) {nb n : Nat} (hn : 1 ≤ n)
    (hun : RangeUsable p rc nb) (huk : RangeUsable p rc (remainderBits n)) (hnp : n < p) {X : Int}
    (h0 : 0 ≤ X + (n / 2 : Nat)) (hX : X + (n / 2 : Nat) < p) (hm : roundedMean X n < 2 ^ (nb - 1)) :
    Complete T (laneMean rc nb n (X : ZMod p)) (fun out => out = ((roundedMean X n : Int) : ZMod p)) := by
  obtain ⟨N, hN⟩ := Int.eq_ofNat_of_zero_le h0
  have eN : (X : ZMod p) + ((n / 2 : Nat) : ZMod p) = (N : ZMod p) := by
    have : ((X + (n / 2 : Nat) : Int) : ZMod p) = ((N : Int) : ZMod p) := by rw [hN]
    simpa only [Int.cast_add, Int.cast_natCast] using this
  have em : roundedMean X n = ((N / n : Nat) : Int) := by rw [roundedMean_eq, hN]; norm_cast
  rw [em] at hm ⊢
  obtain ⟨cq, cr⟩ := laneHonest (T := T) (p := p) (N := N) (n := n) (by omega) (by omega) hnp
  have hr := Nat.mod_lt N (y := n) (by omega)
  have hk := le_remainderBits n
  unfold laneMean
  dsimp only
  rw [eN]
  refine cq.bind ?_; rintro _ rfl
  refine cr.bind ?_; rintro _ rfl
  refine (Det.assertEq ?_).complete.bind fun _ _ => ?_
  · conv_lhs => rw [← Nat.div_add_mod N n]
    push_cast; ring
  refine (huk.complete hT (k := N % n) (by omega) rfl).bind fun _ _ => ?_
  refine Complete.bind (P := fun _ => True) ?_ fun _ _ => ?_
  · cases hpow : isPow2 n with
    | true => simp only [laneUpper, hpow, if_true]; exact Complete.pure trivial
    | false =>
      simp only [laneUpper, hpow, Bool.false_eq_true, if_false]
      refine huk.complete hT (k := n - 1 - N % n) (by omega) ?_
      rw [Nat.cast_sub (n := n - 1) (by omega)]
  · refine (hun.complete hT (k := N / n + 2 ^ (nb - 1)) ?_ (by push_cast; rfl)).bind fun _ _ =>
      Complete.pure (by rw [Int.cast_natCast])
    have h1 : N / n < 2 ^ (nb - 1) := by exact_mod_cast hm
    have h2 : 2 ^ nb = 2 ^ (nb - 1) * 2 := by
      rw [← pow_succ, show nb - 1 + 1 = nb by have := hun.n_pos; omega]
    omega

/-- **ReduceMean lane, negative sums.** When the biased sum is negative the honest prover divides its
field representative and fails. -/
theorem laneMean_negative {rc : RangeCtx} (hT : IsRangeTable T rc) (hc : 0 < rc.chunk) {nb n : Nat}
    (h2 : 2 ≤ n) {X : Int} (h0 : X + (n / 2 : Nat) < 0) (hnb : 1 ≤ nb)
    (hp : 2 * n * 2 ^ (nb + slackBits rc.chunk nb + 1) - X ≤ p) (Q : ZMod p → Prop) :
    ¬ Complete T (laneMean rc nb n (X : ZMod p)) Q := by
  intro hcomp
  have hpow0 : (0 : Int) < 2 ^ (nb + slackBits rc.chunk nb + 1) := by positivity
  have hnpos : (0 : Int) < n := by omega
  have hbig : (2 : Int) ^ (nb + slackBits rc.chunk nb + 1) * n * 2 ≤ p + X := by linarith
  have hN0 : 0 ≤ (p : Int) + (X + (n / 2 : Nat)) := by
    have : (0 : Int) ≤ 2 ^ (nb + slackBits rc.chunk nb + 1) * n * 2 := by positivity
    omega
  obtain ⟨N, hN⟩ := Int.eq_ofNat_of_zero_le hN0
  have eN : (X : ZMod p) + ((n / 2 : Nat) : ZMod p) = (N : ZMod p) := by
    have : (((p : Int) + (X + (n / 2 : Nat)) : Int) : ZMod p) = ((N : Int) : ZMod p) := by rw [hN]
    simpa only [Int.cast_add, Int.cast_natCast, ZMod.natCast_self, zero_add] using this
  have hNp : N < p := by omega
  have hnp : n < p := by
    have : (n : Int) * 1 ≤ n * 2 ^ (nb + slackBits rc.chunk nb + 1) := by
      apply mul_le_mul_of_nonneg_left _ hnpos.le; omega
    have h3 : (n : Int) < p := by nlinarith
    exact_mod_cast h3
  obtain ⟨cq, cr⟩ := laneHonest (T := T) (p := p) (N := N) (n := n) (by omega) hNp hnp
  -- follow the honest run up to the last range check
  have hfalse : Sound T (rangeCheck rc ((((N / n : Nat) : ZMod p)) + ((2 ^ (nb - 1) : Nat) : ZMod p)) nb)
      (fun _ => False) := by
    refine (sound_rangeCheckInt hT hc _ _).conseq fun _ h => ?_
    obtain ⟨K, ⟨hK1, hK2⟩, eK⟩ := h
    have hq1 : (2 : Int) ^ (nb + slackBits rc.chunk nb + 1) ≤ ((N / n : Nat) : Int) := by
      have : (2 : Nat) ^ (nb + slackBits rc.chunk nb + 1) ≤ N / n := by
        rw [Nat.le_div_iff_mul_le (by omega)]
        have h3 : (2 : Int) ^ (nb + slackBits rc.chunk nb + 1) * n ≤ N := by
          have : (0 : Int) < 2 ^ (nb + slackBits rc.chunk nb + 1) * n := by positivity
          have h4 : (0 : Int) ≤ (n / 2 : Nat) := by positivity
          rw [← hN] ; linarith
        exact_mod_cast h3
      exact_mod_cast this
    have hq2 : 2 * (N / n) ≤ N := by
      have := Nat.div_le_div_left (a := N) h2 (by norm_num)
      omega
    have hle : (2 : Int) ^ nb ≤ 2 ^ (nb + slackBits rc.chunk nb) :=
      pow_le_pow_right₀ (by norm_num) (by omega)
    have hle' : (2 : Int) ^ (nb - 1) ≤ 2 ^ (nb + slackBits rc.chunk nb) :=
      pow_le_pow_right₀ (by norm_num) (by omega)
    have h5 : (2 : Int) ^ (nb + slackBits rc.chunk nb + 1) = 2 ^ (nb + slackBits rc.chunk nb) * 2 := pow_succ _ _
    have hp1 : (0 : Int) < 2 ^ nb := by positivity
    have hp2 : (0 : Int) < 2 ^ (nb - 1) := by positivity
    have h6 : (2 : Int) ^ (nb + slackBits rc.chunk nb + 1) * 2 * 2 ≤ 2 ^ (nb + slackBits rc.chunk nb + 1) * n * 2 := by
      have : (2 : Int) ≤ n := by exact_mod_cast h2
      nlinarith
    have := int_eq_of_cast_eq (p := p) (a := ((N / n : Nat) : Int) + 2 ^ (nb - 1)) (b := K) (by
      rw [← eK]; simp only [Int.cast_add, Int.cast_natCast, Int.cast_pow, Int.cast_ofNat, Nat.cast_pow, Nat.cast_ofNat]) (by rw [abs_lt]; constructor <;> omega)
    omega
  obtain ⟨o, ho, -, hs, -⟩ := hcomp
  have hsucc : Succeeds T (laneMean rc nb n (X : ZMod p)) .honest := ⟨o, ho, hs⟩
  unfold laneMean at hsucc
  dsimp only at hsucc
  rw [eN] at hsucc
  have c1 := hsucc.complete cq
  have c2 := c1.complete cr
  obtain ⟨_, -, -, c3⟩ := c2.unbind
  obtain ⟨_, -, -, c4⟩ := c3.unbind
  obtain ⟨_, -, -, c5⟩ := c4.unbind
  obtain ⟨_, e6, s6, -⟩ := c5.unbind
  exact hfalse _ _ e6 s6

end JST
