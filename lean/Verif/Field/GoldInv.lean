import Verif.Field.Goldilocks

/-!
# The plus-minus inversion of Goldilocks elements: proofs
-/

namespace JST.Gold

open JST.M31 (addU subU)

theorem ctzAux_spec : ∀ (fuel n : Nat), n ≠ 0 → n < 2 ^ fuel →
    n = 2 ^ ctzAux fuel n * (n >>> ctzAux fuel n) ∧ (n >>> ctzAux fuel n) % 2 = 1
  | 0, n, h0, h => by simp at h; exact absurd h h0
  | fuel + 1, n, h0, h => by
    unfold ctzAux
    split_ifs with h2
    · have h3 : n / 2 ≠ 0 := by omega
      obtain ⟨e, o⟩ := ctzAux_spec fuel (n / 2) h3 (by rw [pow_succ] at h; omega)
      have hs : n >>> (ctzAux fuel (n / 2) + 1) = (n / 2) >>> ctzAux fuel (n / 2) := by
        rw [Nat.add_comm, Nat.shiftRight_add]; rfl
      rw [hs]
      refine ⟨?_, o⟩
      rw [pow_succ, Nat.mul_right_comm, ← e]
      omega
    · simp only [pow_zero, Nat.shiftRight_zero, Nat.one_mul, true_and]
      omega

theorem ctz_spec {n : Nat} (h0 : n ≠ 0) (h : n < 2 ^ 64) :
    n = 2 ^ ctz n * (n >>> ctz n) ∧ (n >>> ctz n) % 2 = 1 := ctzAux_spec 64 n h0 h

theorem ctz_ge_two {n : Nat} (h0 : n ≠ 0) (h : n < 2 ^ 64) (h4 : n % 4 = 0) : 2 ≤ ctz n := by
  obtain ⟨e, o⟩ := ctz_spec h0 h
  generalize ctz n = k at *
  match k, e with
  | 0, e => simp at e o; omega
  | 1, e => generalize n >>> 1 = m at *; simp at e; omega
  | k + 2, _ => omega

/-- The invariant of the inversion: `f` and `g` are odd, coprime `u64`s with
`x * c = f * 2^k` and `x * d = g * 2^k` in the field. -/
structure Good (x : Nat) (s : St) : Prop where
  fodd : s.f % 2 = 1
  godd : s.g % 2 = 1
  copr : Nat.Coprime s.f s.g
  fc : val x * (s.c : ZMod goldP) = val s.f * 2 ^ s.k
  gd : val x * (s.d : ZMod goldP) = val s.g * 2 ^ s.k
  flt : s.f < 2 ^ 64
  glt : s.g < 2 ^ 64
  gne : s.g ≠ 1

theorem swap_good {x : Nat} {s : St} (h : Good x s) (h1 : s.f ≠ 1) :
    Good x (swap s) ∧ (swap s).g < (swap s).f ∧ (swap s).f + (swap s).g = s.f + s.g ∧
      (swap s).k = s.k := by
  have hne : s.f ≠ s.g := by
    intro e
    have := h.copr
    rw [e, Nat.coprime_self] at this
    exact h.gne this
  unfold swap
  split_ifs with hlt
  · exact ⟨⟨h.godd, h.fodd, h.copr.symm, h.gd, h.fc, h.glt, h.flt, h1⟩, hlt,
      Nat.add_comm _ _, rfl⟩
  · exact ⟨h, by omega, rfl, rfl⟩

/-- One combination step, in exact arithmetic. -/
theorem core_good {x f g : Nat} {c d : Int} {k : Nat} (h : Good x ⟨f, g, c, d, k⟩) (hgf : g < f)
    (n f' kk : Nat) (σ : Int) (hσ : σ = 1 ∨ σ = -1) (hn : (n : Int) = f + σ * g)
    (hf' : n = 2 ^ kk * f') (ho : f' % 2 = 1) (hkk : 2 ≤ kk) :
    Good x ⟨f', g, c + σ * d, d * 2 ^ kk, k + kk⟩ ∧ 4 * f' ≤ f + g ∧ f' + g < f + g := by
  obtain ⟨fodd, godd, copr, fc, gd, flt, glt, gne⟩ := h
  simp only at *
  have hnle : n ≤ f + g := by rcases hσ with rfl | rfl <;> omega
  have h4 : 4 * f' ≤ n := by
    obtain ⟨j, rfl⟩ := Nat.exists_eq_add_of_le hkk
    rw [hf', pow_add, Nat.mul_assoc]
    have : 1 ≤ 2 ^ j := Nat.one_le_two_pow
    nlinarith
  have hcop : Nat.Coprime n g := by
    rcases hσ with rfl | rfl
    · have : n = f + g := by omega
      rw [this]; simpa using copr
    · have : n = f - g := by omega
      rw [this]; exact (Nat.coprime_sub_self_left hgf.le).mpr copr
  refine ⟨⟨ho, godd, ?_, ?_, ?_, ?_, glt, gne⟩, by omega, by omega⟩
  · exact Nat.Coprime.coprime_dvd_left ⟨2 ^ kk, by rw [hf', Nat.mul_comm]⟩ hcop
  · have hnz : val n = val f + (σ : ZMod goldP) * val g := by
      have := congrArg (Int.cast (R := ZMod goldP)) hn
      push_cast at this; exact this
    have hfz : val n = 2 ^ kk * val f' := by rw [hf']; push_cast; rfl
    show val x * ((c + σ * d : Int) : ZMod goldP) = val f' * 2 ^ (k + kk)
    push_cast
    rw [pow_add]
    linear_combination fc + (σ : ZMod goldP) * gd - 2 ^ k * hnz + 2 ^ k * hfz
  · show val x * ((d * 2 ^ kk : Int) : ZMod goldP) = val g * 2 ^ (k + kk)
    push_cast
    rw [pow_add]
    linear_combination 2 ^ kk * gd
  · show f' < 2 ^ 64
    omega

theorem and_three (n : Nat) : n &&& 3 = n % 4 := Nat.and_two_pow_sub_one_eq_mod n 2

theorem keep_eq {ck : Int → Bool} {z r : Int} (h : keep ck z = some r) : r = z := by
  unfold keep at h; split_ifs at h; exact (Option.some.inj h).symm

theorem ctzAux_le : ∀ fuel n, ctzAux fuel n ≤ fuel
  | 0, _ => le_rfl
  | fuel + 1, n => by
    unfold ctzAux
    have := ctzAux_le fuel (n / 2)
    split_ifs <;> omega

theorem ctz_le (n : Nat) : ctz n ≤ 64 := ctzAux_le 64 n

/-- What a successful iteration yields, whichever version is run. -/
structure Stepped (x : Nat) (s r : St) : Prop where
  good : Good x r
  quarter : 4 * r.f ≤ s.f + s.g
  gmin : r.g = min s.f s.g
  less : r.f + r.g < s.f + s.g
  shape : ∃ kk, 2 ≤ kk ∧ kk ≤ 66 ∧ r.k = s.k + kk ∧ r.d = (swap s).d * 2 ^ kk ∧
    (r.c = (swap s).c + (swap s).d ∨ r.c = (swap s).c - (swap s).d)

theorem swap_g (s : St) : (swap s).g = min s.f s.g := by
  unfold swap; split_ifs <;> simp <;> omega

theorem step_core {x : Nat} {s : St} (h : Good x s) (h1 : s.f ≠ 1) (n f' kk : Nat) (σ : Int)
    (hσ : σ = 1 ∨ σ = -1) (hn : (n : Int) = (swap s).f + σ * (swap s).g)
    (hf' : n = 2 ^ kk * f') (ho : f' % 2 = 1) (hkk : 2 ≤ kk) (hkk2 : kk ≤ 66) :
    Stepped x s ⟨f', (swap s).g, (swap s).c + σ * (swap s).d, (swap s).d * 2 ^ kk,
      (swap s).k + kk⟩ := by
  obtain ⟨hg, hlt, hsum, hk⟩ := swap_good h h1
  obtain ⟨a, b, c⟩ := core_good (x := x) (f := (swap s).f) (g := (swap s).g) (c := (swap s).c)
    (d := (swap s).d) (k := (swap s).k) hg hlt n f' kk σ hσ hn hf' ho hkk
  refine ⟨a, by simp only; omega, swap_g s, by simp only; omega, kk, hkk, hkk2, by simp only [hk], rfl, ?_⟩
  rcases hσ with rfl | rfl
  · left; simp
  · right; simp only [Int.neg_mul, Int.one_mul]; rfl

theorem safeIter_sound {ck : Int → Bool} {x : Nat} {s r : St} (h : Good x s) (h1 : s.f ≠ 1)
    (hr : safeIter ck s = some r) : Stepped x s r := by
  obtain ⟨hg, hlt, hsum, hk⟩ := swap_good h h1
  have core := @step_core x s h h1
  obtain ⟨fodd, godd, -, -, -, flt, glt, -⟩ := hg
  unfold safeIter at hr
  simp only [and_three] at hr
  generalize swap s = t at *
  split_ifs at hr with hm
  · obtain ⟨c, hc, hr⟩ := Option.bind_eq_some_iff.mp hr
    obtain ⟨d, hd, hr⟩ := Option.bind_eq_some_iff.mp hr
    have hc := keep_eq hc
    have hd := keep_eq hd
    subst hc hd
    have hr := (Option.some.inj hr).symm
    subst hr
    have hn0 : t.f - t.g ≠ 0 := by omega
    have hnl : t.f - t.g < 2 ^ 64 := by omega
    obtain ⟨e, o⟩ := ctz_spec hn0 hnl
    have := core (t.f - t.g) _ (ctz (t.f - t.g)) (-1) (Or.inr rfl) (by omega) e o
      (ctz_ge_two hn0 hnl (by omega)) (by have := ctz_le (t.f - t.g); omega)
    have e2 : t.c + -1 * t.d = t.c - t.d := by ring
    rw [e2] at this
    exact this
  · obtain ⟨f0, hf0, hr⟩ := Option.bind_eq_some_iff.mp hr
    obtain ⟨f1, hf1, hr⟩ := Option.bind_eq_some_iff.mp hr
    obtain ⟨c, hc, hr⟩ := Option.bind_eq_some_iff.mp hr
    obtain ⟨d, hd, hr⟩ := Option.bind_eq_some_iff.mp hr
    have hc := keep_eq hc
    have hd := keep_eq hd
    subst hc hd
    have hr := (Option.some.inj hr).symm
    subst hr
    unfold addU at hf0 hf1
    split_ifs at hf0 with ha0
    split_ifs at hf1 with ha1
    have hf0 := (Option.some.inj hf0).symm
    have hf1 := (Option.some.inj hf1).symm
    subst hf0
    rw [Nat.shiftRight_eq_div_pow, Nat.shiftRight_eq_div_pow] at hf1 ha1
    have hf4 : 4 * f1 = t.f + t.g := by omega
    have hn0 : f1 ≠ 0 := by omega
    have hnl : f1 < 2 ^ 64 := by omega
    obtain ⟨e, o⟩ := ctz_spec hn0 hnl
    have := core (t.f + t.g) (f1 >>> ctz f1) (ctz f1 + 2) 1 (Or.inl rfl) (by push_cast; ring)
      (by rw [← hf4, pow_add, Nat.mul_comm (2 ^ ctz f1), Nat.mul_assoc, ← e]; norm_num) o (by omega)
      (by have := ctz_le f1; omega)
    have e2 : t.c + 1 * t.d = t.c + t.d := by ring
    rw [e2] at this
    exact this

theorem unsafeIter_sound {ck : Int → Bool} {x : Nat} {s r : St} (h : Good x s) (h1 : s.f ≠ 1)
    (hr : unsafeIter ck s = some r) : Stepped x s r := by
  obtain ⟨hg, hlt, hsum, hk⟩ := swap_good h h1
  have core := @step_core x s h h1
  obtain ⟨fodd, godd, -, -, -, flt, glt, -⟩ := hg
  unfold unsafeIter at hr
  simp only [and_three] at hr
  generalize swap s = t at *
  by_cases hm : t.f % 4 = t.g % 4
  · simp only [if_pos hm] at hr
    simp only [Option.bind_some] at hr
    obtain ⟨c, hc, hr⟩ := Option.bind_eq_some_iff.mp hr
    obtain ⟨d, hd, hr⟩ := Option.bind_eq_some_iff.mp hr
    have hc := keep_eq hc
    have hd := keep_eq hd
    subst hc hd
    have hr := (Option.some.inj hr).symm
    subst hr
    have hn0 : t.f - t.g ≠ 0 := by omega
    have hnl : t.f - t.g < 2 ^ 64 := by omega
    obtain ⟨e, o⟩ := ctz_spec hn0 hnl
    have := core (t.f - t.g) _ (ctz (t.f - t.g)) (-1) (Or.inr rfl) (by omega) e o
      (ctz_ge_two hn0 hnl (by omega)) (by have := ctz_le (t.f - t.g); omega)
    have e2 : t.c + -1 * t.d = t.c - t.d := by ring
    rw [e2] at this
    exact this
  · simp only [if_neg hm] at hr
    obtain ⟨f0, hf0, hr⟩ := Option.bind_eq_some_iff.mp hr
    obtain ⟨c, hc, hr⟩ := Option.bind_eq_some_iff.mp hr
    obtain ⟨d, hd, hr⟩ := Option.bind_eq_some_iff.mp hr
    have hc := keep_eq hc
    have hd := keep_eq hd
    subst hc hd
    have hr := (Option.some.inj hr).symm
    subst hr
    unfold addU at hf0
    split_ifs at hf0 with ha0
    have hf0 := (Option.some.inj hf0).symm
    subst hf0
    have hn0 : t.f + t.g ≠ 0 := by omega
    obtain ⟨e, o⟩ := ctz_spec hn0 ha0
    have := core (t.f + t.g) _ (ctz (t.f + t.g)) 1 (Or.inl rfl) (by push_cast; ring) e o
      (ctz_ge_two hn0 ha0 (by omega)) (by have := ctz_le (t.f + t.g); omega)
    have e2 : t.c + 1 * t.d = t.c + t.d := by ring
    rw [e2] at this
    exact this

/-- With unbounded `c` and `d` an iteration always succeeds. -/
theorem safeIter_total {x : Nat} {s : St} (h : Good x s) (h1 : s.f ≠ 1) :
    ∃ r, safeIter (fun _ => true) s = some r := by
  obtain ⟨hg, hlt, hsum, hk⟩ := swap_good h h1
  have hf := hg.flt
  have hgl := hg.glt
  unfold safeIter keep
  simp only
  generalize swap s = t at *
  simp only [Nat.shiftRight_eq_div_pow]
  have a1 : t.f / 2 ^ 2 + t.g / 2 ^ 2 < 2 ^ 64 := by omega
  have a2 : t.f / 2 ^ 2 + t.g / 2 ^ 2 + 1 < 2 ^ 64 := by omega
  split_ifs
  · exact ⟨_, rfl⟩
  · simp only [addU, if_pos a1, Option.bind_some, if_pos a2]
    exact ⟨_, rfl⟩

theorem unsafeIter_total {x : Nat} {s : St} (h : Good x s) (h1 : s.f ≠ 1)
    (hsum64 : s.f + s.g < 2 ^ 64) : ∃ r, unsafeIter (fun _ => true) s = some r := by
  obtain ⟨hg, hlt, hsum, hk⟩ := swap_good h h1
  unfold unsafeIter keep
  simp only
  generalize swap s = t at *
  have a1 : t.f + t.g < 2 ^ 64 := by omega
  split_ifs
  · exact ⟨_, rfl⟩
  · simp only [addU, if_pos a1, Option.bind_some]
    exact ⟨_, rfl⟩

theorem loop_sound {ck : Int → Bool} {x : Nat} : ∀ (fuel : Nat) (s r : St), Good x s →
    loop ck fuel s = some r → Good x r ∧ r.f = 1
  | fuel, s, r, h, hr => by
    unfold loop at hr
    split_ifs at hr with h1
    · have := (Option.some.inj hr).symm
      subst this; exact ⟨h, h1⟩
    · match fuel with
      | 0 => simp at hr
      | fuel + 1 =>
        simp only at hr
        obtain ⟨t, ht, hr⟩ := Option.bind_eq_some_iff.mp hr
        exact loop_sound fuel t r (unsafeIter_sound h h1 ht).good hr

/-- The loop ends within `f + g` iterations, without `u64` overflow. -/
theorem loop_total {x : Nat} : ∀ (fuel : Nat) (s : St), Good x s → s.f + s.g ≤ fuel →
    s.f + s.g < 2 ^ 64 → ∃ r, loop (fun _ => true) fuel s = some r
  | fuel, s, h, hfuel, hlt => by
    unfold loop
    split_ifs with h1
    · exact ⟨s, rfl⟩
    · match fuel with
      | 0 =>
        have := h.fodd
        omega
      | fuel + 1 =>
        obtain ⟨t, ht⟩ := unsafeIter_total h h1 hlt
        have hs := unsafeIter_sound h h1 ht
        have hl := hs.less
        obtain ⟨r, hr⟩ := loop_total fuel t hs.good (by omega) (by omega)
        exact ⟨r, by simp [ht, hr]⟩

theorem shift_inv2 {e : Nat} (he : e ≤ 32) :
    val (MOD - ((MOD - 1) >>> e)) * 2 ^ e = 1 ∧ MOD - ((MOD - 1) >>> e) ≤ MOD := by
  refine ⟨?_, Nat.sub_le _ _⟩
  rw [Nat.shiftRight_eq_div_pow]
  have hdvd : 2 ^ e ∣ MOD - 1 := Dvd.dvd.trans (pow_dvd_pow 2 he) ⟨4294967295, by rw [gMOD_eq]; norm_num⟩
  have hle : (MOD - 1) / 2 ^ e ≤ MOD := le_trans (Nat.div_le_self _ _) (by omega)
  have h1 : val (MOD - (MOD - 1) / 2 ^ e) = - val ((MOD - 1) / 2 ^ e) := by
    rw [val, Nat.cast_sub hle]
    rw [show ((MOD : Nat) : ZMod goldP) = 0 from val_MOD]; simp
  have h2 : val ((MOD - 1) / 2 ^ e) * 2 ^ e = -1 := by
    have : ((MOD - 1) / 2 ^ e * 2 ^ e : Nat) = MOD - 1 := Nat.div_mul_cancel hdvd
    have h3 := congrArg (Nat.cast (R := ZMod goldP)) this
    push_cast at h3
    rw [h3, Nat.cast_sub (by rw [gMOD_eq]; norm_num), show ((MOD : Nat) : ZMod goldP) = 0 from val_MOD]
    simp
  rw [h1, neg_mul, h2, neg_neg]

theorem inv32 : val 0xfffffffe00000002 * 2 ^ 32 = 1 := by
  have := (shift_inv2 (e := 32) le_rfl).1
  exact this

theorem inv2expLoop_spec (E : Nat) : ∀ (fuel res e : Nat), res < 2 ^ 64 → e ≤ fuel → 0 < e →
    val res * 2 ^ (E - e) = 1 → e ≤ E →
    ∃ r e', inv2expLoop fuel res e = some (r, e') ∧ r < 2 ^ 64 ∧ e' ≤ 32 ∧ e' ≤ E ∧
      val r * 2 ^ (E - e') = 1
  | 0, res, e, _, hf, h0, _, _ => by omega
  | fuel + 1, res, e, hr, hf, h0, hv, hE => by
    unfold inv2expLoop
    split_ifs with h
    · obtain ⟨r, er, lr, vr⟩ := mul_spec hr (b := 0xfffffffe00000002) (by norm_num)
      rw [er]
      simp only [Option.bind_some]
      refine inv2expLoop_spec E fuel r (e - 32) lr (by omega) (by omega) ?_ (by omega)
      rw [vr, show E - (e - 32) = (E - e) + 32 by omega, pow_add]
      linear_combination (val 0xfffffffe00000002 * 2 ^ 32) * hv + inv32
    · exact ⟨res, e, rfl, hr, by omega, hE, hv⟩

theorem inv2exp_spec (e : Nat) : ∃ r, inv2exp e = some r ∧ r < 2 ^ 64 ∧ val r * 2 ^ e = 1 := by
  unfold inv2exp
  split_ifs with h
  · obtain ⟨r, e', h1, h2, h3, h4, h5⟩ := inv2expLoop_spec e e 0xfffffffe00000002 (e - 32)
      (by norm_num) (by omega) (by omega) (by rw [show e - (e - 32) = 32 by omega]; exact inv32)
      (by omega)
    obtain ⟨h6, h7⟩ := shift_inv2 h3
    obtain ⟨m, hm, lm, vm⟩ := mul_spec h2 (b := MOD - ((MOD - 1) >>> e'))
      (lt_of_le_of_lt h7 (by rw [gMOD_eq]; norm_num))
    refine ⟨m, by rw [h1]; exact hm, lm, ?_⟩
    rw [vm, show e = (e - e') + e' by omega, pow_add]
    have : (e - e') + e' - e' = e - e' := by omega
    linear_combination (val (MOD - ((MOD - 1) >>> e')) * 2 ^ e') * h5 + h6
  · obtain ⟨h6, h7⟩ := shift_inv2 (e := e) (by omega)
    exact ⟨_, rfl, lt_of_le_of_lt h7 (by rw [gMOD_eq]; norm_num), h6⟩

/-- For the exponents one iteration can reach the result does not exceed the modulus. -/
theorem inv2exp_canon : ∀ k < 132,
    (match inv2exp k with | some v => decide (v ≤ MOD) | none => false) = true := by
  decide +kernel

theorem inv2exp_lt (e : Nat) (he : e ≤ 32) : inv2exp e = some (MOD - ((MOD - 1) >>> e)) := by
  unfold inv2exp; rw [if_neg (by omega)]

theorem raise_spec : ∀ (fuel : Nat) (c : Int), c.natAbs ≤ fuel →
    0 ≤ raiseLoop fuel c ∧ ((raiseLoop fuel c : Int) : ZMod goldP) = c
  | 0, c, h => by
    have : c = 0 := by omega
    subst this; simp [raiseLoop]
  | fuel + 1, c, h => by
    unfold raiseLoop
    split_ifs with hc
    · by_cases hb : (c + MOD).natAbs ≤ fuel
      · obtain ⟨a, b⟩ := raise_spec fuel (c + MOD) hb
        refine ⟨a, ?_⟩
        rw [b]; push_cast; rw [show ((MOD : Nat) : ZMod goldP) = 0 from val_MOD]; simp
      · have hpos : ¬ (c + MOD < 0) := by rw [gMOD_eq] at *; omega
        have : raiseLoop fuel (c + MOD) = c + MOD := by
          cases fuel with
          | zero => rfl
          | succ n => unfold raiseLoop; rw [if_neg hpos]
        rw [this]
        refine ⟨by omega, ?_⟩
        push_cast; rw [show ((MOD : Nat) : ZMod goldP) = 0 from val_MOD]; simp
    · exact ⟨by omega, rfl⟩

theorem lower_spec : ∀ (fuel : Nat) (c : Int), 0 ≤ c → c.natAbs ≤ fuel →
    0 ≤ lowerLoop fuel c ∧ lowerLoop fuel c < MOD ∧ ((lowerLoop fuel c : Int) : ZMod goldP) = c
  | 0, c, h0, h => by
    have : c = 0 := by omega
    subst this
    refine ⟨le_rfl, ?_, rfl⟩
    show (0 : Int) < MOD
    rw [gMOD_eq]; norm_num
  | fuel + 1, c, h0, h => by
    unfold lowerLoop
    split_ifs with hc
    · obtain ⟨a, b, d⟩ := lower_spec fuel (c - MOD) (by omega) (by rw [gMOD_eq] at *; omega)
      refine ⟨a, b, ?_⟩
      rw [d]; push_cast; rw [show ((MOD : Nat) : ZMod goldP) = 0 from val_MOD]; simp
    · exact ⟨h0, by omega, rfl⟩

theorem gold_prime_coprime {n : Nat} (h : val n ≠ 0) : Nat.Coprime n MOD := by
  have hp : Nat.Prime MOD := Fact.out (p := Nat.Prime goldP)
  rw [Nat.coprime_comm, hp.coprime_iff_not_dvd]
  intro hd
  exact h ((ZMod.natCast_eq_zero_iff n goldP).mpr hd)

theorem init_good {x : Nat} (hx : x < 2 ^ 64) (h0 : x ≠ 0) (hp : x ≠ MOD) :
    Good x ⟨x >>> ctz x, MOD, 1, 0, ctz x⟩ := by
  obtain ⟨e, o⟩ := ctz_spec h0 hx
  have hv : val x = 2 ^ ctz x * val (x >>> ctz x) := by
    conv_lhs => rw [e]
    push_cast; rfl
  have hle : x >>> ctz x ≤ x := by rw [Nat.shiftRight_eq_div_pow]; exact Nat.div_le_self _ _
  have hx0 : val x ≠ 0 := by
    intro h
    have := (isZero_iff hx).mpr h
    simp [isZero, h0, hp] at this
  refine ⟨o, (by decide : MOD % 2 = 1), ?_, ?_, ?_, by simp only; omega, by rw [gMOD_eq]; norm_num,
    by rw [gMOD_eq]; norm_num⟩
  · apply gold_prime_coprime
    intro h
    rw [hv, h, mul_zero] at hx0
    exact hx0 rfl
  · show val x * ((1 : Int) : ZMod goldP) = val (x >>> ctz x) * 2 ^ ctz x
    rw [hv]; push_cast; ring
  · show val x * ((0 : Int) : ZMod goldP) = val MOD * 2 ^ ctz x
    rw [val_MOD]; simp

/-- Whenever the computation stays within range, its result is right. -/
theorem tryInverse_sound {ck : Int → Bool} {x : Nat} (hx : x < 2 ^ 64) {r : Option Nat}
    (hr : tryInverse ck x = some r) :
    (val x = 0 ∧ r = none) ∨ (val x ≠ 0 ∧ ∃ v, r = some v ∧ v < 2 ^ 64 ∧ val v * val x = 1) := by
  unfold tryInverse at hr
  dsimp only at hr
  split_ifs at hr with hz h1
  · left
    refine ⟨(isZero_iff hx).mp (by simpa [isZero] using hz), (Option.some.inj hr).symm⟩
  · right
    push Not at hz
    have hg := init_good hx hz.1 hz.2
    have hx0 : val x ≠ 0 := fun h => by
      have := (isZero_iff hx).mpr h
      simp [isZero, hz] at this
    refine ⟨hx0, ?_⟩
    obtain ⟨v, hv, hr⟩ := Option.map_eq_some_iff.mp hr
    obtain ⟨v', e', l', w'⟩ := inv2exp_spec (ctz x)
    rw [hv] at e'
    have := Option.some.inj e'; subst this
    refine ⟨v, hr.symm, l', ?_⟩
    have := hg.fc
    simp only [h1] at this
    have hxk : val x = 2 ^ ctz x := by simpa using this
    rw [hxk]; exact w'
  · right
    push Not at hz
    have hg := init_good hx hz.1 hz.2
    have hx0 : val x ≠ 0 := fun h => by
      have := (isZero_iff hx).mpr h
      simp [isZero, hz] at this
    refine ⟨hx0, ?_⟩
    obtain ⟨s1, hs1, hr⟩ := Option.bind_eq_some_iff.mp hr
    have hst := safeIter_sound hg h1 hs1
    have hg1 := hst.good
    split_ifs at hr with hf1 hc1
    · obtain ⟨r', hr', hr⟩ := Option.bind_eq_some_iff.mp hr
      obtain ⟨v, hv, hr⟩ := Option.map_eq_some_iff.mp hr
      obtain ⟨v', e', l', w'⟩ := inv2exp_spec s1.k
      rw [hr'] at e'
      have := Option.some.inj e'; subst this
      unfold subU at hv
      split_ifs at hv with hle
      have hv := (Option.some.inj hv).symm
      refine ⟨v, hr.symm, by rw [hv]; rw [gMOD_eq] at *; omega, ?_⟩
      have hfc := hg1.fc
      rw [hf1, hc1] at hfc
      push_cast at hfc
      have hvv : val v = - val r' := by
        rw [hv, val, Nat.cast_sub hle, show ((MOD : Nat) : ZMod goldP) = 0 from val_MOD]; simp
      rw [hvv]
      linear_combination w' + val r' * hfc
    · obtain ⟨v, hv, hr⟩ := Option.map_eq_some_iff.mp hr
      obtain ⟨v', e', l', w'⟩ := inv2exp_spec s1.k
      rw [hv] at e'
      have := Option.some.inj e'; subst this
      refine ⟨v, hr.symm, l', ?_⟩
      have hc : s1.c = 1 := by
        obtain ⟨kk, -, -, -, -, hh⟩ := hst.shape
        unfold swap at hh
        split_ifs at hh
        · rcases hh with hh | hh
          · simpa using hh
          · exact absurd (by simpa using hh) hc1
        · rcases hh with hh | hh <;> simpa using hh
      have hfc := hg1.fc
      rw [hf1, hc] at hfc
      push_cast at hfc
      linear_combination w' + val v * hfc
    · obtain ⟨s2, hs2, hr⟩ := Option.bind_eq_some_iff.mp hr
      have hg2 := (safeIter_sound hg1 hf1 hs2).good
      obtain ⟨s3, hs3, hr⟩ := Option.bind_eq_some_iff.mp hr
      obtain ⟨hg3, hf3⟩ := loop_sound _ _ _ hg2 hs3
      obtain ⟨r', hr', hr⟩ := Option.bind_eq_some_iff.mp hr
      obtain ⟨v, hv, hrv⟩ := Option.map_eq_some_iff.mp hr
      obtain ⟨v', e', l', w'⟩ := inv2exp_spec s3.k
      rw [hr'] at e'
      have := Option.some.inj e'; subst this
      obtain ⟨ra, rb⟩ := raise_spec s3.c.natAbs s3.c le_rfl
      obtain ⟨la, lb, lc⟩ := lower_spec _ _ ra le_rfl
      generalize lowerLoop (raiseLoop s3.c.natAbs s3.c).natAbs (raiseLoop s3.c.natAbs s3.c) = cc at *
      rw [rb] at lc
      obtain ⟨m, hm, lm, vm⟩ := mul_spec (a := cc.toNat) (b := r') (by rw [gMOD_eq] at lb; omega) l'
      rw [hv] at hm
      have := Option.some.inj hm; subst this
      refine ⟨v, hrv.symm, lm, ?_⟩
      have hcc : val cc.toNat = (s3.c : ZMod goldP) := by
        rw [← lc]
        have : ((cc.toNat : Int)) = cc := Int.toNat_of_nonneg la
        conv_rhs => rw [← this]
        push_cast; rfl
      rw [vm, hcc]
      have hfc := hg3.fc
      rw [hf3] at hfc
      push_cast at hfc
      linear_combination w' + val r' * hfc

/-- With unbounded `c` and `d` the computation always ends with a result. -/
theorem tryInverse_total {x : Nat} (hx : x < 2 ^ 64) : ∃ r, tryInverse (fun _ => true) x = some r := by
  unfold tryInverse
  dsimp only
  split_ifs with hz h1
  · exact ⟨_, rfl⟩
  · obtain ⟨v, e, -, -⟩ := inv2exp_spec (ctz x)
    exact ⟨_, by rw [e]; rfl⟩
  · push Not at hz
    have hg := init_good hx hz.1 hz.2
    obtain ⟨s1, hs1⟩ := safeIter_total hg h1
    have hst := safeIter_sound hg h1 hs1
    have hg1 := hst.good
    rw [hs1]
    simp only [Option.bind_some]
    obtain ⟨v, e, l, w⟩ := inv2exp_spec s1.k
    split_ifs with hf1 hc1
    · rw [e]
      simp only [Option.bind_some]
      have hle : v ≤ MOD := by
        obtain ⟨kk, -, hk66, hk, -, -⟩ := hst.shape
        have h64 := ctz_le x
        have := inv2exp_canon s1.k (by rw [hk]; simp only; omega)
        rw [e] at this
        simpa using this
      simp only [subU, if_pos hle]
      exact ⟨_, rfl⟩
    · rw [e]; exact ⟨_, rfl⟩
    · obtain ⟨s2, hs2⟩ := safeIter_total hg1 hf1
      have hst2 := safeIter_sound hg1 hf1 hs2
      rw [hs2]
      simp only [Option.bind_some]
      have hq1 := hst.quarter
      have hm1 := hst.gmin
      have hq2 := hst2.quarter
      have hm2 := hst2.gmin
      have hfl := hg.flt
      simp only at hq1 hm1 hfl
      rw [gMOD_eq] at hq1 hm1
      obtain ⟨s3, hs3⟩ := loop_total (s2.f + s2.g) s2 hst2.good le_rfl (by omega)
      rw [hs3]
      simp only [Option.bind_some]
      obtain ⟨v3, e3, l3, w3⟩ := inv2exp_spec s3.k
      rw [e3]
      simp only [Option.bind_some]
      obtain ⟨ra, rb⟩ := raise_spec s3.c.natAbs s3.c le_rfl
      obtain ⟨la, lb, lc⟩ := lower_spec _ _ ra le_rfl
      generalize lowerLoop (raiseLoop s3.c.natAbs s3.c).natAbs (raiseLoop s3.c.natAbs s3.c) = cc at *
      obtain ⟨m, hm, lm, vm⟩ := mul_spec (a := cc.toNat) (b := v3) (by rw [gMOD_eq] at lb; omega) l3
      exact ⟨_, by rw [hm]; rfl⟩

end JST.Gold
