import Verif.Gadgets.RangeCheck
import Mathlib.Tactic.Push
import Mathlib.Tactic.LinearCombination
import Mathlib.Data.ZMod.ValMinAbs
import Mathlib.Algebra.Field.ZMod

/-! # Helper lemmas about the range-check gadgets -/

set_option linter.unusedSectionVars false

namespace JST

variable {p : Nat} [Fact p.Prime] {T : Tables (ZMod p)}

/-- How many bits the LogUp range check rounds `n` up to: the distance to the next multiple of the chunk width. -/
def slackBits (chunk n : Nat) : Nat := if n % chunk = 0 then 0 else chunk - n % chunk

theorem recompose_nat (chunk : Nat) (ws : List (ZMod p)) :
    ∀ (i : Nat) (s : ZMod p),
      (∀ w ∈ ws, ∃ k : Nat, k < 2 ^ chunk ∧ w = (k : ZMod p)) →
      ∃ N : Nat, N < 2 ^ (chunk * ws.length) ∧
        recompose chunk i ws s = s + ((N * 2 ^ (chunk * i) : Nat) : ZMod p) := by
  induction ws with
  | nil => intro i s _; exact ⟨0, by simp, by simp [recompose]⟩
  | cons w ws ih =>
    intro i s h
    obtain ⟨k, hk, rfl⟩ := h w (by simp)
    obtain ⟨N, hN, e⟩ := ih (i + 1) (s + (k : ZMod p) * (2 : ZMod p) ^ (chunk * i))
      (fun w' hw' => h w' (by simp [hw']))
    refine ⟨k + 2 ^ chunk * N, ?_, ?_⟩
    · have h1 : 2 ^ (chunk * (ws.length + 1)) = 2 ^ chunk * 2 ^ (chunk * ws.length) := by
        rw [← pow_add]; ring_nf
      have h2 : 2 ^ chunk * (N + 1) ≤ 2 ^ chunk * 2 ^ (chunk * ws.length) :=
        Nat.mul_le_mul_left _ hN
      simp only [List.length_cons]
      rw [h1]
      nlinarith
    · rw [recompose, e]
      push_cast
      have : (2 : ZMod p) ^ (chunk * (i + 1)) = 2 ^ (chunk * i) * 2 ^ chunk := by
        rw [← pow_add]; ring_nf
      rw [this]; ring

theorem sound_queryAll {tid : Nat} (ws : List (ZMod p)) :
    Sound T (queryAll tid ws) (fun _ => ∀ w ∈ ws, T tid [w]) := by
  induction ws with
  | nil => exact Sound.pure (by simp)
  | cons w ws ih =>
    unfold queryAll
    exact Sound.lookup.bind fun _ h => ih.conseq fun _ h' => by
      intro w' hw'
      rcases List.mem_cons.mp hw' with rfl | hw'
      · exact h
      · exact h' _ hw'

theorem det_queryAll {tid : Nat} (ws : List (ZMod p)) (h : ∀ w ∈ ws, T tid [w]) :
    Det T (queryAll tid ws) (fun _ => True) := by
  induction ws with
  | nil => exact Det.pure trivial
  | cons w ws ih =>
    unfold queryAll
    exact (Det.lookup (h w (by simp))).bind fun _ _ => ih fun w' hw' => h w' (by simp [hw'])

theorem chunkDigits_length (m k a : Nat) : (chunkDigits m k a).length = k := by
  induction k generalizing a with
  | zero => rfl
  | succ k ih => simp [chunkDigits, ih]

theorem chunkDigits_lt (m k a : Nat) : ∀ d ∈ chunkDigits m k a, d < 2 ^ m := by
  induction k generalizing a with
  | zero => simp [chunkDigits]
  | succ k ih =>
    intro d hd
    rcases List.mem_cons.mp hd with rfl | hd
    · exact lt_of_le_of_lt (Nat.mod_le _ _) (Nat.mod_lt _ (by positivity))
    · exact ih _ d hd

/-- Recomposing the digits gives back the number. -/
theorem recompose_chunkDigits (m : Nat) (hm : m ≤ 32) (k : Nat) :
    ∀ (a i : Nat) (s : ZMod p), a < 2 ^ (m * k) →
      recompose m i ((chunkDigits m k a).map (fun d => ((d : Nat) : ZMod p))) s
        = s + ((a * 2 ^ (m * i) : Nat) : ZMod p) := by
  induction k with
  | zero => intro a i s ha; simp at ha; simp [chunkDigits, recompose, ha]
  | succ k ih =>
    intro a i s ha
    have hdiv : a / 2 ^ m < 2 ^ (m * k) := by
      rw [Nat.div_lt_iff_lt_mul (by positivity), ← pow_add]
      calc a < _ := ha
        _ = _ := by ring_nf
    have hmod : (a % 2 ^ m) % 2 ^ 32 = a % 2 ^ m :=
      Nat.mod_eq_of_lt (lt_of_lt_of_le (Nat.mod_lt _ (by positivity))
        (Nat.pow_le_pow_right (by norm_num) hm))
    simp only [chunkDigits, List.map_cons, recompose]
    rw [ih _ _ _ hdiv, hmod]
    have e : a = a % 2 ^ m + 2 ^ m * (a / 2 ^ m) := (Nat.mod_add_div a (2 ^ m)).symm
    have e2 : (2 : Nat) ^ (m * (i + 1)) = 2 ^ (m * i) * 2 ^ m := by rw [← pow_add]; ring_nf
    have : ((a * 2 ^ (m * i) : Nat) : ZMod p)
        = ((a % 2 ^ m * 2 ^ (m * i) + a / 2 ^ m * 2 ^ (m * (i + 1)) : Nat) : ZMod p) := by
      congr 1
      rw [e2]
      conv_lhs => rw [e]
      ring
    rw [this]; push_cast; ring

/-- What one padding step does to the value. -/
theorem sound_pad {chunk n : Nat} {a : ZMod p} :
    Sound T (padStep chunk a n)
      (fun newA => newA = a + (((2 ^ (n + slackBits chunk n) - 2 ^ n : Nat) : ZMod p))) := by
  unfold padStep
  by_cases h : n % chunk = 0
  · simp only [h, ne_eq, not_true_eq_false, if_false, slackBits, if_true]
    exact Sound.pure (by simp)
  · simp only [h, ne_eq, not_false_eq_true, if_true, slackBits, if_false]
    unfold addShift
    dsimp only
    split_ifs
    · exact Sound.panicWith
    · exact Sound.panicWith
    · refine Sound.pure ?_
      have : 2 ^ (n + (chunk - n % chunk)) - 2 ^ n = (2 ^ (chunk - n % chunk) - 1) * 2 ^ n := by
        rw [Nat.sub_mul, pow_add]; ring_nf
      rw [this]; push_cast; ring

theorem det_pad {chunk n : Nat} {a : ZMod p} (hc : chunk < 32)
    (hn : n % chunk ≠ 0 → n < 128) :
    Det T (padStep chunk a n)
      (fun newA => newA = a + (((2 ^ (n + slackBits chunk n) - 2 ^ n : Nat) : ZMod p))) := by
  intro hh
  have e : ∃ o, padStep chunk a n hh = .ok o ∧ o.rest = hh ∧ o.cons = .nil := by
    unfold padStep
    by_cases h : n % chunk = 0
    · simp only [h, ne_eq, not_true_eq_false, if_false]
      exact ⟨_, rfl, rfl, rfl⟩
    · simp only [h, ne_eq, not_false_eq_true, if_true]
      unfold addShift
      have h1 : ¬ (chunk - n % chunk ≥ 32) := by omega
      have h2 : ¬ (n ≥ 128) := by have := hn h; omega
      simp only [h1, h2, if_false]
      exact ⟨_, rfl, rfl, rfl⟩
  obtain ⟨o, e1, e2, e3⟩ := e
  have hs : Sat T o.cons := by rw [e3]; exact Sat.nil
  exact ⟨o, e1, e2, hs, sound_pad _ _ e1 hs⟩

theorem padded_mul {chunk n : Nat} (hc : 0 < chunk) :
    chunk * (paddedBits chunk n / chunk) = n + slackBits chunk n := by
  unfold paddedBits
  have := Nat.div_add_mod n chunk
  have hlt := Nat.mod_lt n hc
  by_cases h : n % chunk = 0
  · simp only [h, ne_eq, not_true_eq_false, if_false, slackBits, if_true]
    omega
  · simp only [h, ne_eq, not_false_eq_true, if_true, slackBits, if_false]
    have e : n + (chunk - n % chunk) = chunk * (n / chunk + 1) := by
      rw [Nat.mul_add]; omega
    rw [e, Nat.mul_div_cancel_left _ hc]

/-- The exact set of values the range check accepts (soundness half): the value is congruent to an
integer in `[-(2^(n+slack) - 2^n), 2^n)`. -/
theorem sound_rangeCheck_exact {rc : RangeCtx} (hT : IsRangeTable T rc) (hc : 0 < rc.chunk)
    (a : ZMod p) (n : Nat) :
    Sound T (rangeCheck rc a n) (fun _ => ∃ k : Int,
      -((2 : Int) ^ (n + slackBits rc.chunk n) - 2 ^ n) ≤ k ∧ k < 2 ^ n ∧ a = (k : ZMod p)) := by
  have key : ∀ newA : ZMod p, ∀ N : Nat, N < 2 ^ (n + slackBits rc.chunk n) →
      newA = a + (((2 ^ (n + slackBits rc.chunk n) - 2 ^ n : Nat) : ZMod p)) →
      newA = (N : ZMod p) → ∃ k : Int,
      -((2 : Int) ^ (n + slackBits rc.chunk n) - 2 ^ n) ≤ k ∧ k < 2 ^ n ∧ a = (k : ZMod p) := by
    intro newA N hN h1 h2
    have hle : 2 ^ n ≤ 2 ^ (n + slackBits rc.chunk n) :=
      Nat.pow_le_pow_right (by norm_num) (by omega)
    refine ⟨(N : Int) - ((2 : Int) ^ (n + slackBits rc.chunk n) - 2 ^ n), ?_, ?_, ?_⟩
    · linarith [Int.natCast_nonneg N]
    · have : (N : Int) < 2 ^ (n + slackBits rc.chunk n) := by exact_mod_cast hN
      linarith
    · have h3 := h1.symm.trans h2
      rw [Nat.cast_sub hle] at h3
      push_cast at h3 ⊢
      linear_combination h3
  unfold rangeCheck
  split_ifs with h0 h1
  · exact Sound.throwErr
  · exact Sound.throwErr
  unfold rangeproof
  rw [if_neg h1]
  by_cases h2 : n ≤ rc.chunk
  · rw [if_pos h2]
    unfold rangeproofOneChunk
    split_ifs
    · exact Sound.panicWith
    refine sound_pad.bind fun newA hA => Sound.lookup.conseq fun _ hl => ?_
    obtain ⟨k, hk, hk'⟩ := (hT _).mp hl
    refine key newA k ?_ hA hk'
    have : n + slackBits rc.chunk n = rc.chunk := by
      unfold slackBits
      rcases Nat.lt_or_ge n rc.chunk with h | h
      · rw [Nat.mod_eq_of_lt h]; split_ifs <;> omega
      · have : n = rc.chunk := by omega
        subst this; simp
    rw [this]; exact hk
  · rw [if_neg h2]
    refine sound_pad.bind fun newA hA => ?_
    refine Sound.newHint.bind fun ws hws => ?_
    match ws, hws with
    | [], _ => exact Sound.panicWith
    | w :: ws', hws =>
      refine Sound.assertEq.bind fun _ heq => (sound_queryAll _).conseq fun _ hq => ?_
      have hq' : ∀ w' ∈ w :: ws', ∃ k : Nat, k < 2 ^ rc.chunk ∧ w' = (k : ZMod p) :=
        fun w' hw' => (hT _).mp (hq w' hw')
      obtain ⟨k, hk, hk'⟩ := hq' w (by simp)
      obtain ⟨N, hN, e⟩ := recompose_nat rc.chunk ws' 1 w (fun w' hw' => hq' w' (by simp [hw']))
      refine key newA (k + 2 ^ rc.chunk * N) ?_ hA ?_
      · rw [← padded_mul hc (n := n), ← hws, List.length_cons, Nat.mul_add, pow_add, Nat.mul_one]
        have : 2 ^ rc.chunk * (N + 1) ≤ 2 ^ rc.chunk * 2 ^ (rc.chunk * ws'.length) :=
          Nat.mul_le_mul_left _ hN
        nlinarith
      · rw [← heq, e, hk']; push_cast; ring

/-- The integers whose residues the range check accepts. -/
def AcceptedInt (chunk n : Nat) (k : Int) : Prop :=
  -((2 : Int) ^ (n + slackBits chunk n) - 2 ^ n) ≤ k ∧ k < 2 ^ n

theorem accepted_nat {chunk n : Nat} {k : Int} (h : AcceptedInt chunk n k) :
    ∃ N : Nat, N < 2 ^ (n + slackBits chunk n) ∧
      ∀ {a : ZMod p}, a = (k : ZMod p) →
        a + (((2 ^ (n + slackBits chunk n) - 2 ^ n : Nat) : ZMod p)) = (N : ZMod p) := by
  have hle : 2 ^ n ≤ 2 ^ (n + slackBits chunk n) := Nat.pow_le_pow_right (by norm_num) (by omega)
  obtain ⟨h1, h2⟩ := h
  have h0 : 0 ≤ k + ((2 : Int) ^ (n + slackBits chunk n) - 2 ^ n) := by linarith
  obtain ⟨N, hN⟩ := Int.eq_ofNat_of_zero_le h0
  refine ⟨N, ?_, ?_⟩
  · have : (N : Int) < 2 ^ (n + slackBits chunk n) := by rw [← hN]; linarith
    exact_mod_cast this
  · rintro a rfl
    have : (((N : Int)) : ZMod p) = ((k + ((2 : Int) ^ (n + slackBits chunk n) - 2 ^ n) : Int) : ZMod p) := by
      rw [hN]
    rw [Nat.cast_sub hle]
    push_cast at this ⊢
    exact this.symm

theorem slack_onechunk {chunk n : Nat} (h0 : 0 < n) (h : n ≤ chunk) :
    n + slackBits chunk n = chunk := by
  unfold slackBits
  rcases Nat.lt_or_ge n chunk with h' | h'
  · rw [Nat.mod_eq_of_lt h']; split_ifs <;> omega
  · have : n = chunk := by omega
    subst this; simp

theorem padded_div {chunk n : Nat} (hc : 0 < chunk) :
    paddedBits chunk n = n + slackBits chunk n := by
  unfold paddedBits slackBits; split_ifs <;> omega

/-- The part of the range check after the digits `ws` have been supplied. -/
theorem det_digits {rc : RangeCtx} (hT : IsRangeTable T rc) (hc : rc.chunk ≤ 32) {newA : ZMod p}
    {N m : Nat} (hm : 0 < m) (hN : N < 2 ^ (rc.chunk * m)) (hA : newA = (N : ZMod p)) :
    Det T (match ((chunkDigits rc.chunk m N).map (fun d => ((d : Nat) : ZMod p))) with
      | [] => panicWith "index out of bounds"
      | w :: ws' => do
        assertEq (recompose rc.chunk 1 ws' w) newA
        queryAll rc.tid (w :: ws') : G (ZMod p) Unit) (fun _ => True) := by
  obtain ⟨m, rfl⟩ : ∃ m', m = m' + 1 := ⟨m - 1, by omega⟩
  have e := recompose_chunkDigits (p := p) rc.chunk hc (m + 1) N 0 0 hN
  have hmem := chunkDigits_lt rc.chunk (m + 1) N
  simp only [chunkDigits, List.map_cons, recompose] at e hmem ⊢
  refine (Det.assertEq ?_).bind fun _ _ => det_queryAll _ ?_
  · rw [hA]; simpa using e
  · intro w hw
    rw [hT]
    rw [← List.map_cons, List.mem_map] at hw
    obtain ⟨d, hd, rfl⟩ := hw
    exact ⟨d, hmem d hd, rfl⟩

theorem pow_bits_pos {chunk n : Nat} (hc : 0 < chunk) (hn : chunk < n) :
    0 < paddedBits chunk n / chunk := by
  rw [padded_div hc]
  exact Nat.div_pos (by omega) hc

theorem val_natCast_small {N : Nat} (h : N < p) : ((N : Nat) : ZMod p).val = N := by
  rw [ZMod.val_natCast, Nat.mod_eq_of_lt h]

theorem complete_rangeCheck_accepted {rc : RangeCtx} (hT : IsRangeTable T rc) (hc : 0 < rc.chunk)
    (hc32 : rc.chunk < 32) {a : ZMod p} {n : Nat} (hn : 0 < n) (hn' : n ≤ 128)
    (hn128 : n % rc.chunk ≠ 0 → n < 128) (hp : 2 ^ (n + slackBits rc.chunk n) ≤ p)
    {k : Int} (hk : AcceptedInt rc.chunk n k) (ha : a = (k : ZMod p)) :
    Complete T (rangeCheck rc a n) (fun _ => True) := by
  obtain ⟨N, hN, hNa⟩ := accepted_nat (p := p) hk
  have hNa := hNa ha
  unfold rangeCheck
  rw [if_neg (by omega), if_neg (by omega)]
  unfold rangeproof
  rw [if_neg (by omega)]
  by_cases h2 : n ≤ rc.chunk
  · rw [if_pos h2]
    unfold rangeproofOneChunk
    rw [if_neg (by omega)]
    refine (det_pad hc32 hn128).complete.bind fun newA hA => (Det.lookup ?_).complete
    rw [hT]
    rw [slack_onechunk hn h2] at hN
    exact ⟨N, hN, hA.trans hNa⟩
  · rw [if_neg h2]
    refine (det_pad hc32 hn128).complete.bind fun newA hA => ?_
    have hA' := hA.trans hNa
    have hpb : paddedBits rc.chunk n < p := by
      rw [padded_div hc]; exact lt_of_lt_of_le Nat.lt_two_pow_self hp
    have hcp : rc.chunk < p := by
      have := padded_div (n := n) hc; omega
    have hv : newA.val = N := by rw [hA']; exact val_natCast_small (lt_of_lt_of_le hN hp)
    refine (Complete.newHint (outs := (chunkDigits rc.chunk (paddedBits rc.chunk n / rc.chunk) N).map
      (fun d => ((d : Nat) : ZMod p))) ?_ ?_).bind ?_
    · simp only [rangeproofHint, val_natCast_small hpb, val_natCast_small hcp, hv]
      rw [if_neg (by omega), if_neg (by omega)]
      simp
    · simp [chunkDigits_length]
    · rintro ws rfl
      exact (det_digits hT (by omega) (pow_bits_pos hc (by omega))
        (by rw [padded_mul hc]; exact hN) hA').complete

theorem forge_rangeCheck_accepted {rc : RangeCtx} (hT : IsRangeTable T rc) (hc : 0 < rc.chunk)
    (hc32 : rc.chunk < 32) {a : ZMod p} {n : Nat} (hn : 0 < n) (hn' : n ≤ 128)
    (hn128 : n % rc.chunk ≠ 0 → n < 128)
    {k : Int} (hk : AcceptedInt rc.chunk n k) (ha : a = (k : ZMod p)) :
    Forge T (rangeCheck rc a n) (fun _ => True) := by
  obtain ⟨N, hN, hNa⟩ := accepted_nat (p := p) hk
  have hNa := hNa ha
  unfold rangeCheck
  rw [if_neg (by omega), if_neg (by omega)]
  unfold rangeproof
  rw [if_neg (by omega)]
  by_cases h2 : n ≤ rc.chunk
  · rw [if_pos h2]
    unfold rangeproofOneChunk
    rw [if_neg (by omega)]
    refine (det_pad hc32 hn128).forge.bind (a := (N : ZMod p)) (fun b hb => hb.trans hNa)
      (Det.lookup ?_).forge
    rw [hT]
    rw [slack_onechunk hn h2] at hN
    exact ⟨N, hN, rfl⟩
  · rw [if_neg h2]
    refine (det_pad hc32 hn128).forge.bind (a := (N : ZMod p)) (fun b hb => hb.trans hNa) ?_
    refine (Forge.newHint _ _ ((chunkDigits rc.chunk (paddedBits rc.chunk n / rc.chunk) N).map
      (fun d => ((d : Nat) : ZMod p))) ?_).bind (fun b hb => hb) ?_
    · simp [chunkDigits_length]
    · exact (det_digits hT (by omega) (pow_bits_pos hc (by omega))
        (by rw [padded_mul hc]; exact hN) rfl).forge

/-- When the chunk width divides `n`, exactly the integers in `[0, 2^n)` are accepted. -/
theorem acceptedInt_of_dvd {chunk n : Nat} (h : chunk ∣ n) {k : Int} :
    AcceptedInt chunk n k ↔ 0 ≤ k ∧ k < 2 ^ n := by
  have : n % chunk = 0 := Nat.mod_eq_zero_of_dvd h
  simp [AcceptedInt, slackBits, this]

theorem sound_rangeCheck_dvd {rc : RangeCtx} (hT : IsRangeTable T rc) (hc : 0 < rc.chunk)
    {a : ZMod p} {n : Nat} (hd : rc.chunk ∣ n) :
    Sound T (rangeCheck rc a n) (fun _ => ∃ k : Nat, k < 2 ^ n ∧ a = (k : ZMod p)) := by
  refine (sound_rangeCheck_exact hT hc a n).conseq ?_
  rintro _ ⟨k, h1, h2, h3⟩
  obtain ⟨h0, h2⟩ := (acceptedInt_of_dvd hd).mp ⟨h1, h2⟩
  obtain ⟨K, rfl⟩ := Int.eq_ofNat_of_zero_le h0
  exact ⟨K, by exact_mod_cast h2, by simpa using h3⟩

theorem complete_rangeCheck {rc : RangeCtx} (hT : IsRangeTable T rc) (hc : 0 < rc.chunk)
    (hc32 : rc.chunk < 32) {a : ZMod p} {n : Nat} (hn : 0 < n) (hn' : n ≤ 128)
    (hn128 : n % rc.chunk ≠ 0 → n < 128) (hp : 2 ^ (n + slackBits rc.chunk n) ≤ p)
    {k : Nat} (hk : k < 2 ^ n) (ha : a = (k : ZMod p)) :
    Complete T (rangeCheck rc a n) (fun _ => True) := by
  refine complete_rangeCheck_accepted hT hc hc32 hn hn' hn128 hp (k := (k : Int)) ⟨?_, ?_⟩
    (by simpa using ha)
  · have : (2 : Int) ^ n ≤ 2 ^ (n + slackBits rc.chunk n) :=
      pow_le_pow_right₀ (by norm_num) (by omega)
    linarith [Int.natCast_nonneg k]
  · exact_mod_cast hk

/-! ### Bit decomposition -/

theorem sound_toBitsLoop (k : Nat) (cur : ZMod p) :
    Sound T (toBitsLoop k cur) (fun bs => bs.length = k) := by
  induction k generalizing cur with
  | zero => exact Sound.pure rfl
  | succ k ih =>
    unfold toBitsLoop
    exact Sound.newHint.bind fun b _ => Sound.newHint.bind fun c _ =>
      (ih _).bind fun bs hbs => Sound.pure (by simp [hbs])

theorem sound_reconstructLoop (bs : List (ZMod p)) (i : Nat) (acc : ZMod p) :
    Sound T (reconstructLoop i bs acc) (fun r => ∃ N : Nat, N < 2 ^ bs.length ∧
      r = acc + ((N * 2 ^ i : Nat) : ZMod p)) := by
  induction bs generalizing i acc with
  | nil => exact Sound.pure ⟨0, by simp, by simp⟩
  | cons b bs ih =>
    unfold reconstructLoop
    refine Sound.assertBool.bind fun _ hb => (ih _ _).conseq ?_
    rintro r ⟨N, hN, rfl⟩
    rcases hb with rfl | rfl
    · exact ⟨2 * N, by simp [pow_succ]; omega, by push_cast; ring⟩
    · exact ⟨2 * N + 1, by simp [pow_succ]; omega, by push_cast; ring⟩

theorem complete_toBitsLoop (k : Nat) (N : Nat) (hN : N < p) :
    Complete T (toBitsLoop k (N : ZMod p))
      (fun bs => bs = (chunkDigits 1 k N).map (fun d => ((d : Nat) : ZMod p))) := by
  induction k generalizing N with
  | zero => exact Complete.pure (by simp [chunkDigits])
  | succ k ih =>
    unfold toBitsLoop
    refine (Complete.newHint (outs := [((N % 2 : Nat) : ZMod p)]) ?_ rfl).bind ?_
    · simp [bitAnd1Hint, val_natCast_small hN]
    rintro b rfl
    refine (Complete.newHint (outs := [((N / 2 : Nat) : ZMod p)]) ?_ rfl).bind ?_
    · simp [shiftR1Hint, val_natCast_small hN]
    rintro c rfl
    refine (ih (N / 2) (by omega)).bind ?_
    rintro bs rfl
    refine Complete.pure ?_
    have : N % 2 % 4294967296 = N % 2 := Nat.mod_eq_of_lt (by omega)
    simp [chunkDigits, this]

theorem det_reconstructLoop (k N : Nat) (i : Nat) (acc : ZMod p) (hN : N < 2 ^ k) :
    Det T (reconstructLoop i ((chunkDigits 1 k N).map (fun d => ((d : Nat) : ZMod p))) acc)
      (fun r => r = acc + ((N * 2 ^ i : Nat) : ZMod p)) := by
  induction k generalizing N i acc with
  | zero => simp at hN; exact Det.pure (by simp [hN])
  | succ k ih =>
    have : N % 2 % 4294967296 = N % 2 := Nat.mod_eq_of_lt (by omega)
    simp only [chunkDigits, List.map_cons, reconstructLoop, pow_one]
    refine (Det.assertBool ?_).bind fun _ _ => (ih (N / 2) _ _ (by rw [pow_succ] at hN; omega)).conseq ?_
    · rcases Nat.mod_two_eq_zero_or_one N with h | h <;> simp [h]
    · rintro r rfl
      have e := Nat.mod_add_div N 2
      have h2 : ((N * 2 ^ i : Nat) : ZMod p) = (((N % 2) * 2 ^ i + (N / 2) * 2 ^ (i + 1) : Nat) : ZMod p) := by
        congr 1
        conv_lhs => rw [← e]
        ring
      rw [h2]
      simp only [Nat.reducePow, this]
      push_cast; ring

theorem sound_rangeCheckPow2Unsigned (x : ZMod p) (n : Nat) :
    Sound T (rangeCheckPow2Unsigned x n) (fun _ => x.val < 2 ^ n) := by
  unfold rangeCheckPow2Unsigned
  unfold unconstrainedToBits
  split_ifs with h0 h1 h2
  · intro h o e; cases e
  · intro h o e; cases e
  · intro h o e; cases e
  · refine (sound_toBitsLoop _ _).bind fun bits hb => ?_
    unfold constrainedReconstructFromBits
    split_ifs
    · intro h o e; cases e
    refine (sound_reconstructLoop _ _ _).bind ?_
    rintro r ⟨N, hN, rfl⟩
    refine Sound.assertEq.bind fun _ hx => Sound.pure ?_
    rw [hb] at hN
    have hp : 2 ^ n < p := by omega
    have : x = (N : ZMod p) := by simpa using hx
    rw [this, val_natCast_small (by omega)]
    exact hN

theorem complete_rangeCheckPow2Unsigned {x : ZMod p} {n : Nat} (hn : 0 < n) (hn' : n < 256)
    (hp : 2 ^ n < p / 2) (hx : x.val < 2 ^ n) :
    Complete T (rangeCheckPow2Unsigned x n)
      (fun bits => bits = (chunkDigits 1 n x.val).map (fun d => ((d : Nat) : ZMod p))) := by
  have hxe : x = ((x.val : Nat) : ZMod p) := (ZMod.natCast_zmod_val x).symm
  unfold rangeCheckPow2Unsigned unconstrainedToBits
  rw [if_neg (by omega), if_neg (by omega), if_neg (by omega)]
  refine Complete.bind (P := fun bits => bits = (chunkDigits 1 n x.val).map (fun d => ((d : Nat) : ZMod p))) ?_ ?_
  · conv => arg 2; rw [hxe]
    exact complete_toBitsLoop n x.val (ZMod.val_lt x)
  rintro bits rfl
  unfold constrainedReconstructFromBits
  rw [if_neg (by simp [chunkDigits_length]; omega)]
  refine (det_reconstructLoop n x.val 0 0 hx).complete.bind ?_
  rintro r rfl
  refine (Det.assertEq ?_).complete.bind fun _ _ => Complete.pure rfl
  simp

end JST
