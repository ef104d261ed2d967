import Verif.Props.Gelu
import Verif.Tensor.Erf

/-!
# C86: the Erf layer

The layer compares the claimed result with its own approximation of the error function, but the tolerance is four times
the scale while both are between minus and plus one scale: the comparison excludes nothing.
-/

set_option linter.unusedSectionVars false

namespace JST.Props

open JST.Shape JST.Layers JST.Spec

variable {p : Nat} [Fact p.Prime] {T : Tables (ZMod p)}

theorem clog_times (κ j : Nat) : Nat.clog 2 (2 * (2 ^ j * 2 ^ κ)) = κ + (j + 1) := by
  rw [show 2 * (2 ^ j * 2 ^ κ) = 2 ^ (κ + (j + 1)) by rw [pow_add, pow_succ]; ring]
  exact Nat.clog_pow 2 _ (by norm_num)

/-- Coefficients, scale, field and the input of magnitude `m` fit together. -/
structure ErfFits (p κ : Nat) (c : ErfCoefs) (f : Int → Int) (m : Nat) : Prop where
  pos : c.a1 + c.a3 + c.a5 < 3 * 2 ^ κ
  neg : c.a2 + c.a4 < 2 * 2 ^ κ
  field : 3 * (2 ^ κ) ^ 2 ≤ p
  den : 2 ^ κ + c.p * m < p
  sq : m ^ 2 < p
  rem : (2 ^ κ) ^ 2 % (2 ^ κ + c.p * m / 2 ^ κ) < 2 * 2 ^ κ
  dom : m ^ 2 / 2 ^ κ ≤ 2 ^ (lookupBits κ - 1)
  exp : expVal f κ (-((m ^ 2 / 2 ^ κ : Nat) : Int)) ≤ (2 ^ κ) ^ 2

section
variable {hint : List (ZMod p) → Except Err (List (ZMod p))} {f : Int → Int} {rc : RangeCtx} {th tl κ nb : Nat}
  {c : ErfCoefs}

/-- A product of something with at most one scale, divided by the scale. -/
theorem scaled_le {a b s : Nat} (hs : 0 < s) (hb : b ≤ s) : a * b / s ≤ a :=
  Nat.div_le_of_le_mul (by rw [mul_comm s]; exact Nat.mul_le_mul_left _ hb)

set_option maxHeartbeats 1600000 in
theorem complete_erfCheck (h : ExpSetting p T (expCtx f rc th tl κ)) (hκ : κ < 32)
    (h1 : RangeUsable p rc (lookupBits κ / 2)) (h2 : RangeUsable p rc (κ + 1)) (h3 : RangeUsable p rc κ)
    (h4 : RangeUsable p rc nb) (h5 : RangeUsable p rc (nb + 1)) (h6 : RangeUsable p rc (κ + 2))
    (h7 : RangeUsable p rc (κ + 3)) (hnb : κ < nb) {u : Int} (hu : u.natAbs < 2 ^ nb) (hu1 : u.natAbs < 2 ^ 63)
    (hu2 : 2 * u.natAbs < p) (hf : ErfFits p κ c f u.natAbs) {Y : Int} (hY : |Y| ≤ 2 ^ κ) :
    Complete T (erfCheck (expCtx f rc th tl κ) κ nb c (u : ZMod p) (Y : ZMod p)) (fun w => w = (Y : ZMod p)) := by
  obtain ⟨f1, f2, f3, f4, f5, f6, f7, f8⟩ := hf
  have hα0 : 0 < 2 ^ κ := by positivity
  have hmod : ∀ N : Nat, N % 2 ^ κ < 2 ^ κ := fun N => Nat.mod_lt _ hα0
  have ekn : (2 : Nat) ^ κ < 2 ^ nb := Nat.pow_lt_pow_right (by norm_num) hnb
  have e1 : (2 : Nat) ^ (κ + 1) = 2 * 2 ^ κ := by rw [pow_succ]; ring
  have c2 : Nat.clog 2 (2 * (2 * 2 ^ κ)) = κ + 2 := clog_times κ 1
  have c4 : Nat.clog 2 (2 * (4 * 2 ^ κ)) = κ + 3 := clog_times κ 2
  have E2 : (2 : Int) ^ (κ + 2) = 4 * 2 ^ κ := by rw [pow_add]; ring
  have E3 : (2 : Int) ^ (κ + 3) = 8 * 2 ^ κ := by rw [pow_add]; ring
  have EN : (2 : Int) ^ (nb + 1) = 2 * 2 ^ nb := by rw [pow_succ]; ring
  have EK : (2 : Int) ^ κ < 2 ^ nb := by exact_mod_cast ekn
  obtain ⟨y1, y2⟩ := abs_le.1 hY
  unfold erfCheck
  have esc : (expCtx f rc th tl κ).scale = 2 ^ κ := rfl
  have erc : (expCtx f rc th tl κ).rc = rc := rfl
  rw [esc, erc, c2, c4]
  generalize hm : u.natAbs = m at *
  -- the absolute value
  have hfu : fieldToI64 (u : ZMod p) = u := fieldToI64_cast u (by omega) (by omega)
  refine Complete.bind (Complete.newHint (outs := [((m : Nat) : ZMod p), if 0 ≤ u then 1 else 0])
    (by simp only [erfAbsHint, hfu, hm]) rfl) ?_
  rintro _ rfl
  simp only [List.headD_cons, List.tail_cons]
  obtain ⟨s, hs1, hs⟩ : ∃ s : Int, (s = 1 ∨ s = -1) ∧ s * m = u := by
    by_cases h0 : 0 ≤ u
    · exact ⟨1, .inl rfl, by omega⟩
    · exact ⟨-1, .inr rfl, by omega⟩
  have hsign : (if 0 ≤ u then (1 : ZMod p) else 0) + (if 0 ≤ u then (1 : ZMod p) else 0) - 1 = (s : ZMod p) ∨ m = 0 := by
    by_cases hm0 : m = 0
    · exact .inr hm0
    left
    split_ifs with h0
    · have : s = 1 := by rcases hs1 with rfl | rfl <;> omega
      rw [this]; norm_num
    · have : s = -1 := by rcases hs1 with rfl | rfl <;> omega
      rw [this]; norm_num
  obtain ⟨s, hs1, hs, hsign⟩ : ∃ s : Int, (s = 1 ∨ s = -1) ∧ s * m = u ∧
      (if 0 ≤ u then (1 : ZMod p) else 0) + (if 0 ≤ u then (1 : ZMod p) else 0) - 1 = (s : ZMod p) := by
    rcases hsign with hsign | hm0
    · exact ⟨s, hs1, hs, hsign⟩
    · refine ⟨1, .inl rfl, by omega, ?_⟩
      rw [if_pos (by omega)]; norm_num
  rw [hsign]
  refine Complete.bind (Det.assertBool (by split_ifs <;> simp)).complete fun _ _ => ?_
  refine Complete.bind (Det.assertEq (by rw [← hs]; push_cast; ring)).complete fun _ _ => ?_
  refine Complete.bind (h4.complete h.range hu rfl) fun _ _ => ?_
  -- the denominator and `t`
  have hα : 2 ^ κ < p := by nlinarith
  have hps : c.p * m / 2 ^ κ ≤ c.p * m := Nat.div_le_self _ _
  refine Complete.bind (complete_divRem h.range (N := c.p * m) (by omega) hα hα0 h3 (hmod _)
    (by push_cast; ring) rfl) ?_
  rintro _ rfl
  generalize c.p * m / 2 ^ κ = ps at *
  have hD : ((2 ^ κ : Nat) : ZMod p) + (ps : ZMod p) = ((2 ^ κ + ps : Nat) : ZMod p) := by push_cast; ring
  rw [hD]
  refine Complete.bind (complete_divRem h.range (N := (2 ^ κ) ^ 2) (by nlinarith) (by omega) (by omega) h2
    (by rw [e1]; exact f6) (by push_cast; ring) rfl) ?_
  rintro _ rfl
  have hdm := Nat.div_add_mod ((2 ^ κ) ^ 2) (2 ^ κ + ps)
  have ht : (2 ^ κ) ^ 2 / (2 ^ κ + ps) ≤ 2 ^ κ := by
    refine Nat.div_le_of_le_mul ?_
    rw [pow_two]; exact Nat.mul_le_mul_right _ (by omega)
  generalize (2 ^ κ) ^ 2 / (2 ^ κ + ps) = t at *
  generalize hr : (2 ^ κ) ^ 2 % (2 ^ κ + ps) = r at *
  refine Complete.bind (h4.complete h.range (k := t) (by omega) rfl) fun _ _ => ?_
  have hdz : ((t : Nat) : ZMod p) * ((2 ^ κ + ps : Nat) : ZMod p) - ((2 ^ κ * 2 ^ κ : Nat) : ZMod p) = -((r : Nat) : ZMod p) := by
    have := congrArg (Nat.cast (R := ZMod p)) hdm
    push_cast at this ⊢
    linear_combination this
  rw [hdz]
  have f6' : (r : Int) < 2 * 2 ^ κ := by exact_mod_cast f6
  have hr0 : (0 : Int) ≤ r := Int.natCast_nonneg r
  refine Complete.bind (h6.completeInt h.range (k := 2 * 2 ^ κ - r) (by linarith)
    (by rw [E2]; linarith [show (0 : Int) < 2 ^ κ by positivity]) (by push_cast; ring)) fun _ _ => ?_
  refine Complete.bind (h6.completeInt h.range (k := 2 * 2 ^ κ + r) (by linarith)
    (by rw [E2]; linarith) (by push_cast; ring)) fun _ _ => ?_
  -- the polynomial
  have hsq : ∀ a b : Nat, a ≤ 3 * 2 ^ κ → b ≤ 2 ^ κ → a * b ≤ 3 * (2 ^ κ) ^ 2 := fun a b ha hb =>
    le_trans (Nat.mul_le_mul ha hb) (by rw [pow_two]; exact le_of_eq (by ring))
  have hlt : ∀ a b : Nat, a < 3 * 2 ^ κ → b ≤ 2 ^ κ → a * b < p := fun a b ha hb =>
    lt_of_lt_of_le (lt_of_le_of_lt (Nat.mul_le_mul_left _ hb) (by
      have := (Nat.mul_lt_mul_right hα0).2 ha
      rwa [show 3 * 2 ^ κ * 2 ^ κ = 3 * (2 ^ κ) ^ 2 by ring] at this)) f3
  refine Complete.bind (complete_divRem h.range (N := t * t) (hlt _ _ (by omega) ht) hα hα0 h3 (hmod _)
    (by push_cast; ring) rfl) ?_
  rintro _ rfl
  have hts : t * t / 2 ^ κ ≤ 2 ^ κ := le_trans (scaled_le hα0 ht) ht
  generalize t * t / 2 ^ κ = ts at *
  refine Complete.bind (complete_divRem h.range (N := c.a5 * ts) (hlt _ _ (by omega) hts) hα hα0 h3 (hmod _)
    (by push_cast; ring) rfl) ?_
  rintro _ rfl
  have k5 := scaled_le (a := c.a5) hα0 hts
  generalize c.a5 * ts / 2 ^ κ = a5t at *
  refine Complete.bind (complete_divRem h.range (N := (c.a3 + a5t) * ts) (hlt _ _ (by omega) hts) hα hα0 h3 (hmod _)
    (by push_cast; ring) rfl) ?_
  rintro _ rfl
  have k3 := scaled_le (a := c.a3 + a5t) hα0 hts
  generalize (c.a3 + a5t) * ts / 2 ^ κ = pi2 at *
  refine Complete.bind (complete_divRem h.range (N := (c.a1 + pi2) * t) (hlt _ _ (by omega) ht) hα hα0 h3 (hmod _)
    (by push_cast; ring) rfl) ?_
  rintro _ rfl
  have k1 := scaled_le (a := c.a1 + pi2) hα0 ht
  generalize (c.a1 + pi2) * t / 2 ^ κ = pos at *
  refine Complete.bind (complete_divRem h.range (N := c.a4 * ts) (hlt _ _ (by omega) hts) hα hα0 h3 (hmod _)
    (by push_cast; ring) rfl) ?_
  rintro _ rfl
  have k4 := scaled_le (a := c.a4) hα0 hts
  generalize c.a4 * ts / 2 ^ κ = a4t at *
  refine Complete.bind (complete_divRem h.range (N := (c.a2 + a4t) * ts) (hlt _ _ (by omega) hts) hα hα0 h3 (hmod _)
    (by push_cast; ring) rfl) ?_
  rintro _ rfl
  have k2 := scaled_le (a := c.a2 + a4t) hα0 hts
  generalize (c.a2 + a4t) * ts / 2 ^ κ = neg at *
  -- the exponential
  refine Complete.bind (complete_divRem h.range (N := m ^ 2) f5 hα hα0 h3 (hmod _)
    (by push_cast; ring) rfl) ?_
  rintro _ rfl
  generalize m ^ 2 / 2 ^ κ = xs at *
  have hneg : (0 : ZMod p) - ((xs : Nat) : ZMod p) = ((-((xs : Nat) : Int) : Int) : ZMod p) := by push_cast; ring
  rw [hneg]
  have f3' : 3 * ((2 : Int) ^ κ) ^ 2 ≤ p := by exact_mod_cast f3
  have hA : (0 : Int) < 2 ^ κ := by positivity
  refine Complete.bind (complete_expInt h (by omega) hα h1 h2
    ⟨by have : ((xs : Nat) : Int) ≤ 2 ^ (lookupBits κ - 1) := by exact_mod_cast f7
        linarith, lt_of_le_of_lt (by omega : -((xs : Nat) : Int) ≤ 0) (by positivity)⟩ (by nlinarith)) ?_
  rintro _ rfl
  obtain ⟨E, hE⟩ : ∃ E : Nat, (E : Int) = expVal f κ (-((xs : Nat) : Int)) / 2 ^ κ :=
    ⟨_, Int.toNat_of_nonneg (Int.ediv_nonneg (mul_nonneg (h.nonneg _) (h.nonneg _)) hA.le)⟩
  have hE1 : E ≤ 2 ^ κ := by
    have : (E : Int) ≤ 2 ^ κ := by
      rw [hE]
      refine Int.ediv_le_of_le_mul hA ?_
      rw [← pow_two]; exact f8
    exact_mod_cast this
  rw [← hE, Int.cast_natCast]
  refine Complete.bind (complete_divRem h.range (N := pos * E) (hlt _ _ (by omega) hE1) hα hα0 h3 (hmod _)
    (by push_cast; ring) rfl) ?_
  rintro _ rfl
  have kp := scaled_le (a := pos) hα0 hE1
  generalize pos * E / 2 ^ κ = pe at *
  refine Complete.bind (complete_divRem h.range (N := neg * E) (hlt _ _ (by omega) hE1) hα hα0 h3 (hmod _)
    (by push_cast; ring) rfl) ?_
  rintro _ rfl
  have kn := scaled_le (a := neg) hα0 hE1
  generalize neg * E / 2 ^ κ = ne at *
  -- the comparison
  have b1 : (pe : Int) < 3 * 2 ^ κ := by
    have : pe < 3 * 2 ^ κ := by omega
    exact_mod_cast this
  have b2 : (ne : Int) < 2 * 2 ^ κ := by
    have : ne < 2 * 2 ^ κ := by omega
    exact_mod_cast this
  have b3 : (0 : Int) ≤ pe := Int.natCast_nonneg pe
  have b4 : (0 : Int) ≤ ne := Int.natCast_nonneg ne
  have hd : |Y - s * (2 ^ κ - pe + ne)| < 4 * 2 ^ κ := by
    rw [abs_lt]
    rcases hs1 with rfl | rfl <;> constructor <;> linarith
  obtain ⟨d1, d2⟩ := abs_lt.1 hd
  refine Complete.bind (h7.completeInt h.range (k := Y - s * (2 ^ κ - pe + ne) + 4 * 2 ^ κ) (by linarith)
    (by rw [E3]; linarith) (by push_cast; ring)) fun _ _ => ?_
  refine Complete.bind (h7.completeInt h.range (k := 8 * 2 ^ κ - (Y - s * (2 ^ κ - pe + ne) + 4 * 2 ^ κ)) (by linarith)
    (by rw [E3]; linarith) (by push_cast; ring)) fun _ _ => ?_
  refine Complete.bind (h5.completeInt h.range (k := Y + 2 ^ κ) (by linarith) (by rw [EN]; linarith)
    (by push_cast; ring)) fun _ _ => ?_
  refine Complete.bind (h5.completeInt h.range (k := 2 ^ κ - Y) (by linarith) (by rw [EN]; linarith)
    (by push_cast; ring)) fun _ _ => Complete.pure rfl

theorem replay_erfCheck (e : ExpCtx) (x y : ZMod p) : Replay (erfCheck e κ nb c x y) := by
  unfold erfCheck
  exact Replay.newHint.bind fun _ => Replay.assertBool.bind fun _ => Replay.assertEq.bind fun _ =>
    (Replay.rangeCheck _ _ _).bind fun _ => (replay_divRem _ _ _ _).bind fun _ => (replay_divRem _ _ _ _).bind fun _ =>
    (Replay.rangeCheck _ _ _).bind fun _ => (Replay.rangeCheck _ _ _).bind fun _ => (Replay.rangeCheck _ _ _).bind fun _ =>
    (replay_divRem _ _ _ _).bind fun _ => (replay_divRem _ _ _ _).bind fun _ => (replay_divRem _ _ _ _).bind fun _ =>
    (replay_divRem _ _ _ _).bind fun _ => (replay_divRem _ _ _ _).bind fun _ => (replay_divRem _ _ _ _).bind fun _ =>
    (replay_divRem _ _ _ _).bind fun _ => (replay_verifyExp _ _).bind fun _ => (replay_divRem _ _ _ _).bind fun _ =>
    (replay_divRem _ _ _ _).bind fun _ => (Replay.rangeCheck _ _ _).bind fun _ => (Replay.rangeCheck _ _ _).bind fun _ =>
    (Replay.rangeCheck _ _ _).bind fun _ => (Replay.rangeCheck _ _ _).bind fun _ => Replay.pure

/-- What the widths have to be for the range checks of the layer to be callable. -/
structure ErfWidths (p : Nat) (rc : RangeCtx) (κ nb : Nat) : Prop where
  chunk : RangeUsable p rc (lookupBits κ / 2)
  one : RangeUsable p rc (κ + 1)
  zero : RangeUsable p rc κ
  value : RangeUsable p rc nb
  value1 : RangeUsable p rc (nb + 1)
  two : RangeUsable p rc (κ + 2)
  three : RangeUsable p rc (κ + 3)
  room : κ < nb

/-- **C86 is false of the code: every output is accepted.** For every input tensor in the domain of the layer and every
choice of results between minus one and one there is an accepted proof. -/
theorem C86_erf_any_output (h : ExpSetting p T (expCtx f rc th tl κ)) (hκ : κ < 32) (hw : ErfWidths p rc κ nb)
    (x : Arr Int) (hx : x.WF)
    (hu : ∀ u ∈ x.data, u.natAbs < 2 ^ nb ∧ u.natAbs < 2 ^ 63 ∧ 2 * u.natAbs < p ∧ ErfFits p κ c f u.natAbs)
    (Y : Int → Int) (hY : ∀ u ∈ x.data, |Y u| ≤ 2 ^ κ) :
    Forge T (erfLayer hint f rc th tl κ nb c (castArr p x)) (IsUnary x fun u w => w = (Y u : ZMod p)) := by
  unfold erfLayer
  rw [if_neg (by omega)]
  refine forge_mapLayer hx fun u hm => ?_
  obtain ⟨u1, u2, u3, u4⟩ := hu u hm
  unfold erfElem
  refine (Forge.newHint _ _ [(Y u : ZMod p)] rfl).bind (fun _ h => h) ?_
  exact (complete_erfCheck h hκ hw.chunk hw.one hw.zero hw.value hw.value1 hw.two hw.three hw.room u1 u2 u3 u4
    (hY u hm)).forge (replay_erfCheck _ _ _)

/-- **C86, completeness.** The honest prover succeeds on every input in the domain of the layer, with any hint whose
values are between minus one and one. -/
theorem C86_erf_complete (h : ExpSetting p T (expCtx f rc th tl κ)) (hκ : κ < 32) (hw : ErfWidths p rc κ nb)
    (x : Arr Int) (hx : x.WF)
    (hu : ∀ u ∈ x.data, u.natAbs < 2 ^ nb ∧ u.natAbs < 2 ^ 63 ∧ 2 * u.natAbs < p ∧ ErfFits p κ c f u.natAbs)
    (Y : Int → Int) (hY : ∀ u ∈ x.data, |Y u| ≤ 2 ^ κ ∧
      hint [(u : ZMod p), ((2 ^ κ : Nat) : ZMod p)] = .ok [((Y u : Int) : ZMod p)]) :
    Complete T (erfLayer hint f rc th tl κ nb c (castArr p x)) (IsUnary x fun u w => w = (Y u : ZMod p)) := by
  unfold erfLayer
  rw [if_neg (by omega)]
  refine complete_mapLayer hx fun u hm => ?_
  obtain ⟨u1, u2, u3, u4⟩ := hu u hm
  unfold erfElem
  refine Complete.bind (Complete.newHint (hY u hm).2 rfl) ?_
  rintro _ rfl
  exact complete_erfCheck h hκ hw.chunk hw.one hw.zero hw.value hw.value1 hw.two hw.three hw.room u1 u2 u3 u4
    (hY u hm).1

/-! ### What is checked -/

theorem sound_true {α : Type} {g : G (ZMod p) α} : Sound T g (fun _ => True) := fun _ _ _ _ => trivial

/-- The value whose absolute value was range-checked. -/
theorem abs_checked {chunk n : Nat} {u m : Int} {a b : ZMod p} (hp : |u| + reach chunk n < p) (hb : b = 0 ∨ b = 1)
    (he : (b + b - 1) * a = (u : ZMod p)) (hm : AcceptedInt chunk n m) (em : a = (m : ZMod p)) : m ^ 2 = u ^ 2 := by
  rw [em] at he
  have hma := accepted_abs hm
  rcases hb with hb | hb <;> rw [hb] at he
  · have : ((-m : Int) : ZMod p) = (u : ZMod p) := by rw [← he]; push_cast; ring
    have := int_eq_of_cast_eq (p := p) this (by
      have := abs_sub (-m) u
      rw [abs_neg] at this
      linarith)
    rw [← this]; ring
  · have : ((m : Int) : ZMod p) = (u : ZMod p) := by rw [← he]; push_cast; ring
    have := int_eq_of_cast_eq (p := p) this (by linarith [abs_sub m u])
    rw [this]

/-- **C86, what remains.** Accepted results are between minus one and one, up to the slack of the range checks (none if
the digit width divides the checked width). -/
theorem C86_erf_bounds_partial (h : ExpSetting p T (expCtx f rc th tl κ)) (x : Arr Int) (hx : x.WF)
    (hp : 2 * reach rc.chunk (nb + 1) + 2 * 2 ^ κ < p) :
    Sound T (erfLayer hint f rc th tl κ nb c (castArr p x)) (IsUnary x fun _ w => ∃ Y : Int, w = (Y : ZMod p) ∧
      -2 ^ κ - (reach rc.chunk (nb + 1) - 2 ^ (nb + 1)) ≤ Y ∧ Y ≤ 2 ^ κ + (reach rc.chunk (nb + 1) - 2 ^ (nb + 1))) := by
  unfold erfLayer
  split_ifs with hκ
  · exact Sound.throwErr
  refine sound_mapLayer hx fun u hm => ?_
  unfold erfElem
  refine Sound.bind sound_true fun out _ => ?_
  generalize out.headD 0 = y
  unfold erfCheck
  iterate 4 refine Sound.bind sound_true fun _ _ => ?_
  iterate 5 refine Sound.bind sound_true fun _ _ => ?_
  iterate 8 refine Sound.bind sound_true fun _ _ => ?_
  iterate 4 refine Sound.bind sound_true fun _ _ => ?_
  have esc : (((expCtx f rc th tl κ).scale : Nat) : ZMod p) = ((2 ^ κ : Int) : ZMod p) := by simp [expCtx]
  rw [esc]
  refine Sound.bind (sound_rangeCheckInt h.range h.chunk_pos _ _) ?_
  rintro _ ⟨V, hV, eV⟩
  have hy : y = ((V - 2 ^ κ : Int) : ZMod p) := by rw [Int.cast_sub, ← eV]; ring
  refine Sound.bind (sound_rangeCheckInt h.range h.chunk_pos _ _) ?_
  rintro _ ⟨Z, hZ, eZ⟩
  have hVa := accepted_abs hV
  have hZa := accepted_abs hZ
  simp only [expCtx] at hVa hZa hV hZ
  have hVZ : 2 * 2 ^ κ - V = Z := int_eq_of_cast_eq (p := p) (by rw [← eZ, hy]; push_cast; ring) (by
    have h1 := abs_sub (2 * 2 ^ κ - V) Z
    have h2 := abs_sub (2 * 2 ^ κ) V
    rw [abs_of_nonneg (by positivity : (0 : Int) ≤ 2 * 2 ^ κ)] at h2
    linarith)
  have v1 := accepted_iff.1 hV
  have v2 := accepted_iff.1 hZ
  exact Sound.pure ⟨V - 2 ^ κ, hy, by linarith [v1.1], by linarith [v2.1]⟩

/-- **Findings on C86: large inputs have no proof.** When the square of an input is beyond the domain of the
exponential look-up (from about 5.7 on at the usual scale), no prover has a proof, although the result rounds to one. -/
theorem C86_erf_unprovable (h : ExpSetting p T (expCtx f rc th tl κ)) (x : Arr Int) {u : Int} (hm : u ∈ x.data)
    (hp1 : |u| + reach rc.chunk nb < p)
    (hp2 : u ^ 2 + 2 ^ κ * 2 ^ (lookupBits κ - 1) + reach rc.chunk κ < p)
    (hbig : 2 ^ κ * 2 ^ (lookupBits κ - 1) + reach rc.chunk κ ≤ u ^ 2) :
    Sound T (erfLayer hint f rc th tl κ nb c (castArr p x)) (fun _ => False) := by
  unfold erfLayer
  split_ifs with hκ
  · exact Sound.throwErr
  rw [mapLayer_eq]
  refine Sound.bind (sound_collectG_false _ ⟨u, hm, ?_⟩) fun _ h => h.elim
  unfold erfElem
  refine Sound.bind sound_true fun out _ => ?_
  generalize out.headD 0 = y
  unfold erfCheck
  refine Sound.bind sound_true fun ab _ => ?_
  refine Sound.bind Sound.assertBool fun _ hb => ?_
  refine Sound.bind Sound.assertEq fun _ he => ?_
  refine Sound.bind (sound_rangeCheckInt h.range h.chunk_pos _ _) ?_
  rintro _ ⟨m, hma, em⟩
  have hmu := abs_checked hp1 hb he hma em
  iterate 5 refine Sound.bind sound_true fun _ _ => ?_
  iterate 6 refine Sound.bind sound_true fun _ _ => ?_
  have esc : (((expCtx f rc th tl κ).scale : Nat) : ZMod p) = ((2 ^ κ : Int) : ZMod p) := by simp [expCtx]
  rw [esc]
  refine Sound.bind (P := fun q => ∃ r : Int, |r| < reach rc.chunk κ ∧
      q * ((2 ^ κ : Int) : ZMod p) + (r : ZMod p) = ((m ^ 2 : Int) : ZMod p)) ?_ ?_
  · unfold divRem
    refine Sound.bind sound_true fun q _ => ?_
    refine Sound.bind sound_true fun r _ => ?_
    refine Sound.bind Sound.assertEq fun _ he => ?_
    refine Sound.bind (sound_rangeCheckInt h.range h.chunk_pos _ _) ?_
    rintro _ ⟨k, hk, rfl⟩
    exact Sound.pure ⟨k, accepted_abs hk, by rw [he, em]; push_cast; ring⟩
  rintro q ⟨r, hr, hq⟩
  refine Sound.bind (P := fun _ => False) ((C43_exp_sound_partial h _).conseq ?_) fun _ h => h.elim
  rintro _ ⟨X, x1, x2, ex, -⟩
  change -2 ^ (lookupBits κ - 1) ≤ X at x1
  change X < 2 ^ (lookupBits κ - 1) at x2
  have hqX : q = ((-X : Int) : ZMod p) := by rw [Int.cast_neg, ← ex]; ring
  rw [hqX, hmu, ← Int.cast_mul, ← Int.cast_add] at hq
  have hpos : (0 : Int) < 2 ^ κ := by positivity
  have hX : |-X * 2 ^ κ| ≤ 2 ^ κ * 2 ^ (lookupBits κ - 1) := by
    rw [abs_mul, abs_neg, abs_of_pos hpos, mul_comm]
    exact mul_le_mul_of_nonneg_left (abs_le.2 ⟨x1, x2.le⟩) hpos.le
  have e := int_eq_of_cast_eq (p := p) hq (by
    have a1 := abs_sub (-X * 2 ^ κ + r) (u ^ 2)
    have a2 := abs_add_le (-X * 2 ^ κ) r
    rw [abs_of_nonneg (sq_nonneg u)] at a1
    linarith)
  have := (abs_le.1 hX).2
  have := (abs_lt.1 hr).2
  linarith

/-- **Findings on C86: the honest prover can fail.** The remainder of the reciprocal is below the denominator, but it is
checked against twice the scale; beyond about 3.05 the denominator is larger, and wherever the remainder exceeds the
bound the honest prover has no proof. -/
theorem C86_erf_honest_fails (h : ExpSetting p T (expCtx f rc th tl κ)) (x : Arr Int) {u : Int} (hm : u ∈ x.data)
    (hu1 : u.natAbs < 2 ^ 63) (hu2 : 2 * u.natAbs < p) (hα : (2 ^ κ) ^ 2 < p) (hden : 2 ^ κ + c.p * u.natAbs < p)
    (hp : (((2 ^ κ) ^ 2 % (2 ^ κ + c.p * u.natAbs / 2 ^ κ) : Nat) : Int) + reach rc.chunk (κ + 1) ≤ p)
    (hbad : 2 * 2 ^ κ ≤ (2 ^ κ) ^ 2 % (2 ^ κ + c.p * u.natAbs / 2 ^ κ)) :
    Honest T (erfLayer hint f rc th tl κ nb c (castArr p x)) (fun _ => False) := by
  unfold erfLayer
  split_ifs with hκ
  · intro o e _; exact absurd e (by simp [throwErr])
  rw [mapLayer_eq]
  refine Honest.bind (honest_collectG_false (fun _ => Replay.newHint.bind fun _ => replay_erfCheck _ _ _) _ ⟨u, hm, ?_⟩)
    fun _ h => h.elim
  refine Honest.bind (trivial_honest Replay.newHint) fun out _ => ?_
  generalize out.headD 0 = y
  unfold erfCheck
  have hα0 : 0 < 2 ^ κ := by positivity
  have hfu : fieldToI64 (u : ZMod p) = u := fieldToI64_cast u hu1 hu2
  generalize hmd : u.natAbs = m at *
  refine Honest.bind (Honest.newHint (outs := [((m : Nat) : ZMod p), if 0 ≤ u then 1 else 0])
    (by simp only [erfAbsHint, hfu, hmd])) ?_
  rintro _ rfl
  simp only [List.headD_cons, List.tail_cons]
  refine Honest.bind (trivial_honest Replay.assertBool) fun _ _ => ?_
  refine Honest.bind (trivial_honest Replay.assertEq) fun _ _ => ?_
  refine Honest.bind (trivial_honest (Replay.rangeCheck _ _ _)) fun _ _ => ?_
  have esc : (expCtx f rc th tl κ).scale = 2 ^ κ := rfl
  have hαp : 2 ^ κ < p := by omega
  rw [esc]
  refine Honest.bind (honest_divRem (by rw [val_nat hαp]; omega)) ?_
  rintro _ rfl
  have e1 : (c.p : ZMod p) * ((m : Nat) : ZMod p) = ((c.p * m : Nat) : ZMod p) := by push_cast; ring
  have hps : c.p * m / 2 ^ κ ≤ c.p * m := Nat.div_le_self _ _
  rw [e1, val_nat (by omega), val_nat hαp]
  generalize c.p * m / 2 ^ κ = ps at *
  have hD : ((2 ^ κ : Nat) : ZMod p) + (ps : ZMod p) = ((2 ^ κ + ps : Nat) : ZMod p) := by push_cast; ring
  have eS : ((2 ^ κ * 2 ^ κ : Nat) : ZMod p) = (((2 ^ κ) ^ 2 : Nat) : ZMod p) := by rw [pow_two]
  rw [hD, eS]
  refine Honest.bind (P := fun _ => False) ?_ fun _ h => h.elim
  unfold divRem uIntDiv uMod
  refine Honest.bind (trivial_honest Replay.hint2) fun _ _ => ?_
  refine Honest.bind (Complete.honest (complete_hint2 (v := (((2 ^ κ) ^ 2 % (2 ^ κ + ps) : Nat) : ZMod p))
    (by rw [val_nat hα, val_nat (by omega), if_neg (by omega)]))) ?_
  rintro _ rfl
  refine Honest.bind (trivial_honest Replay.assertEq) fun _ _ => ?_
  refine Honest.bind (Sound.honest (sound_rangeCheck_false (n := κ + 1) h.range h.chunk_pos
    (k := (((2 ^ κ) ^ 2 % (2 ^ κ + ps) : Nat) : Int)) (Int.cast_natCast _).symm ?_ ?_) (Replay.rangeCheck _ _ _)) fun _ h => h.elim
  · rw [abs_of_nonneg (Int.natCast_nonneg _)]; exact hp
  · intro hacc
    have h1 := hacc.2
    have h2 : ((2 * 2 ^ κ : Nat) : Int) ≤ (((2 ^ κ) ^ 2 % (2 ^ κ + ps) : Nat) : Int) := by exact_mod_cast hbad
    have e1 : (2 : Int) ^ (κ + 1) = 2 * 2 ^ κ := by rw [pow_succ]; ring
    push_cast at h1 h2
    linarith

/-- The layer refuses scale exponents of 32 and more. -/
theorem C86_erf_refuses (hκ : 32 ≤ κ) (x : Arr (ZMod p)) (s : Hints (ZMod p)) :
    erfLayer hint f rc th tl κ nb c x s =
      .error (.err "scale_exponent >= 32: scale^2 overflows u64 in Erf polynomial verification") := by
  unfold erfLayer
  rw [if_pos hκ]
  rfl

end

/-! ## Concrete instances -/

/-- The coefficients at scale `2^18`. -/
def erfCoefs18 : ErfCoefs := ⟨85876, 66802, 74579, 372615, 380935, 278241⟩

theorem erfWidths18 : ErfWidths bn254P ⟨0, 12⟩ 18 40 where
  chunk := ⟨by decide +kernel, by decide +kernel, by decide +kernel, by decide +kernel, by decide +kernel, by decide +kernel⟩
  one := ⟨by decide +kernel, by decide +kernel, by decide +kernel, by decide +kernel, by decide +kernel, by decide +kernel⟩
  zero := ⟨by decide +kernel, by decide +kernel, by decide +kernel, by decide +kernel, by decide +kernel, by decide +kernel⟩
  value := ⟨by decide +kernel, by decide +kernel, by decide +kernel, by decide +kernel, by decide +kernel, by decide +kernel⟩
  value1 := ⟨by decide +kernel, by decide +kernel, by decide +kernel, by decide +kernel, by decide +kernel, by decide +kernel⟩
  two := ⟨by decide +kernel, by decide +kernel, by decide +kernel, by decide +kernel, by decide +kernel, by decide +kernel⟩
  three := ⟨by decide +kernel, by decide +kernel, by decide +kernel, by decide +kernel, by decide +kernel, by decide +kernel⟩
  room := by norm_num

theorem erfFits18 : ∀ u ∈ stairIn.data, u.natAbs < 2 ^ 40 ∧ u.natAbs < 2 ^ 63 ∧ 2 * u.natAbs < bn254P ∧
    ErfFits bn254P 18 erfCoefs18 stairs u.natAbs := by
  have : ∀ u ∈ stairIn.data, u.natAbs < 2 ^ 40 ∧ u.natAbs < 2 ^ 63 ∧ 2 * u.natAbs < bn254P ∧
      erfCoefs18.a1 + erfCoefs18.a3 + erfCoefs18.a5 < 3 * 2 ^ 18 ∧ erfCoefs18.a2 + erfCoefs18.a4 < 2 * 2 ^ 18 ∧
      3 * (2 ^ 18) ^ 2 ≤ bn254P ∧ 2 ^ 18 + erfCoefs18.p * u.natAbs < bn254P ∧ u.natAbs ^ 2 < bn254P ∧
      (2 ^ 18) ^ 2 % (2 ^ 18 + erfCoefs18.p * u.natAbs / 2 ^ 18) < 2 * 2 ^ 18 ∧
      u.natAbs ^ 2 / 2 ^ 18 ≤ 2 ^ (lookupBits 18 - 1) ∧
      expVal stairs 18 (-((u.natAbs ^ 2 / 2 ^ 18 : Nat) : Int)) ≤ (2 ^ 18) ^ 2 := by decide +kernel
  intro u hm
  obtain ⟨a, b, c, d⟩ := this u hm
  exact ⟨a, b, c, d.1, d.2.1, d.2.2.1, d.2.2.2.1, d.2.2.2.2.1, d.2.2.2.2.2.1, d.2.2.2.2.2.2.1, d.2.2.2.2.2.2.2⟩

/-- A proof that `erf` is minus one at -0.5, 1 and 2. -/
example : Forge stairTables (erfLayer (fun _ => .ok []) stairs ⟨0, 12⟩ 1 2 18 40 erfCoefs18 (castArr bn254P stairIn))
    (IsUnary stairIn fun _ w => w = ((-2 ^ 18 : Int) : ZMod bn254P)) :=
  C86_erf_any_output stair_setting (by norm_num) erfWidths18 stairIn rfl erfFits18 (fun _ => -2 ^ 18)
    fun _ _ => by norm_num

/-- The bounds with 12-bit digits, which do not divide 41 bits. -/
example : Sound stairTables (erfLayer (fun _ => .ok []) stairs ⟨0, 12⟩ 1 2 18 40 erfCoefs18 (castArr bn254P stairIn))
    (IsUnary stairIn fun _ w => ∃ Y : Int, w = (Y : ZMod bn254P) ∧
      -2 ^ 18 - (reach 12 (40 + 1) - 2 ^ (40 + 1)) ≤ Y ∧ Y ≤ 2 ^ 18 + (reach 12 (40 + 1) - 2 ^ (40 + 1))) :=
  C86_erf_bounds_partial stair_setting stairIn rfl (by decide +kernel)

/-- No proof of a layer with the input 6. -/
example : Sound stairTables (erfLayer (fun _ => .ok []) stairs ⟨0, 12⟩ 1 2 18 40 erfCoefs18
    (castArr bn254P ⟨[2], [262144, 1572864]⟩)) (fun _ => False) :=
  C86_erf_unprovable stair_setting ⟨[2], [262144, 1572864]⟩ (u := 1572864) (by decide) (by decide +kernel)
    (by decide +kernel) (by decide +kernel)

/-- The honest prover fails on the input 5. -/
example : Honest stairTables (erfLayer (fun _ => .ok []) stairs ⟨0, 12⟩ 1 2 18 40 erfCoefs18
    (castArr bn254P ⟨[2], [262144, 1310720]⟩)) (fun _ => False) :=
  C86_erf_honest_fails stair_setting ⟨[2], [262144, 1310720]⟩ (u := 1310720) (by decide) (by decide +kernel)
    (by decide +kernel) (by decide +kernel) (by decide +kernel) (by decide +kernel) (by decide +kernel)

end JST.Props
