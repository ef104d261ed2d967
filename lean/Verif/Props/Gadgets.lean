import Verif.Gadgets.ArithProofs2
import Verif.Primes

/-!
# Properties C01–C06: range checks, division, rescaling, ReLU / max / min / clip

Reading guide. `g : G F α` is a gadget call. `Sound T g Q`: whatever hint values the prover supplies, if
all constraints and table lookups emitted by `g` hold then the returned value satisfies `Q`.
`Complete T g Q`: with the honest hint functions `g` succeeds, all its constraints hold, and `Q`.
`Forge T g Q`: there are hint values for which `g` succeeds, all its constraints hold, and `Q`.
`IsRangeTable T rc`: the lookup table of `rc` holds exactly `0, …, 2^chunk - 1`.
-/

set_option linter.unusedSectionVars false

namespace JST.Props

open JST

variable {p : Nat} [Fact p.Prime] {T : Tables (ZMod p)}

/-- A table assignment in which table `rc.tid` is the range table: the hypothesis `IsRangeTable` used
throughout is satisfiable. -/
def rangeTables (p : Nat) (rc : RangeCtx) : Tables (ZMod p) :=
  fun _ row => ∃ k : Nat, k < 2 ^ rc.chunk ∧ row = [(k : ZMod p)]

omit [Fact p.Prime] in
theorem rangeTables_spec (rc : RangeCtx) : IsRangeTable (rangeTables p rc) rc := by
  intro q
  simp [rangeTables]

/-! ## C01 -/

/-- **C01, proved part.** When the chunk width divides `n`, the LogUp range check accepts only values
whose canonical representative is below `2^n`. Missing: chunk widths that do not divide `n`; there the
property is false, see `C01_range_check_unsound`. -/
theorem C01_range_check_sound_partial {rc : RangeCtx} (hT : IsRangeTable T rc) (hc : 0 < rc.chunk)
    (x : ZMod p) (n : Nat) (hdiv : rc.chunk ∣ n) :
    Sound T (rangeCheck rc x n) (fun _ => x.val < 2 ^ n) := by
  refine (sound_rangeCheck_dvd hT hc hdiv).conseq ?_
  rintro _ ⟨k, hk, rfl⟩
  rw [ZMod.val_natCast]
  exact lt_of_le_of_lt (Nat.mod_le _ _) hk

/-- **C01 is false in general.** For every chunk width not dividing `n` (in particular the default
width 12 with `n = 64` or `n = 18`), in every field larger than `2^n`, the prover can pass the range check
with the out-of-range value `-1`. -/
theorem C01_range_check_unsound {rc : RangeCtx} (hT : IsRangeTable T rc) (n : Nat)
    (hcall : RangeCallable rc n) (hnd : ¬ rc.chunk ∣ n) (hp : 2 ^ n < p) :
    ∃ x : ZMod p, 2 ^ n ≤ x.val ∧ Forge T (rangeCheck rc x n) (fun _ => True) := by
  refine ⟨-1, ?_, hcall.forge hT (k := -1) (accepted_neg hcall.chunk_pos hnd ?_ ?_) (by simp)⟩
  · have : p ≠ 0 := (Fact.out : p.Prime).ne_zero
    obtain ⟨q, rfl⟩ := Nat.exists_eq_succ_of_ne_zero this
    rw [ZMod.val_neg_one]; exact Nat.lt_succ_iff.mp hp
  · have : (1 : Int) ≤ 2 ^ n := one_le_pow₀ (by norm_num)
    linarith
  · have : (0 : Int) < 2 ^ n := by positivity
    linarith

/-- The exact set of accepted values: hint values exist that pass the check if and only if `x` is the
residue of an integer in `[-(2^(n+slack) - 2^n), 2^n)`, where `slack` is the distance from `n` up to
the next multiple of the chunk width. -/
theorem C01_range_check_exact {rc : RangeCtx} (hT : IsRangeTable T rc) (x : ZMod p) (n : Nat)
    (hcall : RangeCallable rc n) :
    Forge T (rangeCheck rc x n) (fun _ => True) ↔
      ∃ k : Int, -((2 : Int) ^ (n + slackBits rc.chunk n) - 2 ^ n) ≤ k ∧ k < 2 ^ n ∧
        x = (k : ZMod p) := by
  constructor
  · rintro ⟨hs, h⟩
    obtain ⟨o, h1, -, h2, -⟩ := h []
    exact sound_rangeCheck_exact hT hcall.chunk_pos x n _ o h1 h2
  · rintro ⟨k, h1, h2, h3⟩
    exact hcall.forge hT ⟨h1, h2⟩ h3

/-- Hypotheses met: Goldilocks, chunk width 8, 32-bit check. -/
example : Sound (rangeTables goldP ⟨0, 8⟩) (rangeCheck ⟨0, 8⟩ (1000 : ZMod goldP) 32)
    (fun _ => (1000 : ZMod goldP).val < 2 ^ 32) :=
  C01_range_check_sound_partial (rangeTables_spec _) (by norm_num) _ _ (by norm_num)

/-- Counterexample met by the defaults: BN254, default chunk width 12
(range_check.rs:158) and the default activation width of 64 bits (build_layers.rs:17). -/
example : ∃ x : ZMod bn254P, 2 ^ 64 ≤ x.val ∧
    Forge (rangeTables bn254P ⟨0, 12⟩) (rangeCheck ⟨0, 12⟩ x 64) (fun _ => True) :=
  C01_range_check_unsound (rangeTables_spec _) 64 ⟨by norm_num, by norm_num, by norm_num, by norm_num,
    by norm_num⟩ (by norm_num) (by norm_num [bn254P])

/-! ## C02 -/

/-- **C02.** The honest prover passes the range check for every value below `2^n`, for every chunk
width below 32 and every width the API accepts, in every field that holds the padded value. (`n = 128`
with a chunk width not dividing 128 is excluded: there the Rust code shifts a `u128` by 128.) -/
theorem C02_range_check_complete {rc : RangeCtx} (hT : IsRangeTable T rc) (x : ZMod p) (n : Nat)
    (hu : RangeUsable p rc n) (hx : x.val < 2 ^ n) :
    Complete T (rangeCheck rc x n) (fun _ => True) :=
  hu.complete hT hx (ZMod.natCast_zmod_val x).symm

/-- The excluded corner: at `n = 128` with a chunk width not dividing 128 the gadget panics before
emitting any constraint. -/
theorem C02_range_check_128_panics (rc : RangeCtx) (x : ZMod p) (hc : 0 < rc.chunk)
    (hc' : rc.chunk < 32) (hnd : ¬ rc.chunk ∣ 128) (h : Hints (ZMod p)) :
    rangeCheck rc x 128 h = .error (.panic "attempt to shift left with overflow") := by
  have hm : (128 % rc.chunk) ≠ 0 := fun h => hnd (Nat.dvd_of_mod_eq_zero h)
  have e : padStep rc.chunk x 128 h = .error (.panic "attempt to shift left with overflow") := by
    unfold padStep addShift
    rw [if_pos hm]
    have : ¬ (rc.chunk - 128 % rc.chunk ≥ 32) := by omega
    simp only [this, if_false]
    rfl
  unfold rangeCheck
  rw [if_neg (by norm_num), if_neg (by norm_num)]
  unfold rangeproof
  rw [if_neg (by norm_num), if_neg (by omega)]
  change G.andThen _ _ h = _
  unfold G.andThen
  rw [e]

example : Complete (rangeTables bn254P ⟨0, 12⟩) (rangeCheck ⟨0, 12⟩ (123456 : ZMod bn254P) 64)
    (fun _ => True) :=
  C02_range_check_complete (rangeTables_spec _) _ _ ⟨by norm_num, by norm_num, by norm_num,
    by norm_num, by norm_num, by norm_num [slackBits, bn254P]⟩ (by decide +kernel)

/-! ## C03 -/

/-- **C03.** For every width the bit-decomposition range check supports, some hint assignment passes it
if and only if the canonical representative of `x` is below `2^n`; the honest hints do so then. -/
theorem C03_bit_range_check_exact (x : ZMod p) (n : Nat) :
    Sound T (rangeCheckPow2Unsigned x n) (fun _ => x.val < 2 ^ n) ∧
    (0 < n → n < 256 → 2 ^ n < p / 2 → x.val < 2 ^ n →
      Complete T (rangeCheckPow2Unsigned x n) (fun _ => True)) :=
  ⟨sound_rangeCheckPow2Unsigned x n, fun h1 h2 h3 h4 =>
    (complete_rangeCheckPow2Unsigned h1 h2 h3 h4).conseq fun _ _ => trivial⟩

example : Complete (fun _ _ => False) (rangeCheckPow2Unsigned (77 : ZMod goldP) 8) (fun _ => True) :=
  (C03_bit_range_check_exact _ _).2 (by norm_num) (by norm_num) (by norm_num [goldP])
    (by decide +kernel)

/-! ## C04 -/

/-- **C04, soundness part.** Division by any positive constant `d`: for chunk widths dividing the two
checked widths, and `d·2^(s+1)` at most the modulus, the only quotient the constraints allow for a signed
dividend in `[-d·2^s, d·2^s)` is the floor quotient. `Int` division by a positive number rounds
towards minus infinity. Missing: other chunk widths, see `C04_division_unsound`. -/
theorem C04_division_sound_partial {rc : RangeCtx} (hT : IsRangeTable T rc) (hc : 0 < rc.chunk)
    {d s : Nat} (hd : rc.chunk ∣ bitLen (d - 1)) (hds : rc.chunk ∣ s + 1)
    (hp : d * 2 ^ (s + 1) ≤ p) (hp2 : 2 ^ (bitLen (d - 1) + 1) ≤ p)
    (x : Int) (hx : -((d : Int) * 2 ^ s) ≤ x) (hx' : x < d * 2 ^ s) :
    Sound T (divConst rc (x : ZMod p) (d : ZMod p) d ((d * 2 ^ s : Nat) : ZMod p) s
      ((2 ^ s : Nat) : ZMod p)) (fun out => out = ((x / (d : Int) : Int) : ZMod p)) :=
  sound_divConst hT hc hd hds hp hp2 hx hx'

/-- **C04, completeness part.** For every chunk width the honest prover's division by `d > 0` succeeds
and returns the floor quotient. -/
theorem C04_division_complete {rc : RangeCtx} (hT : IsRangeTable T rc) {d s : Nat} (hd : 0 < d)
    (huk : d ≠ 1 → RangeUsable p rc (bitLen (d - 1))) (hus : RangeUsable p rc (s + 1))
    (hp : d * 2 ^ (s + 1) ≤ p) (x : Int) (hx : -((d : Int) * 2 ^ s) ≤ x) (hx' : x < d * 2 ^ s) :
    Complete T (divConst rc (x : ZMod p) (d : ZMod p) d ((d * 2 ^ s : Nat) : ZMod p) s
      ((2 ^ s : Nat) : ZMod p)) (fun out => out = ((x / (d : Int) : Int) : ZMod p)) :=
  complete_divConst hT hd huk hus hp hx hx'

/-- Division by zero is rejected when the circuit is built. -/
theorem C04_division_by_zero_rejected (rc : RangeCtx) (x dv dvs sh : ZMod p) (s : Nat)
    (h : Hints (ZMod p)) : divConst rc x dv 0 dvs s sh h = .error (.err "InvalidDivisor") := rfl

/-- **C04 is false for other chunk widths.** When the chunk width does not divide the exponent `κ` of a
power-of-two divisor, the prover can prove the quotient `⌊x / 2^κ⌋ + 1`. -/
theorem C04_division_unsound {rc : RangeCtx} (hT : IsRangeTable T rc) {κ s : Nat}
    (huk : RangeCallable rc κ) (hus : RangeCallable rc (s + 1)) (hnd : ¬ rc.chunk ∣ κ)
    (x : Int) (hx : -((2 : Int) ^ κ * 2 ^ s) ≤ x) (hx' : x < 2 ^ κ * 2 ^ s)
    (hq : x / 2 ^ κ + 1 < 2 ^ s) :
    Forge T (divPow2 rc (x : ZMod p) ((2 ^ κ : Nat) : ZMod p) ((2 ^ κ * 2 ^ s : Nat) : ZMod p) κ s
      ((2 ^ s : Nat) : ZMod p)) (fun out => out = ((x / 2 ^ κ + 1 : Int) : ZMod p)) :=
  forge_divPow2 hT huk hus hnd hx hx' hq true

/-- Hypotheses met: `-1000 / 200 = -5` in Goldilocks with chunk width 8 and 15-bit shift. -/
example : Sound (rangeTables goldP ⟨0, 8⟩)
    (divConst ⟨0, 8⟩ ((-1000 : Int) : ZMod goldP) ((200 : Nat) : ZMod goldP) 200
      ((200 * 2 ^ 15 : Nat) : ZMod goldP) 15 ((2 ^ 15 : Nat) : ZMod goldP))
    (fun out => out = ((-1000 / 200 : Int) : ZMod goldP)) := by
  have := C04_division_sound_partial (T := rangeTables goldP ⟨0, 8⟩) (rc := ⟨0, 8⟩)
    (rangeTables_spec _) (by norm_num) (d := 200) (s := 15)
    (by rw [show bitLen (200 - 1) = 8 by decide +kernel]) (by norm_num) (by norm_num [goldP])
    (by rw [show bitLen (200 - 1) = 8 by decide +kernel]; norm_num [goldP]) (-1000)
    (by norm_num) (by norm_num)
  exact_mod_cast this

/-- The default BN254 rescaling parameters (`κ = 18`, chunk width 12) allow a wrong quotient: `5/2^18`
proved to be 1. -/
example : Forge (rangeTables bn254P ⟨0, 12⟩)
    (divPow2 ⟨0, 12⟩ ((5 : Int) : ZMod bn254P) ((2 ^ 18 : Nat) : ZMod bn254P)
      ((2 ^ 18 * 2 ^ 63 : Nat) : ZMod bn254P) 18 63 ((2 ^ 63 : Nat) : ZMod bn254P))
    (fun out => out = ((5 / 2 ^ 18 + 1 : Int) : ZMod bn254P)) :=
  C04_division_unsound (rangeTables_spec _) ⟨by norm_num, by norm_num, by norm_num, by norm_num,
    by norm_num⟩ ⟨by norm_num, by norm_num, by norm_num, by norm_num,
    by norm_num⟩ (by norm_num) 5 (by norm_num) (by norm_num) (by norm_num)

/-! ## C05 -/

/-- The specification of rescaling by `2^κ` with optional ReLU. -/
def rescaleSpec (κ : Nat) (relu : Bool) (x : Int) : Int :=
  if relu then max 0 (x / 2 ^ κ) else x / 2 ^ κ

/-- The rescale result for each element, as field elements. -/
def Rescaled (p κ : Nat) (relu : Bool) (xs : List Int) (ys : List (ZMod p)) : Prop :=
  ys = xs.map fun x : Int => ((rescaleSpec κ relu x : Int) : ZMod p)

theorem forall₂_int {xs : List Int} {ys : List (ZMod p)} {P : ZMod p → ZMod p → Prop} {f : Int → Int}
    (h : List.Forall₂ P (xs.map fun x : Int => (x : ZMod p)) ys)
    (hP : ∀ x ∈ xs, ∀ y, P (x : ZMod p) y → y = ((f x : Int) : ZMod p)) :
    ys = xs.map fun x : Int => ((f x : Int) : ZMod p) := by
  induction xs generalizing ys with
  | nil => cases h; rfl
  | cons x xs ih =>
    cases h with
    | cons h1 h2 =>
      rw [hP x (by simp) _ h1, ih h2 fun x' hx' => hP x' (by simp [hx'])]
      rfl

theorem sound_mapG_int {f : ZMod p → G (ZMod p) (ZMod p)} {F : Int → Int} (xs : List Int)
    (h : ∀ x ∈ xs, Sound T (f (x : ZMod p)) (fun y => y = ((F x : Int) : ZMod p))) :
    Sound T (mapG f (xs.map fun x : Int => (x : ZMod p)))
      (fun ys => ys = xs.map fun x : Int => ((F x : Int) : ZMod p)) := by
  refine (sound_mapG (P := fun a y => ∀ x ∈ xs, (x : ZMod p) = a → y = ((F x : Int) : ZMod p)) _ ?_).conseq ?_
  · intro a ha
    obtain ⟨x, hx, rfl⟩ := List.mem_map.mp ha
    intro hh o e hs x' hx' he
    exact h x' hx' hh o (by rw [he]; exact e) hs
  · intro ys hys
    exact forall₂_int hys fun x hx y hy => hy x hx rfl

theorem complete_mapG_int {f : ZMod p → G (ZMod p) (ZMod p)} {F : Int → Int} (xs : List Int)
    (h : ∀ x ∈ xs, Complete T (f (x : ZMod p)) (fun y => y = ((F x : Int) : ZMod p))) :
    Complete T (mapG f (xs.map fun x : Int => (x : ZMod p)))
      (fun ys => ys = xs.map fun x : Int => ((F x : Int) : ZMod p)) := by
  induction xs with
  | nil => exact Complete.pure rfl
  | cons x xs ih =>
    simp only [List.map_cons, mapG]
    refine (h x (by simp)).bind ?_
    rintro _ rfl
    refine (ih fun y hy => h y (by simp [hy])).bind ?_
    rintro _ rfl
    exact Complete.pure rfl

/-- **C05, soundness part.** `rescale_array` with scale `2^κ` and shift `2^s`: for chunk widths
dividing `κ` and `s + 1`, and `2^κ·2^(s+2)` at most the modulus, the constraints force every output to
be `⌊x/2^κ⌋`, or `max 0 ⌊x/2^κ⌋` when ReLU is fused, for all inputs in `[-2^κ·2^s, 2^κ·2^s)`. Missing: other
chunk widths (`C05_rescale_unsound`). -/
theorem C05_rescale_sound_partial {rc : RangeCtx} (hT : IsRangeTable T rc) (hc : 0 < rc.chunk)
    {κ s : Nat} (hd : rc.chunk ∣ κ) (hds : rc.chunk ∣ s + 1) (hp : 2 ^ κ * 2 ^ (s + 2) ≤ p)
    (xs : List Int) (hx : ∀ x ∈ xs, -((2 : Int) ^ κ * 2 ^ s) ≤ x ∧ x < 2 ^ κ * 2 ^ s) (relu : Bool) :
    Sound T (rescaleArray rc (xs.map fun x : Int => (x : ZMod p)) κ s relu)
      (Rescaled p κ relu xs) := by
  unfold rescaleArray RescaleCtx.new
  split_ifs with h1 h2
  · exact Sound.bind (Sound.throwErr (Q := fun _ => False)) (fun _ h => h.elim)
  · exact Sound.bind (Sound.throwErr (Q := fun _ => False)) (fun _ h => h.elim)
  · refine Sound.bind (Sound.pure (Q := fun c => c = (⟨κ, s, ((2 ^ κ : Nat) : ZMod p),
      ((2 ^ s : Nat) : ZMod p), ((2 ^ κ * 2 ^ s : Nat) : ZMod p)⟩ : RescaleCtx p)) rfl) ?_
    rintro _ rfl
    refine sound_mapG_int xs fun x hxm => ?_
    obtain ⟨hx1, hx2⟩ := hx x hxm
    cases relu with
    | true => exact sound_rescale_relu hT hc hd hds hp hx1 hx2
    | false =>
      have hp' : 2 ^ κ * 2 ^ (s + 1) ≤ p := by
        refine le_trans (Nat.mul_le_mul_left _ ?_) hp
        exact Nat.pow_le_pow_right (by norm_num) (by omega)
      exact (sound_divPow2 hT hc hd hds hp' hx1 hx2).bind fun q hq => Sound.pure hq

/-- **C05, completeness part.** For every chunk width the honest prover rescales every in-range
array correctly. -/
theorem C05_rescale_complete {rc : RangeCtx} (hT : IsRangeTable T rc) {κ s : Nat}
    (huk : RangeUsable p rc κ) (hus : RangeUsable p rc (s + 1)) (hκ : κ < 32) (hs64 : s < 64)
    (hp : 2 ^ κ * 2 ^ (s + 1) ≤ p) (xs : List Int)
    (hx : ∀ x ∈ xs, -((2 : Int) ^ κ * 2 ^ s) ≤ x ∧ x < 2 ^ κ * 2 ^ s) (relu : Bool) :
    Complete T (rescaleArray rc (xs.map fun x : Int => (x : ZMod p)) κ s relu)
      (Rescaled p κ relu xs) := by
  unfold rescaleArray RescaleCtx.new
  rw [if_neg (by omega), if_neg (by omega)]
  refine Complete.bind (Complete.pure (Q := fun c => c = (⟨κ, s, ((2 ^ κ : Nat) : ZMod p),
    ((2 ^ s : Nat) : ZMod p), ((2 ^ κ * 2 ^ s : Nat) : ZMod p)⟩ : RescaleCtx p)) rfl) ?_
  rintro _ rfl
  exact complete_mapG_int xs fun x hxm =>
    complete_rescale hT huk hus hs64 hp (hx x hxm).1 (hx x hxm).2 relu

/-- **C05 is false for other chunk widths**: with a chunk width not dividing `κ`, rescaling without
ReLU can be proved to return the floor plus one. -/
theorem C05_rescale_unsound {rc : RangeCtx} (hT : IsRangeTable T rc) {κ s : Nat}
    (huk : RangeCallable rc κ) (hus : RangeCallable rc (s + 1)) (hnd : ¬ rc.chunk ∣ κ)
    (hκ : κ < 32) (hs64 : s < 64)
    (x : Int) (hx : -((2 : Int) ^ κ * 2 ^ s) ≤ x) (hx' : x < 2 ^ κ * 2 ^ s)
    (hq : x / 2 ^ κ + 1 < 2 ^ s) :
    Forge T (rescaleArray rc [(x : ZMod p)] κ s false)
      (fun ys => ys = [((rescaleSpec κ false x + 1 : Int) : ZMod p)]) := by
  unfold rescaleArray RescaleCtx.new
  rw [if_neg (by omega), if_neg (by omega)]
  refine Forge.bind (Forge.pure (Q := fun c => c = (⟨κ, s, ((2 ^ κ : Nat) : ZMod p),
    ((2 ^ s : Nat) : ZMod p), ((2 ^ κ * 2 ^ s : Nat) : ZMod p)⟩ : RescaleCtx p)) rfl)
    (fun _ h => h) ?_
  change Forge T (do
    let y ← rescale _ rc (x : ZMod p) false
    let ys ← (pure [] : G (ZMod p) (List (ZMod p)))
    pure (y :: ys)) _
  have hr : Forge T (rescale ⟨κ, s, ((2 ^ κ : Nat) : ZMod p), ((2 ^ s : Nat) : ZMod p),
      ((2 ^ κ * 2 ^ s : Nat) : ZMod p)⟩ rc (x : ZMod p) false)
      (fun out => out = ((x / 2 ^ κ + 1 : Int) : ZMod p)) := by
    unfold rescale
    exact (forge_divPow2 hT huk hus hnd hx hx' hq true).bind (fun _ h => h) (Forge.pure rfl)
  refine hr.bind (fun _ h => h) ?_
  refine Forge.bind (Forge.pure (Q := fun l => l = ([] : List (ZMod p))) rfl) (fun _ h => h) ?_
  exact Forge.pure (by simp [rescaleSpec])

example : Complete (rangeTables bn254P ⟨0, 12⟩)
    (rescaleArray ⟨0, 12⟩ ([-700000, 3].map fun x : Int => (x : ZMod bn254P)) 18 63 true)
    (Rescaled bn254P 18 true [-700000, 3]) :=
  C05_rescale_complete (rangeTables_spec _)
    ⟨by norm_num, by norm_num, by norm_num, by norm_num, by norm_num, by norm_num [slackBits, bn254P]⟩
    ⟨by norm_num, by norm_num, by norm_num, by norm_num, by norm_num, by norm_num [slackBits, bn254P]⟩
    (by norm_num) (by norm_num) (by norm_num [bn254P]) _ (by simp) true

example : Sound (rangeTables bn254P ⟨0, 9⟩)
    (rescaleArray ⟨0, 9⟩ ([-700000, 3].map fun x : Int => (x : ZMod bn254P)) 18 62 true)
    (Rescaled bn254P 18 true [-700000, 3]) :=
  C05_rescale_sound_partial (rangeTables_spec _) (by norm_num) (by norm_num) (by norm_num)
    (by norm_num [bn254P]) _ (by simp) true

/-! ## C06 -/

/-- **C06, ReLU soundness.** For chunk widths dividing `s + 1` and `2^(s+2) ≤ p`, the output of the ReLU
gadget is `max 0 x` for every signed input in `[-2^s, 2^s)`. -/
theorem C06_relu_sound_partial {rc : RangeCtx} (hT : IsRangeTable T rc) (hc : 0 < rc.chunk) {s : Nat}
    (hd : rc.chunk ∣ s + 1) (hp : 2 ^ (s + 2) ≤ p) (x : Int) (hx : -2 ^ s ≤ x) (hx' : x < 2 ^ s) :
    Sound T (constrainedRelu ⟨s, ((2 ^ s : Nat) : ZMod p)⟩ rc (x : ZMod p))
      (fun r => r = ((max 0 x : Int) : ZMod p)) := by
  refine (sound_relu hT hc hd _).conseq ?_
  rintro r ⟨K, hK, e, rfl⟩
  have hs1 : (2 : Int) ^ (s + 1) = 2 ^ s * 2 := pow_succ _ _
  have hp' : (2 : Int) ^ s * 4 ≤ p := by
    have : (2 : Int) ^ s * 4 = 2 ^ (s + 2) := by rw [pow_add]; norm_num
    rw [this]; exact_mod_cast hp
  have : x = K := int_eq_of_cast_eq e (by
    simp only [hs1, abs_lt] at *; constructor <;> linarith [hK.1, hK.2])
  rw [this]

/-- **C06, max soundness** for any number of inputs. -/
theorem C06_max_sound_partial {rc : RangeCtx} (hT : IsRangeTable T rc) (hc : 0 < rc.chunk) {s : Nat}
    (hd : rc.chunk ∣ s + 1) (hp : 2 ^ (s + 2) ≤ p)
    (xs : List Int) (hx : ∀ x ∈ xs, -2 ^ s ≤ x ∧ x < 2 ^ s) :
    Sound T (constrainedMax ⟨s, ((2 ^ s : Nat) : ZMod p)⟩ rc (xs.map fun x : Int => (x : ZMod p)))
      (fun r => ∃ M ∈ xs, (∀ x ∈ xs, x ≤ M) ∧ r = (M : ZMod p)) :=
  sound_constrainedMax hT hc hd hp xs hx

/-- **C06, min soundness** for any number of inputs. -/
theorem C06_min_sound_partial {rc : RangeCtx} (hT : IsRangeTable T rc) (hc : 0 < rc.chunk) {s : Nat}
    (hd : rc.chunk ∣ s + 1) (hp : 2 ^ (s + 2) ≤ p)
    (xs : List Int) (hx : ∀ x ∈ xs, -2 ^ s ≤ x ∧ x < 2 ^ s) :
    Sound T (constrainedMin ⟨s, ((2 ^ s : Nat) : ZMod p)⟩ rc (xs.map fun x : Int => (x : ZMod p)))
      (fun r => ∃ M ∈ xs, (∀ x ∈ xs, M ≤ x) ∧ r = (M : ZMod p)) :=
  sound_constrainedMin hT hc hd hp xs hx

/-- Bound below by an optional limit. -/
def atLeast (x : Int) : Option Int → Int
  | some a => max x a
  | none => x
/-- Bound above by an optional limit. -/
def atMost (x : Int) : Option Int → Int
  | some b => min x b
  | none => x
/-- Clip: bound below by `lo` if given, then above by `hi` if given. -/
def clipSpec (lo hi : Option Int) (x : Int) : Int := atMost (atLeast x lo) hi

/-- **C06, clip soundness.** -/
theorem C06_clip_sound_partial {rc : RangeCtx} (hT : IsRangeTable T rc) (hc : 0 < rc.chunk) {s : Nat}
    (hd : rc.chunk ∣ s + 1) (hp : 2 ^ (s + 2) ≤ p) (x : Int) (lo hi : Option Int)
    (hx : -2 ^ s ≤ x ∧ x < 2 ^ s) (hlo : ∀ a ∈ lo, -2 ^ s ≤ a ∧ a < 2 ^ s)
    (hhi : ∀ a ∈ hi, -2 ^ s ≤ a ∧ a < 2 ^ s) :
    Sound T (constrainedClip ⟨s, ((2 ^ s : Nat) : ZMod p)⟩ rc (x : ZMod p)
      (lo.map fun a : Int => (a : ZMod p)) (hi.map fun a : Int => (a : ZMod p)))
      (fun r => r = ((clipSpec lo hi x : Int) : ZMod p)) := by
  have hs1 : (2 : Int) ^ (s + 1) = 2 ^ s * 2 := pow_succ _ _
  have h2 : ∀ y : Int, -2 ^ s ≤ y ∧ y < 2 ^ s →
      Sound T (match (hi.map fun a : Int => (a : ZMod p)) with
        | some b => min2 ⟨s, ((2 ^ s : Nat) : ZMod p)⟩ rc (y : ZMod p) b
        | none => pure (y : ZMod p)) (fun r => r = ((atMost y hi : Int) : ZMod p)) := by
    intro y hy
    cases hi with
    | none => exact Sound.pure rfl
    | some b =>
      have hb := hhi b rfl
      exact sound_min2_int (sc := ⟨s, ((2 ^ s : Nat) : ZMod p)⟩) hT hc hd hp (by
        simp only [hs1, abs_lt]; constructor <;> linarith)
  unfold constrainedClip clipSpec
  cases lo with
  | none => exact Sound.bind (Sound.pure (Q := fun c => c = (x : ZMod p)) rfl) (by
      rintro _ rfl; exact h2 x hx)
  | some a =>
    have ha := hlo a rfl
    refine Sound.bind (sound_max2_int (sc := ⟨s, ((2 ^ s : Nat) : ZMod p)⟩) (x := x) (a := a)
      hT hc hd hp (by simp only [hs1, abs_lt]; constructor <;> linarith)) ?_
    rintro _ rfl
    refine h2 (max x a) ?_
    rcases max_choice x a with h | h <;> rw [h] <;> assumption

/-- **C06, completeness** (any chunk width): honest ReLU, max and min succeed with the right value. -/
theorem C06_complete {rc : RangeCtx} (hT : IsRangeTable T rc) {s : Nat}
    (hu : RangeUsable p rc (s + 1)) :
    (∀ x : Int, -2 ^ s ≤ x → x < 2 ^ s →
      Complete T (constrainedRelu ⟨s, ((2 ^ s : Nat) : ZMod p)⟩ rc (x : ZMod p))
        (fun r => r = ((max 0 x : Int) : ZMod p))) ∧
    (∀ xs : List Int, xs ≠ [] → (∀ x ∈ xs, -2 ^ s ≤ x ∧ x < 2 ^ s) →
      Complete T (constrainedMax ⟨s, ((2 ^ s : Nat) : ZMod p)⟩ rc (xs.map fun x : Int => (x : ZMod p)))
        (fun r => ∃ M ∈ xs, (∀ x ∈ xs, x ≤ M) ∧ r = (M : ZMod p)) ∧
      Complete T (constrainedMin ⟨s, ((2 ^ s : Nat) : ZMod p)⟩ rc (xs.map fun x : Int => (x : ZMod p)))
        (fun r => ∃ M ∈ xs, (∀ x ∈ xs, M ≤ x) ∧ r = (M : ZMod p))) :=
  ⟨fun _ h1 h2 => complete_relu hT hu h1 h2, fun xs hne hx =>
    ⟨complete_constrainedMax hT hu xs hne hx, complete_constrainedMin hT hu xs hne hx⟩⟩

/-- **C06 is false for other chunk widths**: with a chunk width not dividing `s + 1`, ReLU of any
positive in-range value can be proved to be 0, and any element of a list of three or more can be
proved to be its maximum. -/
theorem C06_unsound {rc : RangeCtx} (hT : IsRangeTable T rc) {s : Nat}
    (hu : RangeCallable rc (s + 1)) (hnd : ¬ rc.chunk ∣ s + 1) :
    (∀ x : Int, 0 ≤ x → x < 2 ^ s →
      Forge T (constrainedRelu ⟨s, ((2 ^ s : Nat) : ZMod p)⟩ rc (x : ZMod p)) (fun r => r = 0)) ∧
    (∀ xs : List Int, 3 ≤ xs.length → (∀ x ∈ xs, -2 ^ s ≤ x ∧ x < 2 ^ s) → ∀ m ∈ xs,
      Forge T (constrainedMax ⟨s, ((2 ^ s : Nat) : ZMod p)⟩ rc (xs.map fun x : Int => (x : ZMod p)))
        (fun r => r = (m : ZMod p))) := by
  refine ⟨fun x h1 h2 => forge_relu_zero hT hu hnd _ h1 ?_, fun xs hl hx m hm => ?_⟩
  · have : (2 : Int) ^ (s + 1) = 2 ^ s * 2 := pow_succ _ _
    have : (0 : Int) < 2 ^ s := by positivity
    linarith
  · match xs, hl with
    | x :: y :: z :: t, _ => exact forge_constrainedMax hT hu hnd _ x y z t hx m hm

/-- Empty inputs are rejected. -/
theorem C06_empty_rejected (sc : ShiftCtx p) (rc : RangeCtx) (h : Hints (ZMod p)) :
    constrainedMax sc rc [] h = .error (.err "constrained_max: input slice must be nonempty") ∧
    constrainedMin sc rc [] h = .error (.err "constrained_min: input slice must be nonempty") :=
  ⟨rfl, rfl⟩

example : Sound (rangeTables goldP ⟨0, 8⟩)
    (constrainedMax ⟨31, ((2 ^ 31 : Nat) : ZMod goldP)⟩ ⟨0, 8⟩
      ([3, -9, 12, 7].map fun x : Int => (x : ZMod goldP)))
    (fun r => ∃ M ∈ ([3, -9, 12, 7] : List Int), (∀ x ∈ ([3, -9, 12, 7] : List Int), x ≤ M) ∧
      r = (M : ZMod goldP)) :=
  C06_max_sound_partial (rangeTables_spec _) (by norm_num) (by norm_num) (by norm_num [goldP]) _
    (by simp)

/-- BN254 defaults (12-bit chunks, 64-bit activations): a positive activation proved to be zero. -/
example : Forge (rangeTables bn254P ⟨0, 12⟩)
    (constrainedRelu ⟨63, ((2 ^ 63 : Nat) : ZMod bn254P)⟩ ⟨0, 12⟩ ((424242 : Int) : ZMod bn254P))
    (fun r => r = 0) :=
  (C06_unsound (rangeTables_spec _) ⟨by norm_num, by norm_num, by norm_num, by norm_num,
    by norm_num⟩ (by norm_num)).1 424242 (by norm_num) (by norm_num)

end JST.Props
