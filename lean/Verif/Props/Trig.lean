import Verif.Props.FunctionPow

/-!
# C59: the Sin and Cos layers

The input is clamped to the domain of a table of at most 20 bits before the look-up, so beyond that domain the layer
returns the value at its edge.
-/

set_option linter.unusedSectionVars false

namespace JST.Props

open JST.Shape JST.Layers JST.Spec

variable {p : Nat} [Fact p.Prime] {T : Tables (ZMod p)}

theorem saturate_bounds {n : Nat} (x : Int) : -2 ^ (n - 1) ≤ saturate n x ∧ saturate n x < 2 ^ (n - 1) := by
  have : (0 : Int) < 2 ^ (n - 1) := by positivity
  unfold saturate
  constructor
  · exact le_min (le_max_right _ _) (by omega)
  · exact lt_of_le_of_lt (min_le_right _ _) (by omega)

theorem saturate_of_small {n : Nat} {x : Int} (h1 : -2 ^ (n - 1) ≤ x) (h2 : x < 2 ^ (n - 1)) : saturate n x = x := by
  unfold saturate
  rw [max_eq_left h1, min_eq_left (by omega)]

theorem trigBits_pos {κ nb : Nat} (h : κ + 1 ≤ nb) : 0 < trigBits κ nb := by unfold trigBits; omega

theorem trigBits_le (κ nb : Nat) : trigBits κ nb ≤ nb := by unfold trigBits; omega

/-- What the setting of a Sin or Cos layer must provide: the table `tid` holds the tabulated function, whose values are
at most the scale, and the field is large enough. -/
structure TrigSetting (p : Nat) [Fact p.Prime] (T : Tables (ZMod p)) (rc : RangeCtx) (f : Int → Int)
    (tid κ nb : Nat) : Prop where
  range : IsRangeTable T rc
  chunk_pos : 0 < rc.chunk
  table : ∀ r, T tid r ↔ r ∈ signedRows p f (min (min (κ + 3) 20) nb)
  scale : κ < 32
  bits : κ + 1 ≤ nb
  fits : 2 ^ (nb + 7) ≤ p
  bounded : ∀ x, |f x| ≤ 2 ^ κ

theorem TrigSetting.lookup_iff {rc : RangeCtx} {f : Int → Int} {tid κ nb : Nat} (h : TrigSetting p T rc f tid κ nb)
    (a b : ZMod p) : T tid [a, b] ↔ ∃ x : Int, -2 ^ (trigBits κ nb - 1) ≤ x ∧ x < 2 ^ (trigBits κ nb - 1) ∧
      a = (x : ZMod p) ∧ b = (f x : ZMod p) := by
  have hb := trigBits_le κ nb
  have hs := h.bits
  have hf := h.fits
  rw [h.table]
  refine mem_signedRows (trigBits_pos h.bits) (le_trans (Nat.pow_le_pow_right (by norm_num) (by omega)) hf) ?_ a b
  intro x _ _
  have h1 := h.bounded x
  have h2 : (2 : Nat) ^ κ ≤ 2 ^ (nb + 7) := Nat.pow_le_pow_right (by norm_num) (by omega)
  have h3 : ((f x).natAbs : Int) ≤ ((2 ^ κ : Nat) : Int) := by push_cast; exact h1
  omega

theorem sound_trigElem {rc : RangeCtx} {f : Int → Int} {tid κ nb : Nat} (h : TrigSetting p T rc f tid κ nb)
    (hd : rc.chunk ∣ nb + 5) {off : ZMod p} {u : Int} (hp : |u| + 2 ^ (nb + 7) ≤ p) :
    Sound T (trigElem f rc tid ⟨nb + 4, off⟩ (2 ^ κ) (trigBits κ nb) nb (u : ZMod p))
      (fun w => w = (f (saturate (trigBits κ nb) u) : ZMod p)) := by
  have hb := trigBits_le κ nb
  have hs := trigBits_pos h.bits
  have e7 : (2 : Int) ^ (nb + 7) = 2 * 2 ^ (nb + 6) := by rw [pow_succ]; ring
  have e6 : (2 : Int) ^ (nb + 6) = 2 * 2 ^ (nb + 5) := by rw [pow_succ]; ring
  have et : (2 : Int) ^ (trigBits κ nb - 1) ≤ 2 ^ nb := pow_le_pow_right₀ (by norm_num) (by omega)
  have e5 : (2 : Int) ^ (nb + 5) = 32 * 2 ^ nb := by rw [pow_add]; ring
  have hpos : (0 : Int) < 2 ^ (trigBits κ nb - 1) := by positivity
  unfold trigElem
  refine Sound.bind (sound_clip_wide h.range h.chunk_pos hd (x := u) (lo := -2 ^ (trigBits κ nb - 1))
    (hi := 2 ^ (trigBits κ nb - 1) - 1) (by omega) (by linarith) ?_) ?_
  · have := abs_sub u (-2 ^ (trigBits κ nb - 1))
    rw [abs_neg, abs_of_pos hpos] at this
    linarith
  rintro _ ⟨rfl, -⟩
  change Sound T (_ >>= _) _
  obtain ⟨s1, s2⟩ := saturate_bounds (n := trigBits κ nb) u
  have hsat : min (max u (-2 ^ (trigBits κ nb - 1))) (2 ^ (trigBits κ nb - 1) - 1) = saturate (trigBits κ nb) u := rfl
  rw [hsat]
  refine Sound.bind newHint_one fun out _ => ?_
  generalize out.headD 0 = y
  dsimp only
  refine Sound.bind Sound.lookup fun _ hl => ?_
  obtain ⟨x, x1, x2, ex, rfl⟩ := (h.lookup_iff _ _).1 hl
  have hx : saturate (trigBits κ nb) u = x := int_eq_of_cast_eq (p := p) ex (by
    rw [abs_lt]; constructor <;> linarith [abs_nonneg u])
  rw [hx]
  exact Sound.bind (P := fun _ => True) (fun _ _ _ _ => trivial) fun _ _ =>
    Sound.bind (P := fun _ => True) (fun _ _ _ _ => trivial) fun _ _ => Sound.pure rfl

/-- **C59, proved part**: every accepted output is the tabulated function of the *clamped* input. On inputs inside the
table's domain that is the function itself. Missing: digit widths that do not divide `n_bits + 5`. -/
theorem C59_trig_sound_partial {rc : RangeCtx} {f : Int → Int} {tid κ nb : Nat} (h : TrigSetting p T rc f tid κ nb)
    (hd : rc.chunk ∣ nb + 5) (x : Arr Int) (hx : x.WF) (hp : ∀ u ∈ x.data, |u| + 2 ^ (nb + 7) ≤ p) :
    Sound T (trigLayer f rc tid κ nb (castArr p x)) (IsUnary x fun u w =>
      w = (f (saturate (min (min (κ + 3) 20) nb) u) : ZMod p) ∧
      (-2 ^ ((min (min (κ + 3) 20) nb) - 1) ≤ u → u < 2 ^ ((min (min (κ + 3) 20) nb) - 1) → w = (f u : ZMod p))) := by
  unfold trigLayer
  split_ifs
  · exact Sound.throwErr
  · exact Sound.throwErr
  rw [max_eq_right (trigBits_le κ nb)]
  refine Sound.bind sound_shiftCtx ?_
  rintro _ rfl
  refine sound_mapLayer hx fun u hm => (sound_trigElem h hd (hp u hm)).conseq ?_
  rintro _ rfl
  exact ⟨rfl, fun h1 h2 => congrArg (fun z : Int => (f z : ZMod p)) (saturate_of_small h1 h2)⟩

/-- **C59 is false beyond the table's domain**: if `f` of an entry differs from `f` of the clamped entry, no accepted
execution returns `f` of the entries. With the usual `κ = 18` the domain ends at 2. -/
theorem C59_trig_saturates {rc : RangeCtx} {f : Int → Int} {tid κ nb : Nat} (h : TrigSetting p T rc f tid κ nb)
    (hd : rc.chunk ∣ nb + 5) (x : Arr Int) (hx : x.WF) (hp : ∀ u ∈ x.data, |u| + 2 ^ (nb + 7) ≤ p) {c : List Nat}
    (hc : InRange x.shape c) {u : Int} (hu : elem x c = some u) (hne : f u ≠ f (saturate (min (min (κ + 3) 20) nb) u)) :
    Sound T (trigLayer f rc tid κ nb (castArr p x)) (fun out => ¬ IsUnary x (fun u w => w = (f u : ZMod p)) out) := by
  refine (C59_trig_sound_partial h hd x hx hp).conseq ?_
  rintro out ⟨-, -, h3⟩ ⟨-, -, h3'⟩
  obtain ⟨u1, w1, a1, a2, a3, -⟩ := h3 c hc
  obtain ⟨u2, w2, b1, b2, b3⟩ := h3' c hc
  rw [hu, Option.some.injEq] at a1 b1
  subst a1; subst b1
  rw [a2, Option.some.injEq] at b2
  subst b2
  rw [a3] at b3
  have hb := h.bits
  have k1 := h.bounded u
  have k2 := h.bounded (saturate (min (min (κ + 3) 20) nb) u)
  have hf : (2 : Int) ^ (nb + 7) ≤ p := by exact_mod_cast h.fits
  have hκ : (2 : Int) ^ (κ + 2) ≤ 2 ^ (nb + 7) := pow_le_pow_right₀ (by norm_num) (by omega)
  have e2 : (2 : Int) ^ (κ + 2) = 4 * 2 ^ κ := by rw [pow_add]; ring
  have hpos : (0 : Int) < 2 ^ κ := by positivity
  refine hne (int_eq_of_cast_eq (p := p) b3.symm ?_)
  rw [abs_le] at k1 k2
  rw [abs_lt]; constructor <;> linarith [k1.1, k1.2, k2.1, k2.2]

/-- **C59, completeness**: for every digit width, the honest prover succeeds on all inputs below `2^(n_bits + 4)` in
absolute value, with the tabulated function of the clamped input. -/
theorem C59_trig_complete {rc : RangeCtx} {f : Int → Int} {tid κ nb : Nat} (h : TrigSetting p T rc f tid κ nb)
    (h5 : RangeUsable p rc (nb + 4 + 1)) (h1 : RangeUsable p rc (nb + 1)) (hnb60 : nb < 60)
    (x : Arr Int) (hx : x.WF)
    (hr : ∀ u ∈ x.data, -2 ^ (nb + 4) ≤ u ∧ u < 2 ^ (nb + 4)) :
    Complete T (trigLayer f rc tid κ nb (castArr p x)) (IsUnary x fun u w =>
      w = (f (saturate (min (min (κ + 3) 20) nb) u) : ZMod p)) := by
  have hb := trigBits_le κ nb
  have hs := trigBits_pos h.bits
  have hκ := h.scale
  have hkb := h.bits
  have et : (2 : Int) ^ (trigBits κ nb - 1) ≤ 2 ^ nb := pow_le_pow_right₀ (by norm_num) (by omega)
  have e5 : (2 : Int) ^ (nb + 4) = 16 * 2 ^ nb := by rw [pow_add]; ring
  have hnb : (0 : Int) < 2 ^ nb := by positivity
  have hpos : (0 : Int) < 2 ^ (trigBits κ nb - 1) := by positivity
  have hf := h.fits
  have hkp : 2 ^ κ < p := lt_of_lt_of_le (Nat.pow_lt_pow_right (by norm_num) (by omega)) hf
  unfold trigLayer
  rw [if_neg (by omega), if_neg (by omega), max_eq_right hb]
  refine Complete.bind (complete_shiftCtx (by omega)) ?_
  rintro _ rfl
  refine complete_mapLayer hx fun u hm => ?_
  obtain ⟨s1, s2⟩ := saturate_bounds (n := trigBits κ nb) u
  unfold trigElem
  refine Complete.bind (P := fun r => r = ((saturate (trigBits κ nb) u : Int) : ZMod p)) ?_ ?_
  · have := C06_clip_complete (T := T) h.range h5 u (some (-2 ^ (trigBits κ nb - 1))) (some (2 ^ (trigBits κ nb - 1) - 1))
      (hr u hm) (by intro a ha; cases ha; constructor <;> linarith)
      (by intro a ha; cases ha; constructor <;> linarith)
    exact this
  rintro _ rfl
  set z := saturate (trigBits κ nb) u
  have v2 : (((2 ^ κ : Nat)) : ZMod p).val = 2 ^ κ := by rw [ZMod.val_natCast, Nat.mod_eq_of_lt hkp]
  have hk64 : (2 : Nat) ^ κ < 2 ^ 64 := Nat.pow_lt_pow_right (by norm_num) (by omega)
  have htb : trigBits κ nb ≤ 20 := by unfold trigBits; omega
  have ht20 : (2 : Int) ^ (trigBits κ nb - 1) ≤ 2 ^ 20 := pow_le_pow_right₀ (by norm_num) (by omega)
  have hz : fieldToI64 ((z : Int) : ZMod p) = z := by
    apply fieldToI64_cast
    · have : (2 : Int) ^ 20 < 2 ^ 63 := by norm_num
      have : ((z.natAbs : Int)) < 2 ^ 63 := by
        rw [Int.natCast_natAbs, abs_lt]; constructor <;> linarith
      exact_mod_cast this
    · have e7 : (2 : Int) ^ (nb + 7) = 128 * 2 ^ nb := by rw [pow_add]; ring
      have hf' : (2 : Int) ^ (nb + 7) ≤ p := by exact_mod_cast hf
      have : |z| ≤ 2 ^ nb := abs_le.mpr ⟨by linarith, by linarith⟩
      have : (z.natAbs : Int) ≤ 2 ^ nb := by rw [Int.natCast_natAbs]; exact this
      omega
  refine Complete.bind (Complete.newHint (outs := [((f z : Int) : ZMod p)]) ?_ rfl) ?_
  · unfold trigHint
    dsimp only
    rw [v2, if_neg (by omega), if_neg (by positivity), hz]
  rintro _ rfl
  dsimp only [List.headD_cons]
  refine Complete.bind (Det.lookup ((h.lookup_iff _ _).2 ⟨z, s1, s2, rfl, rfl⟩)).complete fun _ _ => ?_
  obtain ⟨f1, f2⟩ := abs_le.mp (h.bounded z)
  have hkn : (2 : Int) ^ (κ + 1) ≤ 2 ^ nb := pow_le_pow_right₀ (by norm_num) (by omega)
  have ek : (2 : Int) ^ (κ + 1) = 2 * 2 ^ κ := by rw [pow_succ]; ring
  have en : (2 : Int) ^ (nb + 1) = 2 * 2 ^ nb := by rw [pow_succ]; ring
  refine Complete.bind (h1.completeInt h.range (k := f z + 2 ^ κ) (by linarith) (by linarith) (by push_cast; ring))
    fun _ _ => ?_
  refine Complete.bind (h1.completeInt h.range (k := 2 ^ κ - f z) (by linarith) (by linarith) (by push_cast; ring))
    fun _ _ => ?_
  exact Complete.pure rfl

/-- **C59, refused parameters**: a scale of `2^32` or more, or fewer than `κ + 1` bits. -/
theorem C59_trig_refuses {rc : RangeCtx} {f : Int → Int} {tid κ nb : Nat} (x : Arr (ZMod p))
    (h : 32 ≤ κ ∨ nb < κ + 1) (hs : Hints (ZMod p)) :
    ∃ msg, trigLayer f rc tid κ nb x hs = .error (.err msg) := by
  unfold trigLayer
  split_ifs
  · exact ⟨_, rfl⟩
  · exact ⟨_, rfl⟩
  · omega

/-! ## The hypotheses are met -/

/-- A bounded stand-in for the quantised sine at scale 16: 0, 6, 13, 16, … -/
def demoSin (x : Int) : Int := if 0 ≤ x ∧ x < 26 then x / 2 + 3 else if 26 ≤ x then 16 - (x - 26) % 17 else -16

def trigDemoTables : Tables (ZMod goldP) := fun tid r =>
  if tid = 1 then r ∈ signedRows goldP demoSin (trigBits 4 10) else rangeTables goldP ⟨0, 5⟩ tid r

theorem trigDemo : TrigSetting goldP trigDemoTables ⟨0, 5⟩ demoSin 1 4 10 where
  range := fun q => rangeTables_spec (p := goldP) ⟨0, 5⟩ q
  chunk_pos := by norm_num
  table := fun r => by simp [trigDemoTables, trigBits]
  scale := by norm_num
  bits := by norm_num
  fits := by norm_num [goldP]
  bounded := fun x => by
    unfold demoSin
    rw [abs_le]
    split_ifs <;> constructor <;> omega

/-- Scale 16; entries 1, -3 and 10. The table has 7 bits: its domain is `-4 … 4`. -/
def trigX : Arr Int := ⟨[3], [16, -48, 160]⟩

example : Sound trigDemoTables (trigLayer demoSin ⟨0, 5⟩ 1 4 10 (castArr goldP trigX)) (IsUnary trigX fun u w =>
      w = (demoSin (saturate (trigBits 4 10) u) : ZMod goldP) ∧
      (-2 ^ (trigBits 4 10 - 1) ≤ u → u < 2 ^ (trigBits 4 10 - 1) → w = (demoSin u : ZMod goldP))) :=
  C59_trig_sound_partial trigDemo (by norm_num) _ rfl (by decide +kernel)

example : Sound trigDemoTables (trigLayer demoSin ⟨0, 5⟩ 1 4 10 (castArr goldP trigX))
    (fun out => ¬ IsUnary trigX (fun u w => w = (demoSin u : ZMod goldP)) out) :=
  C59_trig_saturates trigDemo (by norm_num) _ rfl (by decide +kernel) (c := [2]) (.cons (by decide) .nil) (u := 160) (by decide)
    (by decide +kernel)

example : Complete trigDemoTables (trigLayer demoSin ⟨0, 5⟩ 1 4 10 (castArr goldP trigX)) (IsUnary trigX fun u w =>
      w = (demoSin (saturate (trigBits 4 10) u) : ZMod goldP)) :=
  C59_trig_complete trigDemo
    ⟨by norm_num, by norm_num, by norm_num, by norm_num, by norm_num, by norm_num [slackBits, goldP]⟩
    ⟨by norm_num, by norm_num, by norm_num, by norm_num, by norm_num, by norm_num [slackBits, goldP]⟩ (by norm_num)
    _ rfl (by decide +kernel)

/-- With the usual `κ = 18` and any width of at least 20 bits, everything from 2 on is clamped. -/
example : trigBits 18 24 = 20 ∧ ∀ u : Int, 2 * 2 ^ 18 ≤ u → saturate (trigBits 18 24) u = 2 * 2 ^ 18 - 1 := by
  refine ⟨by decide, fun u hu => ?_⟩
  rw [show trigBits 18 24 = 20 by decide]
  unfold saturate
  norm_num at hu ⊢
  omega

end JST.Props
