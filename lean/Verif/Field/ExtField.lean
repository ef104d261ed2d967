import Verif.Field.ExtProofs

/-!
# Extension fields: Frobenius and inverses
-/

namespace JST.Ext

open JST Polynomial JST.Spec

instance gold2Fact : Fact (Irreducible (X ^ 2 - C ((7 : Nat) : ZMod goldP))) := ⟨gold_two_irr⟩
instance gold3Fact : Fact (Irreducible (X ^ 3 - C ((2 : Nat) : ZMod goldP))) := ⟨gold_three_irr⟩
instance gold4Fact : Fact (Irreducible (X ^ 4 - C ((7 : Nat) : ZMod goldP))) := ⟨gold_four_irr⟩
instance m31Fact : Fact (Irreducible (X ^ 3 - C ((5 : Nat) : ZMod m31P))) := ⟨m31_three_irr⟩

section const
variable {p n w : Nat}

theorem extC_mul (x y : ZMod p) : extC p n w (x * y) = extC p n w x * extC p n w y := map_mul _ _ _

theorem extC_pow (x : ZMod p) (k : Nat) : extC p n w (x ^ k) = extC p n w x ^ k := map_pow _ _ _

theorem extC_double (x : Nat) : extC p n w ((2 * x : Nat) : ZMod p) = 2 * extC p n w (x : ZMod p) := by
  rw [Nat.cast_mul, extC_mul]
  congr 1

end const

section frob
variable {p n w : Nat} [Fact p.Prime] [Fact (Irreducible (X ^ n - C (w : ZMod p)))]

instance extChar : CharP (ExtRing p n w) p :=
  charP_of_injective_algebraMap (algebraMap (ZMod p) (ExtRing p n w)).injective p

theorem extC_pow_card (x : ZMod p) : extC p n w x ^ p = extC p n w x := by
  rw [← map_pow, ZMod.pow_card]

theorem extX_pow_card {c : ZMod p} (hn : n ∣ p - 1) (hc : (w : ZMod p) ^ ((p - 1) / n) = c) :
    extX p n w ^ p = extC p n w c * extX p n w := by
  have hp := (Fact.out : p.Prime).one_lt
  have e : p = n * ((p - 1) / n) + 1 := by rw [Nat.mul_div_cancel' hn]; omega
  have e2 : extX p n w ^ p = extX p n w ^ (n * ((p - 1) / n) + 1) := congrArg (extX p n w ^ ·) e
  rw [e2, pow_succ, pow_mul, extX_pow, ← extC_pow, hc]

theorem frob2 {c : ZMod p} (hn : n ∣ p - 1) (hc : (w : ZMod p) ^ ((p - 1) / n) = c) (x y : ZMod p) :
    (extC p n w x + extC p n w y * extX p n w) ^ p
      = extC p n w x + extC p n w (y * c) * extX p n w := by
  rw [add_pow_char, mul_pow, extC_pow_card, extC_pow_card, extX_pow_card hn hc, extC_mul, mul_assoc]

theorem frob3 {c : ZMod p} (hn : n ∣ p - 1) (hc : (w : ZMod p) ^ ((p - 1) / n) = c) (x y z : ZMod p) :
    (extC p n w x + extC p n w y * extX p n w + extC p n w z * extX p n w ^ 2) ^ p
      = extC p n w x + extC p n w (y * c) * extX p n w + extC p n w (z * c ^ 2) * extX p n w ^ 2 := by
  rw [add_pow_char, frob2 hn hc, mul_pow, extC_pow_card, ← pow_mul, mul_comm 2 p, pow_mul, extX_pow_card hn hc]
  simp only [map_mul, map_pow]; ring

theorem frob4 {c : ZMod p} (hn : n ∣ p - 1) (hc : (w : ZMod p) ^ ((p - 1) / n) = c) (x y z t : ZMod p) :
    (extC p n w x + extC p n w y * extX p n w + extC p n w z * extX p n w ^ 2 + extC p n w t * extX p n w ^ 3) ^ p
      = extC p n w x + extC p n w (y * c) * extX p n w + extC p n w (z * c ^ 2) * extX p n w ^ 2
        + extC p n w (t * c ^ 3) * extX p n w ^ 3 := by
  rw [add_pow_char, frob3 hn hc, mul_pow, extC_pow_card, ← pow_mul, mul_comm 3 p, pow_mul, extX_pow_card hn hc]
  simp only [map_mul, map_pow]; ring

end frob

/-! ## Arithmetic -/

section two
variable {B : Base} {V : Nat → Prop} {p : Nat} (h : BaseOk B p V)
include h

theorem E2.mul_ok (v7 : V 7) {a b : E2} (ha : a.V V) (hb : b.V V) : ∃ r, E2.mul B a b = some r ∧ r.V V ∧
    extElem p 2 7 r.limbs = extElem p 2 7 a.limbs * extElem p 2 7 b.limbs := by
  obtain ⟨a0, a1⟩ := ha
  obtain ⟨b0, b1⟩ := hb
  obtain ⟨r, e, hr, e0, e1⟩ := mk2_ok
    (.plus h (h.mul a0 b0) (.times h (.some a1) (h.mul b1 v7)))
    (.plus h (h.mul a0 b1) (h.mul a1 b0))
  refine ⟨r, e, hr, ?_⟩
  rw [extElem2, extElem2, extElem2, e0, e1]
  have hX := extX_pow (p := p) (n := 2) (w := 7)
  simp only [map_add, map_mul]
  linear_combination -(extC p 2 7 a.c1 * extC p 2 7 b.c1) * hX

theorem E2.square_ok (v7 : V 7) {a : E2} (ha : a.V V) : ∃ r, E2.square B a = some r ∧ r.V V ∧
    extElem p 2 7 r.limbs = extElem p 2 7 a.limbs ^ 2 := by
  obtain ⟨a0, a1⟩ := ha
  obtain ⟨r, e, hr, e0, e1⟩ := mk2_ok
    (.plus h (.sq h (.some a0)) (.times h (.sq h (.some a1)) (.some v7)))
    (.times h (.some a0) (.dbl h (.some a1)))
  refine ⟨r, e, hr, ?_⟩
  rw [extElem2, extElem2, e0, e1]
  have hX := extX_pow (p := p) (n := 2) (w := 7)
  simp only [map_add, map_mul]
  linear_combination -(extC p 2 7 a.c1 * extC p 2 7 a.c1) * hX

theorem E2.scale_ok {n w : Nat} {a : E2} {b : Nat} (ha : a.V V) (hb : V b) : ∃ r, E2.scale B a b = some r ∧ r.V V ∧
    extElem p n w r.limbs = extElem p n w a.limbs * extC p n w b := by
  obtain ⟨a0, a1⟩ := ha
  obtain ⟨r, e, hr, e0, e1⟩ := mk2_ok (h.mul a0 hb) (h.mul a1 hb)
  refine ⟨r, e, hr, ?_⟩
  rw [extElem2, extElem2, e0, e1]
  simp only [map_mul]; ring

theorem E2.mulX_ok (v7 : V 7) {a : E2} (ha : a.V V) : ∃ r, E2.mulX B a = some r ∧ r.V V ∧
    extElem p 2 7 r.limbs = extElem p 2 7 a.limbs * extX p 2 7 := by
  obtain ⟨a0, a1⟩ := ha
  obtain ⟨r, e, hr, e0, e1⟩ := mk2_ok (h.mul a1 v7) (.some a0)
  refine ⟨r, e, hr, ?_⟩
  rw [extElem2, extElem2, e0, e1]
  have hX := extX_pow (p := p) (n := 2) (w := 7)
  simp only [map_mul]
  linear_combination -(extC p 2 7 a.c1) * hX

end two

section three
variable {B : Base} {V : Nat → Prop} {p w : Nat} (h : BaseOk B p V)
include h

theorem E3.mul_ok (vw : V w) {a b : E3} (ha : a.V V) (hb : b.V V) : ∃ r, E3.mul B w a b = some r ∧ r.V V ∧
    extElem p 3 w r.limbs = extElem p 3 w a.limbs * extElem p 3 w b.limbs := by
  obtain ⟨a0, a1, a2⟩ := ha
  obtain ⟨b0, b1, b2⟩ := hb
  obtain ⟨r, e, hr, e0, e1, e2⟩ := mk3_ok
    (.plus h (h.mul a0 b0) (.times h (.some vw) (.plus h (h.mul a1 b2) (h.mul a2 b1))))
    (.plus h (.plus h (h.mul a0 b1) (h.mul a1 b0)) (.times h (h.mul vw a2) (.some b2)))
    (.plus h (.plus h (h.mul a0 b2) (h.mul a1 b1)) (h.mul a2 b0))
  refine ⟨r, e, hr, ?_⟩
  rw [extElem3, extElem3, extElem3, e0, e1, e2]
  have hX := extX_pow (p := p) (n := 3) (w := w)
  simp only [map_add, map_mul]
  linear_combination -(extC p 3 w a.c1 * extC p 3 w b.c2 + extC p 3 w a.c2 * extC p 3 w b.c1
    + extC p 3 w a.c2 * extC p 3 w b.c2 * extX p 3 w) * hX

theorem E3.square_ok {w2 : Nat} (vw : V w) (vw2 : V w2) (hw2 : w2 = 2 * w) {a : E3} (ha : a.V V) :
    ∃ r, E3.square B w w2 a = some r ∧ r.V V ∧ extElem p 3 w r.limbs = extElem p 3 w a.limbs ^ 2 := by
  obtain ⟨a0, a1, a2⟩ := ha
  obtain ⟨r, e, hr, e0, e1, e2⟩ := mk3_ok
    (.plus h (.sq h (.some a0)) (.times h (.some vw2) (h.mul a1 a2)))
    (.plus h (.times h (.some a0) (.dbl h (.some a1))) (.times h (.some vw) (.sq h (.some a2))))
    (.plus h (.times h (.some a0) (.dbl h (.some a2))) (.sq h (.some a1)))
  refine ⟨r, e, hr, ?_⟩
  rw [extElem3, extElem3, e0, e1, e2]
  have hX := extX_pow (p := p) (n := 3) (w := w)
  have h2 : extC p 3 w (w2 : ZMod p) = 2 * extC p 3 w (w : ZMod p) := by rw [hw2]; exact extC_double w
  simp only [map_add, map_mul, h2]
  linear_combination -(2 * extC p 3 w a.c1 * extC p 3 w a.c2
    + extC p 3 w a.c2 * extC p 3 w a.c2 * extX p 3 w) * hX

theorem E3.scale_ok {n : Nat} {a : E3} {b : Nat} (ha : a.V V) (hb : V b) : ∃ r, E3.scale B a b = some r ∧ r.V V ∧
    extElem p n w r.limbs = extElem p n w a.limbs * extC p n w b := by
  obtain ⟨a0, a1, a2⟩ := ha
  obtain ⟨r, e, hr, e0, e1, e2⟩ := mk3_ok (h.mul a0 hb) (h.mul a1 hb) (h.mul a2 hb)
  refine ⟨r, e, hr, ?_⟩
  rw [extElem3, extElem3, e0, e1, e2]
  simp only [map_mul]; ring

theorem E3.mulX_ok (vw : V w) {a : E3} (ha : a.V V) : ∃ r, E3.mulX B w a = some r ∧ r.V V ∧
    extElem p 3 w r.limbs = extElem p 3 w a.limbs * extX p 3 w := by
  obtain ⟨a0, a1, a2⟩ := ha
  obtain ⟨r, e, hr, e0, e1, e2⟩ := mk3_ok (h.mul a2 vw) (.some a0) (.some a1)
  refine ⟨r, e, hr, ?_⟩
  rw [extElem3, extElem3, e0, e1, e2]
  have hX := extX_pow (p := p) (n := 3) (w := w)
  simp only [map_mul]
  linear_combination -(extC p 3 w a.c2) * hX

end three

section four
variable {B : Base} {V : Nat → Prop} {p : Nat} (h : BaseOk B p V)
include h

theorem E4.mul_ok (v7 : V 7) {a b : E4} (ha : a.V V) (hb : b.V V) : ∃ r, E4.mul B a b = some r ∧ r.V V ∧
    extElem p 4 7 r.limbs = extElem p 4 7 a.limbs * extElem p 4 7 b.limbs := by
  obtain ⟨a0, a1, a2, a3⟩ := ha
  obtain ⟨b0, b1, b2, b3⟩ := hb
  obtain ⟨r, e, hr, e0, e1, e2, e3⟩ := mk4_ok
    (.plus h (h.mul a0 b0) (.times h (.some v7) (.plus h (.plus h (h.mul a1 b3) (h.mul a2 b2)) (h.mul a3 b1))))
    (.plus h (.plus h (h.mul a0 b1) (h.mul a1 b0)) (.times h (.some v7) (.plus h (h.mul a2 b3) (h.mul a3 b2))))
    (.plus h (.plus h (.plus h (h.mul a0 b2) (h.mul a1 b1)) (h.mul a2 b0)) (.times h (h.mul v7 a3) (.some b3)))
    (.plus h (.plus h (.plus h (h.mul a0 b3) (h.mul a1 b2)) (h.mul a2 b1)) (h.mul a3 b0))
  refine ⟨r, e, hr, ?_⟩
  rw [extElem4, extElem4, extElem4, e0, e1, e2, e3]
  have hX := extX_pow (p := p) (n := 4) (w := 7)
  simp only [map_add, map_mul]
  linear_combination -(extC p 4 7 a.c1 * extC p 4 7 b.c3 + extC p 4 7 a.c2 * extC p 4 7 b.c2
    + extC p 4 7 a.c3 * extC p 4 7 b.c1
    + (extC p 4 7 a.c2 * extC p 4 7 b.c3 + extC p 4 7 a.c3 * extC p 4 7 b.c2) * extX p 4 7
    + extC p 4 7 a.c3 * extC p 4 7 b.c3 * extX p 4 7 ^ 2) * hX

theorem E4.square_ok (v7 : V 7) (v14 : V 14) {a : E4} (ha : a.V V) : ∃ r, E4.square B a = some r ∧ r.V V ∧
    extElem p 4 7 r.limbs = extElem p 4 7 a.limbs ^ 2 := by
  obtain ⟨a0, a1, a2, a3⟩ := ha
  obtain ⟨r, e, hr, e0, e1, e2, e3⟩ := mk4_ok
    (.plus h (.plus h (.sq h (.some a0)) (.times h (.some v14) (h.mul a1 a3))) (.times h (.some v7) (.sq h (.some a2))))
    (.plus h (.times h (.some a0) (.dbl h (.some a1))) (.times h (.some v7) (.dbl h (h.mul a2 a3))))
    (.plus h (.plus h (.times h (.some a0) (.dbl h (.some a2))) (.sq h (.some a1))) (.times h (.some v7) (.sq h (.some a3))))
    (.dbl h (.plus h (h.mul a0 a3) (h.mul a1 a2)))
  refine ⟨r, e, hr, ?_⟩
  rw [extElem4, extElem4, e0, e1, e2, e3]
  have hX := extX_pow (p := p) (n := 4) (w := 7)
  have h2 : extC p 4 7 ((14 : Nat) : ZMod p) = 2 * extC p 4 7 ((7 : Nat) : ZMod p) := extC_double 7
  simp only [map_add, map_mul, h2]
  linear_combination -(2 * extC p 4 7 a.c1 * extC p 4 7 a.c3 + extC p 4 7 a.c2 * extC p 4 7 a.c2
    + 2 * extC p 4 7 a.c2 * extC p 4 7 a.c3 * extX p 4 7
    + extC p 4 7 a.c3 * extC p 4 7 a.c3 * extX p 4 7 ^ 2) * hX

theorem E4.scale_ok {n w : Nat} {a : E4} {b : Nat} (ha : a.V V) (hb : V b) : ∃ r, E4.scale B a b = some r ∧ r.V V ∧
    extElem p n w r.limbs = extElem p n w a.limbs * extC p n w b := by
  obtain ⟨a0, a1, a2, a3⟩ := ha
  obtain ⟨r, e, hr, e0, e1, e2, e3⟩ := mk4_ok (h.mul a0 hb) (h.mul a1 hb) (h.mul a2 hb) (h.mul a3 hb)
  refine ⟨r, e, hr, ?_⟩
  rw [extElem4, extElem4, e0, e1, e2, e3]
  simp only [map_mul]; ring

theorem E4.mulX_ok (v7 : V 7) {a : E4} (ha : a.V V) : ∃ r, E4.mulX B a = some r ∧ r.V V ∧
    extElem p 4 7 r.limbs = extElem p 4 7 a.limbs * extX p 4 7 := by
  obtain ⟨a0, a1, a2, a3⟩ := ha
  obtain ⟨r, e, hr, e0, e1, e2, e3⟩ := mk4_ok (h.mul a3 v7) (.some a0) (.some a1) (.some a2)
  refine ⟨r, e, hr, ?_⟩
  rw [extElem4, extElem4, e0, e1, e2, e3]
  have hX := extX_pow (p := p) (n := 4) (w := 7)
  simp only [map_mul]
  linear_combination -(extC p 4 7 a.c3) * hX

end four

/-! ## Inverses -/

/-- What the base inversion gives back when it succeeds. -/
theorem goldInv_ok {ck : Int → Bool} {x : Nat} (hx : x < 2 ^ 64) (h0 : (x : ZMod goldP) ≠ 0) {r : Option Nat}
    (h : Gold.tryInverse ck x = some r) : ∃ v, r = some v ∧ v < 2 ^ 64 ∧ (v : ZMod goldP) * x = 1 := by
  rcases Gold.tryInverse_sound hx h with ⟨h, -⟩ | ⟨-, v, h1, h2, h3⟩
  · exact absurd h h0
  · exact ⟨v, h1, h2, h3⟩

theorem gold_omega2 : ((7 : Nat) : ZMod goldP) ^ ((goldP - 1) / 2) = -1 := by
  rw [gold7_pow, eq_neg_iff_add_eq_zero]
  exact (ZMod.natCast_eq_zero_iff (18446744069414584320 + 1) goldP).mpr (by decide) ▸ by push_cast; rfl

theorem gold_omega3 : ((2 : Nat) : ZMod goldP) ^ ((goldP - 1) / 3) = ((Gold.EPS : Nat) : ZMod goldP) :=
  gold_pow _ _ (by norm_num [goldP]) (by decide +kernel)

theorem gold_omega4 : ((7 : Nat) : ZMod goldP) ^ ((goldP - 1) / 4) = ((281474976710656 : Nat) : ZMod goldP) :=
  gold_pow _ _ (by norm_num [goldP]) (by decide +kernel)

theorem gold_cast_mul {a b c : Nat} (h : a * b % goldP = c % goldP) :
    (a : ZMod goldP) * (b : ZMod goldP) = (c : ZMod goldP) := by
  have := (ZMod.natCast_eq_natCast_iff' (a * b) c goldP).mpr h
  rw [← this]; push_cast; rfl

theorem eq_zero_of_mul_self {p : Nat} [Fact p.Prime] {x c : ZMod p} (h : x * c = x) (hc : c ≠ 1) : x = 0 := by
  have : x * (c - 1) = 0 := by linear_combination h
  rcases mul_eq_zero.mp this with h | h
  · exact h
  · exact absurd (sub_eq_zero.mp h) hc

theorem extC_ne_zero {p n w : Nat} [Fact p.Prime] [Fact (Irreducible (X ^ n - C (w : ZMod p)))] {x : ZMod p} :
    extC p n w x ≠ 0 ↔ x ≠ 0 := by
  rw [Ne, Ne, map_eq_zero]

/-! ### Coordinates -/

theorem inj2 {p w : Nat} [Fact p.Prime] {a b : E2} : extElem p 2 w a.limbs = extElem p 2 w b.limbs ↔
    (a.c0 : ZMod p) = b.c0 ∧ (a.c1 : ZMod p) = b.c1 := by
  rw [extElem_inj (l := a.limbs) (m := b.limbs) (n := 2) (by norm_num) rfl rfl]
  constructor
  · intro h; exact ⟨h 0 (by norm_num), h 1 (by norm_num)⟩
  · rintro ⟨h0, h1⟩ i hi
    interval_cases i
    exacts [h0, h1]

theorem inj3 {p w : Nat} [Fact p.Prime] {a b : E3} : extElem p 3 w a.limbs = extElem p 3 w b.limbs ↔
    (a.c0 : ZMod p) = b.c0 ∧ (a.c1 : ZMod p) = b.c1 ∧ (a.c2 : ZMod p) = b.c2 := by
  rw [extElem_inj (l := a.limbs) (m := b.limbs) (n := 3) (by norm_num) rfl rfl]
  constructor
  · intro h; exact ⟨h 0 (by norm_num), h 1 (by norm_num), h 2 (by norm_num)⟩
  · rintro ⟨h0, h1, h2⟩ i hi
    interval_cases i
    exacts [h0, h1, h2]

theorem inj4 {p w : Nat} [Fact p.Prime] {a b : E4} : extElem p 4 w a.limbs = extElem p 4 w b.limbs ↔
    (a.c0 : ZMod p) = b.c0 ∧ (a.c1 : ZMod p) = b.c1 ∧ (a.c2 : ZMod p) = b.c2 ∧ (a.c3 : ZMod p) = b.c3 := by
  rw [extElem_inj (l := a.limbs) (m := b.limbs) (n := 4) (by norm_num) rfl rfl]
  constructor
  · intro h; exact ⟨h 0 (by norm_num), h 1 (by norm_num), h 2 (by norm_num), h 3 (by norm_num)⟩
  · rintro ⟨h0, h1, h2, h3⟩ i hi
    interval_cases i
    exacts [h0, h1, h2, h3]

section zero
variable {B : Base} {V : Nat → Prop} {p w : Nat} [Fact p.Prime] (h : BaseOk B p V)
include h

theorem E2.isZero_iff {a : E2} (ha : a.V V) : a.isZero B = true ↔ extElem p 2 w a.limbs = 0 := by
  have hz : extElem p 2 w (E2.mk 0 0).limbs = 0 := by rw [extElem2]; simp
  rw [← hz, inj2, E2.isZero, Bool.and_eq_true, h.isZero ha.1, h.isZero ha.2]; simp

theorem E3.isZero_iff {a : E3} (ha : a.V V) : a.isZero B = true ↔ extElem p 3 w a.limbs = 0 := by
  have hz : extElem p 3 w (E3.mk 0 0 0).limbs = 0 := by rw [extElem3]; simp
  rw [← hz, inj3, E3.isZero, Bool.and_eq_true, Bool.and_eq_true, h.isZero ha.1, h.isZero ha.2.1, h.isZero ha.2.2]
  simp [and_assoc]

theorem E4.isZero_iff {a : E4} (ha : a.V V) : a.isZero B = true ↔ extElem p 4 w a.limbs = 0 := by
  have hz : extElem p 4 w (E4.mk 0 0 0 0).limbs = 0 := by rw [extElem4]; simp
  rw [← hz, inj4, E4.isZero, Bool.and_eq_true, Bool.and_eq_true, Bool.and_eq_true, h.isZero ha.1, h.isZero ha.2.1,
    h.isZero ha.2.2.1, h.isZero ha.2.2.2]
  simp [and_assoc]

end zero

/-! ### Frobenius and inverse -/

/-- The function called `frobenius` in degree 2 is the negation of the Frobenius map. -/
theorem E2.frob_ok {a : E2} (ha : a.V U64) : ∃ r, E2.frob gold a = some r ∧ r.V U64 ∧
    extElem goldP 2 7 r.limbs = -extElem goldP 2 7 a.limbs ^ goldP := by
  obtain ⟨a0, a1⟩ := ha
  have vm : U64 18446744069414584320 := by norm_num [U64]
  obtain ⟨r, e, hr, e0, e1⟩ := mk2_ok (p := goldP) (goldOk.mul a0 vm) (.times goldOk (.some a1) (goldOk.mul vm vm))
  refine ⟨r, e, hr, ?_⟩
  have hm : ((18446744069414584320 : Nat) : ZMod goldP) = -1 := by rw [← gold7_pow, gold_omega2]
  rw [extElem2, extElem2, frob2 (by decide) gold_omega2, e0, e1, hm]
  simp only [map_mul, map_neg, map_one]; ring

theorem card_pow2 (x : ExtRing goldP 2 7) : (x ^ goldP) ^ goldP = x := by
  obtain ⟨l, hl, -, rfl⟩ := extElem_surj (p := goldP) (n := 2) (w := 7) (by norm_num) x
  match l, hl with
  | [c, d], _ =>
    have e : extElem goldP 2 7 [c, d] = extElem goldP 2 7 (E2.mk c d).limbs := rfl
    rw [e, extElem2, frob2 (by decide) gold_omega2, frob2 (by decide) gold_omega2]
    ring_nf

theorem E2.inv_ok {ck : Int → Bool} {a : E2} (ha : a.V U64) (h0 : extElem goldP 2 7 a.limbs ≠ 0) :
    ∃ n0 : Nat, U64 n0 ∧ (n0 : ZMod goldP) ≠ 0 ∧ (Gold.tryInverse ck n0 = none → E2.inv ck a = none) ∧
      ∀ r, Gold.tryInverse ck n0 = some r → ∃ v : E2, E2.inv ck a = some (some v) ∧ v.V U64 ∧
        extElem goldP 2 7 v.limbs * extElem goldP 2 7 a.limbs = 1 := by
  have v7 : U64 7 := by norm_num [U64]
  obtain ⟨f, ef, vf, hf⟩ := E2.frob_ok ha
  obtain ⟨n, en, vn, hn⟩ := E2.mul_ok goldOk v7 vf ha
  have hnz : a.isZero gold = false := by
    rw [Bool.eq_false_iff, Ne, E2.isZero_iff (w := 7) goldOk ha]; exact h0
  set A := extElem goldP 2 7 a.limbs with hA
  have hfix : extElem goldP 2 7 n.limbs ^ goldP = extElem goldP 2 7 n.limbs := by
    have hodd : Odd goldP := by decide
    rw [hn, hf, mul_pow, hodd.neg_pow, card_pow2]; ring
  have n1 : (n.c1 : ZMod goldP) = 0 := by
    have hv : extElem goldP 2 7 n.limbs ^ goldP = extC goldP 2 7 n.c0 + extC goldP 2 7 (n.c1 * -1) * extX goldP 2 7 := by
      rw [extElem2, frob2 (by decide) gold_omega2]
    rw [hfix, ← ZMod.natCast_zmod_val ((n.c1 : ZMod goldP) * -1)] at hv
    have := (inj2 (p := goldP) (w := 7) (a := n) (b := ⟨n.c0, ((n.c1 : ZMod goldP) * -1).val⟩)).mp
      (by rw [hv, extElem2])
    have h1 := this.2
    rw [ZMod.natCast_zmod_val] at h1
    refine eq_zero_of_mul_self h1.symm ?_
    have := gold_ne (a := 18446744069414584320) (b := 1) (by decide)
    rw [← gold7_pow, gold_omega2] at this
    simpa using this
  have hnv : extElem goldP 2 7 n.limbs = extC goldP 2 7 n.c0 := by rw [extElem2, n1]; simp
  have hn0 : (n.c0 : ZMod goldP) ≠ 0 := by
    rw [← extC_ne_zero (n := 2) (w := 7), ← hnv, hn, hf]
    exact mul_ne_zero (neg_ne_zero.mpr (pow_ne_zero _ h0)) h0
  have hd : gold.eq n.c1 0 = true := by
    rw [goldOk.eq vn.2 (by norm_num [U64] : U64 0), n1]; simp
  refine ⟨n.c0, vn.1, hn0, ?_, ?_⟩
  · intro h
    simp only [E2.inv, hnz, ef, en, hd, h, Option.bind_some, Option.bind_none, if_true, Bool.false_eq_true, if_false]
  · intro r h
    obtain ⟨i, rfl, vi, hi⟩ := goldInv_ok vn.1 hn0 h
    obtain ⟨v, ev, vv, hv⟩ := E2.scale_ok (n := 2) (w := 7) goldOk vf vi
    refine ⟨v, ?_, vv, ?_⟩
    · simp only [E2.inv, hnz, ef, en, hd, h, ev, Option.bind_some, Option.map_some, if_true, Bool.false_eq_true, if_false]
    · have : extC goldP 2 7 i * extElem goldP 2 7 n.limbs = 1 := by rw [hnv, ← map_mul, hi, map_one]
      rw [hv]
      rw [hn] at this
      linear_combination this

theorem gold_e3 : ((Gold.EPS : Nat) : ZMod goldP) ^ 2 = ((18446744065119617025 : Nat) : ZMod goldP) := by
  rw [pow_two]; exact gold_cast_mul (by decide)

theorem gold_e3' : ((Gold.EPS : Nat) : ZMod goldP) ^ 3 = 1 := by
  rw [pow_succ, gold_e3]
  have := gold_cast_mul (a := 18446744065119617025) (b := Gold.EPS) (c := 1) (by decide)
  rw [this]; simp

theorem E3.frob_ok {a : E3} (ha : a.V U64) (k : Nat) : ∃ r, E3.frob gold a k = some r ∧ r.V U64 ∧
    extElem goldP 3 2 r.limbs = extElem goldP 3 2 a.limbs ^ goldP ^ (k % 3) := by
  obtain ⟨a0, a1, a2⟩ := ha
  have vm : U64 18446744065119617025 := by norm_num [U64]
  have ve : U64 Gold.EPS := by norm_num [U64, Gold.EPS]
  have hk : k % 3 < 3 := Nat.mod_lt _ (by norm_num)
  have f1 := frob3 (p := goldP) (n := 3) (w := 2) (by decide) gold_omega3
  unfold E3.frob
  interval_cases hm : k % 3
  · exact ⟨a, rfl, ⟨a0, a1, a2⟩, by simp⟩
  · obtain ⟨r, e, hr, e0, e1, e2⟩ := mk3_ok (p := goldP) (.some a0) (goldOk.mul a1 ve) (goldOk.mul a2 vm)
    refine ⟨r, by simpa using e, hr, ?_⟩
    rw [extElem3, extElem3, pow_one, f1, e0, e1, e2, gold_e3]
  · obtain ⟨r, e, hr, e0, e1, e2⟩ := mk3_ok (p := goldP) (.some a0) (goldOk.mul a1 vm) (goldOk.mul a2 ve)
    refine ⟨r, by simpa using e, hr, ?_⟩
    rw [extElem3, extElem3, sq goldP, pow_mul, f1, f1, e0, e1, e2, ← gold_e3]
    have h4 : ((a.c2 : ZMod goldP) * (Gold.EPS : Nat) ^ 2 * (Gold.EPS : Nat) ^ 2) = a.c2 * (Gold.EPS : Nat) := by
      linear_combination (a.c2 : ZMod goldP) * (Gold.EPS : Nat) * gold_e3'
    have h5 : ((a.c1 : ZMod goldP) * (Gold.EPS : Nat) * (Gold.EPS : Nat)) = a.c1 * (Gold.EPS : Nat) ^ 2 := by
      rw [pow_two, mul_assoc]
    rw [h4, h5]

theorem card_pow3 {p w : Nat} [Fact p.Prime] [Fact (Irreducible (X ^ 3 - C (w : ZMod p)))] {c : ZMod p} (hn : 3 ∣ p - 1)
    (hc : (w : ZMod p) ^ ((p - 1) / 3) = c) (hc3 : c ^ 3 = 1) (x : ExtRing p 3 w) : ((x ^ p) ^ p) ^ p = x := by
  obtain ⟨l, hl, -, rfl⟩ := extElem_surj (p := p) (n := 3) (w := w) (by norm_num) x
  match l, hl with
  | [x, d, e], _ =>
    have e : extElem p 3 w [x, d, e] = extElem p 3 w (E3.mk x d e).limbs := rfl
    rw [e, extElem3, frob3 hn hc, frob3 hn hc, frob3 hn hc]
    have h1 : ((d : ZMod p) * c * c * c) = d := by linear_combination (d : ZMod p) * hc3
    have h2 : (((E3.mk x d ‹_›).c2 : ZMod p) * c ^ 2 * c ^ 2 * c ^ 2) = (E3.mk x d ‹_›).c2 := by
      linear_combination ((E3.mk x d ‹_›).c2 : ZMod p) * (c ^ 3 + 1) * hc3
    dsimp only at h2 ⊢
    rw [h1, h2]

/-- An element fixed by the Frobenius map has only a constant coordinate. -/
theorem fixed3 {n : E3} (h : extElem goldP 3 2 n.limbs ^ goldP = extElem goldP 3 2 n.limbs) :
    (n.c1 : ZMod goldP) = 0 ∧ (n.c2 : ZMod goldP) = 0 := by
  have hv : extElem goldP 3 2 n.limbs ^ goldP = extC goldP 3 2 n.c0
      + extC goldP 3 2 (n.c1 * (Gold.EPS : Nat)) * extX goldP 3 2
      + extC goldP 3 2 (n.c2 * (Gold.EPS : Nat) ^ 2) * extX goldP 3 2 ^ 2 := by
    rw [extElem3, frob3 (by decide) gold_omega3]
  rw [h, ← ZMod.natCast_zmod_val ((n.c1 : ZMod goldP) * ((Gold.EPS : Nat) : ZMod goldP)),
    ← ZMod.natCast_zmod_val ((n.c2 : ZMod goldP) * ((Gold.EPS : Nat) : ZMod goldP) ^ 2)] at hv
  have := (inj3 (p := goldP) (w := 2) (a := n) (b := ⟨n.c0, ((n.c1 : ZMod goldP) * ((Gold.EPS : Nat) : ZMod goldP)).val,
    ((n.c2 : ZMod goldP) * ((Gold.EPS : Nat) : ZMod goldP) ^ 2).val⟩)).mp (by rw [hv, extElem3])
  obtain ⟨-, h1, h2⟩ := this
  rw [ZMod.natCast_zmod_val] at h1 h2
  refine ⟨eq_zero_of_mul_self h1.symm ?_, eq_zero_of_mul_self h2.symm ?_⟩
  · have := gold_ne (a := Gold.EPS) (b := 1) (by decide); simpa using this
  · rw [gold_e3]
    have := gold_ne (a := 18446744065119617025) (b := 1) (by decide); simpa using this

theorem E3.inv_ok {ck : Int → Bool} {a : E3} (ha : a.V U64) (h0 : extElem goldP 3 2 a.limbs ≠ 0) :
    ∃ n0 : Nat, U64 n0 ∧ (n0 : ZMod goldP) ≠ 0 ∧ (Gold.tryInverse ck n0 = none → E3.inv ck a = none) ∧
      ∀ r, Gold.tryInverse ck n0 = some r → ∃ v : E3, E3.inv ck a = some (some v) ∧ v.V U64 ∧
        extElem goldP 3 2 v.limbs * extElem goldP 3 2 a.limbs = 1 := by
  have v2 : U64 2 := by norm_num [U64]
  obtain ⟨f1, ef1, vf1, hf1⟩ := E3.frob_ok ha 1
  obtain ⟨f2, ef2, vf2, hf2⟩ := E3.frob_ok ha 2
  obtain ⟨t, et, vt, ht⟩ := E3.mul_ok goldOk v2 ha vf1
  obtain ⟨n, en, vn, hn⟩ := E3.mul_ok goldOk v2 vt vf2
  obtain ⟨q, eq, vq, hq⟩ := E3.mul_ok goldOk v2 vf1 vf2
  have hnz : a.isZero gold = false := by
    rw [Bool.eq_false_iff, Ne, E3.isZero_iff (w := 2) goldOk ha]; exact h0
  rw [show 1 % 3 = 1 by rfl, pow_one] at hf1
  rw [show 2 % 3 = 2 by rfl, sq goldP, pow_mul] at hf2
  set A := extElem goldP 3 2 a.limbs with hA
  have hfix : extElem goldP 3 2 n.limbs ^ goldP = extElem goldP 3 2 n.limbs := by
    rw [hn, ht, hf1, hf2, mul_pow, mul_pow, card_pow3 (by decide) gold_omega3 gold_e3']; ring
  obtain ⟨n1, n2⟩ := fixed3 hfix
  have hnv : extElem goldP 3 2 n.limbs = extC goldP 3 2 n.c0 := by rw [extElem3, n1, n2]; simp
  have hn0 : (n.c0 : ZMod goldP) ≠ 0 := by
    rw [← extC_ne_zero (n := 3) (w := 2), ← hnv, hn, ht, hf1, hf2]
    exact mul_ne_zero (mul_ne_zero h0 (pow_ne_zero _ h0)) (pow_ne_zero _ (pow_ne_zero _ h0))
  have z0 : U64 0 := by norm_num [U64]
  have hd1 : gold.eq n.c1 0 = true := by rw [goldOk.eq vn.2.1 z0, n1]; simp
  have hd2 : gold.eq n.c2 0 = true := by rw [goldOk.eq vn.2.2 z0, n2]; simp
  refine ⟨n.c0, vn.1, hn0, ?_, ?_⟩
  · intro h
    simp only [E3.inv, hnz, ef1, ef2, et, en, hd1, hd2, h, Option.bind_some, Option.bind_none, Bool.and_self, if_true,
      Bool.false_eq_true, if_false]
  · intro r h
    obtain ⟨i, rfl, vi, hi⟩ := goldInv_ok vn.1 hn0 h
    obtain ⟨v, ev, vv, hv⟩ := E3.scale_ok (n := 3) (w := 2) goldOk vq vi
    refine ⟨v, ?_, vv, ?_⟩
    · simp only [E3.inv, hnz, ef1, ef2, et, en, eq, hd1, hd2, h, ev, Option.bind_some, Option.map_some, Bool.and_self,
        if_true, Bool.false_eq_true, if_false]
    · have : extC goldP 3 2 i * extElem goldP 3 2 n.limbs = 1 := by rw [hnv, ← map_mul, hi, map_one]
      rw [hv, hq]
      rw [hn, ht] at this
      linear_combination this

/-! ### Degree 4 -/

/-- The fourth root of unity. -/
abbrev w4 : ZMod goldP := ((281474976710656 : Nat) : ZMod goldP)

theorem gold_w4_2 : w4 ^ 2 = ((18446744069414584320 : Nat) : ZMod goldP) := by
  rw [pow_two]; exact gold_cast_mul (by decide)

theorem gold_w4_3 : w4 ^ 3 = ((18446462594437873665 : Nat) : ZMod goldP) := by
  rw [pow_succ, gold_w4_2]; exact gold_cast_mul (by decide)

theorem gold_w4_4 : w4 ^ 4 = 1 := by
  rw [pow_succ, gold_w4_3]
  have := gold_cast_mul (a := 18446462594437873665) (b := 281474976710656) (c := 1) (by decide)
  rw [this]; simp

theorem frob4' (x y z t : ZMod goldP) :
    (extC goldP 4 7 x + extC goldP 4 7 y * extX goldP 4 7 + extC goldP 4 7 z * extX goldP 4 7 ^ 2
        + extC goldP 4 7 t * extX goldP 4 7 ^ 3) ^ goldP
      = extC goldP 4 7 x + extC goldP 4 7 (y * w4) * extX goldP 4 7 + extC goldP 4 7 (z * w4 ^ 2) * extX goldP 4 7 ^ 2
        + extC goldP 4 7 (t * w4 ^ 3) * extX goldP 4 7 ^ 3 := frob4 (by decide) gold_omega4 x y z t

theorem E4.frob_ok {a : E4} (ha : a.V U64) (k : Nat) : ∃ r, E4.frob gold a k = some r ∧ r.V U64 ∧
    extElem goldP 4 7 r.limbs = extElem goldP 4 7 a.limbs ^ goldP ^ (k % 4) := by
  obtain ⟨a0, a1, a2, a3⟩ := ha
  have v1 : U64 281474976710656 := by norm_num [U64]
  have v2 : U64 18446744069414584320 := by norm_num [U64]
  have v3 : U64 18446462594437873665 := by norm_num [U64]
  have vo : U64 1 := by norm_num [U64]
  have hk : k % 4 < 4 := Nat.mod_lt _ (by norm_num)
  have h4 := gold_w4_4
  have s2 (y : ZMod goldP) : y * w4 * w4 = y * w4 ^ 2 := by ring
  have s4 (y : ZMod goldP) : y * w4 ^ 2 * w4 ^ 2 = y * ((1 : Nat) : ZMod goldP) := by
    rw [Nat.cast_one]; linear_combination y * h4
  have s6 (y : ZMod goldP) : y * w4 ^ 3 * w4 ^ 3 = y * w4 ^ 2 := by linear_combination y * w4 ^ 2 * h4
  have t1 (y : ZMod goldP) : y * w4 * w4 * w4 = y * w4 ^ 3 := by ring
  have t2 (y : ZMod goldP) : y * w4 ^ 2 * w4 ^ 2 * w4 ^ 2 = y * w4 ^ 2 := by linear_combination y * w4 ^ 2 * h4
  have t3 (y : ZMod goldP) : y * w4 ^ 3 * w4 ^ 3 * w4 ^ 3 = y * w4 := by linear_combination (y * w4 ^ 5 + y * w4) * h4
  unfold E4.frob
  interval_cases hm : k % 4
  · exact ⟨a, rfl, ⟨a0, a1, a2, a3⟩, by simp⟩
  · obtain ⟨r, e, hr, e0, e1, e2, e3⟩ := mk4_ok (p := goldP) (.some a0) (goldOk.mul a1 v1) (goldOk.mul a2 v2)
      (goldOk.mul a3 v3)
    refine ⟨r, by simpa using e, hr, ?_⟩
    rw [extElem4, extElem4, pow_one, frob4', e0, e1, e2, e3, gold_w4_2, gold_w4_3]
  · obtain ⟨r, e, hr, e0, e1, e2, e3⟩ := mk4_ok (p := goldP) (.some a0) (goldOk.mul a1 v2) (goldOk.mul a2 vo)
      (goldOk.mul a3 v2)
    refine ⟨r, by simpa using e, hr, ?_⟩
    rw [extElem4, extElem4, sq goldP, pow_mul, frob4', frob4', e0, e1, e2, e3, s2, s4, s6, gold_w4_2]
  · obtain ⟨r, e, hr, e0, e1, e2, e3⟩ := mk4_ok (p := goldP) (.some a0) (goldOk.mul a1 v3) (goldOk.mul a2 v2)
      (goldOk.mul a3 v1)
    refine ⟨r, by simpa using e, hr, ?_⟩
    rw [extElem4, extElem4, pow_succ goldP, sq goldP, pow_mul, pow_mul, frob4', frob4', frob4', e0, e1, e2, e3, t1, t2, t3,
      gold_w4_2, gold_w4_3]

theorem card_pow4 (x : ExtRing goldP 4 7) : (((x ^ goldP) ^ goldP) ^ goldP) ^ goldP = x := by
  obtain ⟨l, hl, -, rfl⟩ := extElem_surj (p := goldP) (n := 4) (w := 7) (by norm_num) x
  have h4 := gold_w4_4
  match l, hl with
  | [x, d, e, f], _ =>
    have e : extElem goldP 4 7 [x, d, e, f] = extElem goldP 4 7 (E4.mk x d e f).limbs := rfl
    rw [e, extElem4, frob4', frob4', frob4', frob4']
    have s1 (y : ZMod goldP) : y * w4 * w4 * w4 * w4 = y := by linear_combination y * h4
    have s2 (y : ZMod goldP) : y * w4 ^ 2 * w4 ^ 2 * w4 ^ 2 * w4 ^ 2 = y := by
      linear_combination y * (w4 ^ 4 + 1) * h4
    have s3 (y : ZMod goldP) : y * w4 ^ 3 * w4 ^ 3 * w4 ^ 3 * w4 ^ 3 = y := by
      linear_combination y * (w4 ^ 8 + w4 ^ 4 + 1) * h4
    rw [s1, s2, s3]

theorem fixed4 {n : E4} (h : extElem goldP 4 7 n.limbs ^ goldP = extElem goldP 4 7 n.limbs) :
    (n.c1 : ZMod goldP) = 0 ∧ (n.c2 : ZMod goldP) = 0 ∧ (n.c3 : ZMod goldP) = 0 := by
  have hv : extElem goldP 4 7 n.limbs ^ goldP = extC goldP 4 7 n.c0
      + extC goldP 4 7 (n.c1 * w4) * extX goldP 4 7
      + extC goldP 4 7 (n.c2 * w4 ^ 2) * extX goldP 4 7 ^ 2 + extC goldP 4 7 (n.c3 * w4 ^ 3) * extX goldP 4 7 ^ 3 := by
    rw [extElem4, frob4']
  rw [h, ← ZMod.natCast_zmod_val ((n.c1 : ZMod goldP) * w4), ← ZMod.natCast_zmod_val ((n.c2 : ZMod goldP) * w4 ^ 2),
    ← ZMod.natCast_zmod_val ((n.c3 : ZMod goldP) * w4 ^ 3)] at hv
  have := (inj4 (p := goldP) (w := 7) (a := n) (b := ⟨n.c0, ((n.c1 : ZMod goldP) * w4).val,
    ((n.c2 : ZMod goldP) * w4 ^ 2).val, ((n.c3 : ZMod goldP) * w4 ^ 3).val⟩)).mp (by rw [hv, extElem4])
  obtain ⟨-, h1, h2, h3⟩ := this
  rw [ZMod.natCast_zmod_val] at h1 h2 h3
  refine ⟨eq_zero_of_mul_self h1.symm ?_, eq_zero_of_mul_self h2.symm ?_, eq_zero_of_mul_self h3.symm ?_⟩
  · have := gold_ne (a := 281474976710656) (b := 1) (by decide); simpa using this
  · rw [gold_w4_2]
    have := gold_ne (a := 18446744069414584320) (b := 1) (by decide); simpa using this
  · rw [gold_w4_3]
    have := gold_ne (a := 18446462594437873665) (b := 1) (by decide); simpa using this

theorem E4.inv_ok {ck : Int → Bool} {a : E4} (ha : a.V U64) (h0 : extElem goldP 4 7 a.limbs ≠ 0) :
    ∃ n0 : Nat, U64 n0 ∧ (n0 : ZMod goldP) ≠ 0 ∧ (Gold.tryInverse ck n0 = none → E4.inv ck a = none) ∧
      ∀ r, Gold.tryInverse ck n0 = some r → ∃ v : E4, E4.inv ck a = some (some v) ∧ v.V U64 ∧
        extElem goldP 4 7 v.limbs * extElem goldP 4 7 a.limbs = 1 := by
  have v7 : U64 7 := by norm_num [U64]
  obtain ⟨f1, ef1, vf1, hf1⟩ := E4.frob_ok ha 1
  obtain ⟨f2, ef2, vf2, hf2⟩ := E4.frob_ok ha 2
  obtain ⟨f3, ef3, vf3, hf3⟩ := E4.frob_ok ha 3
  obtain ⟨t, et, vt, ht⟩ := E4.mul_ok goldOk v7 ha vf1
  obtain ⟨u, eu, vu, hu⟩ := E4.mul_ok goldOk v7 vt vf2
  obtain ⟨n, en, vn, hn⟩ := E4.mul_ok goldOk v7 vu vf3
  obtain ⟨q, eq, vq, hq⟩ := E4.mul_ok goldOk v7 vf1 vf2
  obtain ⟨s, es, vs, hs⟩ := E4.mul_ok goldOk v7 vq vf3
  have hnz : a.isZero gold = false := by
    rw [Bool.eq_false_iff, Ne, E4.isZero_iff (w := 7) goldOk ha]; exact h0
  rw [show 1 % 4 = 1 by rfl, pow_one] at hf1
  rw [show 2 % 4 = 2 by rfl, sq goldP, pow_mul] at hf2
  rw [show 3 % 4 = 3 by rfl, pow_succ goldP, sq goldP, pow_mul, pow_mul] at hf3
  set A := extElem goldP 4 7 a.limbs with hA
  have hfix : extElem goldP 4 7 n.limbs ^ goldP = extElem goldP 4 7 n.limbs := by
    rw [hn, hu, ht, hf1, hf2, hf3, mul_pow, mul_pow, mul_pow, card_pow4]; ring
  obtain ⟨n1, n2, n3⟩ := fixed4 hfix
  have hnv : extElem goldP 4 7 n.limbs = extC goldP 4 7 n.c0 := by rw [extElem4, n1, n2, n3]; simp
  have hn0 : (n.c0 : ZMod goldP) ≠ 0 := by
    rw [← extC_ne_zero (n := 4) (w := 7), ← hnv, hn, hu, ht, hf1, hf2, hf3]
    exact mul_ne_zero (mul_ne_zero (mul_ne_zero h0 (pow_ne_zero _ h0)) (pow_ne_zero _ (pow_ne_zero _ h0)))
      (pow_ne_zero _ (pow_ne_zero _ (pow_ne_zero _ h0)))
  have z0 : U64 0 := by norm_num [U64]
  have hd1 : gold.eq n.c1 0 = true := by rw [goldOk.eq vn.2.1 z0, n1]; simp
  have hd2 : gold.eq n.c2 0 = true := by rw [goldOk.eq vn.2.2.1 z0, n2]; simp
  have hd3 : gold.eq n.c3 0 = true := by rw [goldOk.eq vn.2.2.2 z0, n3]; simp
  refine ⟨n.c0, vn.1, hn0, ?_, ?_⟩
  · intro h
    simp only [E4.inv, hnz, ef1, ef2, ef3, et, eu, en, hd1, hd2, hd3, h, Option.bind_some, Option.bind_none,
      Bool.and_self, if_true, Bool.false_eq_true, if_false]
  · intro r h
    obtain ⟨i, rfl, vi, hi⟩ := goldInv_ok vn.1 hn0 h
    obtain ⟨v, ev, vv, hv⟩ := E4.scale_ok (n := 4) (w := 7) goldOk vs vi
    refine ⟨v, ?_, vv, ?_⟩
    · simp only [E4.inv, hnz, ef1, ef2, ef3, et, eu, en, eq, es, hd1, hd2, hd3, h, ev, Option.bind_some,
        Option.map_some, Bool.and_self, if_true, Bool.false_eq_true, if_false]
    · have : extC goldP 4 7 i * extElem goldP 4 7 n.limbs = 1 := by rw [hnv, ← map_mul, hi, map_one]
      rw [hv, hs, hq]
      rw [hn, hu, ht] at this
      linear_combination this

/-! ### Mersenne-31 -/

theorem exp_odd {R : Type} [CommRing R] (x y : R) {e : Nat} (h : e % 2 = 1) : x * y * (y * y) ^ (e / 2) = x * y ^ e := by
  obtain ⟨k, rfl⟩ : ∃ k, e = 2 * k + 1 := ⟨e / 2, by omega⟩
  rw [show (2 * k + 1) / 2 = k by omega]; ring

theorem exp_even {R : Type} [CommRing R] (x y : R) {e : Nat} (h : ¬e % 2 = 1) : x * (y * y) ^ (e / 2) = x * y ^ e := by
  obtain ⟨k, rfl⟩ : ∃ k, e = 2 * k := ⟨e / 2, by omega⟩
  rw [show (2 * k) / 2 = k by omega]; ring

theorem expLoop_ok : ∀ (fuel e : Nat) (res t : E3), e < 2 ^ fuel → res.V U31 → t.V U31 →
    ∃ r, expLoop (E3.mul m31 5) fuel e res t = some r ∧ r.V U31 ∧
      extElem m31P 3 5 r.limbs = extElem m31P 3 5 res.limbs * extElem m31P 3 5 t.limbs ^ e := by
  intro fuel
  have v5 : U31 5 := by norm_num [U31]
  induction fuel with
  | zero =>
    intro e res t he hr ht
    obtain rfl : e = 0 := by simpa using he
    exact ⟨res, rfl, hr, by simp⟩
  | succ fuel ih =>
    intro e res t he hr ht
    unfold expLoop
    by_cases h0 : e = 0
    · rw [if_pos h0]; exact ⟨res, rfl, hr, by simp [h0]⟩
    · rw [if_neg h0]
      obtain ⟨t2, et, vt, hT⟩ := E3.mul_ok (p := m31P) m31Ok v5 ht ht
      have he2 : e / 2 < 2 ^ fuel := by rw [pow_succ] at he; omega
      by_cases h1 : e % 2 = 1
      · obtain ⟨r2, er, vr, hR⟩ := E3.mul_ok (p := m31P) m31Ok v5 hr ht
        obtain ⟨r, e1, e2, e3⟩ := ih (e / 2) r2 t2 he2 vr vt
        refine ⟨r, by rw [if_pos h1, er, Option.bind_some, et, Option.bind_some, e1], e2, ?_⟩
        rw [e3, hR, hT]
        exact exp_odd _ _ h1
      · obtain ⟨r, e1, e2, e3⟩ := ih (e / 2) res t2 he2 hr vt
        refine ⟨r, by rw [if_neg h1, Option.bind_some, et, Option.bind_some, e1], e2, ?_⟩
        rw [e3, hT]
        exact exp_even _ _ h1

theorem E3.invM31_ok {a : E3} (ha : a.V U31) (h0 : extElem m31P 3 5 a.limbs ≠ 0) :
    ∃ v : E3, E3.invM31 a = some (some v) ∧ v.V U31 ∧ extElem m31P 3 5 v.limbs * extElem m31P 3 5 a.limbs = 1 := by
  have hnz : a.isZero m31 = false := by
    rw [Bool.eq_false_iff, Ne, E3.isZero_iff (w := 5) m31Ok ha]; exact h0
  obtain ⟨v, ev, vv, hv⟩ := expLoop_ok 128 (2147483647 * 2147483647 * 2147483647 - 2) ⟨1, 0, 0⟩ a (by norm_num)
    ⟨by norm_num [U31], by norm_num [U31], by norm_num [U31]⟩ ha
  refine ⟨v, by simp [E3.invM31, hnz, ev], vv, ?_⟩
  have hone : extElem m31P 3 5 (E3.mk 1 0 0).limbs = 1 := by rw [extElem3]; simp
  have hc3 : (((5 : Nat) : ZMod m31P) ^ ((m31P - 1) / 3)) ^ 3 = 1 := by
    rw [← pow_mul, Nat.div_mul_cancel (by decide)]
    refine ZMod.pow_card_sub_one_eq_one ?_
    intro h
    have : ((5 : Nat) : ZMod m31P) = ((0 : Nat) : ZMod m31P) := by rw [h]; simp
    rw [ZMod.natCast_eq_natCast_iff'] at this
    revert this; decide
  have hcard := card_pow3 (p := m31P) (w := 5) (by decide) rfl hc3 (extElem m31P 3 5 a.limbs)
  rw [hv, hone, one_mul, ← pow_succ]
  rw [← pow_mul, ← pow_mul] at hcard
  have e : m31P * (m31P * m31P) = (2147483647 * 2147483647 * 2147483647 - 2 + 1) + 1 := by norm_num [m31P]
  rw [e] at hcard
  exact mul_right_cancel₀ h0 (by rw [one_mul, ← pow_succ]; exact hcard)

end JST.Ext
