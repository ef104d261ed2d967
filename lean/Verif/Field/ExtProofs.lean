import Verif.Field.Ext
import Verif.Field.GoldInv
import Verif.Spec.Ext
import Mathlib.FieldTheory.KummerExtension
import Mathlib.FieldTheory.Finite.Basic

/-!
# Extension fields: proofs
-/

namespace JST.Ext

open JST Polynomial JST.Spec

/-! ## Base field -/

/-- The base operations compute in `ZMod p` on the integers `V`. -/
structure BaseOk (B : Base) (p : Nat) (V : Nat → Prop) : Prop where
  add : ∀ {a b}, V a → V b → ∃ r, B.add a b = some r ∧ V r ∧ (r : ZMod p) = a + b
  sub : ∀ {a b}, V a → V b → ∃ r, B.sub a b = some r ∧ V r ∧ (r : ZMod p) = a - b
  mul : ∀ {a b}, V a → V b → ∃ r, B.mul a b = some r ∧ V r ∧ (r : ZMod p) = a * b
  neg : ∀ {a}, V a → ∃ r, B.neg a = some r ∧ V r ∧ (r : ZMod p) = -a
  isZero : ∀ {a}, V a → (B.isZero a = true ↔ (a : ZMod p) = 0)
  eq : ∀ {a b}, V a → V b → (B.eq a b = true ↔ (a : ZMod p) = b)

/-- The stored integers of Goldilocks elements. -/
def U64 (x : Nat) : Prop := x < 2 ^ 64

theorem goldOk : BaseOk gold goldP U64 where
  add := Gold.add_spec
  sub := Gold.sub_spec
  mul := Gold.mul_spec
  neg := Gold.neg_spec
  isZero := Gold.isZero_iff
  eq {a b} ha hb := by
    show Gold.eq a b = true ↔ _
    unfold Gold.eq
    rw [beq_iff_eq, Gold.reduce_canon ha, Gold.reduce_canon hb]
    exact (Gold.val_eq_iff a b).symm

/-- The stored integers of M31 elements. -/
def U31 (x : Nat) : Prop := x ≤ 2 ^ 31 - 1

theorem m31Ok : BaseOk m31 m31P U31 where
  add := M31.add_spec
  sub := M31.sub_spec
  mul := M31.mul_spec'
  neg := M31.neg_spec
  isZero := M31.isZero_iff
  eq {a b} ha hb := by
    show M31.eq a b = true ↔ _
    unfold M31.eq
    unfold U31 at ha hb
    rw [beq_iff_eq, M31.reduce32_canon (by omega), M31.reduce32_canon (by omega)]
    exact (M31.val_eq_iff a b).symm

/-- A computation that succeeds with the residue `z`. -/
def Ok (V : Nat → Prop) {p : Nat} (m : Option Nat) (z : ZMod p) : Prop :=
  ∃ r, m = some r ∧ V r ∧ (r : ZMod p) = z

section
variable {B : Base} {p : Nat} {V : Nat → Prop} (h : BaseOk B p V)
include h

theorem Ok.plus {m n : Option Nat} {x y : ZMod p} (hm : Ok V m x) (hn : Ok V n y) : Ok V (B.plus m n) (x + y) := by
  obtain ⟨a, rfl, va, rfl⟩ := hm
  obtain ⟨b, rfl, vb, rfl⟩ := hn
  exact h.add va vb

theorem Ok.times {m n : Option Nat} {x y : ZMod p} (hm : Ok V m x) (hn : Ok V n y) : Ok V (B.times m n) (x * y) := by
  obtain ⟨a, rfl, va, rfl⟩ := hm
  obtain ⟨b, rfl, vb, rfl⟩ := hn
  exact h.mul va vb

theorem Ok.sq {m : Option Nat} {x : ZMod p} (hm : Ok V m x) : Ok V (B.sq m) (x * x) := by
  obtain ⟨a, rfl, va, rfl⟩ := hm
  exact h.mul va va

theorem Ok.dbl {m : Option Nat} {x : ZMod p} (hm : Ok V m x) : Ok V (B.dbl m) (x + x) := by
  obtain ⟨a, rfl, va, rfl⟩ := hm
  exact h.add va va

end

theorem Ok.some {p : Nat} {V : Nat → Prop} {a : Nat} (va : V a) : Ok V (some a) (a : ZMod p) := ⟨a, rfl, va, rfl⟩

/-! ## Limbs -/

/-- All the limbs are stored values. -/
def E2.V (V : Nat → Prop) (a : E2) : Prop := V a.c0 ∧ V a.c1
def E3.V (V : Nat → Prop) (a : E3) : Prop := V a.c0 ∧ V a.c1 ∧ V a.c2
def E4.V (V : Nat → Prop) (a : E4) : Prop := V a.c0 ∧ V a.c1 ∧ V a.c2 ∧ V a.c3

theorem mk2_ok {V : Nat → Prop} {p : Nat} {m n : Option Nat} {x y : ZMod p} (hm : Ok V m x) (hn : Ok V n y) :
    ∃ r : E2, mk2 m n = some r ∧ r.V V ∧ (r.c0 : ZMod p) = x ∧ (r.c1 : ZMod p) = y := by
  obtain ⟨a, rfl, va, rfl⟩ := hm
  obtain ⟨b, rfl, vb, rfl⟩ := hn
  exact ⟨⟨a, b⟩, rfl, ⟨va, vb⟩, rfl, rfl⟩

theorem mk3_ok {V : Nat → Prop} {p : Nat} {m n o : Option Nat} {x y z : ZMod p} (hm : Ok V m x) (hn : Ok V n y)
    (ho : Ok V o z) :
    ∃ r : E3, mk3 m n o = some r ∧ r.V V ∧ (r.c0 : ZMod p) = x ∧ (r.c1 : ZMod p) = y ∧ (r.c2 : ZMod p) = z := by
  obtain ⟨a, rfl, va, rfl⟩ := hm
  obtain ⟨b, rfl, vb, rfl⟩ := hn
  obtain ⟨c, rfl, vc, rfl⟩ := ho
  exact ⟨⟨a, b, c⟩, rfl, ⟨va, vb, vc⟩, rfl, rfl, rfl⟩

theorem mk4_ok {V : Nat → Prop} {p : Nat} {m n o q : Option Nat} {x y z t : ZMod p} (hm : Ok V m x) (hn : Ok V n y)
    (ho : Ok V o z) (hq : Ok V q t) :
    ∃ r : E4, mk4 m n o q = some r ∧ r.V V ∧ (r.c0 : ZMod p) = x ∧ (r.c1 : ZMod p) = y ∧ (r.c2 : ZMod p) = z ∧
      (r.c3 : ZMod p) = t := by
  obtain ⟨a, rfl, va, rfl⟩ := hm
  obtain ⟨b, rfl, vb, rfl⟩ := hn
  obtain ⟨c, rfl, vc, rfl⟩ := ho
  obtain ⟨d, rfl, vd, rfl⟩ := hq
  exact ⟨⟨a, b, c, d⟩, rfl, ⟨va, vb, vc, vd⟩, rfl, rfl, rfl, rfl⟩

/-! ## Elements -/

section elem
variable {p n w : Nat}

theorem extX_pow : extX p n w ^ n = extC p n w w := by
  have : extX p n w ^ n - extC p n w w = 0 := by
    have := AdjoinRoot.eval₂_root (X ^ n - C (w : ZMod p) : (ZMod p)[X])
    simpa using this
  exact sub_eq_zero.mp this

/-- The polynomial of a list of limbs. -/
noncomputable def polyOf (p : Nat) (l : List Nat) : (ZMod p)[X] :=
  ∑ i ∈ Finset.range l.length, C ((l.getD i 0 : Nat) : ZMod p) * X ^ i

theorem extElem_mk (l : List Nat) : extElem p n w l = AdjoinRoot.mk _ (polyOf p l) := by
  unfold extElem polyOf
  rw [map_sum]
  refine Finset.sum_congr rfl fun i _ => ?_
  rw [map_mul, map_pow, AdjoinRoot.mk_X, AdjoinRoot.mk_C]

theorem polyOf_coeff (l : List Nat) (i : Nat) : (polyOf p l).coeff i = ((l.getD i 0 : Nat) : ZMod p) := by
  unfold polyOf
  rw [finsetSum_coeff]
  simp only [coeff_C_mul, coeff_X_pow]
  by_cases hi : i < l.length
  · rw [Finset.sum_eq_single i] <;> simp +contextual [hi, eq_comm]
  · rw [List.getD_eq_default _ _ (by omega)]
    rw [Finset.sum_eq_zero]; · simp
    intro j hj
    rw [Finset.mem_range] at hj
    rw [if_neg (by omega), mul_zero]

theorem polyOf_degree (l : List Nat) : (polyOf p l).degree < (l.length : WithBot ℕ) := by
  rw [degree_lt_iff_coeff_zero]
  intro m hm
  rw [polyOf_coeff, List.getD_eq_default _ _ hm, Nat.cast_zero]

theorem extElem_inj [Fact p.Prime] (hn : 0 < n) {l m : List Nat} (hl : l.length = n) (hm : m.length = n) :
    extElem p n w l = extElem p n w m ↔ ∀ i < n, ((l.getD i 0 : Nat) : ZMod p) = (m.getD i 0 : Nat) := by
  constructor
  · intro he i _
    rw [extElem_mk, extElem_mk, AdjoinRoot.mk_eq_mk] at he
    have hd : (polyOf p l - polyOf p m).degree < (X ^ n - C (w : ZMod p) : (ZMod p)[X]).degree := by
      rw [degree_X_pow_sub_C hn]
      refine lt_of_le_of_lt (degree_sub_le _ _) (max_lt ?_ ?_)
      · have := polyOf_degree (p := p) l; rwa [hl] at this
      · have := polyOf_degree (p := p) m; rwa [hm] at this
    have := Polynomial.eq_zero_of_dvd_of_degree_lt he hd
    have := congrArg (fun q => q.coeff i) this
    simp only [coeff_sub, polyOf_coeff, coeff_zero] at this
    exact sub_eq_zero.mp this
  · intro he
    unfold extElem
    rw [hl, hm]
    refine Finset.sum_congr rfl fun i hi => ?_
    rw [he i (Finset.mem_range.mp hi)]

theorem extElem_surj [Fact p.Prime] (hn : 0 < n) (y : ExtRing p n w) :
    ∃ l : List Nat, l.length = n ∧ (∀ c ∈ l, c < p) ∧ extElem p n w l = y := by
  have : NeZero p := ⟨(Fact.out : p.Prime).ne_zero⟩
  obtain ⟨f, rfl⟩ := AdjoinRoot.mk_surjective y
  have hmon : (X ^ n - C (w : ZMod p) : (ZMod p)[X]).Monic := monic_X_pow_sub_C _ hn.ne'
  set g := f %ₘ (X ^ n - C (w : ZMod p)) with hg
  have hdeg : g.degree < (n : WithBot ℕ) := by
    have := degree_modByMonic_lt f hmon
    rwa [degree_X_pow_sub_C hn] at this
  refine ⟨(List.range n).map fun i => (g.coeff i).val, by simp, ?_, ?_⟩
  · intro c hc
    obtain ⟨i, -, rfl⟩ := List.mem_map.mp hc
    exact ZMod.val_lt _
  · rw [extElem_mk]
    have : polyOf p ((List.range n).map fun i => (g.coeff i).val) = g := by
      ext i
      rw [polyOf_coeff]
      by_cases hi : i < n
      · simp [List.getD, hi]
      · rw [List.getD_eq_default _ _ (by simp; omega), Nat.cast_zero]
        exact (coeff_eq_zero_of_degree_lt (lt_of_lt_of_le hdeg (by exact_mod_cast (by omega : n ≤ i)))).symm
    rw [this, AdjoinRoot.mk_eq_mk]
    refine ⟨-(f /ₘ (X ^ n - C (w : ZMod p))), ?_⟩
    have := modByMonic_add_div f (X ^ n - C (w : ZMod p))
    rw [← hg] at this
    linear_combination this
 
theorem extElem2 (a : E2) : extElem p n w a.limbs = extC p n w a.c0 + extC p n w a.c1 * extX p n w := by
  simp [extElem, E2.limbs, Finset.sum_range_succ]

theorem extElem3 (a : E3) : extElem p n w a.limbs
    = extC p n w a.c0 + extC p n w a.c1 * extX p n w + extC p n w a.c2 * extX p n w ^ 2 := by
  simp [extElem, E3.limbs, Finset.sum_range_succ]

theorem extElem4 (a : E4) : extElem p n w a.limbs
    = extC p n w a.c0 + extC p n w a.c1 * extX p n w + extC p n w a.c2 * extX p n w ^ 2
      + extC p n w a.c3 * extX p n w ^ 3 := by
  simp [extElem, E4.limbs, Finset.sum_range_succ]

end elem

/-! ## Irreducibility -/

theorem gold_pow {a : Nat} (k r : Nat) (hk : k < 2 ^ 64) (h : powMod a goldP 64 k = r) :
    (a : ZMod goldP) ^ k = (r : ZMod goldP) := by
  rw [← h, powMod_eq _ _ _ _ hk, ZMod.natCast_mod]; push_cast; rfl

theorem gold_ne {a b : Nat} (h : a % goldP ≠ b % goldP) : (a : ZMod goldP) ≠ (b : ZMod goldP) := by
  rw [Ne, ZMod.natCast_eq_natCast_iff']; exact h

theorem m31_pow {a : Nat} (k r : Nat) (hk : k < 2 ^ 64) (h : powMod a m31P 64 k = r) :
    (a : ZMod m31P) ^ k = (r : ZMod m31P) := by
  rw [← h, powMod_eq _ _ _ _ hk, ZMod.natCast_mod]; push_cast; rfl

/-- A residue whose `(p-1)/q`-th power is not one is not a `q`-th power. -/
theorem not_power {p q : Nat} [Fact p.Prime] {a : ZMod p} (ha : a ≠ 0) (hq : q ∣ p - 1) (hq0 : 0 < q)
    (h : a ^ ((p - 1) / q) ≠ 1) (b : ZMod p) : b ^ q ≠ a := by
  rintro rfl
  have hb : b ≠ 0 := fun h0 => ha (by rw [h0, zero_pow hq0.ne'])
  rw [← pow_mul, Nat.mul_div_cancel' hq] at h
  exact h (ZMod.pow_card_sub_one_eq_one hb)

theorem gold7_pow : ((7 : Nat) : ZMod goldP) ^ ((goldP - 1) / 2) = ((18446744069414584320 : Nat) : ZMod goldP) :=
  gold_pow _ _ (by norm_num [goldP]) (by decide +kernel)

theorem gold_two_irr : Irreducible (X ^ 2 - C ((7 : Nat) : ZMod goldP)) := by
  refine X_pow_sub_C_irreducible_of_prime Nat.prime_two (not_power ?_ (by decide) (by norm_num) ?_)
  · have := gold_ne (a := 7) (b := 0) (by decide); simpa using this
  · rw [gold7_pow]
    have := gold_ne (a := 18446744069414584320) (b := 1) (by decide); simpa using this

theorem gold_three_irr : Irreducible (X ^ 3 - C ((2 : Nat) : ZMod goldP)) := by
  refine X_pow_sub_C_irreducible_of_prime Nat.prime_three (not_power ?_ (by decide) (by norm_num) ?_)
  · have := gold_ne (a := 2) (b := 0) (by decide); simpa using this
  · rw [gold_pow _ 4294967295 (by norm_num [goldP]) (by decide +kernel)]
    have := gold_ne (a := 4294967295) (b := 1) (by decide); simpa using this

theorem m31_three_irr : Irreducible (X ^ 3 - C ((5 : Nat) : ZMod m31P)) := by
  refine X_pow_sub_C_irreducible_of_prime Nat.prime_three (not_power ?_ (by decide) (by norm_num) ?_)
  · intro h
    have : ((5 : Nat) : ZMod m31P) = ((0 : Nat) : ZMod m31P) := by rw [h]; simp
    rw [ZMod.natCast_eq_natCast_iff'] at this
    revert this; decide
  · rw [m31_pow _ (powMod 5 m31P 64 ((m31P - 1) / 3)) (by norm_num [m31P]) rfl]
    intro h
    have : ((powMod 5 m31P 64 ((m31P - 1) / 3) : Nat) : ZMod m31P) = ((1 : Nat) : ZMod m31P) := by rw [h]; simp
    rw [ZMod.natCast_eq_natCast_iff'] at this
    revert this; decide +kernel

theorem gold_four_irr : Irreducible (X ^ 4 - C ((7 : Nat) : ZMod goldP)) := by
  refine X_pow_mul_sub_C_irreducible (n := 2) (m := 2) gold_two_irr ?_
  intro E _ _ x hx
  have hint : IsIntegral (ZMod goldP) x := not_not.mp fun h ↦ by
    simpa only [degree_zero, degree_X_pow_sub_C (by norm_num : 0 < 2), WithBot.natCast_ne_bot] using
      congr_arg degree (hx.symm.trans (dif_neg h))
  refine X_pow_sub_C_irreducible_of_prime Nat.prime_two fun b hb => ?_
  have hnorm : Algebra.norm (ZMod goldP) b ^ 2 = -((7 : Nat) : ZMod goldP) := by
    rw [← map_pow, hb, ← IntermediateField.adjoin.powerBasis_gen hint, Algebra.PowerBasis.norm_gen_eq_coeff_zero_minpoly]
    simp [IntermediateField.minpoly_gen, hx]
  refine not_power (p := goldP) (q := 2) (a := -((7 : Nat) : ZMod goldP)) ?_ (by decide) (by norm_num) ?_ _ hnorm
  · rw [neg_ne_zero]
    have := gold_ne (a := 7) (b := 0) (by decide); simpa using this
  · rw [neg_pow, gold7_pow, Even.neg_one_pow (by decide), one_mul]
    have := gold_ne (a := 18446744069414584320) (b := 1) (by decide); simpa using this

end JST.Ext
