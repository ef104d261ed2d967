import Verif.Field.ExtAdd

/-!
# Property C65: the extension fields
-/

namespace JST.Props

open JST JST.Spec JST.Ext Polynomial

/-- `ops` computes in `F_p[X] / (X^n - w)`: an element stands for the polynomial whose coefficients are its limbs, each
limb being any integer with `V`, and no operation but the inverse can fail. -/
structure ComputesIn (p n w : Nat) (V : Nat → Prop) {E : Type} (ops : Ops E) : Prop where
  /-- An element is its `n` limbs. -/
  limbs_length : ∀ a, (ops.limbs a).length = n
  limbs_ofLimbs : ∀ l, l.length = n → ops.limbs (ops.ofLimbs l) = l
  ofLimbs_limbs : ∀ a, ops.ofLimbs (ops.limbs a) = a
  /-- Every member of the ring has a representation. -/
  represented : ∀ z : ExtRing p n w, ∃ a, (∀ c ∈ ops.limbs a, V c) ∧ extElem p n w (ops.limbs a) = z
  add : ∀ a b, (∀ c ∈ ops.limbs a, V c) → (∀ c ∈ ops.limbs b, V c) → ∃ r, ops.add a b = some r ∧
    (∀ c ∈ ops.limbs r, V c) ∧
    extElem p n w (ops.limbs r) = extElem p n w (ops.limbs a) + extElem p n w (ops.limbs b)
  sub : ∀ a b, (∀ c ∈ ops.limbs a, V c) → (∀ c ∈ ops.limbs b, V c) → ∃ r, ops.sub a b = some r ∧
    (∀ c ∈ ops.limbs r, V c) ∧
    extElem p n w (ops.limbs r) = extElem p n w (ops.limbs a) - extElem p n w (ops.limbs b)
  neg : ∀ a, (∀ c ∈ ops.limbs a, V c) → ∃ r, ops.neg a = some r ∧ (∀ c ∈ ops.limbs r, V c) ∧
    extElem p n w (ops.limbs r) = -extElem p n w (ops.limbs a)
  mul : ∀ a b, (∀ c ∈ ops.limbs a, V c) → (∀ c ∈ ops.limbs b, V c) → ∃ r, ops.mul a b = some r ∧
    (∀ c ∈ ops.limbs r, V c) ∧
    extElem p n w (ops.limbs r) = extElem p n w (ops.limbs a) * extElem p n w (ops.limbs b)
  square : ∀ a, (∀ c ∈ ops.limbs a, V c) → ∃ r, ops.square a = some r ∧ (∀ c ∈ ops.limbs r, V c) ∧
    extElem p n w (ops.limbs r) = extElem p n w (ops.limbs a) ^ 2
  scale : ∀ a b, (∀ c ∈ ops.limbs a, V c) → V b → ∃ r, ops.scale a b = some r ∧ (∀ c ∈ ops.limbs r, V c) ∧
    extElem p n w (ops.limbs r) = extElem p n w (ops.limbs a) * extC p n w b
  addBase : ∀ a b, (∀ c ∈ ops.limbs a, V c) → V b → ∃ r, ops.addBase a b = some r ∧ (∀ c ∈ ops.limbs r, V c) ∧
    extElem p n w (ops.limbs r) = extElem p n w (ops.limbs a) + extC p n w b
  mulX : ∀ a, (∀ c ∈ ops.limbs a, V c) → ∃ r, ops.mulX a = some r ∧ (∀ c ∈ ops.limbs r, V c) ∧
    extElem p n w (ops.limbs r) = extElem p n w (ops.limbs a) * extX p n w
  /-- Equality and the zero test see the value, not its representation. -/
  eq : ∀ a b, (∀ c ∈ ops.limbs a, V c) → (∀ c ∈ ops.limbs b, V c) →
    (ops.eq a b = true ↔ extElem p n w (ops.limbs a) = extElem p n w (ops.limbs b))
  isZero : ∀ a, (∀ c ∈ ops.limbs a, V c) → (ops.isZero a = true ↔ extElem p n w (ops.limbs a) = 0)
  /-- The inverse is refused of zero, and otherwise what it returns is the inverse. -/
  inv_zero : ∀ a, (∀ c ∈ ops.limbs a, V c) → extElem p n w (ops.limbs a) = 0 → ops.inv a = some none
  inv : ∀ a o, (∀ c ∈ ops.limbs a, V c) → extElem p n w (ops.limbs a) ≠ 0 → ops.inv a = some o →
    ∃ v, o = some v ∧ (∀ c ∈ ops.limbs v, V c) ∧
      extElem p n w (ops.limbs v) * extElem p n w (ops.limbs a) = 1

theorem goldExt2_computes {ck : Int → Bool} : ComputesIn goldP 2 7 U64 (goldExt2 ck) := by
  have V1 {a : E2} (h : ∀ c ∈ a.limbs, U64 c) : a.V U64 := E2.V_iff.mpr h
  have up {m : Option E2} {z : ExtRing goldP 2 7}
      (h : ∃ r, m = some r ∧ r.V U64 ∧ extElem goldP 2 7 r.limbs = z) :
      ∃ r, m = some r ∧ (∀ c ∈ r.limbs, U64 c) ∧ extElem goldP 2 7 r.limbs = z := by
    obtain ⟨r, e, v, h⟩ := h
    exact ⟨r, e, E2.V_iff.mp v, h⟩
  refine
    { limbs_length := fun _ => rfl
      limbs_ofLimbs := fun l hl => ?_
      ofLimbs_limbs := fun _ => rfl
      represented := fun z => ?_
      add := fun a b ha hb => up (E2.add_ok goldOk (V1 ha) (V1 hb))
      sub := fun a b ha hb => up (E2.sub_ok goldOk (V1 ha) (V1 hb))
      neg := fun a ha => up (E2.neg_ok goldOk (V1 ha))
      mul := fun a b ha hb => up (E2.mul_ok goldOk (by norm_num [U64]) (V1 ha) (V1 hb))
      square := fun a ha => up (E2.square_ok goldOk (by norm_num [U64]) (V1 ha))
      scale := fun a b ha hb => up (E2.scale_ok goldOk (V1 ha) hb)
      addBase := fun a b ha hb => up (E2.addBase_ok goldOk (V1 ha) hb)
      mulX := fun a ha => up (E2.mulX_ok goldOk (by norm_num [U64]) (V1 ha))
      eq := fun a b ha hb => E2.eq_iff goldOk (V1 ha) (V1 hb)
      isZero := fun a ha => E2.isZero_iff goldOk (V1 ha)
      inv_zero := fun a ha h => ?_
      inv := fun a o ha h ho => ?_ }
  · match l, hl with
    | [x, y], _ => rfl
  · obtain ⟨l, hl, hv, rfl⟩ := extElem_surj (p := goldP) (n := 2) (w := 7) (by norm_num) z
    match l, hl with
    | [x, y], _ => exact ⟨E2.ofLimbs [x, y], fun c hc => lt_trans (hv c hc) (by norm_num [goldP]), rfl⟩
  · have := (E2.isZero_iff (w := 7) goldOk (V1 ha)).mpr h
    show E2.inv ck a = _
    unfold E2.inv
    rw [if_pos this]
  · obtain ⟨n0, v0, h0, h1, h2⟩ := E2.inv_ok (ck := ck) (V1 ha) h
    have ho : E2.inv ck a = some o := ho
    rcases hr : Gold.tryInverse ck n0 with _ | r
    · rw [h1 hr] at ho; cases ho
    · obtain ⟨v, e, vv, hv⟩ := h2 r hr
      rw [e] at ho
      exact ⟨v, (Option.some.inj ho).symm, E2.V_iff.mp vv, hv⟩

theorem goldExt3_computes {ck : Int → Bool} : ComputesIn goldP 3 2 U64 (goldExt3 ck) := by
  have V1 {a : E3} (h : ∀ c ∈ a.limbs, U64 c) : a.V U64 := E3.V_iff.mpr h
  have up {m : Option E3} {z : ExtRing goldP 3 2}
      (h : ∃ r, m = some r ∧ r.V U64 ∧ extElem goldP 3 2 r.limbs = z) :
      ∃ r, m = some r ∧ (∀ c ∈ r.limbs, U64 c) ∧ extElem goldP 3 2 r.limbs = z := by
    obtain ⟨r, e, v, h⟩ := h
    exact ⟨r, e, E3.V_iff.mp v, h⟩
  refine
    { limbs_length := fun _ => rfl
      limbs_ofLimbs := fun l hl => ?_
      ofLimbs_limbs := fun _ => rfl
      represented := fun z => ?_
      add := fun a b ha hb => up (E3.add_ok goldOk (V1 ha) (V1 hb))
      sub := fun a b ha hb => up (E3.sub_ok goldOk (V1 ha) (V1 hb))
      neg := fun a ha => up (E3.neg_ok goldOk (V1 ha))
      mul := fun a b ha hb => up (E3.mul_ok goldOk (by norm_num [U64]) (V1 ha) (V1 hb))
      square := fun a ha => up (E3.square_ok (w := 2) (w2 := 4) goldOk (by norm_num [U64]) (by norm_num [U64]) (by norm_num) (V1 ha))
      scale := fun a b ha hb => up (E3.scale_ok goldOk (V1 ha) hb)
      addBase := fun a b ha hb => up (E3.addBase_ok goldOk (V1 ha) hb)
      mulX := fun a ha => up (E3.mulX_ok goldOk (by norm_num [U64]) (V1 ha))
      eq := fun a b ha hb => E3.eq_iff goldOk (V1 ha) (V1 hb)
      isZero := fun a ha => E3.isZero_iff goldOk (V1 ha)
      inv_zero := fun a ha h => ?_
      inv := fun a o ha h ho => ?_ }
  · match l, hl with
    | [x, y, z], _ => rfl
  · obtain ⟨l, hl, hv, rfl⟩ := extElem_surj (p := goldP) (n := 3) (w := 2) (by norm_num) z
    match l, hl with
    | [x, y, z], _ => exact ⟨E3.ofLimbs [x, y, z], fun c hc => lt_trans (hv c hc) (by norm_num [goldP]), rfl⟩
  · have := (E3.isZero_iff (w := 2) goldOk (V1 ha)).mpr h
    show E3.inv ck a = _
    unfold E3.inv
    rw [if_pos this]
  · obtain ⟨n0, v0, h0, h1, h2⟩ := E3.inv_ok (ck := ck) (V1 ha) h
    have ho : E3.inv ck a = some o := ho
    rcases hr : Gold.tryInverse ck n0 with _ | r
    · rw [h1 hr] at ho; cases ho
    · obtain ⟨v, e, vv, hv⟩ := h2 r hr
      rw [e] at ho
      exact ⟨v, (Option.some.inj ho).symm, E3.V_iff.mp vv, hv⟩

theorem goldExt4_computes {ck : Int → Bool} : ComputesIn goldP 4 7 U64 (goldExt4 ck) := by
  have V1 {a : E4} (h : ∀ c ∈ a.limbs, U64 c) : a.V U64 := E4.V_iff.mpr h
  have up {m : Option E4} {z : ExtRing goldP 4 7}
      (h : ∃ r, m = some r ∧ r.V U64 ∧ extElem goldP 4 7 r.limbs = z) :
      ∃ r, m = some r ∧ (∀ c ∈ r.limbs, U64 c) ∧ extElem goldP 4 7 r.limbs = z := by
    obtain ⟨r, e, v, h⟩ := h
    exact ⟨r, e, E4.V_iff.mp v, h⟩
  refine
    { limbs_length := fun _ => rfl
      limbs_ofLimbs := fun l hl => ?_
      ofLimbs_limbs := fun _ => rfl
      represented := fun z => ?_
      add := fun a b ha hb => up (E4.add_ok goldOk (V1 ha) (V1 hb))
      sub := fun a b ha hb => up (E4.sub_ok goldOk (V1 ha) (V1 hb))
      neg := fun a ha => up (E4.neg_ok goldOk (V1 ha))
      mul := fun a b ha hb => up (E4.mul_ok goldOk (by norm_num [U64]) (V1 ha) (V1 hb))
      square := fun a ha => up (E4.square_ok goldOk (by norm_num [U64]) (by norm_num [U64]) (V1 ha))
      scale := fun a b ha hb => up (E4.scale_ok goldOk (V1 ha) hb)
      addBase := fun a b ha hb => up (E4.addBase_ok goldOk (V1 ha) hb)
      mulX := fun a ha => up (E4.mulX_ok goldOk (by norm_num [U64]) (V1 ha))
      eq := fun a b ha hb => E4.eq_iff goldOk (V1 ha) (V1 hb)
      isZero := fun a ha => E4.isZero_iff goldOk (V1 ha)
      inv_zero := fun a ha h => ?_
      inv := fun a o ha h ho => ?_ }
  · match l, hl with
    | [x, y, z, t], _ => rfl
  · obtain ⟨l, hl, hv, rfl⟩ := extElem_surj (p := goldP) (n := 4) (w := 7) (by norm_num) z
    match l, hl with
    | [x, y, z, t], _ => exact ⟨E4.ofLimbs [x, y, z, t], fun c hc => lt_trans (hv c hc) (by norm_num [goldP]), rfl⟩
  · have := (E4.isZero_iff (w := 7) goldOk (V1 ha)).mpr h
    show E4.inv ck a = _
    unfold E4.inv
    rw [if_pos this]
  · obtain ⟨n0, v0, h0, h1, h2⟩ := E4.inv_ok (ck := ck) (V1 ha) h
    have ho : E4.inv ck a = some o := ho
    rcases hr : Gold.tryInverse ck n0 with _ | r
    · rw [h1 hr] at ho; cases ho
    · obtain ⟨v, e, vv, hv⟩ := h2 r hr
      rw [e] at ho
      exact ⟨v, (Option.some.inj ho).symm, E4.V_iff.mp vv, hv⟩

theorem m31Ext3_computes : ComputesIn m31P 3 5 U31 m31Ext3 := by
  have V1 {a : E3} (h : ∀ c ∈ a.limbs, U31 c) : a.V U31 := E3.V_iff.mpr h
  have up {m : Option E3} {z : ExtRing m31P 3 5}
      (h : ∃ r, m = some r ∧ r.V U31 ∧ extElem m31P 3 5 r.limbs = z) :
      ∃ r, m = some r ∧ (∀ c ∈ r.limbs, U31 c) ∧ extElem m31P 3 5 r.limbs = z := by
    obtain ⟨r, e, v, h⟩ := h
    exact ⟨r, e, E3.V_iff.mp v, h⟩
  refine
    { limbs_length := fun _ => rfl
      limbs_ofLimbs := fun l hl => ?_
      ofLimbs_limbs := fun _ => rfl
      represented := fun z => ?_
      add := fun a b ha hb => up (E3.add_ok (n := 3) (w := 5) m31Ok (V1 ha) (V1 hb))
      sub := fun a b ha hb => by
        have k := E3.sub_ok (n := 3) (w := 5) m31Ok (V1 ha) (V1 hb)
        rw [show m31Ext3.sub = E3.sub m31 by simp only [m31Ext3]]
        exact up k
      neg := fun a ha => up (E3.neg_ok (n := 3) (w := 5) m31Ok (V1 ha))
      mul := fun a b ha hb => up (E3.mul_ok m31Ok (by norm_num [U31]) (V1 ha) (V1 hb))
      square := fun a ha => up (E3.square_ok (w := 5) (w2 := 10) m31Ok (by norm_num [U31]) (by norm_num [U31]) (by norm_num) (V1 ha))
      scale := fun a b ha hb => up (E3.scale_ok (n := 3) (w := 5) m31Ok (V1 ha) hb)
      addBase := fun a b ha hb => up (E3.addBase_ok (n := 3) (w := 5) m31Ok (V1 ha) hb)
      mulX := fun a ha => up (E3.mulX_ok m31Ok (by norm_num [U31]) (V1 ha))
      eq := fun a b ha hb => E3.eq_iff m31Ok (V1 ha) (V1 hb)
      isZero := fun a ha => E3.isZero_iff m31Ok (V1 ha)
      inv_zero := fun a ha h => ?_
      inv := fun a o ha h ho => ?_ }
  · match l, hl with
    | [x, y, z], _ => rfl
  · obtain ⟨l, hl, hv, rfl⟩ := extElem_surj (p := m31P) (n := 3) (w := 5) (by norm_num) z
    match l, hl with
    | [x, y, z], _ => exact ⟨E3.ofLimbs [x, y, z], fun c hc => Nat.le_of_lt_succ (lt_trans (hv c hc) (by norm_num [m31P])), rfl⟩
  · have := (E3.isZero_iff (w := 5) m31Ok (V1 ha)).mpr h
    show E3.invM31 a = _
    unfold E3.invM31
    rw [if_pos this]
  · obtain ⟨v, e, vv, hv⟩ := E3.invM31_ok (V1 ha) h
    have ho : E3.invM31 a = some o := ho
    rw [e] at ho
    exact ⟨v, (Option.some.inj ho).symm, E3.V_iff.mp vv, hv⟩

/-- **C65, the types.** `GoldilocksExt2`, `GoldilocksExt3`, `GoldilocksExt4` and `M31Ext3` compute in the rings
`F_p[X] / (X^n - w)` with `(n, w)` equal to `(2, 7)`, `(3, 2)`, `(4, 7)` and `(3, 5)`, on every representation of their
limbs, canonical or not, and whatever the overflow checks `ck` of the Goldilocks inverse do. -/
theorem C65_extension_arithmetic (ck : Int → Bool) :
    ComputesIn goldP 2 7 (· < 2 ^ 64) (goldExt2 ck) ∧ ComputesIn goldP 3 2 (· < 2 ^ 64) (goldExt3 ck) ∧
      ComputesIn goldP 4 7 (· < 2 ^ 64) (goldExt4 ck) ∧ ComputesIn m31P 3 5 (· ≤ 2 ^ 31 - 1) m31Ext3 :=
  ⟨goldExt2_computes, goldExt3_computes, goldExt4_computes, m31Ext3_computes⟩

/-- **C65, fields.** The four polynomials are irreducible, so the rings are fields. -/
theorem C65_extension_fields :
    Irreducible (X ^ 2 - C ((7 : Nat) : ZMod goldP)) ∧ Irreducible (X ^ 3 - C ((2 : Nat) : ZMod goldP)) ∧
      Irreducible (X ^ 4 - C ((7 : Nat) : ZMod goldP)) ∧ Irreducible (X ^ 3 - C ((5 : Nat) : ZMod m31P)) :=
  ⟨gold_two_irr, gold_three_irr, gold_four_irr, m31_three_irr⟩

/-- **C65, inverses (partial).** Every non-zero element of `M31Ext3` gets its inverse, and so does every non-zero element
of the Goldilocks extensions if the counters of the Goldilocks inverse are unbounded integers. Missing: that those
counters never leave the range of `i128`, as for C28. -/
theorem C65_extension_inverse_partial :
    (∀ a : E2, (∀ c ∈ a.limbs, c < 2 ^ 64) → extElem goldP 2 7 a.limbs ≠ 0 →
      ∃ v, (goldExt2 fun _ => true).inv a = some (some v) ∧ extElem goldP 2 7 v.limbs * extElem goldP 2 7 a.limbs = 1) ∧
    (∀ a : E3, (∀ c ∈ a.limbs, c < 2 ^ 64) → extElem goldP 3 2 a.limbs ≠ 0 →
      ∃ v, (goldExt3 fun _ => true).inv a = some (some v) ∧ extElem goldP 3 2 v.limbs * extElem goldP 3 2 a.limbs = 1) ∧
    (∀ a : E4, (∀ c ∈ a.limbs, c < 2 ^ 64) → extElem goldP 4 7 a.limbs ≠ 0 →
      ∃ v, (goldExt4 fun _ => true).inv a = some (some v) ∧ extElem goldP 4 7 v.limbs * extElem goldP 4 7 a.limbs = 1) ∧
    (∀ a : E3, (∀ c ∈ a.limbs, c ≤ 2 ^ 31 - 1) → extElem m31P 3 5 a.limbs ≠ 0 →
      ∃ v, m31Ext3.inv a = some (some v) ∧ extElem m31P 3 5 v.limbs * extElem m31P 3 5 a.limbs = 1) := by
  refine ⟨fun a ha h => ?_, fun a ha h => ?_, fun a ha h => ?_, fun a ha h => ?_⟩
  · obtain ⟨n0, v0, -, -, h2⟩ := E2.inv_ok (ck := fun _ => true) (E2.V_iff.mpr ha) h
    obtain ⟨r, hr⟩ := Gold.tryInverse_total v0
    obtain ⟨v, e, -, hv⟩ := h2 r hr
    exact ⟨v, e, hv⟩
  · obtain ⟨n0, v0, -, -, h2⟩ := E3.inv_ok (ck := fun _ => true) (E3.V_iff.mpr ha) h
    obtain ⟨r, hr⟩ := Gold.tryInverse_total v0
    obtain ⟨v, e, -, hv⟩ := h2 r hr
    exact ⟨v, e, hv⟩
  · obtain ⟨n0, v0, -, -, h2⟩ := E4.inv_ok (ck := fun _ => true) (E4.V_iff.mpr ha) h
    obtain ⟨r, hr⟩ := Gold.tryInverse_total v0
    obtain ⟨v, e, -, hv⟩ := h2 r hr
    exact ⟨v, e, hv⟩
  · obtain ⟨v, e, -, hv⟩ := E3.invM31_ok (E3.V_iff.mpr ha) h
    exact ⟨v, e, hv⟩

/-- **C65, Frobenius.** In degrees 3 and 4 the function raising to the power `p^k` does so; in degree 2 the function
called `frobenius` returns the opposite of the `p`-th power. -/
theorem C65_frobenius :
    (∀ (a : E3) (k : Nat), (∀ c ∈ a.limbs, c < 2 ^ 64) → ∃ r, E3.frob gold a k = some r ∧
      extElem goldP 3 2 r.limbs = extElem goldP 3 2 a.limbs ^ goldP ^ (k % 3)) ∧
    (∀ (a : E4) (k : Nat), (∀ c ∈ a.limbs, c < 2 ^ 64) → ∃ r, E4.frob gold a k = some r ∧
      extElem goldP 4 7 r.limbs = extElem goldP 4 7 a.limbs ^ goldP ^ (k % 4)) ∧
    (∀ a : E2, (∀ c ∈ a.limbs, c < 2 ^ 64) → ∃ r, E2.frob gold a = some r ∧
      extElem goldP 2 7 r.limbs = -extElem goldP 2 7 a.limbs ^ goldP) := by
  refine ⟨fun a k ha => ?_, fun a k ha => ?_, fun a ha => ?_⟩
  · obtain ⟨r, e, -, h⟩ := E3.frob_ok (E3.V_iff.mpr ha) k; exact ⟨r, e, h⟩
  · obtain ⟨r, e, -, h⟩ := E4.frob_ok (E4.V_iff.mpr ha) k; exact ⟨r, e, h⟩
  · obtain ⟨r, e, -, h⟩ := E2.frob_ok (E2.V_iff.mpr ha); exact ⟨r, e, h⟩

/-- **C65, root of unity.** The constant of `GoldilocksExt2` has multiplicative order exactly `2^33`. -/
theorem C65_root_of_unity : orderOf (extElem goldP 2 7 rootOfUnity2.limbs) = 2 ^ 33 := by
  have hX : extX goldP 2 7 ^ 2 = extC goldP 2 7 (7 : Nat) := extX_pow
  have h2 : extElem goldP 2 7 rootOfUnity2.limbs ^ 2
      = extC goldP 2 7 ((0xd95051a31cf4a6ef * 0xd95051a31cf4a6ef * 7 : Nat) : ZMod goldP) := by
    rw [extElem2]
    show (extC goldP 2 7 ((0 : Nat) : ZMod goldP) + extC goldP 2 7 ((0xd95051a31cf4a6ef : Nat) : ZMod goldP) * _) ^ 2 = _
    rw [Nat.cast_zero, show extC goldP 2 7 0 = 0 from map_zero _, zero_add, mul_pow, hX, Nat.cast_mul, Nat.cast_mul, extC_mul, extC_mul]
    ring
  have h32 : extElem goldP 2 7 rootOfUnity2.limbs ^ 2 ^ 32 = -1 := by
    rw [show (2 : Nat) ^ 32 = 2 * 2 ^ 31 by norm_num, pow_mul, h2, ← extC_pow,
      gold_pow (2 ^ 31) 18446744069414584320 (by norm_num) (by decide +kernel),
      show ((18446744069414584320 : Nat) : ZMod goldP) = -1 by rw [← gold7_pow, gold_omega2]]
    simp
  refine orderOf_eq_prime_pow (p := 2) (n := 32) ?_ ?_
  · rw [h32]
    intro h
    have : (-1 : ZMod goldP) = 1 := (AdjoinRoot.of.injective_of_degree_ne_zero (f := (X ^ 2 - C ((7 : Nat) : ZMod goldP)))
      (by rw [degree_X_pow_sub_C (by norm_num)]; norm_num)) (by simpa using h)
    have h3 : ((18446744069414584320 : Nat) : ZMod goldP) = ((1 : Nat) : ZMod goldP) := by
      rw [show ((18446744069414584320 : Nat) : ZMod goldP) = -1 by rw [← gold7_pow, gold_omega2], this, Nat.cast_one]
    exact gold_ne (by decide) h3
  · rw [show 2 ^ (32 + 1) = 2 ^ 32 * 2 by norm_num, pow_mul, h32]; norm_num

/-- Non-canonical limbs: `2 + (p + 1) X` is inverted in degree 2, and the product with the result is one. -/
example : (do let i ← (goldExt2 fun _ => true).inv ⟨2, goldP + 1⟩; let i ← i; E2.mul gold i ⟨2, goldP + 1⟩).map
    (fun r => E2.eq gold r ⟨1, 0⟩) = some true := by decide +kernel

/-- In degree 3 over M31. -/
example : (do let i ← m31Ext3.inv ⟨2, 3, 4⟩; let i ← i; E3.mul m31 5 i ⟨2, 3, 4⟩) = some ⟨1, 0, 0⟩ := by decide +kernel

/-- The degree-2 `frobenius` of 1 is not 1. -/
example : (E2.frob gold ⟨1, 0⟩).map (fun r => E2.eq gold r ⟨1, 0⟩) = some false := by decide +kernel

end JST.Props
