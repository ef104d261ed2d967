import Verif.Field.ExtField

/-!
# Extension fields: additive operations and equality
-/

namespace JST.Ext

open JST Polynomial JST.Spec

section
variable {B : Base} {p : Nat} {V : Nat → Prop} (h : BaseOk B p V)
include h

theorem E2.add_ok {n w : Nat} {a b : E2} (ha : a.V V) (hb : b.V V) : ∃ r, E2.add B a b = some r ∧ r.V V ∧
    extElem p n w r.limbs = extElem p n w a.limbs + extElem p n w b.limbs := by
  obtain ⟨a0, a1⟩ := ha
  obtain ⟨b0, b1⟩ := hb
  obtain ⟨r, e, hr, e0, e1⟩ := mk2_ok (p := p) (h.add a0 b0) (h.add a1 b1)
  refine ⟨r, e, hr, ?_⟩
  rw [extElem2, extElem2, extElem2, e0, e1]
  simp only [map_add]; ring

theorem E2.sub_ok {n w : Nat} {a b : E2} (ha : a.V V) (hb : b.V V) : ∃ r, E2.sub B a b = some r ∧ r.V V ∧
    extElem p n w r.limbs = extElem p n w a.limbs - extElem p n w b.limbs := by
  obtain ⟨a0, a1⟩ := ha
  obtain ⟨b0, b1⟩ := hb
  obtain ⟨r, e, hr, e0, e1⟩ := mk2_ok (p := p) (h.sub a0 b0) (h.sub a1 b1)
  refine ⟨r, e, hr, ?_⟩
  rw [extElem2, extElem2, extElem2, e0, e1]
  simp only [map_sub]; ring

theorem E2.neg_ok {n w : Nat} {a : E2} (ha : a.V V) : ∃ r, E2.neg B a = some r ∧ r.V V ∧
    extElem p n w r.limbs = -extElem p n w a.limbs := by
  obtain ⟨a0, a1⟩ := ha
  obtain ⟨r, e, hr, e0, e1⟩ := mk2_ok (p := p) (h.neg a0) (h.neg a1)
  refine ⟨r, e, hr, ?_⟩
  rw [extElem2, extElem2, e0, e1]
  simp only [map_neg]; ring

theorem E2.addBase_ok {n w : Nat} {a : E2} {b : Nat} (ha : a.V V) (hb : V b) : ∃ r, E2.addBase B a b = some r ∧
    r.V V ∧ extElem p n w r.limbs = extElem p n w a.limbs + extC p n w b := by
  obtain ⟨a0, a1⟩ := ha
  obtain ⟨r, e, hr, e0, e1⟩ := mk2_ok (p := p) (h.add a0 hb) (.some a1)
  refine ⟨r, e, hr, ?_⟩
  rw [extElem2, extElem2, e0, e1]
  simp only [map_add]; ring

theorem E2.eq_iff [Fact p.Prime] {w : Nat} {a b : E2} (ha : a.V V) (hb : b.V V) : E2.eq B a b = true ↔
    extElem p 2 w a.limbs = extElem p 2 w b.limbs := by
  obtain ⟨a0, a1⟩ := ha
  obtain ⟨b0, b1⟩ := hb
  rw [inj2]
  simp only [E2.eq, Bool.and_eq_true, h.eq a0 b0, h.eq a1 b1, and_assoc]

omit h in
theorem E2.V_iff {a : E2} : a.V V ↔ ∀ c ∈ a.limbs, V c := by
  simp [E2.V, E2.limbs]

theorem E3.add_ok {n w : Nat} {a b : E3} (ha : a.V V) (hb : b.V V) : ∃ r, E3.add B a b = some r ∧ r.V V ∧
    extElem p n w r.limbs = extElem p n w a.limbs + extElem p n w b.limbs := by
  obtain ⟨a0, a1, a2⟩ := ha
  obtain ⟨b0, b1, b2⟩ := hb
  obtain ⟨r, e, hr, e0, e1, e2⟩ := mk3_ok (p := p) (h.add a0 b0) (h.add a1 b1) (h.add a2 b2)
  refine ⟨r, e, hr, ?_⟩
  rw [extElem3, extElem3, extElem3, e0, e1, e2]
  simp only [map_add]; ring

theorem E3.sub_ok {n w : Nat} {a b : E3} (ha : a.V V) (hb : b.V V) : ∃ r, E3.sub B a b = some r ∧ r.V V ∧
    extElem p n w r.limbs = extElem p n w a.limbs - extElem p n w b.limbs := by
  obtain ⟨a0, a1, a2⟩ := ha
  obtain ⟨b0, b1, b2⟩ := hb
  obtain ⟨r, e, hr, e0, e1, e2⟩ := mk3_ok (p := p) (h.sub a0 b0) (h.sub a1 b1) (h.sub a2 b2)
  refine ⟨r, e, hr, ?_⟩
  rw [extElem3, extElem3, extElem3, e0, e1, e2]
  simp only [map_sub]; ring

theorem E3.neg_ok {n w : Nat} {a : E3} (ha : a.V V) : ∃ r, E3.neg B a = some r ∧ r.V V ∧
    extElem p n w r.limbs = -extElem p n w a.limbs := by
  obtain ⟨a0, a1, a2⟩ := ha
  obtain ⟨r, e, hr, e0, e1, e2⟩ := mk3_ok (p := p) (h.neg a0) (h.neg a1) (h.neg a2)
  refine ⟨r, e, hr, ?_⟩
  rw [extElem3, extElem3, e0, e1, e2]
  simp only [map_neg]; ring

theorem E3.addBase_ok {n w : Nat} {a : E3} {b : Nat} (ha : a.V V) (hb : V b) : ∃ r, E3.addBase B a b = some r ∧
    r.V V ∧ extElem p n w r.limbs = extElem p n w a.limbs + extC p n w b := by
  obtain ⟨a0, a1, a2⟩ := ha
  obtain ⟨r, e, hr, e0, e1, e2⟩ := mk3_ok (p := p) (h.add a0 hb) (.some a1) (.some a2)
  refine ⟨r, e, hr, ?_⟩
  rw [extElem3, extElem3, e0, e1, e2]
  simp only [map_add]; ring

theorem E3.eq_iff [Fact p.Prime] {w : Nat} {a b : E3} (ha : a.V V) (hb : b.V V) : E3.eq B a b = true ↔
    extElem p 3 w a.limbs = extElem p 3 w b.limbs := by
  obtain ⟨a0, a1, a2⟩ := ha
  obtain ⟨b0, b1, b2⟩ := hb
  rw [inj3]
  simp only [E3.eq, Bool.and_eq_true, h.eq a0 b0, h.eq a1 b1, h.eq a2 b2, and_assoc]

omit h in
theorem E3.V_iff {a : E3} : a.V V ↔ ∀ c ∈ a.limbs, V c := by
  simp [E3.V, E3.limbs]

theorem E4.add_ok {n w : Nat} {a b : E4} (ha : a.V V) (hb : b.V V) : ∃ r, E4.add B a b = some r ∧ r.V V ∧
    extElem p n w r.limbs = extElem p n w a.limbs + extElem p n w b.limbs := by
  obtain ⟨a0, a1, a2, a3⟩ := ha
  obtain ⟨b0, b1, b2, b3⟩ := hb
  obtain ⟨r, e, hr, e0, e1, e2, e3⟩ := mk4_ok (p := p) (h.add a0 b0) (h.add a1 b1) (h.add a2 b2) (h.add a3 b3)
  refine ⟨r, e, hr, ?_⟩
  rw [extElem4, extElem4, extElem4, e0, e1, e2, e3]
  simp only [map_add]; ring

theorem E4.sub_ok {n w : Nat} {a b : E4} (ha : a.V V) (hb : b.V V) : ∃ r, E4.sub B a b = some r ∧ r.V V ∧
    extElem p n w r.limbs = extElem p n w a.limbs - extElem p n w b.limbs := by
  obtain ⟨a0, a1, a2, a3⟩ := ha
  obtain ⟨b0, b1, b2, b3⟩ := hb
  obtain ⟨r, e, hr, e0, e1, e2, e3⟩ := mk4_ok (p := p) (h.sub a0 b0) (h.sub a1 b1) (h.sub a2 b2) (h.sub a3 b3)
  refine ⟨r, e, hr, ?_⟩
  rw [extElem4, extElem4, extElem4, e0, e1, e2, e3]
  simp only [map_sub]; ring

theorem E4.neg_ok {n w : Nat} {a : E4} (ha : a.V V) : ∃ r, E4.neg B a = some r ∧ r.V V ∧
    extElem p n w r.limbs = -extElem p n w a.limbs := by
  obtain ⟨a0, a1, a2, a3⟩ := ha
  obtain ⟨r, e, hr, e0, e1, e2, e3⟩ := mk4_ok (p := p) (h.neg a0) (h.neg a1) (h.neg a2) (h.neg a3)
  refine ⟨r, e, hr, ?_⟩
  rw [extElem4, extElem4, e0, e1, e2, e3]
  simp only [map_neg]; ring

theorem E4.addBase_ok {n w : Nat} {a : E4} {b : Nat} (ha : a.V V) (hb : V b) : ∃ r, E4.addBase B a b = some r ∧
    r.V V ∧ extElem p n w r.limbs = extElem p n w a.limbs + extC p n w b := by
  obtain ⟨a0, a1, a2, a3⟩ := ha
  obtain ⟨r, e, hr, e0, e1, e2, e3⟩ := mk4_ok (p := p) (h.add a0 hb) (.some a1) (.some a2) (.some a3)
  refine ⟨r, e, hr, ?_⟩
  rw [extElem4, extElem4, e0, e1, e2, e3]
  simp only [map_add]; ring

theorem E4.eq_iff [Fact p.Prime] {w : Nat} {a b : E4} (ha : a.V V) (hb : b.V V) : E4.eq B a b = true ↔
    extElem p 4 w a.limbs = extElem p 4 w b.limbs := by
  obtain ⟨a0, a1, a2, a3⟩ := ha
  obtain ⟨b0, b1, b2, b3⟩ := hb
  rw [inj4]
  simp only [E4.eq, Bool.and_eq_true, h.eq a0 b0, h.eq a1 b1, h.eq a2 b2, h.eq a3 b3, and_assoc]

omit h in
theorem E4.V_iff {a : E4} : a.V V ↔ ∀ c ∈ a.limbs, V c := by
  simp [E4.V, E4.limbs]

end

end JST.Ext
