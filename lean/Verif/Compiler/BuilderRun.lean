import Verif.Compiler.BuilderLower

/-!
# Decomposition into bits, and every source instruction
-/

namespace JST.Comp

open JST.Circ

variable {F : Type} [Field F] [DecidableEq F] {X : Expr F → Prop}

/-- The value of a list of bits, the lowest first. -/
def binVal : List F → F
  | [] => 0
  | b :: r => b + (1 + 1) * binVal r

theorem binVal_sum (ws : List F) :
    binVal ws = ((List.range ws.length).map fun i => 2 ^ i * ws.getD i 0).sum := by
  induction ws with
  | nil => rfl
  | cons w ws ih =>
      rw [binVal, ih, List.length_cons, List.range_succ_eq_map, List.map_cons, List.sum_cons,
        List.map_map, ← List.sum_map_mul_left]
      congr 1
      · simp
      · congr 1
        apply List.map_congr_left
        intro i _
        simp only [Function.comp, List.getD_cons_succ, Nat.succ_eq_add_one]
        rw [pow_succ]; ring

theorem binVal_outs (a : Nat → F) (n k : Nat) :
    binVal (outs a n k) = ((List.range k).map fun i => 2 ^ i * a (n + i)).sum := by
  rw [binVal_sum]
  unfold outs
  rw [List.length_map, List.length_range]
  congr 1
  apply List.map_congr_left
  intro i hi
  rw [List.mem_range] at hi
  congr 1
  simp [List.getD, hi]

theorem bitsLoop_ok (cfg : Cfg F) {N : Nat} (bits : List Nat) {b : B F} (h : Inv N b) (coef : F)
    {sum : Nat} (hb : ∀ x ∈ bits, 1 ≤ x ∧ x < b.exprs.length)
    (hsum : 1 ≤ sum ∧ sum < b.exprs.length) :
    ∃ r b', bitsLoop cfg bits coef sum b = .ok (r, b') ∧ 1 ≤ r ∧ r < b'.exprs.length ∧
      Grow X N b b' (fun _ a => ∀ x ∈ bits, a x = 0 ∨ a x = 1) fun _ a =>
        (∀ x ∈ bits, a x = 0 ∨ a x = 1) ∧ a r = a sum + coef * binVal (bits.map a) := by
  induction bits generalizing b coef sum with
  | nil =>
      refine ⟨sum, b, rfl, hsum.1, hsum.2, h, List.prefix_refl _, rfl, fun env a ho => ⟨ho, ?_⟩, ?_⟩
      · simp [binVal]
      · intro env a hf _; exact ⟨a, fun _ _ => rfl, hf, by simp [binVal]⟩
  | cons x bits ih =>
      have hx := hb x List.mem_cons_self
      obtain ⟨b1, e1, l1, g1⟩ := assertBool_grow (X := X) cfg h hx
      obtain ⟨b2, e2, l2, g2⟩ := pushLin1_grow (X := X) cfg g1.inv (x := x) coef (by omega)
      obtain ⟨b3, e3, l3, g3⟩ := pushLin2_grow (X := X) cfg g2.inv (x := sum) (y := b1.exprs.length) 1 1
        (by omega) (by omega)
      obtain ⟨r, b4, e4, hr1, hr2, g4⟩ := ih g3.inv (coef + coef) (sum := b2.exprs.length)
        (fun y hy => by have := hb y (List.mem_cons_of_mem _ hy); omega) (by omega)
      have l4 := g4.len
      refine ⟨r, b4, ?_, hr1, hr2, g4.inv, g1.exprs.trans (g2.exprs.trans (g3.exprs.trans g4.exprs)),
        by rw [g4.ito, g3.ito, g2.ito, g1.ito], ?_, ?_⟩
      · rw [bitsLoop, bind_ok e1, bind_ok e2]
        unfold pushAdd
        rw [bind_ok e3, e4]
      · intro env a ho
        obtain ⟨k3, s4, s5⟩ := g4.sound env a ho
        obtain ⟨k2, s3⟩ := g3.sound env a k3
        obtain ⟨k1, s2⟩ := g2.sound env a k2
        obtain ⟨k0, s1⟩ := g1.sound env a k1
        refine ⟨k0, ?_, ?_⟩
        · intro y hy
          rcases List.mem_cons.1 hy with rfl | hy
          · exact s1
          · exact s4 y hy
        · rw [s5, s3, s2, List.map_cons, binVal]; ring
      · intro env a hf hP
        obtain ⟨a1, p1, q1, s1⟩ := g1.complete env a hf (hP x List.mem_cons_self)
        obtain ⟨a2, p2, q2, s2⟩ := g2.complete env a1 q1 trivial
        obtain ⟨a3, p3, q3, s3⟩ := g3.complete env a2 q2 trivial
        have hold3 : ∀ z, z < b.exprs.length → a3 z = a z := fun z hz => by
          rw [p3 z (by omega), p2 z (by omega), p1 z hz]
        obtain ⟨a4, p4, q4, s4, s5⟩ := g4.complete env a3 q3 (fun y hy => by
          rw [hold3 y (hb y (List.mem_cons_of_mem _ hy)).2]
          exact hP y (List.mem_cons_of_mem _ hy))
        have hold : ∀ z, z < b.exprs.length → a4 z = a z := fun z hz => by
          rw [p4 z (by omega), hold3 z hz]
        refine ⟨a4, hold, q4, ?_, ?_⟩
        · intro y hy
          rw [hold y (hb y hy).2]; exact hP y hy
        · rw [s5, p4 _ (by omega), s3, p3 sum (by omega), p3 _ (by omega), s2, p2 x (by omega),
            p2 sum (by omega), p1 sum hsum.2, p1 x hx.2, hold sum hsum.2, List.map_cons, binVal,
            hold x hx.2]
          ring

theorem lowerToBinary_ok (cfg : Cfg F) {N : Nat} {b : B F} (h : Inv N b) {x : Nat} (n : Nat)
    (hx : 1 ≤ x ∧ x < b.exprs.length) :
    ∃ xs b', (lowerToBinary cfg x n >>= finishLowered cfg n) b = .ok (xs, b') ∧
      LowerSpec X cfg.ev N b (.toBinary x n) xs b' := by
  obtain ⟨b1, e1, l1, g1, c1⟩ := pushHint_grow (X := X) cfg h hintToBinary (xs := [x]) (by
    intro z hz
    simp only [List.mem_cons, List.not_mem_nil, or_false] at hz
    subst hz; exact hx) n
  obtain ⟨b2, e2, l2, g2⟩ := pushConst_grow (X := X) cfg g1.inv 0
  set bits := (List.range n).map fun i => b.exprs.length + i with hbits
  have hbr : ∀ z ∈ bits, 1 ≤ z ∧ z < b1.exprs.length := by
    intro z hz
    simp only [hbits, List.mem_map, List.mem_range] at hz
    obtain ⟨i, hi, rfl⟩ := hz
    omega
  obtain ⟨r, b3, e3, hr1, hr2, g3⟩ := bitsLoop_ok (X := X) cfg bits g2.inv 1 (sum := b1.exprs.length)
    (fun z hz => by have := hbr z hz; omega) (by omega)
  have l3 := g3.len
  obtain ⟨b4, e4, l4, g4⟩ := pushLin2_grow (X := X) cfg g3.inv (x := r) (y := x) (-1) 1 ⟨hr1, hr2⟩
    (by omega)
  obtain ⟨b5, e5, l5, g5⟩ := assertZ_grow (X := X) g4.inv (t := b3.exprs.length) (by omega) (by omega)
  have hmap : ∀ a : Nat → F, bits.map a = outs a b.exprs.length n := by
    intro a; simp [hbits, outs]
  refine ⟨bits, b5, ?_, g5.inv,
    g1.exprs.trans (g2.exprs.trans (g3.exprs.trans (g4.exprs.trans g5.exprs))),
    by rw [g5.ito, g4.ito, g3.ito, g2.ito, g1.ito], by simp [hbits, SInsn.numOut],
    fun z hz => by have := hbr z hz; omega, ?_, ?_⟩
  · rw [bind_ok (x := .vars bits) (b' := b5) (by
      unfold lowerToBinary
      rw [bind_ok e1, bind_ok e2, bind_ok e3, bind_ok e4, bind_ok e5]; rfl)]
    simp [finishLowered, hbits]
  · intro env a ho
    obtain ⟨k4, s5⟩ := g5.sound env a ho
    obtain ⟨k3, s4⟩ := g4.sound env a k4
    obtain ⟨k2, s3, s3'⟩ := g3.sound env a k3
    obtain ⟨k1, s2⟩ := g2.sound env a k2
    obtain ⟨k0, -⟩ := g1.sound env a k1
    refine ⟨k0, fun a' hag hout => ?_⟩
    have hx' : a x = binVal (bits.map a) := by
      rw [s5, s3', s2] at s4
      linear_combination -s4
    simp only [SInsn.numOut] at hout
    refine ⟨fun i hi => ?_, ?_⟩
    · have hm : a' (b.exprs.length + i) ∈ bits.map a := by
        rw [← hout]
        exact List.mem_map.2 ⟨i, List.mem_range.2 hi, rfl⟩
      obtain ⟨z, hz, he⟩ := List.mem_map.1 hm
      rw [← he]; exact s3 z hz
    · rw [hag x hx.2, hx', ← hout, binVal_outs]
  · intro env a' hf hh _
    obtain ⟨hh1, hh2⟩ := hh
    obtain ⟨a1, p1, q1, s1⟩ := c1 env a' (fun i => a' (b.exprs.length + i)) hf
    obtain ⟨a2, p2, q2, s2⟩ := g2.complete env a1 q1 trivial
    have hb2 : ∀ i, i < n → a2 (b.exprs.length + i) = a' (b.exprs.length + i) := fun i hi => by
      rw [p2 _ (by omega), s1 i]
    obtain ⟨a3, p3, q3, s3, s3'⟩ := g3.complete env a2 q2 (by
      intro z hz
      simp only [hbits, List.mem_map, List.mem_range] at hz
      obtain ⟨i, hi, rfl⟩ := hz
      rw [hb2 i hi]; exact hh1 i hi)
    have hb3 : outs a3 b.exprs.length n = outs a' b.exprs.length n := by
      unfold outs
      apply List.map_congr_left
      intro i hi
      rw [List.mem_range] at hi
      rw [p3 _ (by omega), hb2 i hi]
    obtain ⟨a4, p4, q4, s4⟩ := g4.complete env a3 q3 trivial
    obtain ⟨a5, p5, q5, -⟩ := g5.complete env a4 q4 (by
      show a4 b3.exprs.length = 0
      rw [s4, p4 r hr2, p4 x (by omega), s3', p3 _ (by omega), s2, hmap, hb3, binVal_outs, ← hh2,
        p3 x (by omega), p2 x (by omega), p1 x hx.2]
      ring)
    refine ⟨a5, fun z hz => by
      rw [p5 z (by omega), p4 z (by omega), p3 z (by omega), p2 z (by omega), p1 z hz], q5, ?_⟩
    rw [hmap]
    simp only [SInsn.numOut]
    unfold outs
    apply List.map_congr_left
    intro i hi
    rw [List.mem_range] at hi
    rw [p5 _ (by omega), p4 _ (by omega), p3 _ (by omega), hb2 i hi]

/-! ## Every instruction -/

/-- Whether a source instruction holds depends only on the variables it reads and writes. -/
theorem sholds_local {j : SInsn F} {n : Nat} (hr : ∀ x ∈ j.inputs, x < n) (env : Env F)
    (a a' : Nat → F) (h : ∀ x, x < n + j.numOut → a x = a' x) (hh : j.Holds env a n) :
    j.Holds env a' n := by
  have hmap : ∀ xs : List Nat, (∀ x ∈ xs, x < n) → xs.map a' = xs.map a := by
    intro xs hx
    exact List.map_congr_left fun x hx' => (h x (by have := hx x hx'; omega)).symm
  cases j with
  | linComb lc =>
      simp only [SInsn.Holds, SInsn.numOut] at hh h ⊢
      rw [← h n (by omega), hh]
      exact LinComb.eval_congr hr fun x hx => h x (by omega)
  | mul xs =>
      simp only [SInsn.Holds, SInsn.numOut] at hh h ⊢
      rw [← h n (by omega), hh, hmap xs hr]
  | div x y ck =>
      simp only [SInsn.Holds, SInsn.numOut] at hh h ⊢
      have h1 := hr x (by simp [SInsn.inputs])
      have h2 := hr y (by simp [SInsn.inputs])
      rw [← h n (by omega), ← h x (by omega), ← h y (by omega)]; exact hh
  | boolBin x y op =>
      simp only [SInsn.Holds, SInsn.numOut] at hh h ⊢
      have h1 := hr x (by simp [SInsn.inputs])
      have h2 := hr y (by simp [SInsn.inputs])
      rw [← h n (by omega), ← h x (by omega), ← h y (by omega)]; exact hh
  | isZero x =>
      simp only [SInsn.Holds, SInsn.numOut] at hh h ⊢
      have h1 := hr x (by simp [SInsn.inputs])
      rw [← h n (by omega), ← h x (by omega)]; exact hh
  | commit xs => trivial
  | hint id xs k => trivial
  | constant c =>
      simp only [SInsn.Holds, SInsn.numOut] at hh h ⊢
      rw [← h n (by omega), hh]
  | random => trivial
  | publicInput k =>
      simp only [SInsn.Holds, SInsn.numOut] at hh h ⊢
      rw [← h n (by omega), hh]
  | call id xs k =>
      simp only [SInsn.Holds, SInsn.numOut] at hh h ⊢
      rw [hmap xs hr, ← outs_congr h]; exact hh
  | uBin x y op => trivial
  | uSelect c t f => trivial
  | gate ty xs =>
      simp only [SInsn.Holds, SInsn.numOut] at hh h ⊢
      rw [← h n (by omega), hh, hmap xs hr]
  | toBinary x k =>
      simp only [SInsn.Holds, SInsn.numOut] at hh h ⊢
      have h1 := hr x (by simp [SInsn.inputs])
      refine ⟨fun i hi => ?_, ?_⟩
      · rw [← h (n + i) (by omega)]; exact hh.1 i hi
      · rw [← h x (by omega), hh.2]
        congr 1
        apply List.map_congr_left
        intro i hi
        rw [List.mem_range] at hi
        rw [h (n + i) (by omega)]

/-- A source instruction which is copied. -/
theorem lower_copy (cfg : Cfg F) {N : Nat} {b : B F} (h : Inv N b) {j : SInsn F} {o : OInsn F}
    (hr : InRange b.exprs.length o) (hj : ∀ x ∈ j.inputs, x < b.exprs.length)
    (hn : o.numOut = j.numOut) (ht : transform cfg j = M.pure (.insn o))
    (hiff : ∀ env a, o.Holds env a b.exprs.length ↔ j.Holds env a b.exprs.length) :
    ∃ xs b', (transform cfg j >>= finishLowered cfg j.numOut) b = .ok (xs, b') ∧
      LowerSpec X cfg.ev N b j xs b' := by
  rw [ht, bind_ok (x := .insn o) (b' := b) rfl]
  exact lower_insn cfg h hr hn (fun env a _ => (hiff env a).1)
    (fun env a a' hag => sholds_local hj env a a' hag) (fun env a _ hh _ => (hiff env a).2 hh)

/-- Every source instruction which reads existing variables is lowered, or the pass stops with an
error for the user; it never panics. -/
theorem transform_ok (cfg : Cfg F) {N : Nat} {b : B F} (h : Inv N b) {j : SInsn F}
    (hr : ∀ x ∈ j.inputs, 1 ≤ x ∧ x < b.exprs.length) (hm : ∀ xs, j = .mul xs → 2 ≤ xs.length) :
    (transform cfg j >>= finishLowered cfg j.numOut) b = .error .user ∨
      ∃ xs b', (transform cfg j >>= finishLowered cfg j.numOut) b = .ok (xs, b') ∧
        LowerSpec X cfg.ev N b j xs b' := by
  have hj : ∀ x ∈ j.inputs, x < b.exprs.length := fun x hx => (hr x hx).2
  cases j with
  | linComb lc =>
      exact Or.inr (lower_copy cfg h (o := .linComb lc) ⟨hr, by simp⟩ hj rfl rfl fun _ _ => Iff.rfl)
  | mul xs =>
      exact Or.inr (lower_copy cfg h (o := .mul xs)
        ⟨hr, fun ys hys => by cases hys; exact hm xs rfl⟩ hj rfl rfl fun _ _ => Iff.rfl)
  | div x y ck =>
      exact lowerDiv_ok cfg h ck (hr x (by simp [SInsn.inputs])) (hr y (by simp [SInsn.inputs]))
  | boolBin x y op =>
      exact Or.inr (lowerBool_ok cfg h op (hr x (by simp [SInsn.inputs]))
        (hr y (by simp [SInsn.inputs])))
  | isZero x => exact Or.inr (lowerIsZero_ok cfg h (hr x (by simp [SInsn.inputs])))
  | commit xs =>
      exact Or.inr (lower_copy cfg h (o := .random) ⟨by simp [OInsn.inputs], by simp⟩ hj rfl rfl
        fun _ _ => Iff.rfl)
  | hint id xs k =>
      exact Or.inr (lower_copy cfg h (o := .hint id xs k) ⟨hr, by simp⟩ hj rfl rfl
        fun _ _ => Iff.rfl)
  | constant c =>
      exact Or.inr (lower_copy cfg h (o := .constant c) ⟨hr, by simp⟩ hj rfl rfl
        fun _ _ => Iff.rfl)
  | random =>
      exact Or.inr (lower_copy cfg h (o := .random) ⟨hr, by simp⟩ hj rfl rfl fun _ _ => Iff.rfl)
  | publicInput k =>
      exact Or.inr (lower_copy cfg h (o := .publicInput k) ⟨hr, by simp⟩ hj rfl rfl
        fun _ _ => Iff.rfl)
  | call id xs k =>
      exact Or.inr (lower_copy cfg h (o := .call id xs k) ⟨hr, by simp⟩ hj rfl rfl
        fun _ _ => Iff.rfl)
  | gate ty xs =>
      exact Or.inr (lower_copy cfg h (o := .gate ty xs) ⟨hr, by simp⟩ hj rfl rfl
        fun _ _ => Iff.rfl)
  | toBinary x k => exact Or.inr (lowerToBinary_ok cfg h k (hr x (by simp [SInsn.inputs])))
  | uBin x y op =>
      have hx := hr x (by simp [SInsn.inputs])
      have hy := hr y (by simp [SInsn.inputs])
      obtain ⟨ox, ex, vx⟩ := constVal_ok h hx
      obtain ⟨oy, ey, vy⟩ := constVal_ok h hy
      have hint : InRange b.exprs.length (.hint (hintOf op) [x, y] 1 : OInsn F) := by
        refine ⟨?_, by simp⟩
        intro z hz
        simp only [OInsn.inputs, List.mem_cons, List.not_mem_nil, or_false] at hz
        rcases hz with rfl | rfl <;> assumption
      have hcase : transform cfg (.uBin x y op) b = .ok (.insn (.hint (hintOf op) [x, y] 1), b) →
          ∃ xs b', (transform cfg (.uBin x y op) >>= finishLowered cfg 1) b = .ok (xs, b') ∧
            LowerSpec X cfg.ev N b (.uBin x y op) xs b' := by
        intro he
        rw [bind_ok he]
        exact lower_insn cfg h (j := .uBin x y op) hint rfl (fun _ _ _ _ => trivial)
          (fun _ _ _ _ _ => trivial) (fun _ _ _ _ _ => trivial)
      cases ox with
      | none =>
          exact Or.inr (hcase (by
            show lowerUBin cfg x y op b = _
            unfold lowerUBin; rw [bind_ok ex, bind_ok ey]; rfl))
      | some xv =>
          cases oy with
          | none =>
              exact Or.inr (hcase (by
                show lowerUBin cfg x y op b = _
                unfold lowerUBin; rw [bind_ok ex, bind_ok ey]; rfl))
          | some yv =>
              cases hev : cfg.ev op xv yv with
              | none =>
                  left
                  exact bind_err (by
                    show lowerUBin cfg x y op b = _
                    unfold lowerUBin; rw [bind_ok ex, bind_ok ey]; simp only [hev]; rfl)
              | some v =>
                  right
                  have he : transform cfg (.uBin x y op) b = .ok (.insn (.constant v), b) := by
                    show lowerUBin cfg x y op b = _
                    unfold lowerUBin; rw [bind_ok ex, bind_ok ey]; simp only [hev]; rfl
                  rw [bind_ok he]
                  refine lower_insn cfg h (j := .uBin x y op) (o := .constant v)
                    ⟨by simp [OInsn.inputs], by simp⟩ rfl (fun _ _ _ _ => trivial)
                    (fun _ _ _ _ _ => trivial) (fun env a hc _ hho => ?_)
                  simp only [SInsn.Honest] at hho
                  rw [vx xv rfl env a hc, vy yv rfl env a hc, hev] at hho
                  exact (Option.some.inj hho).symm
  | uSelect c t f =>
      right
      have hcr := hr c (by simp [SInsn.inputs])
      have htr := hr t (by simp [SInsn.inputs])
      have hfr := hr f (by simp [SInsn.inputs])
      obtain ⟨oc, ec, vc⟩ := constVal_ok h hcr
      cases oc with
      | none =>
          have he : transform cfg (.uSelect c t f) b =
              .ok (.insn (.hint hintSelect [c, t, f] 1), b) := by
            show lowerUSelect c t f b = _
            unfold lowerUSelect; rw [bind_ok ec]; rfl
          rw [bind_ok he]
          refine lower_insn cfg h (j := .uSelect c t f) ⟨?_, by simp⟩ rfl (fun _ _ _ _ => trivial)
            (fun _ _ _ _ _ => trivial) (fun _ _ _ _ _ => trivial)
          intro z hz
          simp only [OInsn.inputs, List.mem_cons, List.not_mem_nil, or_false] at hz
          rcases hz with rfl | rfl | rfl <;> assumption
      | some v =>
          have he : transform cfg (.uSelect c t f) b =
              .ok (.vars [if v = 0 then f else t], b) := by
            show lowerUSelect c t f b = _
            unfold lowerUSelect; rw [bind_ok ec]
            simp only
            split_ifs <;> rfl
          refine ⟨[if v = 0 then f else t], b, ?_, LowerSpec.of_grow _ rfl h (List.prefix_refl _)
            rfl ?_ ?_ ?_⟩
          · rw [bind_ok he]; simp [finishLowered, SInsn.numOut]
          · split_ifs <;> assumption
          · intro env a ho; exact ⟨ho, fun _ _ _ => trivial⟩
          · intro env a' hf _ hho
            refine ⟨a', fun _ _ => rfl, hf, ?_⟩
            simp only [SInsn.Honest] at hho
            rw [hho, vc v rfl env a' hf.1]
            split_ifs <;> rfl

end JST.Comp
