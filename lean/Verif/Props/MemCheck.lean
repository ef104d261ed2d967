import Verif.Pcs.MemCheck
import Mathlib.Algebra.Field.Rat
import Mathlib.Algebra.CharP.Defs
import Mathlib.Tactic.Ring
import Mathlib.Tactic.LinearCombination
import Mathlib.Tactic.NormNum
import Mathlib.Algebra.BigOperators.Group.Finset.Basic
import Mathlib.Algebra.Polynomial.Roots

/-!
# Property C91: offline memory checking
-/

namespace JST.Props

open JST.MemCheck

variable {F : Type} [Field F]

private theorem multisetHash_prod (es : List F) (γ : F) : multisetHash es γ = (es.map fun e => e - γ).prod := by
  rw [multisetHash, List.prod_eq_foldl]

private theorem cells_update {M : Type} [CommMonoid M] (m : Nat) (G : Nat → Nat → M) (cnt : Nat → Nat) {a : Nat}
    (ha : a < m) (y : Nat) :
    (∏ c ∈ Finset.range m, G c (Function.update cnt a y c)) * G a (cnt a) =
      (∏ c ∈ Finset.range m, G c (cnt c)) * G a y := by
  have hm : a ∈ Finset.range m := Finset.mem_range.mpr ha
  rw [← Finset.mul_prod_erase _ _ hm, ← Finset.mul_prod_erase (Finset.range m) (fun c => G c (cnt c)) hm]
  have : ∏ c ∈ (Finset.range m).erase a, G c (Function.update cnt a y c) =
      ∏ c ∈ (Finset.range m).erase a, G c (cnt c) :=
    Finset.prod_congr rfl fun c hc => by rw [Function.update_of_ne (Finset.ne_of_mem_erase hc)]
  rw [this, Function.update_self]
  ac_rfl

private theorem prod_cells {M : Type} [CommMonoid M] (m : Nat) (f : Nat → M) :
    ∏ c ∈ Finset.range m, f c = ((List.range m).map f).prod := by
  induction m with
  | zero => simp
  | succ m ih => rw [Finset.prod_range_succ, ih, List.range_succ, List.map_append, List.prod_append]; simp

/-- The invariant of the honest counters, for any weighting of triples. -/
private theorem honest_inv {M : Type} [CommMonoid M] (m : Nat) (G : Nat → Nat → M) :
    ∀ (addrs : List Nat) (cnt : Nat → Nat) (ts : List Nat) (cnt' : Nat → Nat),
    memoryInTheHead m cnt addrs = some (ts, cnt') →
    ts.length = addrs.length ∧
    (∏ c ∈ Finset.range m, G c (cnt c)) * ((addrs.zip ts).map fun x => G x.1 (x.2 + 1)).prod =
      ((addrs.zip ts).map fun x => G x.1 x.2).prod * ∏ c ∈ Finset.range m, G c (cnt' c)
  | [], cnt, ts, cnt', h => by
    simp only [memoryInTheHead, Option.some.injEq, Prod.mk.injEq] at h
    obtain ⟨rfl, rfl⟩ := h
    simp
  | a :: as, cnt, ts, cnt', h => by
    rw [memoryInTheHead] at h
    by_cases ha : a < m
    · rw [if_pos ha] at h
      by_cases hc : cnt a + 1 < 2 ^ 32
      · rw [if_pos hc] at h
        cases hr : memoryInTheHead m (Function.update cnt a (cnt a + 1)) as with
        | none => rw [hr] at h; cases h
        | some R =>
          obtain ⟨ts', c'⟩ := R
          rw [hr] at h
          simp only [Option.some.injEq, Prod.mk.injEq] at h
          obtain ⟨rfl, rfl⟩ := h
          obtain ⟨h1, h2⟩ := honest_inv m G as _ ts' c' hr
          refine ⟨by simp [h1], ?_⟩
          simp only [List.zip_cons_cons, List.map_cons, List.prod_cons]
          rw [← mul_assoc, ← cells_update m G cnt ha (cnt a + 1), mul_right_comm, h2]
          ac_rfl
      · rw [if_neg hc] at h; cases h
    · rw [if_neg ha] at h; cases h

/-- **C91, completeness.** If every operation reads the value of its cell and the timestamps are those computed from the
addresses, the four hashes agree for all hash parameters. -/
theorem C91_complete (m : Nat) (mem : Nat → F) (addrs : List Nat) (ts : List Nat) (audit : Nat → Nat)
    (h : memoryInTheHead m (fun _ => 0) addrs = some (ts, audit)) (γ₁ γ₂ : F) :
    Check m mem audit (mkOps addrs (addrs.map mem) ts) γ₁ γ₂ := by
  obtain ⟨hl, hinv⟩ := honest_inv m (fun c t => hashTriple γ₁ ((c : F), mem c, (t : F)) - γ₂) addrs _ ts audit h
  have hz : ∀ g : Nat → F → Nat → F, ((addrs.zip ((addrs.map mem).zip ts)).map fun x => g x.1 x.2.1 x.2.2) =
      (addrs.zip ts).map fun x => g x.1 (mem x.1) x.2 := by
    intro g
    clear h hinv
    induction addrs generalizing ts with
    | nil => rfl
    | cons a as ih =>
      cases ts with
      | nil => rfl
      | cons t ts => simp only [List.map_cons, List.zip_cons_cons]; rw [ih ts (by simpa using hl)]
  unfold Check
  simp only [multisetHash_prod, initSet, auditSet, readSet, writeSet, mkOps, List.map_map]
  have e1 := hz fun a v t => hashTriple γ₁ ((a : F), v, (t : F) + 1) - γ₂
  have e2 := hz fun a v t => hashTriple γ₁ ((a : F), v, (t : F)) - γ₂
  simp only [Function.comp_def]
  rw [e1, e2]
  simp only [Nat.cast_add, Nat.cast_one, Nat.cast_zero] at hinv
  rw [prod_cells, prod_cells] at hinv
  exact hinv

/-- Sets of triples: with timestamps that do not wrap, reads that all come from the initial cells or from writes read
the values of the memory. -/
private theorem reads_ok (m : Nat) (mem : Nat → F) (ops : List (Op F)) (p : Nat)
    (hinj : ∀ x y : Nat, x < p → y < p → (x : F) = (y : F) → x = y) (hm : m ≤ p)
    (hop : ∀ o ∈ ops, o.addr < m ∧ o.ts + 1 < p)
    (hsub : ∀ t ∈ readSet ops, t ∈ initSet m mem ++ writeSet ops) :
    ∀ (t : Nat) (o : Op F), o ∈ ops → o.ts = t → o.val = mem o.addr := by
  intro t
  induction t using Nat.strong_induction_on with
  | _ t ih =>
    intro o ho hot
    obtain ⟨ha, hts⟩ := hop o ho
    have := hsub _ (List.mem_map.mpr ⟨o, ho, rfl⟩)
    rcases List.mem_append.mp this with h | h
    · obtain ⟨c, hc, he⟩ := List.mem_map.mp h
      simp only [Prod.mk.injEq] at he
      have hcm := List.mem_range.mp hc
      have : c = o.addr := hinj c o.addr (by omega) (by omega) he.1
      rw [← he.2.1, this]
    · obtain ⟨w, hw, he⟩ := List.mem_map.mp h
      simp only [Prod.mk.injEq] at he
      obtain ⟨hwa, hwt⟩ := hop w hw
      have h1 : w.addr = o.addr := hinj _ _ (by omega) (by omega) he.1
      have h2 : w.ts + 1 = o.ts := hinj _ _ (by omega) (by omega) (by rw [Nat.cast_add, Nat.cast_one]; exact he.2.2)
      rw [← he.2.1, ← h1]
      exact ih w.ts (by omega) w hw rfl

private theorem prod_sub_eval (es : List F) (γ : F) :
    (es.map fun e => e - γ).prod =
      (-1) ^ es.length * (((es : Multiset F).map fun e => Polynomial.X - Polynomial.C e).prod).eval γ := by
  induction es with
  | nil => simp
  | cons e es ih =>
    rw [List.map_cons, List.prod_cons, ih, List.length_cons, ← Multiset.cons_coe, Multiset.map_cons,
      Multiset.prod_cons, Polynomial.eval_mul, Polynomial.eval_sub, Polynomial.eval_X, Polynomial.eval_C]
    ring

/-- Two lists of equal length whose products agree at more points than their length have the same elements. -/
private theorem mem_of_many (xs ys : List F) (hl : xs.length = ys.length) (S : Finset F) (hS : xs.length < S.card)
    (h : ∀ γ ∈ S, (xs.map fun e => e - γ).prod = (ys.map fun e => e - γ).prod) (e : F) (he : e ∈ ys) : e ∈ xs := by
  have hp : (((xs : Multiset F).map fun e => Polynomial.X - Polynomial.C e).prod) =
      (((ys : Multiset F).map fun e => Polynomial.X - Polynomial.C e).prod) := by
    have hd : ∀ zs : List F, ((((zs : Multiset F).map fun e => Polynomial.X - Polynomial.C e).prod)).natDegree =
        zs.length := fun zs => by
      rw [Polynomial.natDegree_multiset_prod_X_sub_C_eq_card, Multiset.coe_card]
    refine sub_eq_zero.mp (Polynomial.eq_zero_of_natDegree_lt_card_of_eval_eq_zero' _ S (fun γ hγ => ?_) ?_)
    · have := h γ hγ
      rw [prod_sub_eval, prod_sub_eval, hl] at this
      rw [Polynomial.eval_sub, sub_eq_zero]
      exact mul_left_cancel₀ (pow_ne_zero _ (neg_ne_zero.mpr one_ne_zero)) this
    · refine lt_of_le_of_lt (Polynomial.natDegree_sub_le _ _) ?_
      rw [hd, hd, ← hl, max_self]
      exact hS
  have hr := congrArg Polynomial.roots hp
  rw [Polynomial.roots_multiset_prod_X_sub_C, Polynomial.roots_multiset_prod_X_sub_C] at hr
  have : e ∈ (ys : Multiset F) := he
  rw [← hr] at this
  exact this

/-- **C91, soundness.** Let the timestamps be any natural numbers that the field tells apart. If some operation claims a
value other than that of its cell, then for every first parameter that does not make two of the occurring triples
collide, the hashes agree for at most `m + n` choices of the second parameter. The final counters are arbitrary. -/
theorem C91_sound (m : Nat) (mem : Nat → F) (audit : Nat → Nat) (ops : List (Op F)) (p : Nat)
    (hinj : ∀ x y : Nat, x < p → y < p → (x : F) = (y : F) → x = y) (hm : m ≤ p)
    (hop : ∀ o ∈ ops, o.addr < m ∧ o.ts + 1 < p)
    (o : Op F) (ho : o ∈ ops) (hbad : o.val ≠ mem o.addr) (γ₁ : F)
    (hcol : ∀ x ∈ readSet ops, ∀ y ∈ initSet m mem ++ writeSet ops, hashTriple γ₁ x = hashTriple γ₁ y → x = y)
    (S : Finset F) (hS : ∀ γ₂ ∈ S, Check m mem audit ops γ₁ γ₂) : S.card ≤ m + ops.length := by
  by_contra hlt
  refine hbad (reads_ok m mem ops p hinj hm hop (fun t ht => ?_) o.ts o ho rfl)
  have hmem := mem_of_many ((initSet m mem ++ writeSet ops).map (hashTriple γ₁))
    ((readSet ops ++ auditSet m mem audit).map (hashTriple γ₁))
    (by simp [initSet, writeSet, readSet, auditSet, Nat.add_comm]) S
    (by simp only [initSet, writeSet, List.length_map, List.length_append, List.length_range]; omega)
    (fun γ hγ => by
      have := hS γ hγ
      unfold Check at this
      simp only [multisetHash_prod] at this
      simpa only [List.map_append, List.prod_append] using this)
    (hashTriple γ₁ t) (List.mem_map.mpr ⟨t, List.mem_append_left _ ht, rfl⟩)
  obtain ⟨y, hy, he⟩ := List.mem_map.mp hmem
  rw [hcol t ht y hy he.symm]
  exact hy

/-- **C91, the first parameter.** Two different triples collide for at most two choices of the first parameter. -/
theorem C91_collide (x y : F × F × F) (hxy : x ≠ y) (S : Finset F)
    (hS : ∀ γ ∈ S, hashTriple γ x = hashTriple γ y) : S.card ≤ 2 := by
  by_contra hlt
  have h3 : 2 < S.card := by omega
  obtain ⟨a, b, c, ha, hb, hc, hab, hac, hbc⟩ := Finset.two_lt_card_iff.mp h3
  have ea := hS a ha
  have eb := hS b hb
  have ec := hS c hc
  simp only [hashTriple] at ea eb ec
  have s1 : (x.1 - y.1) * (a + b) + (x.2.1 - y.2.1) = 0 :=
    (mul_eq_zero.mp (show (a - b) * ((x.1 - y.1) * (a + b) + (x.2.1 - y.2.1)) = 0 by
      linear_combination ea - eb)).resolve_left (sub_ne_zero.mpr hab)
  have s2 : (x.1 - y.1) * (a + c) + (x.2.1 - y.2.1) = 0 :=
    (mul_eq_zero.mp (show (a - c) * ((x.1 - y.1) * (a + c) + (x.2.1 - y.2.1)) = 0 by
      linear_combination ea - ec)).resolve_left (sub_ne_zero.mpr hac)
  have s3 : x.1 - y.1 = 0 :=
    (mul_eq_zero.mp (show (b - c) * (x.1 - y.1) = 0 by
      linear_combination s1 - s2)).resolve_left (sub_ne_zero.mpr hbc)
  have s4 : x.2.1 - y.2.1 = 0 := by linear_combination s1 - (a + b) * s3
  have s5 : x.2.2 - y.2.2 = 0 := by linear_combination ea - a * a * s3 - a * s4
  exact hxy (Prod.ext (sub_eq_zero.mp s3) (Prod.ext (sub_eq_zero.mp s4) (sub_eq_zero.mp s5)))

/-- **C91, timestamps.** The timestamp of a read is the number of earlier reads of its cell, and the final counter
the number of all reads. -/
theorem C91_timestamps (m : Nat) : ∀ (addrs : List Nat) (cnt : Nat → Nat) (ts : List Nat) (cnt' : Nat → Nat),
    memoryInTheHead m cnt addrs = some (ts, cnt') →
    (∀ c, cnt' c = cnt c + addrs.count c) ∧ ts.length = addrs.length ∧
    ∀ i a, addrs[i]? = some a → a < m ∧ ts[i]? = some (cnt a + (addrs.take i).count a) ∧
      cnt a + (addrs.take i).count a + 1 < 2 ^ 32
  | [], cnt, ts, cnt', h => by
    simp only [memoryInTheHead, Option.some.injEq, Prod.mk.injEq] at h
    obtain ⟨rfl, rfl⟩ := h
    simp
  | a :: as, cnt, ts, cnt', h => by
    rw [memoryInTheHead] at h
    by_cases ha : a < m
    · rw [if_pos ha] at h
      by_cases hc : cnt a + 1 < 2 ^ 32
      · rw [if_pos hc] at h
        cases hr : memoryInTheHead m (Function.update cnt a (cnt a + 1)) as with
        | none => rw [hr] at h; cases h
        | some R =>
          obtain ⟨ts', c'⟩ := R
          rw [hr] at h
          simp only [Option.some.injEq, Prod.mk.injEq] at h
          obtain ⟨rfl, rfl⟩ := h
          obtain ⟨h1, h2, h3⟩ := C91_timestamps m as _ ts' c' hr
          have key : ∀ (b : Nat) (l : List Nat),
              Function.update cnt a (cnt a + 1) b + l.count b = cnt b + (a :: l).count b := by
            intro b l
            by_cases hb : b = a
            · subst hb; rw [Function.update_self, List.count_cons_self]; omega
            · rw [Function.update_of_ne hb, List.count_cons_of_ne (Ne.symm hb)]
          refine ⟨fun c => by rw [h1, key], by simp [h2], fun i b hi => ?_⟩
          cases i with
          | zero =>
            simp only [List.getElem?_cons_zero, Option.some.injEq] at hi
            subst hi
            exact ⟨ha, by simp, by simpa using hc⟩
          | succ i =>
            rw [List.getElem?_cons_succ] at hi
            obtain ⟨g1, g2, g3⟩ := h3 i b hi
            rw [key] at g2 g3
            exact ⟨g1, by rw [List.getElem?_cons_succ, List.take_succ_cons]; exact g2,
              by rw [List.take_succ_cons]; exact g3⟩
      · rw [if_neg hc] at h; cases h
    · rw [if_neg ha] at h; cases h

/-- **C91, wrapping counters.** The bound on the timestamps is needed: in a field of characteristic `p`, `p` reads of
one cell with the timestamps computed from the addresses pass for every parameter whatever common value they claim. -/
theorem C91_wrap (p : Nat) [CharP F p] (mem : Nat → F) (v γ₁ γ₂ : F) :
    Check 1 mem (fun _ => p) ((List.range p).map fun t => ⟨0, v, t⟩) γ₁ γ₂ := by
  have hshift : ∀ G : F → F, ((List.range p).map fun t : Nat => G ((t : F) + 1)).prod =
      ((List.range p).map fun t : Nat => G (t : F)).prod := by
    intro G
    have hp : ∀ n : Nat, ((List.range n).map fun t : Nat => G ((t : F) + 1)).prod * G 0 =
        ((List.range n).map fun t : Nat => G (t : F)).prod * G (n : F) := by
      intro n
      induction n with
      | zero => simp
      | succ n ih =>
        simp only [List.range_succ, List.map_append, List.prod_append, List.map_cons, List.map_nil, List.prod_cons,
          List.prod_nil, mul_one, Nat.cast_add, Nat.cast_one]
        rw [mul_right_comm, ih]
    cases p with
    | zero => rfl
    | succ n =>
      have h0 : ((n : F) + 1) = 0 := by
        have := CharP.cast_eq_zero F (n + 1)
        rwa [Nat.cast_add, Nat.cast_one] at this
      simp only [List.range_succ, List.map_append, List.prod_append, List.map_cons, List.map_nil, List.prod_cons,
        List.prod_nil, mul_one]
      rw [h0, hp n]
  unfold Check
  simp only [multisetHash_prod, initSet, auditSet, readSet, writeSet, List.map_map, Function.comp_def,
    CharP.cast_eq_zero F p]
  rw [hshift fun t => hashTriple γ₁ (((0 : Nat) : F), v, t) - γ₂, mul_comm]

/-- Three reads of two cells: the counters exist. -/
example : (memoryInTheHead 2 (fun _ => 0) [1, 0, 1]).map (fun r => (r.1, r.2 0, r.2 1)) = some ([0, 0, 1], 1, 2) := by
  simp [memoryInTheHead, Function.update]

/-- The hypotheses of soundness hold of two reads of one cell, the second wrong. -/
example :
    (∀ x y : Nat, x < 101 → y < 101 → (x : ℚ) = (y : ℚ) → x = y) ∧
    (∀ o ∈ ([⟨1, 9, 0⟩, ⟨1, 8, 1⟩] : List (Op ℚ)), o.addr < 2 ∧ o.ts + 1 < 101) ∧
    (∀ x ∈ readSet ([⟨1, 9, 0⟩, ⟨1, 8, 1⟩] : List (Op ℚ)),
      ∀ y ∈ initSet 2 (fun c => if c = 0 then 5 else 9) ++ writeSet ([⟨1, 9, 0⟩, ⟨1, 8, 1⟩] : List (Op ℚ)),
        hashTriple 10 x = hashTriple 10 y → x = y) := by
  refine ⟨fun x y _ _ h => Nat.cast_injective h, by simp, ?_⟩
  simp only [readSet, initSet, writeSet, List.range_succ, List.range_zero, List.map_cons, List.map_nil,
    List.nil_append, List.cons_append, List.mem_cons, List.not_mem_nil, or_false]
  rintro x (rfl | rfl) y (rfl | rfl | rfl | rfl) <;> norm_num [hashTriple]

end JST.Props
