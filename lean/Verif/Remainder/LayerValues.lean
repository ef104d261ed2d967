import Verif.Remainder.Sums
import Mathlib.Tactic.LinearCombination

/-!
# The Remainder backend: values of single layers
-/

namespace JST.Remainder

open scoped BigOperators

/-! ## Casts -/

section Casts

variable {p : Nat}

/-- Integers closer together than `p` with equal casts are equal. -/
theorem int_eq_of_cast {a b : Int} (h : (a : ZMod p) = b) (h1 : a - b < p) (h2 : b - a < p) : a = b := by
  have hd : (p : Int) ∣ b - a := (ZMod.intCast_eq_intCast_iff_dvd_sub a b p).1 h
  have : b - a = 0 := Int.eq_zero_of_abs_lt_dvd hd (by rw [abs_lt]; constructor <;> linarith)
  linarith

/-- The rescaling equation determines the quotient once that is known to be a machine integer. -/
theorem rescale_forced {v z : Int} {e j : Nat} (he : e ≤ 18) (hp : 2 ^ 100 < p) (hz : InI64 z)
    (hv : -2 ^ 64 ≤ v ∧ v < 2 ^ 64) (hj : j < 2 ^ e)
    (h : (v : ZMod p) - (z : ZMod p) * ((2 ^ e : Int) : ZMod p) - (j : ZMod p) = 0) : z = v / 2 ^ e := by
  have hα : (2 ^ e : Int) ≤ 2 ^ 18 := pow_le_pow_right₀ (by norm_num) he
  have hα0 : (0 : Int) < 2 ^ e := by positivity
  have hp' : ((2 : Int) ^ 100) < p := by exact_mod_cast hp
  have hjz : (j : Int) < 2 ^ e := by exact_mod_cast hj
  have hj0 : (0 : Int) ≤ j := Int.natCast_nonneg j
  obtain ⟨hz1, hz2⟩ := hz
  have e1 : (v : ZMod p) = ((z * 2 ^ e + (j : Int) : Int) : ZMod p) := by
    push_cast; push_cast at h; linear_combination h
  have b1 : z * 2 ^ e ≤ 2 ^ 63 * 2 ^ 18 := by
    calc z * 2 ^ e ≤ 2 ^ 63 * 2 ^ e := by nlinarith
      _ ≤ 2 ^ 63 * 2 ^ 18 := by nlinarith
  have b2 : -(2 ^ 63 * 2 ^ 18) ≤ z * 2 ^ e := by
    calc z * 2 ^ e ≥ -2 ^ 63 * 2 ^ e := by nlinarith
      _ ≥ -(2 ^ 63 * 2 ^ 18) := by nlinarith
  have e2 : v = z * 2 ^ e + (j : Int) := by
    apply int_eq_of_cast e1
    · have := hv.2; norm_num at *; linarith
    · have := hv.1; norm_num at *; linarith
  rw [e2]
  symm
  rw [Int.add_comm, Int.add_mul_ediv_right _ _ (ne_of_gt hα0), Int.ediv_eq_zero_of_lt hj0 hjz, zero_add]

/-- The equations of a Relu: the output is the maximum and the input is small. -/
theorem relu_forced [Fact p.Prime] {x m : ZMod p} {ji jz : Nat} (h1 : m - x - (ji : ZMod p) = 0)
    (h2 : m - 0 - (jz : ZMod p) = 0) (h3 : (ji : ZMod p) * (jz : ZMod p) = 0)
    (hi : ji < p) (hz : jz < p) :
    x = (((jz : Int) - ji : Int) : ZMod p) ∧ m = ((max ((jz : Int) - ji) 0 : Int) : ZMod p) := by
  have em : m = (jz : ZMod p) := by linear_combination h2
  constructor
  · push_cast; rw [← em]; linear_combination -h1
  · rcases mul_eq_zero.1 h3 with h | h
    · rw [ZMod.natCast_eq_zero_iff] at h
      have : ji = 0 := Nat.eq_zero_of_dvd_of_lt h hi
      subst this
      rw [em]; simp
    · rw [ZMod.natCast_eq_zero_iff] at h
      have : jz = 0 := Nat.eq_zero_of_dvd_of_lt h hz
      subst this
      rw [em]; simp

end Casts

/-! ## Convolution -/

section Conv

variable {F : Type} [CommRing F]

theorem ite_sum (P : Prop) [Decidable P] (n : Nat) (f : Nat → F) :
    (if P then ∑ a ∈ Finset.range n, f a else 0) = ∑ a ∈ Finset.range n, if P then f a else 0 := by
  split_ifs <;> simp

/-- What a selection of patches followed by a matrix product computes. -/
theorem conv_value (env : SName → Nat → F) (d : ConvDims) (inp : Layout) (node : Node) (w : SName) (i : Nat) :
    (Node.matmul (.gate node (convWiring d inp)) (numVars (d.cIn * d.kh * d.kw)) (.shred w)
        (numVars d.cOut)).eval env i =
      if i / nextPow2 d.cOut < d.outH * d.outW then
        ∑ c ∈ Finset.range d.cIn, ∑ kr ∈ Finset.range d.kh, ∑ kc ∈ Finset.range d.kw,
          (if d.padT ≤ i / nextPow2 d.cOut / d.outW * d.sh + kr ∧
              i / nextPow2 d.cOut / d.outW * d.sh + kr < d.padT + d.inH ∧
              d.padL ≤ i / nextPow2 d.cOut % d.outW * d.sw + kc ∧
              i / nextPow2 d.cOut % d.outW * d.sw + kc < d.padL + d.inW then
            node.eval env (inp.index c (i / nextPow2 d.cOut / d.outW * d.sh + kr - d.padT)
              (i / nextPow2 d.cOut % d.outW * d.sw + kc - d.padL)) *
            env w ((c * d.kh * d.kw + kr * d.kw + kc) * nextPow2 d.cOut + i % nextPow2 d.cOut) else 0)
      else 0 := by
  rw [Node.eval]
  simp only [← nextPow2_eq]
  set P := nextPow2 (d.cIn * d.kh * d.kw) with hP
  set co := nextPow2 d.cOut with hco
  set row := i / co with hrow
  have hgate : ∀ k, (Node.gate node (convWiring d inp)).eval env (row * P + k) =
      ∑ oh ∈ Finset.range d.outH, ∑ ow ∈ Finset.range d.outW, ∑ c ∈ Finset.range d.cIn,
        ∑ kr ∈ Finset.range d.kh, ∑ kc ∈ Finset.range d.kw,
        (if d.padT ≤ oh * d.sh + kr ∧ oh * d.sh + kr < d.padT + d.inH ∧ d.padL ≤ ow * d.sw + kc ∧
            ow * d.sw + kc < d.padL + d.inW then
          if (oh * d.outW + ow) * P + (c * d.kh * d.kw + kr * d.kw + kc) = row * P + k then
            node.eval env (inp.index c (oh * d.sh + kr - d.padT) (ow * d.sw + kc - d.padL)) else 0 else 0) := by
    intro k
    rw [Node.eval, convWiring]
    simp only [sum_flatMap', sum_filterMap', sum_range', ← hP]
    refine Finset.sum_congr rfl fun oh _ => Finset.sum_congr rfl fun ow _ => Finset.sum_congr rfl fun c _ =>
      Finset.sum_congr rfl fun kr _ => Finset.sum_congr rfl fun kc _ => ?_
    by_cases h1 : oh * d.sh + kr < d.padT ∨ ow * d.sw + kc < d.padL
    · rw [if_pos h1, if_neg (by omega)]; rfl
    · rw [if_neg h1]
      by_cases h2 : oh * d.sh + kr - d.padT ≥ d.inH ∨ ow * d.sw + kc - d.padL ≥ d.inW
      · rw [if_pos h2, if_neg (by omega)]; rfl
      · rw [if_neg h2, if_pos (by omega)]; rfl
  rw [Finset.sum_congr rfl fun k _ => by rw [hgate k, Node.eval]]
  rw [sum_swap]
  have hin : ∀ oh ∈ Finset.range d.outH, (∑ k ∈ Finset.range P, (∑ ow ∈ Finset.range d.outW,
      ∑ c ∈ Finset.range d.cIn, ∑ kr ∈ Finset.range d.kh, ∑ kc ∈ Finset.range d.kw,
        (if d.padT ≤ oh * d.sh + kr ∧ oh * d.sh + kr < d.padT + d.inH ∧ d.padL ≤ ow * d.sw + kc ∧
            ow * d.sw + kc < d.padL + d.inW then
          if (oh * d.outW + ow) * P + (c * d.kh * d.kw + kr * d.kw + kc) = row * P + k then
            node.eval env (inp.index c (oh * d.sh + kr - d.padT) (ow * d.sw + kc - d.padL)) else 0 else 0)) *
        env w (k * co + i % co)) =
      ∑ ow ∈ Finset.range d.outW, if oh * d.outW + ow = row then
        (∑ c ∈ Finset.range d.cIn, ∑ kr ∈ Finset.range d.kh, ∑ kc ∈ Finset.range d.kw,
          (if d.padT ≤ oh * d.sh + kr ∧ oh * d.sh + kr < d.padT + d.inH ∧ d.padL ≤ ow * d.sw + kc ∧
              ow * d.sw + kc < d.padL + d.inW then
            node.eval env (inp.index c (oh * d.sh + kr - d.padT) (ow * d.sw + kc - d.padL)) *
            env w ((c * d.kh * d.kw + kr * d.kw + kc) * co + i % co) else 0)) else 0 := by
    intro oh _
    rw [sum_swap]
    refine Finset.sum_congr rfl fun ow _ => ?_
    rw [sum_swap]
    rw [ite_sum]
    refine Finset.sum_congr rfl fun c hc => ?_
    rw [sum_swap, ite_sum]
    refine Finset.sum_congr rfl fun kr hkr => ?_
    rw [sum_swap, ite_sum]
    refine Finset.sum_congr rfl fun kc hkc => ?_
    have hc := Finset.mem_range.1 hc
    have hkr := Finset.mem_range.1 hkr
    have hkc := Finset.mem_range.1 hkc
    have hcol : c * d.kh * d.kw + kr * d.kw + kc < d.cIn * d.kh * d.kw := by
      have a1 : (kr + 1) * d.kw ≤ d.kh * d.kw := Nat.mul_le_mul_right _ hkr
      have a2 : (c + 1) * (d.kh * d.kw) ≤ d.cIn * (d.kh * d.kw) := Nat.mul_le_mul_right _ hc
      have a3 : (c + 1) * (d.kh * d.kw) = c * d.kh * d.kw + d.kh * d.kw := by ring
      have a4 : (kr + 1) * d.kw = kr * d.kw + d.kw := by ring
      have a5 : d.cIn * (d.kh * d.kw) = d.cIn * d.kh * d.kw := by ring
      omega
    have hcolP : c * d.kh * d.kw + kr * d.kw + kc < P := lt_of_lt_of_le hcol (le_nextPow2 _)
    split_ifs with hpad hr hr
    · rw [Finset.sum_eq_single (c * d.kh * d.kw + kr * d.kw + kc)]
      · rw [hr, if_pos rfl]
      · intro k _ hk
        rw [if_neg (by rw [hr]; omega), zero_mul]
      · intro hn; exact absurd (Finset.mem_range.2 hcolP) hn
    · apply Finset.sum_eq_zero
      intro k hk
      rw [if_neg, zero_mul]
      intro heq
      apply hr
      have hkP := Finset.mem_range.1 hk
      have hP0 : 0 < P := by omega
      have e := congrArg (· / P) heq
      simp only [Nat.mul_comm _ P, Nat.mul_add_div hP0, Nat.div_eq_of_lt hcolP, Nat.div_eq_of_lt hkP] at e
      omega
    · simp
    · simp
  rw [Finset.sum_congr rfl hin, sum_pick d.outH d.outW row
    (fun oh ow => ∑ c ∈ Finset.range d.cIn, ∑ kr ∈ Finset.range d.kh, ∑ kc ∈ Finset.range d.kw,
          (if d.padT ≤ oh * d.sh + kr ∧ oh * d.sh + kr < d.padT + d.inH ∧ d.padL ≤ ow * d.sw + kc ∧
              ow * d.sw + kc < d.padL + d.inW then
            node.eval env (inp.index c (oh * d.sh + kr - d.padT) (ow * d.sw + kc - d.padL)) *
            env w ((c * d.kh * d.kw + kr * d.kw + kc) * co + i % co) else 0))]

/-- What the selection of one element of every window computes. -/
theorem pool_value (env : SName → Nat → F) (d : PoolDims) (inp : Layout) (node : Node) (ph pw i : Nat) :
    (Node.gate node (poolWiring d inp ph pw)).eval env i =
      if i < d.outH * d.outW * d.c then
        node.eval env (inp.index (i % d.c) (i / d.c / d.outW * d.sh + ph) (i / d.c % d.outW * d.sw + pw))
      else 0 := by
  rw [Node.eval, poolWiring]
  simp only [sum_flatMap', List.map_map, Function.comp_def, sum_range']
  rcases Nat.eq_zero_or_pos d.c with hc | hc
  · simp [hc]
  have h : ∀ ch ∈ Finset.range d.c, (∑ oh ∈ Finset.range d.outH, ∑ ow ∈ Finset.range d.outW,
      if (oh * d.outW + ow) * d.c + ch = i then
        node.eval env (inp.index ch (oh * d.sh + ph) (ow * d.sw + pw)) else 0) =
      if ch = i % d.c then (if i / d.c < d.outH * d.outW then
        node.eval env (inp.index (i % d.c) (i / d.c / d.outW * d.sh + ph) (i / d.c % d.outW * d.sw + pw)) else 0)
      else 0 := by
    intro ch hch
    have hch := Finset.mem_range.1 hch
    have hiff : ∀ a, a * d.c + ch = i ↔ (ch = i % d.c ∧ a = i / d.c) := by
      intro a
      constructor
      · rintro rfl
        rw [Nat.mul_comm a, Nat.mul_add_mod, Nat.mod_eq_of_lt hch, Nat.mul_add_div hc, Nat.div_eq_of_lt hch]
        simp
      · rintro ⟨h1, h2⟩
        rw [h1, h2, Nat.mul_comm]; exact Nat.div_add_mod i d.c
    simp only [hiff]
    by_cases he : ch = i % d.c
    · simp only [he, true_and, if_true]
      exact sum_pick d.outH d.outW (i / d.c)
        (fun oh ow => node.eval env (inp.index (i % d.c) (oh * d.sh + ph) (ow * d.sw + pw)))
    · simp [he]
  rw [Finset.sum_congr rfl h, Finset.sum_ite_eq' (Finset.range d.c) (i % d.c),
    if_pos (Finset.mem_range.2 (Nat.mod_lt i hc))]
  simp only [Nat.div_lt_iff_lt_mul hc]

/-- The product of a Gemm: one row. -/
theorem gemm_value (env : SName → Nat → F) (node : Node) (w : SName) (kv nv i : Nat) (hi : i < 2 ^ nv) :
    (Node.matmul node kv (.shred w) nv).eval env i =
      ∑ k ∈ Finset.range (2 ^ kv), node.eval env k * env w (k * 2 ^ nv + i) := by
  rw [Node.eval]
  simp only [Nat.div_eq_of_lt hi, Nat.mod_eq_of_lt hi, zero_mul, zero_add, Node.eval]

end Conv

end JST.Remainder
