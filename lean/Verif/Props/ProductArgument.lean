import Verif.Pcs.ProductArgument
import Mathlib.Algebra.Field.ZMod
import Mathlib.Tactic.Ring
import Mathlib.Algebra.Polynomial.Roots
import Mathlib.Algebra.Polynomial.Degree.SmallDegree
import Mathlib.Algebra.BigOperators.Ring.Finset
import Mathlib.Tactic.LinearCombination
import Mathlib.Tactic.FieldSimp
import Mathlib.Tactic.NormNum.Prime

/-!
# Property C90: the product argument
-/

namespace JST.Props

open JST.Product

variable {F S : Type} [Field F]

/-- Specification: the multilinear extension of the first `2^n` values of `a` at a point with `n` coordinates,
the first of which belongs to the lowest bit of the index. -/
def mleSpec (a : Nat → F) (x : List F) : F :=
  ∑ i ∈ Finset.range (2 ^ x.length), a i * ∏ j ∈ Finset.range x.length,
    (if i.testBit j then x.getD j 0 else 1 - x.getD j 0)

private theorem sum_range_pow (n : Nat) (f : Nat → F) :
    ∑ i ∈ Finset.range (2 ^ (n + 1)), f i = ∑ i ∈ Finset.range (2 ^ n), (f (2 * i) + f (2 * i + 1)) := by
  rw [pow_succ]
  generalize 2 ^ n = h
  induction h with
  | zero => simp
  | succ h ih =>
    rw [show (h + 1) * 2 = h * 2 + 1 + 1 by ring, Finset.sum_range_succ, Finset.sum_range_succ, ih,
      Finset.sum_range_succ, mul_comm h 2]
    ring

private theorem prod_range_pow (n : Nat) (f : Nat → F) :
    ∏ i ∈ Finset.range (2 ^ (n + 1)), f i = ∏ i ∈ Finset.range (2 ^ n), (f (2 * i) * f (2 * i + 1)) := by
  rw [pow_succ]
  generalize 2 ^ n = h
  induction h with
  | zero => simp
  | succ h ih =>
    rw [show (h + 1) * 2 = h * 2 + 1 + 1 by ring, Finset.prod_range_succ, Finset.prod_range_succ, ih,
      Finset.prod_range_succ, mul_comm h 2]
    ring

private theorem eqAt_spec : ∀ (x : List F) (i : Nat), eqAt x i =
    ∏ j ∈ Finset.range x.length, (if i.testBit j then x.getD j 0 else 1 - x.getD j 0)
  | [], i => by simp [eqAt]
  | z :: zs, i => by
    rw [eqAt, eqAt_spec zs, List.length_cons, Finset.prod_range_succ', mul_comm]
    congr 1
    · refine Finset.prod_congr rfl fun j _ => ?_
      rw [Nat.testBit_succ, List.getD_cons_succ]
    · rw [Nat.testBit_zero, List.getD_cons_zero]
      by_cases h : i % 2 = 1 <;> simp [h]

/-- The multilinear extension, by binding the lowest variable first. -/
private def mle (a : Nat → F) : List F → F
  | [] => a 0
  | z :: zs => mle (fold z a) zs

private theorem mle_sum : ∀ (x : List F) (a : Nat → F),
    mle a x = ∑ i ∈ Finset.range (2 ^ x.length), eqAt x i * a i
  | [], a => by simp [mle, eqAt]
  | z :: zs, a => by
    rw [mle, mle_sum zs, List.length_cons, sum_range_pow]
    refine Finset.sum_congr rfl fun i _ => ?_
    have h0 : (2 * i) % 2 = 0 := by omega
    have h1 : (2 * i + 1) % 2 = 1 := by omega
    have h2 : (2 * i) / 2 = i := by omega
    have h3 : (2 * i + 1) / 2 = i := by omega
    simp only [eqAt, h0, h1, h2, h3, fold]
    norm_num
    ring

private theorem mle_eq_spec (x : List F) (a : Nat → F) : mle a x = mleSpec a x := by
  rw [mle_sum, mleSpec]
  exact Finset.sum_congr rfl fun i _ => by rw [eqAt_spec, mul_comm]

private theorem mle_lin (c d : F) : ∀ (x : List F) (a b : Nat → F),
    mle (fun i => c * a i + d * b i) x = c * mle a x + d * mle b x
  | [], _, _ => rfl
  | z :: zs, a, b => by
    rw [mle, mle, mle, ← mle_lin c d zs]
    congr 1
    funext i
    simp only [fold]
    ring

private theorem mle_scale (c : F) (x : List F) (a : Nat → F) : mle (fun i => c * a i) x = c * mle a x := by
  have := mle_lin c 0 x a (fun _ => 0)
  simpa using this

/-- The table of `eq` folded at all variables. -/
private theorem mle_eqAt : ∀ (x point : List F), x.length = point.length → mle (eqAt point) x = eqEval x point
  | [], [], _ => rfl
  | z :: zs, y :: ys, h => by
    rw [mle, eqEval, ← mle_eqAt zs ys (by simpa using h), ← mle_scale]
    congr 1
    funext i
    have h0 : (2 * i) % 2 = 0 := by omega
    have h1 : (2 * i + 1) % 2 = 1 := by omega
    have h2 : (2 * i) / 2 = i := by omega
    have h3 : (2 * i + 1) / 2 = i := by omega
    simp only [eqAt, h0, h1, h2, h3, fold]
    norm_num
    ring

private theorem sum3_split (n : Nat) (q l r : Nat → F) :
    sum3 (2 ^ n) (fold 0 q) (fold 0 l) (fold 0 r) + sum3 (2 ^ n) (fold 1 q) (fold 1 l) (fold 1 r) =
      sum3 (2 ^ (n + 1)) q l r := by
  unfold sum3
  rw [sum_range_pow, ← Finset.sum_add_distrib]
  refine Finset.sum_congr rfl fun i _ => ?_
  simp [fold]

/-- Interpolation recovers every cubic in the challenge. -/
private theorem lagrange3_sum (h6 : (6 : F) ≠ 0) (h : Nat) (q l r : Nat → F) (c : F) :
    lagrange3 (roundMsg h q l r) c = sum3 h (fold c q) (fold c l) (fold c r) := by
  have h2 : (2 : F) ≠ 0 := fun h => h6 (by linear_combination 3 * h)
  have h3 : (3 : F) ≠ 0 := fun h => h6 (by linear_combination 2 * h)
  have e6 : (6 : F)⁻¹ = 2⁻¹ * 3⁻¹ := by rw [← mul_inv]; norm_num
  unfold lagrange3 roundMsg sum3
  simp only [Finset.sum_mul, ← Finset.sum_add_distrib]
  refine Finset.sum_congr rfl fun i _ => ?_
  simp only [fold]
  rw [e6]
  field_simp
  ring

private theorem level_prod (leaves : Nat → F) : ∀ (l i : Nat),
    level leaves l i = ∏ j ∈ Finset.range (2 ^ l), leaves (2 ^ l * i + j)
  | 0, i => by simp [level]
  | l + 1, i => by
    rw [level, level_prod leaves l, level_prod leaves l, pow_succ, mul_two, Finset.prod_range_add]
    congr 1
    · exact Finset.prod_congr rfl fun j _ => by congr 1; ring
    · exact Finset.prod_congr rfl fun j _ => by congr 1; ring

variable [DecidableEq F]

private theorem rounds_complete (tr : Tr F S) (h6 : (6 : F) ≠ 0) : ∀ (n : Nat) (s : S) (q l r : Nat → F),
    ∃ xs, xs.length = n ∧ (proveRounds tr n s q l r).1.length = n ∧
      (proveRounds tr n s q l r).2.1 = xs ∧
      (proveRounds tr n s q l r).2.2.1 = mle l xs ∧ (proveRounds tr n s q l r).2.2.2.1 = mle r xs ∧
      verifyRounds tr (proveRounds tr n s q l r).1 (sum3 (2 ^ n) q l r) s =
        some (xs, mle q xs * mle l xs * mle r xs, (proveRounds tr n s q l r).2.2.2.2)
  | 0, s, q, l, r => ⟨[], rfl, rfl, rfl, rfl, rfl, by simp [proveRounds, verifyRounds, sum3, mle]⟩
  | n + 1, s, q, l, r => by
    simp only [proveRounds]
    generalize hd : tr.draw (absorbRound tr s (roundMsg (2 ^ n) q l r)) = d
    obtain ⟨xs, h1, h2, h3, h4, h5, h7⟩ := rounds_complete tr h6 n d.2 (fold d.1 q) (fold d.1 l) (fold d.1 r)
    refine ⟨d.1 :: xs, by simp [h1], by simp [h2], by rw [h3], h4, h5, ?_⟩
    have hs : (roundMsg (2 ^ n) q l r).g0 + (roundMsg (2 ^ n) q l r).g1 = sum3 (2 ^ (n + 1)) q l r :=
      sum3_split n q l r
    rw [verifyRounds, if_neg (not_not.mpr hs), hd]
    dsimp only
    rw [lagrange3_sum h6, h7]
    rfl

private theorem layers_complete (tr : Tr F S) (h6 : (6 : F) ≠ 0) (leaves : Nat → F) :
    ∀ (l : Nat) (point : List F) (s : S), ∃ xs, xs.length = point.length + l ∧
      (proveLayers tr leaves l point s).1.length = l ∧ (proveLayers tr leaves l point s).2.1 = xs ∧
      verifyLayers tr (proveLayers tr leaves l point s).1 point (mle (level leaves l) point) s =
        some (xs, mle leaves xs, (proveLayers tr leaves l point s).2.2)
  | 0, point, s => ⟨point, by simp, rfl, rfl, by
      have : level leaves 0 = leaves := by funext i; rfl
      simp [proveLayers, verifyLayers, this]⟩
  | l + 1, point, s => by
    simp only [proveLayers]
    obtain ⟨ys, h1, h2, h3, h4, h5, h7⟩ := rounds_complete tr h6 point.length s (eqAt point)
      (fun i => level leaves l (2 * i)) (fun i => level leaves l (2 * i + 1))
    generalize hR : proveRounds tr point.length s (eqAt point) (fun i => level leaves l (2 * i))
      (fun i => level leaves l (2 * i + 1)) = R at h2 h3 h4 h5 h7 ⊢
    generalize hd : tr.draw (tr.append (tr.append R.2.2.2.2 R.2.2.1) R.2.2.2.1) = d
    rw [h3]
    obtain ⟨xs, g1, g2, g3, g4⟩ := layers_complete tr h6 leaves l (d.1 :: ys) d.2
    refine ⟨xs, by rw [g1, List.length_cons, h1]; omega, by simp [g2], g3, ?_⟩
    have hclaim : mle (level leaves (l + 1)) point = sum3 (2 ^ point.length) (eqAt point)
        (fun i => level leaves l (2 * i)) (fun i => level leaves l (2 * i + 1)) := by
      rw [mle_sum, sum3]
      exact Finset.sum_congr rfl fun i _ => by rw [level]; ring
    have hmerge : (1 - d.1) * R.2.2.1 + d.1 * R.2.2.2.1 = mle (level leaves l) (d.1 :: ys) := by
      rw [h4, h5, mle, ← mle_lin]
      congr 1
      funext i
      simp only [fold]
      ring
    rw [verifyLayers, if_neg (not_not.mpr h2), hclaim, h7]
    dsimp only
    rw [if_neg (by rw [not_not, h4, h5, mle_eqAt ys point h1]), hd, hmerge, g4]

/-- **C90, completeness.** For every number of variables, all leaves and every transcript, over every field in which
6 is not zero: the root is the product of the leaves, the verifier accepts, ends with the prover's transcript, and
is left with a true claim about the multilinear extension of the leaves at a point of the right length. -/
theorem C90_complete (tr : Tr F S) (h6 : (6 : F) ≠ 0) (k : Nat) (leaves : Nat → F) (s : S) :
    (prove tr k leaves s).1 = ∏ i ∈ Finset.range (2 ^ k), leaves i ∧
    ∃ x : List F, x.length = k ∧ verify tr k (prove tr k leaves s).1 (prove tr k leaves s).2.1 s =
      some (x, mleSpec leaves x, (prove tr k leaves s).2.2) := by
  refine ⟨by simp [prove, level_prod], ?_⟩
  obtain ⟨xs, h1, h2, -, h4⟩ := layers_complete tr h6 leaves k [] (tr.append s (level leaves k 0))
  refine ⟨xs, by simpa using h1, ?_⟩
  unfold prove verify
  dsimp only
  rw [if_neg (not_not.mpr h2), ← mle_eq_spec]
  exact h4

/-! ## Soundness -/

/-- A lucky round: the message is not the true one, and yet at the challenge both give the same value. -/
def LuckyRound (m : Round F) (h : Nat) (q l r : Nat → F) (c : F) : Prop :=
  m ≠ roundMsg h q l r ∧ lagrange3 m c = lagrange3 (roundMsg h q l r) c

/-- A lucky merge: the two claimed evaluations are not both true, and yet at the challenge they give the true value. -/
def LuckyMerge (L R l r c : F) : Prop := (L ≠ l ∨ R ≠ r) ∧ (1 - c) * L + c * R = (1 - c) * l + c * r

/-- Some round of a layer is lucky, where the challenges are those the verifier draws. -/
def LuckyRounds (tr : Tr F S) : List (Round F) → S → (q l r : Nat → F) → Prop
  | [], _, _, _, _ => False
  | m :: ms, s, q, l, r =>
    LuckyRound m (2 ^ ms.length) q l r (tr.draw (absorbRound tr s m)).1 ∨
      LuckyRounds tr ms (tr.draw (absorbRound tr s m)).2 (fold (tr.draw (absorbRound tr s m)).1 q)
        (fold (tr.draw (absorbRound tr s m)).1 l) (fold (tr.draw (absorbRound tr s m)).1 r)

/-- Some round or merge of the run of the verifier on these layers is lucky. -/
def LuckyLayers (tr : Tr F S) (leaves : Nat → F) : List (LayerProof F) → List F → F → S → Prop
  | [], _, _, _ => False
  | L :: Ls, point, claim, s =>
    LuckyRounds tr L.rounds s (eqAt point) (fun i => level leaves Ls.length (2 * i))
      (fun i => level leaves Ls.length (2 * i + 1)) ∨
    ∃ R, verifyRounds tr L.rounds claim s = some R ∧
      (LuckyMerge L.left L.right (mleSpec (fun i => level leaves Ls.length (2 * i)) R.1)
        (mleSpec (fun i => level leaves Ls.length (2 * i + 1)) R.1)
        (tr.draw (tr.append (tr.append R.2.2 L.left) L.right)).1 ∨
      LuckyLayers tr leaves Ls ((tr.draw (tr.append (tr.append R.2.2 L.left) L.right)).1 :: R.1)
        ((1 - (tr.draw (tr.append (tr.append R.2.2 L.left) L.right)).1) * L.left +
          (tr.draw (tr.append (tr.append R.2.2 L.left) L.right)).1 * L.right)
        (tr.draw (tr.append (tr.append R.2.2 L.left) L.right)).2)

private theorem rounds_sound (tr : Tr F S) (h6 : (6 : F) ≠ 0) : ∀ (ms : List (Round F)) (s : S) (q l r : Nat → F)
    (running : F) (R : List F × F × S), verifyRounds tr ms running s = some R →
    ¬ LuckyRounds tr ms s q l r → running ≠ sum3 (2 ^ ms.length) q l r →
    R.1.length = ms.length ∧ R.2.1 ≠ mle q R.1 * mle l R.1 * mle r R.1
  | [], s, q, l, r, running, R, hv, _, hne => by
    simp only [verifyRounds, Option.some.injEq] at hv
    subst hv
    simpa [mle, sum3] using hne
  | m :: ms, s, q, l, r, running, R, hv, hl, hne => by
    rw [verifyRounds] at hv
    by_cases hsum : m.g0 + m.g1 = running
    · rw [if_neg (not_not.mpr hsum)] at hv
      dsimp only at hv
      rw [LuckyRounds, not_or] at hl
      generalize tr.draw (absorbRound tr s m) = d at hv hl
      cases hr : verifyRounds tr ms (lagrange3 m d.1) d.2 with
      | none => rw [hr] at hv; cases hv
      | some R' =>
        rw [hr] at hv
        simp only [Option.some.injEq] at hv
        subst hv
        have hm : m ≠ roundMsg (2 ^ ms.length) q l r := by
          rintro rfl
          exact hne (by rw [← hsum, List.length_cons, ← sum3_split]; rfl)
        have hc : lagrange3 m d.1 ≠ sum3 (2 ^ ms.length) (fold d.1 q) (fold d.1 l) (fold d.1 r) := by
          rw [← lagrange3_sum h6]
          exact fun h => hl.1 ⟨hm, h⟩
        obtain ⟨g1, g2⟩ := rounds_sound tr h6 ms d.2 _ _ _ _ R' hr hl.2 hc
        exact ⟨by simp [g1], g2⟩
    · rw [if_pos hsum] at hv; cases hv

private theorem layers_sound (tr : Tr F S) (h6 : (6 : F) ≠ 0) (leaves : Nat → F) :
    ∀ (Ls : List (LayerProof F)) (point : List F) (claim : F) (s : S) (x : List F) (v : F) (s' : S),
    verifyLayers tr Ls point claim s = some (x, v, s') → ¬ LuckyLayers tr leaves Ls point claim s →
    claim ≠ mle (level leaves Ls.length) point → v ≠ mle leaves x
  | [], point, claim, s, x, v, s', hv, _, hne => by
    simp only [verifyLayers, Option.some.injEq, Prod.mk.injEq] at hv
    obtain ⟨rfl, rfl, -⟩ := hv
    exact hne
  | L :: Ls, point, claim, s, x, v, s', hv, hl, hne => by
    rw [verifyLayers] at hv
    by_cases hlen : L.rounds.length = point.length
    · rw [if_neg (not_not.mpr hlen)] at hv
      cases hr : verifyRounds tr L.rounds claim s with
      | none => rw [hr] at hv; cases hv
      | some R =>
        rw [hr] at hv
        dsimp only at hv
        rw [LuckyLayers, not_or] at hl
        obtain ⟨hl1, hl2⟩ := hl
        have hl3 := not_or.mp fun h => hl2 ⟨R, hr, h⟩
        generalize tr.draw (tr.append (tr.append R.2.2 L.left) L.right) = d at hv hl3
        by_cases hck : eqEval R.1 point * L.left * L.right = R.2.1
        · rw [if_neg (not_not.mpr hck)] at hv
          have hclaim : claim ≠ sum3 (2 ^ L.rounds.length) (eqAt point)
              (fun i => level leaves Ls.length (2 * i)) (fun i => level leaves Ls.length (2 * i + 1)) := by
            intro h
            refine hne (h.trans ?_)
            rw [mle_sum, sum3, hlen, List.length_cons]
            exact Finset.sum_congr rfl fun i _ => by rw [level]; ring
          obtain ⟨g1, g2⟩ := rounds_sound tr h6 _ _ _ _ _ _ R hr hl1 hclaim
          rw [mle_eqAt R.1 point (g1.trans hlen), ← hck] at g2
          refine layers_sound tr h6 leaves Ls _ _ _ x v s' hv hl3.2 fun h => hl3.1 ⟨?_, ?_⟩
          · by_contra hcon
            rw [not_or, not_not, not_not] at hcon
            rw [← mle_eq_spec, ← mle_eq_spec] at hcon
            exact g2 (by rw [hcon.1, hcon.2])
          · rw [h, ← mle_eq_spec, ← mle_eq_spec, mle, ← mle_lin]
            congr 1
            funext i
            simp only [fold]
            ring
        · rw [if_pos hck] at hv; cases hv
    · rw [if_pos hlen] at hv; cases hv

/-- **C90, soundness.** Whatever proof is given: if the verifier accepts a root that is not the product of the leaves
and the evaluation it is left with is true, then one of its challenges was lucky. -/
theorem C90_sound (tr : Tr F S) (h6 : (6 : F) ≠ 0) (k : Nat) (leaves : Nat → F) (root : F)
    (proof : List (LayerProof F)) (s : S) (x : List F) (v : F) (s' : S)
    (hv : verify tr k root proof s = some (x, v, s')) (htrue : v = mleSpec leaves x)
    (hroot : root ≠ ∏ i ∈ Finset.range (2 ^ k), leaves i) :
    LuckyLayers tr leaves proof [] root (tr.append s root) := by
  unfold verify at hv
  dsimp only at hv
  by_cases hk : proof.length = k
  · rw [if_neg (not_not.mpr hk)] at hv
    by_contra hl
    refine layers_sound tr h6 leaves proof [] root _ x v s' hv hl ?_ (by rw [htrue, mle_eq_spec])
    rw [hk, mle, level_prod]
    simpa using hroot
  · rw [if_pos hk] at hv; cases hv

omit [DecidableEq F] in
/-- **C90, few lucky challenges in a round.** For every message that is not the true one, at most three challenges are
lucky: among any four different challenges one is not. -/
theorem C90_lucky_round (h6 : (6 : F) ≠ 0) (m : Round F) (h : Nat) (q l r : Nat → F) (c : Fin 4 → F)
    (hc : Function.Injective c) : ∃ i, ¬ LuckyRound m h q l r (c i) := by
  by_contra hcon
  push Not at hcon
  have h2 : (2 : F) ≠ 0 := fun h => h6 (by linear_combination 3 * h)
  have h3 : (3 : F) ≠ 0 := fun h => h6 (by linear_combination 2 * h)
  generalize hM : roundMsg h q l r = M at hcon
  unfold LuckyRound at hcon
  rw [hM] at hcon
  have e6 : (6 : F)⁻¹ = 2⁻¹ * 3⁻¹ := by rw [← mul_inv]; norm_num
  -- the difference of the two cubics, as a polynomial
  let d0 := m.g0 - M.g0
  let d1 := m.g1 - M.g1
  let d2 := m.g2 - M.g2
  let d3 := m.g3 - M.g3
  let A : F := -d0 * 6⁻¹ + d1 * 2⁻¹ - d2 * 2⁻¹ + d3 * 6⁻¹
  let B : F := d0 - 5 * d1 * 2⁻¹ + 2 * d2 - d3 * 2⁻¹
  let C : F := -11 * d0 * 6⁻¹ + 3 * d1 - 3 * d2 * 2⁻¹ + d3 * 3⁻¹
  have hpoly : ∀ t : F, lagrange3 m t - lagrange3 M t = A * t ^ 3 + B * t ^ 2 + C * t + d0 := by
    intro t
    simp only [A, B, C, d0, d1, d2, d3, lagrange3, e6]
    field_simp
    ring
  let P : Polynomial F := Polynomial.C A * Polynomial.X ^ 3 + Polynomial.C B * Polynomial.X ^ 2 +
    Polynomial.C C * Polynomial.X + Polynomial.C d0
  have hev : ∀ t : F, P.eval t = lagrange3 m t - lagrange3 M t := by
    intro t; rw [hpoly]; simp [P]
  have hdeg : P.natDegree ≤ 3 := Polynomial.natDegree_cubic_le
  have hP : P = 0 := by
    refine Polynomial.eq_zero_of_natDegree_lt_card_of_eval_eq_zero P hc (fun i => ?_) ?_
    · rw [hev, (hcon i).2, sub_self]
    · simpa using Nat.lt_succ_of_le hdeg
  have hall : ∀ t : F, lagrange3 m t = lagrange3 M t := fun t => by
    have := hev t
    rw [hP, Polynomial.eval_zero] at this
    linear_combination -this
  have v0 : ∀ z : Round F, lagrange3 z 0 = z.g0 := fun z => by
    simp only [lagrange3, e6]; field_simp; ring
  have v1 : ∀ z : Round F, lagrange3 z 1 = z.g1 := fun z => by
    simp only [lagrange3, e6]; field_simp; ring
  have v2 : ∀ z : Round F, lagrange3 z 2 = z.g2 := fun z => by
    simp only [lagrange3, e6]; field_simp; ring
  have v3 : ∀ z : Round F, lagrange3 z 3 = z.g3 := fun z => by
    simp only [lagrange3, e6]; field_simp; ring
  apply (hcon 0).1
  have a0 := hall 0
  have a1 := hall 1
  have a2 := hall 2
  have a3 := hall 3
  rw [v0, v0] at a0
  rw [v1, v1] at a1
  rw [v2, v2] at a2
  rw [v3, v3] at a3
  cases m; cases M
  simp_all

omit [DecidableEq F] in
/-- **C90, at most one lucky challenge in a merge.** -/
theorem C90_lucky_merge (L R l r c c' : F) (h : LuckyMerge L R l r c) (h' : LuckyMerge L R l r c') : c = c' := by
  obtain ⟨hne, e⟩ := h
  obtain ⟨-, e'⟩ := h'
  by_contra hcc
  have hd : (c - c') * ((R - r) - (L - l)) = 0 := by linear_combination e - e'
  rcases mul_eq_zero.mp hd with hd | hd
  · exact hcc (sub_eq_zero.mp hd)
  · have hL : L - l = 0 := by linear_combination e - c * hd
    have hR : R - r = 0 := by linear_combination hd + hL
    rcases hne with hne | hne
    · exact hne (sub_eq_zero.mp hL)
    · exact hne (sub_eq_zero.mp hR)

private theorem verifyRounds_length (tr : Tr F S) : ∀ (ms : List (Round F)) (running : F) (s : S) (R : List F × F × S),
    verifyRounds tr ms running s = some R → R.1.length = ms.length
  | [], running, s, R, hv => by
    simp only [verifyRounds, Option.some.injEq] at hv
    subst hv; rfl
  | m :: ms, running, s, R, hv => by
    rw [verifyRounds] at hv
    by_cases hsum : m.g0 + m.g1 = running
    · rw [if_neg (not_not.mpr hsum)] at hv
      dsimp only at hv
      cases hr : verifyRounds tr ms (lagrange3 m (tr.draw (absorbRound tr s m)).1) (tr.draw (absorbRound tr s m)).2 with
      | none => rw [hr] at hv; cases hv
      | some R' =>
        rw [hr] at hv
        simp only [Option.some.injEq] at hv
        subst hv
        simp [verifyRounds_length tr ms _ _ R' hr]
    · rw [if_pos hsum] at hv; cases hv

private theorem verifyLayers_length (tr : Tr F S) : ∀ (Ls : List (LayerProof F)) (point : List F) (claim : F) (s : S)
    (R : List F × F × S), verifyLayers tr Ls point claim s = some R →
    R.1.length = point.length + Ls.length ∧
      ∀ (j : Nat) (L : LayerProof F), Ls[j]? = some L → L.rounds.length = point.length + j
  | [], point, claim, s, R, hv => by
    simp only [verifyLayers, Option.some.injEq] at hv
    subst hv
    exact ⟨rfl, fun j L h => by simp at h⟩
  | L :: Ls, point, claim, s, R, hv => by
    rw [verifyLayers] at hv
    by_cases hlen : L.rounds.length = point.length
    · rw [if_neg (not_not.mpr hlen)] at hv
      cases hr : verifyRounds tr L.rounds claim s with
      | none => rw [hr] at hv; cases hv
      | some R' =>
        rw [hr] at hv
        dsimp only at hv
        have hl := verifyRounds_length tr _ _ _ R' hr
        by_cases hck : eqEval R'.1 point * L.left * L.right = R'.2.1
        · rw [if_neg (not_not.mpr hck)] at hv
          obtain ⟨g1, g2⟩ := verifyLayers_length tr Ls _ _ _ R hv
          rw [List.length_cons, hl, hlen] at g1 g2
          refine ⟨by rw [g1, List.length_cons]; omega, fun j M hj => ?_⟩
          cases j with
          | zero => simp at hj; rw [← hj, hlen]; rfl
          | succ j =>
            rw [List.getElem?_cons_succ] at hj
            rw [g2 j M hj]; omega
        · rw [if_pos hck] at hv; cases hv
    · rw [if_pos hlen] at hv; cases hv

/-- **C90, the number of challenges.** An accepted proof has `k` layers, layer `j` from the root has `j` rounds, and the
point has `k` coordinates: so a run has `k (k - 1) / 2` round challenges and `k` merge challenges, however the proof is
made. Everything else is refused. -/
theorem C90_counts (tr : Tr F S) (k : Nat) (root : F) (proof : List (LayerProof F)) (s : S) (x : List F) (v : F) (s' : S)
    (hv : verify tr k root proof s = some (x, v, s')) :
    proof.length = k ∧ x.length = k ∧
      ∀ (j : Nat) (L : LayerProof F), proof[j]? = some L → L.rounds.length = j := by
  unfold verify at hv
  dsimp only at hv
  by_cases hk : proof.length = k
  · rw [if_neg (not_not.mpr hk)] at hv
    obtain ⟨h1, h2⟩ := verifyLayers_length tr _ _ _ _ _ hv
    refine ⟨hk, by simpa [hk] using h1, fun j L hj => ?_⟩
    simpa using h2 j L hj
  · rw [if_pos hk] at hv; cases hv

/-! ## The hypotheses are met -/

/-- A transcript that mixes what it absorbs. -/
def toyTr : Tr (ZMod 101) (ZMod 101) := ⟨fun s x => 7 * s + x + 1, fun s => (s * s + 3, 5 * s + 2)⟩

instance : Fact (Nat.Prime 101) := ⟨by norm_num⟩

/-- Eight leaves. -/
example : (prove toyTr 3 (fun i => (i : ZMod 101) + 2) 1).1 =
      ∏ i ∈ Finset.range (2 ^ 3), ((i : ZMod 101) + 2) ∧
    ∃ x : List (ZMod 101), x.length = 3 ∧ verify toyTr 3 (prove toyTr 3 (fun i => (i : ZMod 101) + 2) 1).1
      (prove toyTr 3 (fun i => (i : ZMod 101) + 2) 1).2.1 1 = some (x, mleSpec (fun i => (i : ZMod 101) + 2) x,
        (prove toyTr 3 (fun i => (i : ZMod 101) + 2) 1).2.2) :=
  C90_complete toyTr (by decide) 3 _ 1

/-- A transcript whose every challenge is 2: for the leaves 1, 2 the root 9 is accepted with a true last claim, by a lucky
merge. -/
example : LuckyLayers (⟨fun s _ => s, fun s => (2, s)⟩ : Tr (ZMod 101) Unit) (fun i => (i : ZMod 101) + 1)
    [⟨[], 3, 3⟩] [] 9 () :=
  C90_sound (F := ZMod 101) _ (by decide) 1 _ 9 [⟨[], 3, 3⟩] () [2] 3 () (by decide) (by decide) (by decide)

end JST.Props
