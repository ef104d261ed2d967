import Verif.Runner.WitnessProofs
import Verif.Runner.VerifyExtract
import Verif.Primes
import Mathlib.Data.ZMod.Basic

/-!
# Witness files: signed values (C34), comparison (C35), extraction (C36), packing (C42)
-/

namespace JST.Props

open JST JST.Witness JST.Extract

/-! ## C34: signed encoding -/

theorem encodeSigned_lt {p : Nat} (hp : 0 < p) (v : Int) : encodeSigned p v < p := by
  unfold encodeSigned; split_ifs <;> exact Nat.mod_lt _ hp

/-- The encoding of a signed integer is its residue. -/
theorem encodeSigned_cast {p : Nat} (hp : 0 < p) (v : Int) : ((encodeSigned p v : Nat) : ZMod p) = v := by
  unfold encodeSigned
  have hlt := Nat.mod_lt v.natAbs hp
  split_ifs with h
  · rw [ZMod.natCast_mod, Nat.cast_sub hlt.le, ZMod.natCast_self, ZMod.natCast_mod, zero_sub]
    have : (v.natAbs : Int) = -v := by omega
    have h2 : ((v.natAbs : Int) : ZMod p) = ((-v : Int) : ZMod p) := by rw [this]
    rw [Int.cast_natCast] at h2
    rw [h2]; push_cast; ring
  · rw [ZMod.natCast_mod]
    have : (v.natAbs : Int) = v := by omega
    rw [← Int.cast_natCast, this]

/-- Encoding a signed integer of magnitude at most half an odd modulus in the field and decoding it
the way the verifier does returns it. -/
theorem C34_round_trip (p : Nat) (hodd : p % 2 = 1) (v : Int) (h : 2 * v.natAbs ≤ p) :
    fromFieldRepr (encodeSigned p v) p = .ok v := by
  unfold fromFieldRepr encodeSigned
  dsimp only
  by_cases hv : v < 0
  · rw [if_pos hv, Nat.mod_eq_of_lt (show v.natAbs < p by omega),
      Nat.mod_eq_of_lt (show p - v.natAbs < p by omega), if_pos (by omega), if_pos (by omega)]
    congr 1; omega
  · rw [if_neg hv, Nat.mod_eq_of_lt (show v.natAbs < p by omega), if_neg (by omega)]
    congr 1; omega

example : fromFieldRepr (encodeSigned goldP (-5)) goldP = .ok (-5) ∧
    encodeSigned goldP (-5) = goldP - 5 := by decide

/-- Decoding any field element gives the representative of least magnitude; in particular decoding is
injective on field elements. -/
theorem C34_decode (p value : Nat) (h : value < p) :
    ∃ r : Int, fromFieldRepr value p = .ok r ∧ (r : ZMod p) = value ∧ 2 * r.natAbs ≤ p := by
  unfold fromFieldRepr
  dsimp only
  split_ifs with h1 h2
  · refine ⟨_, rfl, ?_, by omega⟩
    push_cast
    rw [Nat.cast_sub (by omega), ZMod.natCast_self]; ring
  · omega
  · exact ⟨value, rfl, by simp, by omega⟩

/-- A value above the modulus makes the decoder panic: only the field elements' decoder, which runs
before it in verification but not in plain extraction, excludes those. -/
theorem C34_decode_panics (p value : Nat) (h : p < value) :
    fromFieldRepr value p = .error .panic := by
  unfold fromFieldRepr
  dsimp only
  rw [if_pos (by omega), if_neg (by omega)]

/-- The verifier's scaling of expected inputs uses the same encoding as the witness generator. -/
theorem C34_scaling_agrees (p : Nat) (hp : 0 < p) (v : Int) : reduceScaled p v = encodeSigned p v := by
  unfold reduceScaled encodeSigned
  dsimp only
  have := Nat.mod_lt v.natAbs hp
  split_ifs with h h0
  · rw [h0]; simp
  · exact (Nat.mod_eq_of_lt (show p - v.natAbs % p < p by omega)).symm
  · rfl

/-! ## C35: comparison -/

/-- Two field values are within `tol` of each other modulo `p`. -/
def Within (p tol e a : Nat) : Prop := ∃ d : Int, d.natAbs ≤ tol ∧ ((e : Int) : ZMod p) = (a : Int) + d

theorem within_iff {p tol : Nat} (hp : 0 < p) (ht : tol ≤ p) (e a : Nat) :
    ¬ ((if e ≥ a then (e - a) % p else p - (a - e) % p) > tol ∧
      (if e ≥ a then (e - a) % p else p - (a - e) % p) < p - tol) ↔ Within p tol e a := by
  -- the difference as an integer residue
  obtain ⟨q, hq⟩ : ∃ q : Int, (e : Int) - a
      = (if e ≥ a then (e - a) % p else p - (a - e) % p : Nat) + p * q := by
    split_ifs with h
    · refine ⟨((e - a) / p : Nat), ?_⟩
      have := Nat.mod_add_div (e - a) p
      zify [h] at this ⊢
      linarith
    · refine ⟨-(((a - e) / p : Nat) : Int) - 1, ?_⟩
      have h1 := Nat.mod_add_div (a - e) p
      have h2 := (Nat.mod_lt (a - e) hp).le
      zify [h2, (by omega : e ≤ a)] at h1 ⊢
      linarith
  have hr : (if e ≥ a then (e - a) % p else p - (a - e) % p) ≤ p := by
    split_ifs
    · exact (Nat.mod_lt _ hp).le
    · omega
  generalize (if e ≥ a then (e - a) % p else p - (a - e) % p) = r at *
  unfold Within
  constructor
  · intro h
    have hor : r ≤ tol ∨ p - tol ≤ r := by omega
    rcases hor with h1 | h1
    · refine ⟨r, by omega, ?_⟩
      have : (e : Int) = a + r + p * q := by linarith
      rw [this]; push_cast; simp
    · refine ⟨(r : Int) - p, by omega, ?_⟩
      have : (e : Int) = a + r + p * q := by linarith
      rw [this]; push_cast; simp
  · rintro ⟨d, hd, he⟩ ⟨h1, h2⟩
    have hdvd : (p : Int) ∣ (e : Int) - (a + d) := by
      have := (ZMod.intCast_eq_intCast_iff_dvd_sub ((a : Int) + d) e p).1 (by push_cast at he ⊢; exact he.symm)
      exact this
    obtain ⟨k, hk⟩ := hdvd
    have hrd : (r : Int) = d + p * (k - q) := by
      have : (e : Int) = a + d + p * k := by linarith
      rw [this] at hq
      rw [mul_sub]; linarith
    -- tol < r < p - tol and |d| ≤ tol leave no multiple of p
    have hb1 : (0 : Int) < p * (k - q) := by omega
    have hb2 : (p : Int) * (k - q) < p * 1 := by omega
    have hp' : (0 : Int) < p := by exact_mod_cast hp
    have g1 : 0 < k - q := by
      by_contra hc
      have : (p : Int) * (k - q) ≤ 0 := mul_nonpos_of_nonneg_of_nonpos hp'.le (by omega)
      omega
    have g2 : k - q < 1 := lt_of_mul_lt_mul_left hb2 hp'.le
    omega

/-- Comparing expected with actual public inputs accepts exactly when there are equally many and
every pair is within the tolerance modulo the modulus, for every tolerance up to the modulus. -/
theorem C35_compare (expected actual : List Nat) (p tol : Nat) (hp : 0 < p) (ht : tol ≤ p) :
    ∃ b, compareFieldValues expected actual p tol = .ok b ∧
      (b = true ↔ List.Forall₂ (Within p tol) expected actual) := by
  have loop : ∀ (es as : List Nat), es.length = as.length →
      (compareLoop p tol es as = true ↔ List.Forall₂ (Within p tol) es as) := by
    intro es
    induction es with
    | nil =>
      intro as h
      cases as with
      | nil => simp [compareLoop]
      | cons a as => simp at h
    | cons e es ih =>
      intro as h
      cases as with
      | nil => simp at h
      | cons a as =>
        have h1 := within_iff hp ht e a
        have h2 := ih as (by simpa using h)
        rw [List.forall₂_cons, ← h1, ← h2]
        simp only [compareLoop]
        generalize (if e ≥ a then (e - a) % p else p - (a - e) % p) = d
        by_cases hc : d > tol ∧ d < p - tol
        · rw [if_pos hc]
          simp only [Bool.false_eq_true, false_iff]
          exact fun hh => hh.1 hc
        · rw [if_neg hc]
          exact ⟨fun hh => ⟨hc, hh⟩, fun hh => hh.2⟩
  unfold compareFieldValues
  split_ifs with h1 h2
  · refine ⟨false, rfl, ?_⟩
    simp only [Bool.false_eq_true, false_iff]
    intro h; exact h1 h.length_eq
  · omega
  · exact ⟨_, rfl, loop _ _ (by simpa using h1)⟩

example : compareFieldValues [0, 7] [goldP - 1, 6] goldP 1 = .ok true ∧
    compareFieldValues [2] [0] goldP 1 = .ok false := by decide

/-- A tolerance above the modulus panics on every equally long pair. -/
theorem C35_tolerance_panics (expected actual : List Nat) (h : expected.length = actual.length)
    (p tol : Nat) (ht : p < tol) : compareFieldValues expected actual p tol = .error .panic := by
  unfold compareFieldValues
  rw [if_neg (by simpa using h), if_pos ht]

/-! ## C42: packing -/

section

variable {F : Type} [Inhabited F] {P : Nat}

/-- Packing any number of witnesses of `a` inputs and `b` public inputs into `P` lanes: lane `j`
carries witness `j`, and lanes past the last witness repeat it. -/
theorem C42_pack (ws : List (List F)) (a b : Nat) (h : ∀ w ∈ ws, w.length = a + b)
    (hn : ws ≠ []) (hm : 0 < a + b) :
    ∃ xs ys, packBlock P ws.flatten a b = some (xs, ys) ∧ xs.length = a ∧ ys.length = b ∧
      ∀ j : Fin P, ∃ w, ws[min j.val (ws.length - 1)]? = some w ∧
        xs.map (· j) = w.take a ∧ ys.map (· j) = w.drop a := by
  have hpos : 0 < ws.length := List.length_pos_iff.2 hn
  refine ⟨_, _, packBlock_eq h hn hm, by simp, by simp, fun j => ?_⟩
  have hl : min j.val (ws.length - 1) < ws.length := by omega
  have hlane : lane ws j = ws[min j.val (ws.length - 1)] := by
    unfold lane; rw [List.getD_eq_getElem _ _ hl]
  have hw := h _ (List.getElem_mem hl)
  refine ⟨_, List.getElem?_eq_getElem hl, ?_, ?_⟩
  · rw [List.map_map]
    apply List.ext_getElem
    · simp; omega
    · intro i h1 h2
      simp at h1 h2
      simp [hlane, hw, (by omega : i < a + b)]
  · rw [List.map_map]
    apply List.ext_getElem
    · simp; omega
    · intro i h1 h2
      simp at h1 h2
      simp [hlane, hw, (by omega : a + i < a + b)]

example : (packBlock 3 [1, 2, 3, 4] 1 1).map (fun (x, y) => (x.map List.ofFn, y.map List.ofFn))
    = some ([[1, 3, 3]], [[2, 4, 4]]) := by decide

/-- Without a complete witness, or with nothing to pack, packing panics. -/
theorem C42_pack_panics (s : List F) (a b : Nat) (hP : 0 < P)
    (h : a + b = 0 ∨ s.length < a + b) : packBlock P s a b = none := by
  unfold packBlock
  dsimp only
  rcases h with h | h
  · rw [if_pos h]
  · rw [if_neg (by omega), if_pos ⟨by rw [Nat.div_eq_of_lt h]; simp, hP⟩]

/-- Converting a witness set to packed form and iterating over it returns every witness unchanged and
in order; so does iterating over the unpacked form. -/
theorem C42_iter_scalar (ws : List (List F)) (a b : Nat) (h : ∀ w ∈ ws, w.length = a + b)
    (hP : 0 < P) (hm : 0 < a + b) :
    iterScalar (⟨ws.length, a, b, .scalar ws.flatten⟩ : Wit F P)
      = some (ws.map fun w => (w.take a, w.drop a)) ∧
    ∃ w', convertToSimd (⟨ws.length, a, b, .scalar ws.flatten⟩ : Wit F P) = some w' ∧
      iterScalar w' = some (ws.map fun w => (w.take a, w.drop a)) := by
  constructor
  · unfold iterScalar
    rw [scalarLoop_scalar h _ _ _ (by simp)]
    simp
  · refine ⟨_, convertToSimd_eq h hP hm, ?_⟩
    unfold iterScalar
    dsimp only
    rw [scalarLoop_simd (blocksOf_uniform (a + b) ws) hP _ _ _ ?_ ?_]
    · congr 1
      apply List.ext_getElem
      · simp
      · intro i h1 h2
        simp only [List.length_map, List.length_range'] at h1
        rw [List.getElem_map, List.getElem_map, List.getElem_range']
        simp only [Nat.zero_add, Nat.one_mul]
        exact itemAt_blocksOf h hP h1
    · have := le_numBlocks_mul (n := ws.length) hP
      simp only [blocksOf, List.length_map, List.length_range]
      omega
    · intro h0; simp at h0

/-- Iterating over blocks, from either form: block `k` carries in lane `j` witness `k * P + j`, or the
last witness when there are fewer. -/
theorem C42_iter_simd (ws : List (List F)) (a b : Nat) (h : ∀ w ∈ ws, w.length = a + b)
    (hP : 0 < P) (hm : 0 < a + b) (w' : Wit F P)
    (hw : w' = ⟨ws.length, a, b, .scalar ws.flatten⟩ ∨
      convertToSimd (⟨ws.length, a, b, .scalar ws.flatten⟩ : Wit F P) = some w') :
    ∃ blocks, iterSimd w' = some blocks ∧ blocks.length = (ws.length + P - 1) / P ∧
      ∀ k (hk : k < blocks.length) (j : Fin P), ∃ w, ws[min (k * P + j) (ws.length - 1)]? = some w ∧
        blocks[k].1.map (· j) = w.take a ∧ blocks[k].2.map (· j) = w.drop a := by
  have hblock : ∀ k, k * P < ws.length → ∀ j : Fin P, ∃ w,
      ws[min (k * P + j) (ws.length - 1)]? = some w ∧ lane (ws.drop (k * P)) j = w ∧
        w.length = a + b := by
    intro k hk j
    have hl : min (k * P + j.val) (ws.length - 1) < ws.length := by omega
    refine ⟨_, List.getElem?_eq_getElem hl, ?_, h _ (List.getElem_mem hl)⟩
    unfold lane
    rw [List.getD_eq_getElem _ _ (by simp; omega), List.getElem_drop]
    congr 1
    simp only [List.length_drop]
    omega
  have hsimd : simdBlock w' = simdBlock w' := rfl
  -- both forms yield the same blocks
  have hstep : ∀ k, k < numBlocks P ws.length → simdBlock w' k
      = some ((List.range a).map fun i => fun j : Fin P => (lane (ws.drop (k * P)) j).getD i default,
          (List.range' a b).map fun i => fun j : Fin P => (lane (ws.drop (k * P)) j).getD i default) := by
    intro k hk
    have hk' := mul_lt_of_lt_numBlocks hP hk
    rcases hw with rfl | hw
    · unfold simdBlock
      dsimp only
      rw [if_pos (by rw [flatten_length h]; exact Nat.mul_le_mul_right _ hk'.le), flatten_drop _ h,
        packBlock_eq (drop_uniform h) (by simp; omega) hm]
    · rw [convertToSimd_eq h hP hm] at hw
      cases hw
      unfold simdBlock
      dsimp only
      have hkb : k < (blocksOf P (a + b) ws).length := by simp [blocksOf]; exact hk
      obtain ⟨e1, e2⟩ := slices (blocksOf_uniform (P := P) (a + b) ws) hkb
      rw [e1, e2]
      simp only [Option.bind_eq_bind, Option.bind_some, Option.some.injEq, Prod.mk.injEq, blocksOf,
        List.getElem_map, List.getElem_range]
      constructor
      · rw [← List.map_take]
        congr 1
        rw [List.take_range]; congr 1; omega
      · rw [← List.map_drop]
        congr 1
        rw [List.range_eq_range', List.drop_range']; congr 1 <;> omega
  have hnum : w'.num = ws.length := by
    rcases hw with rfl | hw
    · rfl
    · rw [convertToSimd_eq h hP hm] at hw; cases hw; rfl
  refine ⟨(List.range (numBlocks P ws.length)).map fun k =>
      ((List.range a).map fun i => fun j : Fin P => (lane (ws.drop (k * P)) j).getD i default,
          (List.range' a b).map fun i => fun j : Fin P => (lane (ws.drop (k * P)) j).getD i default),
    ?_, by simp [numBlocks], ?_⟩
  · unfold iterSimd
    rw [hnum]
    exact Shape.mapM_some _ _ _ fun k hk => hstep k (by simpa using hk)
  · intro k hk j
    simp only [List.length_map, List.length_range] at hk
    obtain ⟨w, h1, h2, h3⟩ := hblock k (mul_lt_of_lt_numBlocks hP hk) j
    refine ⟨w, h1, ?_, ?_⟩
    · simp only [List.getElem_map, List.getElem_range, List.map_map]
      apply List.ext_getElem
      · simp; omega
      · intro i g1 g2
        simp at g1 g2
        simp [h2, h3, (by omega : i < a + b)]
    · simp only [List.getElem_map, List.getElem_range, List.map_map]
      apply List.ext_getElem
      · simp; omega
      · intro i g1 g2
        simp at g1 g2
        simp [h2, h3, (by omega : a + i < a + b)]

end

/-! ## C36: the public inputs shown are the ones proved -/

theorem deField_inv {p wd : Nat} {s s' : Bytes} {x : Nat} (h : deField p wd s = .ok (x, s')) :
    x < p ∧ s = leEnc wd x ++ s' ∧ x < 256 ^ wd := by
  unfold deField at h
  obtain ⟨u, s1, h1, h2⟩ := De.bind_inv h
  obtain ⟨hl, hs⟩ := readExact_inv h1
  split_ifs at h2 with hlt
  · cases h2
    refine ⟨hlt, ?_, ?_⟩
    · rw [hs, ← hl, leEnc_leDec]
    · rw [← hl]; exact leDec_lt u
  · cases h2

theorem deN_mem {α : Type} {d : De α} {Q : α → Prop} (hd : ∀ s s' x, d s = .ok (x, s') → Q x) :
    ∀ (n : Nat) (s s' : Bytes) (l : List α), deN d n s = .ok (l, s') → ∀ x ∈ l, Q x := by
  intro n
  induction n with
  | zero => intro s s' l h; cases h; simp
  | succ n ih =>
    intro s s' l h
    obtain ⟨x, s1, h1, h2⟩ := De.bind_inv h
    obtain ⟨xs, s2, h3, h4⟩ := De.bind_inv h2
    cases h4
    intro y hy
    rcases List.mem_cons.1 hy with rfl | hy
    · exact hd _ _ _ h1
    · exact ih _ _ _ h3 y hy

/-- The header and values of a witness file that decodes. -/
theorem deWit_inv {p wd P : Nat} {data rest : Bytes} {w : Wit Nat P}
    (h : deWit p wd P data = .ok (w, rest)) :
    ∃ (num a b : Nat) (values : List Nat), num < 2 ^ 64 ∧ a + b < 2 ^ 64 ∧
      (∀ x ∈ values, x < p ∧ x < 256 ^ wd) ∧ values.length = num * (a + b) ∧ p < 256 ^ 32 ∧
      data = leEnc 8 num ++ (leEnc 8 a ++ (leEnc 8 b ++ (leEnc 32 p ++
        (values.flatMap (leEnc wd) ++ rest)))) ∧
      (w = ⟨num, a, b, .scalar values⟩ ∧ useSimd P num = false ∨
        convertToSimd (⟨num, a, b, .scalar values⟩ : Wit Nat P) = some w ∧ useSimd P num = true) := by
  unfold deWit at h
  obtain ⟨un, s1, h1, h⟩ := De.bind_inv h
  obtain ⟨ua, s2, h2, h⟩ := De.bind_inv h
  obtain ⟨ub, s3, h3, h⟩ := De.bind_inv h
  obtain ⟨um, s4, h4, h⟩ := De.bind_inv h
  obtain ⟨l1, e1⟩ := readExact_inv h1
  obtain ⟨l2, e2⟩ := readExact_inv h2
  obtain ⟨l3, e3⟩ := readExact_inv h3
  obtain ⟨l4, e4⟩ := readExact_inv h4
  by_cases c1 : leDec um = p
  swap
  · rw [if_pos c1] at h; cases h
  rw [if_neg (not_not.2 c1)] at h
  by_cases c2 : 2 ^ 64 ≤ leDec ua + leDec ub ∨ 2 ^ 64 ≤ leDec un * (leDec ua + leDec ub)
  · rw [if_pos c2] at h; cases h
  rw [if_neg c2] at h
  obtain ⟨values, s5, h5, h⟩ := De.bind_inv h
  obtain ⟨hlen, hs⟩ := deN_inv _ _ _ _ (fun s s' x hx => (deField_inv hx).2.1) h5
  have hmem := deN_mem (Q := fun x => x < p ∧ x < 256 ^ wd)
    (fun s s' x hx => ⟨(deField_inv hx).1, (deField_inv hx).2.2⟩) _ _ _ _ h5
  have hbody : s4 = values.flatMap (leEnc wd) ++ s5 := hs
  have hn : leDec un < 2 ^ 64 := by have := leDec_lt un; rw [l1] at this; norm_num at this ⊢; exact this
  have hpm : p < 256 ^ 32 := by have := leDec_lt um; rw [l4, c1] at this; exact this
  have hdata : ∀ r, s5 = r → data = leEnc 8 (leDec un) ++ (leEnc 8 (leDec ua) ++ (leEnc 8 (leDec ub) ++
      (leEnc 32 p ++ (values.flatMap (leEnc wd) ++ r)))) := by
    rintro r rfl
    rw [e1, e2, e3, e4, hbody, ← c1]
    have f1 := leEnc_leDec un
    have f2 := leEnc_leDec ua
    have f3 := leEnc_leDec ub
    have f4 := leEnc_leDec um
    rw [l1] at f1; rw [l2] at f2; rw [l3] at f3; rw [l4] at f4
    rw [f1, f2, f3, f4]
  refine ⟨leDec un, leDec ua, leDec ub, values, hn, by omega, ?_, hlen, hpm, ?_⟩
  · intro x hx; exact hmem x hx
  split_ifs at h with hs'
  · cases hc : convertToSimd (⟨leDec un, leDec ua, leDec ub, .scalar values⟩ : Wit Nat P) with
    | none => rw [hc] at h; cases h
    | some r =>
      rw [hc] at h
      cases h
      exact ⟨hdata _ rfl, Or.inr ⟨rfl, hs'⟩⟩
  · cases h
    exact ⟨hdata _ rfl, Or.inl ⟨rfl, by simpa using hs'⟩⟩

theorem readExact_append {n : Nat} (u s : Bytes) (h : u.length = n) :
    readExact n (u ++ s) = .ok (u, s) := by
  unfold readExact
  rw [if_neg (by simp; omega), ← h]
  simp

theorem deN_raw {wd : Nat} : ∀ (vs : List Nat) (s : Bytes), (∀ x ∈ vs, x < 256 ^ wd) →
    deN (do let u ← readExact wd; pure (leDec u)) vs.length (vs.flatMap (leEnc wd) ++ s)
      = .ok (vs, s)
  | [], s, _ => rfl
  | v :: vs, s, h => by
    have ih := deN_raw vs s (fun x hx => h x (by simp [hx]))
    have hv := h v (by simp)
    rw [List.length_cons, List.flatMap_cons, List.append_assoc]
    have h1 : (do let u ← readExact wd; pure (leDec u) : De Nat)
        (leEnc wd v ++ (vs.flatMap (leEnc wd) ++ s)) = .ok (v, vs.flatMap (leEnc wd) ++ s) := by
      rw [De.bind_ok (readExact_append _ _ (leEnc_length wd v))]
      rw [De.pure_eq, leDec_leEnc wd v hv]
    rw [deN, De.bind_ok h1, De.bind_ok ih]
    rfl

/-- For every witness file the verifier decodes and packs, the separate parser used to show the
public inputs to the user returns the verifier's modulus and exactly the public inputs of the first
witness, which are those in lane zero of what the proof is checked against. -/
theorem C36_parsers_agree (p wd P : Nat) (hp : 0 < p) (hP : 0 < P) (hwd : wd = elemSize p)
    (data rest : Bytes) (w : Wit Nat P) (ins pubs : List (Fin P → Nat))
    (hd : deWit p wd P data = .ok (w, rest)) (hs : toSimd w = some (ins, pubs))
    (hsz : data.length < 2 ^ 64) :
    parsePublic data = .ok (p, pubs.map (· ⟨0, hP⟩)) := by
  obtain ⟨num, a, b, values, hn, hab, hval, hlen, hpm, hdata, hw⟩ := deWit_inv hd
  have hwdpos : 0 < wd := by rw [hwd]; unfold elemSize; split_ifs <;> omega
  obtain ⟨ws, hwl, hu, hfl⟩ := chunks_exist (a + b) num values hlen
  -- a witness is present and non-empty, otherwise packing panics
  have hm : 0 < a + b := by
    by_contra hc
    have h0 : a + b = 0 := by omega
    rcases hw with ⟨rfl, _⟩ | ⟨hc', hus⟩
    · simp only [toSimd, packBlock, h0, if_true] at hs
      cases hs
    · simp only [useSimd, Bool.and_eq_true, decide_eq_true_eq] at hus
      simp only [convertToSimd, packBlock, h0] at hc'
      have hnb : 0 < numBlocks P num := by
        have := lt_numBlocks (P := P) (n := num) (idx := 0) hP (by omega)
        rwa [Nat.zero_div] at this
      obtain ⟨nb, hnb⟩ : ∃ nb, numBlocks P num = nb + 1 := ⟨numBlocks P num - 1, by omega⟩
      rw [hnb, List.range_succ_eq_map, List.mapM_cons] at hc'
      simp at hc'
  have hnum : 0 < num := by
    by_contra hc
    have h0 : num = 0 := by omega
    subst h0
    rcases hw with ⟨rfl, _⟩ | ⟨_, hus⟩
    · have : values = [] := by
        apply List.length_eq_zero_iff.1; rw [hlen]; simp
      subst this
      have := C42_pack_panics (F := Nat) (P := P) [] a b hP (Or.inr (by simpa using hm))
      simp only [toSimd, this] at hs
      cases hs
    · simp [useSimd] at hus
  have hne : ws ≠ [] := by intro hc; subst hc; simp at hwl; omega
  obtain ⟨w0, ws', rfl⟩ := List.exists_cons_of_ne_nil hne
  have hw0 := hu w0 (by simp)
  -- lane zero of what the proof is checked against
  have hlane : pubs.map (· ⟨0, hP⟩) = w0.drop a := by
    rcases hw with ⟨rfl, _⟩ | ⟨hc, _⟩
    · rw [toSimd, ← hfl] at hs
      obtain ⟨xs, ys, e, _, _, hl⟩ := C42_pack (P := P) (w0 :: ws') a b hu hne hm
      dsimp only at hs
      rw [e] at hs
      cases hs
      obtain ⟨w1, h1, _, h3⟩ := hl ⟨0, hP⟩
      simp at h1
      subst h1
      exact h3
    · rw [← hfl, ← hwl, convertToSimd_eq hu hP hm] at hc
      cases hc
      have hkb : 0 < (blocksOf P (a + b) (w0 :: ws')).length := by
        simp only [blocksOf, List.length_map, List.length_range]
        have := lt_numBlocks (P := P) (n := (w0 :: ws').length) (idx := 0) hP (by simp)
        rwa [Nat.zero_div] at this
      obtain ⟨e1, e2⟩ := slices (blocksOf_uniform (P := P) (a + b) (w0 :: ws')) hkb
      simp only [Nat.zero_mul, Nat.zero_add] at e1 e2
      simp only [toSimd, e1, e2, Option.bind_eq_bind, Option.bind_some, Option.some.injEq,
        Prod.mk.injEq] at hs
      rw [← hs.2, List.map_drop]
      have := itemAt_blocksOf (P := P) (a := a) hu hP (idx := 0) (by simp)
      simp only [itemAt, Nat.zero_div, Nat.zero_mod] at this
      rw [List.getD_eq_getElem _ _ hkb] at this
      have h2 := congrArg Prod.snd this
      simpa [List.map_drop] using h2
  rw [hlane]
  -- the other parser
  have hflat : values = w0 ++ ws'.flatten := by rw [← hfl]; simp
  have hbig : (a + b) * wd ≤ data.length := by
    rw [hdata, hflat]
    have : (w0.flatMap (leEnc wd)).length = (a + b) * wd := by
      rw [List.length_flatMap]; simp only [leEnc_length]; simp [hw0]
    simp only [List.length_append, List.flatMap_append, this]
    omega
  have hpa : a < 256 ^ 8 := by norm_num; omega
  have hpb : b < 256 ^ 8 := by norm_num; omega
  unfold parsePublic parseDe
  rw [hdata]
  rw [De.bind_ok (readExact_append _ _ (leEnc_length 8 num)),
    De.bind_ok (readExact_append _ _ (leEnc_length 8 a)),
    De.bind_ok (readExact_append _ _ (leEnc_length 8 b)),
    De.bind_ok (readExact_append _ _ (leEnc_length 32 p))]
  simp only [leDec_leEnc 32 p hpm, leDec_leEnc 8 a hpa, leDec_leEnc 8 b hpb, ← hwd]
  rw [if_neg (by omega), if_neg (by omega), if_neg (by omega)]
  have hl : (w0.flatMap (leEnc wd)).length = (a + b) * wd := by
    rw [List.length_flatMap]; simp only [leEnc_length]; simp [hw0]
  have hcheck : checkRemaining ((a + b) * wd) (values.flatMap (leEnc wd) ++ rest)
      = .ok ((), values.flatMap (leEnc wd) ++ rest) := by
    unfold checkRemaining
    rw [hflat, List.flatMap_append, List.append_assoc, if_neg (by
      simp only [List.length_append, hl]; omega)]
  have hread : deN (do let u ← readExact wd; pure (leDec u)) (a + b)
        (values.flatMap (leEnc wd) ++ rest)
      = .ok (w0, ws'.flatten.flatMap (leEnc wd) ++ rest) := by
    rw [hflat, List.flatMap_append, List.append_assoc, ← hw0]
    exact deN_raw w0 _ (fun x hx => (hval x (by rw [hflat]; simp [hx])).2)
  rw [De.bind_ok hcheck, De.bind_ok hread, De.pure_eq]

/-- A file with two witnesses of one input and three public inputs, eight lanes: the parser shows the
first witness' public inputs, and lane zero of the packed public inputs is the same. -/
example :
    let data := leEnc 8 2 ++ (leEnc 8 1 ++ (leEnc 8 3 ++ (leEnc 32 goldP ++
      ([5, 6, 2, 18, 7, 8, 2, 18].flatMap (leEnc 8) ++ [9]))))
    parsePublic data = .ok (goldP, [6, 2, 18]) ∧
    (match deWit goldP 8 8 data with
      | .ok (w, r) => r == [9] && (match toSimd w with
        | some (_, pubs) => pubs.map (fun x : Fin 8 → Nat => x 0) == [6, 2, 18] &&
            pubs.map (fun x : Fin 8 → Nat => x 1) == [8, 2, 18]
        | none => false)
      | .error _ => false) = true := by
  constructor <;> decide +kernel

/-- Both supported fields satisfy the width condition of `C36_parsers_agree`. -/
example : elemSize goldP = 8 ∧ elemSize bn254P = 32 := by decide

/-- What an accepting `verify_and_extract` guarantees: the proof was verified against packed public
inputs whose lane zero is the model's inputs, its outputs and the two scale parameters; the numbers
returned are the descaled signed decodings of those; and the caller's expected inputs, if any, match
the model inputs within one unit modulo the field. -/
theorem C36_verified_output {R : Type} (fl : Floats R) (p wd P : Nat) (hp : 1 < p) (hP : 0 < P)
    (hwd : wd = elemSize p)
    (verify : List (Fin P → Nat) → List (Fin P → Nat) → Except Extract.Err Bool)
    (data : Bytes) (hsz : data.length < 2 ^ 64) (numInputs : Nat) (expected : Option (List R))
    (out : Verified R) (h : verifyAndExtract fl p wd P verify data numInputs expected = .ok out)
    (hv : out.valid = true) :
    ∃ ins pubs X Y xs ys, verify ins pubs = .ok true ∧
      pubs.map (· ⟨0, hP⟩) = X ++ Y ++ [out.base, out.exp] ∧ X.length = numInputs ∧
      X.mapM (fromFieldRepr · p) = .ok xs ∧ Y.mapM (fromFieldRepr · p) = .ok ys ∧
      xs.mapM (fl.descale · out.base out.exp) = .ok out.inputs ∧
      ys.mapM (fl.descale · out.base out.exp) = .ok out.outputs ∧
      (∀ ex, expected = some ex → ∃ zs : List Int,
        ex.mapM (fl.scale · out.base out.exp) = .ok zs ∧
        List.Forall₂ (fun z x => ∃ d : Int, d.natAbs ≤ 1 ∧ ((z : Int) : ZMod p) = (x : Nat) + (d : ZMod p))
          zs X) := by
  unfold verifyAndExtract at h
  cases hd : deWit p wd P data with
  | error e => rw [hd] at h; cases e <;> cases h
  | ok r =>
    obtain ⟨w, rest⟩ := r
    rw [hd] at h
    dsimp only at h
    cases hs : toSimd w with
    | none => rw [hs] at h; cases h
    | some ip =>
      obtain ⟨ins, pubs⟩ := ip
      rw [hs] at h
      dsimp only at h
      have hpp := C36_parsers_agree p wd P (by omega) hP hwd data rest w ins pubs hd hs hsz
      cases hver : verify ins pubs with
      | error e => rw [hver] at h; cases h
      | ok valid =>
        rw [hver] at h
        simp only [bind, Except.bind] at h
        cases valid with
        | false => simp at h; subst h; simp at hv
        | true =>
          simp only [not_true_eq_false, if_false] at h
          cases hc : extractCommon fl data numInputs with
          | error e => rw [hc] at h; cases h
          | ok ctx =>
            rw [hc] at h
            simp only at h
            -- unfold the extraction
            unfold extractCommon at hc
            rw [hpp] at hc
            simp only [bind, Except.bind] at hc
            generalize hpub : pubs.map (· ⟨0, hP⟩) = pub at *
            split_ifs at hc with c1 c2
            cases hb : toU64 (pub.getD (pub.length - 2) 0) with
            | error e => rw [hb] at hc; cases hc
            | ok base =>
            rw [hb] at hc
            cases he : toU64 (pub.getD (pub.length - 1) 0) with
            | error e => rw [he] at hc; cases hc
            | ok exp =>
            rw [he] at hc
            simp only at hc
            cases hi : (pub.take numInputs).mapM (fromFieldRepr · p) with
            | error e => rw [hi] at hc; cases hc
            | ok xs =>
            rw [hi] at hc
            simp only at hc
            cases ho : ((pub.take (pub.length - 2)).drop numInputs).mapM (fromFieldRepr · p) with
            | error e => rw [ho] at hc; cases hc
            | ok ys =>
            rw [ho] at hc
            simp only at hc
            cases hri : xs.mapM (fl.descale · base exp) with
            | error e => rw [hri] at hc; cases hc
            | ok ri =>
            rw [hri] at hc
            simp only at hc
            cases hro : ys.mapM (fl.descale · base exp) with
            | error e => rw [hro] at hc; cases hc
            | ok ro =>
            rw [hro] at hc
            simp only [Except.ok.injEq] at hc
            subst hc
            have hbase : pub.getD (pub.length - 2) 0 = base := by
              unfold toU64 at hb; split_ifs at hb; simpa using hb
            have hexp : pub.getD (pub.length - 1) 0 = exp := by
              unfold toU64 at he; split_ifs at he; simpa using he
            have hsplit : pub = pub.take numInputs ++ (pub.take (pub.length - 2)).drop numInputs
                ++ [base, exp] := by
              have e1 : pub.drop (pub.length - 2) = [base, exp] := by
                rw [List.getD_eq_getElem _ _ (by omega)] at hbase hexp
                rw [List.drop_eq_getElem_cons (by omega), List.drop_eq_getElem_cons (by omega),
                  List.drop_eq_nil_of_le (by omega)]
                rw [hbase]
                congr 2
                rw [← hexp]
                congr 1
                omega
              have e2 : pub.take numInputs = (pub.take (pub.length - 2)).take numInputs := by
                rw [List.take_take]; congr 1; omega
              rw [e2, List.take_append_drop, ← e1, List.take_append_drop]
            have hXl : (pub.take numInputs).length = numInputs := by simp; omega
            cases expected with
            | none =>
              simp only [Except.ok.injEq] at h
              subst h
              exact ⟨ins, pubs, _, _, xs, ys, hver, by rw [hpub]; exact hsplit, hXl, hi, ho, hri, hro,
                fun ex hex => by cases hex⟩
            | some ex =>
              simp only at h
              split_ifs at h with c3
              cases hex : ex.mapM (fun v => do
                let s ← fl.scale v base exp
                Except.ok (reduceScaled p s)) with
              | error e =>
                simp only [bind, Except.bind] at hex
                rw [hex] at h; cases h
              | ok exf =>
                have hex' := hex
                simp only [bind, Except.bind] at hex
                rw [hex] at h
                simp only at h
                obtain ⟨bb, hcmp, hiff⟩ := C35_compare exf (pub.take numInputs) p 1 (by omega) (by omega)
                rw [hcmp] at h
                simp only at h
                split_ifs at h with c4
                simp only [Except.ok.injEq] at h
                subst h
                have hall := hiff.1 (by simpa using c4)
                refine ⟨ins, pubs, _, _, xs, ys, hver, by rw [hpub]; exact hsplit, hXl, hi, ho, hri,
                  hro, fun ex' hex2 => ?_⟩
                cases hex2
                -- split the scaling from the reduction
                have hz : ∀ (l : List R) (r : List Nat), l.mapM (fun v => do
                      let s ← fl.scale v base exp
                      Except.ok (reduceScaled p s)) = .ok r →
                    ∃ zs : List Int, l.mapM (fl.scale · base exp) = .ok zs ∧
                      r = zs.map (reduceScaled p) := by
                  intro l
                  induction l with
                  | nil => intro r hr; cases hr; exact ⟨[], rfl, rfl⟩
                  | cons v l ih =>
                    intro r hr
                    rw [List.mapM_cons] at hr
                    cases hsv : fl.scale v base exp with
                    | error e => simp only [hsv, bind, Except.bind] at hr; cases hr
                    | ok s =>
                      cases hl : l.mapM (fun v => do
                          let s ← fl.scale v base exp
                          Except.ok (reduceScaled p s)) with
                      | error e =>
                        rw [hl] at hr
                        simp only [hsv, bind, Except.bind] at hr; cases hr
                      | ok r' =>
                        rw [hl] at hr
                        simp only [hsv, bind, Except.bind, pure, Except.pure,
                          Except.ok.injEq] at hr
                        obtain ⟨zs, h1, h2⟩ := ih r' hl
                        refine ⟨s :: zs, ?_, ?_⟩
                        · rw [List.mapM_cons, hsv, h1]; rfl
                        · rw [← hr, h2]; rfl
                obtain ⟨zs, hz1, hz2⟩ := hz _ _ hex'
                refine ⟨zs, hz1, ?_⟩
                rw [hz2, List.forall₂_map_left_iff] at hall
                refine hall.imp fun z x hzx => ?_
                obtain ⟨d, hd1, hd2⟩ := hzx
                refine ⟨d, hd1, ?_⟩
                rw [C34_scaling_agrees p (by omega)] at hd2
                rw [Int.cast_natCast, encodeSigned_cast (by omega)] at hd2
                rw [hd2]; push_cast; rfl

/-- Writing a set of witnesses and reading it back, with more bytes following: the same witnesses in
the same order, whether written from the plain or the packed form. -/
theorem C42_serialize (p wd P : Nat) (hP : 0 < P) (ws : List (List Nat)) (a b : Nat)
    (h : ∀ w ∈ ws, w.length = a + b) (hm : 0 < a + b) (hv : ∀ w ∈ ws, ∀ x ∈ w, x < p)
    (hp : p ≤ 256 ^ wd) (hp2 : p < 256 ^ 32) (hn : ws.length * (a + b) < 2 ^ 64)
    (hnum : ws.length < 2 ^ 64) (hab : a + b < 2 ^ 64)
    (w : Wit Nat P) (hw : w = ⟨ws.length, a, b, .scalar ws.flatten⟩ ∨
      convertToSimd (⟨ws.length, a, b, .scalar ws.flatten⟩ : Wit Nat P) = some w) (rest : Bytes) :
    ∃ bytes w', serWit p wd w = some bytes ∧ deWit p wd P (bytes ++ rest) = .ok (w', rest) ∧
      w'.num = ws.length ∧ w'.a = a ∧ w'.b = b ∧
      iterScalar w' = some (ws.map fun w => (w.take a, w.drop a)) := by
  have hbody : (ws.map fun w => (w.take a, w.drop a)).flatMap
      (fun (x, y) => x.flatMap (leEnc wd) ++ y.flatMap (leEnc wd))
      = ws.flatten.flatMap (leEnc wd) := by
    clear h hv hn hnum hw
    induction ws with
    | nil => rfl
    | cons w ws ih =>
      rw [List.map_cons, List.flatMap_cons, ih, List.flatten_cons, List.flatMap_append]
      dsimp only
      rw [← List.flatMap_append, List.take_append_drop]
  have hser : serWit p wd w = some (leEnc 8 ws.length ++ leEnc 8 a ++ leEnc 8 b ++ leEnc 32 p
      ++ ws.flatten.flatMap (leEnc wd)) := by
    obtain ⟨_, w2, h2, h3⟩ := C42_iter_scalar (P := P) ws a b h hP hm
    rcases hw with rfl | hw
    · rfl
    · rw [hw] at h2; cases h2
      rw [convertToSimd_eq h hP hm] at hw
      cases hw
      simp only [serWit, h3, Option.map_some, hbody]
      rfl
  refine ⟨leEnc 8 ws.length ++ leEnc 8 a ++ leEnc 8 b ++ leEnc 32 p
      ++ ws.flatten.flatMap (leEnc wd), ?_⟩
  have hdeN : ∀ (vs : List Nat) (s : Bytes), (∀ x ∈ vs, x < p) →
      deN (deField p wd) vs.length (vs.flatMap (leEnc wd) ++ s) = .ok (vs, s) := by
    intro vs
    induction vs with
    | nil => intro s _; rfl
    | cons v vs ih =>
      intro s hvs
      have hvp := hvs v (by simp)
      rw [List.length_cons, List.flatMap_cons, List.append_assoc]
      have h1 : deField p wd (leEnc wd v ++ (vs.flatMap (leEnc wd) ++ s))
          = .ok (v, vs.flatMap (leEnc wd) ++ s) := by
        unfold deField
        rw [De.bind_ok (readExact_append _ _ (leEnc_length wd v)),
          leDec_leEnc wd v (by omega), if_pos hvp]
        rfl
      rw [deN, De.bind_ok h1, De.bind_ok (ih s (fun x hx => hvs x (by simp [hx])))]
      rfl
  have hfl := flatten_length h
  have hval : ∀ x ∈ ws.flatten, x < p := by
    intro x hx
    obtain ⟨w, hw1, hw2⟩ := List.mem_flatten.1 hx
    exact hv w hw1 x hw2
  have hde : deWit p wd P ((leEnc 8 ws.length ++ leEnc 8 a ++ leEnc 8 b ++ leEnc 32 p
      ++ ws.flatten.flatMap (leEnc wd)) ++ rest)
      = (if useSimd P ws.length then
          match convertToSimd (⟨ws.length, a, b, .scalar ws.flatten⟩ : Wit Nat P) with
          | some r => pure r
          | none => De.fail .panic
        else pure ⟨ws.length, a, b, .scalar ws.flatten⟩ : De (Wit Nat P)) rest := by
    simp only [List.append_assoc]
    have e := hdeN ws.flatten rest hval
    rw [hfl] at e
    unfold deWit
    rw [De.bind_ok (readExact_append _ _ (leEnc_length 8 _)),
      De.bind_ok (readExact_append _ _ (leEnc_length 8 a)),
      De.bind_ok (readExact_append _ _ (leEnc_length 8 b)),
      De.bind_ok (readExact_append _ _ (leEnc_length 32 p))]
    simp only [leDec_leEnc 32 p hp2, leDec_leEnc 8 a (by norm_num; omega),
      leDec_leEnc 8 b (by norm_num; omega), leDec_leEnc 8 ws.length (by norm_num; omega)]
    rw [if_neg (by simp), if_neg (by omega), De.bind_ok e]
    rfl
  obtain ⟨h0, w2, h2, h3⟩ := C42_iter_scalar (P := P) ws a b h hP hm
  by_cases hu : useSimd P ws.length = true
  · rw [if_pos hu, h2] at hde
    have hw2 := h2
    rw [convertToSimd_eq h hP hm] at hw2
    refine ⟨w2, hser, hde, ?_, ?_, ?_, h3⟩ <;> (cases hw2; rfl)
  · rw [if_neg hu] at hde
    exact ⟨_, hser, hde, rfl, rfl, rfl, h0⟩

/-- A witness file that announces no witness makes verification panic, whatever the proof. -/
theorem C36_zero_witnesses_panics {R : Type} (fl : Floats R) (p wd P : Nat) (hP : 0 < P)
    (verify : List (Fin P → Nat) → List (Fin P → Nat) → Except Extract.Err Bool)
    (a b : Nat) (hab : a + b < 2 ^ 64) (hp : p < 256 ^ 32) (rest : Bytes) (numInputs : Nat)
    (expected : Option (List R)) :
    verifyAndExtract fl p wd P verify
      (leEnc 8 0 ++ (leEnc 8 a ++ (leEnc 8 b ++ (leEnc 32 p ++ rest)))) numInputs expected
      = .error .panic := by
  have hpa : a < 256 ^ 8 := by norm_num; omega
  have hpb : b < 256 ^ 8 := by norm_num; omega
  have hd : deWit p wd P (leEnc 8 0 ++ (leEnc 8 a ++ (leEnc 8 b ++ (leEnc 32 p ++ rest))))
      = .ok (⟨0, a, b, .scalar []⟩, rest) := by
    unfold deWit
    rw [De.bind_ok (readExact_append _ _ (leEnc_length 8 0)),
      De.bind_ok (readExact_append _ _ (leEnc_length 8 a)),
      De.bind_ok (readExact_append _ _ (leEnc_length 8 b)),
      De.bind_ok (readExact_append _ _ (leEnc_length 32 p))]
    simp only [leDec_leEnc 32 p hp, leDec_leEnc 8 a hpa, leDec_leEnc 8 b hpb,
      leDec_leEnc 8 0 (by norm_num)]
    rw [if_neg (by simp), if_neg (by omega), Nat.zero_mul]
    rfl
  unfold verifyAndExtract
  rw [hd]
  have : toSimd (⟨0, a, b, .scalar []⟩ : Wit Nat P) = none := by
    unfold toSimd
    dsimp only
    apply C42_pack_panics _ _ _ hP
    simp; omega
  dsimp only
  rw [this]

end JST.Props
