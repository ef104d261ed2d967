import Mathlib.FieldTheory.Finite.Basic
import Mathlib.LinearAlgebra.FreeModule.Finite.Matrix
import Verif.Pcs.BasefoldSound
import Verif.Props.Basefold

/-!
# C68: soundness of BaseFold against provers that keep to their words

The specification is `Verif/Spec/BasefoldGame.lean`: the interactive game with a prover that fixes each word before the next
challenge and answers the queries from the words.
-/

namespace JST.Props

open JST.Pcs JST.Spec JST.Merkle JST.Gkr

section

variable {K L N : Type} [Field K] [Field L] [Algebra K L] [DecidableEq L] [DecidableEq N] [Inhabited N] [Fintype L]

/-- What the queries can miss: the chance that as many distinct indices all avoid a quarter of them. -/
def missChance (n : Nat) : ℚ := (3 * 2 ^ (n + 2) / 4).descFactorial (queryCount n) / (2 ^ (n + 2)).descFactorial (queryCount n)

/-- C68. A prover that keeps to its words gets a value accepted that no polynomial close to the committed word has with
probability at most `n 2^(n+2) / |L|` plus the chance that the distinct query indices all avoid a quarter of the indices. Close
means that its codeword differs from the word in at most a quarter of the positions. -/
theorem C68_sound_partial {S : Setup K L N (List L × List Nat)} {kb ke : Nat} (hS : SetupOk S kb ke) (hT : S.T = coins) (root : N) (n : Nat)
    (hn : n + 2 ≤ S.F.adicity) (hn' : n + 2 ≤ 64) (P : Prover L N) (hP : Keeps S root n P) (point : List L) (hp : point.length = n) (v : L)
    (hfar : ∀ f : List L, f.length = 2 ^ n → 3 * 2 ^ (n + 2) ≤ 4 * (agreement S.F n (P.word []) f).card →
      v ≠ mle (fun i => f.getD i 0) point) (fuel : Nat) :
    ((accepted S (fuel + 1) root n P point v).card : ℚ) / Fintype.card (Coins L n) ≤
      n * 2 ^ (n + 2) / Fintype.card L + missChance n := by
  classical
  have h := basefold_sound hS hT root n hn hn' P hP point hp v fuel hfar (queryCount n) rfl
  have hcard : Fintype.card (Coins L n) = Fintype.card L ^ n * (2 ^ (n + 2)).descFactorial (queryCount n) := by
    rw [Fintype.card_prod, Fintype.card_fun, Fintype.card_fin, Fintype.card_embedding_eq, Fintype.card_fin, Fintype.card_fin]
  have hacc : (accepted S (fuel + 1) root n P point v).card = (Finset.univ.filter fun x : (Fin n → L) × (Fin (queryCount n) ↪ Fin (2 ^ (n + 2))) =>
        verifyBf S (fuel + 1) ⟨root, n⟩ point v (P.opening (List.ofFn x.1) (List.ofFn fun i => (x.2 i : Nat)))
          (List.ofFn x.1, List.ofFn fun i => (x.2 i : Nat)) = some true).card := by
    unfold accepted
    congr
  rw [← hacc] at h
  have hD : (0 : ℚ) < ((2 ^ (n + 2)).descFactorial (queryCount n) : Nat) := by
    rw [Nat.cast_pos, Nat.pos_iff_ne_zero, Ne, Nat.descFactorial_eq_zero_iff_lt, not_lt]
    exact min_le_right _ _
  have hL : (0 : ℚ) < Fintype.card L := by exact_mod_cast (Fintype.card_pos (α := L))
  unfold missChance
  rw [hcard]
  generalize (2 ^ (n + 2)).descFactorial (queryCount n) = D at *
  generalize (3 * 2 ^ (n + 2) / 4).descFactorial (queryCount n) = E at *
  have hq : ((Fintype.card L : ℚ) * (accepted S (fuel + 1) root n P point v).card) ≤
      Fintype.card L ^ n * (n * 2 ^ (n + 2) * D + Fintype.card L * E) := by exact_mod_cast h
  push_cast
  rw [div_add_div _ _ hL.ne' hD.ne', div_le_div_iff₀ (by positivity) (by positivity)]
  calc _ = ((Fintype.card L : ℚ) * (accepted S (fuel + 1) root n P point v).card) * D := by ring
    _ ≤ _ := mul_le_mul_of_nonneg_right hq hD.le
    _ = _ := by ring

/-- C68. The queries of a codeword of at most 128 elements miss nothing; those of a longer one miss with a chance of at most
`(3/4)^128`. -/
theorem C68_miss (n : Nat) : (n ≤ 5 → missChance n = 0) ∧ missChance n ≤ (3 / 4) ^ 128 := by
  have h1 : n ≤ 5 → missChance n = 0 := by
    intro hn
    have h4 : 2 ^ (n + 2) = 4 * 2 ^ n := by ring
    have hle : 2 ^ (n + 2) ≤ 128 := by
      calc 2 ^ (n + 2) ≤ 2 ^ 7 := Nat.pow_le_pow_right (by norm_num) (by omega)
        _ = 128 := by norm_num
    have hpos := Nat.two_pow_pos n
    unfold missChance queryCount
    rw [min_eq_right hle, (Nat.descFactorial_eq_zero_iff_lt (n := 3 * 2 ^ (n + 2) / 4)).mpr (by omega)]
    simp
  refine ⟨h1, ?_⟩
  by_cases hn : n ≤ 5
  · rw [h1 hn]; positivity
  · have hle : 128 ≤ 2 ^ (n + 2) := by
      calc 128 = 2 ^ 7 := by norm_num
        _ ≤ _ := Nat.pow_le_pow_right (by norm_num) (by omega)
    have h := descFactorial_quarter (3 * 2 ^ (n + 2) / 4) (2 ^ (n + 2)) (by omega) 128
    have hD : (0 : ℚ) < ((2 ^ (n + 2)).descFactorial 128 : Nat) := by
      rw [Nat.cast_pos, Nat.pos_iff_ne_zero, Ne, Nat.descFactorial_eq_zero_iff_lt, not_lt]
      exact hle
    unfold missChance queryCount
    rw [min_eq_left hle, div_pow, div_le_div_iff₀ hD (by positivity)]
    have hq : (4 : ℚ) ^ 128 * ((3 * 2 ^ (n + 2) / 4).descFactorial 128 : Nat) ≤ 3 ^ 128 * ((2 ^ (n + 2)).descFactorial 128 : Nat) := by
      exact_mod_cast h
    linarith

/-- C68. So a prover that committed to the codeword of a polynomial, altered in at most a quarter of its positions, gets any
other value than that of the polynomial accepted with at most that probability. -/
theorem C68_committed_partial {S : Setup K L N (List L × List Nat)} {kb ke : Nat} (hS : SetupOk S kb ke) (hT : S.T = coins) (root : N) (n : Nat)
    (hn : n + 2 ≤ S.F.adicity) (hn' : n + 2 ≤ 64) (P : Prover L N) (hP : Keeps S root n P) (a : List L) (ha : a.length = 2 ^ n)
    (hclose : 3 * 2 ^ (n + 2) ≤ 4 * (agreement S.F n (P.word []) a).card) (point : List L) (hp : point.length = n) (v : L)
    (hv : v ≠ mle (fun i => a.getD i 0) point) (fuel : Nat) :
    ((accepted S (fuel + 1) root n P point v).card : ℚ) / Fintype.card (Coins L n) ≤
      n * 2 ^ (n + 2) / Fintype.card L + missChance n := by
  refine C68_sound_partial hS hT root n hn hn' P hP point hp v (fun f hf hfc => ?_) fuel
  have hcap : 2 ^ (n + 2 + 0) ≤ 4 * (agreement S.F n (P.word []) f ∩ agreement S.F n (P.word []) a).card := by
    have h1 := Finset.card_inter_add_card_union (agreement S.F n (P.word []) f) (agreement S.F n (P.word []) a)
    have h2 : (agreement S.F n (P.word []) f ∪ agreement S.F n (P.word []) a).card ≤ 2 ^ (n + 2) := by
      have : agreement S.F n (P.word []) f ∪ agreement S.F n (P.word []) a ⊆ Finset.range (2 ^ (n + 2)) :=
        Finset.union_subset (Finset.filter_subset _ _) (Finset.filter_subset _ _)
      simpa using Finset.card_le_card this
    rw [Nat.add_zero]
    omega
  have hlist : ∀ g : List L, g.length = 2 ^ n → g = (List.range (2 ^ n)).map fun t => g.getD t 0 := fun g hg => by
    rw [← hg]
    refine List.ext_getElem (by simp) fun i h1 h2 => ?_
    rw [List.getElem_map, List.getElem_range, List.getD_eq_getElem _ _ h1]
  have heq := cwF_agree hS.valid n 0 hn (fun t => f.getD t 0) (fun t => a.getD t 0) _ (fun q hq => by
      have := (Finset.mem_filter.mp (Finset.mem_inter.mp hq).1).1
      simpa using this) hcap (fun q hq => by
      obtain ⟨h1, h2⟩ := Finset.mem_inter.mp hq
      obtain ⟨hr, h1⟩ := Finset.mem_filter.mp h1
      obtain ⟨_, h2⟩ := Finset.mem_filter.mp h2
      have hr := Finset.mem_range.mp hr
      rw [pow_zero, Nat.div_one, ← enc_cwF S.F n _ q hr, ← enc_cwF S.F n _ q hr, ← hlist f hf, ← hlist a ha, ← h1, ← h2])
  rwa [mle_congr (fun i => f.getD i 0) (fun i => a.getD i 0) point (by rw [hp]; exact heq)]

end

noncomputable instance goldExtFintype : Fintype (ExtRing goldP 2 7) :=
  haveI : Module.Finite (ZMod goldP) (ExtRing goldP 2 7) :=
    (AdjoinRoot.powerBasis (f := Polynomial.X ^ 2 - Polynomial.C ((7 : Nat) : ZMod goldP)) JST.Ext.gold2Fact.out.ne_zero).finite
  haveI : Finite (ExtRing goldP 2 7) := Module.finite_of_finite (ZMod goldP)
  Fintype.ofFinite _

theorem gold_ext_card : Fintype.card (ExtRing goldP 2 7) = goldP ^ 2 := by
  have : Module.Finite (ZMod goldP) (ExtRing goldP 2 7) :=
    (AdjoinRoot.powerBasis (f := Polynomial.X ^ 2 - Polynomial.C ((7 : Nat) : ZMod goldP)) JST.Ext.gold2Fact.out.ne_zero).finite
  have h := Module.card_eq_pow_finrank (K := ZMod goldP) (V := ExtRing goldP 2 7)
  rw [ZMod.card, (AdjoinRoot.powerBasis (f := Polynomial.X ^ 2 - Polynomial.C ((7 : Nat) : ZMod goldP)) JST.Ext.gold2Fact.out.ne_zero).finrank,
    AdjoinRoot.powerBasis_dim, Polynomial.natDegree_X_pow_sub_C] at h
  exact h

/-- C68 for the shipped Goldilocks configuration: the chance of a wrong value is at most `2^-53` for polynomials in at most 30
variables, and at most `2^-117` for those in at most 5. -/
theorem C68_goldilocks_partial {N : Type} [Inhabited N] [DecidableEq N] (h : Hash Mem N) (root : N) (n : Nat) (hn : n ≤ 30)
    (P : Prover (ExtRing goldP 2 7) N) (hP : Keeps (goldSetup h coins) root n P) (a : List (ExtRing goldP 2 7)) (ha : a.length = 2 ^ n)
    (hclose : 3 * 2 ^ (n + 2) ≤ 4 * (agreement goldFft n (P.word []) a).card) (point : List (ExtRing goldP 2 7)) (hp : point.length = n)
    (v : ExtRing goldP 2 7) (hv : v ≠ mle (fun i => a.getD i 0) point) (fuel : Nat) :
    ((accepted (goldSetup h coins) (fuel + 1) root n P point v).card : ℚ) / Fintype.card (Coins (ExtRing goldP 2 7) n) ≤ 1 / 2 ^ 53 ∧
      (n ≤ 5 → ((accepted (goldSetup h coins) (fuel + 1) root n P point v).card : ℚ) / Fintype.card (Coins (ExtRing goldP 2 7) n) ≤ 1 / 2 ^ 117) := by
  have key := C68_committed_partial (goldSetup_ok h coins) rfl root n (by show n + 2 ≤ 32; omega) (by omega) P hP a ha hclose point hp v hv fuel
  rw [gold_ext_card] at key
  have hb : ∀ m : Nat, n ≤ m → (n * 2 ^ (n + 2) / ((goldP ^ 2 : Nat) : ℚ)) ≤ m * 2 ^ (m + 2) / 2 ^ 127 := by
    intro m hm
    have h1 : n * 2 ^ (n + 2) ≤ m * 2 ^ (m + 2) := Nat.mul_le_mul hm (Nat.pow_le_pow_right (by norm_num) (by omega))
    have h2 : 2 ^ 127 ≤ goldP ^ 2 := by norm_num [goldP]
    have h1' : (n : ℚ) * 2 ^ (n + 2) ≤ m * 2 ^ (m + 2) := by exact_mod_cast h1
    have h2' : (2 : ℚ) ^ 127 ≤ ((goldP ^ 2 : Nat) : ℚ) := by exact_mod_cast h2
    exact div_le_div₀ (by positivity) h1' (by positivity) h2'
  refine ⟨key.trans ?_, fun h5 => key.trans ?_⟩
  · refine (add_le_add (hb 30 hn) (C68_miss n).2).trans ?_
    norm_num
  · rw [(C68_miss n).1 h5, add_zero]
    refine (hb 5 h5).trans ?_
    norm_num

/-- The leaf of a codeword of eight zeros. -/
def zeroPath : Path Mem Nat := ⟨List.replicate 64 0, [], 0⟩

/-- A prover that committed to the zero polynomial in one variable and claims the value 1: it answers with the zero word, and its
message fits the claim if the challenge is 1. -/
noncomputable def liar : Prover (ExtRing goldP 2 7) Nat where
  msg := fun _ => ⟨0, 0⟩
  word := fun _ _ => 0
  opening := fun _ qs => ⟨[], [⟨0, 0⟩], [0, 0, 0, 0], qs.map fun _ => ⟨zeroPath, zeroPath, []⟩⟩

theorem liar_leaf (o : Nat) (ho : o < 8) : extractBase goldCodec zeroPath.leaf o = some 0 := by
  have hde : goldDe (List.replicate 8 0) = some 0 := by
    have : Gold.de (List.replicate 8 0) = .ok (0, []) := by decide +kernel
    unfold goldDe
    rw [this]
    simp
  unfold extractBase zeroPath
  rw [if_neg (by simp [goldCodec]; omega)]
  simp only [List.drop_replicate, List.take_replicate, goldCodec]
  rw [show min 8 (64 - o * 8) = 8 by omega]
  exact hde

theorem liar_keeps : Keeps (goldSetup toyHash coins) (toyHash.leaf zeroPath.leaf) 1 liar where
  msgs := by
    intro rs qs _ i hi
    obtain rfl : i = 0 := by omega
    rfl
  final := by
    intro rs qs _ y hy
    have : y = 0 ∨ y = 1 ∨ y = 2 ∨ y = 3 := by
      have : y < 4 := hy
      omega
    rcases this with rfl | rfl | rfl | rfl <;> rfl
  first := by
    intro rs qs _ qp hqp p hp _ o v ho hv
    obtain ⟨q, _, rfl⟩ := List.mem_map.mp hqp
    have hp : p = zeroPath := by rcases hp with rfl | rfl <;> rfl
    have ho : o < 8 := ho
    have hv : extractBase goldCodec p.leaf o = some v := hv
    rw [hp, liar_leaf o ho] at hv
    rw [← Option.some.inj hv, map_zero]
    rfl
  later := by
    intro rs qs _ qp hqp i rp root' hi
    obtain ⟨q, _, rfl⟩ := List.mem_map.mp hqp
    simp at hi

theorem liar_close : 3 * 2 ^ (1 + 2) ≤ 4 * (agreement goldFft 1 (liar.word []) [0, 0]).card := by
  unfold agreement
  rw [Finset.filter_true_of_mem]
  · simp
  · intro q hq
    unfold enc
    rw [getD_map_range _ _ _ _ (Finset.mem_range.mp hq)]
    simp [polyAt, liar, Finset.sum_range_succ]

theorem liar_query (chs : List (ExtRing goldP 2 7)) (hc : chs = [1]) (qs : List Nat) (q : Nat) (hq : q < 8) :
    verifyQuery (goldSetup toyHash coins) (toyHash.leaf zeroPath.leaf) 3 (liar.opening chs qs) chs ⟨zeroPath, zeroPath, []⟩ q = some true := by
  subst hc
  unfold verifyQuery
  have hver : zeroPath.verify (goldSetup toyHash (coins (L := ExtRing goldP 2 7))).hash (toyHash.leaf zeroPath.leaf) = true :=
    decide_eq_true rfl
  have hper : (goldSetup toyHash (coins (L := ExtRing goldP 2 7))).base.perLeaf = 8 := rfl
  have hbase : (goldSetup toyHash (coins (L := ExtRing goldP 2 7))).base = goldCodec := rfl
  dsimp only
  rw [hper, hver, hbase]
  have h1 : q / 2 * 2 / 8 = 0 := by omega
  have h2 : (q / 2 * 2 + 1) / 8 = 0 := by omega
  have hi : zeroPath.index = 0 := rfl
  rw [h1, h2, hi, if_pos rfl, liar_leaf _ (Nat.mod_lt _ (by norm_num)), liar_leaf _ (Nat.mod_lt _ (by norm_num))]
  have hlt : q / 2 < 4 := by omega
  have hfin : ∀ y < 4, ([0, 0, 0, 0] : List (ExtRing goldP 2 7))[y]? = some 0 := by
    intro y hy
    have : y = 0 ∨ y = 1 ∨ y = 2 ∨ y = 3 := by omega
    rcases this with rfl | rfl | rfl | rfl <;> rfl
  simp only [liar, List.length_nil, ne_eq, not_true_eq_false, if_false, Bool.not_true, Bool.false_eq_true, List.zip_nil_left]
  simp [verifyQueryRounds, hfin _ hlt, foldSingle]

theorem liar_accepted (qs : List Nat) (hn : qs.Nodup) (hl : ∀ q ∈ qs, q < 8) (hk : qs.length = 8) :
    verifyBf (goldSetup toyHash coins) 1 ⟨toyHash.leaf zeroPath.leaf, 1⟩ [2] 1 (liar.opening [1] qs) ([1], qs) = some true := by
  unfold verifyBf
  have hshape : shapeOk (goldSetup toyHash (coins (L := ExtRing goldP 2 7))) ⟨toyHash.leaf zeroPath.leaf, 1⟩ [2] (liar.opening [1] qs) = true := by
    unfold shapeOk
    have hm : minTreeElems (goldSetup toyHash (coins (L := ExtRing goldP 2 7))) = 8 := rfl
    rw [hm]
    simp [liar, rateLog]
  rw [hshape]
  have hrounds : verifyRounds (goldSetup toyHash (coins (L := ExtRing goldP 2 7))) (1 + rateLog) (liar.opening [1] qs) 1 0 1 ([1], qs) =
      some ([1], 0, [], qs) := by
    simp [verifyRounds, verifierAbsorb, liar, goldSetup, coins, extrapolate2]
  simp only [Bool.not_true, Bool.false_eq_true, if_false]
  rw [hrounds]
  simp only [Option.bind_eq_bind, Option.bind_some]
  have hgen := genQueries_coins (L := ExtRing goldP 2 7) (N := Nat) 0 8 (by norm_num) qs hn hl hk
  have hT : (goldSetup toyHash (coins (L := ExtRing goldP 2 7))).T = coins := rfl
  have hfold : foldRest (goldSetup toyHash (coins (L := ExtRing goldP 2 7))).F (1 + rateLog) [1] (List.range' ((liar.opening [1] qs).commitments.length + 1)
      (1 - ((liar.opening [1] qs).commitments.length + 1))) (liar.opening [1] qs).finalPoly = [0, 0, 0, 0] := rfl
  rw [hfold]
  dsimp only
  rw [if_neg (by simp), if_neg (by simp), hT, show (2 : Nat) ^ (1 + rateLog) = 8 from rfl, hgen]
  simp only [Option.bind_some]
  rw [if_neg (by simp [liar])]
  have hall : ∀ z : List Nat, (∀ q ∈ z, q < 8) → verifyQueries (goldSetup toyHash coins) (toyHash.leaf zeroPath.leaf) (1 + rateLog) (liar.opening [1] qs) [1]
      (z.map fun q => (⟨zeroPath, zeroPath, []⟩, q)) = some true := by
    intro z hz
    induction z with
    | nil => rfl
    | cons q z ih =>
      rw [List.map_cons, verifyQueries, show 1 + rateLog = 3 from rfl, liar_query [1] rfl qs q (hz q (by simp))]
      exact ih fun x hx => hz x (by simp [hx])
  have hzip : (liar.opening [1] qs).queries.zip qs = qs.map fun q => (⟨zeroPath, zeroPath, []⟩, q) := by
    show (qs.map fun _ => _).zip qs = _
    rw [List.zip_map_left]
    clear hall hfold hgen hrounds hshape hk hn hl
    induction qs with
    | nil => rfl
    | cons q qs ih => simp_all
  rw [hzip]
  exact hall qs hl

/-- The hypotheses hold of the liar, and it is accepted when the challenge is 1: the bound is about something. -/
example : ((accepted (goldSetup toyHash coins) 1 (toyHash.leaf zeroPath.leaf) 1 liar [2] 1).card : ℚ) / Fintype.card (Coins (ExtRing goldP 2 7) 1) ≤ 1 / 2 ^ 53 ∧
    (accepted (goldSetup toyHash coins) 1 (toyHash.leaf zeroPath.leaf) 1 liar [2] 1).Nonempty := by
  refine ⟨(C68_goldilocks_partial toyHash _ 1 (by norm_num) liar liar_keeps [0, 0] rfl liar_close [2] rfl 1 (by simp [mle, Finset.sum_range_succ]) 0).1, ?_⟩
  refine ⟨(fun _ => 1, Function.Embedding.refl (Fin 8)), ?_⟩
  unfold accepted
  rw [Finset.mem_filter]
  refine ⟨Finset.mem_univ _, ?_⟩
  exact liar_accepted (List.ofFn fun i : Fin 8 => (i : Nat)) (by decide) (by decide) (by decide)

end JST.Props
