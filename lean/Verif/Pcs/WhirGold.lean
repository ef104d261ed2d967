import Verif.Pcs.WhirComplete
import Verif.Pcs.BasefoldGold

/-! # The Goldilocks configurations of WHIR -/

namespace JST.Pcs.Whir

open JST.Merkle JST.Spec JST.Gkr Polynomial

/-- The degrees and constants of the extensions of the shipped configurations `GoldilocksExt3x1ConfigSha2Whir` and
`GoldilocksExt4x1ConfigSha2Whir`, prover/gkr/src/gkr_configs.rs:156-172; the size of an element is eight bytes per limb. -/
inductive Shipped : Nat → Nat → Prop
  | three : Shipped 3 2
  | four : Shipped 4 7

/-- The field is one. -/
theorem Shipped.irr {d w : Nat} (h : Shipped d w) : Fact (Irreducible (X ^ d - C ((w : Nat) : ZMod goldP))) := by
  cases h
  · exact JST.Ext.gold3Fact
  · exact JST.Ext.gold4Fact

section

variable {N τ : Type} {d w : Nat} [Fact (Irreducible (X ^ d - C ((w : Nat) : ZMod goldP)))]

/-- The root of unity of the extensions of degrees 3 and 4 is that of the base field, goldilocks_ext3.rs:332-345,
goldilocks_ext4.rs:394-408. -/
noncomputable def goldExtFft (d w : Nat) [Fact (Irreducible (X ^ d - C ((w : Nat) : ZMod goldP)))] : FftField (ExtRing goldP d w) :=
  ⟨32, algebraMap (ZMod goldP) (ExtRing goldP d w) goldRoot⟩

/-- WHIR over Goldilocks and its extension of degree `d`. -/
noncomputable def goldWhir (d w : Nat) [Fact (Irreducible (X ^ d - C ((w : Nat) : ZMod goldP)))]
    (ser : ExtRing goldP d w → Mem) (h : Hash Mem N) (T : Transcript τ (ExtRing goldP d w) N) (queries : Nat → Nat) :
    Setup (ZMod goldP) (ExtRing goldP d w) N τ :=
  ⟨goldFft, goldExtFft d w, 8 * d, ser, h, T, queries⟩

theorem goldExtFft_gen (k : Nat) :
    algebraMap (ZMod goldP) (ExtRing goldP d w) (goldFft.gen k) = (goldExtFft d w).gen k := by
  have key : ∀ (j : Nat) (x : ZMod goldP), algebraMap (ZMod goldP) (ExtRing goldP d w) ((fun g => g * g)^[j] x) =
      (fun g => g * g)^[j] (algebraMap (ZMod goldP) (ExtRing goldP d w) x) := by
    intro j
    induction j with
    | zero => intro x; rfl
    | succ j ih => intro x; rw [Function.iterate_succ_apply, Function.iterate_succ_apply, ih, map_mul]
  exact key _ _

theorem goldExtFft_valid : (goldExtFft d w).Valid :=
  IsPrimitiveRoot.map_of_injective (f := algebraMap (ZMod goldP) (ExtRing goldP d w)) goldFft_valid
    (FaithfulSMul.algebraMap_injective (ZMod goldP) (ExtRing goldP d w))

end

theorem shipped_perLeaf {d w : Nat} (h : Shipped d w) : ∃ kl ≤ 2, perLeaf (8 * d) = some (2 ^ kl) := by
  cases h
  · refine ⟨1, by norm_num, ?_⟩
    unfold perLeaf slot
    rw [if_pos (by norm_num [leafBytes]), if_neg (by norm_num [leafBytes])]
    have : nextPow2 (8 * 3) = 32 := by
      unfold nextPow2
      have : Nat.clog 2 (8 * 3) = 5 := by decide +kernel
      rw [this]; norm_num
    rw [this]; rfl
  · exact ⟨1, by norm_num, rfl⟩

theorem goldWhir_ok {N τ : Type} {d w : Nat} [Fact (Irreducible (X ^ d - C ((w : Nat) : ZMod goldP)))] (hs : Shipped d w)
    (ser : ExtRing goldP d w → Mem) (h : Hash Mem N) (T : Transcript τ (ExtRing goldP d w) N) (queries : Nat → Nat) :
    ∃ kl, SetupOk (goldWhir d w ser h T queries) kl := by
  obtain ⟨kl, h1, h2⟩ := shipped_perLeaf hs
  refine ⟨kl, goldFft_valid, goldExtFft_valid, fun k hk => ⟨hk, goldExtFft_gen k⟩, ?_, h2, by omega⟩
  show 0 < 8 * d
  cases hs <;> norm_num

/-- A transcript whose query words are `0, 1, 2, …` makes the query loops end. -/
theorem range_queries {τ L N : Type} (T : Transcript τ L N) (hT : ∀ tr k, T.usizes tr k = (List.range k, tr)) (tr : τ)
    (len count : Nat) (hl : 0 < len) : ∃ r, genQueries T 1 tr len count = some r := by
  unfold genQueries
  rw [if_neg (by omega), queryLoop.eq_def]
  dsimp only
  by_cases h0 : min count len ≤ ([] : List Nat).length
  · rw [if_pos h0]; exact ⟨_, rfl⟩
  · rw [if_neg h0]
    have hT' := hT tr (min count len - ([] : List Nat).length)
    show ∃ r, queryLoop T len (min count len) 0 (T.usizes tr (min count len - ([] : List Nat).length)).2
      (addBatch len (min count len) [] (T.usizes tr (min count len - ([] : List Nat).length)).1) = some r
    rw [hT']
    dsimp only
    have key : ∀ j ≤ min count len, addBatch len (min count len) [] (List.range j) = List.range j := by
      intro j
      induction j with
      | zero => intro _; rfl
      | succ j ih =>
        intro hj
        have hi := ih (by omega)
        unfold addBatch at hi ⊢
        rw [List.range_succ, List.foldl_append, hi, List.foldl_cons, List.foldl_nil, Nat.mod_eq_of_lt (by omega),
          if_neg (by rw [List.length_range]; omega), if_neg (by simp)]
    rw [List.length_nil, Nat.sub_zero, key _ le_rfl, queryLoop.eq_def]
    dsimp only
    rw [if_pos (by simp)]
    exact ⟨_, rfl⟩

end JST.Pcs.Whir
