import Verif.Gadgets.ChunkWidth
import Verif.Props.Gadgets

/-!
# Property C89: the automatically chosen digit width

`autotune` returns the digit width of the range tables of a BN254 model for which the caller names none.
-/

namespace JST.Props

open JST JST.ChunkWidth

variable {K : Type} [DecidableEq K]

/-! ## The sweep -/

/-- What a sweep that started from `(b₀, k₀)` has found. -/
private theorem foldl_sweep (cost : Nat → Option Nat) :
    ∀ (cs : List Nat) (b₀ k₀ : Nat),
      ((cs.foldl (sweepStep cost) (b₀, k₀)) = (b₀, k₀) ∧
        (∀ c ∈ cs, ∀ k, cost c = some k → k₀ ≤ k)) ∨
      ∃ pre b post k, cs = pre ++ b :: post ∧ cost b = some k ∧ k < k₀ ∧
        cs.foldl (sweepStep cost) (b₀, k₀) = (b, k) ∧
        (∀ c ∈ pre, ∀ k', cost c = some k' → k < k') ∧
        (∀ c ∈ post, ∀ k', cost c = some k' → k ≤ k')
  | [], b₀, k₀ => .inl ⟨rfl, by simp⟩
  | c :: cs, b₀, k₀ => by
    rw [List.foldl_cons]
    cases hc : cost c with
    | none =>
      have hstep : sweepStep cost (b₀, k₀) c = (b₀, k₀) := by simp [sweepStep, hc]
      rw [hstep]
      rcases foldl_sweep cost cs b₀ k₀ with ⟨h1, h2⟩ | ⟨pre, b, post, k, e, hb, hk, hf, hpre, hpost⟩
      · refine .inl ⟨h1, fun d hd k hk => ?_⟩
        rcases List.mem_cons.mp hd with rfl | hd
        · rw [hc] at hk; cases hk
        · exact h2 d hd k hk
      · refine .inr ⟨c :: pre, b, post, k, by rw [e]; rfl, hb, hk, hf, fun d hd k' hk' => ?_, hpost⟩
        rcases List.mem_cons.mp hd with rfl | hd
        · rw [hc] at hk'; cases hk'
        · exact hpre d hd k' hk'
    | some kc =>
      by_cases hlt : kc < k₀
      · have hstep : sweepStep cost (b₀, k₀) c = (c, kc) := by simp [sweepStep, hc, hlt]
        rw [hstep]
        rcases foldl_sweep cost cs c kc with ⟨h1, h2⟩ | ⟨pre, b, post, k, e, hb, hk, hf, hpre, hpost⟩
        · exact .inr ⟨[], c, cs, kc, rfl, hc, hlt, h1, by simp, h2⟩
        · refine .inr ⟨c :: pre, b, post, k, by rw [e]; rfl, hb, hk.trans hlt, hf,
            fun d hd k' hk' => ?_, hpost⟩
          rcases List.mem_cons.mp hd with rfl | hd
          · rw [hc] at hk'; cases hk'; exact hk
          · exact hpre d hd k' hk'
      · have hstep : sweepStep cost (b₀, k₀) c = (b₀, k₀) := by simp [sweepStep, hc, hlt]
        rw [hstep]
        rcases foldl_sweep cost cs b₀ k₀ with ⟨h1, h2⟩ | ⟨pre, b, post, k, e, hb, hk, hf, hpre, hpost⟩
        · refine .inl ⟨h1, fun d hd k hk => ?_⟩
          rcases List.mem_cons.mp hd with rfl | hd
          · rw [hc] at hk; cases hk; omega
          · exact h2 d hd k hk
        · refine .inr ⟨c :: pre, b, post, k, by rw [e]; rfl, hb, hk, hf, fun d hd k' hk' => ?_, hpost⟩
          rcases List.mem_cons.mp hd with rfl | hd
          · rw [hc] at hk'; cases hk'; omega
          · exact hpre d hd k' hk'

/-- **C89, the sweep.** For every list of widths and every cost function with values below
`usize::MAX`: if some width compiles, the sweep returns the first width of least cost; if none
does, it returns 12. -/
theorem C89_sweep (cands : List Nat) (cost : Nat → Option Nat)
    (hmax : ∀ c ∈ cands, ∀ k, cost c = some k → k < 2 ^ 64 - 1) :
    ((∀ c ∈ cands, cost c = none) ∧ sweep cands cost = 12) ∨
    ∃ pre post k, cands = pre ++ sweep cands cost :: post ∧ cost (sweep cands cost) = some k ∧
      (∀ c ∈ pre, ∀ k', cost c = some k' → k < k') ∧
      (∀ c ∈ cands, ∀ k', cost c = some k' → k ≤ k') := by
  rcases foldl_sweep cost cands defaultBits usizeMax with
    ⟨h1, h2⟩ | ⟨pre, b, post, k, e, hb, hk, hf, hpre, hpost⟩
  · refine .inl ⟨fun c hc => ?_, by rw [sweep, h1]; rfl⟩
    cases h : cost c with
    | none => rfl
    | some k =>
      have := h2 c hc k h
      have := hmax c hc k h
      unfold usizeMax at *
      omega
  · have hs : sweep cands cost = b := by rw [sweep, hf]
    rw [hs]
    refine .inr ⟨pre, post, k, e, hb, hpre, fun c hc k' hk' => ?_⟩
    rw [e] at hc
    rcases List.mem_append.mp hc with h | h
    · exact (hpre c h k' hk').le
    · rcases List.mem_cons.mp h with rfl | h
      · rw [hb] at hk'; cases hk'; exact le_rfl
      · exact hpost c h k' hk'

/-- Two widths compile at the same least cost: the smaller one is taken. -/
example : sweep candidates (fun c => if c = 10 then none else if c = 12 ∨ c = 13 then some 5 else some 9)
    = 12 := by decide

/-! ## Range of the result -/

private theorem sweep_mem (cost : Nat → Option Nat) : sweep candidates cost ∈ candidates := by
  rcases foldl_sweep cost candidates defaultBits usizeMax with
    ⟨h1, -⟩ | ⟨pre, b, post, k, e, -, -, hf, -, -⟩
  · rw [sweep, h1]; decide
  · rw [sweep, hf, e]; simp

private theorem readCache_mem {cache : Cache K} {key : K} {b : Nat} (h : readCache cache key = some b) :
    b ∈ candidates ∧ cache key = some b := by
  unfold readCache at h
  cases hc : cache key with
  | none => rw [hc] at h; cases h
  | some b' =>
    rw [hc] at h
    dsimp only at h
    by_cases hb : b' ∈ candidates
    · rw [if_pos hb] at h; cases h; exact ⟨hb, rfl⟩
    · rw [if_neg hb] at h; cases h

private theorem autotune_mem (ok ck : K) (o₁ o₂ : Bool) (cost : Nat → Option Nat) (cache : Cache K) :
    (autotune ok ck o₁ o₂ cost cache).1 ∈ candidates := by
  unfold autotune
  cases h1 : readCache cache ok with
  | some b => exact (readCache_mem h1).1
  | none =>
    dsimp only
    cases h2 : readCache cache ck with
    | some b => exact (readCache_mem h2).1
    | none => exact sweep_mem cost

/-- **C89, range.** Whatever the cache directory holds and whatever compiling costs, the automatic width is
between 10 and 14; so is every width that selection adds to the cache. The generated table always gives 12. -/
theorem C89_range (ok ck : K) (o₁ o₂ : Bool) (cost : Nat → Option Nat) (cache : Cache K) :
    (10 ≤ (autotune ok ck o₁ o₂ cost cache).1 ∧ (autotune ok ck o₁ o₂ cost cache).1 ≤ 14) ∧
    (∀ key b, (autotune ok ck o₁ o₂ cost cache).2 key = some b → cache key ≠ some b →
      b = (autotune ok ck o₁ o₂ cost cache).1 ∧ (key = ok ∨ key = ck)) ∧
    ∀ κ n e, tableLookup κ n e = 12 := by
  refine ⟨?_, ?_, ?_⟩
  · have h := autotune_mem ok ck o₁ o₂ cost cache
    simp only [candidates, List.mem_cons, List.not_mem_nil, or_false] at h
    omega
  · intro key b
    unfold autotune
    cases h1 : readCache cache ok with
    | some b => intro h h'; exact absurd h h'
    | none =>
      dsimp only
      cases h2 : readCache cache ck with
      | some b => intro h h'; exact absurd h h'
      | none =>
        dsimp only
        intro h h'
        unfold writeCache at h
        by_cases e1 : (o₂ && decide (sweep candidates cost ∈ candidates)) = true
        · rw [if_pos e1] at h
          by_cases hk : key = ok
          · simp only [if_pos hk, Option.some.injEq] at h
            exact ⟨h.symm, .inl hk⟩
          · simp only [if_neg hk] at h
            by_cases e2 : (o₁ && decide (sweep candidates cost ∈ candidates)) = true
            · rw [if_pos e2] at h
              by_cases hk2 : key = ck
              · simp only [if_pos hk2, Option.some.injEq] at h
                exact ⟨h.symm, .inr hk2⟩
              · simp only [if_neg hk2] at h; exact absurd h h'
            · rw [if_neg e2] at h; exact absurd h h'
        · rw [if_neg e1] at h
          by_cases e2 : (o₁ && decide (sweep candidates cost ∈ candidates)) = true
          · rw [if_pos e2] at h
            by_cases hk2 : key = ck
            · simp only [if_pos hk2, Option.some.injEq] at h
              exact ⟨h.symm, .inr hk2⟩
            · simp only [if_neg hk2] at h; exact absurd h h'
          · rw [if_neg e2] at h; exact absurd h h'
  · intro κ n e
    unfold tableLookup
    cases h : table.find? fun x => x.kappa == κ && x.nBits == n && decide (e ≤ x.maxElements) with
    | none => rfl
    | some x =>
      have hx := List.mem_of_find?_eq_some h
      simp only [table, List.mem_cons, List.not_mem_nil, or_false] at hx
      rcases hx with rfl | rfl | rfl | rfl <;> rfl

/-- A cache file that holds 200 is ignored. -/
example : (autotune "op" "circ" true true (fun c => some (100 - c)) (fun _ => some 200)).1 = 14 := by
  decide

/-- A width named in the metadata and in the parameters is used as it is. One named in the parameters only
is replaced by the automatic one; one named in the metadata only is replaced by 12. -/
theorem C89_given (w auto : Nat) :
    compileWidth (some w) (some w) auto = w ∧ compileWidth none (some w) auto = auto ∧
    compileWidth none none auto = auto ∧ compileWidth (some w) none auto = 12 :=
  ⟨rfl, rfl, rfl, rfl⟩

/-! ## Caching -/

/-- **C89, fresh cache.** Without usable cache entries the width is that of the sweep; and if the
operator entry is written, every later model with the same operator key gets this width, whatever its own costs are. -/
theorem C89_cached (ok ck ck' : K) (o₁ o₁' o₂' : Bool) (cost cost' : Nat → Option Nat) (cache : Cache K)
    (h1 : readCache cache ok = none) (h2 : readCache cache ck = none) :
    (autotune ok ck o₁ true cost cache).1 = sweep [10, 11, 12, 13, 14] cost ∧
    (autotune ok ck' o₁' o₂' cost' (autotune ok ck o₁ true cost cache).2).1 =
      sweep [10, 11, 12, 13, 14] cost := by
  have e : autotune ok ck o₁ true cost cache = (sweep candidates cost,
      writeCache true (writeCache o₁ cache ck (sweep candidates cost)) ok (sweep candidates cost)) := by
    unfold autotune; rw [h1, h2]
  rw [e]
  refine ⟨rfl, ?_⟩
  have hr : readCache (writeCache true (writeCache o₁ cache ck (sweep candidates cost)) ok
      (sweep candidates cost)) ok = some (sweep candidates cost) := by
    unfold readCache writeCache
    simp [sweep_mem cost]
  unfold autotune
  rw [hr]
  rfl

/-- **C89, repeatable.** Compiling the same model again gives the same width, whether or not the writes to
the cache succeed. -/
theorem C89_stable (ok ck : K) (o₁ o₂ o₁' o₂' : Bool) (cost : Nat → Option Nat) (cache : Cache K) :
    (autotune ok ck o₁' o₂' cost (autotune ok ck o₁ o₂ cost cache).2).1 =
      (autotune ok ck o₁ o₂ cost cache).1 := by
  cases h1 : readCache cache ok with
  | some b => simp [autotune, h1]
  | none =>
    cases h2 : readCache cache ck with
    | some b => simp [autotune, h1, h2]
    | none =>
      have e : autotune ok ck o₁ o₂ cost cache = (sweep candidates cost,
          writeCache o₂ (writeCache o₁ cache ck (sweep candidates cost)) ok (sweep candidates cost)) := by
        unfold autotune; rw [h1, h2]
      rw [e]
      dsimp only
      generalize hw : sweep candidates cost = w
      have hm : w ∈ candidates := hw ▸ sweep_mem cost
      have key : ∀ k, readCache (writeCache o₂ (writeCache o₁ cache ck w) ok w) k = some w ∨
          readCache (writeCache o₂ (writeCache o₁ cache ck w) ok w) k = readCache cache k := by
        intro k
        by_cases hk : k = ok <;> by_cases hk' : k = ck <;> cases o₁ <;> cases o₂ <;>
          simp_all [readCache, writeCache]
      unfold autotune
      rcases key ok with hk | hk <;> rw [hk]
      rw [h1]
      dsimp only
      rcases key ck with hk' | hk' <;> rw [hk']
      rw [h2]
      exact hw

/-! ## What the operator key leaves out -/

private theorem profileStep_comm (P : KeyParams) (sh : String → Option (List Nat))
    (prof : String → Option Nat) (a b : LayerInfo) :
    profileStep P sh (profileStep P sh prof a) b = profileStep P sh (profileStep P sh prof b) a := by
  unfold profileStep
  by_cases ha : rescaled P a = true <;> by_cases hb : rescaled P b = true <;>
    simp only [ha, hb, if_true, if_false, Bool.false_eq_true]
  funext op
  by_cases h1 : op = a.op <;> by_cases h2 : op = b.op
  · subst h1
    simp only [h2, if_true, Option.getD_some]
    congr 1; omega
  · simp only [if_pos h1, if_neg h2]
  · simp only [if_neg h1, if_pos h2]
  · simp only [if_neg h1, if_neg h2]

/-- **C89, the key.** The operator key is blind to the order of the layers and to the bit widths
configured for single layers. -/
theorem C89_key_blind (P : KeyParams) (nb : String → Option Nat) (arch arch' : List LayerInfo)
    (hperm : arch.Perm arch') (sh : String → Option (List Nat)) (n : Nat) :
    operatorKey P arch sh n = operatorKey { P with nBits := nb } arch' sh n := by
  unfold operatorKey
  have h1 : profileStep { P with nBits := nb } sh = profileStep P sh := rfl
  rw [h1]
  congr 1
  haveI : RightCommutative (profileStep P sh) := ⟨fun a b c => profileStep_comm P sh a b c⟩
  exact hperm.foldl_eq _

/-- **C89 is false: the width need not be the cheapest, nor compile at all.** Take any model and a second
that differs in the order of its layers or in its configured bit widths, and any costs of the two. Compiled
after the first with an empty cache, the second gets the width best for the first, even when it does not
compile with it. `H` is the hash of the keys. -/
theorem C89_not_best (H : OperatorKey ⊕ CircuitKey → K) (P : KeyParams) (nb : String → Option Nat)
    (arch arch' : List LayerInfo) (hperm : arch.Perm arch') (sh : String → Option (List Nat)) (n : Nat)
    (cost cost' : Nat → Option Nat) :
    (autotune (H (.inl (operatorKey { P with nBits := nb } arch' sh n)))
      (H (.inr (circuitKey { P with nBits := nb } arch'))) true true cost'
      (autotune (H (.inl (operatorKey P arch sh n))) (H (.inr (circuitKey P arch))) true true cost
        fun _ => none).2).1 = sweep [10, 11, 12, 13, 14] cost := by
  rw [← C89_key_blind P nb arch arch' hperm sh n]
  exact (C89_cached _ _ _ true true true cost cost' (fun _ => none) rfl rfl).2

/-- Such costs: the first model is cheapest at 14, the second compiles only at 10. -/
example : sweep [10, 11, 12, 13, 14] (fun c => some (100 - c)) = 14 ∧
    sweep [10, 11, 12, 13, 14] (fun c => if c = 10 then some 1 else none) = 10 := by decide

/-! ## What the width means for soundness -/

/-- **C89, usable.** With an automatic width, range checks of every width from 1 to 127 bits can be built and
the honest prover passes them in BN254. -/
theorem C89_usable (ok ck : K) (o₁ o₂ : Bool) (cost : Nat → Option Nat) (cache : Cache K) (tid n : Nat)
    (hn : 0 < n) (hn' : n < 128) :
    RangeCallable ⟨tid, (autotune ok ck o₁ o₂ cost cache).1⟩ n ∧
    RangeUsable bn254P ⟨tid, (autotune ok ck o₁ o₂ cost cache).1⟩ n := by
  obtain ⟨⟨h1, h2⟩, -, -⟩ := C89_range ok ck o₁ o₂ cost cache
  generalize (autotune ok ck o₁ o₂ cost cache).1 = w at h1 h2 ⊢
  refine ⟨⟨by show 0 < w; omega, by show w < 32; omega, hn, hn'.le, fun _ => hn'⟩,
    ⟨by show 0 < w; omega, by show w < 32; omega, hn, hn'.le, fun _ => hn', ?_⟩⟩
  have hs : slackBits w n ≤ 14 := by
    unfold slackBits
    have := Nat.mod_lt n (show 0 < w by omega)
    first
      | omega
      | (split_ifs <;> omega)
      | exact le_trans (Nat.mod_le _ _) (by omega)
  refine le_trans (Nat.pow_le_pow_right (by norm_num) (show n + slackBits w n ≤ 142 by omega)) ?_
  norm_num [bn254P]

/-- **C89 is false: automatic widths are never exact for the usual parameters.** No automatic width divides
18, 31 or 64. Hence, whatever is cached and whatever compiling costs: with the scale exponent 18 the
rescaled value of every in-range `x` can be proved to be one more than it is, and with 64-bit activations
ReLU of every in-range positive `x` can be proved to be 0. -/
theorem C89_default_unsound {p : Nat} [Fact p.Prime] {T : Tables (ZMod p)} (ok ck : K) (o₁ o₂ : Bool)
    (cost : Nat → Option Nat) (cache : Cache K) (tid : Nat)
    (hT : IsRangeTable T ⟨tid, (autotune ok ck o₁ o₂ cost cache).1⟩) :
    (∀ n ∈ ([18, 31, 64] : List Nat), ¬ (autotune ok ck o₁ o₂ cost cache).1 ∣ n) ∧
    (∀ x : Int, -(2 : Int) ^ 81 ≤ x → x < 2 ^ 81 → x / 2 ^ 18 + 1 < 2 ^ 63 →
      Forge T (rescaleArray ⟨tid, (autotune ok ck o₁ o₂ cost cache).1⟩ [(x : ZMod p)] 18 63 false)
        (fun ys => ys = [((x / 2 ^ 18 + 1 : Int) : ZMod p)])) ∧
    (∀ x : Int, 0 ≤ x → x < 2 ^ 63 →
      Forge T (constrainedRelu ⟨63, ((2 ^ 63 : Nat) : ZMod p)⟩
        ⟨tid, (autotune ok ck o₁ o₂ cost cache).1⟩ (x : ZMod p)) (fun r => r = 0)) := by
  have hm := autotune_mem ok ck o₁ o₂ cost cache
  have hu := fun n h h' => (C89_usable ok ck o₁ o₂ cost cache tid n h h').1
  generalize (autotune ok ck o₁ o₂ cost cache).1 = w at hm hu hT ⊢
  have hnd : ∀ n ∈ ([18, 31, 64] : List Nat), ¬ w ∣ n := by
    simp only [candidates, List.mem_cons, List.not_mem_nil, or_false] at hm
    rcases hm with rfl | rfl | rfl | rfl | rfl <;> decide
  have h18 : ¬ w ∣ 18 := hnd 18 (by simp)
  have h64 : ¬ w ∣ 64 := hnd 64 (by simp)
  refine ⟨hnd, fun x h1 h2 h3 => ?_, (C06_unsound hT (hu 64 (by norm_num) (by norm_num)) h64).1⟩
  exact C05_rescale_unsound hT (hu 18 (by norm_num) (by norm_num)) (hu 64 (by norm_num) (by norm_num)) h18
    (by norm_num) (by norm_num) x (by linarith) (by linarith) h3

/-- **C89: no bit width is safe.** For every range-check width up to 128 bits there are compile costs for
which the automatic digit width does not divide it, even with an empty cache; so the condition under which
range checks are exact cannot be guaranteed by choosing other model parameters. -/
theorem C89_no_safe_width (ok ck : K) (n : Nat) (hn : 0 < n) (hn' : n ≤ 128) :
    ∃ cost : Nat → Option Nat, ¬ (autotune ok ck true true cost fun _ => none).1 ∣ n := by
  have hw : ∀ w ∈ ([10, 11, 12, 13, 14] : List Nat), (autotune ok ck true true
      (fun c => if c = w then some 0 else none) fun _ => none).1 = w := by
    intro w hw
    rw [(C89_cached ok ck ck true true true _ (fun _ => none) _ rfl rfl).1]
    simp only [List.mem_cons, List.not_mem_nil, or_false] at hw
    rcases hw with rfl | rfl | rfl | rfl | rfl <;> decide
  by_contra hcon
  push Not at hcon
  have h11 := hcon (fun c => if c = 11 then some 0 else none)
  have h13 := hcon (fun c => if c = 13 then some 0 else none)
  rw [hw _ (by simp)] at h11 h13
  omega

/-- BN254, empty cache, nothing compiles more cheaply than at 13 bits: `5 / 2^18` proved to be 1. -/
example : Forge (rangeTables bn254P ⟨0, (autotune "op" "circ" true true
      (fun c => some (if c = 13 then 1 else 2)) fun _ => none).1⟩)
    (rescaleArray ⟨0, (autotune "op" "circ" true true
      (fun c => some (if c = 13 then 1 else 2)) fun _ => none).1⟩ [((5 : Int) : ZMod bn254P)] 18 63 false)
    (fun ys => ys = [((5 / 2 ^ 18 + 1 : Int) : ZMod bn254P)]) :=
  (C89_default_unsound "op" "circ" true true _ _ 0 (rangeTables_spec _)).2.1 5 (by norm_num) (by norm_num)
    (by norm_num)

end JST.Props
