import Verif.Compiler.Live
import Verif.Compiler.CombineValid

/-!
# Removing what is not used keeps the meaning of a circuit
-/

namespace JST.Comp

open JST.Circ JST.Flat

section Generic

variable {I : Type} {vars : I → List Nat} {ren : (Nat → Nat) → I → I}

theorem roots_subset (n : Nat) (is : List I) (roots : List Nat) : roots ⊆ liveFrom vars n is roots := by
  induction is generalizing n with
  | nil => exact fun _ h => h
  | cons i r ih =>
      intro x hx
      simp only [liveFrom]
      split_ifs
      · exact List.mem_append_left _ (ih _ hx)
      · exact ih _ hx

theorem live_mono (n : Nat) (i : I) (r : List I) (roots : List Nat) :
    liveFrom vars (n + 1) r roots ⊆ liveFrom vars n (i :: r) roots := by
  intro x hx
  simp only [liveFrom]
  split_ifs
  · exact List.mem_append_left _ hx
  · exact hx

/-- Instruction `k` reads variables which exist before it. -/
def ReadsBelow (vars : I → List Nat) (n : Nat) (is : List I) : Prop :=
  ∀ k i, is[k]? = some i → ∀ x ∈ vars i, 1 ≤ x ∧ x < n + k

theorem ReadsBelow.tail {n : Nat} {i : I} {r : List I} (h : ReadsBelow vars n (i :: r)) : ReadsBelow vars (n + 1) r := by
  intro k j hk x hx
  have := h (k + 1) j (by simpa using hk) x hx
  omega

/-- A variable which is kept is computed from variables which are kept. -/
theorem live_closed {n : Nat} {is : List I} {roots : List Nat} (hr : ReadsBelow vars n is) {k : Nat} {i : I}
    (hk : is[k]? = some i) (hl : n + k ∈ liveFrom vars n is roots) : vars i ⊆ liveFrom vars n is roots := by
  induction is generalizing n k with
  | nil => simp at hk
  | cons j r ih =>
      cases k with
      | zero =>
          simp at hk
          subst hk
          simp only [Nat.add_zero, liveFrom] at hl ⊢
          by_cases h : n ∈ liveFrom vars (n + 1) r roots
          · rw [if_pos h]; exact List.subset_append_right _ _
          · rw [if_neg h] at hl; exact absurd hl h
      | succ k =>
          have hk' : r[k]? = some i := by simpa using hk
          have hl' : n + 1 + k ∈ liveFrom vars (n + 1) r roots := by
            simp only [liveFrom] at hl
            split_ifs at hl with h
            · rcases List.mem_append.1 hl with h1 | h1
              · rwa [show n + 1 + k = n + (k + 1) by omega]
              · have := hr 0 j (by simp) _ h1
                omega
            · rwa [show n + 1 + k = n + (k + 1) by omega]
          exact List.Subset.trans (ih hr.tail hk' hl') (live_mono _ _ _ _)

theorem rank_succ (L : List Nat) (n : Nat) (hn : 1 ≤ n) : rank L (n + 1) = rank L n + if n ∈ L then 1 else 0 := by
  simp only [rank, List.range_succ, List.filter_append, List.length_append]
  by_cases h : n ∈ L <;> simp [h, hn]

theorem rank_mono (L : List Nat) {a b : Nat} (h : a ≤ b) : rank L a ≤ rank L b := by
  unfold rank
  exact ((List.range_sublist.2 h).filter _).length_le

theorem rank_lt {L : List Nat} {a b : Nat} (ha : a ∈ L) (h1 : 1 ≤ a) (h : a < b) : rank L a < rank L b := by
  have := rank_mono L (show a + 1 ≤ b from h)
  rw [rank_succ L a h1, if_pos ha] at this
  omega

theorem newId_lt {L : List Nat} {a b : Nat} (ha : a ∈ L) (h1 : 1 ≤ a) (h : a < b) : newId L a < newId L b := by
  have := rank_lt ha h1 h; unfold newId; omega

theorem newId_inj {L : List Nat} {a b : Nat} (ha : a ∈ L) (hb : b ∈ L) (h1 : 1 ≤ a) (h2 : 1 ≤ b)
    (h : newId L a = newId L b) : a = b := by
  rcases lt_trichotomy a b with hl | hl | hl
  · have := newId_lt ha h1 hl; omega
  · exact hl
  · have := newId_lt hb h2 hl; omega

variable {F : Type} [Field F] [DecidableEq F]

/-- The values of the circuits correspond. -/
structure Corr (L : List Nat) (vs ws : List F) : Prop where
  len : ws.length = rank L vs.length + 1
  val : ∀ x, 1 ≤ x → x < vs.length → x ∈ L → look ws (newId L x) = look vs x

theorem Corr.snoc {L : List Nat} {vs ws : List F} (h : Corr L vs ws) (h1 : 1 ≤ vs.length)
    (hl : vs.length ∈ L) (v : F) : Corr L (vs ++ [v]) (ws ++ [v]) := by
  refine ⟨by simp [h.len, rank_succ L _ h1, hl], ?_⟩
  intro x hx1 hx2 hx
  rw [List.length_append, List.length_singleton] at hx2
  rcases Nat.lt_or_ge x vs.length with hlt | hge
  · have h3 : newId L x < ws.length := by
      rw [h.len]; unfold newId; have := rank_lt hx hx1 hlt; omega
    rw [look_prefix (List.prefix_append _ _) h3, look_prefix (List.prefix_append _ _) hlt]
    exact h.val x hx1 hlt hx
  · obtain rfl : x = vs.length := by omega
    rw [look_last, show newId L vs.length = ws.length by rw [h.len]; rfl, look_last]

theorem Corr.skip {L : List Nat} {vs ws : List F} (h : Corr L vs ws) (h1 : 1 ≤ vs.length)
    (hl : vs.length ∉ L) (v : F) : Corr L (vs ++ [v]) ws := by
  refine ⟨by simp [h.len, rank_succ L _ h1, hl], ?_⟩
  intro x hx1 hx2 hx
  rw [List.length_append, List.length_singleton] at hx2
  have hlt : x < vs.length := by
    rcases Nat.lt_or_ge x vs.length with hlt | hge
    · exact hlt
    · obtain rfl : x = vs.length := by omega
      exact absurd hx hl
  rw [look_prefix (List.prefix_append _ _) hlt]
  exact h.val x hx1 hlt hx

theorem keep_corr {val : (Nat → F) → I → F}
    (hren : ∀ a f i, val a (ren f i) = val (fun x => a (f x)) i)
    (hcongr : ∀ a b i, (∀ x ∈ vars i, a x = b x) → val a i = val b i)
    {L : List Nat} {is : List I} {vs ws : List F} (h1 : 1 ≤ vs.length)
    (hr : ReadsBelow vars vs.length is)
    (hcl : ∀ k i, is[k]? = some i → vs.length + k ∈ L → vars i ⊆ L) (h : Corr L vs ws) :
    Corr L (run val is vs) (run val (keepInsns ren L vs.length is) ws) := by
  induction is generalizing vs ws with
  | nil => exact h
  | cons i r ih =>
      have hlen : (vs ++ [val (look vs) i]).length = vs.length + 1 := by simp
      have hr' : ReadsBelow vars (vs ++ [val (look vs) i]).length r := by rw [hlen]; exact hr.tail
      have hcl' : ∀ k j, r[k]? = some j → (vs ++ [val (look vs) i]).length + k ∈ L → vars j ⊆ L := by
        intro k j hk hm
        refine hcl (k + 1) j (by simpa using hk) ?_
        rw [hlen] at hm
        rwa [show vs.length + (k + 1) = vs.length + 1 + k by omega]
      simp only [run, keepInsns]
      by_cases hl : vs.length ∈ L
      · rw [if_pos hl]
        simp only [run]
        have hv : val (look ws) (ren (newId L) i) = val (look vs) i := by
          rw [hren]
          refine hcongr _ _ _ fun x hx => ?_
          have h2 := hr 0 i (by simp) x hx
          exact h.val x h2.1 (by omega) (hcl 0 i (by simp) (by simpa using hl) hx)
        rw [hv]
        have := ih (by simp) hr' hcl' (h.snoc h1 hl (val (look vs) i))
        rwa [hlen] at this
      · rw [if_neg hl]
        have := ih (by simp) hr' hcl' (h.skip h1 hl (val (look vs) i))
        rwa [hlen] at this

theorem kept_inputs (L : List Nat) (n : Nat) :
    ((List.range' 1 n).filter fun x => x ∈ L).length = rank L (n + 1) := by
  induction n with
  | zero => simp [rank]
  | succ n ih =>
      rw [List.range'_1_concat, List.filter_append, List.length_append, ih, rank_succ L (n + 1) (by omega),
        show 1 + n = n + 1 by omega]
      by_cases h : n + 1 ∈ L <;> simp [h]

theorem inputs_corr (L : List Nat) (ins : List F) :
    Corr L (0 :: ins) (0 :: mapInputs ((List.range' 1 ins.length).map
      fun x => if x ∈ L then some (rank L x) else none) (rank L (ins.length + 1)) ins) := by
  refine ⟨by simp [mapInputs], ?_⟩
  intro x hx1 hx2 hx
  obtain ⟨k, rfl⟩ : ∃ k, x = k + 1 := ⟨x - 1, by omega⟩
  simp only [List.length_cons] at hx2
  have hk : k < ins.length := by omega
  have hp : rank L (k + 1) < rank L (ins.length + 1) := rank_lt hx hx1 hx2
  show look (0 :: _) (rank L (k + 1) + 1) = look (0 :: ins) (k + 1)
  simp only [look, List.getD_cons_succ, mapInputs]
  rw [List.getD, List.getElem?_map, List.getElem?_range hp]
  simp only [Option.map_some, Option.getD_some]
  set m := (List.range' 1 ins.length).map fun x => if x ∈ L then some (rank L x) else none with hm
  have hmk : (m.zip ins)[k]? = some (some (rank L (k + 1)), ins[k]) := by
    rw [List.getElem?_zip_eq_some]
    refine ⟨?_, List.getElem?_eq_getElem hk⟩
    rw [hm, List.getElem?_map, List.getElem?_range' hk]
    simp only [Option.map_some, Nat.one_mul]
    rw [show 1 + k = k + 1 by omega, if_pos hx]
  have hmem := List.mem_of_getElem? hmk
  have hsome : ((m.zip ins).find? fun q => decide (q.1 = some (rank L (k + 1)))).isSome := by
    rw [List.find?_isSome]
    exact ⟨_, hmem, by simp⟩
  obtain ⟨q, hq⟩ := Option.isSome_iff_exists.1 hsome
  rw [hq]
  have h1 := List.find?_some hq
  simp only [decide_eq_true_eq] at h1
  obtain ⟨j, hj⟩ := List.getElem?_of_mem (List.mem_of_find?_eq_some hq)
  obtain ⟨hj1, hj2⟩ := List.getElem?_zip_eq_some.1 hj
  obtain ⟨hj3, hj4⟩ := List.getElem?_eq_some_iff.1 hj2
  rw [hm, List.getElem?_map, List.getElem?_range' hj3, h1] at hj1
  simp only [Option.map_some, Nat.one_mul, Option.some.injEq] at hj1
  split_ifs at hj1 with hlive
  simp only [Option.some.injEq] at hj1
  have : 1 + j = k + 1 := newId_inj hlive hx (by omega) hx1 (by unfold newId; omega)
  obtain rfl : j = k := by omega
  rw [List.getD, List.getElem?_eq_getElem hk]
  exact hj4.symm

/-- The values of the variables which are kept. -/
theorem removeUnreachable_corr {val : (Nat → F) → I → F}
    (hren : ∀ a f i, val a (ren f i) = val (fun x => a (f x)) i)
    (hcongr : ∀ a b i, (∀ x ∈ vars i, a x = b x) → val a i = val b i)
    {c : Circuit I Nat} (hr : ReadsBelow vars (c.numInputs + 1) c.insns) {ins : List F}
    (hins : ins.length = c.numInputs) :
    Corr (liveOf vars c) (run val c.insns (0 :: ins))
      (run val (removeUnreachable vars ren c).insns
        (0 :: mapInputs (unreachableMap vars c) (removeUnreachable vars ren c).numInputs ins)) := by
  have h0 := inputs_corr (liveOf vars c) ins
  have h1 : (removeUnreachable vars ren c).numInputs = rank (liveOf vars c) (ins.length + 1) := by
    rw [hins, ← kept_inputs]; rfl
  have h2 : unreachableMap vars c = (List.range' 1 ins.length).map
      fun x => if x ∈ liveOf vars c then some (rank (liveOf vars c) x) else none := by rw [hins]; rfl
  have hl : (0 :: ins).length = c.numInputs + 1 := by simp [hins]
  rw [h1, h2]
  have h3 := keep_corr hren hcongr (L := liveOf vars c) (is := c.insns) (vs := 0 :: ins) (by simp)
    (by rw [hl]; exact hr) (by
      intro k i hk hm
      rw [hl] at hm
      exact live_closed hr hk hm) h0
  rw [hl] at h3
  exact h3

theorem live_roots (c : Circuit I Nat) : ∀ x ∈ c.cons ++ c.outputs, x ∈ liveOf vars c := fun _ hx =>
  roots_subset _ _ _ hx

/-- How many instructions are kept. -/
theorem keepInsns_length (L : List Nat) (n : Nat) (hn : 1 ≤ n) (is : List I) :
    rank L n + (keepInsns ren L n is).length = rank L (n + is.length) := by
  induction is generalizing n with
  | nil => simp [keepInsns]
  | cons i r ih =>
      have := ih (n + 1) (by omega)
      rw [List.length_cons, show n + (r.length + 1) = n + 1 + r.length by omega, ← this, rank_succ L n hn]
      simp only [keepInsns]
      split_ifs <;> simp; omega

theorem removeUnreachable_size (c : Circuit I Nat) :
    (removeUnreachable vars ren c).numInputs + (removeUnreachable vars ren c).insns.length =
      rank (liveOf vars c) (c.numInputs + 1 + c.insns.length) := by
  rw [← keepInsns_length (ren := ren) _ _ (by omega)]
  show ((List.range' 1 c.numInputs).filter fun x => x ∈ liveOf vars c).length + _ = _
  rw [kept_inputs]
  rfl

end Generic

end JST.Comp
