import Verif.Compiler.Layering
import Verif.Compiler.LiveValid

/-!
# Layering keeps the meaning of a circuit
-/

namespace JST.Comp

open JST.Circ JST.Flat

/-! ## Pools and sizes -/

theorem pooled_aux (l p : List Nat) (hp : p.Nodup) :
    (l.foldl (fun p x => if x ∈ p then p else p ++ [x]) p).Nodup ∧
    p <+: l.foldl (fun p x => if x ∈ p then p else p ++ [x]) p ∧
    (∀ x, x ∈ l.foldl (fun p x => if x ∈ p then p else p ++ [x]) p ↔ x ∈ p ∨ x ∈ l) := by
  induction l generalizing p with
  | nil => exact ⟨hp, List.prefix_refl _, by simp⟩
  | cons a l ih =>
      simp only [List.foldl_cons]
      by_cases h : a ∈ p
      · rw [if_pos h]
        obtain ⟨h1, h2, h3⟩ := ih p hp
        refine ⟨h1, h2, fun x => ?_⟩
        rw [h3 x, List.mem_cons]
        constructor
        · tauto
        · rintro (hx | rfl | hx)
          · exact Or.inl hx
          · exact Or.inl h
          · exact Or.inr hx
      · rw [if_neg h]
        have hnd : (p ++ [a]).Nodup := by
          rw [List.nodup_append]
          refine ⟨hp, by simp, ?_⟩
          rintro x hx y hy rfl
          rw [List.mem_singleton] at hy
          exact h (hy ▸ hx)
        obtain ⟨h1, h2, h3⟩ := ih (p ++ [a]) hnd
        refine ⟨h1, (List.prefix_append _ _).trans h2, fun x => ?_⟩
        rw [h3 x, List.mem_append, List.mem_singleton, List.mem_cons]
        tauto

theorem pooled_nodup (l : List Nat) : (pooled l).Nodup := (pooled_aux l [] List.nodup_nil).1

theorem mem_pooled {l : List Nat} {x : Nat} : x ∈ pooled l ↔ x ∈ l := by
  have := (pooled_aux l [] List.nodup_nil).2.2 x
  simpa [pooled] using this

theorem pooled_foldl_nodup (l p : List Nat) (h : (p ++ l).Nodup) :
    l.foldl (fun p x => if x ∈ p then p else p ++ [x]) p = p ++ l := by
  induction l generalizing p with
  | nil => simp
  | cons a l ih =>
      have ha : a ∉ p := by
        intro hp
        rw [List.nodup_append] at h
        exact h.2.2 a hp a (by simp) rfl
      simp only [List.foldl_cons, if_neg ha]
      rw [ih (p ++ [a]) (by simpa using h)]
      simp

theorem pooled_of_nodup {l : List Nat} (h : l.Nodup) : pooled l = l := by
  have := pooled_foldl_nodup l [] (by simpa using h)
  simpa [pooled] using this

theorem pooled_prefix {a b : List Nat} (h : a.Nodup) : a <+: pooled (a ++ b) := by
  have h1 : pooled a = a := pooled_of_nodup h
  have h2 := (pooled_aux b (pooled a) (pooled_nodup a)).2.1
  unfold pooled at h1 h2 ⊢
  rw [List.foldl_append]
  rw [h1] at h2 ⊢
  exact h2

theorem idxOf_get {l : List Nat} {x : Nat} (h : x ∈ l) : l[l.idxOf x]? = some x := by
  rw [List.getElem?_eq_getElem (List.idxOf_lt_length_of_mem h), List.getElem_idxOf]

theorem idxOf_of_get {l : List Nat} (hn : l.Nodup) {x p : Nat} (h : l[p]? = some x) : l.idxOf x = p := by
  obtain ⟨hp, rfl⟩ := List.getElem?_eq_some_iff.1 h
  exact hn.idxOf_getElem p hp

theorem nextPow_ok (x f k : Nat) (h : x ≤ 2 ^ (k + f)) :
    x ≤ nextPow x f (2 ^ k) ∧ ∃ j, nextPow x f (2 ^ k) = 2 ^ j := by
  induction f generalizing k with
  | zero => exact ⟨h, k, rfl⟩
  | succ f ih =>
      simp only [nextPow]
      split_ifs with hlt
      · rw [show 2 * 2 ^ k = 2 ^ (k + 1) by rw [pow_succ]; ring]
        exact ih (k + 1) (by rwa [show k + 1 + f = k + (f + 1) by omega])
      · exact ⟨by omega, k, rfl⟩

theorem le_nextPowerOfTwo (x : Nat) : x ≤ nextPowerOfTwo x :=
  (nextPow_ok x x 0 (by rw [Nat.zero_add]; exact Nat.lt_two_pow_self.le)).1

theorem nextPowerOfTwo_pow (x : Nat) : ∃ j, nextPowerOfTwo x = 2 ^ j :=
  (nextPow_ok x x 0 (by rw [Nat.zero_add]; exact Nat.lt_two_pow_self.le)).2

theorem gather_ok {α β : Type} {f : α → Option (List β)} {g : α → List β} {l : List α}
    (h : ∀ x ∈ l, f x = some (g x)) : gather f l = some (l.flatMap g) := by
  induction l with
  | nil => rfl
  | cons a l ih =>
      simp only [gather, h a (by simp), ih fun x hx => h x (by simp [hx])]
      rfl

/-! ## Layers -/

variable {F R : Type}

theorem layersFrom_prefix (ls : List Nat) (is : List (DInsn F R)) : ls <+: layersFrom ls is := by
  induction is generalizing ls with
  | nil => exact List.prefix_refl _
  | cons i r ih => exact (List.prefix_append _ _).trans (ih _)

theorem layersFrom_length (ls : List Nat) (is : List (DInsn F R)) :
    (layersFrom ls is).length = ls.length + is.length := by
  induction is generalizing ls with
  | nil => rfl
  | cons i r ih => rw [layersFrom, ih]; simp; omega

theorem getD_prefix {vs ws : List Nat} (h : vs <+: ws) {x : Nat} (hx : x < vs.length) :
    ws.getD x 0 = vs.getD x 0 := by
  obtain ⟨q, rfl⟩ := h
  simp [List.getD, List.getElem?_append_left hx]

theorem insnLayer_congr {ls ms : List Nat} {i : DInsn F R} (h : ∀ x ∈ DInsn.vars i, ls.getD x 0 = ms.getD x 0) :
    insnLayer ls i = insnLayer ms i := by
  unfold insnLayer
  cases i with
  | iv e rl =>
      simp only
      congr 2
      exact List.map_congr_left h
  | random r => rfl
  | publicInput i => rfl

theorem layersFrom_get (ls : List Nat) (is : List (DInsn F R)) (k : Nat) (i : DInsn F R)
    (hk : is[k]? = some i) (hr : ∀ x ∈ DInsn.vars i, x < ls.length + k) :
    (layersFrom ls is).getD (ls.length + k) 0 = insnLayer (layersFrom ls is) i := by
  induction is generalizing ls k with
  | nil => simp at hk
  | cons d r ih =>
      rw [layersFrom]
      have hp := layersFrom_prefix (ls ++ [insnLayer ls d]) r
      cases k with
      | zero =>
          simp at hk
          subst hk
          rw [getD_prefix hp (by simp)]
          have h1 : (ls ++ [insnLayer ls d]).getD (ls.length + 0) 0 = insnLayer ls d := by simp [List.getD]
          rw [h1]
          exact insnLayer_congr fun x hx =>
            (getD_prefix ((List.prefix_append _ _).trans hp) (hr x hx)).symm
      | succ k =>
          have := ih (ls ++ [insnLayer ls d]) k (by simpa using hk) (by
            intro x hx
            have := hr x hx
            simp; omega)
          rw [List.length_append, List.length_singleton] at this
          rw [show ls.length + (k + 1) = ls.length + 1 + k by omega]
          exact this

theorem insnOf_some {c : DCircuit F R} {x : Nat} {i : DInsn F R} (h : insnOf c x = some i) :
    ∃ k, x = c.numInputs + 1 + k ∧ c.insns[k]? = some i := by
  unfold insnOf at h
  split_ifs at h with hx
  exact ⟨x - (c.numInputs + 1), by omega, h⟩

theorem insnOf_lt {c : DCircuit F R} {x : Nat} {i : DInsn F R} (h : insnOf c x = some i) : x < numVar c := by
  obtain ⟨k, rfl, hk⟩ := insnOf_some h
  obtain ⟨hk, -⟩ := List.getElem?_eq_some_iff.1 hk
  unfold numVar; omega

theorem insnOf_exists {c : DCircuit F R} {x : Nat} (h1 : c.numInputs < x) (h2 : x < numVar c) :
    ∃ i, insnOf c x = some i := by
  unfold insnOf
  rw [if_pos (by omega)]
  unfold numVar at h2
  exact ⟨_, List.getElem?_eq_getElem (by omega)⟩

theorem insnOf_reads {c : DCircuit F R} (hv : c.Valid) {x : Nat} {i : DInsn F R} (h : insnOf c x = some i) :
    ∀ y ∈ DInsn.vars i, 1 ≤ y ∧ y < x := by
  obtain ⟨k, rfl, hk⟩ := insnOf_some h
  exact (validAt_iff _ _).1 (validAll_get hv.insns hk)

theorem min0_insn {c : DCircuit F R} (hv : c.Valid) {x : Nat} {i : DInsn F R} (h : insnOf c x = some i) :
    min0 c x = insnLayer (layersOf c) i := by
  have hr := insnOf_reads hv h
  obtain ⟨k, rfl, hk⟩ := insnOf_some h
  have := layersFrom_get (List.replicate (c.numInputs + 1) 0) c.insns k i hk (by
    intro y hy; simpa using (hr y hy).2)
  rw [List.length_replicate] at this
  exact this

theorem min0_input {c : DCircuit F R} {x : Nat} (h : x ≤ c.numInputs) : min0 c x = 0 := by
  unfold min0 layersOf
  rw [getD_prefix (layersFrom_prefix _ _) (by simp; omega), List.getD, List.getElem?_replicate]
  split_ifs <;> rfl

theorem min0_pos {c : DCircuit F R} (hv : c.Valid) {x : Nat} {i : DInsn F R} (h : insnOf c x = some i) :
    1 ≤ min0 c x := by
  rw [min0_insn hv h]
  unfold insnLayer
  cases i <;> simp

theorem min0_le (c : DCircuit F R) (x : Nat) : min0 c x ≤ outLayer c :=
  (getD_le_foldr _ _).trans (le_max_right _ _)

/-- A variable is in a layer after those it is computed from. -/
theorem min0_lt {c : DCircuit F R} (hv : c.Valid) {x y : Nat} {i : DInsn F R} (h : insnOf c x = some i)
    (hy : y ∈ DInsn.vars i) : min0 c y + 1 ≤ min0 c x := by
  rw [min0_insn hv h]
  unfold insnLayer
  cases i with
  | iv e rl =>
      simp only
      have : min0 c y ∈ (DInsn.vars (.iv e rl)).map fun x => (layersOf c).getD x 0 :=
        List.mem_map.2 ⟨y, hy, rfl⟩
      have := le_foldr_max this
      omega
  | random r => simp [DInsn.vars] at hy
  | publicInput i => simp [DInsn.vars] at hy

theorem mem_users {c : DCircuit F R} {x y : Nat} {i : DInsn F R} (h : insnOf c y = some i)
    (hx : x ∈ DInsn.vars i) : y ∈ users c x := by
  unfold users
  rw [List.mem_filter]
  refine ⟨List.mem_range.2 (insnOf_lt h), ?_⟩
  rw [h]
  simpa using hx

theorem of_mem_users {c : DCircuit F R} {x y : Nat} (h : y ∈ users c x) :
    ∃ i, insnOf c y = some i ∧ x ∈ DInsn.vars i := by
  unfold users at h
  rw [List.mem_filter] at h
  obtain ⟨-, h⟩ := h
  cases hi : insnOf c y with
  | none => rw [hi] at h; simp at h
  | some i => rw [hi] at h; exact ⟨i, rfl, by simpa using h⟩

theorem foldr_max_ge (l : List Nat) (b : Nat) : b ≤ l.foldr max b := by
  induction l with
  | nil => exact le_rfl
  | cons a l ih => exact ih.trans (le_max_right _ _)

theorem foldr_max_mem {l : List Nat} {b x : Nat} (h : x ∈ l) : x ≤ l.foldr max b := by
  induction l with
  | nil => cases h
  | cons a l ih =>
      rcases List.mem_cons.1 h with rfl | h
      · exact le_max_left _ _
      · exact (ih h).trans (le_max_right _ _)

theorem foldr_max_le {l : List Nat} {b m : Nat} (hb : b ≤ m) (h : ∀ x ∈ l, x ≤ m) : l.foldr max b ≤ m := by
  induction l with
  | nil => exact hb
  | cons a l ih => exact max_le (h a (by simp)) (ih fun x hx => h x (by simp [hx]))

theorem foldr_min_le (l : List Nat) (b : Nat) : l.foldr min b ≤ b := by
  induction l with
  | nil => exact le_rfl
  | cons a l ih => exact (min_le_right _ _).trans ih

theorem foldr_min_mem {l : List Nat} {b x : Nat} (h : x ∈ l) : l.foldr min b ≤ x := by
  induction l with
  | nil => cases h
  | cons a l ih =>
      rcases List.mem_cons.1 h with rfl | h
      · exact min_le_left _ _
      · exact (min_le_right _ _).trans (ih h)

theorem le_foldr_min {l : List Nat} {b m : Nat} (hb : m ≤ b) (h : ∀ x ∈ l, m ≤ x) : m ≤ l.foldr min b := by
  induction l with
  | nil => exact hb
  | cons a l ih => exact le_min (h a (by simp)) (ih fun x hx => h x (by simp [hx]))

theorem min0_le_maxL (c : DCircuit F R) (x : Nat) : min0 c x ≤ maxL c x := by
  unfold maxL
  split_ifs
  · exact min0_le c x
  · exact foldr_max_ge _ _

theorem maxL_le (c : DCircuit F R) (x : Nat) : maxL c x ≤ outLayer c := by
  unfold maxL
  split_ifs
  · exact le_rfl
  · refine foldr_max_le (min0_le c x) fun y hy => ?_
    obtain ⟨z, -, rfl⟩ := List.mem_map.1 hy
    exact (Nat.sub_le _ _).trans (min0_le c z)

theorem minL_le_maxL (c : DCircuit F R) (x : Nat) : minL c x ≤ maxL c x := by
  unfold minL
  split_ifs
  · exact (foldr_min_le _ _).trans (min_le_right _ _)
  · exact min0_le_maxL c x

theorem constLike_min {c : DCircuit F R} (hv : c.Valid) {x : Nat} (h : isConstLike c x = true) :
    min0 c x = 1 ∧ ∃ i, insnOf c x = some i := by
  unfold isConstLike at h
  cases hi : insnOf c x with
  | none => rw [hi] at h; simp at h
  | some i =>
      rw [hi] at h
      refine ⟨?_, i, rfl⟩
      rw [min0_insn hv hi]
      cases i with
      | iv e rl => simp at h
      | random r => rfl
      | publicInput i => rfl

theorem minL_pos {c : DCircuit F R} (hv : c.Valid) {x : Nat} {i : DInsn F R} (h : insnOf c x = some i) :
    1 ≤ minL c x := by
  unfold minL
  split_ifs with hc
  · have h1 := constLike_min hv hc.1
    refine le_foldr_min (le_min (le_max_left _ _) (h1.1.ge.trans (min0_le_maxL c x))) fun y hy => ?_
    obtain ⟨z, hz, rfl⟩ := List.mem_map.1 hy
    obtain ⟨j, hj, hm⟩ := of_mem_users hz
    have := min0_lt hv hj hm
    omega
  · exact min0_pos hv h

theorem minL_input {c : DCircuit F R} {x : Nat} (h : x ≤ c.numInputs) : minL c x = 0 := by
  have : isConstLike c x = false := by
    unfold isConstLike insnOf
    rw [if_neg (by omega)]
  unfold minL
  rw [this]
  simp [min0_input h]

theorem minL_iv {c : DCircuit F R} {x : Nat} {e : Expr F} {rl : List (R × Nat)}
    (h : insnOf c x = some (.iv e rl)) : minL c x = min0 c x := by
  have : isConstLike c x = false := by unfold isConstLike; rw [h]
  unfold minL
  rw [this]
  simp

/-- What a variable is computed from lives in the layer before it. -/
theorem reads_live {c : DCircuit F R} (hv : c.Valid) {x y : Nat} {e : Expr F} {rl : List (R × Nat)}
    (h : insnOf c x = some (.iv e rl)) (hy : y ∈ DInsn.vars (.iv e rl)) :
    minL c y + 1 ≤ minL c x ∧ minL c x ≤ maxL c y + 1 := by
  rw [minL_iv h]
  have h1 := min0_lt hv h hy
  have hu : min0 c x - 1 ∈ (users c y).map fun z => min0 c z - 1 := List.mem_map.2 ⟨x, mem_users h hy, rfl⟩
  constructor
  · unfold minL
    split_ifs with hc
    · have := foldr_min_mem (b := min (outLayer c) (maxL c y)) hu
      omega
    · exact h1
  · unfold maxL
    split_ifs
    · have := min0_le c x; omega
    · have := foldr_max_mem (b := min0 c y) hu
      unfold max0
      omega

theorem mem_poolAt {c : DCircuit F R} (hv : c.Valid) {l x : Nat} :
    x ∈ poolAt c l ↔ (1 ≤ x ∧ x < numVar c) ∧ minL c x ≤ l ∧ l ≤ maxL c x := by
  unfold poolAt
  rw [mem_pooled, List.mem_append, List.mem_filter, List.mem_range'_1]
  have hn : 1 ≤ numVar c := by unfold numVar; omega
  constructor
  · rintro (h | ⟨h1, h2⟩)
    · split_ifs at h with hl
      · have h3 := hv.outputs x h
        have h4 : maxL c x = outLayer c := by unfold maxL; rw [if_pos h]
        exact ⟨⟨h3.1, h3.2⟩, hl ▸ ((minL_le_maxL c x).trans h4.le), by rw [h4, hl]⟩
      · cases h
    · simp only [decide_eq_true_eq] at h2
      exact ⟨⟨by omega, by omega⟩, h2⟩
  · rintro ⟨h1, h2⟩
    exact Or.inr ⟨by omega, by simpa using h2⟩

theorem poolAt_nodup (c : DCircuit F R) (l : Nat) : (poolAt c l).Nodup := pooled_nodup _

theorem poolAt_outputs {c : DCircuit F R} (h : c.outputs.Nodup) : c.outputs <+: poolAt c (outLayer c) := by
  unfold poolAt
  rw [if_pos rfl]
  exact pooled_prefix h

theorem poolAt_zero {c : DCircuit F R} (hv : c.Valid) : poolAt c 0 = List.range' 1 c.numInputs := by
  unfold poolAt
  have h0 : (0 : Nat) ≠ outLayer c := by have : 1 ≤ outLayer c := le_max_left _ _; omega
  rw [if_neg h0, List.nil_append]
  have h1 : numVar c - 1 = c.numInputs + c.insns.length := by unfold numVar; omega
  rw [h1, ← List.range'_append_1, List.filter_append]
  have h2 : (List.range' 1 c.numInputs).filter (fun x => decide (minL c x ≤ 0 ∧ 0 ≤ maxL c x)) =
      List.range' 1 c.numInputs := by
    rw [List.filter_eq_self]
    intro x hx
    rw [List.mem_range'_1] at hx
    simp [minL_input (show x ≤ c.numInputs by omega)]
  have h3 : (List.range' (1 + c.numInputs) c.insns.length).filter (fun x => decide (minL c x ≤ 0 ∧ 0 ≤ maxL c x)) =
      [] := by
    rw [List.filter_eq_nil_iff]
    intro x hx
    rw [List.mem_range'_1] at hx
    obtain ⟨i, hi⟩ := insnOf_exists (c := c) (x := x) (by omega) (by unfold numVar; omega)
    have := minL_pos hv hi
    simp; omega
  rw [h2, h3, List.append_nil]
  exact pooled_of_nodup List.nodup_range'

end JST.Comp
