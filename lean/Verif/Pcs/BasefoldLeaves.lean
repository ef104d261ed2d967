import Verif.Pcs.BasefoldTables
import Verif.Props.Merkle

/-! # Proofs: the leaves of the Merkle trees of BaseFold -/

namespace JST.Pcs

open JST.Merkle

variable {K : Type}

/-- The `size` bytes `b` are the canonical bytes of `x`: deserialising them gives `x`. -/
def Canon (c : Codec K) (x : K) (b : Mem) : Prop := b.length = c.size ∧ c.de b = some x

theorem flatten_slice (s : Nat) (mem : List Mem) (hm : ∀ b ∈ mem, b.length = s) (j : Nat) (hj : j < mem.length) :
    (mem.flatten.drop (j * s)).take s = mem.getD j [] ∧ mem.flatten.length = mem.length * s := by
  induction mem generalizing j with
  | nil => simp at hj
  | cons b mem ih =>
    have hb : b.length = s := hm b (by simp)
    have hm' : ∀ b ∈ mem, b.length = s := fun x hx => hm x (by simp [hx])
    have hlen : (b :: mem).flatten.length = (b :: mem).length * s := by
      rw [List.flatten_cons, List.length_append, hb, List.length_cons]
      rcases mem with _ | ⟨b', mem⟩
      · simp
      · rw [(ih hm' 0 (by simp)).2]; ring
    refine ⟨?_, hlen⟩
    rcases j with _ | j
    · rw [zero_mul, List.drop_zero, List.flatten_cons, List.take_append_of_le_length (by omega),
        List.take_of_length_le (by omega)]; rfl
    · rw [List.flatten_cons, show (j + 1) * s = b.length + j * s by rw [hb]; ring, List.drop_append, List.getD_cons_succ]
      simp only [List.length_cons] at hj
      rw [← (ih hm' j (by omega)).1]
      rw [List.drop_of_length_le (by omega), List.nil_append]
      congr 2; omega

theorem perLeaf_spec (c : Codec K) (k : Nat) (hs : c.size * 2 ^ k = leafBytes) : c.perLeaf = 2 ^ k ∧ 0 < c.size := by
  have h0 : 0 < c.size := by
    rcases Nat.eq_zero_or_pos c.size with h | h
    · rw [h, zero_mul] at hs; simp [leafBytes] at hs
    · exact h
  refine ⟨?_, h0⟩
  unfold Codec.perLeaf
  rw [← hs, Nat.mul_div_cancel_left _ h0]

theorem leavesOf_spec (s k log : Nat) (hs : s * 2 ^ k = leafBytes) (hk : k ≤ log) (mem : List Mem)
    (hm : ∀ b ∈ mem, b.length = s) (hl : mem.length = 2 ^ log) :
    ∃ leaves, leavesOf s mem = some leaves ∧ leaves.length = 2 ^ (log - k) ∧
      ∀ i (leaf : Mem), leaves[i]? = some leaf → leaf.length = leafBytes ∧
        ∀ off < 2 ^ k, (leaf.drop (off * s)).take s = mem.getD (i * 2 ^ k + off) [] := by
  have hpow : 2 ^ log = 2 ^ (log - k) * 2 ^ k := by rw [← pow_add, Nat.sub_add_cancel hk]
  have hbytes : mem.length * s = 2 ^ (log - k) * leafBytes := by rw [hl, hpow, ← hs]; ring
  have hdiv : mem.length * s / leafBytes = 2 ^ (log - k) := by
    rw [hbytes, Nat.mul_div_cancel _ (by norm_num [leafBytes])]
  have hflat : mem.flatten.length = mem.length * s := by
    have : 0 < mem.length := by rw [hl]; positivity
    exact (flatten_slice s mem hm 0 this).2
  unfold leavesOf
  rw [if_neg (by
    rintro (h | h)
    · rw [hbytes, Nat.mul_mod_left] at h; exact h rfl
    · rw [hl, Nat.log_pow (by norm_num)] at h; exact h rfl)]
  dsimp only
  rw [hdiv]
  refine ⟨_, rfl, by simp, fun i leaf hleaf => ?_⟩
  rw [List.getElem?_map, Option.map_eq_some_iff] at hleaf
  obtain ⟨i', hi', rfl⟩ := hleaf
  rw [List.getElem?_eq_some_iff] at hi'
  obtain ⟨hi, rfl⟩ := hi'
  simp only [List.length_range] at hi
  rw [List.getElem_range]
  have hib : i * leafBytes + leafBytes ≤ mem.flatten.length := by
    rw [hflat, hbytes]
    have : (i + 1) * leafBytes ≤ 2 ^ (log - k) * leafBytes := Nat.mul_le_mul_right _ hi
    rw [add_mul, one_mul] at this; exact this
  refine ⟨by rw [List.length_take, List.length_drop]; omega, fun off hoff => ?_⟩
  have ho : off * s + s ≤ leafBytes := by
    have : (off + 1) * s ≤ 2 ^ k * s := Nat.mul_le_mul_right _ hoff
    rw [add_mul, one_mul, mul_comm (2 ^ k), hs] at this; exact this
  rw [List.drop_take, List.drop_drop, List.take_take, min_eq_left (by omega)]
  have hj : i * 2 ^ k + off < mem.length := by
    rw [hl, hpow]
    have : (i + 1) * 2 ^ k ≤ 2 ^ (log - k) * 2 ^ k := Nat.mul_le_mul_right _ hi
    rw [add_mul, one_mul] at this; omega
  rw [← (flatten_slice s mem hm _ hj).1]
  congr 2
  rw [← hs]; ring

theorem getD_of_forall₂ {c : Codec K} {cw : List K} {mem : List Mem} (h : List.Forall₂ (Canon c) cw mem) (d : K) (j : Nat)
    (hj : j < cw.length) : Canon c (cw.getD j d) (mem.getD j []) := by
  have h2 := h.length_eq
  rw [List.getD_eq_getElem _ _ hj, List.getD_eq_getElem _ _ (by omega)]
  exact List.Forall₂.get h hj (by omega)

theorem extractBase_raw {c : Codec K} {k : Nat} (hs : c.size * 2 ^ k = leafBytes) {mem : List Mem} {i : Nat}
    {leaf : Mem} (h1 : leaf.length = leafBytes)
    (h2 : ∀ off < 2 ^ k, (leaf.drop (off * c.size)).take c.size = mem.getD (i * 2 ^ k + off) []) (off : Nat)
    (hoff : off < 2 ^ k) : extractBase c leaf off = c.de (mem.getD (i * 2 ^ k + off) []) := by
  have ho : off * c.size + c.size ≤ leafBytes := by
    have : (off + 1) * c.size ≤ 2 ^ k * c.size := Nat.mul_le_mul_right _ hoff
    rw [add_mul, one_mul, mul_comm (2 ^ k), hs] at this; exact this
  unfold extractBase
  rw [if_neg (by omega), h2 off hoff]

theorem extractBase_leaf {c : Codec K} {k log : Nat} (hs : c.size * 2 ^ k = leafBytes) {cw : List K}
    {mem : List Mem} (h : List.Forall₂ (Canon c) cw mem) (hl : cw.length = 2 ^ log) (d : K) {i : Nat}
    {leaf : Mem} (h1 : leaf.length = leafBytes)
    (h2 : ∀ off < 2 ^ k, (leaf.drop (off * c.size)).take c.size = mem.getD (i * 2 ^ k + off) []) (off : Nat)
    (hoff : off < 2 ^ k) (hi : i * 2 ^ k + off < 2 ^ log) :
    extractBase c leaf off = some (cw.getD (i * 2 ^ k + off) d) := by
  have ho : off * c.size + c.size ≤ leafBytes := by
    have : (off + 1) * c.size ≤ 2 ^ k * c.size := Nat.mul_le_mul_right _ hoff
    rw [add_mul, one_mul, mul_comm (2 ^ k), hs] at this; exact this
  unfold extractBase
  rw [if_neg (by omega), h2 off hoff]
  exact (getD_of_forall₂ h d _ (by omega)).2

theorem leafValuesOk_leaf [DecidableEq K] {c : Codec K} {k log : Nat} (hs : c.size * 2 ^ k = leafBytes) {cw : List K}
    {mem : List Mem} (h : List.Forall₂ (Canon c) cw mem) (hl : cw.length = 2 ^ log) {i : Nat} {leaf : Mem}
    (h1 : leaf.length = leafBytes)
    (h2 : ∀ off < 2 ^ k, (leaf.drop (off * c.size)).take c.size = mem.getD (i * 2 ^ k + off) [])
    (hi : i * 2 ^ k + 2 ^ k ≤ 2 ^ log) (vals : List K) (hv : vals.length = 2 ^ k)
    (hv' : ∀ off < 2 ^ k, vals[off]? = cw[i * 2 ^ k + off]?) :
    leafValuesOk c leaf vals = true := by
  unfold leafValuesOk
  simp only [Bool.and_eq_true, decide_eq_true_eq]
  refine ⟨⟨by omega, by rw [hv, (perLeaf_spec c k hs).1]⟩, ?_⟩
  rw [List.all_eq_true]
  rintro ⟨x, off⟩ hp
  rw [List.mem_zipIdx_iff_getElem?] at hp
  dsimp only at hp ⊢
  have hoff : off < 2 ^ k := by
    rw [← hv]
    exact (List.getElem?_eq_some_iff.mp hp).1
  have ho : off * c.size + c.size ≤ leafBytes := by
    have : (off + 1) * c.size ≤ 2 ^ k * c.size := Nat.mul_le_mul_right _ hoff
    rw [add_mul, one_mul, mul_comm (2 ^ k), hs] at this; exact this
  simp only [Bool.and_eq_true, decide_eq_true_eq]
  refine ⟨by omega, ?_⟩
  rw [h2 off hoff]
  have hc := getD_of_forall₂ h x (i * 2 ^ k + off) (by omega)
  rw [hc.2]
  rw [hv' off hoff] at hp
  rw [List.getD_eq_getElem?_getD, hp]; rfl

/-! ### Openings -/

variable {N : Type} [Inhabited N] [DecidableEq N]

/-- The tree over a memory image opens every leaf. -/
theorem treeOf_spec (h : Hash Mem N) (s k log : Nat) (hs : s * 2 ^ k = leafBytes) (hk : k + 1 ≤ log) (hk' : log ≤ 64) (mem : List Mem)
    (hm : ∀ b ∈ mem, b.length = s) (hl : mem.length = 2 ^ log) :
    ∃ t root, treeOf h s mem = some t ∧ t.root = some root ∧ ∀ i < 2 ^ (log - k), ∃ p, indexQuery t i = some p ∧
      p.verify h root = true ∧ p.index = i ∧ p.leaf.length = leafBytes ∧
      ∀ off < 2 ^ k, (p.leaf.drop (off * s)).take s = mem.getD (i * 2 ^ k + off) [] := by
  obtain ⟨leaves, l1, l2, l3⟩ := leavesOf_spec s k log hs (by omega) mem hm hl
  obtain ⟨t, t1, t2, t3⟩ := JST.Props.C24_root h (log - k) leaves l2
  refine ⟨t, _, by unfold treeOf; rw [l1, Option.bind_some]; exact t1, t3, fun i hi => ?_⟩
  obtain ⟨t', p, q1, q2, q3, q4, _, q6⟩ := JST.Props.C24_opening h (log - k) (by omega) (by omega) leaves l2 i (by omega)
  obtain rfl : t' = t := Option.some.inj (q1.symm.trans t1)
  obtain ⟨m1, m2⟩ := l3 i p.leaf q3
  exact ⟨p, q2, q6, q4, m1, m2⟩

end JST.Pcs
