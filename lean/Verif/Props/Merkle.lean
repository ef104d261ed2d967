import Verif.Crypto.MerkleProofs
import Mathlib.Data.Nat.Pairing
import Mathlib.Data.List.Basic

/-!
# C24, C25: Merkle openings

`H` is any pair of leaf and node hash functions. `treeRoot H k` (Verif/Crypto/MerkleProofs.lean) is the
specification of the root: the hash of the two roots of the two halves, recursively.
-/

namespace JST.Props

open JST.Merkle

variable {L N : Type} [Inhabited N]

/-- C24. Committing to `2 ^ k` leaves succeeds, and the root is the hash of the perfect binary tree
over the hashed leaves, in order. -/
theorem C24_root (H : Hash L N) (k : Nat) (leaves : List L) (hl : leaves.length = 2 ^ k) :
    ∃ t, newWithLeaves H leaves = some t ∧ t.leaves = leaves ∧
      t.root = some (treeRoot H k (leaves.map H.leaf)) := by
  obtain ⟨t, h1, h2, _, h3⟩ := newWithLeaves_heap H k leaves hl
  exact ⟨t, h1, h2, h3⟩

/-- C24. Any other number of leaves is refused (by an assertion failure). -/
theorem C24_not_a_power_panics (H : Hash L N) (leaves : List L)
    (hl : ∀ k, leaves.length ≠ 2 ^ k) : newWithLeaves H leaves = none := by
  unfold newWithLeaves newWithLeafNodes
  dsimp only
  rw [if_pos (by simpa using hl _)]
  rfl

/-- C24. For `2 ^ k` leaves, `1 ≤ k ≤ 64`, every index has an opening; it carries the leaf at that index,
`k` siblings, and verifies against the root. -/
theorem C24_opening [DecidableEq N] (H : Hash L N) (k : Nat) (hk : 1 ≤ k) (hk' : k ≤ 64) (leaves : List L)
    (hl : leaves.length = 2 ^ k) (index : Nat) (hi : index < leaves.length) :
    ∃ t p, newWithLeaves H leaves = some t ∧ indexQuery t index = some p ∧
      leaves[index]? = some p.leaf ∧ p.index = index ∧ p.pathNodes.length = k ∧
      p.verify H (treeRoot H k (leaves.map H.leaf)) = true := by
  obtain ⟨t, h1, h2, h3, h4⟩ := newWithLeaves_heap H k leaves hl
  obtain ⟨l, c1, c2, c3, _⟩ := climb_spec H h3 k index (le_refl _) (by omega)
  have hp := pow_pos' k
  have hne : 2 ^ k - 1 + index ≠ 0 := by
    have : 2 ^ 1 ≤ 2 ^ k := Nat.pow_le_pow_right (by norm_num) hk
    omega
  rw [climb, dif_neg hne] at c1
  simp only [Option.bind_eq_bind, Option.bind_eq_some_iff] at c1
  obtain ⟨s, hs, x, hx, rest, hr, hcons⟩ := c1
  simp only [Option.some.injEq] at hcons
  refine ⟨t, ⟨leaves[index], l.reverse, index⟩, h1, ?_, by simp [hi], rfl, by simpa using c2, ?_⟩
  · unfold indexQuery genProof toLastLevel
    rw [h2, hl, log2_pow, Nat.add_sub_cancel, show index + 2 ^ k - 1 = 2 ^ k - 1 + index by omega]
    have hpar : parent (2 ^ k - 1 + index) = some ((2 ^ k - 1 + index - 1) / 2) := by
      unfold parent; rw [if_pos (by omega)]
    simp only [Option.bind_eq_bind, Option.bind_some, List.getElem?_eq_getElem hi, hs, hx, hpar, hr,
      hcons]
  · have hroot : t.nodes.getD 0 default = treeRoot H k (leaves.map H.leaf) := by
      unfold Tree.root at h4
      rw [List.getD_eq_getElem?_getD, h4]; rfl
    have := c3 0 index (by omega) (by rw [pow_zero, Nat.div_one, Nat.mod_eq_of_lt (by omega)])
    unfold Path.verify Path.root
    rw [h3.leaf index (by omega), List.getD_eq_getElem _ _ (by simpa using hi),
      List.getElem_map] at this
    simp only [List.reverse_reverse, decide_eq_true_eq]
    rw [this, hroot]

/-- C24. A tree with a single leaf has a root but no opening: generating one panics. -/
theorem C24_single_leaf_panics (H : Hash L N) (x : L) :
    ∃ t, newWithLeaves H [x] = some t ∧ t.root = some (H.leaf x) ∧ indexQuery t 0 = none := by
  obtain ⟨t, h1, h2, _, h4⟩ := newWithLeaves_heap H 0 [x] rfl
  refine ⟨t, h1, h4, ?_⟩
  unfold indexQuery genProof toLastLevel
  rw [h2, show [x].length + 1 = 2 ^ 0 + 1 from rfl, log2_pow]
  simp [sibling]

theorem isPow2_pow (e : Nat) : isPow2 (2 ^ e) = true := by
  unfold isPow2
  have : 2 ^ e ≠ 0 := by positivity
  simp [Nat.log_pow]

/-- C24. For `2 ^ k` leaves and every aligned block of `2 ^ e` of them, `1 ≤ e ≤ k`, the range opening
carries exactly that block and verifies against the root. -/
theorem C24_range_opening [DecidableEq N] (H : Hash L N) (k e q : Nat) (he : 1 ≤ e) (hek : e ≤ k)
    (leaves : List L) (hl : leaves.length = 2 ^ k) (hq : q * 2 ^ e + 2 ^ e ≤ 2 ^ k) :
    ∃ t p, newWithLeaves H leaves = some t ∧
      rangeQuery t (q * 2 ^ e) (q * 2 ^ e + 2 ^ e - 1) = some p ∧
      p.leaves = (leaves.drop (q * 2 ^ e)).take (2 ^ e) ∧ p.left = q * 2 ^ e ∧
      p.verify H (treeRoot H k (leaves.map H.leaf)) = some true := by
  obtain ⟨t, h1, h2, h3, h4⟩ := newWithLeaves_heap H k leaves hl
  have hp := pow_pos' e
  have he2 : 2 ^ 1 ≤ 2 ^ e := Nat.pow_le_pow_right (by norm_num) he
  obtain ⟨d, rfl⟩ : ∃ d, k = d + e := ⟨k - e, by omega⟩
  have hqd : q < 2 ^ d := by
    rw [pow_add] at hq
    by_contra hc
    have := Nat.mul_le_mul_right (2 ^ e) (Nat.le_of_not_lt hc)
    omega
  obtain ⟨l, c1, c2, _, c4⟩ := climb_spec H h3 d q (by omega) hqd
  have hkp := pow_pos' (d + e)
  have hanc : ∀ fuel, e ≤ fuel → commonAncestor fuel (q * 2 ^ e + 2 ^ (d + e) - 1)
      (q * 2 ^ e + 2 ^ e - 1 + 2 ^ (d + e) - 1) = some (2 ^ d - 1 + q) := by
    intro fuel hf
    have := commonAncestor_spec e d q fuel hf
    rw [show q * 2 ^ e + 2 ^ (d + e) - 1 = 2 ^ (d + e) - 1 + q * 2 ^ e by omega,
      show q * 2 ^ e + 2 ^ e - 1 + 2 ^ (d + e) - 1 = 2 ^ (d + e) - 1 + (q * 2 ^ e + 2 ^ e - 1) by omega]
    exact this
  have hfuel : e ≤ max (q * 2 ^ e + 2 ^ (d + e) - 1) (q * 2 ^ e + 2 ^ e - 1 + 2 ^ (d + e) - 1) := by
    have h1 : e < 2 ^ e := Nat.lt_two_pow_self
    have h2 : 2 ^ e ≤ 2 ^ (d + e) := Nat.pow_le_pow_right (by norm_num) (by omega)
    omega
  have hlen : ((leaves.drop (q * 2 ^ e)).take (2 ^ e)).length = 2 ^ e := by
    rw [List.length_take, List.length_drop, hl]; omega
  refine ⟨t, ⟨(leaves.drop (q * 2 ^ e)).take (2 ^ e), l.reverse, q * 2 ^ e,
    q * 2 ^ e + 2 ^ e - 1⟩, h1, ?_, rfl, rfl, ?_⟩
  · unfold rangeQuery genRangeProof toLastLevel
    rw [h2, hl, log2_pow, Nat.add_sub_cancel]
    have hw : q * 2 ^ e + 2 ^ e - 1 - q * 2 ^ e + 1 = 2 ^ e := by omega
    rw [if_neg (by omega), hw, if_neg (by simp [isPow2_pow]), if_neg (by simp), if_neg (by omega)]
    simp only [Option.bind_eq_bind, hanc _ hfuel, Option.bind_some, c1]
    congr 3
    omega
  · obtain ⟨ts, s1, _, _, s4⟩ := newWithLeaves_heap H e _ hlen
    unfold RangePath.verify RangePath.root toLastLevel
    simp only [hlen, log2_pow, List.length_reverse, c2, List.reverse_reverse]
    rw [show e + 1 + d - 1 = d + e by omega]
    simp only [s1, s4, hanc _ hfuel, Option.bind_eq_bind, Option.bind_some]
    have hsub := heap_subtree H h3 (by simpa using hl) e d q rfl hqd
    rw [List.map_take, List.map_drop, ← hsub, c4]
    have hroot : t.nodes.getD 0 default = treeRoot H (d + e) (leaves.map H.leaf) := by
      unfold Tree.root at h4
      rw [List.getD_eq_getElem?_getD, h4]; rfl
    simp [← hroot]

/-- The hypotheses of `C24_opening` are met by a four-leaf tree. -/
example :
    let H : Hash Nat Nat := ⟨fun x => 10 + x, fun a b => 2 * a + 3 * b⟩
    let t : Tree Nat Nat := ⟨[420, 78, 88, 15, 16, 17, 18], [5, 6, 7, 8]⟩
    newWithLeaves H [5, 6, 7, 8] = some t ∧ indexQuery t 2 = some ⟨7, [78, 18], 2⟩ ∧
      Path.verify H ⟨7, [78, 18], 2⟩ 420 = true ∧ Path.verify H ⟨8, [78, 18], 2⟩ 420 = false ∧
      rangeQuery t 2 3 = some ⟨[7, 8], [78], 2, 3⟩ ∧
      RangePath.verify H ⟨[7, 8], [78], 2, 3⟩ 420 = some true := by
  decide +kernel

/-! ### Binding -/

/-- Two different inputs with one hash. -/
def Collision (H : Hash L N) : Prop :=
  (∃ x y, x ≠ y ∧ H.leaf x = H.leaf y) ∨
  (∃ a b c d, (a, b) ≠ (c, d) ∧ H.node a b = H.node c d)

/-- The pairs hashed while recomputing a root from `cur` along the siblings `ss`. -/
def hashedPairs (H : Hash L N) (index : Nat) : Nat → N → List N → List (N × N)
  | _, _, [] => []
  | i, cur, s :: ss =>
    let pr := if index.testBit (i % 64) then (s, cur) else (cur, s)
    pr :: hashedPairs H index (i + 1) (H.node pr.1 pr.2) ss

theorem testBit_iff (x i : Nat) : x.testBit i = true ↔ x / 2 ^ i % 2 ≠ 0 := by
  rw [Nat.testBit_eq_decide_div_mod_eq]
  simp only [decide_eq_true_eq]
  omega

theorem hashUp_cons (H : Hash L N) (index i : Nat) (cur s : N) (ss : List N) :
    hashUp H index i cur (s :: ss)
      = hashUp H index (i + 1) (if index.testBit (i % 64) then H.node s cur else H.node cur s) ss := by
  rw [hashUp]
  congr 1
  by_cases h : index.testBit (i % 64) = true
  · rw [if_pos h, if_pos ((testBit_iff _ _).mp h)]
  · rw [if_neg h, if_neg (fun h' => h ((testBit_iff _ _).mpr h'))]

theorem hashUp_binding (H : Hash L N) (index : Nat) : ∀ (ss tt : List N) (i : Nat) (a b : N),
    ss.length = tt.length → hashUp H index i a ss = hashUp H index i b tt →
    (a = b ∧ ss = tt) ∨ ∃ (j : Nat) (x y : N × N), (hashedPairs H index i a ss)[j]? = some x ∧
      (hashedPairs H index i b tt)[j]? = some y ∧ x ≠ y ∧ H.node x.1 x.2 = H.node y.1 y.2
  | [], [], i, a, b, _, h => Or.inl ⟨by simpa [hashUp] using h, rfl⟩
  | [], _ :: _, _, _, _, hl, _ => by simp at hl
  | _ :: _, [], _, _, _, hl, _ => by simp at hl
  | s :: ss, t :: tt, i, a, b, hl, h => by
    rw [hashUp_cons, hashUp_cons] at h
    rcases hashUp_binding H index ss tt (i + 1) _ _ (by simpa using hl) h with ⟨h1, h2⟩ | hc
    · by_cases hb : index.testBit (i % 64) = true
      · simp only [hb, if_true] at h1
        by_cases hne : (s, a) = (t, b)
        · left
          simp only [Prod.mk.injEq] at hne
          exact ⟨hne.2, by rw [hne.1, h2]⟩
        · right
          refine ⟨0, (s, a), (t, b), ?_, ?_, hne, h1⟩ <;> simp [hashedPairs, hb]
      · simp only [hb] at h1
        by_cases hne : (a, s) = (b, t)
        · left
          simp only [Prod.mk.injEq] at hne
          exact ⟨hne.1, by rw [hne.2, h2]⟩
        · right
          refine ⟨0, (a, s), (b, t), ?_, ?_, hne, h1⟩ <;> simp [hashedPairs, hb]
    · obtain ⟨j, x, y, e1, e2, e3, e4⟩ := hc
      right
      refine ⟨j + 1, x, y, ?_, ?_, e3, e4⟩
      · rw [← e1]; simp only [hashedPairs, List.getElem?_cons_succ]; split_ifs <;> rfl
      · rw [← e2]; simp only [hashedPairs, List.getElem?_cons_succ]; split_ifs <;> rfl

/-- C25. Two accepted openings of one root, at one index and with one path length, carry the same leaf
and the same siblings, or their leaves collide, or at some level the pairs they hash collide. -/
theorem C25_binding [DecidableEq N] (H : Hash L N) (root : N) (p q : Path L N)
    (hi : p.index = q.index) (hlen : p.pathNodes.length = q.pathNodes.length)
    (hp : p.verify H root = true) (hq : q.verify H root = true) :
    (p.leaf = q.leaf ∧ p.pathNodes = q.pathNodes) ∨
    (p.leaf ≠ q.leaf ∧ H.leaf p.leaf = H.leaf q.leaf) ∨
    ∃ (j : Nat) (x y : N × N),
      (hashedPairs H p.index 0 (H.leaf p.leaf) p.pathNodes.reverse)[j]? = some x ∧
      (hashedPairs H q.index 0 (H.leaf q.leaf) q.pathNodes.reverse)[j]? = some y ∧
      x ≠ y ∧ H.node x.1 x.2 = H.node y.1 y.2 := by
  unfold Path.verify Path.root at hp hq
  simp only [decide_eq_true_eq] at hp hq
  rw [← hi] at hq ⊢
  rcases hashUp_binding H p.index p.pathNodes.reverse q.pathNodes.reverse 0 (H.leaf p.leaf)
      (H.leaf q.leaf) (by simpa using hlen) (hp.trans hq.symm) with ⟨h1, h2⟩ | h
  · by_cases hl : p.leaf = q.leaf
    · exact Or.inl ⟨hl, List.reverse_inj.mp h2⟩
    · exact Or.inr (Or.inl ⟨hl, h1⟩)
  · exact Or.inr (Or.inr h)

/-- C25. With a collision-free hash, an opening of the commitment to `2 ^ k` leaves, at an index below
`2 ^ k` and with `k` siblings, can only carry the committed leaf. -/
theorem C25_opens_committed_leaf [DecidableEq N] (H : Hash L N) (hH : ¬ Collision H) (k : Nat)
    (hk : 1 ≤ k) (hk' : k ≤ 64) (leaves : List L) (hl : leaves.length = 2 ^ k) (p : Path L N)
    (hi : p.index < 2 ^ k) (hlen : p.pathNodes.length = k)
    (hp : p.verify H (treeRoot H k (leaves.map H.leaf)) = true) :
    leaves[p.index]? = some p.leaf := by
  obtain ⟨t, q, _, _, h3, h4, h5, h6⟩ := C24_opening H k hk hk' leaves hl p.index (by omega)
  rcases C25_binding H _ p q h4.symm (by omega) hp h6 with ⟨h, _⟩ | ⟨h, h'⟩ | ⟨j, x, y, _, _, h, h'⟩
  · rw [h3, h]
  · exact absurd (Or.inl ⟨_, _, h, h'⟩) hH
  · exact absurd (Or.inr ⟨x.1, x.2, y.1, y.2, h, h'⟩) hH

theorem treeRoot_binding (H : Hash L N) (hH : ¬ Collision H) : ∀ (e : Nat) (xs ys : List N),
    xs.length = 2 ^ e → ys.length = 2 ^ e → treeRoot H e xs = treeRoot H e ys → xs = ys
  | 0, xs, ys, hx, hy, h => by
    obtain ⟨x, rfl⟩ := List.length_eq_one_iff.mp (by simpa using hx)
    obtain ⟨y, rfl⟩ := List.length_eq_one_iff.mp (by simpa using hy)
    simpa [treeRoot] using h
  | e + 1, xs, ys, hx, hy, h => by
    have e1 : 2 ^ (e + 1) = 2 ^ e + 2 ^ e := by rw [pow_succ]; ring
    simp only [treeRoot] at h
    by_cases hne : (treeRoot H e (xs.take (2 ^ e)), treeRoot H e (xs.drop (2 ^ e)))
        = (treeRoot H e (ys.take (2 ^ e)), treeRoot H e (ys.drop (2 ^ e)))
    · simp only [Prod.mk.injEq] at hne
      have l1 := treeRoot_binding H hH e _ _ (by rw [List.length_take]; omega)
        (by rw [List.length_take]; omega) hne.1
      have l2 := treeRoot_binding H hH e _ _ (by rw [List.length_drop]; omega)
        (by rw [List.length_drop]; omega) hne.2
      rw [← List.take_append_drop (2 ^ e) xs, l1, l2, List.take_append_drop]
    · exact absurd (Or.inr ⟨_, _, _, _, hne, h⟩) hH

theorem rangeUp_binding (H : Hash L N) (hH : ¬ Collision H) (r : N) :
    ∀ (ss tt : List N) (i : Nat) (a b : N), ss.length = tt.length →
      rangeUp H i a ss = some r → rangeUp H i b tt = some r → a = b ∧ ss = tt
  | [], [], i, a, b, _, h, h' => by
    simp only [rangeUp, Option.some.injEq] at h h'
    exact ⟨h.trans h'.symm, rfl⟩
  | [], _ :: _, _, _, _, hl, _, _ => by simp at hl
  | _ :: _, [], _, _, _, hl, _, _ => by simp at hl
  | s :: ss, t :: tt, i, a, b, hl, h, h' => by
    simp only [rangeUp, Option.bind_eq_bind, Option.bind_eq_some_iff] at h h'
    obtain ⟨p, hp, h⟩ := h
    obtain ⟨p', hp', h'⟩ := h'
    rw [hp] at hp'
    obtain rfl := Option.some.inj hp'
    obtain ⟨h1, h2⟩ := rangeUp_binding H hH r ss tt p _ _ (by simpa using hl) h h'
    have inj : ∀ {a b c d : N}, H.node a b = H.node c d → a = c ∧ b = d := by
      intro a b c d hn
      by_contra hc
      exact hH (Or.inr ⟨a, b, c, d, by simpa using hc, hn⟩)
    split_ifs at h1
    · obtain ⟨e1, e2⟩ := inj h1
      exact ⟨e1, by rw [e2, h2]⟩
    · obtain ⟨e1, e2⟩ := inj h1
      exact ⟨e2, by rw [e1, h2]⟩

/-- C25. With a collision-free hash, two accepted range openings of one root, over one range, with
equally many leaves and siblings, carry the same leaves. -/
theorem C25_range_binding [DecidableEq N] (H : Hash L N) (hH : ¬ Collision H) (root : N)
    (p q : RangePath L N) (hl : p.left = q.left) (hr : p.right = q.right)
    (hn : p.leaves.length = q.leaves.length) (hlen : p.pathNodes.length = q.pathNodes.length)
    (hp : p.verify H root = some true) (hq : q.verify H root = some true) :
    p.leaves = q.leaves ∧ p.pathNodes = q.pathNodes := by
  unfold RangePath.verify RangePath.root at hp hq
  simp only [Option.bind_eq_bind, Option.bind_eq_some_iff, Option.some.injEq, decide_eq_true_eq]
    at hp hq
  obtain ⟨r, ⟨ts, s1, rs, s2, c, s3, s4⟩, rfl⟩ := hp
  obtain ⟨r', ⟨ts', t1, rs', t2, c', t3, t4⟩, rfl⟩ := hq
  rw [← hl, ← hr, ← hn, ← hlen, s3] at t3
  obtain rfl := Option.some.inj t3
  obtain ⟨h1, h2⟩ := rangeUp_binding H hH _ _ _ _ _ _ (by simpa using hlen) s4 t4
  have hpow : ∃ e, p.leaves.length = 2 ^ e := by
    by_contra hc
    rw [C24_not_a_power_panics H p.leaves (fun k hk => hc ⟨k, hk⟩)] at s1
    cases s1
  obtain ⟨e, he⟩ := hpow
  obtain ⟨u, u1, _, _, u4⟩ := newWithLeaves_heap H e p.leaves he
  obtain ⟨v, v1, _, _, v4⟩ := newWithLeaves_heap H e q.leaves (by omega)
  rw [s1] at u1; obtain rfl := Option.some.inj u1
  rw [t1] at v1; obtain rfl := Option.some.inj v1
  rw [s2] at u4; rw [t2] at v4
  have h3 := treeRoot_binding H hH e _ _ (by simpa using he) (by simp; omega)
    ((Option.some.inj u4).symm.trans (h1.trans (Option.some.inj v4)))
  refine ⟨?_, List.reverse_inj.mp h2⟩
  exact (List.map_inj_right (fun x y hxy => by
    by_contra hc; exact hH (Or.inl ⟨x, y, hc, hxy⟩))).mp h3

/-- Collision-free hashes exist, so the theorems above are about something. -/
example : ¬ Collision (⟨fun n => 2 * n, fun a b => 2 * Nat.pair a b + 1⟩ : Hash Nat Nat) := by
  rintro (⟨x, y, h, h'⟩ | ⟨a, b, c, d, h, h'⟩)
  · simp only at h'; omega
  · simp only at h'
    have : Nat.pair a b = Nat.pair c d := by omega
    exact h (Nat.pair_eq_pair.mp this |> fun ⟨e1, e2⟩ => by rw [e1, e2])

/-! ### What verification does not bind -/

theorem hashUp_congr (H : Hash L N) (i1 i2 : Nat) : ∀ (ss : List N) (i : Nat) (a : N),
    (∀ j, i ≤ j → j < i + ss.length → i1 / 2 ^ (j % 64) % 2 = i2 / 2 ^ (j % 64) % 2) →
    hashUp H i1 i a ss = hashUp H i2 i a ss
  | [], _, _, _ => rfl
  | s :: ss, i, a, h => by
    rw [hashUp, hashUp, h i (le_refl _) (by simp)]
    exact hashUp_congr H i1 i2 ss (i + 1) _ (fun j h1 h2 => h j (by omega) (by simp; omega))

/-- C25. The position an opening claims is bound only modulo `2 ^ (number of siblings)`: the opening
verifies equally at every index that differs by a multiple of it. A caller must check that the index is
the one it asked for and that the path has the right length. -/
theorem C25_index_only_mod_length [DecidableEq N] (H : Hash L N) (root : N) (p : Path L N) (t : Nat) :
    Path.verify H { p with index := p.index + 2 ^ p.pathNodes.length * t } root
      = p.verify H root := by
  unfold Path.verify Path.root
  dsimp only
  rw [hashUp_congr H (p.index + 2 ^ p.pathNodes.length * t) p.index]
  intro j _ hj
  rw [List.length_reverse] at hj
  obtain ⟨m, hm⟩ : ∃ m, m = j % 64 := ⟨_, rfl⟩
  obtain ⟨d, hd⟩ : ∃ d, p.pathNodes.length = m + 1 + d := ⟨p.pathNodes.length - (m + 1), by omega⟩
  rw [← hm, hd, pow_add, pow_add, pow_one, show 2 ^ m * 2 * 2 ^ d * t = 2 ^ m * (2 * (2 ^ d * t)) by ring,
    Nat.add_mul_div_left _ _ (pow_pos' m), Nat.add_mul_mod_self_left]

/-- The hashes as the code computes them from a byte hash `K` (Keccak-256): a leaf is hashed as it is
(leaf.rs:42-50), two nodes are hashed one after the other (node.rs:40-49). -/
def byteHash (K : List UInt8 → List UInt8) : Hash (List UInt8) (List UInt8) :=
  ⟨K, fun a b => K (a ++ b)⟩

theorem treeRoot_leafpairs (K : List UInt8 → List UInt8) : ∀ (k : Nat) (xs : List (List UInt8)),
    xs.length = 2 ^ k →
    ∀ (leaves : List (List UInt8)), leaves.length = 2 * xs.length →
    (∀ j, j < xs.length → xs.getD j [] = K (leaves.getD (2 * j) []) ++ K (leaves.getD (2 * j + 1) [])) →
    treeRoot (byteHash K) (k + 1) (leaves.map K) = treeRoot (byteHash K) k (xs.map K)
  | 0, xs, hx, leaves, hl, h => by
    obtain ⟨x, rfl⟩ := List.length_eq_one_iff.mp (by simpa using hx)
    match leaves, hl with
    | [a, b], _ =>
      have := h 0 (by simp)
      simp only [List.getD_cons_zero, Nat.mul_zero, Nat.zero_add, List.getD_cons_succ] at this
      subst this
      rfl
  | k + 1, xs, hx, leaves, hl, h => by
    have e1 : 2 ^ (k + 1) = 2 ^ k + 2 ^ k := by rw [pow_succ]; ring
    rw [treeRoot]
    have l1 := treeRoot_leafpairs K k (xs.take (2 ^ k)) (by rw [List.length_take]; omega)
      (leaves.take (2 ^ (k + 1))) (by rw [List.length_take, List.length_take]; omega) (by
        intro j hj
        rw [List.length_take] at hj
        rw [List.getD_eq_getElem _ _ (by rw [List.length_take]; omega),
          List.getD_eq_getElem _ _ (by rw [List.length_take]; omega),
          List.getD_eq_getElem _ _ (by rw [List.length_take]; omega),
          List.getElem_take, List.getElem_take, List.getElem_take]
        have := h j (by omega)
        rwa [List.getD_eq_getElem _ _ (by omega), List.getD_eq_getElem _ _ (by omega),
          List.getD_eq_getElem _ _ (by omega)] at this)
    have l2 := treeRoot_leafpairs K k (xs.drop (2 ^ k)) (by rw [List.length_drop]; omega)
      (leaves.drop (2 ^ (k + 1))) (by rw [List.length_drop, List.length_drop]; omega) (by
        intro j hj
        rw [List.length_drop] at hj
        have := h (2 ^ k + j) (by omega)
        simp only [List.getD_eq_getElem?_getD, List.getElem?_drop] at this ⊢
        rw [this]
        rw [show 2 * (2 ^ k + j) = 2 ^ (k + 1) + 2 * j by omega,
          show 2 ^ (k + 1) + 2 * j + 1 = 2 ^ (k + 1) + (2 * j + 1) by omega])
    rw [← List.map_take, ← List.map_drop, l1, l2, treeRoot, ← List.map_take, ← List.map_drop]

/-- C25. Leaves and inner nodes are not told apart: with the code's byte hash, the root of any commitment to
`2 ^ (k + 1)` leaves is also the root of a commitment to `2 ^ k` leaves, whose `j`-th leaf is the pair of
hashes of leaves `2 j` and `2 j + 1`; so that pair can be opened as if it were a leaf, by a path that is one
shorter (and it has the 64 bytes of a leaf). Only a check of the path length by the caller rules this out. -/
theorem C25_no_domain_separation (K : List UInt8 → List UInt8) (k : Nat) (hk : 1 ≤ k) (hk' : k ≤ 64)
    (hK : ∀ x, (K x).length = 32)
    (leaves : List (List UInt8)) (hl : leaves.length = 2 ^ (k + 1)) (j : Nat) (hj : j < 2 ^ k) :
    ∃ p : Path (List UInt8) (List UInt8), p.leaf.length = 64 ∧
      p.leaf = K (leaves.getD (2 * j) []) ++ K (leaves.getD (2 * j + 1) []) ∧ p.index = j ∧
      p.pathNodes.length = k ∧
      p.verify (byteHash K) (treeRoot (byteHash K) (k + 1) (leaves.map K)) = true := by
  let xs := (List.range (2 ^ k)).map
    fun j => K (leaves.getD (2 * j) []) ++ K (leaves.getD (2 * j + 1) [])
  have hx : xs.length = 2 ^ k := by simp [xs]
  have e1 : 2 ^ (k + 1) = 2 * 2 ^ k := by rw [pow_succ]; ring
  obtain ⟨t, p, _, _, h3, h4, h5, h6⟩ := C24_opening (byteHash K) k hk hk' xs hx j (by omega)
  simp only [xs, List.getElem?_map, List.getElem?_range hj, Option.map_some,
    Option.some.injEq] at h3
  refine ⟨p, ?_, h3.symm, h4, h5, ?_⟩
  · rw [← h3, List.length_append, hK, hK]
  · rw [treeRoot_leafpairs K k xs hx leaves (by omega)]
    · exact h6
    · intro i hi
      rw [List.getD_eq_getElem _ _ hi]
      simp [xs]

end JST.Props
