import Verif.Tensor.MatMulLayer
import Verif.Props.Almost
import Verif.Props.Blocks
import Verif.Props.Rescale
import Verif.Props.Conv

/-!
# C63: the MatMul and Gemm layers
-/

set_option linter.unusedSectionVars false

namespace JST.Props

open JST.Shape JST.Layers JST.Spec

/-! ## Hints are consumed independently of the challenges -/

section
variable {F : Type} [CommRing F] {α β : Type}

def KeepsHints (g : G F α) : Prop := ∀ h o, g h = .ok o → o.rest = h

theorem keeps_pure (a : α) : KeepsHints (pure a : G F α) := fun h o e => by
  have e' : (Except.ok ⟨a, Cons.nil, h⟩ : Except Err (Out F α)) = .ok o := e
  cases Except.ok.inj e'
  rfl

theorem KeepsHints.bind {g : G F α} {f : α → G F β} (hg : KeepsHints g) (hf : ∀ a, KeepsHints (f a)) :
    KeepsHints (g >>= f) := fun h o e => by
  obtain ⟨o1, o2, e1, e2, rfl⟩ := JST.bind_eq_ok e
  have := hf _ _ _ e2
  rw [hg _ _ e1] at this
  exact this

theorem keeps_assertEq (x y : F) : KeepsHints (assertEq x y) := fun h o e => by
  obtain ⟨q1, q2⟩ : ∃ c, (Except.ok ⟨(), c, h⟩ : Except Err (Out F Unit)) = .ok o := ⟨_, e⟩
  cases Except.ok.inj q2
  rfl

theorem keeps_assertRows (u w : Nat → F) : ∀ k, KeepsHints (assertRows u w k)
  | 0 => keeps_pure _
  | k + 1 => (keeps_assertRows u w k).bind fun _ => keeps_assertEq _ _

theorem keeps_freivaldsLoop (a b c : Arr F) (ell m n : Nat) (chal : Nat → Nat → F) :
    ∀ r, KeepsHints (freivaldsLoop a b c ell m n chal r)
  | 0 => keeps_pure _
  | r + 1 => (keeps_freivaldsLoop a b c ell m n chal r).bind fun _ => keeps_assertRows _ _ _

theorem keeps_freivaldsVerify (a b c : Arr F) (chal : Nat → Nat → F) (reps : Nat) :
    KeepsHints (freivaldsVerify a b c chal reps) := fun h o e => by
  obtain ⟨ell, m, n, -, -, -, -, e'⟩ := freivaldsVerify_ok a b c chal reps h o e
  exact keeps_freivaldsLoop _ _ _ _ _ _ _ _ h o e'

/-- The hints left after a product depend on the hints before it, not on the challenges. -/
theorem matmul2dCore_rest (toNat : F → Nat) (a b : Arr F) (reps : Nat) :
    ∃ R : Hints F → Hints F, ∀ chal h o, matmul2dCore toNat a b chal reps h = .ok o → o.rest = R h := by
  unfold matmul2dCore
  rcases ha : a.shape with _ | ⟨ell, _ | ⟨m, ta⟩⟩
  · exact ⟨id, fun _ _ _ e => by cases e⟩
  · exact ⟨id, fun _ _ _ e => by cases e⟩
  rcases hb : b.shape with _ | ⟨b0, _ | ⟨n, tb⟩⟩
  · exact ⟨id, fun _ _ _ e => by cases e⟩
  · exact ⟨id, fun _ _ _ e => by cases e⟩
  dsimp only
  rcases matmulCostRule ell m n reps with _ | _ | _
  · exact ⟨id, fun _ _ _ e => by cases e⟩
  · refine ⟨id, fun chal h o e => ?_⟩
    have e' : matrixMultiplication a b h = .ok o := e
    obtain ⟨ell', m', n', q1, q2⟩ := C12_matrix_multiplication_rejects a b h o e'
    obtain ⟨o', r1, -, -, r2⟩ := C12_matrix_multiplication a b ell' m' n' q1 q2 h
    rw [r1] at e'
    cases Except.ok.inj e'
    exact r2
  · refine ⟨fun h => match unconstrainedMatrixMultiplication toNat a b h with
      | .ok o => o.rest
      | .error _ => h, fun chal h o e => ?_⟩
    obtain ⟨o1, o2, e1, e2, rfl⟩ := JST.bind_eq_ok e
    obtain ⟨o3, o4, e3, e4, rfl⟩ := JST.bind_eq_ok e2
    have e5 := keeps_pure _ _ _ e4
    have e6 := keeps_freivaldsVerify _ _ _ _ _ _ _ e3
    dsimp only
    rw [e1]
    dsimp only
    rw [e5, e6]

end

/-! ## Tensors and lists -/

theorem chunkAt_getElem? {α : Type} {n i : Nat} (hi : i < n) (l : List α) (k : Nat) :
    (chunkAt n l k)[i]? = l[k * n + i]? := by
  unfold chunkAt
  rw [List.getElem?_take_of_lt hi, List.getElem?_drop]

/-- A well-formed array is determined by its entries. -/
theorem data_of_elem {β : Type} {y : Arr β} {s : List Nat} {f : List Nat → β} (hs : y.shape = s) (hw : y.WF)
    (h : ∀ c, InRange s c → elem y c = some (f c)) : y.data = (coordsOf s).map f := by
  refine List.ext_getElem? fun r => ?_
  rw [← unravel_range, List.map_map, List.getElem?_map]
  by_cases hr : r < s.prod
  · rw [List.getElem?_range hr]
    have := h _ (unravel_inRange hr)
    rw [elem, hs, rowMajor_unravel hr] at this
    exact this
  · rw [List.getElem?_eq_none (by rw [hw, hs]; omega), List.getElem?_eq_none (by simpa using hr)]
    rfl

theorem elem_of_coords {β : Type} {s : List Nat} (g : List Nat → β) {c : List Nat} (hc : InRange s c) :
    elem ⟨s, (coordsOf s).map g⟩ c = some (g c) := by
  have hlt := rowMajor_lt hc
  rw [elem, ← unravel_range, List.map_map, List.getElem?_map, List.getElem?_range hlt]
  simp only [Option.map_some, Function.comp_apply]
  rw [unravel_rowMajor hc]

theorem coordsOf_length (s : List Nat) : (coordsOf s).length = s.prod := by
  rw [← unravel_range, List.length_map, List.length_range]

theorem inRange_split {s t c : List Nat} (h : InRange (s ++ t) c) :
    ∃ c1 c2, c = c1 ++ c2 ∧ InRange s c1 ∧ InRange t c2 :=
  ⟨c.take s.length, c.drop s.length, (List.take_append_drop _ _).symm,
    List.forall₂_take_append _ _ _ h, List.forall₂_drop_append _ _ _ h⟩

theorem inRange_pair {M N : Nat} {c : List Nat} (h : InRange [M, N] c) : ∃ i j, c = [i, j] ∧ i < M ∧ j < N := by
  cases h with
  | cons h1 h2 =>
    cases h2 with
    | cons h3 h4 =>
      cases h4
      exact ⟨_, _, rfl, h1, h3⟩

theorem rowMajor_pair (M N i j : Nat) : rowMajor [M, N] [i, j] = i * N + j := by
  simp [rowMajor]

variable {p : Nat} [Fact p.Prime] {T : Tables (ZMod p)}

/-- The post-processing of a layer, entry by entry. -/
theorem sound_post {rc : RangeCtx} (hT : IsRangeTable T rc) (hc : 0 < rc.chunk)
    {κ n : Nat} (hn : 1 ≤ n) (hd : rc.chunk ∣ κ) (hds : rc.chunk ∣ n) (hp : 2 ^ κ * 2 ^ (n + 1) ≤ p)
    (isRescale relu : Bool) {s : List Nat} {f : List Nat → Int} {y : Arr (ZMod p)} (hs : y.shape = s) (hw : y.WF)
    (hy : ∀ c, InRange s c → elem y c = some ((f c : Int) : ZMod p))
    (hf : ∀ c, InRange s c → postRange isRescale κ n relu (f c)) :
    Sound T (do
      let ys ← maybeRescale rc y.data isRescale κ n relu
      pure ⟨y.shape, ys⟩) (fun z => z.shape = s ∧ z.WF ∧ ∀ c, InRange s c →
        elem z c = some ((postSpec isRescale κ relu (f c) : Int) : ZMod p)) := by
  have e : y.data = ((coordsOf s).map f).map fun x : Int => (x : ZMod p) := by
    rw [data_of_elem hs hw hy, List.map_map]
    rfl
  rw [e]
  refine Sound.bind (C05_layer_post_sound_partial hT hc hn hd hds hp isRescale relu _ ?_) ?_
  · intro v hv
    obtain ⟨c, h1, rfl⟩ := List.mem_map.1 hv
    exact hf c (mem_coordsOf.1 h1)
  · intro ys hys
    refine Sound.pure ⟨hs, ?_, fun c hc => ?_⟩
    · rw [hys]
      simp [Arr.WF, hs, coordsOf_length]
    · rw [hys, hs, List.map_map]
      exact elem_of_coords _ hc

theorem complete_post {rc : RangeCtx} (hT : IsRangeTable T rc)
    {κ n : Nat} (hn : 1 ≤ n) (hn64 : n ≤ 64) (hκ : κ < 32) (huk : RangeUsable p rc κ)
    (hun : RangeUsable p rc n) (hp : 2 ^ κ * 2 ^ n ≤ p)
    (isRescale relu : Bool) {s : List Nat} {f : List Nat → Int} {y : Arr (ZMod p)} (hs : y.shape = s) (hw : y.WF)
    (hy : ∀ c, InRange s c → elem y c = some ((f c : Int) : ZMod p))
    (hf : ∀ c, InRange s c → postRange isRescale κ n relu (f c)) :
    Complete T (do
      let ys ← maybeRescale rc y.data isRescale κ n relu
      pure ⟨y.shape, ys⟩) (fun z => z.shape = s ∧ z.WF ∧ ∀ c, InRange s c →
        elem z c = some ((postSpec isRescale κ relu (f c) : Int) : ZMod p)) := by
  have e : y.data = ((coordsOf s).map f).map fun x : Int => (x : ZMod p) := by
    rw [data_of_elem hs hw hy, List.map_map]
    rfl
  rw [e]
  refine Complete.bind (C05_layer_post_complete hT hn hn64 hκ huk hun hp isRescale relu _ ?_) ?_
  · intro v hv
    obtain ⟨c, h1, rfl⟩ := List.mem_map.1 hv
    exact hf c (mem_coordsOf.1 h1)
  · intro ys hys
    refine Complete.pure ⟨hs, ?_, fun c hc => ?_⟩
    · rw [hys]
      simp [Arr.WF, hs, coordsOf_length]
    · rw [hys, hs, List.map_map]
      exact elem_of_coords _ hc

/-! ## MatMul -/

/-- A matrix of a batched integer tensor, in the field. -/
theorem mat_slice (a : Arr Int) {ba c : List Nat} {M K i k : Nat} (hs : a.shape = ba ++ [M, K])
    (hc : c.length = ba.length) (hi : i < M) (hk : k < K) :
    (chunkAt (M * K) (castArr p a).data (rowMajor ba c)).getD (i * K + k) 0 =
      ((entry a (c ++ [i, k]) : Int) : ZMod p) := by
  have hlt : i * K + k < M * K := by
    have : (i + 1) * K ≤ M * K := Nat.mul_le_mul_right _ hi
    rw [Nat.add_mul, Nat.one_mul] at this
    omega
  rw [List.getD_eq_getElem?_getD, chunkAt_getElem? hlt]
  unfold entry
  rw [← castArr_elem (p := p), elem]
  have e : (castArr p a).shape = ba ++ [M, K] := hs
  rw [e, rowMajor_append _ _ _ _ hc, rowMajor_pair]
  simp

/-- Reading a product entry. -/
theorem product_getElem? {K' : Type} [CommRing K'] {a b c : Arr K'} {M K N i j : Nat} (h : IsProduct a b c M K N)
    (hi : i < M) (hj : j < N) :
    c.data[i * N + j]? = some (∑ k ∈ Finset.range K, a.data.getD (i * K + k) 0 * b.data.getD (k * N + j) 0) := by
  have hlt : i * N + j < c.data.length := by
    have : (i + 1) * N ≤ M * N := Nat.mul_le_mul_right _ hi
    rw [Nat.add_mul, Nat.one_mul] at this
    rw [h.len]
    omega
  have h1 := congrFun (congrFun h.eq ⟨i, hi⟩) ⟨j, hj⟩
  simp only [Arr.mat, Matrix.of_apply, Matrix.mul_apply] at h1
  rw [List.getElem?_eq_getElem hlt, ← List.getD_eq_getElem _ 0 hlt, h1, ← Finset.sum_range
    (fun k => a.data.getD (i * K + k) 0 * b.data.getD (k * N + j) 0)]

/-- The operands of slice `k`. -/
def sliceA (p : Nat) (a : Arr Int) (ba : List Nat) (M K k : Nat) : Arr (ZMod p) :=
  sliceAt (castArr p a) M K (if max ba.prod 1 = 1 then 0 else k)
def sliceB (p : Nat) (b : Arr Int) (bb : List Nat) (K N k : Nat) : Arr (ZMod p) :=
  if bb ≠ [] then sliceAt (castArr p b) K N k else ⟨[K, N], (castArr p b).data⟩

theorem sliceA_entry (a : Arr Int) {ba batch c : List Nat} {M K i k : Nat} (hs : a.shape = ba ++ [M, K])
    (hb : ba = [] ∨ ba = batch) (hc : InRange batch c) (hi : i < M) (hk : k < K) :
    (sliceA p a ba M K (rowMajor batch c)).data.getD (i * K + k) 0 =
      ((entry a ((if ba = [] then [] else c) ++ [i, k]) : Int) : ZMod p) := by
  unfold sliceA sliceAt
  by_cases h0 : ba = []
  · subst h0
    have := mat_slice (p := p) (ba := []) (c := []) a hs rfl hi hk
    simpa [rowMajor, chunkAt] using this
  · have hb' := hb.resolve_left h0
    subst hb'
    rw [if_neg h0]
    have hlt := rowMajor_lt hc
    have hidx : (if max ba.prod 1 = 1 then 0 else rowMajor ba c) = rowMajor ba c := by
      split_ifs with h1
      · have : ba.prod ≤ 1 := by rw [← h1]; exact le_max_left _ _
        omega
      · rfl
    rw [hidx]
    exact mat_slice (p := p) a hs hc.length_eq hi hk

theorem sliceB_entry (b : Arr Int) {bb batch c : List Nat} {K N k j : Nat} (hs : b.shape = bb ++ [K, N])
    (hb : bb = [] ∨ bb = batch) (hc : InRange batch c) (hk : k < K) (hj : j < N) :
    (sliceB p b bb K N (rowMajor batch c)).data.getD (k * N + j) 0 =
      ((entry b ((if bb = [] then [] else c) ++ [k, j]) : Int) : ZMod p) := by
  unfold sliceB sliceAt
  by_cases h0 : bb = []
  · subst h0
    have := mat_slice (p := p) (ba := []) (c := []) b hs rfl hk hj
    rw [List.getD_eq_getElem?_getD, chunkAt_getElem? (by
      have : (k + 1) * N ≤ K * N := Nat.mul_le_mul_right _ hk
      rw [Nat.add_mul, Nat.one_mul] at this
      omega)] at this
    rw [List.getD_eq_getElem?_getD]
    simpa [rowMajor] using this
  · have hb' := hb.resolve_left h0
    subst hb'
    rw [if_neg h0, if_pos h0]
    exact mat_slice (p := p) b hs hc.length_eq hk hj

/-- The number of matrix products. -/
def slices (ba bb : List Nat) : Nat := max (max ba.prod 1) (max bb.prod 1)

/-- From the products of the slices to the product of the tensors. -/
theorem isMatMul_of_slices {a b : Arr Int} {ba bb : List Nat} {M K N : Nat} (ha : a.shape = ba ++ [M, K])
    (hb : b.shape = bb ++ [K, N]) (hc : ba = [] ∨ bb = [] ∨ ba = bb) {ys : List (Arr (ZMod p))}
    (h : List.Forall₂ (fun k y => IsProduct (sliceA p a ba M K k) (sliceB p b bb K N k) y M K N)
      (List.range (slices ba bb)) ys)
    (hlen : (ys.flatMap (·.data)).length = ((if bb ≠ [] then bb else ba) ++ [M, N]).prod) :
    IsMatMul a b ba bb M K N (fun z : Int => (z : ZMod p))
      ⟨(if bb ≠ [] then bb else ba) ++ [M, N], ys.flatMap (·.data)⟩ := by
  have hbatch : (if bb ≠ [] then bb else ba) = (if bb = [] then ba else bb) := by split_ifs <;> simp_all
  rw [hbatch] at hlen ⊢
  refine ⟨rfl, hlen, fun c i j hcr hi hj => ?_⟩
  set batch := if bb = [] then ba else bb with hbt
  have hA : ba = [] ∨ ba = batch := by
    rw [hbt]; rcases hc with h | h | h
    · exact .inl h
    · right; rw [if_pos h]
    · by_cases h2 : bb = []
      · right; rw [if_pos h2]
      · right; rw [if_neg h2]; exact h
  have hB : bb = [] ∨ bb = batch := by
    rw [hbt]
    by_cases h2 : bb = []
    · exact .inl h2
    · right; rw [if_neg h2]
  have hlt : rowMajor batch c < batch.prod := rowMajor_lt hcr
  have hk : rowMajor batch c < slices ba bb := by
    refine lt_of_lt_of_le hlt ?_
    unfold slices
    rw [hbt]
    split_ifs
    · exact le_trans (le_max_left _ _) (le_max_left _ _)
    · exact le_trans (le_max_left _ _) (le_max_right _ _)
  have hl : ys.length = slices ba bb := by rw [← h.length_eq, List.length_range]
  have hk' : rowMajor batch c < ys.length := by rw [hl]; exact hk
  have hP := (List.forall₂_iff_get.1 h).2 (rowMajor batch c) (by simpa using hk) hk'
  simp only [List.get_eq_getElem, List.getElem_range] at hP
  have hij : i * N + j < M * N := by
    have : (i + 1) * N ≤ M * N := Nat.mul_le_mul_right _ hi
    rw [Nat.add_mul, Nat.one_mul] at this
    omega
  have hdl : ∀ l ∈ ys.map (·.data), l.length = M * N := by
    intro l hl'
    obtain ⟨y, hy, rfl⟩ := List.mem_map.1 hl'
    obtain ⟨t, ht, rfl⟩ := List.mem_iff_getElem.1 hy
    have := (List.forall₂_iff_get.1 h).2 t (by simpa [← hl] using ht) ht
    exact this.len
  have hch := chunkAt_flatten hdl (k := rowMajor batch c) (by simpa using hk')
  rw [elem, rowMajor_append _ _ _ _ hcr.length_eq, rowMajor_pair]
  have e1 : ([M, N] : List Nat).prod = M * N := by simp
  rw [e1, List.flatMap_def, ← chunkAt_getElem? hij, hch, List.getElem_map, product_getElem? hP hi hj]
  congr 1
  dsimp only
  rw [matmulAt, Int.cast_sum]
  refine Finset.sum_congr rfl fun k hk => ?_
  have hk'' := Finset.mem_range.1 hk
  rw [sliceA_entry a ha hA hcr hi hk'', sliceB_entry b hb hB hcr hk'' hj, Int.cast_mul]

/-- A single product. -/
theorem isMatMul_single {a b : Arr Int} {M K N : Nat} (ha : a.shape = [M, K]) (hb : b.shape = [K, N]) (hwa : a.WF)
    {y : Arr (ZMod p)} (hP : IsProduct (castArr p a) (castArr p b) y M K N) :
    IsMatMul a b [] [] M K N (fun z : Int => (z : ZMod p)) y := by
  have ea : sliceA p a [] M K 0 = castArr p a := by
    unfold sliceA sliceAt castArr
    rw [ha]
    simp only [Arr.mk.injEq, true_and]
    have : a.data.length = M * K := by rw [hwa, ha]; simp
    simp [← this]
  have eb : sliceB p b [] K N 0 = castArr p b := by
    unfold sliceB castArr
    rw [hb]
    simp
  have key : IsMatMul a b [] [] M K N (fun z : Int => (z : ZMod p))
      ⟨(if ([] : List Nat) ≠ [] then [] else []) ++ [M, N], [y].flatMap (·.data)⟩ := by
    refine isMatMul_of_slices (p := p) (ba := []) (bb := []) ha hb (.inl rfl) (ys := [y]) (.cons ?_ .nil) ?_
    · rw [ea, eb]
      exact hP
    · simp [hP.len]
  obtain ⟨s, d⟩ := y
  have hs : s = [M, N] := hP.shape
  subst hs
  simpa using key

/-- The challenges of each product. -/
def sliceChallenges {B reps N : Nat} (xs : Fin B → Fin reps → Fin N → ZMod p) (k r j : Nat) : ZMod p :=
  if h : k < B then challenges (xs ⟨k, h⟩) r j else 0

theorem sliceChallenges_of_lt {B reps N : Nat} (xs : Fin B → Fin reps → Fin N → ZMod p) {k : Nat} (h : k < B) :
    sliceChallenges xs k = challenges (xs ⟨k, h⟩) := by
  funext r j
  simp [sliceChallenges, h]

theorem matmulCore_eq (toNat : ZMod p → Nat) {a b : Arr (ZMod p)} {ba bb : List Nat} {M K N : Nat}
    (ha : a.shape = ba ++ [M, K]) (hb : b.shape = bb ++ [K, N]) (hc : ba = [] ∨ bb = [] ∨ ba = bb)
    (hn : ba ≠ [] ∨ bb ≠ []) (chal : Nat → Nat → Nat → ZMod p) (reps : Nat) :
    matmulCore toNat a b chal reps = matmulBatch toNat a b ba bb M K N chal reps := by
  unfold matmulCore
  rw [if_neg]
  · unfold matmulNd
    have la : a.shape.length = ba.length + 2 := by rw [ha]; simp
    have lb : b.shape.length = bb.length + 2 := by rw [hb]; simp
    have ta : a.shape.take (a.shape.length - 2) = ba := by rw [la, ha]; simp
    have tb : b.shape.take (b.shape.length - 2) = bb := by rw [lb, hb]; simp
    have g1 : a.shape.getD (a.shape.length - 1) 0 = K := by rw [la, ha]; simp
    have g2 : a.shape.getD (a.shape.length - 2) 0 = M := by rw [la, ha]; simp
    have g3 : b.shape.getD (b.shape.length - 1) 0 = N := by rw [lb, hb]; simp
    have g4 : b.shape.getD (b.shape.length - 2) 0 = K := by rw [lb, hb]; simp
    dsimp only
    rw [if_neg (by omega), ta, tb, g1, g2, g3, g4, if_neg (by simp), if_neg]
    rintro ⟨h1, h2, h3⟩
    rcases hc with h | h | h
    · exact h2 h
    · exact h1 h
    · exact h3 h
  · rw [ha, hb]
    simp only [List.length_append, List.length_cons, List.length_nil]
    rcases hn with h | h <;> have := List.length_pos_iff.2 h <;> omega


/-- **The product of a batch is sound but for few challenges.** -/
theorem almost_matmulCore (toNat : ZMod p → Nat) {a b : Arr Int} {ba bb : List Nat} {M K N : Nat}
    (ha : a.shape = ba ++ [M, K]) (hb : b.shape = bb ++ [K, N]) (hwa : a.WF)
    (hc : ba = [] ∨ bb = [] ∨ ba = bb) (reps : Nat) :
    AlmostSound T (fun xs : Fin (slices ba bb) → Fin reps → Fin N → ZMod p =>
      matmulCore toNat (castArr p a) (castArr p b) (sliceChallenges xs) reps) (slices ba bb) (p ^ reps)
      (IsMatMul a b ba bb M K N fun z : Int => (z : ZMod p)) := by
  have hcard : Fintype.card (ZMod p) = p := ZMod.card p
  have hstep : ∀ k, AlmostSound T (fun x : Fin reps → Fin N → ZMod p => matmul2dCore toNat (sliceA p a ba M K k)
      (sliceB p b bb K N k) (challenges x) reps) 1 (p ^ reps)
      (fun y => IsProduct (sliceA p a ba M K k) (sliceB p b bb K N k) y M K N) := by
    intro k h
    have hsb : (sliceB p b bb K N k).shape = [K, N] := by unfold sliceB sliceAt; split_ifs <;> rfl
    obtain ⟨bad, h1, h2⟩ := C12_matmul_core_sound (T := T) toNat (sliceA p a ba M K k) (sliceB p b bb K N k) reps M K N
      rfl hsb h
    rw [hcard] at h1
    exact ⟨bad, by rw [one_mul]; exact h1, fun x hx o ho hs => h2 x o ho hs hx⟩
  choose R hR using fun k => matmul2dCore_rest toNat (sliceA p a ba M K k) (sliceB p b bb K N k) reps
  by_cases hn : ba ≠ [] ∨ bb ≠ []
  · have e : (fun xs : Fin (slices ba bb) → Fin reps → Fin N → ZMod p =>
        matmulCore toNat (castArr p a) (castArr p b) (sliceChallenges xs) reps) = fun xs =>
        matmulBatch toNat (castArr p a) (castArr p b) ba bb M K N (sliceChallenges xs) reps :=
      funext fun xs => matmulCore_eq toNat ha hb hc hn _ _
    rw [e]
    unfold matmulBatch
    by_cases h1 : (castArr p a).data.length ≠ max ba.prod 1 * (M * K)
    · simp only [if_pos h1]
      exact almost_of_sound fun _ => Sound.throwErr
    by_cases h2 : bb ≠ [] ∧ (castArr p b).data.length ≠ max bb.prod 1 * (K * N)
    · simp only [if_neg h1, if_pos h2]
      exact almost_of_sound fun _ => Sound.throwErr
    simp only [if_neg h1, if_neg h2]
    refine AlmostSound.bind (P := fun ys => List.Forall₂
      (fun k y => IsProduct (sliceA p a ba M K k) (sliceB p b bb K N k) y M K N) (List.range (slices ba bb)) ys) ?_ ?_
    · exact almost_collectG
        (f := fun x k => matmul2dCore toNat (sliceA p a ba M K k) (sliceB p b bb K N k) (challenges x) reps)
        (g := fun xs k => matmul2dCore toNat (sliceA p a ba M K k) (sliceB p b bb K N k) (sliceChallenges xs k) reps)
        (fun xs k hk => by rw [sliceChallenges_of_lt xs hk]) (fun xs k h o ho => hR k _ h o ho) (fun k _ => hstep k)
    · intro _ ys hys
      refine Sound.bind sound_liftR fun st hst => sound_liftR.conseq fun out hout => ?_
      obtain ⟨-, rfl⟩ := fromShapeVec_ok_iff.1 hst
      obtain ⟨q1, rfl⟩ := fromShapeVec_ok_iff.1 hout
      exact isMatMul_of_slices ha hb hc hys q1
  · push Not at hn
    obtain ⟨rfl, rfl⟩ := hn
    have hs1 : slices [] [] = 1 := rfl
    intro h
    obtain ⟨bad, h1, h2⟩ := C12_matmul_core_sound (T := T) toNat (castArr p a) (castArr p b) reps M K N ha hb h
    rw [hcard] at h1
    classical
    refine ⟨Fintype.piFinset (Function.update (fun _ : Fin (slices [] []) => Finset.univ) ⟨0, by decide⟩ bad), ?_,
      fun xs hxs o ho hs => ?_⟩
    · have k := card_step_bad (⟨0, by decide⟩ : Fin (slices [] [])) bad h1
      exact le_trans k (by have : 1 ≤ slices [] [] := by decide
                           exact Nat.le_mul_of_pos_left _ this)
    have hx : xs ⟨0, by decide⟩ ∉ bad := by
      intro hc'
      refine hxs (Fintype.mem_piFinset.2 fun i => ?_)
      have hi : i = ⟨0, by decide⟩ := Fin.ext (Nat.lt_one_iff.1 (hs1 ▸ i.2 : (i : Nat) < 1))
      subst hi
      rw [Function.update_self]
      exact hc'
    have e : matmulCore toNat (castArr p a) (castArr p b) (sliceChallenges xs) reps =
        matmul2dCore toNat (castArr p a) (castArr p b) (challenges (xs ⟨0, by decide⟩)) reps := by
      have ea : (castArr p a).shape = [M, K] := ha
      have eb : (castArr p b).shape = [K, N] := hb
      unfold matmulCore matmul2d
      rw [ea, eb, sliceChallenges_of_lt xs (by decide : 0 < slices [] [])]
      simp
    dsimp only at ho
    rw [e] at ho
    have hP := h2 _ o ho hs hx
    exact isMatMul_single ha hb hwa hP

/-- **C63, MatMul is sound.** The prover fixes all hints, then the challenges are drawn. But for a fraction of at most
`products / p^reps` of the challenges, if the constraints hold then every output is the matrix product of the integer
tensors, rescaled as configured. Missing: digit widths that do not divide the checked widths (`C05_rescale_unsound`);
batch dimensions that ONNX broadcasts (`C63_matmul_refuses`). -/
theorem C63_matmul_sound_partial {rc : RangeCtx} (hT : IsRangeTable T rc) (hch : 0 < rc.chunk)
    (toNat : ZMod p → Nat) {a b : Arr Int} {ba bb : List Nat} {M K N : Nat}
    (ha : a.shape = ba ++ [M, K]) (hb : b.shape = bb ++ [K, N]) (hwa : a.WF)
    (hc : ba = [] ∨ bb = [] ∨ ba = bb) (reps : Nat)
    {κ nb : Nat} (hn : 1 ≤ nb) (hd : rc.chunk ∣ κ) (hds : rc.chunk ∣ nb) (hp : 2 ^ κ * 2 ^ (nb + 1) ≤ p)
    (isRescale : Bool)
    (hr : ∀ c i j, InRange (if bb = [] then ba else bb) c → i < M → j < N → postRange isRescale κ nb false
      (matmulAt a b (if ba = [] then [] else c) (if bb = [] then [] else c) K i j)) :
    AlmostSound T (fun xs : Fin (slices ba bb) → Fin reps → Fin N → ZMod p =>
      matmulLayer toNat rc (castArr p a) (castArr p b) (sliceChallenges xs) reps isRescale κ nb)
      (slices ba bb) (p ^ reps)
      (IsMatMul a b ba bb M K N fun z => ((postSpec isRescale κ false z : Int) : ZMod p)) := by
  unfold matmulLayer
  refine AlmostSound.bind (almost_matmulCore toNat ha hb hwa hc reps) ?_
  rintro - y ⟨h1, h2, h3⟩
  obtain ⟨f, hf⟩ : ∃ f : List Nat → Int, ∀ c i j, c.length = (if bb = [] then ba else bb).length →
      f (c ++ [i, j]) = matmulAt a b (if ba = [] then [] else c) (if bb = [] then [] else c) K i j := by
    refine ⟨fun q => matmulAt a b (if ba = [] then [] else q.take (if bb = [] then ba else bb).length)
      (if bb = [] then [] else q.take (if bb = [] then ba else bb).length) K
      (q.getD (if bb = [] then ba else bb).length 0) (q.getD ((if bb = [] then ba else bb).length + 1) 0),
      fun c i j hl => ?_⟩
    simp [← hl]
  refine (sound_post hT hch hn hd hds hp isRescale false (f := f) h1 h2 ?_ ?_).conseq ?_
  · intro q hq
    obtain ⟨c, d, rfl, hcr, hdr⟩ := inRange_split hq
    obtain ⟨i, j, rfl, hi, hj⟩ := inRange_pair hdr
    rw [hf c i j hcr.length_eq]
    exact h3 c i j hcr hi hj
  · intro q hq
    obtain ⟨c, d, rfl, hcr, hdr⟩ := inRange_split hq
    obtain ⟨i, j, rfl, hi, hj⟩ := inRange_pair hdr
    rw [hf c i j hcr.length_eq]
    exact hr c i j hcr hi hj
  · rintro z ⟨k1, k2, k3⟩
    refine ⟨k1, k2, fun c i j hcr hi hj => ?_⟩
    rw [k3 _ (InRange_append hcr (.cons hi (.cons hj .nil))), hf c i j hcr.length_eq]

/-- **C63, MatMul is complete**: run honestly, the layer succeeds for all challenges and all tensors of the shapes it
supports, none of whose dimensions is zero, and the results are the products. Missing: zero dimensions, for which
`matmul_2d_core` panics (`C12_matmul_core_panics`). -/
theorem C63_matmul_complete_partial {rc : RangeCtx} (hT : IsRangeTable T rc)
    (toNat : ZMod p → Nat) {a b : Arr Int} {ba bb : List Nat} {M K N : Nat}
    (ha : a.shape = ba ++ [M, K]) (hb : b.shape = bb ++ [K, N]) (hwa : a.WF) (hwb : b.WF)
    (hc : ba = [] ∨ bb = [] ∨ ba = bb) (hpa : 0 < ba.prod) (hpb : 0 < bb.prod) (hpos : 0 < M ∧ 0 < K ∧ 0 < N)
    (ht : ∀ d ∈ [M, K, N], toNat ((d : Nat) : ZMod p) = d) (hsz : ∀ d ∈ [M, K, N], d < 2 ^ 64)
    (h64 : M * K + K * N + 3 < 2 ^ 64) (h64' : M * N < 2 ^ 64) (reps : Nat) (chal : Nat → Nat → Nat → ZMod p)
    {κ nb : Nat} (hn : 1 ≤ nb) (hn64 : nb ≤ 64) (hκ : κ < 32) (huk : RangeUsable p rc κ)
    (hun : RangeUsable p rc nb) (hp : 2 ^ κ * 2 ^ nb ≤ p) (isRescale : Bool)
    (hr : ∀ c i j, InRange (if bb = [] then ba else bb) c → i < M → j < N → postRange isRescale κ nb false
      (matmulAt a b (if ba = [] then [] else c) (if bb = [] then [] else c) K i j)) :
    Complete T (matmulLayer toNat rc (castArr p a) (castArr p b) chal reps isRescale κ nb)
      (IsMatMul a b ba bb M K N fun z => ((postSpec isRescale κ false z : Int) : ZMod p)) := by
  have hcore : Complete T (matmulCore toNat (castArr p a) (castArr p b) chal reps)
      (IsMatMul a b ba bb M K N fun z : Int => (z : ZMod p)) := by
    by_cases hne : ba ≠ [] ∨ bb ≠ []
    · rw [matmulCore_eq toNat (a := castArr p a) (b := castArr p b) ha hb hc hne]
      unfold matmulBatch
      have la : (castArr p a).data.length = max ba.prod 1 * (M * K) := by
        rw [max_eq_left hpa]
        have : (castArr p a).data.length = a.data.length := by simp [castArr]
        rw [this, hwa, ha]
        simp
      have lb : (castArr p b).data.length = max bb.prod 1 * (K * N) := by
        rw [max_eq_left hpb]
        have : (castArr p b).data.length = b.data.length := by simp [castArr]
        rw [this, hwb, hb]
        simp
      rw [if_neg (by rw [la]; simp), if_neg (by rw [lb]; simp)]
      refine Complete.bind (P := fun ys => List.Forall₂
        (fun k y => IsProduct (sliceA p a ba M K k) (sliceB p b bb K N k) y M K N) (List.range (slices ba bb)) ys) ?_ ?_
      · refine complete_collectG _ fun k _ => ?_
        have hsb : (sliceB p b bb K N k).shape = [K, N] := by unfold sliceB sliceAt; split_ifs <;> rfl
        exact C12_matmul_core_complete_partial toNat (sliceA p a ba M K k) (sliceB p b bb K N k) M K N reps _ rfl hsb
          hpos ht hsz h64 h64'
      · intro ys hys
        have hl : ys.length = slices ba bb := by rw [← hys.length_eq, List.length_range]
        have hlen : (ys.flatMap (·.data)).length = slices ba bb * (M * N) := by
          rw [List.flatMap_def, flatten_length_const (n := M * N), List.length_map, hl]
          intro l hl'
          obtain ⟨y, hy, rfl⟩ := List.mem_map.1 hl'
          obtain ⟨t, ht, rfl⟩ := List.mem_iff_getElem.1 hy
          have := (List.forall₂_iff_get.1 hys).2 t (by simpa [← hl] using ht) ht
          exact this.len
        have hsl : slices ba bb = (if bb ≠ [] then bb else ba).prod := by
          unfold slices
          have m1 : max ba.prod 1 = ba.prod := max_eq_left hpa
          have m2 : max bb.prod 1 = bb.prod := max_eq_left hpb
          rw [m1, m2]
          by_cases h2 : bb = []
          · subst h2
            exact max_eq_left hpa
          · rw [if_pos h2]
            rcases hc with h | h | h
            · subst h
              exact max_eq_right hpb
            · exact absurd h h2
            · rw [h, max_self]
        have hlen' : (ys.flatMap (·.data)).length = ((if bb ≠ [] then bb else ba) ++ [M, N]).prod := by
          rw [hlen, hsl]
          simp
        refine Complete.bind (complete_liftR (fromShapeVec_ok (by rw [hlen]; unfold slices; simp))) ?_
        rintro _ rfl
        refine (complete_liftR (fromShapeVec_ok hlen')).conseq ?_
        rintro _ rfl
        exact isMatMul_of_slices ha hb hc hys hlen'
    · push Not at hne
      obtain ⟨rfl, rfl⟩ := hne
      have ea : (castArr p a).shape = [M, K] := ha
      have eb : (castArr p b).shape = [K, N] := hb
      have e : matmulCore toNat (castArr p a) (castArr p b) chal reps =
          matmul2dCore toNat (castArr p a) (castArr p b) (chal 0) reps := by
        unfold matmulCore matmul2d
        rw [ea, eb]
        simp
      rw [e]
      exact (C12_matmul_core_complete_partial toNat _ _ M K N reps _ ea eb hpos ht hsz h64 h64').conseq
        fun y hy => isMatMul_single ha hb hwa hy
  unfold matmulLayer
  refine Complete.bind hcore ?_
  rintro y ⟨h1, h2, h3⟩
  obtain ⟨f, hf⟩ : ∃ f : List Nat → Int, ∀ c i j, c.length = (if bb = [] then ba else bb).length →
      f (c ++ [i, j]) = matmulAt a b (if ba = [] then [] else c) (if bb = [] then [] else c) K i j := by
    refine ⟨fun q => matmulAt a b (if ba = [] then [] else q.take (if bb = [] then ba else bb).length)
      (if bb = [] then [] else q.take (if bb = [] then ba else bb).length) K
      (q.getD (if bb = [] then ba else bb).length 0) (q.getD ((if bb = [] then ba else bb).length + 1) 0),
      fun c i j hl => ?_⟩
    simp [← hl]
  refine (complete_post hT hn hn64 hκ huk hun hp isRescale false (f := f) h1 h2 ?_ ?_).conseq ?_
  · intro q hq
    obtain ⟨c, d, rfl, hcr, hdr⟩ := inRange_split hq
    obtain ⟨i, j, rfl, hi, hj⟩ := inRange_pair hdr
    rw [hf c i j hcr.length_eq]
    exact h3 c i j hcr hi hj
  · intro q hq
    obtain ⟨c, d, rfl, hcr, hdr⟩ := inRange_split hq
    obtain ⟨i, j, rfl, hi, hj⟩ := inRange_pair hdr
    rw [hf c i j hcr.length_eq]
    exact hr c i j hcr hi hj
  · rintro z ⟨k1, k2, k3⟩
    refine ⟨k1, k2, fun c i j hcr hi hj => ?_⟩
    rw [k3 _ (InRange_append hcr (.cons hi (.cons hj .nil))), hf c i j hcr.length_eq]

/-- **C63, what MatMul refuses**: whatever the hints, the layer only succeeds on operands of rank 2 or more with equal
inner dimension, whose batch dimensions agree exactly or one of which has none. Batch dimensions that ONNX would
broadcast (`[1, …]` against `[4, …]`, or `[3]` against `[2, 3]`) and vectors are refused. -/
theorem C63_matmul_refuses {toNat : ZMod p → Nat} {rc : RangeCtx} {a b : Arr (ZMod p)}
    {chal : Nat → Nat → Nat → ZMod p} {reps κ nb : Nat} {isRescale : Bool} {h : Hints (ZMod p)}
    {o : Out (ZMod p) (Arr (ZMod p))}
    (ho : matmulLayer toNat rc a b chal reps isRescale κ nb h = .ok o) :
    ∃ ba bb M K N, a.shape = ba ++ [M, K] ∧ b.shape = bb ++ [K, N] ∧ (ba = [] ∨ bb = [] ∨ ba = bb) := by
  obtain ⟨o1, o2, e1, -, -⟩ := JST.bind_eq_ok ho
  unfold matmulCore at e1
  by_cases h1 : a.shape.length ≤ 2 ∧ b.shape.length ≤ 2
  · rw [if_pos h1] at e1
    unfold matmul2d at e1
    rcases hx : a.shape with _ | ⟨M, _ | ⟨K, _ | ⟨_, _⟩⟩⟩ <;> rw [hx] at e1
    · cases e1
    · cases e1
    · rcases hy : b.shape with _ | ⟨K2, _ | ⟨N, _ | ⟨_, _⟩⟩⟩ <;> rw [hy] at e1
      · cases e1
      · cases e1
      · dsimp only at e1
        by_cases hk : K ≠ K2
        · rw [if_pos hk] at e1
          cases e1
        · have := not_not.1 hk
          subst this
          exact ⟨[], [], M, K, N, rfl, rfl, .inl rfl⟩
      · cases e1
    · cases e1
  · rw [if_neg h1] at e1
    unfold matmulNd at e1
    by_cases h2 : a.shape.length < 2 ∨ b.shape.length < 2
    · rw [if_pos h2] at e1
      cases e1
    rw [if_neg h2] at e1
    by_cases h3 : a.shape.getD (a.shape.length - 1) 0 ≠ b.shape.getD (b.shape.length - 2) 0
    · rw [if_pos h3] at e1
      cases e1
    rw [if_neg h3] at e1
    by_cases h4 : b.shape.take (b.shape.length - 2) ≠ [] ∧ a.shape.take (a.shape.length - 2) ≠ [] ∧
        a.shape.take (a.shape.length - 2) ≠ b.shape.take (b.shape.length - 2)
    · rw [if_pos h4] at e1
      cases e1
    have split : ∀ s : List Nat, 2 ≤ s.length →
        s = s.take (s.length - 2) ++ [s.getD (s.length - 2) 0, s.getD (s.length - 1) 0] := by
      intro s hs
      conv_lhs => rw [← List.take_append_drop (s.length - 2) s]
      congr 1
      have hl : (s.drop (s.length - 2)).length = 2 := by rw [List.length_drop]; omega
      refine List.ext_getElem (by simpa using hl) fun i hi _ => ?_
      rw [List.getElem_drop]
      have hi2 : i < 2 := by omega
      rcases (by omega : i = 0 ∨ i = 1) with rfl | rfl
      · simp only [List.getElem_cons_zero, Nat.add_zero]
        exact (List.getD_eq_getElem s 0 (by omega : s.length - 2 < s.length)).symm
      · simp only [List.getElem_cons_succ, List.getElem_cons_zero, show s.length - 2 + 1 = s.length - 1 by omega]
        exact (List.getD_eq_getElem s 0 (by omega : s.length - 1 < s.length)).symm
    refine ⟨a.shape.take (a.shape.length - 2), b.shape.take (b.shape.length - 2), a.shape.getD (a.shape.length - 2) 0,
      a.shape.getD (a.shape.length - 1) 0, b.shape.getD (b.shape.length - 1) 0, split a.shape (by omega), ?_, ?_⟩
    · rw [not_not.1 h3]
      exact split b.shape (by omega)
    · by_cases q1 : a.shape.take (a.shape.length - 2) = []
      · exact .inl q1
      by_cases q2 : b.shape.take (b.shape.length - 2) = []
      · exact .inr (.inl q2)
      · exact .inr (.inr (not_not.1 fun q3 => h4 ⟨q2, q1, q3⟩))

end JST.Props
