import Verif.Tensor.ShapeProofs
import Mathlib.Data.ZMod.Basic

/-!
# Shapes: broadcasting (C37), flat indices (C38), reshape and axes (C39)
-/

namespace JST.Props

open JST.Shape JST.Spec

/-! ## C38: flat index conversion is a bijection -/

/-- Converting a flat index to coordinates and back returns it, and the coordinates are in range. -/
theorem C38_ravel_unravel (shape : List Nat) (flat : Nat) (h : flat < shape.prod) :
    InRange shape (unravel flat shape) ∧ ravel (unravel flat shape) shape = some flat := by
  refine ⟨unravel_inRange h, ?_⟩
  rw [ravel_eq (unravel_inRange h).length, rowMajor_unravel h]

/-- Converting in-range coordinates to a flat index and back returns them. The flat index is the
row-major position and addresses an element. -/
theorem C38_unravel_ravel (shape coords : List Nat) (h : InRange shape coords) :
    ravel coords shape = some (rowMajor shape coords) ∧ rowMajor shape coords < shape.prod ∧
    unravel (rowMajor shape coords) shape = coords :=
  ⟨ravel_eq h.length, rowMajor_lt h, unravel_rowMajor h⟩

/-- Different elements have different flat indices. -/
theorem C38_injective (shape c d : List Nat) (hc : InRange shape c) (hd : InRange shape d)
    (h : ravel c shape = ravel d shape) : c = d := by
  rw [ravel_eq hc.length, ravel_eq hd.length, Option.some.injEq] at h
  exact rowMajor_inj hc hd h

example : unravel 17 [2, 3, 4] = [1, 1, 1] ∧ ravel [1, 1, 1] [2, 3, 4] = some 17 := by decide

example : InRange [2, 3, 4] [1, 2, 3] := by
  unfold InRange; repeat' constructor

/-! ## C37: broadcasting -/

/-- The broadcast shape is the ONNX one exactly when it exists, and a reported error otherwise, for
shapes without a zero dimension. Missing for the full statement: shapes with an empty dimension, for
which `C37_empty_dimension` shows the statement is false. -/
theorem C37_shape_partial (a b : List Nat) (ha : ∀ d ∈ a, d ≠ 0) (hb : ∀ d ∈ b, d ≠ 0) :
    (∀ out, broadcastShape a b = .ok out ↔ IsBroadcast a b out) ∧
    ((¬ ∃ out, IsBroadcast a b out) → broadcastShape a b = .error .invalid) := by
  have hpos : ∀ (l : List Nat), (∀ d ∈ l, d ≠ 0) → ∀ i, 1 ≤ fromRight l i := by
    intro l hl i
    unfold fromRight
    by_cases hi : i < l.reverse.length
    · rw [List.getD_eq_getElem _ _ hi]
      exact Nat.one_le_iff_ne_zero.2 (hl _ (by
        have := List.getElem_mem hi
        simpa using this))
    · rw [List.getD_eq_default _ _ (by omega)]
  have key : ∀ out, broadcastShape a b = .ok out ↔ IsBroadcast a b out := by
    intro out
    rw [broadcastShape_ok]
    unfold IsBroadcast
    refine and_congr_right fun _ => forall_congr' fun i => imp_congr_right fun _ => ?_
    have h1 := hpos a ha i
    have h2 := hpos b hb i
    unfold Compat
    omega
  refine ⟨key, fun hn => ?_⟩
  cases hr : broadcastShape a b with
  | ok out => exact absurd ⟨out, (key out).1 hr⟩ hn
  | error e => rw [bcastLoop_error _ _ _ _ _ _ hr]

example : broadcastShape [2, 1, 4] [3, 1] = .ok [2, 3, 4] := by decide
example : broadcastShape [2, 3] [4, 3] = .error .invalid := by decide

/-- When some aligned pair of dimensions is one and zero, the shape computed is never the ONNX one
(which is empty there), for all such shapes. -/
theorem C37_empty_dimension (a b out : List Nat) (i : Nat) (hi : i < max a.length b.length)
    (h : fromRight a i = 1 ∧ fromRight b i = 0 ∨ fromRight a i = 0 ∧ fromRight b i = 1)
    (hr : broadcastShape a b = .ok out) : ¬ IsBroadcast a b out := by
  rw [broadcastShape_ok] at hr
  obtain ⟨hl, hr⟩ := hr
  have h1 := (hr i (by omega)).2
  rintro ⟨_, h2⟩
  have h3 := h2 i (by omega)
  omega

/-- ... although an ONNX broadcast exists, e.g. of `[1]` and `[0]`. -/
example : broadcastShape [1] [0] = .ok [1] ∧ IsBroadcast [1] [0] [0] := by
  refine ⟨by decide, by simp, fun i hi => ?_⟩
  obtain rfl : i = 0 := by simpa using hi
  right; left; decide

theorem stretches_of_ok {a b out : List Nat} (h : IsBroadcast a b out) :
    Stretches a out ∧ Stretches b out := by
  obtain ⟨hl, h⟩ := h
  refine ⟨⟨by omega, fun i hi => ?_⟩, ⟨by omega, fun i hi => ?_⟩⟩
  · rcases h i (by omega) with h | h | h <;> omega
  · rcases h i (by omega) with h | h | h <;> omega

/-- Broadcasting two tensors: whenever it succeeds the common shape is the ONNX one, and every
element of each result is the element ONNX prescribes. No assumption on empty dimensions. -/
theorem C37_elements {α : Type} [Inhabited α] (a b a' b' : Arr α) (ha : a.WF) (hb : b.WF)
    (h : broadcastTwo a b = .ok (a', b')) :
    a'.shape = b'.shape ∧ IsBroadcast a.shape b.shape a'.shape ∧
    (∀ c, InRange a'.shape c →
      (elem a (srcCoords a.shape c)).isSome ∧ elem a' c = elem a (srcCoords a.shape c) ∧
      (elem b (srcCoords b.shape c)).isSome ∧ elem b' c = elem b (srcCoords b.shape c)) := by
  unfold broadcastTwo at h
  cases hs : broadcastShape a.shape b.shape with
  | error e => rw [hs] at h; cases h
  | ok out =>
    rw [hs] at h
    cases h1 : broadcastArray a out with
    | error e => simp [bind, Except.bind, h1] at h
    | ok ra =>
      cases h2 : broadcastArray b out with
      | error e => simp [bind, Except.bind, h1, h2] at h
      | ok rb =>
        simp only [bind, Except.bind, h1, h2, Except.ok.injEq, Prod.mk.injEq] at h
        obtain ⟨rfl, rfl⟩ := h
        rw [broadcastArray_ok _ _ ha] at h1
        rw [broadcastArray_ok _ _ hb] at h2
        rw [broadcastShape_ok] at hs
        obtain ⟨s1, e1, w1, v1⟩ := h1
        obtain ⟨s2, e2, w2, v2⟩ := h2
        refine ⟨e1.trans e2.symm, ?_, ?_⟩
        · rw [e1]
          refine ⟨hs.1, fun i hi => ?_⟩
          obtain ⟨hc, hm⟩ := hs.2 i hi
          have g1 : i < a.shape.length → fromRight a.shape i = 1 ∨
            fromRight a.shape i = fromRight out i := s1.2 i
          have g2 : i < b.shape.length → fromRight b.shape i = 1 ∨
            fromRight b.shape i = fromRight out i := s2.2 i
          have d1 : ¬ i < a.shape.length → fromRight a.shape i = 1 := fun hn => by
            unfold fromRight; rw [List.getD_eq_default _ _ (by simp; omega)]
          have d2 : ¬ i < b.shape.length → fromRight b.shape i = 1 := fun hn => by
            unfold fromRight; rw [List.getD_eq_default _ _ (by simp; omega)]
          unfold Compat at hc
          omega
        · rw [e1]
          intro c hc
          exact ⟨(v1 c hc).1, (v1 c hc).2, (v2 c hc).1, (v2 c hc).2⟩

/-- Broadcasting two tensors succeeds whenever ONNX broadcasting is defined, for tensors without an
empty dimension. Missing: empty dimensions, see `C37_empty_rejected`. -/
theorem C37_succeeds_partial {α : Type} [Inhabited α] (a b : Arr α) (ha : a.WF) (hb : b.WF)
    (za : ∀ d ∈ a.shape, d ≠ 0) (zb : ∀ d ∈ b.shape, d ≠ 0)
    (h : ∃ out, IsBroadcast a.shape b.shape out) : ∃ r, broadcastTwo a b = .ok r := by
  obtain ⟨out, h⟩ := h
  have hs := ((C37_shape_partial _ _ za zb).1 out).2 h
  obtain ⟨s1, s2⟩ := stretches_of_ok h
  have mk : ∀ (x : Arr α), x.WF → Stretches x.shape out → ∃ r, broadcastArray x out = .ok r := by
    intro x hx hst
    have := (stretches_iff _ _).1 hst
    unfold broadcastArray
    rw [if_pos ⟨this.1, (all_zip_iff _ _ (by simp; omega)).2 this.2⟩]
    exact ⟨_, rfl⟩
  obtain ⟨r1, h1⟩ := mk a ha s1
  obtain ⟨r2, h2⟩ := mk b hb s2
  exact ⟨(r1, r2), by simp [broadcastTwo, bind, Except.bind, hs, h1, h2]⟩

/-- A dimension of one against an empty one: ONNX gives an empty result, the code an error. -/
theorem C37_empty_rejected {α : Type} [Inhabited α] (a b : Arr α) (hb : b.WF) (i : Nat)
    (hi : i < b.shape.length)
    (h : fromRight a.shape i = 1 ∧ fromRight b.shape i = 0) : ∃ e, broadcastTwo a b = .error e := by
  cases hr : broadcastTwo a b with
  | error e => exact ⟨e, rfl⟩
  | ok r =>
    exfalso
    unfold broadcastTwo at hr
    cases hs : broadcastShape a.shape b.shape with
    | error e => rw [hs] at hr; cases hr
    | ok out =>
      rw [hs] at hr
      cases h1 : broadcastArray a out with
      | error e => simp [bind, Except.bind, h1] at hr
      | ok ra =>
        cases h2 : broadcastArray b out with
        | error e => simp [bind, Except.bind, h1, h2] at hr
        | ok rb =>
          rw [broadcastArray_ok _ _ hb] at h2
          rw [broadcastShape_ok] at hs
          have := (hs.2 i (by omega)).2
          have := h2.1.2 i hi
          omega

example : (broadcastTwo (⟨[2, 1], [10, 20]⟩ : Arr Int) ⟨[3], [1, 2, 3]⟩)
    = .ok (⟨[2, 3], [10, 10, 10, 20, 20, 20]⟩, ⟨[2, 3], [1, 2, 3, 1, 2, 3]⟩) := by decide

/-- A per-channel vector, reshaped for broadcasting against a tensor of shape `[N, C, ...]`, is read
at the channel coordinate everywhere. -/
theorem C37_channel_vector {α : Type} [Inhabited α] (vec r r' : Arr α) (target : List Nat)
    (hv : vec.WF) (h : channelVector vec target = .ok r) (h' : broadcastArray r target = .ok r')
    (n k : Nat) (rest : List Nat) (hc : InRange target (n :: k :: rest)) :
    vec.shape = [(target.drop 1).headD 0] ∧ elem r' (n :: k :: rest) = elem vec [k] := by
  unfold channelVector at h
  split at h
  case h_2 => cases h
  case h_1 channels hvs =>
    split at h
    case h_1 => cases h
    case h_2 => cases h
    case h_3 b c ds =>
      split_ifs at h with hcc
      push Not at hcc
      subst hcc
      cases h
      have hlen := hc.length
      simp only [List.length_cons, Nat.add_right_cancel_iff] at hlen
      have hw : (⟨c :: List.replicate ds.length 1, vec.data⟩ : Arr α).WF := by
        unfold Arr.WF at hv ⊢
        rw [hvs] at hv
        simpa using hv
      rw [broadcastArray_ok _ _ hw] at h'
      obtain ⟨_, _, _, hv'⟩ := h'
      have := (hv' _ hc).2
      refine ⟨by simp [hvs], ?_⟩
      rw [this]
      have hz : ∀ l : List Nat, (List.zipWith (fun c s => if s = 1 then 0 else c) l
          (List.replicate l.length 1)) = List.replicate l.length 0 := by
        intro l
        induction l with
        | nil => rfl
        | cons x l ih => simp [List.replicate_succ, ih]
      have hrm : ∀ m, rowMajor (List.replicate m 1) (List.replicate m 0) = 0 := by
        intro m
        induction m with
        | zero => rfl
        | succ m ih => simp [List.replicate_succ, rowMajor, ih]
      cases hc with
      | cons _ hc =>
      cases hc with
      | cons hk _ =>
      unfold elem srcCoords
      simp only [hvs, List.length_cons, List.length_replicate, ← hlen]
      rw [show rest.length + 1 + 1 - (rest.length + 1) = 1 by omega]
      simp only [List.drop_succ_cons, List.drop_zero, List.zipWith_cons_cons, hz, rowMajor, hrm]
      congr 1
      simp only [List.prod_replicate, one_pow, List.prod_nil]
      split_ifs with h1
      · subst h1; simp; omega
      · simp

example : channelVector (⟨[2], [5, 7]⟩ : Arr Int) [1, 2, 3] = .ok ⟨[2, 1], [5, 7]⟩ ∧
    broadcastArray (⟨[2, 1], [5, 7]⟩ : Arr Int) [1, 2, 3] = .ok ⟨[1, 2, 3], [5, 5, 5, 7, 7, 7]⟩ := by
  decide

/-- Reporting a channel mismatch reads a dimension that does not exist: for every tensor of rank
below two the code panics instead of returning its error. -/
theorem C37_channel_vector_panics {α : Type} (vec : Arr α) (c : Nat) (hv : vec.shape = [c])
    (target : List Nat) (h : target.length < 2) : channelVector vec target = .error .panic := by
  unfold channelVector
  rw [hv]
  match target, h with
  | [], _ => rfl
  | [_], _ => rfl

/-! ### Where -/

/-- `Where` with a run-time condition: every output element is `X`'s where the condition, broadcast,
is non-zero and `Y`'s elsewhere. -/
theorem C37_where_runtime {F : Type} [Ring F] [Inhabited F] [DecidableEq F]
    (cond x y : Arr F) (out : List Nat) (hc : cond.WF) (hx : x.WF) (hy : y.WF)
    (sc : Stretches cond.shape out) (sx : Stretches x.shape out) (sy : Stretches y.shape out) :
    ∃ r, whereRuntime cond x y out = some r ∧ r.shape = out ∧ r.WF ∧
      ∀ c, InRange out c → ∃ cv, elem cond (srcCoords cond.shape c) = some cv ∧
        elem r c = if cv ≠ 0 then elem x (srcCoords x.shape c) else elem y (srcCoords y.shape c) := by
  let rd : Arr F → Nat → F := fun a i => (elem a (srcCoords a.shape (unravel i out))).getD 0
  have hrd : ∀ (a : Arr F), a.WF → Stretches a.shape out → ∀ c, InRange out c →
      elem a (srcCoords a.shape c) = some (rd a (rowMajor out c)) := by
    intro a ha hs c hc
    obtain ⟨v, hv⟩ := elem_isSome ha (srcCoords_inRange hs hc)
    simp only [rd, unravel_rowMajor hc, hv, Option.getD_some]
  refine ⟨⟨out, (List.range out.prod).map fun i =>
    if rd cond i ≠ 0 then rd x i else rd y i⟩, ?_, rfl, by simp [Arr.WF], ?_⟩
  · unfold whereRuntime
    rw [mapM_some _ (fun i => if rd cond i ≠ 0 then rd x i else rd y i)]
    · rfl
    · intro i hi
      have hi' : i < out.prod := by simpa using hi
      have hr := unravel_inRange hi'
      have hrm := rowMajor_unravel hi'
      have e : ∀ (a : Arr F), a.WF → Stretches a.shape out →
          a.data[rowMajor a.shape (srcCoords a.shape (unravel i out))]? = some (rd a i) := by
        intro a ha hs
        have := hrd a ha hs _ hr
        rw [hrm] at this
        exact this
      simp only [broadcastIndex_eq sc hr, broadcastIndex_eq sx hr, broadcastIndex_eq sy hr,
        Option.bind_eq_bind, Option.bind_some, e cond hc sc, e x hx sx, e y hy sy]
      by_cases h0 : rd cond i = 0 <;> simp [h0]
  · intro c hcr
    refine ⟨_, hrd cond hc sc c hcr, ?_⟩
    rw [elem_tabulate _ _ _ hcr, hrd x hx sx c hcr, hrd y hy sy c hcr]
    split_ifs <;> rfl

/-- `Where` with a constant condition selects the same elements. -/
theorem C37_where_precomputed {F : Type} [Inhabited F] (cond : Arr Int) (x y : Arr F)
    (out : List Nat) (hc : cond.WF) (hx : x.WF) (hy : y.WF)
    (sc : Stretches cond.shape out) (sx : Stretches x.shape out) (sy : Stretches y.shape out) :
    ∃ r, wherePrecomputed cond x y out = some r ∧ r.shape = out ∧ r.WF ∧
      ∀ c, InRange out c → ∃ cv, elem cond (srcCoords cond.shape c) = some cv ∧
        elem r c = if cv ≠ 0 then elem x (srcCoords x.shape c) else elem y (srcCoords y.shape c) := by
  let rd : {α : Type} → [Inhabited α] → Arr α → Nat → α :=
    fun a i => (elem a (srcCoords a.shape (unravel i out))).getD default
  have hrd : ∀ {α : Type} [Inhabited α] (a : Arr α), a.WF → Stretches a.shape out →
      ∀ c, InRange out c → elem a (srcCoords a.shape c) = some (rd a (rowMajor out c)) := by
    intro α _ a ha hs c hc
    obtain ⟨v, hv⟩ := elem_isSome ha (srcCoords_inRange hs hc)
    simp only [rd, unravel_rowMajor hc, hv, Option.getD_some]
  refine ⟨⟨out, (List.range out.prod).map fun i =>
    if rd cond i ≠ 0 then rd x i else rd y i⟩, ?_, rfl, by simp [Arr.WF], ?_⟩
  · unfold wherePrecomputed
    rw [mapM_some _ (fun i => if rd cond i ≠ 0 then rd x i else rd y i)]
    · rfl
    · intro i hi
      have hi' : i < out.prod := by simpa using hi
      have hr := unravel_inRange hi'
      have hrm := rowMajor_unravel hi'
      have e : ∀ {α : Type} [Inhabited α] (a : Arr α), a.WF → Stretches a.shape out →
          a.data[rowMajor a.shape (srcCoords a.shape (unravel i out))]? = some (rd a i) := by
        intro α _ a ha hs
        have := hrd a ha hs _ hr
        rw [hrm] at this
        exact this
      simp only [broadcastIndex_eq sc hr, broadcastIndex_eq sx hr, broadcastIndex_eq sy hr,
        Option.bind_eq_bind, Option.bind_some, e cond hc sc, e x hx sx, e y hy sy]
      by_cases h0 : rd cond i = 0 <;> simp [h0]
  · intro c hcr
    refine ⟨_, hrd cond hc sc c hcr, ?_⟩
    rw [elem_tabulate _ _ _ hcr, hrd x hx sx c hcr, hrd y hy sy c hcr]
    split_ifs <;> rfl

example : wherePrecomputed ⟨[2, 1], [1, 0]⟩ (⟨[2], [1, 2]⟩ : Arr Int) ⟨[1], [9]⟩ [2, 2]
    = some ⟨[2, 2], [1, 2, 9, 9]⟩ := by decide

/-! ## C39: reshape, flatten, axes -/

/-- An inferred reshape target has the input's element count, keeps every stated dimension and has
the stated rank. -/
theorem C39_reshape_sound (n : Nat) (shape : List Int) (out : List Nat)
    (h : inferReshape n shape = .ok out) :
    out.prod = n ∧ out.length = shape.length ∧
    ∀ (i : Nat) (d : Int), shape[i]? = some d → d = -1 ∨ 0 < d ∧ out[i]? = some d.toNat := by
  unfold inferReshape at h
  cases hf : reshapeFold shape 1 false with
  | error e => rw [hf] at h; cases h
  | ok ks =>
    obtain ⟨k, s⟩ := ks
    rw [hf] at h
    obtain ⟨h1, h2, h3⟩ := reshapeFold_ok _ _ _ _ _ hf
    simp only [bind, Except.bind] at h
    rw [Nat.one_mul] at h2
    have hpos := knownProd_pos h1
    split_ifs at h with c1 c2
    simp only [Except.ok.injEq] at h
    subst h
    refine ⟨?_, by simp, ?_⟩
    · rw [prod_fill]
      rw [not_and_or, not_not] at c1 c2
      cases s with
      | true =>
        simp only [Bool.toNat_false, Bool.toNat_true, Nat.zero_add] at h3
        have hm : n % k = 0 := by
          rcases c1 with c | c
          · simp at c
          · simpa using c
        rw [h3, pow_one, ← h2]
        rw [Nat.mul_comm]
        exact Nat.div_mul_cancel (Nat.dvd_of_mod_eq_zero hm)
      | false =>
        simp only [Bool.toNat_false, Nat.zero_add] at h3
        rw [h3, pow_zero, Nat.mul_one, ← h2]
        rcases c2 with c | c
        · simp at c
        · simpa using c
    · intro i d hd
      rcases h1 d (List.mem_of_getElem? hd) with e | e
      · exact Or.inl e
      · right
        refine ⟨e, ?_⟩
        rw [List.getElem?_map, hd, Option.map_some, if_neg (by omega)]

/-- A target with only positive entries and at most one `-1` is accepted whenever some shape with
the input's element count matches it, provided the product of its stated entries fits a machine
word. Missing for ONNX's rule: entries of zero, see `C39_zero_entry`. -/
theorem C39_reshape_complete_partial (n : Nat) (shape : List Int)
    (hd : ∀ d ∈ shape, d = -1 ∨ 0 < d) (h1 : shape.count (-1) ≤ 1)
    (hb : knownProd shape < 2 ^ 64)
    (hex : ∃ v, (shape.map fun d => if d = -1 then v else d.toNat).prod = n) :
    ∃ out, inferReshape n shape = .ok out := by
  obtain ⟨v, hv⟩ := hex
  obtain ⟨s, hs⟩ := reshapeFold_complete shape 1 false hd (by simpa using h1) (by omega)
    (by simpa [usizeMax] using hb)
  have h3 := (reshapeFold_ok _ _ _ _ _ hs).2.2
  rw [Nat.one_mul] at hs
  rw [prod_fill] at hv
  unfold inferReshape
  rw [hs]
  simp only [bind, Except.bind]
  have c1 : ¬ (s = true ∧ n % knownProd shape ≠ 0) := by
    rintro ⟨_, h⟩
    apply h
    rw [← hv]
    simp
  have c2 : ¬ (¬ s = true ∧ knownProd shape ≠ n) := by
    rintro ⟨hs', h⟩
    apply h
    simp only [Bool.not_eq_true] at hs'
    subst hs'
    simp only [Bool.toNat_false, Nat.zero_add] at h3
    rw [h3] at hv
    simpa using hv
  rw [if_neg c1, if_neg c2]
  exact ⟨_, rfl⟩

example : inferReshape 24 [2, -1, 4] = .ok [2, 3, 4] := by decide
example : inferReshape 24 [5, -1] = .error .invalid := by decide
example : inferReshape 24 [-1, -1] = .error .invalid := by decide

/-- ONNX lets an entry of zero copy the input's dimension; every such target is refused here. -/
theorem C39_zero_entry (n : Nat) (shape : List Int) (h : (0 : Int) ∈ shape) (out : List Nat) :
    inferReshape n shape ≠ .ok out := by
  intro hok
  obtain ⟨i, hi⟩ := List.getElem?_of_mem h
  rcases (C39_reshape_sound n shape out hok).2.2 i 0 hi with h | h <;> omega

/-- A target whose stated entries multiply past a machine word panics instead of being refused. -/
theorem C39_overflow_panics (n : Nat) (a b : Int) (ha : 0 < a) (hb : 0 < b) (ha' : a < 2 ^ 63)
    (h : 2 ^ 64 ≤ a * b) (rest : List Int) : inferReshape n (a :: b :: rest) = .error .panic := by
  have e1 : usz (1 * a.toNat) = .ok a.toNat := by
    unfold usz usizeMax
    rw [Nat.one_mul, if_pos (by omega)]
  have e2 : usz (a.toNat * b.toNat) = .error .panic := by
    unfold usz usizeMax
    rw [if_neg]
    rw [not_lt]
    zify
    rw [Int.toNat_of_nonneg ha.le, Int.toNat_of_nonneg hb.le]
    exact h
  unfold inferReshape
  simp only [reshapeFold, if_neg (show ¬ a = -1 by omega), if_neg (show ¬ a ≤ 0 by omega),
    if_neg (show ¬ b = -1 by omega), if_neg (show ¬ b ≤ 0 by omega), e1, bind, Except.bind, e2]

example : (2 : Int) ^ 64 ≤ 2 ^ 32 * 2 ^ 32 := by norm_num

/-- Flattening keeps every element in row-major order and yields a matrix whose rows are the leading
axes. -/
theorem C39_flatten {α : Type} (a : Arr α) (axis : Nat) (ha : a.WF) :
    (axis ≤ a.shape.length → ∃ r, onnxFlatten a axis = .ok r ∧ r.WF ∧ r.data = a.data ∧
      r.shape = [(a.shape.take axis).prod, (a.shape.drop axis).prod] ∧
      ∀ c, InRange a.shape c →
        elem r [rowMajor (a.shape.take axis) (c.take axis),
          rowMajor (a.shape.drop axis) (c.drop axis)] = elem a c) ∧
    (a.shape.length < axis → onnxFlatten a axis = .error .invalid) := by
  have hsplit : ∀ (s c : List Nat) (k : Nat), s.length = c.length →
      rowMajor s c = rowMajor (s.take k) (c.take k) * (s.drop k).prod
        + rowMajor (s.drop k) (c.drop k) := by
    intro s
    induction s with
    | nil => intro c k h; simp [rowMajor]
    | cons x s ih =>
      intro c k h
      cases c with
      | nil => simp at h
      | cons y c =>
        cases k with
        | zero => simp [rowMajor]
        | succ k =>
          simp only [List.take_succ_cons, List.drop_succ_cons, rowMajor]
          rw [ih c k (by simpa using h)]
          have : s.prod = (s.take k).prod * (s.drop k).prod := by
            rw [← List.prod_append, List.take_append_drop]
          rw [this]; ring
  constructor
  · intro h
    unfold onnxFlatten
    rw [if_neg (by omega)]
    refine ⟨_, rfl, ?_, rfl, rfl, ?_⟩
    · unfold Arr.WF at *
      simp only [List.prod_cons, List.prod_nil, mul_one]
      rw [← List.prod_append, List.take_append_drop]
      exact ha
    · intro c hc
      unfold elem
      simp only [rowMajor, List.prod_cons, List.prod_nil, mul_one]
      rw [hsplit a.shape c axis hc.length.symm]
      simp
  · intro h
    unfold onnxFlatten
    rw [if_pos h]

example : onnxFlatten (⟨[2, 3, 1], [1, 2, 3, 4, 5, 6]⟩ : Arr Int) 1
    = .ok ⟨[2, 3], [1, 2, 3, 4, 5, 6]⟩ := by decide

/-- Axis normalisation: it succeeds exactly when every axis is in range and no two name the same
dimension; the result lists the named dimensions in increasing order. An axis `a` names dimension
`x` when `x = a` or `x = a + rank`. It never panics. -/
theorem C39_normalize_axes (axes : List Int) (rank : Nat) (hr : rank < 2 ^ 63) :
    (∀ r, normalizeAxes axes rank = .ok r ↔
      r.Pairwise (· < ·) ∧ ∃ xs : List Nat, r.Perm xs ∧ xs.Nodup ∧
        List.Forall₂ (fun (a : Int) (x : Nat) => x < rank ∧ ((x : Int) = a ∨ (x : Int) = a + rank))
          axes xs) ∧
    (∀ e, normalizeAxes axes rank = .error e → e = .invalid) := by
  have hrel : ∀ (a : Int) (x : Nat), normAxis rank a = .ok x ↔
      (x < rank ∧ ((x : Int) = a ∨ (x : Int) = a + rank)) := by
    intro a x; rw [normAxis_ok]; constructor <;> intro h <;> omega
  have hne : ¬ ((rank : Int) ≥ i64Max) := by unfold i64Max; omega
  constructor
  · intro r
    unfold normalizeAxes
    rw [if_neg hne]
    cases hl : normLoop rank axes [] with
    | error e =>
      constructor
      · intro h; cases h
      · rintro ⟨_, xs, _, hnd, hf⟩
        have : normLoop rank axes [] = .ok xs := by
          rw [normLoop_ok]
          exact ⟨xs, hf.imp fun a x h => (hrel a x).2 h, hnd, by simp, by simp⟩
        rw [this] at hl; cases hl
    | ok ys =>
      have h1 := (normLoop_ok _ _ _ _).1 hl
      obtain ⟨xs, hf, hnd, _, he⟩ := h1
      rw [List.nil_append] at he
      rw [he] at hl ⊢
      simp only [bind, Except.bind, Except.ok.injEq]
      have hp := List.perm_insertionSort (· ≤ ·) xs
      constructor
      · rintro rfl
        refine ⟨?_, xs, hp, hnd, hf.imp fun a x h => (hrel a x).1 h⟩
        have h2 := List.pairwise_insertionSort (r := (· ≤ ·)) xs
        have h3 : (xs.insertionSort (· ≤ ·)).Nodup := hp.nodup_iff.2 hnd
        exact (h2.and h3).imp fun h => lt_of_le_of_ne h.1 h.2
      · rintro ⟨hs, zs, hp2, hnd2, hf2⟩
        have : zs = xs := by
          have : normLoop rank axes [] = .ok zs := by
            rw [normLoop_ok]
            exact ⟨zs, hf2.imp fun a x h => (hrel a x).2 h, hnd2, by simp, by simp⟩
          rw [this] at hl
          simpa using hl
        subst this
        refine List.Perm.eq_of_pairwise (le := (· ≤ ·)) ?_ ?_ ?_ (hp.trans hp2.symm)
        · intro a b _ _ h1 h2; omega
        · exact List.pairwise_insertionSort (r := (· ≤ ·)) zs
        · exact hs.imp fun h => le_of_lt h
  · intro e h
    unfold normalizeAxes at h
    rw [if_neg hne] at h
    cases hl : normLoop rank axes [] with
    | error e' =>
      rw [hl] at h; cases h
      exact normLoop_error _ _ _ _ hl
    | ok ys => rw [hl] at h; cases h

example : normalizeAxes [-1, 0] 3 = .ok [0, 2] ∧ normalizeAxes [2, -1] 3 = .error .invalid := by
  decide

end JST.Props
