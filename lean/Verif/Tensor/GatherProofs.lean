import Verif.Tensor.ConcatProofs

/-! # Gather -/

namespace JST.Layers

open JST.Shape JST.Spec

theorem rowMajor_append : ∀ (s t c d : List Nat), c.length = s.length →
    rowMajor (s ++ t) (c ++ d) = rowMajor s c * t.prod + rowMajor t d
  | [], t, [], d, _ => by simp [rowMajor]
  | a :: s, t, x :: c, d, h => by
    simp only [List.cons_append, rowMajor]
    rw [rowMajor_append s t c d (by simpa using h), List.prod_append]
    ring

theorem InRange_append {s t c d : List Nat} (hc : InRange s c) (hd : InRange t d) :
    InRange (s ++ t) (c ++ d) := by
  induction hc with
  | nil => exact hd
  | cons h _ ih => exact .cons h ih

/-- Reading a concatenation of blocks of one length. -/
theorem flatten_getElem? {α : Type} {L : Nat} : ∀ (l : List (List α)) (k j : Nat),
    (∀ a ∈ l, a.length = L) → j < L → l.flatten[k * L + j]? = l[k]?.bind (·[j]?)
  | [], k, j, _, _ => by simp
  | a :: l, 0, j, h, hj => by
    have := h a (by simp)
    simp only [Nat.zero_mul, Nat.zero_add, List.flatten_cons, List.getElem?_cons_zero,
      Option.bind_some]
    rw [List.getElem?_append_left (by omega)]
  | a :: l, k + 1, j, h, hj => by
    have := h a (by simp)
    rw [List.flatten_cons, List.getElem?_append_right (by rw [this]; nlinarith), List.getElem?_cons_succ,
      ← flatten_getElem? l k j (fun b hb => h b (by simp [hb])) hj]
    congr 1
    rw [this, Nat.add_mul]
    omega

theorem flatten_length {α : Type} {L : Nat} : ∀ (l : List (List α)), (∀ a ∈ l, a.length = L) →
    l.flatten.length = l.length * L
  | [], _ => by simp
  | a :: l, h => by
    rw [List.flatten_cons, List.length_append, h a (by simp),
      flatten_length l (fun b hb => h b (by simp [hb])), List.length_cons]
    ring

theorem gatherIndex_ok (dim : Nat) (v : Int) (p : Nat) :
    gatherIndex dim v = .ok p ↔ AxisOf dim v p := by
  unfold gatherIndex AxisOf
  dsimp only
  split_ifs <;> first
    | (constructor
       · intro h; cases h
       · rintro ⟨h3, h4 | h4⟩ <;> omega)
    | (simp only [Except.ok.injEq]
       constructor <;> intro h <;> omega)

theorem gatherIndex_error {dim : Nat} {v : Int} {e : Shape.Err} (h : gatherIndex dim v = .error e) :
    e = .invalid := by
  unfold gatherIndex at h
  dsimp only at h
  split_ifs at h <;> cases h <;> rfl

theorem AxisOf_unique {dim : Nat} {v : Int} {p q : Nat} (hp : AxisOf dim v p) (hq : AxisOf dim v q) :
    p = q := by
  obtain ⟨h1, h2⟩ := hp
  obtain ⟨h3, h4⟩ := hq
  omega

/-- The position an index names. -/
def gatherPos (dim : Nat) (v : Int) : Nat := if v < 0 then (v + dim).toNat else v.toNat

theorem AxisOf_pos {dim : Nat} {v : Int} {p : Nat} (h : AxisOf dim v p) : gatherPos dim v = p := by
  unfold gatherPos
  obtain ⟨h1, h2⟩ := h
  split_ifs <;> omega

theorem split_axis {s : List Nat} {axis : Nat} (h : axis < s.length) :
    s = s.take axis ++ s.getD axis 0 :: s.drop (axis + 1) := by
  rw [List.getD_eq_getElem _ _ h, ← List.drop_eq_getElem_cons h, List.take_append_drop]

theorem prod_axis {s : List Nat} {axis : Nat} (h : axis < s.length) :
    s.prod = (s.take axis).prod * (s.getD axis 0 * (s.drop (axis + 1)).prod) := by
  conv_lhs => rw [split_axis h]
  rw [List.prod_append, List.prod_cons]

theorem block_le {outer dim slice o i n : Nat} (hn : n = outer * (dim * slice)) (ho : o < outer)
    (hi : i < dim) : o * (dim * slice) + i * slice + slice ≤ n := by
  have h1 : i * slice + slice ≤ dim * slice := by
    have := Nat.mul_le_mul_right slice (Nat.succ_le_of_lt hi)
    rw [Nat.succ_mul] at this
    exact this
  have h2 : o * (dim * slice) + dim * slice ≤ outer * (dim * slice) := by
    have := Nat.mul_le_mul_right (dim * slice) (Nat.succ_le_of_lt ho)
    rw [Nat.succ_mul] at this
    exact this
  omega

theorem subslice_ok {α : Type} {v : List α} {start len : Nat} (h : start + len ≤ v.length) :
    subslice v start len = .ok ((v.drop start).take len) := by
  simp [subslice, h]

theorem subslice_getElem? {α : Type} (v : List α) (start len j : Nat) (hj : j < len) :
    ((v.drop start).take len)[j]? = v[start + j]? := by
  rw [List.getElem?_take, if_pos hj, List.getElem?_drop]

/-- One slice. -/
theorem gatherCell_ok {α : Type} {x : Arr α} (hx : x.WF) {axis : Nat} (hax : axis < x.shape.length)
    {o : Nat} (ho : o < (x.shape.take axis).prod) {v : Int} {p : Nat}
    (hv : AxisOf (x.shape.getD axis 0) v p) :
    (do
      let i ← gatherIndex (x.shape.getD axis 0) v
      subslice x.data (o * (x.shape.getD axis 0 * (x.shape.drop (axis + 1)).prod) +
        i * (x.shape.drop (axis + 1)).prod) (x.shape.drop (axis + 1)).prod) =
      .ok ((x.data.drop (o * (x.shape.getD axis 0 * (x.shape.drop (axis + 1)).prod) +
        gatherPos (x.shape.getD axis 0) v * (x.shape.drop (axis + 1)).prod)).take
        (x.shape.drop (axis + 1)).prod) := by
  rw [(gatherIndex_ok _ _ _).2 hv, AxisOf_pos hv]
  apply subslice_ok
  exact block_le (by rw [show x.data.length = x.shape.prod from hx]; exact prod_axis hax) ho hv.1

theorem applyGather_ok {α : Type} {x : Arr α} (hx : x.WF) {idx : Arr Int} (hi : idx.WF) {axis : Nat}
    (hax : axis < x.shape.length)
    (hv : ∀ v ∈ idx.data, ∃ p, AxisOf (x.shape.getD axis 0) v p) :
    ∃ y, applyGather axis idx.data (x.shape.take axis ++ idx.shape ++ x.shape.drop (axis + 1)) x
      = .ok y ∧ IsGather axis idx x y := by
  generalize hS : (x.shape.drop (axis + 1)).prod = S
  have hblocks : (List.range (x.shape.take axis).prod).mapM (fun o =>
      idx.data.mapM fun v => do
        let i ← gatherIndex (x.shape.getD axis 0) v
        subslice x.data (o * (x.shape.getD axis 0 * S) + i * S) S) =
      .ok ((List.range (x.shape.take axis).prod).map fun o => idx.data.map fun v =>
        ((x.data.drop (o * (x.shape.getD axis 0 * S) + gatherPos (x.shape.getD axis 0) v * S)).take
          S)) := by
    apply mapM_ok
    intro o ho
    apply mapM_ok
    intro v hvm
    obtain ⟨p, hp⟩ := hv v hvm
    have := gatherCell_ok hx hax (List.mem_range.1 ho) hp
    rw [hS] at this
    exact this
  generalize hB : ((List.range (x.shape.take axis).prod).map fun o => idx.data.map fun v =>
        ((x.data.drop (o * (x.shape.getD axis 0 * S) + gatherPos (x.shape.getD axis 0) v * S)).take
          S)) = B at hblocks
  have hcell : ∀ o, o < (x.shape.take axis).prod → ∀ v ∈ idx.data,
      ((x.data.drop (o * (x.shape.getD axis 0 * S) + gatherPos (x.shape.getD axis 0) v * S)).take
          S).length = S := by
    intro o ho v hvm
    obtain ⟨p, hp⟩ := hv v hvm
    have := block_le (slice := S) (n := x.data.length) (by
      rw [show x.data.length = x.shape.prod from hx, ← hS]; exact prod_axis hax) ho hp.1
    rw [AxisOf_pos hp, List.length_take, List.length_drop]
    omega
  have hrow : ∀ b ∈ B, b.length = idx.data.length := by
    intro b hb
    rw [← hB] at hb
    obtain ⟨o, _, rfl⟩ := List.mem_map.1 hb
    simp
  have hcells : ∀ b ∈ B.flatten, b.length = S := by
    intro b hb
    rw [← hB] at hb
    obtain ⟨r, hr, hb⟩ := List.mem_flatten.1 hb
    obtain ⟨o, ho, rfl⟩ := List.mem_map.1 hr
    obtain ⟨v, hvm, rfl⟩ := List.mem_map.1 hb
    exact hcell o (List.mem_range.1 ho) v hvm
  have hBl : B.length = (x.shape.take axis).prod := by rw [← hB]; simp
  have hidx : idx.data.length = idx.shape.prod := hi
  have hlen : B.flatten.flatten.length =
      (x.shape.take axis ++ idx.shape ++ x.shape.drop (axis + 1)).prod := by
    rw [flatten_length _ hcells, flatten_length _ hrow, hBl, hidx, List.prod_append, List.prod_append,
      hS]
  refine ⟨⟨x.shape.take axis ++ idx.shape ++ x.shape.drop (axis + 1), B.flatten.flatten⟩, ?_, hlen,
    rfl, ?_⟩
  · unfold applyGather gatherPad
    rw [if_neg (by omega)]
    show (do
      let dim ← readAt .panic x.shape axis
      if (x.shape.take axis).prod * idx.data.length * (x.shape.drop (axis + 1)).prod
        ≠ (x.shape.take axis ++ idx.shape ++ x.shape.drop (axis + 1)).prod then .error .invalid
      else do
        let blocks ← (List.range (x.shape.take axis).prod).mapM fun o =>
          idx.data.mapM fun v => do
            let i ← gatherIndex dim v
            subslice x.data (o * (dim * (x.shape.drop (axis + 1)).prod) +
              i * (x.shape.drop (axis + 1)).prod) (x.shape.drop (axis + 1)).prod
        fromShapeVec (x.shape.take axis ++ idx.shape ++ x.shape.drop (axis + 1))
          (blocks.flatten.flatten)) = _
    rw [readAt_getD hax 0]
    show (if (x.shape.take axis).prod * idx.data.length * (x.shape.drop (axis + 1)).prod
        ≠ (x.shape.take axis ++ idx.shape ++ x.shape.drop (axis + 1)).prod then _ else _) = _
    rw [if_neg (by rw [List.prod_append, List.prod_append, hidx]; simp), hS, hblocks]
    exact fromShapeVec_ok hlen
  · intro before i after hb hii ha
    obtain ⟨v, hev⟩ := elem_isSome hi hii
    have hvm : v ∈ idx.data := List.mem_of_getElem? hev
    obtain ⟨p, hp⟩ := hv v hvm
    refine ⟨v, p, hev, hp, ?_⟩
    have hbl := rowMajor_lt hb
    have hil := rowMajor_lt hii
    have hal := rowMajor_lt ha
    have hb' := hb.length
    have hi' := hii.length
    unfold elem at hev ⊢
    simp only
    rw [rowMajor_append _ _ _ _ (by rw [List.length_append, List.length_append, hb', hi']),
      rowMajor_append _ _ _ _ hb', hS]
    rw [hS] at hal
    rw [flatten_getElem? _ _ _ hcells hal, ← hidx, flatten_getElem? _ _ _ hrow (by omega), ← hB,
      List.getElem?_map, List.getElem?_range hbl]
    simp only [Option.map_some, Option.bind_some, List.getElem?_map, hev]
    rw [AxisOf_pos hp, subslice_getElem? _ _ _ _ hal]
    conv_rhs => rw [split_axis hax]
    rw [rowMajor_append _ _ _ _ hb', List.prod_cons, rowMajor, hS]
    congr 1
    ring

/-- Gather of a tensor with at least one axis. -/
theorem inferGather_ok {shape idxShape : List Nat} {axisRaw : Int} {axis : Nat}
    (h : AxisOf shape.length axisRaw axis) :
    inferGather shape idxShape axisRaw =
      .ok (shape.take axis ++ idxShape ++ shape.drop (axis + 1)) := by
  obtain ⟨h1, h2⟩ := h
  unfold inferGather
  have hne : shape ≠ [] := by rintro rfl; simp at h1
  simp only [if_neg hne]
  have ha : (if axisRaw < 0 then (shape.length : Int) + axisRaw else axisRaw) = axis := by
    split_ifs <;> omega
  rw [ha, if_neg (by omega), Int.toNat_natCast, if_neg (by omega)]
  have hpad : padAxis shape axis = shape := by
    unfold padAxis
    rw [show axis + 1 - shape.length = 0 by omega]
    simp
  rw [hpad]

theorem gatherAxis_ok {shape idxShape : List Nat} {axisRaw : Int} {axis : Nat}
    (h : AxisOf shape.length axisRaw axis) :
    gatherAxis (shape.take axis ++ idxShape ++ shape.drop (axis + 1)) idxShape axisRaw
      = .ok axis := by
  obtain ⟨h1, h2⟩ := h
  have hl : (shape.take axis ++ idxShape ++ shape.drop (axis + 1)).length + 1
      = shape.length + idxShape.length := by
    simp only [List.length_append, List.length_take, List.length_drop]; omega
  unfold gatherAxis
  rw [if_neg (by omega)]
  simp only
  rw [show (shape.take axis ++ idxShape ++ shape.drop (axis + 1)).length + 1 - idxShape.length
    = shape.length by omega]
  split_ifs <;> first
    | (exfalso; omega)
    | (congr 1; omega)

theorem runGather_ok {α : Type} {x : Arr α} (hx : x.WF) {idx : Arr Int} (hi : idx.WF)
    {axisRaw : Int} {axis : Nat} (hax : AxisOf x.shape.length axisRaw axis)
    (hv : ∀ v ∈ idx.data, ∃ p, AxisOf (x.shape.getD axis 0) v p) :
    ∃ y, runGather axisRaw idx x = .ok y ∧ IsGather axis idx x y := by
  obtain ⟨y, h1, h2⟩ := applyGather_ok hx hi hax.1 hv
  refine ⟨y, ?_, h2⟩
  unfold runGather
  rw [inferGather_ok hax]
  show (do
    let axis ← gatherAxis (x.shape.take axis ++ idx.shape ++ x.shape.drop (axis + 1)) idx.shape axisRaw
    applyGather axis idx.data _ x) = _
  rw [gatherAxis_ok hax]
  exact h1

theorem NoPanic.gatherIndex (dim : Nat) (v : Int) : NoPanic (gatherIndex dim v) := by
  intro h
  have := gatherIndex_error h
  cases this

theorem padAxis_prod (s : List Nat) (axis : Nat) : (padAxis s axis).prod = s.prod := by
  simp [padAxis]

theorem padAxis_length (s : List Nat) (axis : Nat) : axis < (padAxis s axis).length := by
  simp [padAxis]; omega

theorem gatherPad_ok {α : Type} {axis : Nat} {x x' : Arr α} (hx : x.WF)
    (h : gatherPad axis x = .ok x') : x'.WF ∧ axis < x'.shape.length := by
  unfold gatherPad at h
  split_ifs at h with h1 h2
  · obtain ⟨h3, rfl⟩ := fromShapeVec_ok_iff.1 h
    exact ⟨h3, padAxis_length _ _⟩
  · cases h; exact ⟨hx, by omega⟩

/-- Gather never panics. -/
theorem applyGather_noPanic {α : Type} {x : Arr α} (hx : x.WF) (axis : Nat) (indices : List Int)
    (out : List Nat) : NoPanic (applyGather axis indices out x) := by
  unfold applyGather
  refine .bind (.ite (fun _ => .ite (fun _ => .invalid) fun _ => .fromShapeVec _ _) fun _ => .ok _)
    fun x' hx' => ?_
  obtain ⟨hw, hax⟩ := gatherPad_ok hx hx'
  refine .bind (.readAt _ hax) fun dim hd => .ite (fun _ => .invalid) fun _ => .bind (.mapM fun o ho =>
    .mapM fun v _ => .bind (.gatherIndex _ _) fun i hi => ?_) fun _ _ => .fromShapeVec _ _
  rw [readAt_getD hax 0] at hd
  cases hd
  have hp := (gatherIndex_ok _ _ _).1 hi
  unfold subslice
  rw [if_pos]
  · exact .ok _
  · exact block_le (by rw [show x'.data.length = x'.shape.prod from hw]; exact prod_axis hax)
      (List.mem_range.1 ho) hp.1

theorem runGather_noPanic {α : Type} {x : Arr α} (hx : x.WF) (axisRaw : Int) (idx : Arr Int) :
    NoPanic (runGather axisRaw idx x) := by
  unfold runGather
  refine .bind ?_ fun out _ => .bind ?_ fun axis _ => applyGather_noPanic hx _ _ _
  · unfold inferGather
    dsimp only
    generalize (if x.shape = [] then [1] else x.shape) = ds
    generalize (if axisRaw < 0 then (ds.length : Int) + axisRaw else axisRaw) = a
    exact .ite (fun _ => .invalid) fun _ => .ite (fun _ => .invalid) fun _ => .ok _
  · unfold gatherAxis
    exact .ite (fun _ => .invalid) fun _ => .ite (fun _ => .ite (fun _ => .invalid) fun _ => .ok _)
      fun _ => .ite (fun _ => .invalid) fun _ => .ok _

/-- An index outside the dimension is refused, unless there is nothing to gather. -/
theorem runGather_index_error {α : Type} {x : Arr α} (hx : x.WF) {idx : Arr Int}
    {axisRaw : Int} {axis : Nat} (hax : AxisOf x.shape.length axisRaw axis)
    (hne : (x.shape.take axis).prod ≠ 0) {v : Int} (hvm : v ∈ idx.data)
    (hv : ¬ ∃ p, AxisOf (x.shape.getD axis 0) v p) :
    runGather axisRaw idx x = .error .invalid := by
  have hnp := runGather_noPanic hx axisRaw idx
  cases hr : runGather axisRaw idx x with
  | error e =>
    cases e with
    | invalid => rfl
    | panic => exact absurd hr hnp
  | ok y =>
    exfalso
    unfold runGather at hr
    rw [inferGather_ok hax] at hr
    obtain ⟨out, h1, hr⟩ := bind_eq_ok hr
    cases h1
    obtain ⟨a, h1, hr⟩ := bind_eq_ok hr
    rw [gatherAxis_ok hax] at h1
    cases h1
    unfold applyGather at hr
    obtain ⟨x', h1, hr⟩ := bind_eq_ok hr
    unfold gatherPad at h1
    rw [if_neg (by have := hax.1; omega)] at h1
    cases h1
    obtain ⟨dim, h1, hr⟩ := bind_eq_ok hr
    rw [readAt_getD hax.1 0] at h1
    cases h1
    dsimp only at hr
    split_ifs at hr
    obtain ⟨blocks, h1, _⟩ := bind_eq_ok hr
    have h2 := mapM_ok_getElem h1 0 (by simp; omega) (by rw [mapM_ok_length h1]; simp; omega)
    obtain ⟨e, he⟩ := mapM_fails (f := fun v => do
      let i ← gatherIndex (x.shape.getD axis 0) v
      subslice x.data ((List.range (x.shape.take axis).prod)[0]'(by simp; omega) *
        (x.shape.getD axis 0 * (x.shape.drop (axis + 1)).prod) +
        i * (x.shape.drop (axis + 1)).prod) (x.shape.drop (axis + 1)).prod) hvm (e := .invalid) (by
        cases hg : gatherIndex (x.shape.getD axis 0) v with
        | error e => rw [gatherIndex_error hg]; rfl
        | ok p => exact absurd ⟨p, (gatherIndex_ok _ _ _).1 hg⟩ hv)
    rw [he] at h2
    cases h2

end JST.Layers
