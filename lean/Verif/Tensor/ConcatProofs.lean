import Verif.Tensor.SplitProofs

/-! # Concat, and its relation to Split -/

namespace JST.Layers

open JST.Shape JST.Spec

/-- Two tensors of the same shape with the same elements are equal. -/
theorem arr_ext {α : Type} {x y : Arr α} (hx : x.WF) (hy : y.WF) (hs : x.shape = y.shape)
    (h : ∀ c, InRange x.shape c → elem x c = elem y c) : x = y := by
  obtain ⟨sx, dx⟩ := x
  obtain ⟨sy, dy⟩ := y
  simp only at hs
  subst hs
  congr 1
  have hx' : dx.length = sx.prod := hx
  have hy' : dy.length = sx.prod := hy
  apply List.ext_getElem?
  intro i
  by_cases hi : i < sx.prod
  · have := h (unravel i sx) (unravel_inRange hi)
    simpa [elem, rowMajor_unravel hi] using this
  · rw [List.getElem?_eq_none (by omega), List.getElem?_eq_none (by omega)]

/-- Elements read through coordinates. -/
theorem elem_getD {α : Type} {x : Arr α} (hx : x.WF) {c : List Nat} (hc : InRange x.shape c) (d : α) :
    elem x c = some (x.data.getD (rowMajor x.shape c) d) := by
  have h := rowMajor_lt hc
  have hx' : x.data.length = x.shape.prod := hx
  unfold elem
  rw [List.getD_eq_getElem _ _ (by omega), List.getElem?_eq_getElem]

/-- Finding the array that holds a position of the axis. -/
theorem locate_at {α : Type} (axis : Nat) : ∀ (xs : List (Arr α)) (k : Nat) (x : Arr α) (j : Nat),
    xs[k]? = some x → j < x.shape.getD axis 0 →
    locate axis xs (j + ((axisSizes axis xs).take k).sum) = some (x, j)
  | [], k, x, j, h, _ => by simp at h
  | a :: as, 0, x, j, h, hj => by
    simp only [List.getElem?_cons_zero, Option.some.injEq] at h
    subst h
    show locate axis (a :: as) j = _
    simp only [locate]
    rw [if_pos hj]
  | a :: as, k + 1, x, j, h, hj => by
    have ih := locate_at axis as k x j (by simpa using h) hj
    simp only [axisSizes, List.map_cons, List.take_succ_cons, List.sum_cons] at ih ⊢
    simp only [locate]
    rw [if_neg (by omega)]
    rw [← ih]
    congr 1
    omega

/-- Every position of the axis lies in one of the arrays. -/
theorem position_split (sizes : List Nat) : ∀ i, i < sizes.sum →
    ∃ k j, k < sizes.length ∧ j < sizes.getD k 0 ∧ i = j + (sizes.take k).sum := by
  induction sizes with
  | nil => intro i h; simp at h
  | cons s sizes ih =>
    intro i h
    by_cases hi : i < s
    · exact ⟨0, i, by simp, by simpa using hi, by simp⟩
    · rw [List.sum_cons] at h
      obtain ⟨k, j, h1, h2, h3⟩ := ih (i - s) (by omega)
      exact ⟨k + 1, j, by simpa using h1, by simpa using h2, by
        rw [List.take_succ_cons, List.sum_cons]; omega⟩

theorem take_sum_add_le (sizes : List Nat) (k : Nat) (hk : k < sizes.length) :
    (sizes.take k).sum + sizes.getD k 0 ≤ sizes.sum := by
  have h := List.sum_take_add_sum_drop sizes k
  rw [List.drop_eq_getElem_cons hk, List.sum_cons] at h
  rw [List.getD_eq_getElem _ _ hk]
  omega

theorem set_eq_of_agree {s t : List Nat} {axis : Nat} (hl : s.length = t.length)
    (h : ∀ a, a ≠ axis → s.getD a 0 = t.getD a 0) (ha : axis < s.length) :
    s = t.set axis (s.getD axis 0) := by
  apply List.ext_getElem
  · simpa using hl
  · intro a h1 h2
    rw [List.getElem_set]
    by_cases hax : axis = a
    · subst hax
      rw [if_pos rfl, List.getD_eq_getElem _ _ h1]
    · rw [if_neg hax]
      have := h a (fun hh => hax hh.symm)
      rwa [List.getD_eq_getElem _ _ h1, List.getD_eq_getElem _ _ (by omega)] at this

theorem set_zero_eq_iff {s t : List Nat} {axis : Nat} (hl : s.length = t.length) :
    s.set axis 0 = t.set axis 0 ↔ ∀ a, a ≠ axis → s.getD a 0 = t.getD a 0 := by
  constructor
  · intro h a ha
    have := congrArg (fun l => l.getD a 0) h
    simp only [List.getD_eq_getElem?_getD] at this ⊢
    rwa [List.getElem?_set_ne (by omega), List.getElem?_set_ne (by omega)] at this
  · intro h
    apply List.ext_getElem
    · simpa using hl
    · intro a h1 h2
      rw [List.getElem_set, List.getElem_set]
      by_cases hax : axis = a
      · rw [if_pos hax, if_pos hax]
      · rw [if_neg hax, if_neg hax]
        have := h a (fun hh => hax hh.symm)
        simp only [List.length_set] at h1 h2
        rwa [List.getD_eq_getElem _ _ h1, List.getD_eq_getElem _ _ h2] at this

theorem concatenate_ok {α : Type} [Inhabited α] {axis : Nat} {x : Arr α} {rest : List (Arr α)}
    (hw : ∀ a ∈ x :: rest, a.WF) (hax : axis < x.shape.length)
    (hs : ConcatShapes axis ((x :: rest).map (·.shape))) :
    ∃ y, concatenate axis (x :: rest) = .ok y ∧ IsPartition axis (x :: rest) y ∧
      y.shape = x.shape.set axis (axisSizes axis (x :: rest)).sum := by
  have hsh : ∀ a ∈ x :: rest, a.shape.length = x.shape.length ∧
      ∀ b, b ≠ axis → a.shape.getD b 0 = x.shape.getD b 0 := fun a ha =>
    hs _ (List.mem_map_of_mem ha) _ (List.mem_map_of_mem (by simp))
  refine ⟨⟨x.shape.set axis (axisSizes axis (x :: rest)).sum,
      (List.range (x.shape.set axis (axisSizes axis (x :: rest)).sum).prod).map fun flat =>
        match locate axis (x :: rest)
          ((unravel flat (x.shape.set axis (axisSizes axis (x :: rest)).sum)).getD axis 0) with
        | some (a, i) => a.data.getD ((ravel ((unravel flat
            (x.shape.set axis (axisSizes axis (x :: rest)).sum)).set axis i) a.shape).getD 0) default
        | none => default⟩, ?_, ⟨?_, ?_, ?_, ?_⟩, ?_⟩
  · unfold concatenate
    simp only
    rw [if_neg (by omega), if_neg]
    · rfl
    · simp only [List.any_eq_true, decide_eq_true_eq, not_exists, not_and, not_or, not_not, ne_eq]
      intro a ha
      obtain ⟨h1, h2⟩ := hsh a (by simp [ha])
      exact ⟨h1, (set_zero_eq_iff h1).2 h2⟩
  · simp [Arr.WF]
  · simpa using hax
  · simp only
    rw [getD_set _ _ _ _ _ hax, if_pos rfl]
  · intro k a hk
    have hmem : a ∈ x :: rest := List.mem_of_getElem? hk
    obtain ⟨hl, hagree⟩ := hsh a hmem
    have hklt := (List.getElem?_eq_some_iff.1 hk).1
    have hksz : (axisSizes axis (x :: rest)).getD k 0 = a.shape.getD axis 0 := by
      unfold axisSizes
      rw [List.getD_eq_getElem?_getD, List.getElem?_map, hk]
      rfl
    have hle := take_sum_add_le (axisSizes axis (x :: rest)) k (by simpa [axisSizes] using hklt)
    rw [hksz] at hle
    have hsa := set_eq_of_agree hl hagree (by omega)
    rw [isPart_iff (by simpa using hax)]
    simp only
    refine ⟨by rw [List.set_set]; exact hsa, hw a hmem, fun c hc => ?_⟩
    have hcl := hc.length
    have hj : c.getD axis 0 < a.shape.getD axis 0 := (inRange_iff.1 hc).2 axis (by omega)
    have hin : InRange (x.shape.set axis (axisSizes axis (x :: rest)).sum)
        (c.set axis (c.getD axis 0 + ((axisSizes axis (x :: rest)).take k).sum)) := by
      apply part_src_inRange (size := a.shape.getD axis 0) (by simpa using hax)
      · rw [getD_set _ _ _ _ _ hax, if_pos rfl]
        exact hle
      · rw [List.set_set, ← hsa]; exact hc
    refine ⟨hin, ?_⟩
    rw [elem_tabulate _ _ _ hin, unravel_rowMajor hin, getD_set _ _ _ _ _ (by omega), if_pos rfl,
      locate_at axis (x :: rest) k a _ hk hj]
    simp only
    rw [List.set_set, show c.set axis (c.getD axis 0) = c by
      rw [List.getD_eq_getElem _ _ (by omega), List.set_getElem_self], ravel_eq hcl]
    exact elem_getD (hw a hmem) hc default
  · rfl

theorem inferConcatLoop_ok {axis : Nat} {first : List Nat} (hax : axis < first.length) :
    ∀ (rest : List (List Nat)) (out : List Nat), out.length = first.length →
    (∀ s ∈ rest, s.length = first.length ∧ ∀ a, a ≠ axis → s.getD a 0 = first.getD a 0) →
    ∃ r, inferConcatLoop axis first rest out = .ok r
  | [], out, _, _ => ⟨out, rfl⟩
  | s :: rest, out, hl, h => by
    obtain ⟨h1, h2⟩ := h s (by simp)
    simp only [inferConcatLoop]
    rw [if_neg (by simpa using h1), if_neg (by
      simp only [List.any_eq_true, List.mem_range, decide_eq_true_eq, not_exists, not_and, not_not,
        ne_eq]
      intro i _ hi
      exact h2 i hi), readAt_getD (by omega) 0, readAt_getD (by omega) 0]
    show ∃ r, (do
      let out ← writeAt out axis (out.getD axis 0 + s.getD axis 0)
      inferConcatLoop axis first rest out) = .ok r
    rw [writeAt_ok (by omega)]
    exact inferConcatLoop_ok hax rest _ (by simpa using hl) fun t ht => h t (by simp [ht])

theorem inferConcatLoop_valid {axis : Nat} {first : List Nat} :
    ∀ (rest : List (List Nat)) (out r : List Nat), inferConcatLoop axis first rest out = .ok r →
    (∀ s ∈ rest, s.length = first.length ∧ ∀ a, a ≠ axis → s.getD a 0 = first.getD a 0)
  | [], _, _, _ => by simp
  | s :: rest, out, r, h => by
    simp only [inferConcatLoop] at h
    split_ifs at h with h1 h2
    obtain ⟨_, _, h⟩ := bind_eq_ok h
    obtain ⟨_, _, h⟩ := bind_eq_ok h
    obtain ⟨_, _, h⟩ := bind_eq_ok h
    intro t ht
    rcases List.mem_cons.1 ht with rfl | ht
    · have h1' : t.length = first.length := by simpa using h1
      refine ⟨h1', fun a ha => ?_⟩
      simp only [List.any_eq_true, List.mem_range, decide_eq_true_eq, not_exists, not_and, not_not,
        ne_eq] at h2
      by_cases hl : a < first.length
      · exact h2 a hl ha
      · rw [List.getD_eq_default _ _ (by omega), List.getD_eq_default _ _ (by omega)]
    · exact inferConcatLoop_valid rest _ r h t ht

theorem runConcat_ok {α : Type} [Inhabited α] {axisRaw : Int} {axis rank : Nat} {xs : List (Arr α)}
    (hne : xs ≠ []) (hw : ∀ x ∈ xs, x.WF) (hr : ∀ x ∈ xs, x.shape.length = rank)
    (hax : AxisOf rank axisRaw axis) (hs : ConcatShapes axis (xs.map (·.shape))) :
    ∃ y, runConcat axisRaw xs = .ok y ∧ IsPartition axis xs y := by
  cases xs with
  | nil => exact absurd rfl hne
  | cons x rest =>
    have hx : x.shape.length = rank := hr x (by simp)
    obtain ⟨y, h1, h2, _⟩ := concatenate_ok hw (by rw [hx]; exact hax.1) hs
    refine ⟨y, ?_, h2⟩
    have hax' : layerAxis x.shape.length axisRaw = .ok axis := by
      rw [hx]; exact (layerAxis_ok _ _ _).2 hax
    obtain ⟨r, hr'⟩ := inferConcatLoop_ok (axis := axis) (first := x.shape) (by rw [hx]; exact hax.1)
      (rest.map (·.shape)) x.shape rfl (by
        intro s hs'
        exact hs s (by simp only [List.map_cons, List.mem_cons]; exact .inr hs') _ (by simp))
    have hi : inferConcat ((x :: rest).map (·.shape)) axisRaw = .ok r := by
      rw [List.map_cons]
      unfold inferConcat
      simp only
      rw [hax']
      exact hr'
    unfold runConcat
    simp only
    rw [hi, hax']
    exact h1

theorem runConcat_valid {α : Type} [Inhabited α] {axisRaw : Int} {xs : List (Arr α)} {y : Arr α}
    (h : runConcat axisRaw xs = .ok y) : xs ≠ [] ∧ ∃ axis rank, (∀ x ∈ xs, x.shape.length = rank) ∧
      AxisOf rank axisRaw axis ∧ ConcatShapes axis (xs.map (·.shape)) := by
  cases xs with
  | nil => cases h
  | cons x rest =>
    refine ⟨by simp, ?_⟩
    simp only [runConcat, List.map_cons, inferConcat] at h
    obtain ⟨r, hr, h⟩ := bind_eq_ok h
    obtain ⟨axis, hax, hl⟩ := bind_eq_ok hr
    have hv := inferConcatLoop_valid _ _ _ hl
    have hall : ∀ s ∈ (x :: rest).map (fun b : Arr α => b.shape), s.length = x.shape.length ∧
        ∀ a, a ≠ axis → s.getD a 0 = x.shape.getD a 0 := by
      intro s hs
      rw [List.map_cons, List.mem_cons] at hs
      rcases hs with rfl | hs
      · exact ⟨rfl, fun _ _ => rfl⟩
      · exact hv s hs
    refine ⟨axis, x.shape.length, fun a ha => (hall _ (List.mem_map_of_mem ha)).1,
      (layerAxis_ok _ _ _).1 hax, fun s hs t ht => ?_⟩
    obtain ⟨a1, a2⟩ := hall s hs
    obtain ⟨b1, b2⟩ := hall t ht
    exact ⟨a1.trans b1.symm, fun a ha => (a2 a ha).trans (b2 a ha).symm⟩

theorem inferConcatLoop_noPanic {axis : Nat} {first : List Nat} (hax : axis < first.length) :
    ∀ (rest : List (List Nat)) (out : List Nat), out.length = first.length →
    NoPanic (inferConcatLoop axis first rest out)
  | [], out, _ => .ok _
  | s :: rest, out, hl => by
    simp only [inferConcatLoop]
    refine .ite (fun _ => .invalid) fun h => .ite (fun _ => .invalid) fun _ => ?_
    have h' : s.length = first.length := by simpa using h
    refine .bind (.readAt _ (by omega)) fun a _ => .bind (.readAt _ (by omega)) fun b _ =>
      .bind (.writeAt _ (by omega)) fun o ho => inferConcatLoop_noPanic hax rest o ?_
    rw [(writeAt_ok_iff.1 ho).2]
    simpa using hl

theorem NoPanic.concatenate {α : Type} [Inhabited α] (axis : Nat) (xs : List (Arr α)) :
    NoPanic (concatenate axis xs) := by
  cases xs with
  | nil => exact .invalid
  | cons x rest => exact .ite (fun _ => .invalid) fun _ => .ite (fun _ => .invalid) fun _ => .ok _

theorem runConcat_noPanic {α : Type} [Inhabited α] (axisRaw : Int) (xs : List (Arr α)) :
    NoPanic (runConcat axisRaw xs) := by
  cases xs with
  | nil => exact .invalid
  | cons x rest =>
    refine .bind (.bind (.layerAxis _ _) fun a ha => inferConcatLoop_noPanic
      ((layerAxis_ok _ _ _).1 ha).1 _ _ rfl) fun _ _ => .bind (.layerAxis _ _) fun _ _ =>
      .concatenate _ _

/-! ### Concatenation and parts determine each other -/

/-- The tensor is determined by its parts. -/
theorem IsPartition_unique {α : Type} {axis : Nat} {xs : List (Arr α)} {y z : Arr α}
    (hne : xs ≠ []) (hy : IsPartition axis xs y) (hz : IsPartition axis xs z) : y = z := by
  obtain ⟨wy, ay, sy, py⟩ := hy
  obtain ⟨wz, az, sz, pz⟩ := hz
  have hshape : y.shape = z.shape := by
    cases xs with
    | nil => exact absurd rfl hne
    | cons x rest =>
      have h1 := ((isPart_iff ay).1 (py 0 x rfl)).1
      have h2 := ((isPart_iff az).1 (pz 0 x rfl)).1
      have h3 : y.shape.set axis (x.shape.getD axis 0) = z.shape.set axis (x.shape.getD axis 0) :=
        h1.symm.trans h2
      have h4 := congrArg (fun l => l.set axis (axisSizes axis (x :: rest)).sum) h3
      simp only [List.set_set] at h4
      rw [sy] at h4
      nth_rw 2 [← sy] at h4
      rw [sz] at h4
      rwa [List.getD_eq_getElem _ _ ay, List.getD_eq_getElem _ _ az, List.set_getElem_self,
        List.set_getElem_self] at h4
  refine arr_ext wy wz hshape fun c hc => ?_
  have hcl := hc.length
  have hi := (inRange_iff.1 hc).2 axis ay
  rw [← sy] at hi
  obtain ⟨k, j, h1, h2, h3⟩ := position_split _ _ hi
  have hk : k < xs.length := by simpa [axisSizes] using h1
  have hsz : (axisSizes axis xs).getD k 0 = xs[k].shape.getD axis 0 := by
    rw [List.getD_eq_getElem _ _ h1]; simp [axisSizes]
  rw [hsz] at h2
  have hpy := (isPart_iff ay).1 (py k xs[k] (List.getElem?_eq_getElem hk))
  have hpz := (isPart_iff az).1 (pz k xs[k] (List.getElem?_eq_getElem hk))
  have hin : InRange xs[k].shape (c.set axis j) := by
    rw [hpy.1, inRange_iff]
    refine ⟨by simpa using hcl, fun a ha => ?_⟩
    rw [getD_set _ _ _ _ _ (by omega), getD_set _ _ _ _ _ ay]
    split_ifs with hax
    · exact h2
    · exact (inRange_iff.1 hc).2 a (by simpa using ha)
  have ey := (hpy.2.2 _ hin).2
  have ez := (hpz.2.2 _ hin).2
  have hback : (c.set axis j).set axis ((c.set axis j).getD axis 0 +
      ((axisSizes axis xs).take k).sum) = c := by
    rw [List.set_set, getD_set _ _ _ _ _ (by omega), if_pos rfl, ← h3,
      List.getD_eq_getElem _ _ (by omega), List.set_getElem_self]
  rw [hback] at ey ez
  exact ey.symm.trans ez

/-- A part is determined by the tensor, the offset and the size. -/
theorem IsPart_unique {α : Type} {axis off size : Nat} {x y z : Arr α} (h : axis < x.shape.length)
    (hy : IsPart axis off size x y) (hz : IsPart axis off size x z) : y = z := by
  obtain ⟨y1, y2, y3⟩ := (isPart_iff h).1 hy
  obtain ⟨z1, z2, z3⟩ := (isPart_iff h).1 hz
  refine arr_ext y2 z2 (y1.trans z1.symm) fun c hc => ?_
  rw [(y3 c hc).2, (z3 c (by rw [z1, ← y1]; exact hc)).2]

/-- The parts of a tensor can be concatenated. -/
theorem partition_concatShapes {α : Type} {axis : Nat} {xs : List (Arr α)} {y : Arr α}
    (h : IsPartition axis xs y) : ConcatShapes axis (xs.map (·.shape)) ∧
      (∀ x ∈ xs, x.shape.length = y.shape.length) ∧ ∀ x ∈ xs, x.WF := by
  obtain ⟨wy, ay, sy, py⟩ := h
  have hx : ∀ x ∈ xs, x.shape = y.shape.set axis (x.shape.getD axis 0) ∧ x.WF := by
    intro x hx
    obtain ⟨k, hk, rfl⟩ := List.mem_iff_getElem.1 hx
    have := (isPart_iff ay).1 (py k _ (List.getElem?_eq_getElem hk))
    exact ⟨this.1, this.2.1⟩
  have hd : ∀ s ∈ xs.map (·.shape), s.length = y.shape.length ∧
      ∀ a, a ≠ axis → s.getD a 0 = y.shape.getD a 0 := by
    intro s hs
    obtain ⟨x, hxm, rfl⟩ := List.mem_map.1 hs
    have e := (hx x hxm).1
    constructor
    · rw [e]; simp
    · intro a ha
      rw [e, getD_set _ _ _ _ _ ay, if_neg ha]
  refine ⟨fun s hs t ht => ?_, fun x hxm => (hd _ (List.mem_map_of_mem hxm)).1,
    fun x hxm => (hx x hxm).2⟩
  obtain ⟨a1, a2⟩ := hd s hs
  obtain ⟨b1, b2⟩ := hd t ht
  exact ⟨a1.trans b1.symm, fun a ha => (a2 a ha).trans (b2 a ha).symm⟩

/-- Concatenating the outputs of a Split gives the input back. -/
theorem runConcat_runSplit {α : Type} [Inhabited α] {axisRaw : Int} {attr : Option (List Int)}
    {n : Nat} {x : Arr α} (hx : x.WF) {ys : List (Arr α)}
    (h : runSplit axisRaw attr n x = .ok ys) : runConcat axisRaw ys = .ok x := by
  obtain ⟨hn, axis, sizes, hax, hs⟩ := runSplit_valid h
  obtain ⟨ys', h1, h2, h3⟩ := runSplit_ok x hx hax hs hn
  rw [h] at h1; cases h1
  have hne : ys ≠ [] := by
    rintro rfl
    have := hs.1
    rw [← h2] at this
    simp [axisSizes] at this
    omega
  obtain ⟨c1, c2, c3⟩ := partition_concatShapes h3
  obtain ⟨y, hy, hy'⟩ := runConcat_ok hne c3 c2 hax c1
  rw [hy, IsPartition_unique hne hy' h3]

/-- Splitting a concatenation at the sizes of its inputs gives the inputs back. -/
theorem runSplit_runConcat {α : Type} [Inhabited α] {axisRaw : Int} {axis : Nat}
    {xs : List (Arr α)} {y : Arr α} (hw : ∀ x ∈ xs, x.WF)
    (hax : AxisOf y.shape.length axisRaw axis) (h : runConcat axisRaw xs = .ok y) :
    runSplit axisRaw (some ((axisSizes axis xs).map Int.ofNat)) xs.length y = .ok xs := by
  obtain ⟨hne, axis', rank, hr, hax', hcs⟩ := runConcat_valid h
  obtain ⟨y', h1, h2⟩ := runConcat_ok hne hw hr hax' hcs
  rw [h] at h1; cases h1
  have hrk : y.shape.length = rank := by
    cases xs with
    | nil => exact absurd rfl hne
    | cons x rest =>
      rw [← hr x (by simp)]
      exact ((partition_concatShapes h2).2.1 x (by simp)).symm
  have haxes : axis = axis' := by
    rw [hrk] at hax
    obtain ⟨p1, p2⟩ := hax
    obtain ⟨q1, q2⟩ := hax'
    omega
  subst haxes
  have hss : SplitSizes (y.shape.getD axis 0) xs.length
      (some ((axisSizes axis xs).map Int.ofNat)) (axisSizes axis xs) :=
    ⟨by simp [axisSizes], h2.2.2.1, rfl⟩
  obtain ⟨zs, hz1, hz2, hz3⟩ := runSplit_ok y h2.1 hax hss (by
    intro hl; exact hne (List.eq_nil_of_length_eq_zero hl))
  rw [hz1]
  congr 1
  have hlen : zs.length = xs.length := by
    have := congrArg List.length hz2
    simpa [axisSizes] using this
  apply List.ext_getElem hlen
  intro k k1 k2
  have pz := hz3.2.2.2 k _ (List.getElem?_eq_getElem k1)
  have px := h2.2.2.2 k _ (List.getElem?_eq_getElem k2)
  rw [hz2] at pz
  have hsz : zs[k].shape.getD axis 0 = xs[k].shape.getD axis 0 := by
    have := congrArg (fun l => l.getD k 0) hz2
    simpa [axisSizes, List.getD_eq_getElem?_getD, k1, k2] using this
  rw [hsz] at pz
  exact IsPart_unique h2.2.1 pz px

end JST.Layers
