import Verif.Tensor.ScatterProofs

/-! # Squeeze and Unsqueeze -/

namespace JST.Layers

open JST.Shape JST.Spec

/-- `dropAxes`, counting positions from `i`. -/
def dropFrom (axes : List Nat) : Nat → List Nat → List Nat
  | _, [] => []
  | i, d :: l => if i ∈ axes then dropFrom axes (i + 1) l else d :: dropFrom axes (i + 1) l

theorem dropFrom_zipIdx (axes : List Nat) : ∀ (l : List Nat) (i : Nat),
    ((l.zipIdx i).filter (fun di => decide (di.2 ∉ axes))).map Prod.fst = dropFrom axes i l
  | [], _ => rfl
  | d :: l, i => by
    rw [List.zipIdx_cons, dropFrom]
    by_cases h : i ∈ axes
    · rw [List.filter_cons_of_neg (by simp [h]), if_pos h, dropFrom_zipIdx]
    · rw [List.filter_cons_of_pos (by simp [h]), if_neg h, List.map_cons, dropFrom_zipIdx]

theorem dropAxes_eq (axes l : List Nat) : dropAxes axes l = dropFrom axes 0 l := by
  have key : ∀ (l : List Nat) (i : Nat),
      ((List.range l.length).filter fun j => decide (j + i ∉ axes)).map (fun j => l.getD j 0)
        = dropFrom axes i l := by
    intro l
    induction l with
    | nil => intro i; rfl
    | cons d l ih =>
      intro i
      rw [dropFrom, List.length_cons, List.range_succ_eq_map, ← ih (i + 1)]
      have hr : ((List.range l.length).map Nat.succ |>.filter fun j => decide (j + i ∉ axes)).map
          (fun j => (d :: l).getD j 0) =
          ((List.range l.length).filter fun j => decide (j + (i + 1) ∉ axes)).map
            (fun j => l.getD j 0) := by
        rw [List.filter_map, List.map_map]
        have : ((fun j => decide (j + i ∉ axes)) ∘ Nat.succ) =
            fun j => decide (j + (i + 1) ∉ axes) := by
          funext j
          simp only [Function.comp, Nat.succ_eq_add_one]
          rw [Nat.add_right_comm, Nat.add_assoc]
        rw [this]
        rfl
      by_cases h : i ∈ axes
      · rw [List.filter_cons_of_neg (by simp [h]), if_pos h, hr]
      · rw [List.filter_cons_of_pos (by simp [h]), if_neg h, List.map_cons, hr]
        rfl
  exact key l 0

/-- Unit axes at the positions `axes`, counting from `i`. -/
def UnitAt (axes : List Nat) : Nat → List Nat → Prop
  | _, [] => True
  | i, d :: l => (i ∈ axes → d = 1) ∧ UnitAt axes (i + 1) l

theorem unitAt_of (axes : List Nat) : ∀ (l : List Nat) (i : Nat),
    (∀ j, j < l.length → i + j ∈ axes → l.getD j 0 = 1) → UnitAt axes i l
  | [], _, _ => trivial
  | d :: l, i, h => by
    refine ⟨fun hi => by simpa using h 0 (by simp) (by simpa using hi), ?_⟩
    refine unitAt_of axes l (i + 1) fun j hj hm => ?_
    have := h (j + 1) (by simp; omega) (by rwa [show i + (j + 1) = i + 1 + j from by omega])
    simpa using this

theorem dropFrom_prod {axes : List Nat} : ∀ {l : List Nat} {i : Nat}, UnitAt axes i l →
    (dropFrom axes i l).prod = l.prod
  | [], _, _ => rfl
  | d :: l, i, h => by
    rw [dropFrom]
    split_ifs with hi
    · rw [dropFrom_prod h.2, List.prod_cons, h.1 hi, Nat.one_mul]
    · rw [List.prod_cons, List.prod_cons, dropFrom_prod h.2]

theorem dropFrom_coords {axes : List Nat} : ∀ {l c : List Nat} {i : Nat}, UnitAt axes i l →
    InRange l c → InRange (dropFrom axes i l) (dropFrom axes i c) ∧
      rowMajor (dropFrom axes i l) (dropFrom axes i c) = rowMajor l c
  | [], c, i, _, h => by
    cases h
    exact ⟨.nil, rfl⟩
  | d :: l, c, i, h, hc => by
    cases hc with
    | cons hx hc =>
      obtain ⟨e1, e2⟩ := dropFrom_coords h.2 hc
      rw [dropFrom, dropFrom]
      split_ifs with hi
      · refine ⟨e1, ?_⟩
        rw [e2]
        have := h.1 hi
        subst this
        simp only [rowMajor]
        have hz := hx
        simp only [Nat.lt_one_iff] at hz
        rw [hz]; simp
      · refine ⟨.cons hx e1, ?_⟩
        simp only [rowMajor]
        rw [e2, dropFrom_prod h.2]

/-- A reshape that only drops unit axes is a squeeze. -/
theorem isSqueeze_reshape {α : Type} {axes : List Nat} {x : Arr α} (hx : x.WF)
    (hu : ∀ a ∈ axes, x.shape[a]? = some 1) :
    IsSqueeze axes x ⟨dropAxes axes x.shape, x.data⟩ := by
  have hU : UnitAt axes 0 x.shape := unitAt_of _ _ _ fun j hj hm => by
    rw [Nat.zero_add] at hm
    rw [List.getD_eq_getElem?_getD, hu j hm]; rfl
  refine ⟨?_, hu, rfl, fun c hc => ?_⟩
  · show x.data.length = _
    rw [dropAxes_eq, dropFrom_prod hU]
    exact hx
  · rw [dropAxes_eq, dropAxes_eq]
    obtain ⟨e1, e2⟩ := dropFrom_coords hU hc
    refine ⟨e1, ?_⟩
    unfold elem
    simp only
    rw [e2]

/-! ### Resolving the axes -/

theorem normAxis_axisOf {rank : Nat} {a : Int} {x : Nat} :
    normAxis rank a = .ok x ↔ AxisOf rank a x := by
  rw [normAxis_ok]
  unfold AxisOf
  constructor
  · rintro ⟨h1, h2 | ⟨h2, _⟩⟩
    · exact ⟨h1, .inl h2⟩
    · exact ⟨h1, .inr h2⟩
  · rintro ⟨h1, h2 | h2⟩
    · exact ⟨h1, .inl h2⟩
    · exact ⟨h1, .inr ⟨h2, by omega⟩⟩

theorem normalizeAxes_axesOf {rank : Nat} {raw : List Int} (hr : (rank : Int) < i64Max)
    {r : List Nat} : normalizeAxes raw rank = .ok r ↔
      ∃ xs, AxesOf rank raw xs ∧ r = xs.insertionSort (· ≤ ·) := by
  unfold normalizeAxes
  rw [if_neg (by omega)]
  have hf : ∀ xs, List.Forall₂ (fun a x => normAxis rank a = .ok x) raw xs ↔
      List.Forall₂ (AxisOf rank) raw xs := fun xs => by
    constructor <;> intro h <;> refine h.imp fun a x hax => ?_
    · exact normAxis_axisOf.1 hax
    · exact normAxis_axisOf.2 hax
  cases hl : normLoop rank raw [] with
  | error e =>
    constructor
    · intro h; cases h
    · rintro ⟨xs, ⟨h1, h2⟩, _⟩
      have := (normLoop_ok rank raw [] xs).2 ⟨xs, (hf xs).2 h2, h1, by simp, rfl⟩
      rw [hl] at this; cases this
  | ok out =>
    obtain ⟨xs, h1, h2, _, h4⟩ := (normLoop_ok rank raw [] out).1 hl
    rw [List.nil_append] at h4
    subst h4
    show Except.ok _ = _ ↔ _
    rw [Except.ok.injEq]
    constructor
    · rintro rfl
      exact ⟨out, ⟨h2, (hf out).1 h1⟩, rfl⟩
    · rintro ⟨ys, ⟨_, h5⟩, rfl⟩
      have : out = ys := by
        have h1' := (hf out).1 h1
        clear * - h1' h5
        induction h1' generalizing ys with
        | nil => cases h5; rfl
        | cons ha _ ih =>
          cases h5 with
          | cons hb hbs => rw [ih _ hbs, AxisOf_unique ha hb]
      rw [this]

theorem normalizeAxes_error {rank : Nat} {raw : List Int} {e : Shape.Err}
    (h : normalizeAxes raw rank = .error e) : e = .invalid := by
  unfold normalizeAxes at h
  split_ifs at h
  · cases h; rfl
  · cases hl : normLoop rank raw [] with
    | error e' =>
      rw [hl] at h
      cases h
      exact normLoop_error _ _ _ _ hl
    | ok out => rw [hl] at h; cases h

theorem dropFrom_congr {a b : List Nat} (h : ∀ x, x ∈ a ↔ x ∈ b) : ∀ (l : List Nat) (i : Nat),
    dropFrom a i l = dropFrom b i l
  | [], _ => rfl
  | d :: l, i => by
    rw [dropFrom, dropFrom, dropFrom_congr h l]
    by_cases hi : i ∈ a
    · rw [if_pos hi, if_pos ((h i).1 hi)]
    · rw [if_neg hi, if_neg (fun k => hi ((h i).2 k))]

theorem dropAxes_congr {a b : List Nat} (h : ∀ x, x ∈ a ↔ x ∈ b) (l : List Nat) :
    dropAxes a l = dropAxes b l := by
  rw [dropAxes_eq, dropAxes_eq, dropFrom_congr h]

theorem AxesOf_lt {rank : Nat} {raw : List Int} {axes : List Nat} (h : AxesOf rank raw axes) :
    ∀ a ∈ axes, a < rank := by
  replace h := h.2
  induction h with
  | nil => simp
  | cons ha _ ih =>
    intro a hm
    rcases List.mem_cons.1 hm with rfl | hm
    · exact ha.1
    · exact ih a hm

/-! ### Squeeze -/

theorem applySqueeze_some {α : Type} {x : Arr α} {raw : List Int} {axes : List Nat} (hx : x.WF)
    (hr : (x.shape.length : Int) < i64Max) (ha : AxesOf x.shape.length raw axes)
    (hu : ∀ a ∈ axes, x.shape[a]? = some 1) :
    ∃ y, applySqueeze (some raw) x = .ok y ∧ IsSqueeze axes x y := by
  refine ⟨_, ?_, isSqueeze_reshape hx hu⟩
  unfold applySqueeze squeezeShape
  simp only
  rw [(normalizeAxes_axesOf hr).2 ⟨axes, ha, rfl⟩]
  have hm : ∀ x, x ∈ axes.insertionSort (· ≤ ·) ↔ x ∈ axes :=
    fun x => (List.perm_insertionSort _ _).mem_iff
  show (do
    let out ← (if ((axes.insertionSort (· ≤ ·)).any fun a => decide (x.shape.getD a 0 ≠ 1)) = true
      then (.error .invalid : R (List Nat))
      else .ok ((x.shape.zipIdx.filter (fun di : Nat × Nat => decide (di.2 ∉ axes.insertionSort (· ≤ ·)))).map
        Prod.fst))
    fromShapeVec out x.data) = _
  rw [if_neg (by
    simp only [List.any_eq_true, decide_eq_true_eq, not_exists, not_and, not_not]
    intro a h
    rw [List.getD_eq_getElem?_getD, hu a ((hm a).1 h)]; rfl)]
  show fromShapeVec _ _ = _
  rw [dropFrom_zipIdx, ← dropAxes_eq, dropAxes_congr hm]
  exact fromShapeVec_ok (isSqueeze_reshape hx hu).1

theorem applySqueeze_some_error {α : Type} {x : Arr α} {raw : List Int}
    (hr : (x.shape.length : Int) < i64Max)
    (h : ¬ ∃ axes, AxesOf x.shape.length raw axes ∧ ∀ a ∈ axes, x.shape[a]? = some 1) :
    applySqueeze (some raw) x = .error .invalid := by
  unfold applySqueeze squeezeShape
  simp only
  cases hn : normalizeAxes raw x.shape.length with
  | error e => rw [normalizeAxes_error hn]; rfl
  | ok r =>
    obtain ⟨axes, ha, rfl⟩ := (normalizeAxes_axesOf hr).1 hn
    have hm : ∀ x, x ∈ axes.insertionSort (· ≤ ·) ↔ x ∈ axes :=
      fun x => (List.perm_insertionSort _ _).mem_iff
    show (do
      let out ← (if ((axes.insertionSort (· ≤ ·)).any fun a => decide (x.shape.getD a 0 ≠ 1)) = true
        then (.error .invalid : R (List Nat))
        else .ok ((x.shape.zipIdx.filter (fun di : Nat × Nat => decide (di.2 ∉ axes.insertionSort (· ≤ ·)))).map
          Prod.fst))
      fromShapeVec out x.data) = _
    rw [if_pos]
    · rfl
    · by_contra hc
      refine h ⟨axes, ha, fun a hma => ?_⟩
      simp only [List.any_eq_true, decide_eq_true_eq, not_exists, not_and, not_not] at hc
      have := hc a ((hm a).2 hma)
      have hlt := AxesOf_lt ha a hma
      rw [List.getD_eq_getElem _ _ hlt] at this
      rw [List.getElem?_eq_getElem hlt, this]

/-- The axes of size one. -/
def unitAxes (shape : List Nat) : List Nat :=
  (List.range shape.length).filter fun a => shape.getD a 0 = 1

theorem dropFrom_unit (axes : List Nat) : ∀ (l : List Nat) (i : Nat),
    (∀ j, j < l.length → (i + j ∈ axes ↔ l.getD j 0 = 1)) → dropFrom axes i l = l.filter (· ≠ 1)
  | [], _, _ => rfl
  | d :: l, i, h => by
    have h0 := h 0 (by simp)
    rw [dropFrom, dropFrom_unit axes l (i + 1) (fun j hj => by
      have := h (j + 1) (by simp; omega)
      rw [show i + (j + 1) = i + 1 + j from by omega] at this
      simpa using this)]
    by_cases hd : d = 1
    · rw [if_pos (by simpa using h0.2 (by simpa using hd)), List.filter_cons_of_neg (by simp [hd])]
    · rw [if_neg (fun hi => hd (by simpa using h0.1 (by simpa using hi))),
        List.filter_cons_of_pos (by simp [hd])]

theorem applySqueeze_none {α : Type} {x : Arr α} (hx : x.WF) :
    ∃ y, applySqueeze none x = .ok y ∧ IsSqueeze (unitAxes x.shape) x y := by
  have hu : ∀ a ∈ unitAxes x.shape, x.shape[a]? = some 1 := by
    intro a ha
    simp only [unitAxes, List.mem_filter, List.mem_range, decide_eq_true_eq] at ha
    obtain ⟨h1, h2⟩ := ha
    rw [List.getD_eq_getElem _ _ h1] at h2
    rw [List.getElem?_eq_getElem h1, h2]
  refine ⟨_, ?_, isSqueeze_reshape hx hu⟩
  unfold applySqueeze squeezeShape
  show fromShapeVec _ _ = _
  have : x.shape.filter (· ≠ 1) = dropAxes (unitAxes x.shape) x.shape := by
    rw [dropAxes_eq, dropFrom_unit]
    intro j hj
    simp only [unitAxes, List.mem_filter, List.mem_range, decide_eq_true_eq, Nat.zero_add]
    exact ⟨fun h => h.2, fun h => ⟨hj, h⟩⟩
  rw [this]
  exact fromShapeVec_ok (isSqueeze_reshape hx hu).1

/-! ### Unsqueeze -/

/-- How many of the positions `i ..< i + n` are in `axes`. -/
def countIn (axes : List Nat) (i n : Nat) : Nat :=
  ((List.range n).filter fun j => i + j ∈ axes).length

theorem countIn_succ (axes : List Nat) (i n : Nat) :
    countIn axes i (n + 1) = (if i ∈ axes then 1 else 0) + countIn axes (i + 1) n := by
  unfold countIn
  rw [List.range_succ_eq_map]
  have hr : ((List.range n).map Nat.succ |>.filter fun j => decide (i + j ∈ axes)).length =
      ((List.range n).filter fun j => decide (i + 1 + j ∈ axes)).length := by
    rw [List.filter_map, List.length_map]
    congr 2
    funext j
    simp only [Function.comp, Nat.succ_eq_add_one]
    rw [show i + (j + 1) = i + 1 + j from by omega]
  by_cases h : i ∈ axes
  · rw [List.filter_cons_of_pos (by simpa using h), List.length_cons, hr, if_pos h]; omega
  · rw [List.filter_cons_of_neg (by simpa using h), hr, if_neg h]; omega

theorem unsqueezeLoop_ok (axes : List Nat) : ∀ (n i : Nat) (rest : List Nat),
    rest.length + countIn axes i n = n →
    ∃ out, unsqueezeLoop axes n i rest = .ok (out, []) ∧ out.length = n ∧ UnitAt axes i out ∧
      dropFrom axes i out = rest
  | 0, i, rest, h => by
    have : rest = [] := List.length_eq_zero_iff.1 (by omega)
    subst this
    exact ⟨[], rfl, rfl, trivial, rfl⟩
  | n + 1, i, rest, h => by
    rw [countIn_succ] at h
    by_cases hi : i ∈ axes
    · rw [if_pos hi] at h
      rw [unsqueezeLoop.eq_def]
      simp only
      rw [if_pos hi]
      obtain ⟨out, h1, h2, h3, h4⟩ := unsqueezeLoop_ok axes n (i + 1) rest (by omega)
      refine ⟨1 :: out, by rw [h1]; rfl, by simp [h2], ⟨fun _ => rfl, h3⟩, ?_⟩
      rw [dropFrom, if_pos hi, h4]
    · rw [if_neg hi] at h
      rw [unsqueezeLoop.eq_def]
      simp only
      rw [if_neg hi]
      have hc : countIn axes (i + 1) n ≤ n := by
        unfold countIn
        have := List.length_filter_le (fun j => decide (i + 1 + j ∈ axes)) (List.range n)
        simpa using this
      cases rest with
      | nil => simp at h; omega
      | cons d rest =>
        obtain ⟨out, h1, h2, h3, h4⟩ := unsqueezeLoop_ok axes n (i + 1) rest (by
          simp at h; omega)
        refine ⟨d :: out, by simp only [h1]; rfl, by simp [h2], ⟨fun h => absurd h hi, h3⟩, ?_⟩
        rw [dropFrom, if_neg hi, h4]

theorem countIn_axes {axes : List Nat} {n : Nat} (hn : axes.Nodup) (h : ∀ a ∈ axes, a < n) :
    countIn axes 0 n = axes.length := by
  unfold countIn
  apply List.Perm.length_eq
  rw [List.perm_ext_iff_of_nodup (List.nodup_range.filter _) hn]
  intro a
  simp only [Nat.zero_add, List.mem_filter, List.mem_range, decide_eq_true_eq]
  exact ⟨fun h => h.2, fun hm => ⟨h a hm, hm⟩⟩

theorem unitAt_getD {axes : List Nat} : ∀ {l : List Nat} {i : Nat}, UnitAt axes i l →
    ∀ j, i + j ∈ axes → j < l.length → l[j]? = some 1
  | [], _, _, j, _, hj => by simp at hj
  | d :: l, i, h, 0, hm, _ => by simpa using h.1 hm
  | d :: l, i, h, j + 1, hm, hj => by
    rw [List.getElem?_cons_succ]
    exact unitAt_getD h.2 j (by rwa [show i + 1 + j = i + (j + 1) from by omega]) (by simpa using hj)

theorem applyUnsqueeze_ok {α : Type} {x : Arr α} {raw : List Int} {axes : List Nat} (hx : x.WF)
    (hr : ((x.shape.length + raw.length : Nat) : Int) < i64Max)
    (ha : AxesOf (x.shape.length + raw.length) raw axes) :
    ∃ y, applyUnsqueeze raw x = .ok y ∧ y.shape.length = x.shape.length + raw.length ∧
      y.WF ∧ IsSqueeze axes y x := by
  have hlen : raw.length = axes.length := ha.2.length_eq
  have hm : ∀ x, x ∈ axes.insertionSort (· ≤ ·) ↔ x ∈ axes :=
    fun x => (List.perm_insertionSort _ _).mem_iff
  have hs : (axes.insertionSort (· ≤ ·)).Nodup := (List.perm_insertionSort _ _).nodup_iff.2 ha.1
  have hcount := countIn_axes (n := x.shape.length + raw.length) hs
    (fun a h => AxesOf_lt ha a ((hm a).1 h))
  obtain ⟨out, h1, h2, h3, h4⟩ := unsqueezeLoop_ok (axes.insertionSort (· ≤ ·))
    (x.shape.length + raw.length) 0 x.shape (by
      rw [hcount, hlen, List.length_insertionSort])
  have hprod : out.prod = x.shape.prod := by rw [← dropFrom_prod h3, h4]
  have hw : (⟨out, x.data⟩ : Arr α).WF := by
    show x.data.length = out.prod
    rw [hprod]; exact hx
  have hu : ∀ a ∈ axes, out[a]? = some 1 := by
    intro a h
    refine unitAt_getD h3 a (by rw [Nat.zero_add]; exact (hm a).2 h) ?_
    rw [h2]; exact AxesOf_lt ha a h
  refine ⟨⟨out, x.data⟩, ?_, h2, hw, ?_⟩
  · unfold applyUnsqueeze unsqueezeShape
    simp only
    rw [(normalizeAxes_axesOf hr).2 ⟨axes, ha, rfl⟩]
    show (do
      let out ← (do
        let (out, left) ← unsqueezeLoop (axes.insertionSort (· ≤ ·))
          (x.shape.length + raw.length) 0 x.shape
        if left ≠ [] then .error .invalid else .ok out)
      fromShapeVec out x.data) = _
    rw [h1]
    show fromShapeVec _ _ = _
    exact fromShapeVec_ok hw
  · have := isSqueeze_reshape hw hu
    simp only at this
    rw [← dropAxes_congr hm, dropAxes_eq, h4] at this
    exact this

theorem applyUnsqueeze_error {α : Type} {x : Arr α} {raw : List Int}
    (hr : ((x.shape.length + raw.length : Nat) : Int) < i64Max)
    (h : ¬ ∃ axes, AxesOf (x.shape.length + raw.length) raw axes) :
    applyUnsqueeze raw x = .error .invalid := by
  unfold applyUnsqueeze unsqueezeShape
  simp only
  cases hn : normalizeAxes raw (x.shape.length + raw.length) with
  | error e => rw [normalizeAxes_error hn]; rfl
  | ok r =>
    obtain ⟨axes, ha, rfl⟩ := (normalizeAxes_axesOf hr).1 hn
    exact absurd ⟨axes, ha⟩ h

/-- Both layers keep the flat list of elements. -/
theorem applySqueeze_data {α : Type} {axes : Option (List Int)} {x y : Arr α}
    (h : applySqueeze axes x = .ok y) : y.data = x.data := by
  unfold applySqueeze at h
  obtain ⟨out, _, h2⟩ := bind_eq_ok h
  unfold fromShapeVec at h2
  split_ifs at h2
  cases h2; rfl

theorem applyUnsqueeze_data {α : Type} {axes : List Int} {x y : Arr α}
    (h : applyUnsqueeze axes x = .ok y) : y.data = x.data := by
  unfold applyUnsqueeze at h
  obtain ⟨out, _, h2⟩ := bind_eq_ok h
  unfold fromShapeVec at h2
  split_ifs at h2
  cases h2; rfl

/-- Squeezing the axes an Unsqueeze inserted gives the tensor back. -/
theorem squeeze_unsqueeze {α : Type} {x : Arr α} {raw : List Int} {axes : List Nat} (hx : x.WF)
    (hr : ((x.shape.length + raw.length : Nat) : Int) < i64Max)
    (ha : AxesOf (x.shape.length + raw.length) raw axes) :
    ∃ y, applyUnsqueeze raw x = .ok y ∧ applySqueeze (some raw) y = .ok x := by
  obtain ⟨y, h1, h2, h3, h4⟩ := applyUnsqueeze_ok hx hr ha
  obtain ⟨z, k1, k2⟩ := applySqueeze_some (raw := raw) (axes := axes) h3 (by rw [h2]; exact hr)
    (by rw [h2]; exact ha) h4.2.1
  refine ⟨y, h1, ?_⟩
  rw [k1]
  have hd := applySqueeze_data k1
  have hd' := applyUnsqueeze_data h1
  have hs : z.shape = x.shape := by rw [k2.2.2.1, h4.2.2.1]
  have : z = x := by
    cases z; cases x
    simp only at hs hd hd'
    rw [hs, hd, hd']
  rw [this]

/-- Unsqueezing the axes a Squeeze removed gives the tensor back. -/
theorem unsqueeze_squeeze {α : Type} {x : Arr α} {raw : List Int} {axes : List Nat} (hx : x.WF)
    (hr : (x.shape.length : Int) < i64Max) (ha : AxesOf x.shape.length raw axes)
    (hu : ∀ a ∈ axes, x.shape[a]? = some 1) :
    ∃ y, applySqueeze (some raw) x = .ok y ∧ applyUnsqueeze raw y = .ok x := by
  obtain ⟨y, h1, h2⟩ := applySqueeze_some hx hr ha hu
  have hlen : raw.length = axes.length := ha.2.length_eq
  have hcount := countIn_axes (n := x.shape.length) ha.1 (AxesOf_lt ha)
  have hdl : ∀ (l : List Nat) (i : Nat), (dropFrom axes i l).length + countIn axes i l.length =
      l.length := by
    intro l
    induction l with
    | nil => intro i; rfl
    | cons d l ih =>
      intro i
      have := ih (i + 1)
      rw [dropFrom, List.length_cons, countIn_succ]
      split_ifs
      · omega
      · rw [List.length_cons]; omega
  have hyl : y.shape.length + raw.length = x.shape.length := by
    rw [h2.2.2.1, dropAxes_eq, hlen, ← hcount]
    exact hdl _ _
  obtain ⟨z, k1, k2, k3, k4⟩ := applyUnsqueeze_ok (x := y) (raw := raw) (axes := axes) h2.1
    (by rw [hyl]; exact hr) (by rw [hyl]; exact ha)
  refine ⟨y, h1, ?_⟩
  rw [k1]
  have hsame : ∀ (l l' : List Nat) (i : Nat), l.length = l'.length → UnitAt axes i l →
      UnitAt axes i l' → dropFrom axes i l = dropFrom axes i l' → l = l' := by
    intro l
    induction l with
    | nil => intro l' i h _ _ _; exact (List.length_eq_zero_iff.1 h.symm).symm
    | cons d l ih =>
      intro l' i h u1 u2 hd
      cases l' with
      | nil => simp at h
      | cons d' l' =>
        rw [dropFrom, dropFrom] at hd
        by_cases hi : i ∈ axes
        · rw [if_pos hi, if_pos hi] at hd
          rw [u1.1 hi, u2.1 hi, ih l' (i + 1) (by simpa using h) u1.2 u2.2 hd]
        · rw [if_neg hi, if_neg hi] at hd
          injection hd with e1 e2
          rw [e1, ih l' (i + 1) (by simpa using h) u1.2 u2.2 e2]
  have hunit : ∀ (s : List Nat), (∀ a ∈ axes, s[a]? = some 1) → UnitAt axes 0 s := fun s h =>
    unitAt_of _ _ _ fun j _ hm => by
      rw [Nat.zero_add] at hm
      rw [List.getD_eq_getElem?_getD, h j hm]; rfl
  have hs : z.shape = x.shape := by
    refine hsame _ _ 0 (by rw [k2, hyl]) (hunit _ k4.2.1) (hunit _ hu) ?_
    rw [← dropAxes_eq, ← dropAxes_eq, ← k4.2.2.1, h2.2.2.1]
  have hd := applySqueeze_data h1
  have hd' := applyUnsqueeze_data k1
  have : z = x := by
    cases z; cases x
    simp only at hs hd hd'
    rw [hs, hd', hd]
  rw [this]

end JST.Layers
