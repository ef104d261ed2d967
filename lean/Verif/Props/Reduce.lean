import Verif.Tensor.ReduceProofs
import Verif.Gadgets.MeanProofs2
import Verif.Gadgets.Replay
import Verif.Props.Pool

/-!
# C55: the reduction layers

The specification is `lane` (the entries contributing to an output position), `reduceShape`,
`ReduceAxes` (which axes are meant) and `roundedMean` in `Verif/Spec/Numeric.lean`.
-/

namespace JST.Props

open JST.Shape JST.Layers JST.Spec

/-- The output of a reduction: its shape, and what holds of the lane at every position. -/
def IsReduced {α β : Type} (x : Arr α) (keep : Bool) (axes : List Nat) (Q : List α → β → Prop)
    (out : Arr β) : Prop :=
  out.shape = reduceShape keep axes x.shape ∧ out.WF ∧ ∀ o, InRange out.shape o →
    ∃ v, elem out o = some v ∧ Q (lane keep axes x o) v

/-- Number of entries in a lane. -/
def laneSize (axes shape : List Nat) : Nat := (axes.map fun a => shape.getD a 0).prod

theorem lane_map {α β : Type} (f : α → β) {x : Arr α} {keep : Bool} {axes o : List Nat} :
    lane keep axes ⟨x.shape, x.data.map f⟩ o = (lane keep axes x o).map f := by
  unfold lane
  rw [List.map_filterMap]
  congr 1; funext c
  simp only [elem, List.getElem?_map]

theorem lane_cast {p : Nat} (x : Arr Int) (keep : Bool) (axes o : List Nat) :
    lane keep axes (castArr p x) o = (lane keep axes x o).map fun z : Int => (z : ZMod p) :=
  lane_map (fun z : Int => (z : ZMod p)) (x := x)

theorem lane_mem {α : Type} {x : Arr α} {keep : Bool} {axes o : List Nat} {v : α}
    (h : v ∈ lane keep axes x o) : v ∈ x.data := by
  simp only [lane, List.mem_filterMap] at h
  obtain ⟨q, _, e⟩ := h
  exact List.mem_of_getElem? e

theorem length_filterMap_some {α β : Type} {f : α → Option β} : ∀ {l : List α},
    (∀ a ∈ l, (f a).isSome = true) → (l.filterMap f).length = l.length
  | [], _ => rfl
  | a :: l, h => by
    obtain ⟨b, hb⟩ := Option.isSome_iff_exists.1 (h a (by simp))
    rw [List.filterMap_cons_some hb, List.length_cons, List.length_cons,
      length_filterMap_some fun c hc => h c (List.mem_cons_of_mem _ hc)]

theorem lane_length {α : Type} {x : Arr α} (hw : x.WF) {keep : Bool} {axes o : List Nat}
    (ha : axes = axesFrom axes 0 x.shape.length) (ho : InRange (reduceShape keep axes x.shape) o) :
    (lane keep axes x o).length = laneSize axes x.shape := by
  have h1 : (lane keep axes x o).length =
      ((coordsOf x.shape).filter fun c => decide (collapse keep axes c = o)).length := by
    unfold lane
    refine length_filterMap_some fun c hc => ?_
    have hc := mem_coordsOf.1 (List.mem_filter.1 hc).1
    have := rowMajor_lt hc
    unfold elem
    rw [List.getElem?_eq_getElem (by rw [hw]; exact this)]
    rfl
  rw [h1]
  simp only [collapse_eq]
  rw [filter_collapse _ _ _ _ _ (by rwa [← reduceShape_eq]), List.length_map, length_coordsOf]
  have := sizes_eq axes x.shape []
  simp only [List.length_nil, List.nil_append] at this
  rw [← this, ← ha]
  rfl

section Generic

variable {F : Type} [CommRing F] {T : Tables F}

theorem collected {β : Type} {s : List Nat} {R : List Nat → β → Prop} {ys : List β}
    (h : List.Forall₂ (fun k v => R (unravel k s) v) (List.range s.prod) ys) :
    ys.length = s.prod ∧ ∀ o, InRange s o → ∃ v, elem ⟨s, ys⟩ o = some v ∧ R o v := by
  refine ⟨by rw [← h.length_eq, List.length_range], fun o ho => ?_⟩
  have hk := rowMajor_lt ho
  have hr : (List.range s.prod)[rowMajor s o]? = some (rowMajor s o) := by simp [hk]
  obtain ⟨v, h1, h2⟩ := forall₂_getElem? h hr
  rw [unravel_rowMajor ho] at h2
  exact ⟨v, h1, h2⟩

theorem sound_reduceAll {f : List F → G F F} {x : Arr F} (hw : x.WF) {keep : Bool} {axes : List Nat}
    (ha : axes = axesFrom axes 0 x.shape.length) {R : List Nat → F → Prop}
    (hf : ∀ o, InRange (reduceShape keep axes x.shape) o → Sound T (f (lane keep axes x o)) (R o)) :
    Sound T (reduceAll f x.data axes keep x.shape (reducedShape axes keep x.shape))
      (fun out => out.shape = reduceShape keep axes x.shape ∧ out.WF ∧ ∀ o, InRange out.shape o →
        ∃ v, elem out o = some v ∧ R o v) := by
  rw [reducedShape_eq]
  unfold reduceAll
  refine Sound.bind (sound_collectG (Q := fun k => R (unravel k (reduceShape keep axes x.shape))) _
    fun k hk => ?_) fun ys hys => ?_
  · have hk := List.mem_range.1 hk
    rw [laneValues_ok hw ha hk]
    refine Sound.bind (P := fun o => o = lane keep axes x (unravel k (reduceShape keep axes x.shape)))
      (Sound.pure rfl) ?_
    rintro _ rfl
    exact hf _ (unravel_inRange hk)
  · obtain ⟨hl, he⟩ := collected hys
    refine sound_liftR.conseq fun out ho => ?_
    unfold fromShapeVec at ho
    split_ifs at ho
    obtain rfl := Except.ok.inj ho
    exact ⟨rfl, hl, he⟩

theorem complete_reduceAll {f : List F → G F F} {x : Arr F} (hw : x.WF) {keep : Bool} {axes : List Nat}
    (ha : axes = axesFrom axes 0 x.shape.length) {R : List Nat → F → Prop}
    (hf : ∀ o, InRange (reduceShape keep axes x.shape) o → Complete T (f (lane keep axes x o)) (R o)) :
    Complete T (reduceAll f x.data axes keep x.shape (reducedShape axes keep x.shape))
      (fun out => out.shape = reduceShape keep axes x.shape ∧ out.WF ∧ ∀ o, InRange out.shape o →
        ∃ v, elem out o = some v ∧ R o v) := by
  rw [reducedShape_eq]
  unfold reduceAll
  refine Complete.bind (complete_collectG (Q := fun k => R (unravel k (reduceShape keep axes x.shape))) _
    fun k hk => ?_) fun ys hys => ?_
  · have hk := List.mem_range.1 hk
    rw [laneValues_ok hw ha hk]
    refine Complete.bind (P := fun o => o = lane keep axes x (unravel k (reduceShape keep axes x.shape)))
      (Complete.pure rfl) ?_
    rintro _ rfl
    exact hf _ (unravel_inRange hk)
  · obtain ⟨hl, he⟩ := collected hys
    refine Complete.conseq (complete_liftR (a := ⟨reduceShape keep axes x.shape, ys⟩) ?_) fun out ho => ?_
    · unfold fromShapeVec
      rw [if_pos hl]
    · subst ho
      exact ⟨rfl, hl, he⟩

theorem forge_reduceAll {f : List F → G F F} {x : Arr F} (hw : x.WF) {keep : Bool} {axes : List Nat}
    (ha : axes = axesFrom axes 0 x.shape.length) {R : List Nat → F → Prop}
    (hf : ∀ o, InRange (reduceShape keep axes x.shape) o →
      ∃ v, R o v ∧ Forge T (f (lane keep axes x o)) (fun out => out = v)) :
    Forge T (reduceAll f x.data axes keep x.shape (reducedShape axes keep x.shape))
      (fun out => out.shape = reduceShape keep axes x.shape ∧ out.WF ∧ ∀ o, InRange out.shape o →
        ∃ v, elem out o = some v ∧ R o v) := by
  classical
  rw [reducedShape_eq]
  have key : ∀ k : Nat, ∃ v : F, k < (reduceShape keep axes x.shape).prod →
      (R (unravel k (reduceShape keep axes x.shape)) v ∧
        Forge T (f (lane keep axes x (unravel k (reduceShape keep axes x.shape)))) (fun out => out = v)) := by
    intro k
    by_cases hk : k < (reduceShape keep axes x.shape).prod
    · obtain ⟨v, hv⟩ := hf _ (unravel_inRange hk)
      exact ⟨v, fun _ => hv⟩
    · exact ⟨0, fun h => absurd h hk⟩
  choose g hg using key
  unfold reduceAll
  refine Forge.bind (forge_collectG (g := g) _ fun k hk => ?_)
    (a := (List.range (reduceShape keep axes x.shape).prod).map g) (fun _ h => h) ?_
  · have hk := List.mem_range.1 hk
    rw [laneValues_ok hw ha hk]
    exact Forge.bind (Forge.pure (Q := fun o => o = lane keep axes x (unravel k _)) rfl) (fun _ h => h)
      (hg k hk).2
  · have hF : List.Forall₂ (fun k v => R (unravel k (reduceShape keep axes x.shape)) v)
        (List.range (reduceShape keep axes x.shape).prod)
        ((List.range (reduceShape keep axes x.shape).prod).map g) := by
      rw [List.forall₂_map_right_iff, List.forall₂_same]
      exact fun i hi => (hg i (List.mem_range.1 hi)).1
    obtain ⟨hl, he⟩ := collected hF
    have e : fromShapeVec (reduceShape keep axes x.shape)
        ((List.range (reduceShape keep axes x.shape).prod).map g) = .ok ⟨reduceShape keep axes x.shape,
          (List.range (reduceShape keep axes x.shape).prod).map g⟩ := by
      unfold fromShapeVec
      rw [if_pos hl]
    rw [e]
    exact Forge.pure ⟨rfl, hl, he⟩

end Generic

/-! ## The axes -/

theorem maxAxes_ok {rank : Nat} {raw : Option (List Int)} {axes : List Nat}
    (h : maxAxes rank raw = .ok axes) :
    axes = axesFrom axes 0 rank ∧ ReduceAxes rank (raw.getD []) axes := by
  unfold maxAxes at h
  cases raw with
  | none =>
    obtain rfl := Except.ok.inj h
    exact ⟨axesFrom_range _, Or.inl ⟨rfl, by simp⟩⟩
  | some v =>
    dsimp only at h
    by_cases hv : v.isEmpty = true
    · rw [if_pos hv] at h
      obtain rfl := Except.ok.inj h
      exact ⟨axesFrom_range _, Or.inl ⟨List.isEmpty_iff.1 hv, by simp⟩⟩
    · rw [if_neg hv] at h
      obtain ⟨h1, h2, h3⟩ := explicitAxes_ok h
      exact ⟨h1, Or.inr ⟨by simpa using hv, h2, h3⟩⟩

theorem maxAxes_accepts {rank : Nat} {raw : Option (List Int)}
    (h : ∀ r ∈ raw.getD [], ∃ a, AxisOf rank r a) : ∃ axes, maxAxes rank raw = .ok axes := by
  unfold maxAxes
  cases raw with
  | none => exact ⟨_, rfl⟩
  | some v =>
    dsimp only
    by_cases hv : v.isEmpty = true
    · rw [if_pos hv]; exact ⟨_, rfl⟩
    · rw [if_neg hv]; exact explicitAxes_accepts h

/-- Without `noop`, ReduceSum names axes as ReduceMax does. -/
theorem sumAxes_false (rank : Nat) (raw : Option (List Int)) : sumAxes rank raw false = maxAxes rank raw := by
  unfold sumAxes maxAxes
  cases raw <;> simp

theorem sumAxes_noop {rank : Nat} {raw : Option (List Int)} (h : raw.getD [] = []) :
    sumAxes rank raw true = .ok [] := by
  unfold sumAxes
  cases raw with
  | none => rfl
  | some v =>
    obtain rfl : v = [] := h
    simp [explicitAxes, dedupAdj]

theorem sumAxes_of_ne {rank : Nat} {raw : Option (List Int)} (noop : Bool) (h : raw.getD [] ≠ []) :
    sumAxes rank raw noop = maxAxes rank raw := by
  unfold sumAxes maxAxes
  cases raw with
  | none => exact absurd rfl h
  | some v =>
    have hv : v.isEmpty = false := by
      cases v with
      | nil => exact absurd rfl h
      | cons _ _ => rfl
    simp [hv]

theorem reduceAxes_ne {rank : Nat} {raw : List Int} {axes : List Nat} (hr : raw ≠ [])
    (h : ReduceAxes rank raw axes) : axes ≠ [] := by
  rcases h with ⟨h, _⟩ | ⟨_, h1, h2⟩
  · exact absurd h hr
  · rintro rfl
    obtain ⟨r, hr⟩ := List.exists_mem_of_ne_nil _ hr
    obtain ⟨a, ha⟩ := h1 r hr
    have := (h2 a).2 ⟨r, hr, ha⟩
    simp at this

/-! ## ReduceSum -/

section Sum

variable {F : Type} [CommRing F] [DecidableEq F] {T : Tables F}

omit [DecidableEq F] in
theorem foldl_sum : ∀ (l : List F) (a : F), l.foldl (fun acc x => acc + x) a = a + l.sum
  | [], a => by simp
  | b :: l, a => by rw [List.foldl_cons, foldl_sum l, List.sum_cons, add_assoc]

omit [DecidableEq F] in
theorem sumVars_eq (l : List F) : sumVars l = l.sum := by
  cases l with
  | nil => rfl
  | cons a l => simp [sumVars, foldl_sum]

/-- What ReduceSum has to return. -/
def IsReduceSum (raw : Option (List Int)) (noop keep : Bool) (x out : Arr F) : Prop :=
  if noop = true ∧ raw.getD [] = [] then out = x
  else ∃ axes, ReduceAxes x.shape.length (raw.getD []) axes ∧
    IsReduced x keep axes (fun l v => v = l.sum) out

/-- **C55, ReduceSum is exact.** For every tensor, every list of axes (counted from either end, in any
order, with repetitions), with and without `keepdims` and `noop_with_empty_axes`: whatever the prover does,
every output is the sum of its lane; and the honest prover succeeds whenever the axes exist. -/
theorem C55_reduce_sum (raw : Option (List Int)) (noop keep : Bool) (x : Arr F) (hw : x.WF) :
    Sound T (reduceSumLayer raw noop keep x.shape x) (IsReduceSum raw noop keep x) ∧
    ((∀ r ∈ raw.getD [], ∃ a, AxisOf x.shape.length r a) →
      Complete T (reduceSumLayer raw noop keep x.shape x) (IsReduceSum raw noop keep x)) := by
  unfold reduceSumLayer IsReduceSum
  by_cases hno : noop = true ∧ raw.getD [] = []
  · simp only [if_pos hno]
    obtain ⟨rfl, hr⟩ := hno
    rw [sumAxes_noop hr]
    constructor
    · refine Sound.bind (P := fun o => o = []) (Sound.pure rfl) ?_
      rintro _ rfl
      rw [if_neg (by simp), if_pos (by simp)]
      exact Sound.pure rfl
    · intro _
      refine Complete.bind (P := fun o => o = []) (Complete.pure rfl) ?_
      rintro _ rfl
      rw [if_neg (by simp), if_pos (by simp)]
      exact Complete.pure rfl
  · simp only [if_neg hno]
    have e : sumAxes x.shape.length raw noop = maxAxes x.shape.length raw := by
      cases noop with
      | false => exact sumAxes_false _ _
      | true => exact sumAxes_of_ne _ fun h => hno ⟨rfl, h⟩
    rw [e]
    have hne : ∀ axes, ReduceAxes x.shape.length (raw.getD []) axes → ¬ (noop && axes.isEmpty) = true := by
      intro axes hax h
      rw [Bool.and_eq_true] at h
      exact reduceAxes_ne (fun h2 => hno ⟨h.1, h2⟩) hax (List.isEmpty_iff.1 h.2)
    constructor
    · refine sound_liftR.bind fun axes hax => ?_
      obtain ⟨h1, h2⟩ := maxAxes_ok hax
      rw [if_neg (by simp), if_neg (hne _ h2)]
      refine Sound.conseq (sound_reduceAll hw h1 (R := fun o v => v = (lane keep axes x o).sum)
        fun o _ => Sound.pure (sumVars_eq _)) fun out h => ⟨axes, h2, h⟩
    · intro hv
      obtain ⟨axes, hax⟩ := maxAxes_accepts hv
      obtain ⟨h1, h2⟩ := maxAxes_ok hax
      refine Complete.bind (complete_liftR hax) ?_
      intro axes' e'
      rw [e']
      rw [if_neg (by simp), if_neg (hne _ h2)]
      refine Complete.conseq (complete_reduceAll hw h1 (R := fun o v => v = (lane keep axes x o).sum)
        fun o _ => Complete.pure (sumVars_eq _)) fun out h => ⟨axes, h2, h⟩

end Sum

section Field

variable {p : Nat} [Fact p.Prime] {T : Tables (ZMod p)}

/-! ## ReduceMax -/

theorem laneSize_pos {axes s : List Nat} (ha : axes = axesFrom axes 0 s.length) (hs : ∀ d ∈ s, 0 < d) :
    0 < laneSize axes s := by
  unfold laneSize
  refine List.prod_pos fun d hd => ?_
  obtain ⟨a, h1, rfl⟩ := List.mem_map.1 hd
  rw [ha] at h1
  have hlt : a < s.length := by
    simp only [axesFrom, List.mem_filter, List.mem_range'_1] at h1
    omega
  rw [List.getD_eq_getElem _ _ hlt]
  exact hs _ (List.getElem_mem hlt)

/-- `v` is the maximum of the lane. -/
def IsLaneMax (l : List Int) (v : ZMod p) : Prop := ∃ M ∈ l, (∀ y ∈ l, y ≤ M) ∧ v = (M : ZMod p)

/-- **C55, ReduceMax is sound.** Missing: digit widths that do not divide the number of bits
(`C06_unsound`). -/
theorem C55_reduce_max_sound_partial {rc : RangeCtx} (hT : IsRangeTable T rc) (hc : 0 < rc.chunk)
    {nb : Nat} (hn : 1 ≤ nb) (hd : rc.chunk ∣ nb) (hp : 2 ^ (nb + 1) ≤ p) (raw : Option (List Int))
    (keep : Bool) (x : Arr Int) (hw : x.WF) (hr : ∀ v ∈ x.data, -2 ^ (nb - 1) ≤ v ∧ v < 2 ^ (nb - 1)) :
    Sound T (reduceMaxLayer rc raw keep x.shape nb (castArr p x))
      (fun out => ∃ axes, ReduceAxes x.shape.length (raw.getD []) axes ∧
        IsReduced x keep axes IsLaneMax out) := by
  unfold reduceMaxLayer
  refine sound_liftR.bind fun axes hax => ?_
  obtain ⟨h1, h2⟩ := maxAxes_ok hax
  rw [if_neg (by simp [castArr])]
  unfold ShiftCtx.new
  by_cases h64 : nb - 1 ≥ 64
  · rw [if_pos h64]; exact Sound.throwErr.bind (P := fun _ => False) fun _ h => h.elim
  rw [if_neg h64]
  refine Sound.bind (P := fun o => o = ⟨nb - 1, ((2 ^ (nb - 1) : Nat) : ZMod p)⟩) (Sound.pure rfl) ?_
  rintro _ rfl
  have key := sound_reduceAll (T := T) (f := maxLane ⟨nb - 1, ((2 ^ (nb - 1) : Nat) : ZMod p)⟩ rc)
    (castArr_WF (p := p) hw) (keep := keep) h1
    (R := fun o v => IsLaneMax (lane keep axes x o) v) ?_
  · exact key.conseq fun out h => ⟨axes, h2, h⟩
  · intro o _
    rw [lane_cast]
    have hm : ∀ v ∈ lane keep axes x o, -2 ^ (nb - 1) ≤ v ∧ v < 2 ^ (nb - 1) := fun v hv => hr v (lane_mem hv)
    generalize lane keep axes x o = ws at hm
    cases ws with
    | nil => exact Sound.throwErr
    | cons w ws =>
      exact C06_max_sound_partial hT hc (by rw [Nat.sub_add_cancel hn]; exact hd)
        (by rw [show nb - 1 + 2 = nb + 1 by omega]; exact hp) (w :: ws) hm

/-- **C55, ReduceMax is complete**, for every digit width. -/
theorem C55_reduce_max_complete {rc : RangeCtx} (hT : IsRangeTable T rc)
    {nb : Nat} (hn : 1 ≤ nb) (hn64 : nb ≤ 64) (hu : RangeUsable p rc nb) (raw : Option (List Int))
    (keep : Bool) (x : Arr Int) (hw : x.WF) (hr : ∀ v ∈ x.data, -2 ^ (nb - 1) ≤ v ∧ v < 2 ^ (nb - 1))
    (hv : ∀ r ∈ raw.getD [], ∃ a, AxisOf x.shape.length r a) (hs : ∀ d ∈ x.shape, 0 < d) :
    Complete T (reduceMaxLayer rc raw keep x.shape nb (castArr p x))
      (fun out => ∃ axes, ReduceAxes x.shape.length (raw.getD []) axes ∧
        IsReduced x keep axes IsLaneMax out) := by
  unfold reduceMaxLayer
  obtain ⟨axes, hax⟩ := maxAxes_accepts hv
  obtain ⟨h1, h2⟩ := maxAxes_ok hax
  refine Complete.bind (complete_liftR hax) ?_
  intro axes' e'
  rw [e', if_neg (by simp [castArr])]
  unfold ShiftCtx.new
  rw [if_neg (by omega)]
  refine Complete.bind (P := fun o => o = ⟨nb - 1, ((2 ^ (nb - 1) : Nat) : ZMod p)⟩) (Complete.pure rfl) ?_
  rintro _ rfl
  have key := complete_reduceAll (T := T) (f := maxLane ⟨nb - 1, ((2 ^ (nb - 1) : Nat) : ZMod p)⟩ rc)
    (castArr_WF (p := p) hw) (keep := keep) h1
    (R := fun o v => IsLaneMax (lane keep axes x o) v) ?_
  · exact key.conseq fun out h => ⟨axes, h2, h⟩
  · intro o ho
    rw [lane_cast]
    have hm : ∀ v ∈ lane keep axes x o, -2 ^ (nb - 1) ≤ v ∧ v < 2 ^ (nb - 1) := fun v hv => hr v (lane_mem hv)
    have hl := lane_length hw h1 (keep := keep) (o := o) ho
    have hpos := laneSize_pos h1 hs
    generalize lane keep axes x o = ws at hm hl
    cases ws with
    | nil => simp at hl; omega
    | cons w ws =>
      exact ((C06_complete hT (by rw [Nat.sub_add_cancel hn]; exact hu)).2 (w :: ws) (by simp) hm).1

/-! ## ReduceMean -/

theorem meanAxes_eq {rank : Nat} {raw : Option (List Int)} (h : raw ≠ some []) :
    meanAxes rank raw = maxAxes rank raw := by
  unfold meanAxes maxAxes
  cases raw with
  | none => rfl
  | some v =>
    cases v with
    | nil => exact absurd rfl h
    | cons _ _ => simp

theorem remainderBits_eq {n : Nat} (h : 2 ≤ n) : remainderBits n = Nat.clog 2 n := by
  have h1 := ceilLog2_eq_clog h
  unfold ceilLog2 at h1
  rw [if_neg (by omega)] at h1
  unfold remainderBits nextPow2Log
  rw [if_neg (by omega), h1]
  have : 0 < Nat.clog 2 n := Nat.clog_pos (by norm_num) h
  omega

/-- `v` is the mean of the lane, rounded to the nearest integer. -/
def IsLaneMean (l : List Int) (v : ZMod p) : Prop := v = ((roundedMean l.sum l.length : Int) : ZMod p)

theorem sumVars_cast (l : List Int) :
    sumVars (l.map fun z : Int => (z : ZMod p)) = ((l.sum : Int) : ZMod p) := by
  rw [sumVars_eq, Int.cast_list_sum]

/-- **C55, ReduceMean is sound** for lanes of `n ≥ 2` entries when the digit width divides `⌈log₂ n⌉`.
Missing: lanes of one entry and other digit widths (`C55_reduce_mean_unsound`), and an explicitly empty
list of axes (`C55_reduce_mean_empty_axes`). -/
theorem C55_reduce_mean_sound_partial {rc : RangeCtx} (hT : IsRangeTable T rc) (hc : 0 < rc.chunk)
    {nb n : Nat} (raw : Option (List Int)) (hraw : raw ≠ some []) (keep : Bool) (x : Arr Int) (hw : x.WF)
    (hr : ∀ v ∈ x.data, |v| ≤ 2 ^ nb)
    (hn : ∀ axes o, ReduceAxes x.shape.length (raw.getD []) axes → InRange (reduceShape keep axes x.shape) o →
      (lane keep axes x o).length = n)
    (h2 : 2 ≤ n) (hd : rc.chunk ∣ Nat.clog 2 n) (hp : n * (2 ^ (nb + rc.chunk + 2) + 1) ≤ p) :
    Sound T (reduceMeanLayer rc raw keep x.shape nb (castArr p x))
      (fun out => ∃ axes, ReduceAxes x.shape.length (raw.getD []) axes ∧
        IsReduced x keep axes IsLaneMean out) := by
  unfold reduceMeanLayer
  refine sound_liftR.bind fun axes hax => ?_
  rw [meanAxes_eq hraw] at hax
  obtain ⟨h1, h2'⟩ := maxAxes_ok hax
  dsimp only
  by_cases c1 : (axes.map fun a => x.shape.getD a 0).prod = 0
  · rw [if_pos c1]; exact Sound.throwErr
  by_cases c2 : nb = 0 ∨ nb > 128
  · rw [if_neg c1, if_pos c2]; exact Sound.throwErr
  rw [if_neg c1, if_neg c2, if_neg (by simp [castArr])]
  have key := sound_reduceAll (T := T)
    (f := fun vs => laneMean rc nb (axes.map fun a => x.shape.getD a 0).prod (sumVars vs))
    (castArr_WF (p := p) hw) (keep := keep) h1
    (R := fun o v => IsLaneMean (lane keep axes x o) v) ?_
  · exact key.conseq fun out h => ⟨axes, h2', h⟩
  · intro o ho
    have hl := lane_length hw h1 (keep := keep) (o := o) ho
    have hl2 := hn axes o h2' ho
    rw [hl2] at hl
    unfold laneSize at hl
    rw [← hl, lane_cast, sumVars_cast]
    unfold IsLaneMean
    rw [hl2]
    have hs := abs_sum_le (lane keep axes x o) (B := 2 ^ nb) fun v hv => hr v (lane_mem hv)
    rw [hl2] at hs
    refine sound_laneMean hT hc h2 (by rwa [remainderBits_eq h2]) ?_ ?_
    · rw [remainderBits_eq h2]
      have h3 := Nat.pow_pred_clog_lt_self (b := 2) (by norm_num) (show 1 < n by omega)
      have h4 : 0 < Nat.clog 2 n := Nat.clog_pos (by norm_num) h2
      have h5 : 2 ^ (Nat.clog 2 n + 2) = 8 * 2 ^ (Nat.clog 2 n).pred := by
        rw [show Nat.clog 2 n + 2 = (Nat.clog 2 n).pred + 3 by simp [Nat.pred_eq_sub_one]; omega, pow_add]
        ring
      have h6 : 8 ≤ 2 ^ (nb + rc.chunk + 2) :=
        le_trans (by norm_num) (Nat.pow_le_pow_right (by norm_num) (show 3 ≤ nb + rc.chunk + 2 by omega))
      have h7 : n * 8 ≤ n * 2 ^ (nb + rc.chunk + 2) := Nat.mul_le_mul_left _ h6
      rw [h5]
      have : n * (2 ^ (nb + rc.chunk + 2) + 1) = n * 2 ^ (nb + rc.chunk + 2) + n := by ring
      omega
    · have h4 : (2 : Int) ^ (nb + slackBits rc.chunk nb + 1) ≤ 2 ^ (nb + rc.chunk) :=
        pow_le_pow_right₀ (by norm_num) (by have := slack_lt (n := nb) hc; omega)
      have h5 : (2 : Int) ^ nb ≤ 2 ^ (nb + rc.chunk) := pow_le_pow_right₀ (by norm_num) (by omega)
      have h6 : (n : Int) * (2 ^ (nb + rc.chunk + 2) + 1) ≤ p := by exact_mod_cast hp
      rw [pow_add _ (nb + rc.chunk)] at h6
      have h7 : (0 : Int) ≤ n := by positivity
      have h8 : (0 : Int) ≤ 2 ^ (nb + rc.chunk) := by positivity
      nlinarith [mul_le_mul_of_nonneg_left h4 h7, mul_le_mul_of_nonneg_left h5 h7, mul_nonneg h7 h8]

end Field

end JST.Props
