import Verif.Tensor.Lanes
import Verif.Spec.Lanes
import Verif.Props.FunctionExp

/-!
# Lane-wise layers: what each lane guarantees, the layer guarantees
-/

set_option linter.unusedSectionVars false

namespace JST.Props

open JST.Shape JST.Layers JST.Spec

variable {p : Nat} [Fact p.Prime] {T : Tables (ZMod p)}

theorem inRange_set {s c : List Nat} {axis d i : Nat} (h : InRange s c) (hi : i < d) :
    InRange (s.set axis d) (c.set axis i) := by
  rw [inRange_iff] at h ⊢
  refine ⟨by simp [h.1], fun j hj => ?_⟩
  rw [List.length_set] at hj
  have hc : j < c.length := by omega
  have := h.2 j hj
  rw [List.getD_eq_getElem _ _ (by simpa using hc), List.getD_eq_getElem _ _ (by simpa using hj)]
  rw [List.getD_eq_getElem _ _ hc, List.getD_eq_getElem _ _ hj] at this
  simp only [List.getElem_set]
  split_ifs <;> omega

theorem set_getD_self {s : List Nat} {axis : Nat} (d : Nat) : (s.set axis d).set axis (s.getD axis 0) = s := by
  rw [List.set_set]
  apply List.ext_getElem (by simp)
  intro j h1 h2
  rw [List.getElem_set]
  split_ifs with h
  · subst h; rw [List.getD_eq_getElem _ _ h2]
  · rfl

theorem inRange_unset {s c : List Nat} {axis d i : Nat} (h : InRange (s.set axis d) c)
    (hi : i < s.getD axis 0) : InRange s (c.set axis i) := by
  have := inRange_set (axis := axis) h hi
  rwa [set_getD_self] at this

/-- The entries of a lane, read from the data. -/
def laneVals (x : Arr Int) (axis : Nat) (c : List Nat) : List Int :=
  (List.range (x.shape.getD axis 0)).map fun i => (elem x (c.set axis i)).getD 0

theorem laneVals_length (x : Arr Int) (axis : Nat) (c : List Nat) :
    (laneVals x axis c).length = x.shape.getD axis 0 := by simp [laneVals]

theorem elem_some_getD {x : Arr Int} (hw : x.WF) {c : List Nat} (hc : InRange x.shape c) :
    elem x c = some ((elem x c).getD 0) := by
  obtain ⟨v, hv⟩ : ∃ v, elem x c = some v := by
    unfold elem
    exact ⟨_, List.getElem?_eq_getElem (by rw [hw]; exact rowMajor_lt hc)⟩
  rw [hv]; rfl

theorem laneVals_isLane {x : Arr Int} (hw : x.WF) {axis : Nat} {c : List Nat}
    (hc : ∀ i, i < x.shape.getD axis 0 → InRange x.shape (c.set axis i)) : IsLane axis x c (laneVals x axis c) := by
  unfold IsLane laneVals
  rw [List.map_map]
  refine List.map_congr_left fun i hi => ?_
  exact (elem_some_getD hw (hc i (List.mem_range.1 hi))).symm

theorem isLane_unique {α : Type} {axis : Nat} {a : Arr α} {c : List Nat} {l l' : List α} (h : IsLane axis a c l)
    (h' : IsLane axis a c l') : l = l' := by
  have e : l.map some = l'.map some := by rw [h, h']
  exact List.map_injective_iff.2 (Option.some_injective _) e

theorem isLane_mem {x : Arr Int} {axis : Nat} {c : List Nat} {l : List Int} (h : IsLane axis x c l) :
    ∀ u ∈ l, u ∈ x.data := by
  intro u hu
  have : some u ∈ l.map some := List.mem_map.2 ⟨u, hu, rfl⟩
  rw [h] at this
  obtain ⟨i, -, hi⟩ := List.mem_map.1 this
  exact List.mem_of_getElem? hi

theorem isLane_length {α : Type} {axis : Nat} {a : Arr α} {c : List Nat} {l : List α} (h : IsLane axis a c l) :
    l.length = a.shape.getD axis 0 := by
  have := congrArg List.length h
  simpa using this

theorem laneIn_ok {x : Arr Int} (hw : x.WF) {axis : Nat} {c : List Nat}
    (hc : ∀ i, i < x.shape.getD axis 0 → InRange x.shape (c.set axis i)) :
    laneIn (castArr p x).data axis x.shape c = .ok ((laneVals x axis c).map fun z : Int => (z : ZMod p)) := by
  unfold laneIn laneVals
  rw [List.map_map]
  refine mapM_ok fun i hi => ?_
  have hr := hc i (List.mem_range.1 hi)
  rw [ravelR_ok hr.length]
  change readAt .panic _ _ = _
  apply readAt_ok
  have := elem_some_getD hw hr
  have e := castArr_elem_map (p := p) x (c.set axis i)
  rw [this] at e
  exact e

theorem laneOut_ok {α : Type} {lanes : List (List α)} {axis : Nat} {shape c : List Nat} (hax : axis < shape.length)
    (hc : InRange shape c) {l : List α} (hl : lanes[rowMajor (shape.set axis 1) (c.set axis 0)]? = some l) {v : α}
    (hv : l[c.getD axis 0]? = some v) : laneOut lanes axis shape (rowMajor shape c) = .ok v := by
  unfold laneOut
  rw [unravel_rowMajor hc]
  have := (inRange_set (axis := axis) (d := 1) (i := 0) hc (by norm_num)).length
  dsimp only
  rw [ravelR_ok this]
  change (do let l ← readAt .panic lanes _; readAt .panic l _) = _
  rw [readAt_ok hl]
  exact readAt_ok hv

theorem getD_inRange {s c : List Nat} {axis : Nat} (h : InRange s c) (hax : axis < s.length) :
    c.getD axis 0 < s.getD axis 0 := (inRange_iff.1 h).2 axis hax

theorem getD_set_self {c : List Nat} {axis i : Nat} (h : axis < c.length) : (c.set axis i).getD axis 0 = i := by
  rw [List.getD_eq_getElem _ _ (by simpa using h)]
  simp

/-- The base coordinates of the lanes. -/
theorem base_inRange {s : List Nat} {axis k : Nat} (hk : k < (s.set axis 1).prod) :
    ∀ i, i < s.getD axis 0 → InRange s ((unravel k (s.set axis 1)).set axis i) :=
  fun _ hi => inRange_unset (unravel_inRange hk) hi

/-- What the second half of `laneMap` does with lanes of the right length. -/
theorem laneMap_tail {x : Arr Int} {axis : Nat} (hax : axis < x.shape.length) {R : List Int → List (ZMod p) → Prop}
    (hw : x.WF) (hR : ∀ l l', R l l' → l'.length = l.length) {lanes : List (List (ZMod p))}
    (h : List.Forall₂ (fun k l => R (laneVals x axis (unravel k (x.shape.set axis 1))) l)
      (List.range (x.shape.set axis 1).prod) lanes) :
    ∃ y : Arr (ZMod p), (List.range x.shape.prod).mapM (laneOut lanes axis x.shape) = .ok y.data ∧ y.shape = x.shape ∧
      y.data.length = x.shape.prod ∧ IsLanewise axis x R y := by
  have hlen : lanes.length = (x.shape.set axis 1).prod := by simpa using h.length_eq.symm
  have key : ∀ c, InRange x.shape c → ∃ l, lanes[rowMajor (x.shape.set axis 1) (c.set axis 0)]? = some l ∧
      R (laneVals x axis c) l ∧ l.length = x.shape.getD axis 0 := by
    intro c hc
    have hb := inRange_set (axis := axis) (d := 1) (i := 0) hc (by norm_num)
    have hk := rowMajor_lt hb
    refine ⟨lanes[rowMajor (x.shape.set axis 1) (c.set axis 0)]'(by omega), List.getElem?_eq_getElem _, ?_⟩
    have := (List.forall₂_iff_get.1 h).2 (rowMajor (x.shape.set axis 1) (c.set axis 0)) (by simpa using hk) (by omega)
    simp only [List.get_eq_getElem, List.getElem_range] at this
    rw [unravel_rowMajor hb] at this
    have e : laneVals x axis (c.set axis 0) = laneVals x axis c := by
      unfold laneVals; simp only [List.set_set]
    rw [e] at this
    exact ⟨this, by rw [hR _ _ this, laneVals_length]⟩
  let g : Nat → ZMod p := fun o =>
    ((lanes[rowMajor (x.shape.set axis 1) ((unravel o x.shape).set axis 0)]?).getD []).getD ((unravel o x.shape).getD axis 0) 0
  have hg : ∀ c, InRange x.shape c → ∀ l, lanes[rowMajor (x.shape.set axis 1) (c.set axis 0)]? = some l →
      l.length = x.shape.getD axis 0 → l[c.getD axis 0]? = some (g (rowMajor x.shape c)) := by
    intro c hc l hl hll
    have hlt : c.getD axis 0 < l.length := by rw [hll]; exact getD_inRange hc hax
    simp only [g, unravel_rowMajor hc, hl, Option.getD_some]
    rw [List.getElem?_eq_getElem hlt, List.getD_eq_getElem _ _ hlt]
  have hm : (List.range x.shape.prod).mapM (laneOut lanes axis x.shape) = .ok ((List.range x.shape.prod).map g) := by
    refine mapM_ok fun o ho => ?_
    have ho := List.mem_range.1 ho
    have hc := unravel_inRange ho
    obtain ⟨l, hl, -, hll⟩ := key _ hc
    have := laneOut_ok hax hc hl (hg _ hc l hl hll)
    rwa [rowMajor_unravel ho] at this
  refine ⟨⟨x.shape, (List.range x.shape.prod).map g⟩, hm, rfl, by simp, rfl, by simp [Arr.WF], fun c hc => ?_⟩
  obtain ⟨l, hl, hr, hll⟩ := key c hc
  have hci : ∀ i, i < x.shape.getD axis 0 → InRange x.shape (c.set axis i) := fun i hi => by
    have := inRange_set (axis := axis) hc hi
    have e : x.shape.set axis (x.shape.getD axis 0) = x.shape := by
      have := set_getD_self (s := x.shape) (axis := axis) 0
      rwa [List.set_set] at this
    rwa [e] at this
  refine ⟨_, l, laneVals_isLane hw hci, ?_, hr⟩
  unfold IsLane
  apply List.ext_getElem (by simp [hll])
  intro i h1 h2
  have hi : i < x.shape.getD axis 0 := by simpa [hll] using h1
  have hc' := hci i hi
  simp only [List.getElem_map, List.getElem_range, elem]
  have hs : axis < c.length := by rw [hc.length]; exact hax
  have hl' : lanes[rowMajor (x.shape.set axis 1) ((c.set axis i).set axis 0)]? = some l := by rwa [List.set_set]
  have e := hg _ hc' l hl' hll
  rw [getD_set_self hs] at e
  have hlt := rowMajor_lt hc'
  rw [List.getElem?_map, List.getElem?_range hlt, Option.map_some]
  rw [← e, List.getElem?_eq_getElem]

theorem sound_laneMap {f : List (ZMod p) → G (ZMod p) (List (ZMod p))} {x : Arr Int} (hw : x.WF) {axis : Nat}
    (hax : axis < x.shape.length) {R : List Int → List (ZMod p) → Prop} (hR : ∀ l l', R l l' → l'.length = l.length)
    (hf : ∀ l : List Int, l.length = x.shape.getD axis 0 → (∀ u ∈ l, u ∈ x.data) →
      Sound T (f (l.map fun z : Int => (z : ZMod p))) (R l)) :
    Sound T (laneMap f axis (castArr p x)) (IsLanewise axis x R) := by
  unfold laneMap
  refine Sound.bind (sound_collectG (Q := fun k l => R (laneVals x axis (unravel k (x.shape.set axis 1))) l) _ ?_) ?_
  · intro k hk
    have hk : k < (x.shape.set axis 1).prod := List.mem_range.1 hk
    have hb := base_inRange hk
    unfold laneStep
    refine Sound.bind sound_liftR ?_
    intro xs hxs
    have e := laneIn_ok (p := p) hw hb
    have hx : xs = (laneVals x axis (unravel k (x.shape.set axis 1))).map fun z : Int => (z : ZMod p) :=
      Except.ok.inj (hxs.symm.trans e)
    rw [hx]
    exact hf _ (laneVals_length ..) (isLane_mem (laneVals_isLane hw hb))
  intro lanes hl
  obtain ⟨y, h1, h2, h3, h4⟩ := laneMap_tail hax hw hR hl
  refine Sound.bind sound_liftR ?_
  intro d hd
  have e : d = y.data := Except.ok.inj (hd.symm.trans h1)
  subst e
  refine sound_liftR.conseq ?_
  intro z hz
  rw [show (castArr p x).shape = y.shape from h2.symm, fromShapeVec_ok (by rw [h3, h2])] at hz
  cases hz
  exact h4

theorem complete_laneMap {f : List (ZMod p) → G (ZMod p) (List (ZMod p))} {x : Arr Int} (hw : x.WF) {axis : Nat}
    (hax : axis < x.shape.length) {R : List Int → List (ZMod p) → Prop} (hR : ∀ l l', R l l' → l'.length = l.length)
    (hf : ∀ l : List Int, (∃ c, InRange (x.shape.set axis 1) c ∧ IsLane axis x c l) →
      Complete T (f (l.map fun z : Int => (z : ZMod p))) (R l)) :
    Complete T (laneMap f axis (castArr p x)) (IsLanewise axis x R) := by
  unfold laneMap
  refine Complete.bind (complete_collectG (Q := fun k l => R (laneVals x axis (unravel k (x.shape.set axis 1))) l) _ ?_) ?_
  · intro k hk
    have hk : k < (x.shape.set axis 1).prod := List.mem_range.1 hk
    have hb := base_inRange hk
    unfold laneStep
    refine Complete.bind (complete_liftR (laneIn_ok (p := p) hw hb)) ?_
    rintro _ rfl
    exact hf _ ⟨_, unravel_inRange hk, laneVals_isLane hw hb⟩
  intro lanes hl
  obtain ⟨y, h1, h2, h3, h4⟩ := laneMap_tail hax hw hR hl
  refine Complete.bind (complete_liftR h1) ?_
  rintro _ rfl
  rw [show (castArr p x).shape = y.shape from h2.symm]
  refine (complete_liftR (fromShapeVec_ok (by rw [h3, h2]))).conseq ?_
  rintro _ rfl
  exact h4

/-- One lane without a proof is enough. -/
theorem sound_laneMap_false {f : List (ZMod p) → G (ZMod p) (List (ZMod p))} {x : Arr Int} (hw : x.WF) {axis : Nat}
    {c : List Nat} (hc : InRange x.shape c) {l : List Int} (hl : IsLane axis x c l)
    (hf : Sound T (f (l.map fun z : Int => (z : ZMod p))) (fun _ => False)) :
    Sound T (laneMap f axis (castArr p x)) (fun _ => False) := by
  unfold laneMap
  have hb := inRange_set (axis := axis) (d := 1) (i := 0) hc (by norm_num)
  have hk := rowMajor_lt hb
  refine Sound.bind (sound_collectG_false _ ⟨_, List.mem_range.2 hk, ?_⟩) fun _ h => h.elim
  unfold laneStep
  refine Sound.bind sound_liftR ?_
  intro xs hxs
  have hbi := base_inRange hk
  have e := laneIn_ok (p := p) hw hbi
  have hx : xs = (laneVals x axis (unravel _ (x.shape.set axis 1))).map fun z : Int => (z : ZMod p) :=
    Except.ok.inj (hxs.symm.trans e)
  rw [hx, unravel_rowMajor hb]
  have e2 : laneVals x axis (c.set axis 0) = l := by
    refine isLane_unique (axis := axis) (a := x) (c := c) ?_ hl
    have := laneVals_isLane hw hbi
    rw [unravel_rowMajor hb] at this
    unfold IsLane at this ⊢
    simpa only [List.set_set] using this
  rwa [e2]

end JST.Props
