import Verif.Tensor.Elementwise
import Verif.Spec.Elementwise
import Verif.Props.Reduce
import Verif.Props.Rescale
import Verif.Props.Shapes

/-!
# C56: the elementwise arithmetic layers

The specification is in `Verif/Spec/Elementwise.lean`.
-/

set_option linter.unusedSectionVars false

namespace JST.Props

open JST.Shape JST.Layers JST.Spec

/-! ## Broadcast operands -/

/-- The value broadcasting assigns to an output position. -/
def valAt (a : Arr Int) (c : List Nat) : Int := (elem a (srcCoords a.shape c)).getD 0

theorem bcast_data {α : Type} [Inhabited α] {a r : Arr α} {t : List Nat} (hw : a.WF)
    (h : broadcastArray a t = .ok r) (d : α) :
    Stretches a.shape t ∧ r.shape = t ∧
      r.data = (List.range t.prod).map (fun k => (elem a (srcCoords a.shape (unravel k t))).getD d) ∧
      ∀ c, InRange t c → ∃ u, elem a (srcCoords a.shape c) = some u := by
  obtain ⟨h1, h2, h3, h4⟩ := (broadcastArray_ok a t hw r).1 h
  refine ⟨h1, h2, ?_, fun c hc => Option.isSome_iff_exists.1 (h4 c hc).1⟩
  apply List.ext_getElem?
  intro k
  by_cases hk : k < t.prod
  · obtain ⟨h5, h6⟩ := h4 _ (unravel_inRange hk)
    unfold elem at h6
    rw [h2, rowMajor_unravel hk] at h6
    rw [h6, List.getElem?_map, List.getElem?_range hk]
    obtain ⟨u, hu⟩ := Option.isSome_iff_exists.1 h5
    simp only [elem] at hu
    simp [elem, hu]
  · rw [List.getElem?_eq_none (by rw [h3, h2]; omega), List.getElem?_eq_none (by simp; omega)]

section
variable {p : Nat} [Fact p.Prime]

theorem bcast_cast {a : Arr Int} {r : Arr (ZMod p)} {t : List Nat} (hw : a.WF)
    (h : broadcastArray (castArr p a) t = .ok r) :
    Stretches a.shape t ∧ r.shape = t ∧
      r.data = (List.range t.prod).map (fun k : Nat => (valAt a (unravel k t) : ZMod p)) ∧
      ∀ c, InRange t c → elem a (srcCoords a.shape c) = some (valAt a c) := by
  obtain ⟨h1, h2, h3, h4⟩ := bcast_data (castArr_WF hw) h 0
  refine ⟨h1, h2, ?_, fun c hc => ?_⟩
  · rw [h3]
    refine List.map_congr_left fun k _ => ?_
    exact castArr_elem a _
  · obtain ⟨u, hu⟩ := h4 c hc
    have e : srcCoords (castArr p a).shape c = srcCoords a.shape c := rfl
    rw [castArr_elem_map, e] at hu
    obtain ⟨v, hv, _⟩ := Option.map_eq_some_iff.1 hu
    unfold valAt
    rw [hv]; rfl

theorem valAt_mem {a : Arr Int} {c : List Nat} (h : elem a (srcCoords a.shape c) = some (valAt a c)) :
    valAt a c ∈ a.data := by
  unfold elem at h
  exact List.mem_of_getElem? h

/-- Two operands brought to the common shape `t`. -/
structure Aligned (a b : Arr Int) (t : List Nat) (r : Arr (ZMod p) × Arr (ZMod p)) : Prop where
  broadcast : IsBroadcast a.shape b.shape t
  shape1 : r.1.shape = t
  shape2 : r.2.shape = t
  data1 : r.1.data = (List.range t.prod).map (fun k : Nat => (valAt a (unravel k t) : ZMod p))
  data2 : r.2.data = (List.range t.prod).map (fun k : Nat => (valAt b (unravel k t) : ZMod p))
  elem1 : ∀ c, InRange t c → elem a (srcCoords a.shape c) = some (valAt a c)
  elem2 : ∀ c, InRange t c → elem b (srcCoords b.shape c) = some (valAt b c)

theorem aligned_of_ok {a b : Arr Int} {r : Arr (ZMod p) × Arr (ZMod p)} (ha : a.WF) (hb : b.WF)
    (h : broadcastTwo (castArr p a) (castArr p b) = .ok r) : ∃ t, Aligned a b t r := by
  obtain ⟨h1, h2, _⟩ := C37_elements _ _ r.1 r.2 (castArr_WF ha) (castArr_WF hb) h
  unfold broadcastTwo at h
  obtain ⟨out, hs, h⟩ := Layers.bind_eq_ok h
  obtain ⟨ra, h3, h⟩ := Layers.bind_eq_ok h
  obtain ⟨rb, h4, h⟩ := Layers.bind_eq_ok h
  obtain rfl := Except.ok.inj h
  obtain ⟨_, s1, d1, e1⟩ := bcast_cast ha h3
  obtain ⟨_, s2, d2, e2⟩ := bcast_cast hb h4
  refine ⟨out, ⟨?_, s1, s2, d1, d2, e1, e2⟩⟩
  rw [← s1]
  exact h2

theorem broadcastTwo_refuses {α : Type} [Inhabited α] {a b : Arr α} (ha : a.WF) (hb : b.WF)
    (h : ¬ ∃ s, IsBroadcast a.shape b.shape s) : broadcastTwo a b = .error .invalid := by
  cases hr : broadcastTwo a b with
  | ok r => exact absurd ⟨_, (C37_elements a b r.1 r.2 ha hb hr).2.1⟩ h
  | error e =>
    unfold broadcastTwo at hr
    cases hs : broadcastShape a.shape b.shape with
    | error e' =>
      have := bcastLoop_error _ _ _ _ _ _ hs
      rw [hs] at hr
      subst this
      exact hr.symm ▸ rfl
    | ok out =>
      rw [hs] at hr
      have key : ∀ x : Arr α, broadcastArray x out = .error .invalid ∨ ∃ y, broadcastArray x out = .ok y := by
        intro x
        unfold broadcastArray
        split
        · exact .inr ⟨_, rfl⟩
        · exact .inl rfl
      rcases key a with h1 | ⟨a', h1⟩
      · simp only [bind, Except.bind, h1] at hr
        rw [← hr]
      · rcases key b with h2 | ⟨b', h2⟩
        · simp only [bind, Except.bind, h1, h2] at hr
          rw [← hr]
        · simp [bind, Except.bind, h1, h2] at hr

end

/-! ## The loops -/

section loops
variable {p : Nat} [Fact p.Prime] {T : Tables (ZMod p)}

theorem collectG_map {F α β γ : Type} [CommRing F] (f : β → G F γ) (g : α → β) : ∀ l : List α,
    collectG f (l.map g) = collectG (fun a => f (g a)) l
  | [] => rfl
  | a :: l => by
    rw [List.map_cons, collectG, collectG, collectG_map f g l]

theorem zip_map_map {α β γ : Type} (f : α → β) (g : α → γ) : ∀ l : List α,
    (l.map f).zip (l.map g) = l.map fun a => (f a, g a)
  | [] => rfl
  | a :: l => by simp [zip_map_map f g l]

theorem zipWith_map_map {α β γ δ : Type} (h : β → γ → δ) (f : α → β) (g : α → γ) : ∀ l : List α,
    List.zipWith h (l.map f) (l.map g) = l.map fun a => h (f a) (g a)
  | [] => rfl
  | a :: l => by simp [zipWith_map_map h f g l]

variable {a b : Arr Int} {t : List Nat} {r : Arr (ZMod p) × Arr (ZMod p)}

theorem isZip_of_forall₂ {γ : Type} (hr : Aligned a b t r) {Q : Int → Int → γ → Prop} {ys : List γ}
    (h : List.Forall₂ (fun k y => Q (valAt a (unravel k t)) (valAt b (unravel k t)) y)
      (List.range t.prod) ys) : IsBinary a b Q ⟨t, ys⟩ := by
  obtain ⟨h1, h2⟩ := collected (R := fun c y => Q (valAt a c) (valAt b c) y) h
  refine ⟨hr.broadcast, rfl, h1, fun c hc => ?_⟩
  obtain ⟨w, h3, h4⟩ := h2 c hc
  exact ⟨_, _, w, hr.elem1 c hc, hr.elem2 c hc, h3, h4⟩

theorem zipLoop_eq (hr : Aligned a b t r) (f : ZMod p → ZMod p → G (ZMod p) (ZMod p)) :
    zipLoop f r.1 r.2 = (do
      let ys ← collectG (fun k : Nat => f (valAt a (unravel k t) : ZMod p) (valAt b (unravel k t) : ZMod p))
        (List.range t.prod)
      liftR (fromShapeVec t ys)) := by
  unfold zipLoop
  rw [hr.data1, hr.data2, zip_map_map, collectG_map, hr.shape1]

theorem sound_zipLoop (hr : Aligned a b t r) {f : ZMod p → ZMod p → G (ZMod p) (ZMod p)}
    {Q : Int → Int → ZMod p → Prop}
    (hf : ∀ u ∈ a.data, ∀ v ∈ b.data, Sound T (f (u : ZMod p) (v : ZMod p)) (Q u v)) :
    Sound T (zipLoop f r.1 r.2) (IsBinary a b Q) := by
  rw [zipLoop_eq hr]
  refine Sound.bind (sound_collectG (Q := fun k y => Q (valAt a (unravel k t)) (valAt b (unravel k t)) y)
    _ fun k hk => ?_) fun ys hys => ?_
  · have hk := unravel_inRange (List.mem_range.1 hk)
    exact hf _ (valAt_mem (hr.elem1 _ hk)) _ (valAt_mem (hr.elem2 _ hk))
  · refine sound_liftR.conseq fun out ho => ?_
    unfold fromShapeVec at ho
    split_ifs at ho
    obtain rfl := Except.ok.inj ho
    exact isZip_of_forall₂ hr hys

theorem complete_zipLoop (hr : Aligned a b t r) {f : ZMod p → ZMod p → G (ZMod p) (ZMod p)}
    {Q : Int → Int → ZMod p → Prop}
    (hf : ∀ u ∈ a.data, ∀ v ∈ b.data, Complete T (f (u : ZMod p) (v : ZMod p)) (Q u v)) :
    Complete T (zipLoop f r.1 r.2) (IsBinary a b Q) := by
  rw [zipLoop_eq hr]
  refine Complete.bind (complete_collectG (Q := fun k y => Q (valAt a (unravel k t)) (valAt b (unravel k t)) y)
    _ fun k hk => ?_) fun ys hys => ?_
  · have hk := unravel_inRange (List.mem_range.1 hk)
    exact hf _ (valAt_mem (hr.elem1 _ hk)) _ (valAt_mem (hr.elem2 _ hk))
  · refine Complete.conseq (complete_liftR (a := ⟨t, ys⟩) ?_) fun out ho => ?_
    · unfold fromShapeVec
      rw [if_pos (by rw [← hys.length_eq, List.length_range])]
    · subst ho
      exact isZip_of_forall₂ hr hys

theorem aligned_exists {a b : Arr Int} (ha : a.WF) (hb : b.WF) (za : ∀ d ∈ a.shape, d ≠ 0)
    (zb : ∀ d ∈ b.shape, d ≠ 0) (h : ∃ s, IsBroadcast a.shape b.shape s) :
    ∃ r t, broadcastTwo (castArr p a) (castArr p b) = .ok r ∧ Aligned a b t r := by
  obtain ⟨r, hr⟩ := C37_succeeds_partial (castArr p a) (castArr p b) (castArr_WF ha) (castArr_WF hb) za zb h
  obtain ⟨t, ht⟩ := aligned_of_ok ha hb hr
  exact ⟨r, t, hr, ht⟩

/-- A layer that broadcasts two operands and continues with `g`: soundness. -/
theorem sound_broadcast {β : Type} {g : Arr (ZMod p) × Arr (ZMod p) → G (ZMod p) β} {Q : β → Prop}
    (ha : a.WF) (hb : b.WF) (hg : ∀ t r, Aligned a b t r → Sound T (g r) Q) :
    Sound T (liftR (broadcastTwo (castArr p a) (castArr p b)) >>= g) Q := by
  refine Sound.bind (sound_liftR) fun r hr => ?_
  obtain ⟨t, ht⟩ := aligned_of_ok ha hb hr
  exact hg t r ht

theorem complete_broadcast {β : Type} {g : Arr (ZMod p) × Arr (ZMod p) → G (ZMod p) β} {Q : β → Prop}
    (ha : a.WF) (hb : b.WF) (za : ∀ d ∈ a.shape, d ≠ 0) (zb : ∀ d ∈ b.shape, d ≠ 0)
    (h : ∃ s, IsBroadcast a.shape b.shape s) (hg : ∀ t r, Aligned a b t r → Complete T (g r) Q) :
    Complete T (liftR (broadcastTwo (castArr p a) (castArr p b)) >>= g) Q := by
  obtain ⟨r, t, h1, h2⟩ := aligned_exists (p := p) ha hb za zb h
  refine Complete.bind (complete_liftR h1) ?_
  rintro _ rfl
  exact hg t _ h2

theorem mapLayer_eq (f : ZMod p → G (ZMod p) (ZMod p)) (x : Arr Int) :
    mapLayer f (castArr p x) = (do
      let ys ← collectG (fun v : Int => f (v : ZMod p)) x.data
      liftR (fromShapeVec x.shape ys)) := by
  unfold mapLayer castArr
  dsimp only
  rw [collectG_map]

theorem isUnary_of_forall₂ {γ : Type} {x : Arr Int} (hw : x.WF) {Q : Int → γ → Prop} {ys : List γ}
    (h : List.Forall₂ Q x.data ys) : IsUnary x Q ⟨x.shape, ys⟩ := by
  refine ⟨rfl, by unfold Arr.WF; rw [← h.length_eq]; exact hw, fun c hc => ?_⟩
  have hk := rowMajor_lt hc
  obtain ⟨u, hu⟩ : ∃ u, elem x c = some u := by
    unfold elem
    exact ⟨_, List.getElem?_eq_getElem (by rw [hw]; exact hk)⟩
  obtain ⟨w, h1, h2⟩ := forall₂_getElem? h hu
  exact ⟨u, w, hu, h1, h2⟩

theorem sound_mapLayer {f : ZMod p → G (ZMod p) (ZMod p)} {x : Arr Int} (hw : x.WF)
    {Q : Int → ZMod p → Prop} (hf : ∀ u ∈ x.data, Sound T (f (u : ZMod p)) (Q u)) :
    Sound T (mapLayer f (castArr p x)) (IsUnary x Q) := by
  rw [mapLayer_eq]
  refine Sound.bind (sound_collectG (Q := Q) _ hf) fun ys hys => ?_
  refine sound_liftR.conseq fun out ho => ?_
  unfold fromShapeVec at ho
  split_ifs at ho
  obtain rfl := Except.ok.inj ho
  exact isUnary_of_forall₂ hw hys

theorem complete_mapLayer {f : ZMod p → G (ZMod p) (ZMod p)} {x : Arr Int} (hw : x.WF)
    {Q : Int → ZMod p → Prop} (hf : ∀ u ∈ x.data, Complete T (f (u : ZMod p)) (Q u)) :
    Complete T (mapLayer f (castArr p x)) (IsUnary x Q) := by
  rw [mapLayer_eq]
  refine Complete.bind (complete_collectG (Q := Q) _ hf) fun ys hys => ?_
  refine Complete.conseq (complete_liftR (a := ⟨x.shape, ys⟩) ?_) fun out ho => ?_
  · unfold fromShapeVec
    rw [if_pos (by rw [← hys.length_eq]; exact hw)]
  · subst ho
    exact isUnary_of_forall₂ hw hys

theorem elementwise_aligned (hr : Aligned a b t r) (op : ZMod p → ZMod p → ZMod p) :
    elementwiseOp op r.1 r.2 = pure ⟨t, (List.range t.prod).map fun k : Nat =>
      op (valAt a (unravel k t) : ZMod p) (valAt b (unravel k t) : ZMod p)⟩ := by
  unfold elementwiseOp
  rw [if_neg (by rw [hr.shape1, hr.shape2]; simp), hr.shape1, hr.data1, hr.data2, zipWith_map_map]

end loops

variable {p : Nat} [Fact p.Prime] {T : Tables (ZMod p)}

theorem isBinary_range {a b : Arr Int} {t : List Nat} {r : Arr (ZMod p) × Arr (ZMod p)} (hr : Aligned a b t r)
    {g : Int → Int → ZMod p} {ys : List (ZMod p)}
    (h : ys = (List.range t.prod).map fun k : Nat => g (valAt a (unravel k t)) (valAt b (unravel k t))) :
    IsBinary a b (fun u v w => w = g u v) ⟨t, ys⟩ := by
  refine isZip_of_forall₂ hr ?_
  rw [h, List.forall₂_map_right_iff, List.forall₂_same]
  exact fun _ _ => rfl

/-! ## Add, Sub, Neg -/

/-- **C56, Add and Sub.** Every accepted output is the sum (difference) of the entries broadcasting
assigns to its position. -/
theorem C56_add_sub_sound (a b : Arr Int) (ha : a.WF) (hb : b.WF) :
    Sound T (addLayer (castArr p a) (castArr p b))
      (IsBinary a b fun u v w => w = ((u + v : Int) : ZMod p)) ∧
    Sound T (subLayer (castArr p a) (castArr p b))
      (IsBinary a b fun u v w => w = ((u - v : Int) : ZMod p)) := by
  constructor
  · unfold addLayer
    refine sound_broadcast ha hb fun t r hr => ?_
    rw [elementwise_aligned hr]
    exact Sound.pure (isBinary_range hr (by simp))
  · unfold subLayer
    refine sound_broadcast ha hb fun t r hr => ?_
    rw [elementwise_aligned hr]
    exact Sound.pure (isBinary_range hr (by simp))

/-- **C56, Add and Sub are complete** whenever ONNX broadcasting is defined, for tensors without an empty
dimension. Missing: empty dimensions (`C37_empty_rejected`). -/
theorem C56_add_sub_complete_partial (a b : Arr Int) (ha : a.WF) (hb : b.WF) (za : ∀ d ∈ a.shape, d ≠ 0)
    (zb : ∀ d ∈ b.shape, d ≠ 0) (h : ∃ s, IsBroadcast a.shape b.shape s) :
    Complete T (addLayer (castArr p a) (castArr p b))
      (IsBinary a b fun u v w => w = ((u + v : Int) : ZMod p)) ∧
    Complete T (subLayer (castArr p a) (castArr p b))
      (IsBinary a b fun u v w => w = ((u - v : Int) : ZMod p)) := by
  constructor
  · unfold addLayer
    refine complete_broadcast ha hb za zb h fun t r hr => ?_
    rw [elementwise_aligned hr]
    exact Complete.pure (isBinary_range hr (by simp))
  · unfold subLayer
    refine complete_broadcast ha hb za zb h fun t r hr => ?_
    rw [elementwise_aligned hr]
    exact Complete.pure (isBinary_range hr (by simp))

/-- **C56, Neg.** -/
theorem C56_neg (x : Arr Int) (hw : x.WF) :
    Sound T (negLayer (castArr p x)) (IsUnary x fun u w => w = ((-u : Int) : ZMod p)) ∧
    Complete T (negLayer (castArr p x)) (IsUnary x fun u w => w = ((-u : Int) : ZMod p)) := by
  unfold negLayer
  exact ⟨sound_mapLayer hw fun u _ => Sound.pure (by simp),
    complete_mapLayer hw fun u _ => Complete.pure (by simp)⟩

/-! ## Mul -/

/-- **C56, Mul is sound.** Every accepted output is the product of the two entries after the layer's
post-processing. Missing: digit widths not dividing the bit widths (`C05_rescale_unsound`). -/
theorem C56_mul_sound_partial {rc : RangeCtx} (hT : IsRangeTable T rc) (hc : 0 < rc.chunk)
    {κ n : Nat} (hn : 1 ≤ n) (hd : rc.chunk ∣ κ) (hds : rc.chunk ∣ n) (hp : 2 ^ κ * 2 ^ (n + 1) ≤ p)
    (isRescale relu : Bool) (a b : Arr Int) (ha : a.WF) (hb : b.WF)
    (hx : ∀ u ∈ a.data, ∀ v ∈ b.data, postRange isRescale κ n relu (u * v)) :
    Sound T (mulLayer rc isRescale κ n relu (castArr p a) (castArr p b))
      (IsBinary a b fun u v w => w = ((postSpec isRescale κ relu (u * v) : Int) : ZMod p)) := by
  unfold mulLayer
  refine sound_broadcast ha hb fun t r hr => ?_
  rw [elementwise_aligned hr]
  refine Sound.bind (Sound.pure (Q := fun o => o = _) rfl) ?_
  rintro _ rfl
  have e : ((List.range t.prod).map fun k : Nat =>
      (valAt a (unravel k t) : ZMod p) * (valAt b (unravel k t) : ZMod p)) =
      ((List.range t.prod).map fun k : Nat => valAt a (unravel k t) * valAt b (unravel k t)).map
        fun x : Int => (x : ZMod p) := by simp
  dsimp only
  rw [e]
  refine Sound.bind (C05_layer_post_sound_partial hT hc hn hd hds hp isRescale relu _ ?_) fun ys hys => ?_
  · intro x hx'
    obtain ⟨k, hk, rfl⟩ := List.mem_map.1 hx'
    have hk := unravel_inRange (List.mem_range.1 hk)
    exact hx _ (valAt_mem (hr.elem1 _ hk)) _ (valAt_mem (hr.elem2 _ hk))
  · refine Sound.pure (isBinary_range hr ?_)
    rw [hys, List.map_map]
    rfl

/-- **C56, Mul is complete** for every digit width. Missing: empty dimensions (`C37_empty_rejected`). -/
theorem C56_mul_complete_partial {rc : RangeCtx} (hT : IsRangeTable T rc)
    {κ n : Nat} (hn : 1 ≤ n) (hn64 : n ≤ 64) (hκ : κ < 32) (huk : RangeUsable p rc κ)
    (hun : RangeUsable p rc n) (hp : 2 ^ κ * 2 ^ n ≤ p)
    (isRescale relu : Bool) (a b : Arr Int) (ha : a.WF) (hb : b.WF) (za : ∀ d ∈ a.shape, d ≠ 0)
    (zb : ∀ d ∈ b.shape, d ≠ 0) (h : ∃ s, IsBroadcast a.shape b.shape s)
    (hx : ∀ u ∈ a.data, ∀ v ∈ b.data, postRange isRescale κ n relu (u * v)) :
    Complete T (mulLayer rc isRescale κ n relu (castArr p a) (castArr p b))
      (IsBinary a b fun u v w => w = ((postSpec isRescale κ relu (u * v) : Int) : ZMod p)) := by
  unfold mulLayer
  refine complete_broadcast ha hb za zb h fun t r hr => ?_
  rw [elementwise_aligned hr]
  refine Complete.bind (Complete.pure (Q := fun o => o = _) rfl) ?_
  rintro _ rfl
  have e : ((List.range t.prod).map fun k : Nat =>
      (valAt a (unravel k t) : ZMod p) * (valAt b (unravel k t) : ZMod p)) =
      ((List.range t.prod).map fun k : Nat => valAt a (unravel k t) * valAt b (unravel k t)).map
        fun x : Int => (x : ZMod p) := by simp
  dsimp only
  rw [e]
  refine Complete.bind (C05_layer_post_complete hT hn hn64 hκ huk hun hp isRescale relu _ ?_) fun ys hys => ?_
  · intro x hx'
    obtain ⟨k, hk, rfl⟩ := List.mem_map.1 hx'
    have hk := unravel_inRange (List.mem_range.1 hk)
    exact hx _ (valAt_mem (hr.elem1 _ hk)) _ (valAt_mem (hr.elem2 _ hk))
  · refine Complete.pure (isBinary_range hr ?_)
    rw [hys, List.map_map]
    rfl

/-! ## ReLU, LeakyReLU, Max, Min -/

theorem sound_shiftCtx {s : Nat} :
    Sound T (ShiftCtx.new s : G (ZMod p) (ShiftCtx p)) (fun c => c = ⟨s, ((2 ^ s : Nat) : ZMod p)⟩) := by
  unfold ShiftCtx.new
  split_ifs
  · exact Sound.throwErr
  · exact Sound.pure rfl

theorem complete_shiftCtx {s : Nat} (hs : s < 64) :
    Complete T (ShiftCtx.new s : G (ZMod p) (ShiftCtx p)) (fun c => c = ⟨s, ((2 ^ s : Nat) : ZMod p)⟩) := by
  unfold ShiftCtx.new
  rw [if_neg (by omega)]
  exact Complete.pure rfl

theorem sound_rescaleCtx {κ s : Nat} :
    Sound T (RescaleCtx.new κ s : G (ZMod p) (RescaleCtx p)) (fun c => c = ⟨κ, s, ((2 ^ κ : Nat) : ZMod p),
      ((2 ^ s : Nat) : ZMod p), ((2 ^ κ * 2 ^ s : Nat) : ZMod p)⟩) := by
  unfold RescaleCtx.new
  split_ifs
  · exact Sound.throwErr
  · exact Sound.throwErr
  · exact Sound.pure rfl

theorem complete_rescaleCtx {κ s : Nat} (hκ : κ < 32) (hs : s < 64) :
    Complete T (RescaleCtx.new κ s : G (ZMod p) (RescaleCtx p)) (fun c => c = ⟨κ, s, ((2 ^ κ : Nat) : ZMod p),
      ((2 ^ s : Nat) : ZMod p), ((2 ^ κ * 2 ^ s : Nat) : ZMod p)⟩) := by
  unfold RescaleCtx.new
  rw [if_neg (by omega), if_neg (by omega)]
  exact Complete.pure rfl

/-- The signed range of a layer with `nb` bits. -/
def Signed (nb : Nat) (x : Arr Int) : Prop := ∀ v ∈ x.data, -2 ^ (nb - 1) ≤ v ∧ v < 2 ^ (nb - 1)

/-- **C56, ReLU is sound.** Missing: digit widths that do not divide the number of bits
(`C56_relu_unsound`). -/
theorem C56_relu_sound_partial {rc : RangeCtx} (hT : IsRangeTable T rc) (hc : 0 < rc.chunk)
    {nb : Nat} (hd : rc.chunk ∣ nb) (hp : 2 ^ (nb + 1) ≤ p) (x : Arr Int) (hw : x.WF) (hx : Signed nb x) :
    Sound T (reluLayer rc nb (castArr p x)) (IsUnary x fun u w => w = ((max 0 u : Int) : ZMod p)) := by
  unfold reluLayer
  split_ifs with h0
  · exact Sound.throwErr
  · obtain ⟨s, rfl⟩ : ∃ s, nb = s + 1 := ⟨nb - 1, by omega⟩
    refine Sound.bind sound_shiftCtx ?_
    rintro _ rfl
    exact sound_mapLayer hw fun u hu => C06_relu_sound_partial hT hc hd hp u (hx u hu).1 (hx u hu).2

/-- **C56, ReLU is complete** for every digit width. -/
theorem C56_relu_complete {rc : RangeCtx} (hT : IsRangeTable T rc) {nb : Nat} (hn : 1 ≤ nb) (hn64 : nb ≤ 64)
    (hu : RangeUsable p rc nb) (x : Arr Int) (hw : x.WF) (hx : Signed nb x) :
    Complete T (reluLayer rc nb (castArr p x)) (IsUnary x fun u w => w = ((max 0 u : Int) : ZMod p)) := by
  obtain ⟨s, rfl⟩ : ∃ s, nb = s + 1 := ⟨nb - 1, by omega⟩
  unfold reluLayer
  rw [if_neg (by omega)]
  refine Complete.bind (complete_shiftCtx (by omega)) ?_
  rintro _ rfl
  exact complete_mapLayer hw fun u hu' => complete_relu hT hu (hx u hu').1 (hx u hu').2

theorem leaky_eq (alpha : Int) (κ : Nat) (x : Int) :
    max 0 x + alpha * (x - max 0 x) / 2 ^ κ = leakyRelu alpha κ x := by
  unfold leakyRelu
  split_ifs with h
  · rw [max_eq_right h]; simp
  · rw [max_eq_left (by omega)]; simp

/-- **C56, LeakyReLU is sound.** The slope `alpha` is in fixed point with scale `2^κ`; the negative part
of every entry times the slope must fit the layer's range. Missing: digit widths that do not divide the
bit widths. -/
theorem C56_leaky_relu_sound_partial {rc : RangeCtx} (hT : IsRangeTable T rc) (hc : 0 < rc.chunk)
    {nb κ : Nat} (hd : rc.chunk ∣ nb) (hdk : rc.chunk ∣ κ) (hp : 2 ^ κ * 2 ^ (nb + 1) ≤ p) (alpha : Int)
    (x : Arr Int) (hw : x.WF) (hx : Signed nb x)
    (hax : ∀ u ∈ x.data, u < 0 → -((2 : Int) ^ κ * 2 ^ (nb - 1)) ≤ alpha * u ∧ alpha * u < 2 ^ κ * 2 ^ (nb - 1)) :
    Sound T (leakyReluLayer rc nb κ alpha (castArr p x))
      (IsUnary x fun u w => w = ((leakyRelu alpha κ u : Int) : ZMod p)) := by
  unfold leakyReluLayer
  split_ifs with h0
  · exact Sound.throwErr
  · obtain ⟨s, rfl⟩ : ∃ s, nb = s + 1 := ⟨nb - 1, by omega⟩
    simp only [Nat.add_sub_cancel] at hax hx ⊢
    refine Sound.bind sound_shiftCtx ?_
    rintro _ rfl
    refine Sound.bind sound_rescaleCtx ?_
    rintro _ rfl
    have hp1 : 2 ^ (s + 2) ≤ p := le_trans (Nat.le_mul_of_pos_left _ (by positivity)) hp
    have hp2 : 2 ^ κ * 2 ^ (s + 1) ≤ p :=
      le_trans (Nat.mul_le_mul_left _ (Nat.pow_le_pow_right (by omega) (by omega))) hp
    refine sound_mapLayer hw fun u hu => ?_
    unfold leakyElem
    refine Sound.bind (C06_relu_sound_partial hT hc hd hp1 u (hx u hu).1 (hx u hu).2) ?_
    rintro _ rfl
    have hr : -((2 : Int) ^ κ * 2 ^ s) ≤ alpha * (u - max 0 u) ∧ alpha * (u - max 0 u) < 2 ^ κ * 2 ^ s := by
      by_cases h : 0 ≤ u
      · rw [max_eq_right h]
        simp only [sub_self, mul_zero]
        have : (0 : Int) < 2 ^ κ * 2 ^ s := by positivity
        omega
      · rw [max_eq_left (by omega), sub_zero]
        exact hax u hu (by omega)
    have e : (alpha : ZMod p) * ((u : ZMod p) - ((max 0 u : Int) : ZMod p)) =
        ((alpha * (u - max 0 u) : Int) : ZMod p) := by push_cast; ring
    rw [e]
    refine Sound.bind (sound_divPow2 hT hc hdk hd hp2 hr.1 hr.2) ?_
    rintro _ rfl
    refine Sound.pure ?_
    rw [← leaky_eq, Int.cast_add]

/-- **C56, LeakyReLU is complete** for every digit width. -/
theorem C56_leaky_relu_complete {rc : RangeCtx} (hT : IsRangeTable T rc) {nb κ : Nat} (hn : 1 ≤ nb)
    (hn64 : nb ≤ 64) (hκ : κ < 32) (hu : RangeUsable p rc nb) (huk : RangeUsable p rc κ)
    (hp : 2 ^ κ * 2 ^ nb ≤ p) (alpha : Int) (x : Arr Int) (hw : x.WF) (hx : Signed nb x)
    (hax : ∀ u ∈ x.data, u < 0 → -((2 : Int) ^ κ * 2 ^ (nb - 1)) ≤ alpha * u ∧ alpha * u < 2 ^ κ * 2 ^ (nb - 1)) :
    Complete T (leakyReluLayer rc nb κ alpha (castArr p x))
      (IsUnary x fun u w => w = ((leakyRelu alpha κ u : Int) : ZMod p)) := by
  obtain ⟨s, rfl⟩ : ∃ s, nb = s + 1 := ⟨nb - 1, by omega⟩
  unfold leakyReluLayer
  rw [if_neg (by omega)]
  simp only [Nat.add_sub_cancel] at hax hx ⊢
  refine Complete.bind (complete_shiftCtx (by omega)) ?_
  rintro _ rfl
  refine Complete.bind (complete_rescaleCtx hκ (by omega)) ?_
  rintro _ rfl
  refine complete_mapLayer hw fun u hu' => ?_
  unfold leakyElem
  refine Complete.bind (complete_relu hT hu (hx u hu').1 (hx u hu').2) ?_
  rintro _ rfl
  have hr : -((2 : Int) ^ κ * 2 ^ s) ≤ alpha * (u - max 0 u) ∧ alpha * (u - max 0 u) < 2 ^ κ * 2 ^ s := by
    by_cases h : 0 ≤ u
    · rw [max_eq_right h]
      simp only [sub_self, mul_zero]
      have : (0 : Int) < 2 ^ κ * 2 ^ s := by positivity
      omega
    · rw [max_eq_left (by omega), sub_zero]
      exact hax u hu' (by omega)
  have e : (alpha : ZMod p) * ((u : ZMod p) - ((max 0 u : Int) : ZMod p)) =
      ((alpha * (u - max 0 u) : Int) : ZMod p) := by push_cast; ring
  rw [e]
  refine Complete.bind (complete_divPow2Inner hT huk hu hp hr.1 hr.2 true) ?_
  rintro _ rfl
  refine Complete.pure ?_
  rw [← leaky_eq, Int.cast_add]

theorem signed_diff {nb : Nat} (hn : 1 ≤ nb) {a b : Arr Int} (ha : Signed nb a) (hb : Signed nb b)
    {u v : Int} (hu : u ∈ a.data) (hv : v ∈ b.data) : |u - v| < 2 ^ nb := by
  have h1 := ha u hu
  have h2 := hb v hv
  obtain ⟨s, rfl⟩ : ∃ s, nb = s + 1 := ⟨nb - 1, by omega⟩
  simp only [Nat.add_sub_cancel] at h1 h2
  rw [pow_succ, abs_lt]
  constructor <;> linarith [h1.1, h1.2, h2.1, h2.2]

/-- **C56, Max and Min are sound.** Missing: digit widths that do not divide the number of bits
(`C56_max_unsound`). -/
theorem C56_max_min_sound_partial {rc : RangeCtx} (hT : IsRangeTable T rc) (hc : 0 < rc.chunk)
    {nb : Nat} (hd : rc.chunk ∣ nb) (hp : 2 ^ (nb + 1) ≤ p) (a b : Arr Int) (ha : a.WF) (hb : b.WF)
    (hra : Signed nb a) (hrb : Signed nb b) :
    Sound T (maxLayer rc nb (castArr p a) (castArr p b))
      (IsBinary a b fun u v w => w = ((max u v : Int) : ZMod p)) ∧
    Sound T (minLayer rc nb (castArr p a) (castArr p b))
      (IsBinary a b fun u v w => w = ((min u v : Int) : ZMod p)) := by
  unfold maxLayer minLayer
  by_cases h0 : nb = 0
  · rw [if_pos h0, if_pos h0]; exact ⟨Sound.throwErr, Sound.throwErr⟩
  rw [if_neg h0, if_neg h0]
  have hdiff := fun u hu v hv => signed_diff (by omega) hra hrb (u := u) (v := v) hu hv
  obtain ⟨s, rfl⟩ : ∃ s, nb = s + 1 := ⟨nb - 1, by omega⟩
  constructor
  · refine sound_broadcast ha hb fun t r hr => ?_
    refine Sound.bind sound_shiftCtx ?_
    rintro _ rfl
    exact sound_zipLoop hr fun u hu v hv => sound_max2_int hT hc hd hp (hdiff u hu v hv)
  · refine sound_broadcast ha hb fun t r hr => ?_
    refine Sound.bind sound_shiftCtx ?_
    rintro _ rfl
    exact sound_zipLoop hr fun u hu v hv => sound_min2_int hT hc hd hp (hdiff u hu v hv)

/-- **C56, Max and Min are complete** for every digit width. Missing: empty dimensions
(`C37_empty_rejected`). -/
theorem C56_max_min_complete_partial {rc : RangeCtx} (hT : IsRangeTable T rc) {nb : Nat} (hn : 1 ≤ nb)
    (hn64 : nb ≤ 64) (hu : RangeUsable p rc nb) (a b : Arr Int) (ha : a.WF) (hb : b.WF)
    (hra : Signed nb a) (hrb : Signed nb b) (za : ∀ d ∈ a.shape, d ≠ 0)
    (zb : ∀ d ∈ b.shape, d ≠ 0) (h : ∃ s, IsBroadcast a.shape b.shape s) :
    Complete T (maxLayer rc nb (castArr p a) (castArr p b))
      (IsBinary a b fun u v w => w = ((max u v : Int) : ZMod p)) ∧
    Complete T (minLayer rc nb (castArr p a) (castArr p b))
      (IsBinary a b fun u v w => w = ((min u v : Int) : ZMod p)) := by
  unfold maxLayer minLayer
  rw [if_neg (by omega), if_neg (by omega)]
  obtain ⟨s, rfl⟩ : ∃ s, nb = s + 1 := ⟨nb - 1, by omega⟩
  constructor
  · refine complete_broadcast ha hb za zb h fun t r hr => ?_
    refine Complete.bind (complete_shiftCtx (by omega)) ?_
    rintro _ rfl
    exact complete_zipLoop hr fun u hu' v hv =>
      complete_max2 hT hu (hra u hu').1 (hra u hu').2 (hrb v hv).1 (hrb v hv).2
  · refine complete_broadcast ha hb za zb h fun t r hr => ?_
    refine Complete.bind (complete_shiftCtx (by omega)) ?_
    rintro _ rfl
    exact complete_zipLoop hr fun u hu' v hv =>
      complete_min2 hT hu (hra u hu').1 (hra u hu').2 (hrb v hv).1 (hrb v hv).2

end JST.Props
