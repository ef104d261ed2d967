import Verif.Tensor.PoolProofs
import Verif.Gadgets.MeanProofs
import Verif.Props.Conv
import Verif.Props.Gadgets

/-!
# C54: the pooling layers

The specification is `poolWindow` (the data inside a window, padding left out), `windows` (how many
window positions fit) and `roundedMean` in `Verif/Spec/Numeric.lean`.
-/

namespace JST.Props

open JST.Shape JST.Layers JST.Spec

variable {p : Nat} [Fact p.Prime] {T : Tables (ZMod p)}

/-- `v` is the maximum of the window; zero for a window consisting of padding only. -/
def IsMaxOf (w : List Int) (v : ZMod p) : Prop :=
  (w = [] ∧ v = 0) ∨ ∃ M ∈ w, (∀ y ∈ w, y ≤ M) ∧ v = (M : ZMod p)

/-- `v` is the mean of the window, rounded to the nearest integer; zero for a window consisting of
padding only. -/
def IsMeanOf (w : List Int) (v : ZMod p) : Prop :=
  (w = [] ∧ v = 0) ∨ (w ≠ [] ∧ v = ((roundedMean w.sum w.length : Int) : ZMod p))

/-- The output of a pooling layer: its shape, and what holds of the window at every position. -/
def IsPooled (x : Arr Int) (N C oh ow kh kw dh dw sh sw ph pw : Nat) (Q : List Int → ZMod p → Prop)
    (out : Arr (ZMod p)) : Prop :=
  out.shape = [N, C, oh, ow] ∧ out.WF ∧ ∀ n c i j, n < N → c < C → i < oh → j < ow →
    ∃ v, elem out [n, c, i, j] = some v ∧ Q (poolWindow x kh kw dh dw sh sw ph pw n c i j) v

theorem castArr_WF {x : Arr Int} (h : x.WF) : (castArr p x).WF := by simpa [Arr.WF, castArr] using h

theorem castArr_elem_map (x : Arr Int) (c : List Nat) :
    elem (castArr p x) c = (elem x c).map fun z : Int => (z : ZMod p) := by
  simp only [elem, castArr, List.getElem?_map]

theorem poolWindow_cast (x : Arr Int) (kh kw dh dw sh sw ph pw n c i j : Nat) :
    poolWindow (castArr p x) kh kw dh dw sh sw ph pw n c i j =
      (poolWindow x kh kw dh dw sh sw ph pw n c i j).map fun z : Int => (z : ZMod p) := by
  unfold poolWindow
  rw [List.map_flatMap]
  congr 1; funext a
  rw [List.map_filterMap]
  congr 1; funext b
  rw [castArr_elem_map]
  change (if 0 ≤ _ ∧ _ < ((x.shape.getD 2 0 : Nat) : Int) ∧ 0 ≤ _ ∧ _ < ((x.shape.getD 3 0 : Nat) : Int) then _ else _) = _
  split_ifs with h
  · exact if_pos h
  · exact if_neg h

theorem poolWindow_mem {x : Arr Int} {kh kw dh dw sh sw ph pw n c i j : Nat} {v : Int}
    (h : v ∈ poolWindow x kh kw dh dw sh sw ph pw n c i j) : v ∈ x.data := by
  simp only [poolWindow, List.mem_flatMap, List.mem_filterMap] at h
  obtain ⟨a, _, b, _, e⟩ := h
  split_ifs at e
  unfold elem at e
  exact List.mem_of_getElem? e

theorem poolWindow_length (x : Arr Int) (kh kw dh dw sh sw ph pw n c i j : Nat) :
    (poolWindow x kh kw dh dw sh sw ph pw n c i j).length ≤ kh * kw := by
  unfold poolWindow
  rw [List.length_flatMap]
  have : ∀ l : List Nat, (l.map fun a : Nat => ((List.range kw).filterMap fun b : Nat =>
    if 0 ≤ (i * sh + a * dh - ph : Int) ∧ (i * sh + a * dh - ph : Int) < (x.shape.getD 2 0 : Nat) ∧
        0 ≤ (j * sw + b * dw - pw : Int) ∧ (j * sw + b * dw - pw : Int) < (x.shape.getD 3 0 : Nat) then
      elem x [n, c, (i * sh + a * dh - ph : Int).toNat, (j * sw + b * dw - pw : Int).toNat]
    else none).length).sum ≤ l.length * kw := by
    intro l
    induction l with
    | nil => simp
    | cons a l ih =>
      rw [List.map_cons, List.sum_cons, List.length_cons, Nat.add_mul, Nat.one_mul, Nat.add_comm]
      refine Nat.add_le_add ih ((List.length_filterMap_le _ _).trans (by simp))
  simpa using this (List.range kh)

/-! ## MaxPool -/

/-- One window of MaxPool. -/
theorem sound_maxCell {rc : RangeCtx} (hT : IsRangeTable T rc) (hc : 0 < rc.chunk) {s : Nat}
    (hd : rc.chunk ∣ s + 1) (hp : 2 ^ (s + 2) ≤ p) (x : Arr Int) {N C H W : Nat}
    (hx : x.shape = [N, C, H, W]) (hw : x.WF) (hr : ∀ v ∈ x.data, -2 ^ s ≤ v ∧ v < 2 ^ s)
    (P : PoolParams) (hdh : 0 < P.dh) (hdw : 0 < P.dw) {i : Nat × Nat × Nat × Nat} (hn : i.1 < N)
    (hcc : i.2.1 < C) :
    Sound T (maxCell ⟨s, ((2 ^ s : Nat) : ZMod p)⟩ rc (castArr p x) P H W i)
      (IsMaxOf (poolWindow x P.kh P.kw P.dh P.dw P.sh P.sw P.padH.1 P.padW.1 i.1 i.2.1 i.2.2.1 i.2.2.2)) := by
  unfold maxCell
  rw [maxValues_ok (castArr_WF hw) (show (castArr p x).shape = _ from hx) hn hcc P hdh hdw, poolWindow_cast]
  have hm : ∀ v ∈ poolWindow x P.kh P.kw P.dh P.dw P.sh P.sw P.padH.1 P.padW.1 i.1 i.2.1 i.2.2.1 i.2.2.2,
      -2 ^ s ≤ v ∧ v < 2 ^ s := fun v hv => hr v (poolWindow_mem hv)
  generalize poolWindow x P.kh P.kw P.dh P.dw P.sh P.sw P.padH.1 P.padW.1 i.1 i.2.1 i.2.2.1 i.2.2.2 = ws at hm
  refine Sound.bind (P := fun o => o = ws.map fun z : Int => (z : ZMod p)) (Sound.pure rfl) ?_
  rintro _ rfl
  cases ws with
  | nil => exact Sound.pure (Or.inl ⟨rfl, rfl⟩)
  | cons w ws => exact (C06_max_sound_partial hT hc hd hp (w :: ws) hm).conseq fun _ h => Or.inr h

theorem complete_maxCell {rc : RangeCtx} (hT : IsRangeTable T rc) {s : Nat}
    (hu : RangeUsable p rc (s + 1)) (x : Arr Int) {N C H W : Nat}
    (hx : x.shape = [N, C, H, W]) (hw : x.WF) (hr : ∀ v ∈ x.data, -2 ^ s ≤ v ∧ v < 2 ^ s)
    (P : PoolParams) (hdh : 0 < P.dh) (hdw : 0 < P.dw) {i : Nat × Nat × Nat × Nat} (hn : i.1 < N)
    (hcc : i.2.1 < C) :
    Complete T (maxCell ⟨s, ((2 ^ s : Nat) : ZMod p)⟩ rc (castArr p x) P H W i)
      (IsMaxOf (poolWindow x P.kh P.kw P.dh P.dw P.sh P.sw P.padH.1 P.padW.1 i.1 i.2.1 i.2.2.1 i.2.2.2)) := by
  unfold maxCell
  rw [maxValues_ok (castArr_WF hw) (show (castArr p x).shape = _ from hx) hn hcc P hdh hdw, poolWindow_cast]
  have hm : ∀ v ∈ poolWindow x P.kh P.kw P.dh P.dw P.sh P.sw P.padH.1 P.padW.1 i.1 i.2.1 i.2.2.1 i.2.2.2,
      -2 ^ s ≤ v ∧ v < 2 ^ s := fun v hv => hr v (poolWindow_mem hv)
  generalize poolWindow x P.kh P.kw P.dh P.dw P.sh P.sw P.padH.1 P.padW.1 i.1 i.2.1 i.2.2.1 i.2.2.2 = ws at hm
  refine Complete.bind (P := fun o => o = ws.map fun z : Int => (z : ZMod p)) (Complete.pure rfl) ?_
  rintro _ rfl
  cases ws with
  | nil => exact Complete.pure (Or.inl ⟨rfl, rfl⟩)
  | cons w ws => exact (((C06_complete hT hu).2 (w :: ws) (by simp) hm).1).conseq fun _ h => Or.inr h

/-- Attributes of a MaxPool node with everything spelled out. -/
def maxAttrs (kh kw sh sw dh dw p0 p1 p2 p3 : Nat) (ceilMode : Int) (autoPad : String) : MaxPoolAttrs :=
  ⟨[kh, kw], some [sh, sw], some [dh, dw], some [p0, p1, p2, p3], ceilMode, autoPad⟩

theorem sound_liftR {F α : Type} [CommRing F] {T : Tables F} {r : R α} :
    Sound T (liftR r : G F α) (fun a => r = .ok a) := by
  cases r with
  | ok a => exact Sound.pure rfl
  | error e => cases e <;> first | exact Sound.panicWith | exact Sound.throwErr

theorem complete_liftR {F α : Type} [CommRing F] {T : Tables F} {r : R α} {a : α} (h : r = .ok a) :
    Complete T (liftR r : G F α) (fun b => b = a) := by
  subst h; exact Complete.pure rfl

theorem pure_bind_err {F α β : Type} [CommRing F] {a : α} {f : α → G F β} {hs : Hints F} {e : Err}
    (h : f a hs = .error e) : ((liftR (.ok a) : G F α) >>= f) hs = .error e := by
  change G.andThen _ f hs = _
  unfold G.andThen
  have e1 : (liftR (.ok a) : G F α) hs = .ok ⟨a, .nil, hs⟩ := rfl
  rw [e1]
  simp only [h]

theorem poolOutDim_ok {dim k d s o : Nat} {pad : Nat × Nat} (h : poolOutDim dim k d s pad = .ok o) :
    0 < k ∧ 0 < s ∧ (k - 1) * d + 1 ≤ dim + (pad.1 + pad.2) ∧
      o = windows (dim + (pad.1 + pad.2)) ((k - 1) * d + 1) s := by
  unfold poolOutDim at h
  split_ifs at h with h1 h2 h3
  exact ⟨by omega, by omega, h2, (Except.ok.inj h).symm⟩

/-- **C54, MaxPool is sound.** Whatever hints the prover supplies, if the layer's constraints hold then
every output is the maximum of the data in its window. Missing: digit widths that do not divide the
number of bits (`C06_unsound`), `ceil_mode` and `auto_pad` (`C54_maxpool_ceil_mode_ignored`). -/
theorem C54_maxpool_sound_partial {rc : RangeCtx} (hT : IsRangeTable T rc) (hc : 0 < rc.chunk)
    {nb : Nat} (hn : 1 ≤ nb) (hd : rc.chunk ∣ nb) (hp : 2 ^ (nb + 1) ≤ p) (x : Arr Int) {N C H W : Nat}
    (hx : x.shape = [N, C, H, W]) (hw : x.WF) (hr : ∀ v ∈ x.data, -2 ^ (nb - 1) ≤ v ∧ v < 2 ^ (nb - 1))
    (kh kw sh sw dh dw p0 p1 p2 p3 : Nat) (hdh : 0 < dh) (hdw : 0 < dw) (ceilMode : Int) (autoPad : String) :
    Sound T (maxPoolLayer rc (maxAttrs kh kw sh sw dh dw p0 p1 p2 p3 ceilMode autoPad) [N, C, H, W] nb
        (castArr p x))
      (IsPooled x N C (windows (H + (p0 + p2)) ((kh - 1) * dh + 1) sh)
        (windows (W + (p1 + p3)) ((kw - 1) * dw + 1) sw) kh kw dh dw sh sw p0 p1 IsMaxOf) := by
  unfold maxPoolLayer
  rw [if_neg (by omega), if_neg (by simp [castArr, hx])]
  refine Sound.bind (P := fun P => P = ⟨kh, kw, sh, sw, dh, dw, (p0, p2), (p1, p3)⟩) (Sound.pure rfl) ?_
  rintro _ rfl
  refine sound_liftR.bind fun out hout => ?_
  unfold setupMaxPool at hout
  simp only [List.drop_succ_cons, List.drop_zero] at hout
  obtain ⟨oh, h1, hout⟩ := Layers.bind_eq_ok hout
  obtain ⟨ow, h2, hout⟩ := Layers.bind_eq_ok hout
  rw [if_neg (by simp)] at hout
  obtain rfl := Except.ok.inj hout
  obtain ⟨-, -, -, rfl⟩ := poolOutDim_ok h1
  obtain ⟨-, -, -, rfl⟩ := poolOutDim_ok h2
  unfold maxPool2d
  simp only
  rw [if_neg (by simp [castArr, hx])]
  unfold ShiftCtx.new
  by_cases h64 : nb - 1 ≥ 64
  · rw [if_pos h64]; exact Sound.throwErr.bind (P := fun _ => False) fun _ h => h.elim
  rw [if_neg h64]
  refine Sound.bind (P := fun o => o = ⟨nb - 1, ((2 ^ (nb - 1) : Nat) : ZMod p)⟩) (Sound.pure rfl) ?_
  rintro _ rfl
  refine Sound.bind (sound_collectG (Q := fun i => IsMaxOf (poolWindow x kh kw dh dw sh sw p0 p1 i.1 i.2.1 i.2.2.1
    i.2.2.2)) _ fun i hi => ?_) fun ys hys => Sound.pure ?_
  · have hi := mem_idx4 hi
    have := sound_maxCell (p := p) (T := T) hT hc (s := nb - 1) (by rw [Nat.sub_add_cancel hn]; exact hd)
      (by rw [show nb - 1 + 2 = nb + 1 by omega]; exact hp) x hx hw hr
      ⟨kh, kw, sh, sw, dh, dw, (p0, p2), (p1, p3)⟩ hdh hdw hi.1 hi.2.1
    exact this
  · obtain ⟨hl, he⟩ := idx4_elems hys
    exact ⟨rfl, by simp [Arr.WF, hl], he⟩

/-- **C54, MaxPool is complete**: when the window fits the padded input, honest executions satisfy the
constraints, for every digit width. -/
theorem C54_maxpool_complete {rc : RangeCtx} (hT : IsRangeTable T rc)
    {nb : Nat} (hn : 1 ≤ nb) (hn64 : nb ≤ 64) (hu : RangeUsable p rc nb) (x : Arr Int) {N C H W : Nat}
    (hx : x.shape = [N, C, H, W]) (hw : x.WF) (hr : ∀ v ∈ x.data, -2 ^ (nb - 1) ≤ v ∧ v < 2 ^ (nb - 1))
    (kh kw sh sw dh dw p0 p1 p2 p3 : Nat) (hkh : 0 < kh) (hkw : 0 < kw) (hsh : 0 < sh) (hsw : 0 < sw)
    (hdh : 0 < dh) (hdw : 0 < dw) (hfh : (kh - 1) * dh + 1 ≤ H + (p0 + p2))
    (hfw : (kw - 1) * dw + 1 ≤ W + (p1 + p3)) (ceilMode : Int) (autoPad : String) :
    Complete T (maxPoolLayer rc (maxAttrs kh kw sh sw dh dw p0 p1 p2 p3 ceilMode autoPad) [N, C, H, W] nb
        (castArr p x))
      (IsPooled x N C (windows (H + (p0 + p2)) ((kh - 1) * dh + 1) sh)
        (windows (W + (p1 + p3)) ((kw - 1) * dw + 1) sw) kh kw dh dw sh sw p0 p1 IsMaxOf) := by
  unfold maxPoolLayer
  rw [if_neg (by omega), if_neg (by simp [castArr, hx])]
  refine Complete.bind (P := fun P => P = ⟨kh, kw, sh, sw, dh, dw, (p0, p2), (p1, p3)⟩) (Complete.pure rfl) ?_
  rintro _ rfl
  refine Complete.bind (complete_liftR (a := [windows (H + (p0 + p2)) ((kh - 1) * dh + 1) sh,
    windows (W + (p1 + p3)) ((kw - 1) * dw + 1) sw]) ?_) ?_
  · unfold setupMaxPool poolOutDim
    simp only [List.drop_succ_cons, List.drop_zero]
    rw [if_neg (by omega), if_pos hfh, if_neg (by omega), if_neg (by omega), if_pos hfw, if_neg (by omega)]
    rfl
  rintro _ rfl
  unfold maxPool2d
  simp only
  rw [if_neg (by simp [castArr, hx])]
  unfold ShiftCtx.new
  rw [if_neg (by omega)]
  refine Complete.bind (P := fun o => o = ⟨nb - 1, ((2 ^ (nb - 1) : Nat) : ZMod p)⟩) (Complete.pure rfl) ?_
  rintro _ rfl
  refine Complete.bind (complete_collectG (Q := fun i => IsMaxOf (poolWindow x kh kw dh dw sh sw p0 p1 i.1 i.2.1 i.2.2.1
    i.2.2.2)) _ fun i hi => ?_) fun ys hys => Complete.pure ?_
  · have hi := mem_idx4 hi
    have := complete_maxCell (p := p) (T := T) hT (s := nb - 1) (by rw [Nat.sub_add_cancel hn]; exact hu)
      x hx hw hr ⟨kh, kw, sh, sw, dh, dw, (p0, p2), (p1, p3)⟩ hdh hdw hi.1 hi.2.1
    exact this
  · obtain ⟨hl, he⟩ := idx4_elems hys
    exact ⟨rfl, by simp [Arr.WF, hl], he⟩

/-- Missing or empty attributes mean unit strides, unit dilations and no padding; a single number stands
for all directions, and two paddings for both sides. -/
theorem C54_maxpool_defaults (rc : RangeCtx) (kh kw k s d a b : Nat) (ceilMode : Int) (autoPad : String)
    (expected : List Nat) (nb : Nat) (x : Arr (ZMod p)) :
    maxPoolLayer rc ⟨[kh, kw], none, none, none, ceilMode, autoPad⟩ expected nb x =
        maxPoolLayer rc (maxAttrs kh kw 1 1 1 1 0 0 0 0 ceilMode autoPad) expected nb x ∧
      maxPoolLayer rc ⟨[kh, kw], some [], some [], some [], ceilMode, autoPad⟩ expected nb x =
        maxPoolLayer rc (maxAttrs kh kw 1 1 1 1 0 0 0 0 ceilMode autoPad) expected nb x ∧
      maxPoolLayer rc ⟨[k], some [s], some [d], some [a], ceilMode, autoPad⟩ expected nb x =
        maxPoolLayer rc (maxAttrs k k s s d d a a a a ceilMode autoPad) expected nb x ∧
      maxPoolLayer rc ⟨[kh, kw], some [s], some [d], some [a, b], ceilMode, autoPad⟩ expected nb x =
        maxPoolLayer rc (maxAttrs kh kw s s d d a b a b ceilMode autoPad) expected nb x :=
  ⟨rfl, rfl, rfl, rfl⟩

/-- **C54, `ceil_mode` and `auto_pad` are ignored.** The layer never reads them. For `ceil_mode = 1`
ONNX asks for one more row when the stride does not divide the remaining height and the extra window
starts before the end of the data; the layer's output has one row less. (No part of shape inference
reads the attribute either.) -/
theorem C54_maxpool_ceil_mode_ignored {rc : RangeCtx} {nb : Nat} (x : Arr (ZMod p))
    {N C H W : Nat} (hx : x.shape = [N, C, H, W])
    (kh kw sh sw dh dw p0 p1 p2 p3 : Nat) (autoPad : String)
    (hs : ¬ sh ∣ H + (p0 + p2) - ((kh - 1) * dh + 1)) :
    Sound T (maxPoolLayer rc (maxAttrs kh kw sh sw dh dw p0 p1 p2 p3 1 autoPad) [N, C, H, W] nb x)
      (fun out => ∃ rows rest, out.shape = N :: C :: rows :: rest ∧
        rows + 1 = (H + (p0 + p2) - ((kh - 1) * dh + 1) + (sh - 1)) / sh + 1) := by
  unfold maxPoolLayer
  by_cases hn : nb < 1
  · rw [if_pos hn]; exact Sound.throwErr
  rw [if_neg hn, if_neg (by simp [hx])]
  refine Sound.bind (P := fun P => P = ⟨kh, kw, sh, sw, dh, dw, (p0, p2), (p1, p3)⟩) (Sound.pure rfl) ?_
  rintro _ rfl
  refine sound_liftR.bind fun out hout => ?_
  unfold setupMaxPool at hout
  simp only [List.drop_succ_cons, List.drop_zero] at hout
  obtain ⟨oh, h1, hout⟩ := Layers.bind_eq_ok hout
  obtain ⟨ow, h2, hout⟩ := Layers.bind_eq_ok hout
  rw [if_neg (by simp)] at hout
  obtain rfl := Except.ok.inj hout
  obtain ⟨-, hs0, -, rfl⟩ := poolOutDim_ok h1
  unfold maxPool2d
  simp only
  rw [if_neg (by simp [hx])]
  refine Sound.bind (P := fun _ => True) (fun _ _ _ _ => trivial) fun sc _ => ?_
  refine Sound.bind (P := fun _ => True) (fun _ _ _ _ => trivial) fun ys _ => Sound.pure ?_
  refine ⟨_, _, rfl, ?_⟩
  dsimp only [windows]
  generalize H + (p0 + p2) - ((kh - 1) * dh + 1) = a at *
  congr 1
  symm
  have h1 := Nat.div_add_mod a sh
  have h2 := Nat.mod_lt a hs0
  have h3 : a % sh ≠ 0 := fun h => hs (Nat.dvd_of_mod_eq_zero h)
  rw [Nat.div_eq_iff hs0]
  have h4 : (a / sh + 1) * sh = sh * (a / sh) + sh := by ring
  rw [h4]
  omega

/-- **C54, MaxPool refusals.** A window larger than the padded input, attribute lists of the wrong
length, inputs that are not four-dimensional and zero bits are errors. -/
theorem C54_maxpool_refuses (rc : RangeCtx) (a : MaxPoolAttrs) {N C H W nb : Nat} (x : Arr (ZMod p))
    (h : nb = 0 ∨ x.shape.length ≠ 4 ∨ a.kernel.length ∉ [1, 2] ∨
      (a.kernel.length ∈ [1, 2] ∧ ((∃ s ∈ a.strides, s.length > 2) ∨ (∃ d ∈ a.dilations, d.length > 2) ∨
        (∃ q ∈ a.pads, q.length ∉ [0, 1, 2, 4]))) ∨
      ∃ kh kw sh sw dh dw p0 p1 p2 p3 cm ap, a = maxAttrs kh kw sh sw dh dw p0 p1 p2 p3 cm ap ∧ 0 < kh ∧
        H + (p0 + p2) < (kh - 1) * dh + 1) (hs : Hints (ZMod p)) :
    ∃ m, maxPoolLayer rc a [N, C, H, W] nb x hs = .error (.err m) := by
  unfold maxPoolLayer
  by_cases hn : nb < 1
  · rw [if_pos hn]; exact ⟨_, rfl⟩
  rw [if_neg hn]
  by_cases h4 : x.shape.length ≠ 4
  · rw [if_pos h4]; exact ⟨_, rfl⟩
  rw [if_neg h4]
  have key : ∀ f : PoolParams → G (ZMod p) (Arr (ZMod p)), ∀ r : R PoolParams, r = .error .invalid →
      ∃ m, (liftR r >>= f) hs = .error (.err m) := by
    intro f r hr; subst hr; exact ⟨_, rfl⟩
  rcases h with h | h | h | h | h
  · omega
  · exact absurd h h4
  · refine key _ _ ?_
    unfold setupMaxPoolParams
    have hk : kernelTwo a.kernel = .error .invalid := by
      match hk : a.kernel with
      | [] => rfl
      | [_] => simp [hk] at h
      | [_, _] => simp [hk] at h
      | _ :: _ :: _ :: _ => rfl
    rw [hk]
    have : ∀ l, padsFour l = .error .invalid ∨ ∃ q, padsFour l = .ok q := by
      intro l; unfold padsFour; split <;> simp
    rcases this (a.pads.getD (List.replicate (2 * a.kernel.length) 0)) with e | ⟨q, e⟩ <;> rw [e] <;> rfl
  · refine key _ _ ?_
    unfold setupMaxPoolParams
    have kpads : ∀ l, padsFour l = .error .invalid ∨ ∃ q, padsFour l = .ok q := by
      intro l; unfold padsFour; split <;> simp
    have kkern : ∀ l, kernelTwo l = .error .invalid ∨ ∃ q, kernelTwo l = .ok q := by
      intro l; unfold kernelTwo; split <;> simp
    have kones : ∀ l, onesTwo l = .error .invalid ∨ ∃ q, onesTwo l = .ok q := by
      intro l; unfold onesTwo; split <;> simp
    have kones' : ∀ l : List Nat, l.length > 2 → onesTwo l = .error .invalid := by
      intro l hl; unfold onesTwo; split <;> simp_all
    have kpads' : ∀ l : List Nat, l.length ∉ [0, 1, 2, 4] → padsFour l = .error .invalid := by
      intro l hl; unfold padsFour; split <;> simp_all
    rcases kpads (a.pads.getD (List.replicate (2 * a.kernel.length) 0)) with e | ⟨q, e⟩
    · rw [e]; rfl
    rcases kkern a.kernel with e2 | ⟨q2, e2⟩
    · rw [e, e2]; rfl
    rcases kones (a.dilations.getD (List.replicate a.kernel.length 1)) with e3 | ⟨q3, e3⟩
    · rw [e, e2, e3]; rfl
    rcases kones (a.strides.getD (List.replicate a.kernel.length 1)) with e4 | ⟨q4, e4⟩
    · rw [e, e2, e3, e4]; rfl
    exfalso
    rcases h.2 with ⟨s, hs, hl⟩ | ⟨s, hs, hl⟩ | ⟨s, hs, hl⟩
    · rw [Option.mem_def.1 hs, Option.getD_some, kones' s hl] at e4; cases e4
    · rw [Option.mem_def.1 hs, Option.getD_some, kones' s hl] at e3; cases e3
    · rw [Option.mem_def.1 hs, Option.getD_some, kpads' s hl] at e; cases e
  · obtain ⟨kh, kw, sh, sw, dh, dw, p0, p1, p2, p3, cm, ap, rfl, hk, hlt⟩ := h
    have e : setupMaxPool ⟨kh, kw, sh, sw, dh, dw, (p0, p2), (p1, p3)⟩ [N, C, H, W] = .error .invalid := by
      unfold setupMaxPool poolOutDim
      simp only [List.drop_succ_cons, List.drop_zero]
      rw [if_neg (by omega), if_neg (by omega)]
      rfl
    refine ⟨"error", ?_⟩
    have e1 : setupMaxPoolParams [p0, p1, p2, p3] [kh, kw] [sh, sw] [dh, dw] =
      .ok ⟨kh, kw, sh, sw, dh, dw, (p0, p2), (p1, p3)⟩ := rfl
    change (liftR (setupMaxPoolParams [p0, p1, p2, p3] [kh, kw] [sh, sw] [dh, dw]) >>= _) hs = _
    rw [e1]
    refine pure_bind_err ?_
    rw [e]
    rfl

/-! ## Means -/

/-- The residual checks of a mean over `n` values are exact: the digit width divides `⌈log₂ n⌉`, or `n`
is a power of two (or one value, which needs no division). -/
def MeanExact (chunk n : Nat) : Prop := n ≤ 1 ∨ chunk ∣ Nat.clog 2 n ∨ n = 2 ^ Nat.clog 2 n

theorem slack_lt {chunk n : Nat} (h : 0 < chunk) : slackBits chunk n < chunk := by
  unfold slackBits
  split_ifs
  · exact h
  · have := Nat.mod_lt n h; omega

theorem abs_sum_le {B : Int} : ∀ xs : List Int, (∀ x ∈ xs, |x| ≤ B) → |xs.sum| ≤ xs.length * B
  | [], _ => by simp
  | x :: xs, h => by
    have h1 := h x (by simp)
    have h2 := abs_sum_le xs fun y hy => h y (List.mem_cons_of_mem _ hy)
    have h3 := abs_add_le x xs.sum
    simp only [List.sum_cons, List.length_cons]
    push_cast
    linarith

/-- Soundness of one window: the output is the rounded mean. -/
theorem sound_mean {rc : RangeCtx} (hT : IsRangeTable T rc) (hc : 0 < rc.chunk)
    {hint : List (ZMod p) → Except Err (List (ZMod p))} {nb K : Nat} {xs : List Int} (hK : xs.length ≤ K)
    (hex : MeanExact rc.chunk xs.length) (hx : ∀ x ∈ xs, |x| ≤ 2 ^ nb)
    (hpk : 2 ^ (Nat.clog 2 K + rc.chunk + 2) ≤ p) (hp : K * (2 ^ (nb + rc.chunk + 1) + 1) ≤ p) :
    Sound T (windowMean hint rc nb (xs.map fun x : Int => (x : ZMod p))) (IsMeanOf xs) := by
  by_cases hne : xs = []
  · subst hne; exact Sound.pure (Or.inl ⟨rfl, rfl⟩)
  have h1 : 1 ≤ xs.length := List.length_pos_iff.2 hne
  refine (sound_windowMean hT hc hne ?_ ?_ ?_).conseq fun _ h => Or.inr ⟨hne, h⟩
  · by_cases h2 : xs.length = 1
    · exact Or.inl h2
    · right
      rcases hex with h | h | h
      · omega
      · left; rwa [ceilLog2_eq_clog (by omega)]
      · right; rwa [ceilLog2_eq_clog (by omega)]
  · intro h2
    rw [ceilLog2_eq_clog h2]
    refine le_trans (Nat.pow_le_pow_right (by norm_num) ?_) hpk
    have := Nat.clog_mono_right 2 hK
    have := slack_lt (n := Nat.clog 2 xs.length) hc
    omega
  · have h3 := abs_sum_le xs hx
    have h4 : (2 : Int) ^ (nb + slackBits rc.chunk nb) ≤ 2 ^ (nb + rc.chunk) :=
      pow_le_pow_right₀ (by norm_num) (by have := slack_lt (n := nb) hc; omega)
    have h5 : (2 : Int) ^ nb ≤ 2 ^ (nb + rc.chunk) := pow_le_pow_right₀ (by norm_num) (by omega)
    have h6 : (K : Int) * (2 ^ (nb + rc.chunk + 1) + 1) ≤ p := by exact_mod_cast hp
    rw [pow_succ] at h6
    have h7 : (xs.length : Int) ≤ K := by exact_mod_cast hK
    have h8 : (0 : Int) ≤ 2 ^ (nb + rc.chunk) := by positivity
    have h9 : (xs.length : Int) * (2 ^ (nb + rc.chunk) * 2 + 1) ≤ K * (2 ^ (nb + rc.chunk) * 2 + 1) :=
      mul_le_mul_of_nonneg_right h7 (by positivity)
    have h10 : (0 : Int) ≤ xs.length := by positivity
    nlinarith

/-- Completeness of one window. -/
theorem complete_mean {rc : RangeCtx} (hT : IsRangeTable T rc)
    {hint : List (ZMod p) → Except Err (List (ZMod p))} {nb K : Nat} (hh : MeanHint hint nb)
    {xs : List Int} (hK : xs.length ≤ K) (hx : ∀ x ∈ xs, 0 ≤ x ∧ x < 2 ^ nb) (hun : RangeUsable p rc nb)
    (huk : ∀ k, 1 ≤ k → k ≤ Nat.clog 2 K → RangeUsable p rc k) :
    Complete T (windowMean hint rc nb (xs.map fun x : Int => (x : ZMod p))) (IsMeanOf xs) := by
  by_cases hne : xs = []
  · subst hne; exact Complete.pure (Or.inl ⟨rfl, rfl⟩)
  refine (complete_windowMean hT hh hne hx hun ?_).conseq fun _ h => Or.inr ⟨hne, h⟩
  intro h2
  refine huk _ (ceilLog2_pos _) ?_
  rw [ceilLog2_eq_clog h2]
  exact Nat.clog_mono_right 2 hK

/-! ## AveragePool -/

/-- Attributes of an AveragePool node with everything spelled out. -/
def avgAttrs (kh kw sh sw p0 p1 p2 p3 : Nat) : AvgPoolAttrs :=
  ⟨some [kh, kw], some [sh, sw], some [p0, p1, p2, p3], 0, 0, none⟩

/-- **C54, AveragePool is sound.** Every output is the mean of the data in its window (padding not
counted), rounded to the nearest integer. Missing: window sizes for which the residual check is not exact
(`C54_average_unsound`). -/
theorem C54_avgpool_sound_partial {rc : RangeCtx} (hT : IsRangeTable T rc) (hc : 0 < rc.chunk)
    {hint : List (ZMod p) → Except Err (List (ZMod p))} {nb : Nat} (x : Arr Int) {N C H W : Nat}
    (hx : x.shape = [N, C, H, W]) (hw : x.WF) (hr : ∀ v ∈ x.data, |v| ≤ 2 ^ nb)
    (kh kw sh sw p0 p1 p2 p3 : Nat)
    (hex : ∀ n c i j, n < N → c < C → i < windows (H + p0 + p2) kh sh → j < windows (W + p1 + p3) kw sw →
      MeanExact rc.chunk (poolWindow x kh kw 1 1 sh sw p0 p1 n c i j).length)
    (hpk : 2 ^ (Nat.clog 2 (kh * kw) + rc.chunk + 2) ≤ p)
    (hp : kh * kw * (2 ^ (nb + rc.chunk + 1) + 1) ≤ p) :
    Sound T (avgPoolLayer hint rc (avgAttrs kh kw sh sw p0 p1 p2 p3) [N, C, H, W]
        [N, C, windows (H + p0 + p2) kh sh, windows (W + p1 + p3) kw sw] nb (castArr p x))
      (IsPooled x N C (windows (H + p0 + p2) kh sh) (windows (W + p1 + p3) kw sw) kh kw 1 1 sh sw p0 p1
        IsMeanOf) := by
  unfold avgPoolLayer
  refine sound_liftR.bind fun L hL => ?_
  unfold avgPoolBuild avgAttrs at hL
  simp only [Option.getD_some] at hL
  split_ifs at hL
  obtain rfl := Except.ok.inj hL
  unfold avgPoolApply
  rw [if_neg (by simp [castArr, hx])]
  simp only
  by_cases h1 : H + p0 + p2 < kh
  · rw [if_pos h1]; exact Sound.throwErr
  by_cases h2 : W + p1 + p3 < kw
  · rw [if_neg h1, if_pos h2]; exact Sound.throwErr
  rw [if_neg h1, if_neg h2]
  refine Sound.bind (sound_collectG (Q := fun i => IsMeanOf (poolWindow x kh kw 1 1 sh sw p0 p1 i.1 i.2.1 i.2.2.1
    i.2.2.2)) _ fun i hi => ?_) fun ys hys => ?_
  · have hi := mem_idx4 hi
    rw [avgValues_eq (castArr_WF hw) (show (castArr p x).shape = _ from hx) hi.1 hi.2.1, poolWindow_cast]
    exact sound_mean hT hc (poolWindow_length ..) (hex _ _ _ _ hi.1 hi.2.1 hi.2.2.1 hi.2.2.2)
      (fun v hv => hr v (poolWindow_mem hv)) hpk hp
  · obtain ⟨hl, he⟩ := idx4_elems hys
    refine sound_liftR.conseq fun out ho => ?_
    unfold fromShapeVec at ho
    split_ifs at ho
    obtain rfl := Except.ok.inj ho
    exact ⟨rfl, by simp only [Arr.WF, hl, windows]; simp, he⟩

/-- **C54, AveragePool is complete** for non-negative data, for every digit width and window size. The
hint (which uses floating point) is assumed to return the rounded mean. -/
theorem C54_avgpool_complete {rc : RangeCtx} (hT : IsRangeTable T rc)
    {hint : List (ZMod p) → Except Err (List (ZMod p))} {nb : Nat} (hh : MeanHint hint nb) (x : Arr Int)
    {N C H W : Nat} (hx : x.shape = [N, C, H, W]) (hw : x.WF) (hr : ∀ v ∈ x.data, 0 ≤ v ∧ v < 2 ^ nb)
    (kh kw sh sw p0 p1 p2 p3 : Nat) (hkh : 0 < kh) (hkw : 0 < kw) (hsh : 0 < sh) (hsw : 0 < sw)
    (hfh : kh ≤ H + p0 + p2) (hfw : kw ≤ W + p1 + p3) (hun : RangeUsable p rc nb)
    (huk : ∀ k, 1 ≤ k → k ≤ Nat.clog 2 (kh * kw) → RangeUsable p rc k) :
    Complete T (avgPoolLayer hint rc (avgAttrs kh kw sh sw p0 p1 p2 p3) [N, C, H, W]
        [N, C, windows (H + p0 + p2) kh sh, windows (W + p1 + p3) kw sw] nb (castArr p x))
      (IsPooled x N C (windows (H + p0 + p2) kh sh) (windows (W + p1 + p3) kw sw) kh kw 1 1 sh sw p0 p1
        IsMeanOf) := by
  unfold avgPoolLayer
  refine Complete.bind (complete_liftR (a := ⟨kh, kw, sh, sw, p0, p1, p2, p3, [N, C, H, W],
    [N, C, windows (H + p0 + p2) kh sh, windows (W + p1 + p3) kw sw], nb⟩) ?_) ?_
  · unfold avgPoolBuild avgAttrs
    simp only [Option.getD_some, Option.getD_none]
    rw [if_neg (by omega), if_neg (by omega), if_neg (by simp), if_neg (by simp), if_neg (by simp)]
  rintro _ rfl
  unfold avgPoolApply
  rw [if_neg (by simp [castArr, hx])]
  simp only
  rw [if_neg (by omega), if_neg (by omega)]
  refine Complete.bind (complete_collectG (Q := fun i => IsMeanOf (poolWindow x kh kw 1 1 sh sw p0 p1 i.1 i.2.1 i.2.2.1
    i.2.2.2)) _ fun i hi => ?_) fun ys hys => ?_
  · have hi := mem_idx4 hi
    rw [avgValues_eq (castArr_WF hw) (show (castArr p x).shape = _ from hx) hi.1 hi.2.1, poolWindow_cast]
    exact complete_mean hT hh (poolWindow_length ..) (fun v hv => hr v (poolWindow_mem hv)) hun huk
  · obtain ⟨hl, he⟩ := idx4_elems hys
    refine Complete.conseq (complete_liftR (a := ⟨[N, C, windows (H + p0 + p2) kh sh,
      windows (W + p1 + p3) kw sw], ys⟩) ?_) fun out ho => ?_
    · unfold fromShapeVec
      rw [if_pos (by rw [hl]; simp [windows])]
    · subst ho
      exact ⟨rfl, by simp only [Arr.WF, hl, windows]; simp, he⟩

/-- **C54, AveragePool cannot be proved for negative data.** When the digit width divides the number of
bits and a negative number lies in some window, no prover satisfies the constraints. -/
theorem C54_avgpool_negative_unprovable {rc : RangeCtx} (hT : IsRangeTable T rc) (hc : 0 < rc.chunk)
    {hint : List (ZMod p) → Except Err (List (ZMod p))} {nb : Nat} (hd : rc.chunk ∣ nb) (x : Arr Int)
    {N C H W : Nat} (hx : x.shape = [N, C, H, W]) (hw : x.WF)
    (kh kw sh sw p0 p1 p2 p3 : Nat) {n c i j : Nat} (hn : n < N) (hcc : c < C)
    (hi : i < windows (H + p0 + p2) kh sh) (hj : j < windows (W + p1 + p3) kw sw) {v : Int}
    (hv : v ∈ poolWindow x kh kw 1 1 sh sw p0 p1 n c i j) (h0 : v < 0) (hp : 2 ^ nb - v ≤ p) :
    Sound T (avgPoolLayer hint rc (avgAttrs kh kw sh sw p0 p1 p2 p3) [N, C, H, W]
        [N, C, windows (H + p0 + p2) kh sh, windows (W + p1 + p3) kw sw] nb (castArr p x))
      (fun _ => False) := by
  unfold avgPoolLayer
  refine sound_liftR.bind fun L hL => ?_
  unfold avgPoolBuild avgAttrs at hL
  simp only [Option.getD_some] at hL
  split_ifs at hL
  obtain rfl := Except.ok.inj hL
  unfold avgPoolApply
  rw [if_neg (by simp [castArr, hx])]
  simp only
  by_cases h1 : H + p0 + p2 < kh
  · rw [if_pos h1]; exact Sound.throwErr
  by_cases h2 : W + p1 + p3 < kw
  · rw [if_neg h1, if_pos h2]; exact Sound.throwErr
  rw [if_neg h1, if_neg h2]
  refine (sound_collectG_false _ ⟨(n, c, i, j), mem_idx4_of hn hcc hi hj, ?_⟩).bind fun _ h => h.elim
  rw [avgValues_eq (castArr_WF hw) (show (castArr p x).shape = _ from hx) hn hcc, poolWindow_cast]
  exact windowMean_negative hT hc hd hv h0 hp

/-- Missing strides and padding mean ones and zeros. -/
theorem C54_avgpool_defaults (kh kw : Nat) (inS outS : List Nat) (nb : Nat) :
    avgPoolBuild ⟨some [kh, kw], none, none, 0, 0, none⟩ inS outS nb =
      avgPoolBuild (avgAttrs kh kw 1 1 0 0 0 0) inS outS nb := rfl

/-- **C54, AveragePool refusals.** A missing kernel, attribute lists of the wrong length, zero kernel or
stride entries, `ceil_mode`, `count_include_pad` and automatic padding are errors when the circuit is
built. -/
theorem C54_avgpool_refuses (a : AvgPoolAttrs) (inS outS : List Nat) (nb : Nat)
    (h : a.kernel = none ∨ (∃ k ∈ a.kernel, k.length ≠ 2 ∨ 0 ∈ k) ∨ (∃ s ∈ a.strides, s.length ≠ 2 ∨ 0 ∈ s) ∨
      (∃ q ∈ a.pads, q.length ≠ 4) ∨ a.ceilMode ≠ 0 ∨ a.countIncludePad ≠ 0 ∨
      (∃ s ∈ a.autoPad, s ≠ "NOTSET" ∧ s ≠ "")) :
    avgPoolBuild a inS outS nb = .error .invalid := by
  unfold avgPoolBuild
  split
  · rfl
  · next kernel hk =>
    split
    · next kh kw sh sw p0 p1 p2 p3 e1 e2 =>
      split_ifs with c1 c2 c3 c4 c5
      · rfl
      · rfl
      · rfl
      · rfl
      · rfl
      · exfalso
        rcases h with h | ⟨k, h, h'⟩ | ⟨s, h, h'⟩ | ⟨q, h, h'⟩ | h | h | ⟨s, h, h'⟩
        · rw [hk] at h; cases h
        · rw [hk] at h
          obtain rfl := Option.some.inj (Option.mem_def.1 h)
          simp at h'; omega
        · rw [Option.mem_def.1 h, Option.getD_some] at e1
          subst e1; simp at h'; omega
        · rw [Option.mem_def.1 h, Option.getD_some] at e2
          subst e2; simp at h'
        · exact c3 h
        · exact c4 h
        · rw [Option.mem_def.1 h, Option.getD_some] at c5
          exact c5 h'
    · rfl

/-! ## GlobalAveragePool -/

/-- The values averaged by GlobalAveragePool at batch `n`, channel `c`: all entries `x[n, c, …]`. -/
def globalWindow (x : Arr Int) (n c : Nat) : List Int :=
  (coordsOf (x.shape.drop 2)).filterMap fun q => elem x (n :: c :: q)

/-- The output of GlobalAveragePool. -/
def IsGlobalMean (x : Arr Int) (N C k : Nat) (out : Arr (ZMod p)) : Prop :=
  out.shape = N :: C :: List.replicate k 1 ∧ out.WF ∧ ∀ n c, n < N → c < C →
    ∃ v, elem out (n :: c :: List.replicate k 0) = some v ∧ IsMeanOf (globalWindow x n c) v

theorem globalWindow_mem {x : Arr Int} {n c : Nat} {v : Int} (h : v ∈ globalWindow x n c) : v ∈ x.data := by
  simp only [globalWindow, List.mem_filterMap] at h
  obtain ⟨q, _, e⟩ := h
  exact List.mem_of_getElem? e

theorem globalWindow_slice {x : Arr Int} (hw : x.WF) {N C : Nat} {sp : List Nat} (hx : x.shape = N :: C :: sp)
    {n c : Nat} (hn : n < N) (hc : c < C) :
    globalWindow x n c = (x.data.drop (n * C * sp.prod + c * sp.prod)).take sp.prod := by
  unfold globalWindow
  rw [hx]
  exact coords_slice hw hx hn hc

theorem globalWindow_cast {x : Arr Int} (hw : x.WF) {N C : Nat} {sp : List Nat} (hx : x.shape = N :: C :: sp)
    {n c : Nat} (hn : n < N) (hc : c < C) :
    ((castArr p x).data.drop (n * C * sp.prod + c * sp.prod)).take sp.prod =
      (globalWindow x n c).map fun z : Int => (z : ZMod p) := by
  rw [globalWindow_slice hw hx hn hc]
  simp only [castArr, List.map_drop, List.map_take]

theorem globalWindow_length {x : Arr Int} (hw : x.WF) {N C : Nat} {sp : List Nat} (hx : x.shape = N :: C :: sp)
    {n c : Nat} (hn : n < N) (hc : c < C) : (globalWindow x n c).length = sp.prod := by
  have h1 : n * C + c < N * C := block_lt hn hc
  have h2 : (n * C + c + 1) * sp.prod ≤ N * C * sp.prod := Nat.mul_le_mul_right _ h1
  have hl : x.data.length = N * C * sp.prod := by rw [hw, hx]; simp [Nat.mul_assoc]
  rw [globalWindow_slice hw hx hn hc, List.length_take, List.length_drop, hl]
  have : n * C * sp.prod + c * sp.prod + sp.prod ≤ N * C * sp.prod := by nlinarith
  omega

/-- **C54, GlobalAveragePool is sound** for every rank: each output is the rounded mean of its channel.
Missing: channel sizes for which the residual check is not exact (`C54_average_unsound`). -/
theorem C54_global_sound_partial {rc : RangeCtx} (hT : IsRangeTable T rc) (hc : 0 < rc.chunk)
    {hint : List (ZMod p) → Except Err (List (ZMod p))} {nb : Nat} (x : Arr Int) {N C d : Nat} {sp : List Nat}
    (hx : x.shape = N :: C :: d :: sp) (hw : x.WF) (hr : ∀ v ∈ x.data, |v| ≤ 2 ^ nb)
    (hex : MeanExact rc.chunk (d :: sp).prod)
    (hpk : 2 ^ (Nat.clog 2 (d :: sp).prod + rc.chunk + 2) ≤ p)
    (hp : (d :: sp).prod * (2 ^ (nb + rc.chunk + 1) + 1) ≤ p) :
    Sound T (globalAvgPoolLayer hint rc (N :: C :: d :: sp) (N :: C :: List.replicate (sp.length + 1) 1) nb
      (castArr p x)) (IsGlobalMean x N C (sp.length + 1)) := by
  unfold globalAvgPoolLayer
  rw [if_neg (by simp [castArr, hx])]
  simp only
  refine Sound.bind (sound_collectG (Q := fun i => IsMeanOf (globalWindow x i.1 i.2)) _ fun i hi => ?_)
    fun ys hys => ?_
  · have hi := mem_idx2.1 hi
    rw [globalWindow_cast hw hx hi.1 hi.2]
    exact sound_mean hT hc (globalWindow_length hw hx hi.1 hi.2).le
      (by rwa [globalWindow_length hw hx hi.1 hi.2]) (fun v hv => hr v (globalWindow_mem hv)) hpk hp
  · obtain ⟨hl, he⟩ := idx2_elems hys (sp.length + 1)
    refine sound_liftR.conseq fun out ho => ?_
    unfold fromShapeVec at ho
    split_ifs at ho
    obtain rfl := Except.ok.inj ho
    exact ⟨rfl, by simp only [Arr.WF, hl]; simp, he⟩

/-- **C54, GlobalAveragePool is complete** for non-negative data. -/
theorem C54_global_complete {rc : RangeCtx} (hT : IsRangeTable T rc)
    {hint : List (ZMod p) → Except Err (List (ZMod p))} {nb : Nat} (hh : MeanHint hint nb) (x : Arr Int)
    {N C d : Nat} {sp : List Nat} (hx : x.shape = N :: C :: d :: sp) (hw : x.WF)
    (hr : ∀ v ∈ x.data, 0 ≤ v ∧ v < 2 ^ nb) (hun : RangeUsable p rc nb)
    (huk : ∀ k, 1 ≤ k → k ≤ Nat.clog 2 (d :: sp).prod → RangeUsable p rc k) :
    Complete T (globalAvgPoolLayer hint rc (N :: C :: d :: sp) (N :: C :: List.replicate (sp.length + 1) 1) nb
      (castArr p x)) (IsGlobalMean x N C (sp.length + 1)) := by
  unfold globalAvgPoolLayer
  rw [if_neg (by simp [castArr, hx])]
  simp only
  refine Complete.bind (complete_collectG (Q := fun i => IsMeanOf (globalWindow x i.1 i.2)) _ fun i hi => ?_)
    fun ys hys => ?_
  · have hi := mem_idx2.1 hi
    rw [globalWindow_cast hw hx hi.1 hi.2]
    exact complete_mean hT hh (globalWindow_length hw hx hi.1 hi.2).le
      (fun v hv => hr v (globalWindow_mem hv)) hun huk
  · obtain ⟨hl, he⟩ := idx2_elems hys (sp.length + 1)
    refine Complete.conseq (complete_liftR (a := ⟨N :: C :: List.replicate (sp.length + 1) 1, ys⟩) ?_)
      fun out ho => ?_
    · unfold fromShapeVec
      rw [if_pos (by rw [hl]; simp)]
    · subst ho
      exact ⟨rfl, by simp only [Arr.WF, hl]; simp, he⟩

/-- **C54, GlobalAveragePool cannot be proved for negative data** when the digit width divides the number
of bits. -/
theorem C54_global_negative_unprovable {rc : RangeCtx} (hT : IsRangeTable T rc) (hc : 0 < rc.chunk)
    {hint : List (ZMod p) → Except Err (List (ZMod p))} {nb : Nat} (hd : rc.chunk ∣ nb) (x : Arr Int)
    {N C d : Nat} {sp outS : List Nat} (hx : x.shape = N :: C :: d :: sp) (hw : x.WF) {n c : Nat} (hn : n < N)
    (hcc : c < C) {v : Int} (hv : v ∈ globalWindow x n c) (h0 : v < 0) (hp : 2 ^ nb - v ≤ p) :
    Sound T (globalAvgPoolLayer hint rc (N :: C :: d :: sp) outS nb (castArr p x)) (fun _ => False) := by
  unfold globalAvgPoolLayer
  rw [if_neg (by simp [castArr, hx])]
  simp only
  refine (sound_collectG_false _ ⟨(n, c), mem_idx2.2 ⟨hn, hcc⟩, ?_⟩).bind fun _ h => h.elim
  rw [globalWindow_cast hw hx hn hcc]
  exact windowMean_negative hT hc hd hv h0 hp

/-- A tensor of another shape than the recorded one, or of rank below three, is an error. -/
theorem C54_global_refuses {rc : RangeCtx} {hint : List (ZMod p) → Except Err (List (ZMod p))} {nb : Nat}
    (x : Arr (ZMod p)) (inS outS : List Nat) (h : x.shape ≠ inS ∨ inS.length < 3) (hs : Hints (ZMod p)) :
    ∃ msg, globalAvgPoolLayer hint rc inS outS nb x hs = .error (.err msg) := by
  unfold globalAvgPoolLayer
  split_ifs with c1
  · exact ⟨_, rfl⟩
  · rcases h with h | h
    · exact absurd h c1
    · rcases inS with _ | ⟨a, _ | ⟨b, _ | ⟨d, sp⟩⟩⟩
      · exact ⟨_, rfl⟩
      · exact ⟨_, rfl⟩
      · exact ⟨_, rfl⟩
      · simp only [List.length_cons] at h; omega

/-! ## The mean is not always forced -/

/-- For such a window a neighbour of the mean passes all checks. -/
theorem forge_wrong_mean {rc : RangeCtx} (hT : IsRangeTable T rc)
    {hint : List (ZMod p) → Except Err (List (ZMod p))} {nb : Nat} {xs : List Int} (h2 : 2 ≤ xs.length)
    (hx : ∀ x ∈ xs, 1 ≤ x ∧ x < 2 ^ nb - 1) (hun : RangeCallable rc nb)
    (huk : RangeCallable rc (Nat.clog 2 xs.length)) (hnd : ¬ rc.chunk ∣ Nat.clog 2 xs.length)
    (h3 : 3 * xs.length ≤ 2 ^ (Nat.clog 2 xs.length + 1)) (hp : 2 < p) :
    ∃ v : ZMod p, ¬ IsMeanOf xs v ∧
      Forge T (windowMean hint rc nb (xs.map fun x : Int => (x : ZMod p))) (fun out => out = v) := by
  have hne : xs ≠ [] := by rintro rfl; simp at h2
  have hn0 : (0 : Int) < xs.length := by omega
  -- the mean of the data lies strictly inside the range
  have hm1 : 1 ≤ roundedMean xs.sum xs.length := by
    have hs : (xs.length : Int) ≤ xs.sum := by
      have : ∀ l : List Int, (∀ x ∈ l, 1 ≤ x) → (l.length : Int) ≤ l.sum := by
        intro l
        induction l with
        | nil => simp
        | cons a l ih =>
          intro h
          have h1 := h a (by simp)
          have h2 := ih fun y hy => h y (List.mem_cons_of_mem _ hy)
          simp only [List.length_cons, List.sum_cons]; push_cast; linarith
      exact this xs fun x h => (hx x h).1
    unfold roundedMean
    rw [Int.le_ediv_iff_mul_le (by omega)]; linarith
  have hm2 : roundedMean xs.sum xs.length < 2 ^ nb - 1 :=
    (roundedMean_range hne (B := 2 ^ nb - 1) fun x h => ⟨by have := (hx x h).1; omega, (hx x h).2⟩).2
  have hcl : (xs.length : Int) ≤ 2 ^ Nat.clog 2 xs.length := by
    exact_mod_cast Nat.le_pow_clog (by norm_num) _
  have h3' : 3 * (xs.length : Int) ≤ 2 * 2 ^ Nat.clog 2 xs.length := by
    rw [pow_succ] at h3
    have : (3 * xs.length : Nat) ≤ (2 : Int) ^ Nat.clog 2 xs.length * 2 := by exact_mod_cast h3
    push_cast at this; linarith
  rw [roundedMean_eq] at hm1 hm2
  have hdm := Int.mul_ediv_add_emod (xs.sum + (xs.length / 2 : Nat)) xs.length
  have hr0 := Int.emod_nonneg (xs.sum + (xs.length / 2 : Nat)) hn0.ne'
  have hr1 := Int.emod_lt_of_pos (xs.sum + (xs.length / 2 : Nat)) hn0
  have hwrong : ∀ δ : Int, δ = 1 ∨ δ = -1 →
      ¬ IsMeanOf xs (((xs.sum + (xs.length / 2 : Nat)) / xs.length + δ : Int) : ZMod p) := by
    intro δ hδ h
    rcases h with ⟨h, _⟩ | ⟨_, h⟩
    · exact hne h
    · rw [roundedMean_eq, Int.cast_add, add_eq_left] at h
      have : (p : Int) ∣ δ := (ZMod.intCast_zmod_eq_zero_iff_dvd δ p).1 h
      rcases hδ with rfl | rfl
      · have := Int.le_of_dvd (by norm_num) this; omega
      · have := Int.le_of_dvd (by norm_num) ((dvd_neg (b := (1 : Int))).1 this); omega
  have hfx : ∀ x ∈ xs, AcceptedInt rc.chunk nb x := fun x h =>
    accepted_nonneg (by have := (hx x h).1; omega) (by have := (hx x h).2; omega)
  have hceil := ceilLog2_eq_clog h2
  by_cases hcase : (xs.sum + (xs.length / 2 : Nat)) % xs.length + xs.length < (2 : Int) ^ Nat.clog 2 xs.length
  · refine ⟨_, hwrong (-1) (Or.inr rfl), forge_windowMean hT h2 hfx hun (by rwa [hceil])
      (accepted_nonneg (by omega) (by omega)) ?_ ?_⟩
    · rw [hceil]
      refine accepted_neg huk.chunk_pos hnd ?_ ?_ <;> rw [mul_add, mul_neg_one] <;> omega
    · rw [hceil]
      refine accepted_neg huk.chunk_pos hnd ?_ ?_ <;> rw [mul_add, mul_neg_one] <;> omega
  · refine ⟨_, hwrong 1 (Or.inl rfl), forge_windowMean hT h2 hfx hun (by rwa [hceil])
      (accepted_nonneg (by omega) (by omega)) ?_ ?_⟩
    · rw [hceil]
      refine accepted_neg huk.chunk_pos hnd ?_ ?_ <;> rw [mul_add, mul_one] <;> omega
    · rw [hceil]
      refine accepted_neg huk.chunk_pos hnd ?_ ?_ <;> rw [mul_add, mul_one] <;> omega

/-- **C54, averages can be forged.** If the digit width does not divide `⌈log₂ n⌉` and
`3n ≤ 2^(⌈log₂ n⌉ + 1)` (for example 5, 9, 10 or 17 values), a proof exists in which *every* channel mean
is wrong, for every input strictly inside the range. -/
theorem C54_average_unsound {rc : RangeCtx} (hT : IsRangeTable T rc)
    {hint : List (ZMod p) → Except Err (List (ZMod p))} {nb : Nat} (x : Arr Int) {N C d : Nat} {sp : List Nat}
    (hx : x.shape = N :: C :: d :: sp) (hw : x.WF) (hr : ∀ v ∈ x.data, 1 ≤ v ∧ v < 2 ^ nb - 1)
    (h2 : 2 ≤ (d :: sp).prod) (hun : RangeCallable rc nb) (huk : RangeCallable rc (Nat.clog 2 (d :: sp).prod))
    (hnd : ¬ rc.chunk ∣ Nat.clog 2 (d :: sp).prod)
    (h3 : 3 * (d :: sp).prod ≤ 2 ^ (Nat.clog 2 (d :: sp).prod + 1)) (hp : 2 < p) :
    Forge T (globalAvgPoolLayer hint rc (N :: C :: d :: sp) (N :: C :: List.replicate (sp.length + 1) 1) nb
      (castArr p x)) (fun out => out.shape = N :: C :: List.replicate (sp.length + 1) 1 ∧
        ∀ n c, n < N → c < C → ∃ v, elem out (n :: c :: List.replicate (sp.length + 1) 0) = some v ∧
          ¬ IsMeanOf (globalWindow x n c) v) := by
  classical
  have key : ∀ i : Nat × Nat, ∃ v : ZMod p, i ∈ idx2 N C → (¬ IsMeanOf (globalWindow x i.1 i.2) v ∧
      Forge T (windowMean hint rc nb (((castArr p x).data.drop (i.1 * C * (d :: sp).prod +
        i.2 * (d :: sp).prod)).take (d :: sp).prod)) (fun out => out = v)) := by
    intro i
    by_cases hi : i ∈ idx2 N C
    · have hi' := mem_idx2.1 hi
      have hl := globalWindow_length hw hx hi'.1 hi'.2
      obtain ⟨v, hv⟩ := forge_wrong_mean (p := p) hT (hint := hint) (nb := nb) (xs := globalWindow x i.1 i.2)
        (by rwa [hl]) (fun v hv => hr v (globalWindow_mem hv)) hun (by rwa [hl]) (by rwa [hl]) (by rwa [hl]) hp
      refine ⟨v, fun _ => ⟨hv.1, ?_⟩⟩
      rw [globalWindow_cast hw hx hi'.1 hi'.2]
      exact hv.2
    · exact ⟨0, fun h => absurd h hi⟩
  choose g hg using key
  unfold globalAvgPoolLayer
  rw [if_neg (by simp [castArr, hx])]
  simp only
  refine Forge.bind (forge_collectG (g := g) _ fun i hi => (hg i hi).2) (a := (idx2 N C).map g) (fun _ h => h) ?_
  have hF : List.Forall₂ (fun i v => ¬ IsMeanOf (globalWindow x i.1 i.2) v) (idx2 N C) ((idx2 N C).map g) := by
    rw [List.forall₂_map_right_iff, List.forall₂_same]
    exact fun i hi => (hg i hi).1
  obtain ⟨hl, he⟩ := idx2_elems hF (sp.length + 1)
  have e : fromShapeVec (N :: C :: List.replicate (sp.length + 1) 1) ((idx2 N C).map g) =
      .ok ⟨N :: C :: List.replicate (sp.length + 1) 1, (idx2 N C).map g⟩ := by
    unfold fromShapeVec
    rw [if_pos (by rw [hl]; simp)]
  rw [e]
  exact Forge.pure ⟨rfl, he⟩

/-! ## Concrete cases -/

/-- A 1×2×3×3 tensor. -/
def poolX : Arr Int := ⟨[1, 2, 3, 3], [5, 1, 7, 2, 9, 4, 3, 8, 6, 11, 12, 13, 14, 15, 16, 17, 18, 19]⟩

example : poolWindow poolX 2 2 1 1 1 1 1 1 0 0 0 1 = [5, 1] := by decide +kernel
example : poolWindow poolX 2 2 2 2 1 1 0 0 0 1 0 0 = [11, 13, 17, 19] := by decide +kernel
example : poolWindow poolX 1 1 1 1 1 1 1 1 0 0 0 0 = [] := by decide +kernel
example : globalWindow poolX 0 1 = [11, 12, 13, 14, 15, 16, 17, 18, 19] := by decide +kernel
example : roundedMean [11, 12, 13, 14, 15, 16, 17, 18, 19].sum 9 = 15 := by decide +kernel

/-- A 2×2 maximum over negative and positive data, with dilation and padding. -/
example : Sound (rangeTables goldP ⟨0, 8⟩) (maxPoolLayer ⟨0, 8⟩ (maxAttrs 2 2 1 1 2 1 1 0 0 1 0 "NOTSET")
    [1, 1, 2, 2] 16 (castArr goldP ⟨[1, 1, 2, 2], [-3, 4, 5, -6]⟩))
    (IsPooled ⟨[1, 1, 2, 2], [-3, 4, 5, -6]⟩ 1 1 1 2 2 2 2 1 1 1 1 0 IsMaxOf) :=
  C54_maxpool_sound_partial (rangeTables_spec _) (by norm_num) (nb := 16) (by norm_num) (by norm_num)
    (by norm_num [goldP]) ⟨[1, 1, 2, 2], [-3, 4, 5, -6]⟩ rfl rfl (by decide) 2 2 1 1 2 1 1 0 0 1 (by norm_num)
    (by norm_num) 0 "NOTSET"

example : Complete (rangeTables goldP ⟨0, 8⟩) (maxPoolLayer ⟨0, 8⟩ (maxAttrs 2 2 1 1 2 1 1 0 0 1 0 "NOTSET")
    [1, 1, 2, 2] 16 (castArr goldP ⟨[1, 1, 2, 2], [-3, 4, 5, -6]⟩))
    (IsPooled ⟨[1, 1, 2, 2], [-3, 4, 5, -6]⟩ 1 1 1 2 2 2 2 1 1 1 1 0 IsMaxOf) :=
  C54_maxpool_complete (rangeTables_spec _) (nb := 16) (by norm_num) (by norm_num)
    ⟨by norm_num, by norm_num, by norm_num, by norm_num, by norm_num, by norm_num [slackBits, goldP]⟩
    ⟨[1, 1, 2, 2], [-3, 4, 5, -6]⟩ rfl rfl (by decide) 2 2 1 1 2 1 1 0 0 1 (by norm_num)
    (by norm_num) (by norm_num) (by norm_num) (by norm_num) (by norm_num) (by norm_num) (by norm_num) 0 "NOTSET"

/-- 2×2 averages with padding: windows of one, two and four values are all exact. -/
example {hint : List (ZMod goldP) → Except Err (List (ZMod goldP))} :
    Sound (rangeTables goldP ⟨0, 8⟩) (avgPoolLayer hint ⟨0, 8⟩ (avgAttrs 2 2 1 1 1 1 0 0)
      [1, 2, 3, 3] [1, 2, 3, 3] 16 (castArr goldP poolX))
      (IsPooled poolX 1 2 3 3 2 2 1 1 1 1 1 1 IsMeanOf) :=
  C54_avgpool_sound_partial (rangeTables_spec _) (by norm_num) (nb := 16) poolX rfl rfl
    (by decide +kernel) 2 2 1 1 1 1 0 0
    (by
      intro n c i j hn hc hi hj
      have hi : i < 3 := hi
      have hj : j < 3 := hj
      have key : ∀ n < 1, ∀ c < 2, ∀ i < 3, ∀ j < 3,
          (poolWindow poolX 2 2 1 1 1 1 1 1 n c i j).length ∈ [1, 2, 4] := by decide +kernel
      have := key n hn c hc i hi j hj
      simp only [List.mem_cons, List.not_mem_nil, or_false] at this
      rcases this with h | h | h <;> rw [h]
      · exact Or.inl (by norm_num)
      · exact Or.inr (Or.inr (by decide +kernel))
      · exact Or.inr (Or.inr (by decide +kernel)))
    (by rw [show Nat.clog 2 (2 * 2) = 2 by decide +kernel]; norm_num [goldP]) (by norm_num [goldP])

/-- Nine values, digits of eight bits: every mean can be forged. -/
example {hint : List (ZMod goldP) → Except Err (List (ZMod goldP))} :
    Forge (rangeTables goldP ⟨0, 8⟩) (globalAvgPoolLayer hint ⟨0, 8⟩ [1, 2, 3, 3] [1, 2, 1, 1] 16
      (castArr goldP poolX)) (fun out => out.shape = [1, 2, 1, 1] ∧ ∀ n c, n < 1 → c < 2 →
        ∃ v, elem out [n, c, 0, 0] = some v ∧ ¬ IsMeanOf (globalWindow poolX n c) v) :=
  have e : Nat.clog 2 [3, 3].prod = 4 := by decide +kernel
  C54_average_unsound (rangeTables_spec _) (nb := 16) poolX (sp := [3]) rfl rfl (by decide +kernel) (by decide)
    ⟨by norm_num, by norm_num, by norm_num, by norm_num, by norm_num⟩
    (by rw [e]; exact ⟨by norm_num, by norm_num, by norm_num, by norm_num, by norm_num⟩)
    (by rw [e]; norm_num) (by rw [e]; decide) (by norm_num [goldP])

/-- Negative data under eight-bit digits and sixteen-bit activations. -/
example {hint : List (ZMod goldP) → Except Err (List (ZMod goldP))} :
    Sound (rangeTables goldP ⟨0, 8⟩) (globalAvgPoolLayer hint ⟨0, 8⟩ [1, 1, 2] [1, 1, 1] 16
      (castArr goldP ⟨[1, 1, 2], [7, -1]⟩)) (fun _ => False) :=
  C54_global_negative_unprovable (rangeTables_spec _) (by norm_num) (nb := 16) (by norm_num) ⟨[1, 1, 2], [7, -1]⟩
    (sp := []) rfl rfl (n := 0) (c := 0) (by norm_num) (by norm_num) (v := -1) (by decide +kernel) (by norm_num)
    (by norm_num [goldP])

end JST.Props
