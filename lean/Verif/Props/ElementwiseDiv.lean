import Verif.Props.Elementwise
import Verif.Props.ReduceMean
import Verif.Tensor.ExpandProofs

/-!
# C56: Div, refusals and forgeries of the elementwise arithmetic layers
-/

set_option linter.unusedSectionVars false

namespace JST.Props

open JST.Shape JST.Layers JST.Spec

variable {p : Nat} [Fact p.Prime] {T : Tables (ZMod p)}

/-! ## Div -/

theorem divChecks_spec {κ nb : Nat} {ds : List Int} :
    Sound T (divChecks κ nb ds : G (ZMod p) Nat) (fun s => nb = s + 1 ∧ ∀ d ∈ ds, 0 < d ∧ d < 2 ^ 32) := by
  unfold divChecks
  split_ifs with h h0
  · exact Sound.throwErr
  · exact Sound.throwErr
  · refine Sound.bind sound_rescaleCtx ?_
    rintro _ rfl
    refine Sound.pure ⟨by dsimp only; omega, fun d hd => ?_⟩
    simp only [List.any_eq_true, decide_eq_true_eq, not_exists, not_and] at h
    have := h d hd
    omega

theorem divChecks_complete {κ nb : Nat} (hκ : κ < 32) (hn : 1 ≤ nb) (hn64 : nb ≤ 64) {ds : List Int}
    (hd : ∀ d ∈ ds, 0 < d ∧ d < 2 ^ 32) :
    Complete T (divChecks κ nb ds : G (ZMod p) Nat) (fun s => s = nb - 1) := by
  unfold divChecks
  rw [if_neg, if_neg (by omega)]
  · refine Complete.bind (complete_rescaleCtx hκ (by omega)) ?_
    rintro _ rfl
    exact Complete.pure rfl
  · simp only [List.any_eq_true, decide_eq_true_eq, not_exists, not_and]
    intro d hd' h
    have := hd d hd'
    omega

/-- The dividend `u` and divisor `d` fit a layer with `nb` bits and the digit width. -/
def DivFits (p chunk nb : Nat) (u d : Int) : Prop :=
  chunk ∣ bitLen (d.toNat - 1) ∧ d * 2 ^ nb ≤ p ∧ 2 ^ (bitLen (d.toNat - 1) + 1) ≤ p ∧
    -(d * 2 ^ (nb - 1)) ≤ u ∧ u < d * 2 ^ (nb - 1)

theorem sound_divElem {rc : RangeCtx} (hT : IsRangeTable T rc) (hc : 0 < rc.chunk) {s : Nat}
    (hds : rc.chunk ∣ s + 1) {u d : Int} (hd0 : 0 < d) (h : d ≠ 1 → DivFits p rc.chunk (s + 1) u d) :
    Sound T (divElem rc s (u : ZMod p) d) (fun w => w = ((u / d : Int) : ZMod p)) := by
  unfold divElem
  split_ifs with h1 h2
  · subst h1; exact Sound.pure (by simp)
  · exact Sound.throwErr
  · obtain ⟨h3, h4, h5, h6, h7⟩ := h h1
    obtain ⟨n, rfl⟩ : ∃ n : Nat, d = (n : Int) := ⟨d.toNat, by omega⟩
    simp only [Int.toNat_natCast, Nat.add_sub_cancel] at *
    rw [Nat.mul_comm (2 ^ s) n]
    exact sound_divConst hT hc h3 hds (by exact_mod_cast h4) h5 h6 h7

theorem complete_divElem {rc : RangeCtx} (hT : IsRangeTable T rc) {s : Nat}
    (hus : RangeUsable p rc (s + 1)) {u d : Int} (hd0 : 0 < d) (hd : d < 2 ^ 32)
    (h : d ≠ 1 → RangeUsable p rc (bitLen (d.toNat - 1)) ∧ d * 2 ^ (s + 1) ≤ p ∧
      -(d * 2 ^ s) ≤ u ∧ u < d * 2 ^ s) :
    Complete T (divElem rc s (u : ZMod p) d) (fun w => w = ((u / d : Int) : ZMod p)) := by
  unfold divElem
  by_cases h1 : d = 1
  · rw [if_pos h1]; subst h1; exact Complete.pure (by simp)
  · rw [if_neg h1, if_neg (by omega)]
    obtain ⟨h3, h4, h6, h7⟩ := h h1
    obtain ⟨n, rfl⟩ : ∃ n : Nat, d = (n : Int) := ⟨d.toNat, by omega⟩
    simp only [Int.toNat_natCast] at *
    rw [Nat.mul_comm (2 ^ s) n]
    exact complete_divConst hT (by omega) (fun _ => h3) hus (by exact_mod_cast h4) h6 h7

theorem valAt_cast_data {b b' : Arr Int} {t : List Nat} (hb : b.WF) (h : broadcastArray b t = .ok b') :
    b'.data = (List.range t.prod).map (fun k => valAt b (unravel k t)) ∧
      ∀ c, InRange t c → elem b (srcCoords b.shape c) = some (valAt b c) := by
  obtain ⟨_, _, h3, h4⟩ := bcast_data hb h 0
  refine ⟨h3, fun c hc => ?_⟩
  obtain ⟨u, hu⟩ := h4 c hc
  unfold valAt
  rw [hu]; rfl

theorem isBinary_of_forall₂ {γ : Type} {a b : Arr Int} {t : List Nat} (hb : IsBroadcast a.shape b.shape t)
    (h1 : ∀ c, InRange t c → elem a (srcCoords a.shape c) = some (valAt a c))
    (h2 : ∀ c, InRange t c → elem b (srcCoords b.shape c) = some (valAt b c))
    {Q : Int → Int → γ → Prop} {ys : List γ}
    (h : List.Forall₂ (fun k y => Q (valAt a (unravel k t)) (valAt b (unravel k t)) y)
      (List.range t.prod) ys) : IsBinary a b Q ⟨t, ys⟩ := by
  obtain ⟨h3, h4⟩ := collected (R := fun c y => Q (valAt a c) (valAt b c) y) h
  refine ⟨hb, rfl, h3, fun c hc => ?_⟩
  obtain ⟨w, h5, h6⟩ := h4 c hc
  exact ⟨_, _, w, h1 c hc, h2 c hc, h5, h6⟩

/-- **C56, Div is sound.** Every accepted output is the entry of `a` divided by the constant entry of
`b`, rounded down, and the divisor is positive. Division by one is unrestricted. Missing: digit widths
that do not divide the bit widths (`C04_division_unsound`). -/
theorem C56_div_sound_partial {rc : RangeCtx} (hT : IsRangeTable T rc) (hc : 0 < rc.chunk) {κ nb : Nat}
    (hd : rc.chunk ∣ nb) (a b : Arr Int) (ha : a.WF) (hb : b.WF)
    (h : ∀ u ∈ a.data, ∀ d ∈ b.data, d ≠ 1 → DivFits p rc.chunk nb u d) :
    Sound T (divLayer rc κ nb (castArr p a) (some b))
      (IsBinary a b fun u d w => 0 < d ∧ w = ((u / d : Int) : ZMod p)) := by
  unfold divLayer
  refine Sound.bind sound_liftR fun t ht => Sound.bind sound_liftR fun a' ha' =>
    Sound.bind sound_liftR fun b' hb' => Sound.bind divChecks_spec ?_
  rintro s ⟨rfl, hpos⟩
  have ht := (broadcastShapes_ok_iff _ _ _).1 ht
  obtain ⟨_, _, d1, e1⟩ := bcast_cast ha ha'
  obtain ⟨d2, e2⟩ := valAt_cast_data hb hb'
  rw [d1, d2, zip_map_map, collectG_map]
  rw [d2] at hpos
  refine Sound.bind (sound_collectG (Q := fun k y => 0 < valAt b (unravel k t) ∧
    y = ((valAt a (unravel k t) / valAt b (unravel k t) : Int) : ZMod p)) _ fun k hk => ?_) fun ys hys => ?_
  · have hk' := unravel_inRange (List.mem_range.1 hk)
    have h0 := hpos _ (List.mem_map.2 ⟨k, hk, rfl⟩)
    exact (sound_divElem hT hc hd h0.1
      (h _ (valAt_mem (e1 _ hk')) _ (valAt_mem (e2 _ hk')))).conseq fun w hw => ⟨h0.1, hw⟩
  · refine sound_liftR.conseq fun out ho => ?_
    unfold fromShapeVec at ho
    split_ifs at ho
    obtain rfl := Except.ok.inj ho
    exact isBinary_of_forall₂ ht e1 e2 (Q := fun u d w => 0 < d ∧ w = ((u / d : Int) : ZMod p)) hys

theorem broadcastArray_of_stretches {α : Type} [Inhabited α] {a : Arr α} {t : List Nat}
    (h : Stretches a.shape t) : ∃ r, broadcastArray a t = .ok r := by
  unfold broadcastArray
  rw [if_pos]
  · exact ⟨_, rfl⟩
  · rw [stretches_iff] at h
    refine ⟨h.1, ?_⟩
    rw [all_zip_iff _ _ (by simp; omega)]
    exact h.2

/-- **C56, Div is complete** for every digit width and shape. -/
theorem C56_div_complete {rc : RangeCtx} (hT : IsRangeTable T rc) {κ nb : Nat} (hκ : κ < 32) (hn : 1 ≤ nb)
    (hn64 : nb ≤ 64) (hu : RangeUsable p rc nb) (a b : Arr Int) (ha : a.WF) (hb : b.WF)
    (hbc : ∃ s, IsBroadcast a.shape b.shape s) (hd : ∀ d ∈ b.data, 0 < d ∧ d < 2 ^ 32)
    (h : ∀ u ∈ a.data, ∀ d ∈ b.data, d ≠ 1 → RangeUsable p rc (bitLen (d.toNat - 1)) ∧
      d * 2 ^ nb ≤ p ∧ -(d * 2 ^ (nb - 1)) ≤ u ∧ u < d * 2 ^ (nb - 1)) :
    Complete T (divLayer rc κ nb (castArr p a) (some b))
      (IsBinary a b fun u d w => 0 < d ∧ w = ((u / d : Int) : ZMod p)) := by
  obtain ⟨s, rfl⟩ : ∃ s, nb = s + 1 := ⟨nb - 1, by omega⟩
  obtain ⟨t, ht⟩ := hbc
  obtain ⟨s1, s2⟩ := stretches_of_ok ht
  obtain ⟨a', ha'⟩ := broadcastArray_of_stretches (a := castArr p a) s1
  obtain ⟨b', hb'⟩ := broadcastArray_of_stretches (a := b) s2
  unfold divLayer
  refine Complete.bind (complete_liftR ((broadcastShapes_ok_iff _ _ _).2 ht)) ?_
  rintro t rfl
  refine Complete.bind (complete_liftR ha') ?_
  rintro _ rfl
  refine Complete.bind (complete_liftR hb') ?_
  rintro _ rfl
  obtain ⟨_, _, d1, e1⟩ := bcast_cast ha ha'
  obtain ⟨d2, e2⟩ := valAt_cast_data hb hb'
  refine Complete.bind (divChecks_complete hκ hn hn64 ?_) ?_
  · rw [d2]
    intro d hd'
    obtain ⟨k, hk, rfl⟩ := List.mem_map.1 hd'
    exact hd _ (valAt_mem (e2 _ (unravel_inRange (List.mem_range.1 hk))))
  · rintro _ rfl
    rw [d1, d2, zip_map_map, collectG_map]
    refine Complete.bind (complete_collectG (Q := fun k y => 0 < valAt b (unravel k t) ∧
      y = ((valAt a (unravel k t) / valAt b (unravel k t) : Int) : ZMod p)) _ fun k hk => ?_) fun ys hys => ?_
    · have hk' := unravel_inRange (List.mem_range.1 hk)
      have h0 := hd _ (valAt_mem (e2 _ hk'))
      exact (complete_divElem hT hu h0.1 h0.2
        (h _ (valAt_mem (e1 _ hk')) _ (valAt_mem (e2 _ hk')))).conseq fun w hw => ⟨h0.1, hw⟩
    · refine Complete.conseq (complete_liftR (a := ⟨t, ys⟩) ?_) fun out ho => ?_
      · unfold fromShapeVec
        rw [if_pos (by rw [← hys.length_eq, List.length_range])]
      · subst ho
        exact isBinary_of_forall₂ ht e1 e2 (Q := fun u d w => 0 < d ∧ w = ((u / d : Int) : ZMod p)) hys

/-! ## Refusals -/

theorem liftR_invalid {α β : Type} {r : R α} {f : α → G (ZMod p) β} {hs : Hints (ZMod p)}
    (h : r = .error .invalid) : ∃ m, ((liftR r : G (ZMod p) α) >>= f) hs = .error (.err m) := by
  subst h; exact ⟨_, rfl⟩

theorem broadcastArray_ok_or {α : Type} [Inhabited α] (x : Arr α) (t : List Nat) :
    broadcastArray x t = .error .invalid ∨ ∃ y, broadcastArray x t = .ok y := by
  unfold broadcastArray
  split
  · exact .inr ⟨_, rfl⟩
  · exact .inl rfl

/-- **C56, refusals.** Operands that ONNX cannot broadcast are a reported error in every binary layer,
whatever the hints; so is zero bits where a range is needed. -/
theorem C56_refuses (rc : RangeCtx) (isRescale relu : Bool) (κ nb : Nat) (a b : Arr (ZMod p)) (d : Arr Int)
    (hs : Hints (ZMod p)) :
    (a.WF → b.WF → (¬ ∃ s, IsBroadcast a.shape b.shape s) →
      (∃ m, addLayer a b hs = .error (.err m)) ∧ (∃ m, subLayer a b hs = .error (.err m)) ∧
      (∃ m, mulLayer rc isRescale κ nb relu a b hs = .error (.err m)) ∧
      (∃ m, maxLayer rc nb a b hs = .error (.err m)) ∧ (∃ m, minLayer rc nb a b hs = .error (.err m))) ∧
    ((¬ ∃ s, IsBroadcast a.shape d.shape s) → ∃ m, divLayer rc κ nb a (some d) hs = .error (.err m)) ∧
    (∃ m, divLayer rc κ nb a none hs = .error (.err m)) ∧
    (∃ m, maxLayer rc 0 a b hs = .error (.err m)) ∧ (∃ m, minLayer rc 0 a b hs = .error (.err m)) ∧
    (∃ m, reluLayer rc 0 a hs = .error (.err m)) ∧
    (∃ m, leakyReluLayer rc 0 κ 0 a hs = .error (.err m)) := by
  refine ⟨fun ha hb h => ?_, fun h => ?_, ⟨_, rfl⟩, ⟨_, rfl⟩, ⟨_, rfl⟩, ⟨_, rfl⟩, ⟨_, rfl⟩⟩
  · have e := broadcastTwo_refuses ha hb h
    refine ⟨liftR_invalid e, liftR_invalid e, liftR_invalid e, ?_, ?_⟩
    · unfold maxLayer
      split_ifs
      · exact ⟨_, rfl⟩
      · exact liftR_invalid e
    · unfold minLayer
      split_ifs
      · exact ⟨_, rfl⟩
      · exact liftR_invalid e
  · unfold divLayer
    refine liftR_invalid ?_
    cases hr : broadcastShapes a.shape d.shape with
    | ok t => exact absurd ⟨t, (broadcastShapes_ok_iff _ _ _).1 hr⟩ h
    | error e => rw [broadcastShapes_error hr]

/-- **C56, Div refuses divisors** that are zero, negative or above `2^32 - 1` whenever one of them is used
for some output. -/
theorem C56_div_refuses (rc : RangeCtx) (κ nb : Nat) (a : Arr (ZMod p)) (b : Arr Int) (hb : b.WF)
    {t : List Nat} (ht : IsBroadcast a.shape b.shape t) {c : List Nat} (hc : InRange t c) {d : Int}
    (hd : elem b (srcCoords b.shape c) = some d) (hbad : d ≤ 0 ∨ 2 ^ 32 ≤ d) (hs : Hints (ZMod p)) :
    ∃ m, divLayer rc κ nb a (some b) hs = .error (.err m) := by
  obtain ⟨s1, s2⟩ := stretches_of_ok ht
  obtain ⟨a', ha'⟩ := broadcastArray_of_stretches (a := a) s1
  obtain ⟨b', hb'⟩ := broadcastArray_of_stretches (a := b) s2
  obtain ⟨d2, e2⟩ := valAt_cast_data hb hb'
  have hv : valAt b c = d := by unfold valAt; rw [hd]; rfl
  unfold divLayer
  refine liftR_bind_refuses (.inr ⟨t, (broadcastShapes_ok_iff _ _ _).2 ht⟩) fun t' ht' => ?_
  obtain rfl := Except.ok.inj (((broadcastShapes_ok_iff _ _ _).2 ht).symm.trans ht')
  refine liftR_bind_refuses (.inr ⟨a', ha'⟩) fun a'' ha'' => ?_
  refine liftR_bind_refuses (.inr ⟨b', hb'⟩) fun b'' hb'' => ?_
  obtain rfl := Except.ok.inj (hb'.symm.trans hb'')
  have e : (divChecks κ nb b'.data : G (ZMod p) Nat) = throwErr "Divisor must be in range [1, 2^32)" := by
    unfold divChecks
    rw [if_pos]
    simp only [List.any_eq_true, decide_eq_true_eq]
    refine ⟨d, ?_, by omega⟩
    rw [d2]
    refine List.mem_map.2 ⟨rowMajor t c, List.mem_range.2 (rowMajor_lt hc), ?_⟩
    rw [unravel_rowMajor hc]
    exact hv
  rw [e]
  exact ⟨_, rfl⟩

/-! ## Forgeries with other digit widths -/

theorem forge_mapLayer {f : ZMod p → G (ZMod p) (ZMod p)} {x : Arr Int} (hw : x.WF) {g : Int → ZMod p}
    (hf : ∀ u ∈ x.data, Forge T (f (u : ZMod p)) (fun w => w = g u)) :
    Forge T (mapLayer f (castArr p x)) (IsUnary x fun u w => w = g u) := by
  rw [mapLayer_eq]
  refine Forge.bind (forge_collectG (g := g) _ hf) (a := x.data.map g) (fun _ h => h) ?_
  have e : fromShapeVec x.shape (x.data.map g) = .ok ⟨x.shape, x.data.map g⟩ := by
    unfold fromShapeVec
    rw [if_pos (by rw [List.length_map]; exact hw)]
  rw [e]
  refine Forge.pure (isUnary_of_forall₂ hw ?_)
  rw [List.forall₂_map_right_iff, List.forall₂_same]
  exact fun _ _ => rfl

theorem forge_zipLoop {a b : Arr Int} {t : List Nat} {r : Arr (ZMod p) × Arr (ZMod p)} (hr : Aligned a b t r)
    {f : ZMod p → ZMod p → G (ZMod p) (ZMod p)} {g : List Nat → ZMod p}
    (hf : ∀ c, InRange t c → Forge T (f (valAt a c : ZMod p) (valAt b c : ZMod p)) (fun w => w = g c)) :
    Forge T (zipLoop f r.1 r.2) (fun out => out = ⟨t, (List.range t.prod).map fun k => g (unravel k t)⟩) := by
  rw [zipLoop_eq hr]
  refine Forge.bind (forge_collectG (g := fun k => g (unravel k t)) _ fun k hk =>
    hf _ (unravel_inRange (List.mem_range.1 hk)))
    (a := (List.range t.prod).map fun k => g (unravel k t)) (fun _ h => h) ?_
  have e : fromShapeVec t ((List.range t.prod).map fun k => g (unravel k t)) =
      .ok ⟨t, (List.range t.prod).map fun k => g (unravel k t)⟩ := by
    unfold fromShapeVec
    rw [if_pos (by simp)]
  rw [e]
  exact Forge.pure rfl

theorem forge_broadcast {β : Type} {a b : Arr Int} {g : Arr (ZMod p) × Arr (ZMod p) → G (ZMod p) β}
    {Q : β → Prop} {r : Arr (ZMod p) × Arr (ZMod p)}
    (h : broadcastTwo (castArr p a) (castArr p b) = .ok r) (hg : Forge T (g r) Q) :
    Forge T (liftR (broadcastTwo (castArr p a) (castArr p b)) >>= g) Q := by
  rw [h]
  exact Forge.bind (Forge.pure (Q := fun o => o = r) rfl) (fun _ h => h) hg

theorem forge_shiftCtx {s : Nat} (hs : s < 64) :
    Forge T (ShiftCtx.new s : G (ZMod p) (ShiftCtx p)) (fun c => c = ⟨s, ((2 ^ s : Nat) : ZMod p)⟩) := by
  unfold ShiftCtx.new
  rw [if_neg (by omega)]
  exact Forge.pure rfl

/-- **C56 is false for other digit widths: ReLU.** If the digit width does not divide the number of bits,
the ReLU of every tensor without negative entries can be proved to be zero everywhere. -/
theorem C56_relu_unsound {rc : RangeCtx} (hT : IsRangeTable T rc) {nb : Nat} (hn : 1 ≤ nb) (hn64 : nb ≤ 64)
    (hu : RangeCallable rc nb) (hnd : ¬ rc.chunk ∣ nb) (x : Arr Int) (hw : x.WF)
    (hx : ∀ v ∈ x.data, 0 ≤ v ∧ v < 2 ^ (nb - 1)) :
    Forge T (reluLayer rc nb (castArr p x)) (IsUnary x fun _ w => w = 0) := by
  obtain ⟨s, rfl⟩ : ∃ s, nb = s + 1 := ⟨nb - 1, by omega⟩
  unfold reluLayer
  rw [if_neg (by omega)]
  refine Forge.bind (forge_shiftCtx (by omega)) (fun _ h => h) ?_
  exact forge_mapLayer hw (g := fun _ => 0) fun u hu' => (C06_unsound hT hu hnd).1 u (hx u hu').1 (hx u hu').2

/-- **C56 is false for other digit widths: Max.** If the digit width does not divide the number of bits,
the maximum of two tensors can be proved to be the second one even where the first is larger. -/
theorem C56_max_unsound {rc : RangeCtx} (hT : IsRangeTable T rc) {nb : Nat} (hn : 1 ≤ nb) (hn64 : nb ≤ 64)
    (hu : RangeCallable rc nb) (hnd : ¬ rc.chunk ∣ nb) (a b : Arr Int) (ha : a.WF) (hb : b.WF)
    (hra : Signed nb a) (hrb : Signed nb b) (za : ∀ d ∈ a.shape, d ≠ 0)
    (zb : ∀ d ∈ b.shape, d ≠ 0) (h : ∃ s, IsBroadcast a.shape b.shape s)
    (hle : ∀ u ∈ a.data, ∀ v ∈ b.data, v ≤ u) :
    Forge T (maxLayer rc nb (castArr p a) (castArr p b)) (IsBinary a b fun _ v w => w = (v : ZMod p)) := by
  obtain ⟨r, t, h1, h2⟩ := aligned_exists (p := p) ha hb za zb h
  have hdiff := fun u hu v hv => signed_diff hn hra hrb (u := u) (v := v) hu hv
  obtain ⟨s, rfl⟩ : ∃ s, nb = s + 1 := ⟨nb - 1, by omega⟩
  unfold maxLayer
  rw [if_neg (by omega)]
  refine forge_broadcast h1 (Forge.bind (forge_shiftCtx (by omega)) (fun _ h => h) ?_)
  refine (forge_zipLoop h2 (g := fun c => (valAt b c : ZMod p)) fun c hc => ?_).conseq fun out ho => ?_
  · have e1 := valAt_mem (h2.elem1 c hc)
    have e2 := valAt_mem (h2.elem2 c hc)
    have := hdiff _ e1 _ e2
    rw [abs_lt] at this
    exact forge_max2_snd hT hu hnd _ (hle _ e1 _ e2) (by linarith [this.2])
  · subst ho
    exact isBinary_range h2 (g := fun _ v => (v : ZMod p)) rfl

end JST.Props
