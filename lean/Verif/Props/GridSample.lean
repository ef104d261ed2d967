import Verif.Props.Resize
import Verif.Tensor.GridSample

/-!
# C87: the GridSample layer
-/

set_option linter.unusedSectionVars false

namespace JST.Props

open JST.Shape JST.Layers JST.Spec

variable {p : Nat} [Fact p.Prime] {T : Tables (ZMod p)}

/-! ## One output -/

theorem gridDot_cast (xs ws : List Int) :
    gridDot (xs.map fun x : Int => (x : ZMod p)) (ws.map fun w : Int => (w : ZMod p)) = ((idot xs ws : Int) : ZMod p) := by
  have key : ∀ (xs ws : List Int) (acc : Int),
      ((xs.map fun x : Int => (x : ZMod p)).zip (ws.map fun w : Int => (w : ZMod p))).foldl
        (fun acc q => acc + q.1 * q.2) (acc : ZMod p) = ((acc + idot xs ws : Int) : ZMod p) := by
    intro xs
    induction xs with
    | nil => intro ws acc; simp [idot]
    | cons x xs ih =>
      intro ws acc
      cases ws with
      | nil => simp [idot]
      | cons w ws =>
        simp only [List.map_cons, List.zip_cons_cons, List.foldl_cons]
        have := ih ws (acc + x * w)
        push_cast at this
        rw [this]
        simp only [idot, List.zip_cons_cons, List.map_cons, List.sum_cons]
        push_cast; ring
  have := key xs ws 0
  rw [Int.cast_zero, zero_add] at this
  exact this

theorem sound_gridChecks {rc : RangeCtx} (hT : IsRangeTable T rc) (hc : 0 < rc.chunk) {κ nb : Nat}
    (hd : rc.chunk ∣ κ) (hdn : rc.chunk ∣ nb) (X : Int) (y : ZMod p) (hp : |X| + 2 ^ κ * 2 ^ nb + 2 ^ κ ≤ p) :
    Sound T (gridChecks rc κ nb (X : ZMod p) y)
      (fun w => w = ((roundedMean X (2 ^ κ) : Int) : ZMod p) ∧ 0 ≤ roundedMean X (2 ^ κ) ∧
        roundedMean X (2 ^ κ) < 2 ^ nb) := by
  unfold gridChecks
  refine (sound_rangeCheckInt hT hc _ _).bind fun _ hr => (sound_rangeCheckInt hT hc _ _).bind fun _ hy =>
    Sound.pure ?_
  obtain ⟨S, hS, eS⟩ := hr
  obtain ⟨Y, hY, rfl⟩ := hy
  rw [acceptedInt_of_dvd hd] at hS
  rw [acceptedInt_of_dvd hdn] at hY
  have : Y = roundedMean X (2 ^ κ) := by
    rw [roundedMean_eq]
    refine mean_forced (p := p) (n := 2 ^ κ) (by positivity) hS.1 (by exact_mod_cast hS.2) (B := 2 ^ nb) ?_ ?_ ?_
    · rw [abs_of_nonneg hY.1]; exact hY.2.le
    · push_cast; exact hp
    · rw [← eS]; ring
  rw [← this]
  exact ⟨rfl, hY⟩

theorem complete_gridChecks {rc : RangeCtx} (hT : IsRangeTable T rc) {κ nb : Nat} (huk : RangeUsable p rc κ)
    (hun : RangeUsable p rc nb) (X : Int) (h0 : 0 ≤ roundedMean X (2 ^ κ)) (h1 : roundedMean X (2 ^ κ) < 2 ^ nb) :
    Complete T (gridChecks rc κ nb (X : ZMod p) ((roundedMean X (2 ^ κ) : Int) : ZMod p))
      (fun w => w = ((roundedMean X (2 ^ κ) : Int) : ZMod p)) := by
  unfold gridChecks
  have hn : (0 : Int) < ((2 ^ κ : Nat) : Int) := by positivity
  rw [roundedMean_eq] at h0 h1 ⊢
  obtain ⟨q1, q2, q3⟩ := quot_bounds X hn
  have hpow : (2 : Int) ^ κ = ((2 ^ κ : Nat) : Int) := by push_cast; rfl
  generalize (X + ((2 ^ κ / 2 : Nat) : Int)) / ((2 ^ κ : Nat) : Int) = Y at *
  refine (huk.completeInt hT (k := X + ((2 ^ κ / 2 : Nat) : Int) - Y * ((2 ^ κ : Nat) : Int)) ?_ ?_
    ?_).bind fun _ _ => ?_
  · linarith
  · rw [hpow]; linarith
  · simp only [Int.cast_sub, Int.cast_add, Int.cast_mul, Int.cast_natCast]
  · exact (hun.completeInt hT h0 h1 rfl).bind fun _ _ => Complete.pure rfl

/-! ## The four corners -/

/-- The four corners of a point with non-negative coordinates, and their weights. -/
def quad (a b : ℚ) : List (Nat × Nat × ℚ) :=
  [(⌊a⌋₊, ⌊b⌋₊, (1 - (a - ⌊a⌋₊)) * (1 - (b - ⌊b⌋₊))), (⌊a⌋₊, ⌈b⌉₊, (1 - (a - ⌊a⌋₊)) * (b - ⌊b⌋₊)),
    (⌈a⌉₊, ⌊b⌋₊, (a - ⌊a⌋₊) * (1 - (b - ⌊b⌋₊))), (⌈a⌉₊, ⌈b⌉₊, (a - ⌊a⌋₊) * (b - ⌊b⌋₊))]

theorem quad_nonneg {a b : ℚ} (ha : 0 ≤ a) (hb : 0 ≤ b) : ∀ q ∈ quad a b, 0 ≤ q.2.2 := by
  obtain ⟨a1, a2⟩ := frac_bounds ha
  obtain ⟨b1, b2⟩ := frac_bounds hb
  intro q hq
  simp only [quad, List.mem_cons, List.not_mem_nil, or_false] at hq
  rcases hq with rfl | rfl | rfl | rfl <;> positivity

theorem quad_sum (a b : ℚ) : ((quad a b).map fun q => q.2.2).sum = 1 := by
  simp only [quad, List.map_cons, List.map_nil, List.sum_cons, List.sum_nil]; ring

theorem quad_inside {a b : ℚ} {H W : Nat} (hH : 0 < H) (hW : 0 < W) (ha1 : a ≤ ((H - 1 : Nat) : ℚ))
    (hb1 : b ≤ ((W - 1 : Nat) : ℚ)) : ∀ q ∈ quad a b, q.1 < H ∧ q.2.1 < W := by
  have h1 : ⌊a⌋₊ ≤ H - 1 := Nat.floor_le_of_le ha1
  have h2 : ⌈a⌉₊ ≤ H - 1 := Nat.ceil_le.2 ha1
  have h3 : ⌊b⌋₊ ≤ W - 1 := Nat.floor_le_of_le hb1
  have h4 : ⌈b⌉₊ ≤ W - 1 := Nat.ceil_le.2 hb1
  intro q hq
  simp only [quad, List.mem_cons, List.not_mem_nil, or_false] at hq
  rcases hq with rfl | rfl | rfl | rfl <;> constructor <;> dsimp only <;> omega

/-- Both ways to write the interpolation between two neighbours. -/
theorem lerp_eq {x : ℚ} (h : 0 ≤ x) (g : Int → ℚ) :
    (1 - (x - ⌊x⌋₊)) * g (⌊x⌋₊ : Nat) + (x - ⌊x⌋₊) * g (⌈x⌉₊ : Nat) = lerpZ g x := by
  have e1 : ((⌊x⌋₊ : Nat) : Int) = ⌊x⌋ := Int.natCast_floor_eq_floor h
  have e2 : (⌊x⌋₊ : ℚ) = (⌊x⌋ : ℚ) := by exact_mod_cast congrArg (fun z : Int => (z : ℚ)) e1
  have e3 : ((⌈x⌉₊ : Nat) : Int) = ⌈x⌉ := Int.natCast_ceil_eq_ceil h
  unfold lerpZ
  rw [e1, e3, e2, ← Int.fract]
  by_cases hx : Int.fract x = 0
  · rw [hx]; ring
  · have : ⌈x⌉ = ⌊x⌋ + 1 := by
      have h1 := Int.floor_add_fract x
      have h2 := Int.fract_lt_one x
      have h3 := (Int.fract_nonneg x).lt_of_ne' hx
      rw [Int.ceil_eq_iff]; push_cast; constructor <;> linarith
    rw [this]

theorem quad_bilin {a b : ℚ} (ha : 0 ≤ a) (hb : 0 ≤ b) (g : Int → Int → ℚ) :
    ((quad a b).map fun q => q.2.2 * g (q.1 : Nat) (q.2.1 : Nat)).sum = bilin g a b := by
  unfold bilin
  rw [← lerp_eq ha, ← lerp_eq hb, ← lerp_eq hb]
  simp only [quad, List.map_cons, List.map_nil, List.sum_cons, List.sum_nil]
  ring

theorem dotErr {M : ℚ} : ∀ l : List (Int × ℚ), (∀ q ∈ l, |(q.1 : ℚ)| ≤ M ∧ 0 ≤ q.2) →
    |(((l.map fun q => q.1 * roundAway q.2).sum : Int) : ℚ) - (l.map fun q => (q.1 : ℚ) * q.2).sum| ≤ 1 / 2 * M * l.length
  | [], _ => by simp
  | q :: l, h => by
    obtain ⟨h1, h2⟩ := h q (by simp)
    have ih := dotErr l fun r hr => h r (by simp [hr])
    have h3 := roundAway_err h2
    have hM : 0 ≤ M := (abs_nonneg _).trans h1
    have h4 : |(q.1 : ℚ) * ((roundAway q.2 : ℚ) - q.2)| ≤ M * (1 / 2) := by
      rw [abs_mul]; exact mul_le_mul h1 h3 (abs_nonneg _) hM
    simp only [List.map_cons, List.sum_cons, List.length_cons]
    push_cast at ih ⊢
    have e : (q.1 : ℚ) * (roundAway q.2 : ℚ) + ((l.map fun q => q.1 * roundAway q.2).sum : Int) -
        ((q.1 : ℚ) * q.2 + (l.map fun q => (q.1 : ℚ) * q.2).sum) =
        (q.1 : ℚ) * ((roundAway q.2 : ℚ) - q.2) + ((((l.map fun q => q.1 * roundAway q.2).sum : Int) : ℚ) -
          (l.map fun q => (q.1 : ℚ) * q.2).sum) := by ring
    push_cast at e
    rw [e]
    refine (abs_add_le _ _).trans ?_
    linarith

theorem idot_map {α : Type} (l : List α) (f g : α → Int) : idot (l.map f) (l.map g) = (l.map fun a => f a * g a).sum := by
  rw [idot, zip_map_map, List.map_map]; rfl

/-! ## The layer -/

/-- The tensors have the shapes the layer was built for. -/
structure GridFits {α : Type} (g : GridGeom) (x : Arr α) (grid : Arr Int) : Prop where
  xwf : x.WF
  xs : x.shape = [g.n, g.c, g.hIn, g.wIn]
  gwf : grid.WF
  gs : grid.shape = [g.n, g.hOut, g.wOut, 2]
  hpos : 0 < g.hIn
  wpos : 0 < g.wIn

/-- The shape of the result. -/
def _root_.JST.Layers.GridGeom.out (g : GridGeom) : List Nat := [g.n, g.c, g.hOut, g.wOut]

/-- The sampled point of an output. -/
def samplePt (g : GridGeom) (grid : Arr Int) (c : List Nat) : ℚ × ℚ :=
  gridPoint grid g.kappa g.ac g.hIn g.wIn (c.getD 0 0) (c.getD 2 0) (c.getD 3 0)

/-- The pixels of the image that an output samples. -/
def samplePix (g : GridGeom) (x : Arr Int) (c : List Nat) : Int → Int → ℚ :=
  pixel x (c.getD 0 0) (c.getD 1 0) g.hIn g.wIn

/-- No further than half a pixel outside. -/
def NearImage (g : GridGeom) (pt : ℚ × ℚ) : Prop :=
  (-1 / 2 ≤ pt.1 ∧ pt.1 ≤ (g.hIn : ℚ) - 1 / 2) ∧ (-1 / 2 ≤ pt.2 ∧ pt.2 ≤ (g.wIn : ℚ) - 1 / 2)

instance (g : GridGeom) (pt : ℚ × ℚ) : Decidable (NearImage g pt) := inferInstanceAs (Decidable (_ ∧ _))

section
variable {g : GridGeom} {x grid : Arr Int}

theorem unnormalize_eq (norm : ℚ) {size : Nat} (h : 0 < size) (ac : Bool) :
    unnormalize norm size ac = gridCoord ac size norm := by
  unfold unnormalize gridCoord
  split_ifs
  · rw [Nat.cast_sub h]; push_cast; ring
  · ring

theorem gridRead_ok {α : Type} {x : Arr α} (h : GridFits g x grid) {c : List Nat} (hc : InRange g.out c) :
    gridRead g grid.data (c.getD 0 0) (c.getD 2 0) (c.getD 3 0) = .ok (samplePt g grid c) := by
  match c, hc.length_eq with
  | [a, b, i, j], _ =>
    simp only [InRange, GridGeom.out, List.forall₂_cons] at hc
    obtain ⟨h0, h1, h2, h3, _⟩ := hc
    have hin : ∀ k, k < 2 → InRange grid.shape [a, i, j, k] := by
      intro k hk
      rw [h.gs]
      exact .cons h0 (.cons h2 (.cons h3 (.cons hk .nil)))
    have hidx : ∀ k, rowMajor grid.shape [a, i, j, k] = (a * g.hOut * g.wOut + i * g.wOut + j) * 2 + k := by
      intro k
      rw [h.gs]
      simp only [rowMajor, List.prod_cons, List.prod_nil]
      ring
    have hread : ∀ k, k < 2 → readAt .panic grid.data ((a * g.hOut * g.wOut + i * g.wOut + j) * 2 + k) =
        .ok ((elem grid [a, i, j, k]).getD 0) := by
      intro k hk
      have hlt := rowMajor_lt (hin k hk)
      rw [← h.gwf, hidx k] at hlt
      apply readAt_ok
      rw [elem, hidx k, List.getElem?_eq_getElem hlt]
      rfl
    unfold gridRead
    simp only [List.getD_cons_zero, List.getD_cons_succ]
    have e0 := hread 0 (by norm_num)
    have e1 := hread 1 (by norm_num)
    rw [Nat.add_zero] at e0
    rw [e0, e1]
    simp only [bind, Except.bind, unnormalize_eq _ h.hpos, unnormalize_eq _ h.wpos, samplePt, gridPoint,
      List.getD_cons_zero, List.getD_cons_succ]

/-- The clamped point. -/
def clampPt (g : GridGeom) (pt : ℚ × ℚ) : ℚ × ℚ := (clampCoord g.hIn pt.1, clampCoord g.wIn pt.2)

/-- The corners of an output. -/
def quadAt (g : GridGeom) (grid : Arr Int) (c : List Nat) : List (Nat × Nat × ℚ) :=
  quad (clampPt g (samplePt g grid c)).1 (clampPt g (samplePt g grid c)).2

/-- Their pixels. -/
def gridVals (g : GridGeom) (x grid : Arr Int) (c : List Nat) : List Int :=
  (quadAt g grid c).map fun q => (elem x [c.getD 0 0, c.getD 1 0, q.1, q.2.1]).getD 0

/-- Their fixed-point weights. -/
def gridWts (g : GridGeom) (grid : Arr Int) (c : List Nat) : List Int :=
  (quadAt g grid c).map fun q =>
    if g.pad ≠ .zeros ∨ NearImage g (samplePt g grid c) then roundAway (q.2.2 * 2 ^ g.kappa) else 0

/-- The fixed-point result. -/
def gridVal (g : GridGeom) (x grid : Arr Int) (c : List Nat) : Int :=
  roundedMean (idot (gridVals g x grid c) (gridWts g grid c)) (2 ^ g.kappa)

theorem gridCorners_eq (v : ℚ) {size : Nat} (h : 0 < size) : gridCorners v size =
    (⌊clampCoord size v⌋₊, ⌈clampCoord size v⌉₊, 1 - (clampCoord size v - ⌊clampCoord size v⌋₊),
      clampCoord size v - ⌊clampCoord size v⌋₊) := by
  unfold gridCorners
  simp only [clampCoord_eq h]
  rw [min_eq_left (Nat.ceil_le.2 (clampCoord_bounds h v).2)]

theorem isSome_zeros (v : ℚ) (size : Nat) (ac : Bool) :
    (gridPad v size .zeros ac).isSome = true ↔ -1 / 2 ≤ v ∧ v ≤ (size : ℚ) - 1 / 2 := by
  unfold gridPad
  dsimp only
  split_ifs with h
  · simp only [Option.isSome_none, Bool.false_eq_true, false_iff, not_and_or, not_le]; exact h
  · simp only [Option.isSome_some, true_iff]; push Not at h; exact h

theorem bilinearSpec_ok (h : GridFits g x grid) {f : Nat} (hf : f < g.out.prod) :
    bilinearSpec g grid.data f = .ok
      ((quadAt g grid (unravel f g.out)).map fun q => rowMajor x.shape
          [(unravel f g.out).getD 0 0, (unravel f g.out).getD 1 0, q.1, q.2.1],
        gridWts g grid (unravel f g.out)) := by
  have hc := unravel_inRange hf
  unfold bilinearSpec
  change (gridRead g grid.data ((unravel f g.out).getD 0 0) ((unravel f g.out).getD 2 0)
    ((unravel f g.out).getD 3 0) >>= _) = _
  rw [gridRead_ok h hc]
  have hflat : ∀ a b i j, g.flat a b i j = rowMajor x.shape [a, b, i, j] := by
    intro a b i j
    rw [h.xs]
    simp only [GridGeom.flat, rowMajor, List.prod_cons, List.prod_nil]
    ring
  simp only [bind, Except.bind, gridCorners_eq _ h.hpos, gridCorners_eq _ h.wpos, hflat, isSome_zeros]
  simp only [gridWts, quadAt, quad, List.map_cons, List.map_nil, clampPt, NearImage]
  rfl

theorem quadAt_nonneg (h : GridFits g x grid) (c : List Nat) : ∀ q ∈ quadAt g grid c, 0 ≤ q.2.2 :=
  quad_nonneg (clampCoord_bounds h.hpos _).1 (clampCoord_bounds h.wpos _).1

theorem quadAt_inside (h : GridFits g x grid) (c : List Nat) : ∀ q ∈ quadAt g grid c, q.1 < g.hIn ∧ q.2.1 < g.wIn :=
  quad_inside h.hpos h.wpos (clampCoord_bounds h.hpos _).2 (clampCoord_bounds h.wpos _).2

theorem quadAt_inRange (h : GridFits g x grid) {c : List Nat} (hc : InRange g.out c) :
    ∀ q ∈ quadAt g grid c, InRange x.shape [c.getD 0 0, c.getD 1 0, q.1, q.2.1] := by
  intro q hq
  obtain ⟨h1, h2⟩ := quadAt_inside h c q hq
  obtain ⟨_, h3⟩ := inRange_iff.1 hc
  have a0 := h3 0 (by simp [GridGeom.out])
  have a1 := h3 1 (by simp [GridGeom.out])
  rw [h.xs]
  exact .cons a0 (.cons a1 (.cons h1 (.cons h2 .nil)))

theorem gridWts_nonneg (h : GridFits g x grid) (c : List Nat) : ∀ w ∈ gridWts g grid c, 0 ≤ w := by
  intro w hw
  obtain ⟨q, hq, rfl⟩ := List.mem_map.1 hw
  split_ifs
  · exact roundAway_nonneg (mul_nonneg (quadAt_nonneg h c q hq) (by positivity))
  · exact le_rfl

/-- The weights need not add up to the scale, but are off by no more than two. -/
theorem gridWts_sum (h : GridFits g x grid) (c : List Nat) : (gridWts g grid c).sum ≤ 2 ^ g.kappa + 2 := by
  unfold gridWts
  by_cases hin : g.pad ≠ .zeros ∨ NearImage g (samplePt g grid c)
  · simp only [if_pos hin]
    have h1 := dotErr (M := 1) ((quadAt g grid c).map fun q => ((1 : Int), q.2.2 * 2 ^ g.kappa)) (by
      intro r hr
      obtain ⟨q, hq, rfl⟩ := List.mem_map.1 hr
      exact ⟨by simp, mul_nonneg (quadAt_nonneg h c q hq) (by positivity)⟩)
    simp only [List.map_map, Function.comp_def, one_mul, Int.cast_one, List.length_map] at h1
    rw [List.sum_map_mul_right, show ((quadAt g grid c).map fun q => q.2.2).sum = 1 from quad_sum _ _,
      show (quadAt g grid c).length = 4 from rfl, one_mul] at h1
    have h2 := (abs_le.1 h1).2
    have : (((quadAt g grid c).map fun q => roundAway (q.2.2 * 2 ^ g.kappa)).sum : ℚ) ≤ ((2 ^ g.kappa + 2 : Int) : ℚ) := by
      push_cast; push_cast at h2; linarith
    exact_mod_cast this
  · simp only [if_neg hin]
    rw [List.map_const', List.sum_replicate, smul_zero]
    positivity

theorem gridVals_bound {M : Int} (hM : 0 ≤ M) (hx : ∀ v ∈ x.data, |v| ≤ M) (c : List Nat) :
    ∀ v ∈ gridVals g x grid c, |v| ≤ M := by
  intro v hv
  obtain ⟨q, _, rfl⟩ := List.mem_map.1 hv
  cases e : elem x [c.getD 0 0, c.getD 1 0, q.1, q.2.1] with
  | none => simpa using hM
  | some v => exact hx v (List.mem_of_getElem? e)

theorem gridDot_bound (h : GridFits g x grid) {M : Int} (hM : 0 ≤ M) (hx : ∀ v ∈ x.data, |v| ≤ M) (c : List Nat) :
    (((gridVals g x grid c).zip (gridWts g grid c)).map fun q => |q.1 * q.2|).sum ≤ M * (2 ^ g.kappa + 2) :=
  (dotAbs_le _ _ hM (gridWts_nonneg h c) (gridVals_bound hM hx c)).trans
    (mul_le_mul_of_nonneg_left (gridWts_sum h c) hM)

/-- The fixed-point result is the interpolation at the clamped point. -/
theorem gridVal_near (h : GridFits g x grid) {c : List Nat} {M : Int}
    (hM : 0 ≤ M) (hx : ∀ v ∈ x.data, |v| ≤ M) (hin : g.pad ≠ .zeros ∨ NearImage g (samplePt g grid c)) :
    |(gridVal g x grid c : ℚ) - bilin (samplePix g x c) (clampPt g (samplePt g grid c)).1
      (clampPt g (samplePt g grid c)).2| ≤ 1 / 2 + 2 * M / 2 ^ g.kappa := by
  have h1 := dotErr (M := (M : ℚ)) ((quadAt g grid c).map fun q =>
    ((elem x [c.getD 0 0, c.getD 1 0, q.1, q.2.1]).getD 0, q.2.2 * 2 ^ g.kappa)) (by
      intro r hr
      obtain ⟨q, hq, rfl⟩ := List.mem_map.1 hr
      exact ⟨by exact_mod_cast gridVals_bound (grid := grid) hM hx c _ (List.mem_map_of_mem hq),
        mul_nonneg (quadAt_nonneg h c q hq) (by positivity)⟩)
  simp only [List.map_map, Function.comp_def, List.length_map] at h1
  rw [show (quadAt g grid c).length = 4 from rfl] at h1
  have e1 : idot (gridVals g x grid c) (gridWts g grid c) = ((quadAt g grid c).map fun q =>
      (elem x [c.getD 0 0, c.getD 1 0, q.1, q.2.1]).getD 0 * roundAway (q.2.2 * 2 ^ g.kappa)).sum := by
    unfold gridVals gridWts
    simp only [if_pos hin]
    exact idot_map _ _ _
  have e2 : ((quadAt g grid c).map fun q => (((elem x [c.getD 0 0, c.getD 1 0, q.1, q.2.1]).getD 0 : Int) : ℚ) *
      (q.2.2 * 2 ^ g.kappa)).sum = 2 ^ g.kappa * bilin (samplePix g x c) (clampPt g (samplePt g grid c)).1
        (clampPt g (samplePt g grid c)).2 := by
    rw [← quad_bilin (a := (clampPt g (samplePt g grid c)).1) (b := (clampPt g (samplePt g grid c)).2)
      (clampCoord_bounds h.hpos _).1 (clampCoord_bounds h.wpos _).1, ← List.sum_map_mul_left]
    congr 1
    refine List.map_congr_left fun q hq => ?_
    obtain ⟨h2, h3⟩ := quadAt_inside h c q hq
    unfold samplePix pixel
    rw [if_pos ⟨by omega, by exact_mod_cast h2, by omega, by exact_mod_cast h3⟩]
    simp only [Int.toNat_natCast]
    ring
  rw [← e1, e2] at h1
  unfold gridVal
  rw [roundedMean_floor _ (by positivity)]
  generalize bilin (samplePix g x c) (clampPt g (samplePt g grid c)).1 (clampPt g (samplePt g grid c)).2 = I at *
  generalize idot (gridVals g x grid c) (gridWts g grid c) = X at *
  have hp : (0 : ℚ) < 2 ^ g.kappa := by positivity
  have h2 : |(X : ℚ) / 2 ^ g.kappa - I| ≤ 2 * M / 2 ^ g.kappa := by
    rw [show (X : ℚ) / 2 ^ g.kappa - I = ((X : ℚ) - 2 ^ g.kappa * I) / 2 ^ g.kappa by field_simp, abs_div, abs_of_pos hp]
    gcongr
    push_cast at h1
    linarith
  have hf1 := Int.floor_le ((X : ℚ) / ((2 ^ g.kappa : Nat) : ℚ) + 1 / 2)
  have hf2 := Int.lt_floor_add_one ((X : ℚ) / ((2 ^ g.kappa : Nat) : ℚ) + 1 / 2)
  push_cast at hf1 hf2 ⊢
  rw [abs_le] at *
  constructor <;> linarith

theorem gridVal_zero (hz : g.pad = .zeros) {c : List Nat} (hfar : ¬ NearImage g (samplePt g grid c)) :
    gridVal g x grid c = 0 := by
  have hno : ¬ (g.pad ≠ .zeros ∨ NearImage g (samplePt g grid c)) := by
    rintro (h | h)
    · exact h hz
    · exact hfar h
  have : idot (gridVals g x grid c) (gridWts g grid c) = 0 := by
    unfold gridVals gridWts
    simp only [if_neg hno]
    rw [idot_map]
    simp
  unfold gridVal
  rw [this, roundedMean_floor _ (by positivity)]
  norm_num

/-! ### Soundness of the interpolation -/

theorem gridOut_reads {rc : RangeCtx} {nb : Nat} (h : GridFits g x grid) {c : List Nat} (hc : InRange g.out c) (ws : List Int) :
    gridOut rc g.kappa nb (castArr p x) ((quadAt g grid c).map fun q => rowMajor x.shape
        [c.getD 0 0, c.getD 1 0, q.1, q.2.1], ws) = (do
      let o ← newHint gridsampleHint (((gridVals g x grid c).map fun v : Int => (v : ZMod p)) ++
        (ws.map fun w : Int => (w : ZMod p)) ++ [((2 ^ g.kappa : Nat) : ZMod p)]) 1
      gridChecks rc g.kappa nb ((idot (gridVals g x grid c) ws : Int) : ZMod p) (o.headD 0)) := by
  unfold gridOut
  have : ((quadAt g grid c).map fun q => rowMajor x.shape [c.getD 0 0, c.getD 1 0, q.1, q.2.1]).mapM
      (readAt .panic (castArr p x).data) = .ok ((gridVals g x grid c).map fun v : Int => (v : ZMod p)) := by
    rw [mapM_ok (g := fun i => (((x.data.getD i 0 : Int)) : ZMod p))]
    · congr 1
    · intro i hi
      obtain ⟨q, hq, rfl⟩ := List.mem_map.1 hi
      have hlt := rowMajor_lt (quadAt_inRange h hc q hq)
      have hlt' : rowMajor x.shape [c.getD 0 0, c.getD 1 0, q.1, q.2.1] < x.data.length := by rw [h.xwf]; exact hlt
      apply readAt_ok
      simp only [castArr, List.getElem?_map, List.getElem?_eq_getElem hlt', Option.map_some,
        List.getD_eq_getElem _ _ hlt']
  rw [this, liftR_ok_bind]
  dsimp only
  rw [gridDot_cast]

/-- The specifications of all outputs. -/
def gridSpecs (g : GridGeom) (x grid : Arr Int) : List (List Nat × List Int) :=
  (List.range g.out.prod).map fun f => ((quadAt g grid (unravel f g.out)).map fun q => rowMajor x.shape
    [(unravel f g.out).getD 0 0, (unravel f g.out).getD 1 0, q.1, q.2.1], gridWts g grid (unravel f g.out))

theorem out_prod (g : GridGeom) : g.n * g.c * g.hOut * g.wOut = g.out.prod := by
  simp only [GridGeom.out, List.prod_cons, List.prod_nil]; ring

theorem gridSpecs_ok (h : GridFits g x grid) :
    (List.range (g.n * g.c * g.hOut * g.wOut)).mapM (bilinearSpec g grid.data) = .ok (gridSpecs g x grid) := by
  rw [out_prod]
  exact mapM_ok fun f hf => bilinearSpec_ok h (List.mem_range.1 hf)

theorem sound_gridBilinear {rc : RangeCtx} (hT : IsRangeTable T rc) (hc : 0 < rc.chunk) (h : GridFits g x grid)
    {nb : Nat} (hd : rc.chunk ∣ g.kappa) (hdn : rc.chunk ∣ nb) {M : Int} (hM : 0 ≤ M) (hx : ∀ v ∈ x.data, |v| ≤ M)
    (hp : M * (2 ^ g.kappa + 2) + 2 ^ g.kappa * 2 ^ nb + 2 ^ g.kappa ≤ p) :
    Sound T (gridBilinear rc nb g grid.data g.out (castArr p x))
      (fun y => y = castArr p (tabulate g.out (gridVal g x grid)) ∧
        ∀ c, InRange g.out c → 0 ≤ gridVal g x grid c ∧ gridVal g x grid c < 2 ^ nb) := by
  unfold gridBilinear
  refine sound_liftR.bind fun specs hs => ?_
  obtain rfl : gridSpecs g x grid = specs := Except.ok.inj ((gridSpecs_ok h).symm.trans hs)
  rw [gridSpecs, collectG_map]
  refine (sound_collectG (Q := fun f y => f < g.out.prod → y = ((gridVal g x grid (unravel f g.out) : Int) : ZMod p) ∧
    0 ≤ gridVal g x grid (unravel f g.out) ∧ gridVal g x grid (unravel f g.out) < 2 ^ nb) _ ?_).bind fun ys hys => ?_
  · intro f hf
    have hc' := unravel_inRange (List.mem_range.1 hf)
    rw [gridOut_reads h hc']
    refine Sound.newHint.bind fun o _ => (sound_gridChecks hT hc hd hdn _ _ ?_).conseq fun w hw _ => hw
    have := (dot_le_abs (gridVals g x grid (unravel f g.out)) (gridWts g grid (unravel f g.out))).trans
      (gridDot_bound h hM hx (unravel f g.out))
    linarith
  · refine sound_liftR.conseq fun y hy => ?_
    have hy' : ys.length = g.out.prod := by rw [← hys.length_eq]; simp
    rw [fromShapeVec_ok hy'] at hy
    obtain rfl := Except.ok.inj hy
    have hall : ∀ f (hf : f < g.out.prod), ys[f]'(by omega) = ((gridVal g x grid (unravel f g.out) : Int) : ZMod p) ∧
        0 ≤ gridVal g x grid (unravel f g.out) ∧ gridVal g x grid (unravel f g.out) < 2 ^ nb := by
      intro f hf
      have := (List.forall₂_iff_get.1 hys).2 f (by simpa using hf) (by omega)
      simp only [List.get_eq_getElem, List.getElem_range] at this
      exact this hf
    constructor
    · simp only [castArr, tabulate, List.map_map]
      congr 1
      refine List.ext_getElem (by simp [hy']) fun f h1 h2 => ?_
      rw [(hall f (by omega)).1]
      simp
    · intro c hc'
      have := (hall (rowMajor g.out c) (rowMajor_lt hc')).2
      rwa [unravel_rowMajor hc'] at this

theorem gridsampleHint_ok {κ : Nat} (hκ : κ < 64) (hκp : 2 ^ κ < p) {xs ws : List Int} (hne : xs ≠ [])
    (hl : xs.length = ws.length) (hx : ∀ x ∈ xs, x.natAbs < 2 ^ 63 ∧ 2 * x.natAbs < p)
    (hw : ∀ w ∈ ws, 0 ≤ w ∧ w < 2 ^ 64 ∧ w < p) (hb : ((xs.zip ws).map fun q => |q.1 * q.2|).sum < 2 ^ 127)
    (h0 : 0 ≤ idot xs ws) (h1 : roundedMean (idot xs ws) (2 ^ κ) < 2 ^ 63) :
    gridsampleHint ((xs.map fun x : Int => (x : ZMod p)) ++ (ws.map fun w : Int => (w : ZMod p)) ++
      [((2 ^ κ : Nat) : ZMod p)]) = .ok [((roundedMean (idot xs ws) (2 ^ κ) : Int) : ZMod p)] := by
  have hpos : 0 < xs.length := List.length_pos_iff.2 hne
  have hlen : ((xs.map fun x : Int => (x : ZMod p)) ++ (ws.map fun w : Int => (w : ZMod p)) ++
      [((2 ^ κ : Nat) : ZMod p)]).length = 2 * xs.length + 1 := by simp [← hl]; ring
  unfold gridsampleHint
  rw [hlen, if_neg (by omega), show (2 * xs.length + 1 - 1) / 2 = xs.length by omega]
  have hget : ((xs.map fun x : Int => (x : ZMod p)) ++ (ws.map fun w : Int => (w : ZMod p)) ++
      [((2 ^ κ : Nat) : ZMod p)]).getD (2 * xs.length) 0 = ((2 ^ κ : Nat) : ZMod p) := by
    rw [List.getD_append_right _ _ _ _ (by simp [← hl]; omega)]
    simp [← hl, two_mul]
  have hv : ((2 ^ κ : Nat) : ZMod p).val = 2 ^ κ := by
    rw [ZMod.val_natCast, Nat.mod_eq_of_lt hκp]
  have hlt : 2 ^ κ < 2 ^ 64 := Nat.pow_lt_pow_right (by norm_num) hκ
  have hp2 : 0 < 2 ^ κ := by positivity
  dsimp only
  rw [hget, hv, if_neg (by omega), if_neg (by omega)]
  have e1 : ((xs.map fun x : Int => (x : ZMod p)) ++ (ws.map fun w : Int => (w : ZMod p)) ++
      [((2 ^ κ : Nat) : ZMod p)]).take xs.length = xs.map fun x : Int => (x : ZMod p) := by
    rw [List.append_assoc]; exact List.take_left' (by simp)
  have e2 : (((xs.map fun x : Int => (x : ZMod p)) ++ (ws.map fun w : Int => (w : ZMod p)) ++
      [((2 ^ κ : Nat) : ZMod p)]).drop xs.length).take xs.length = ws.map fun w : Int => (w : ZMod p) := by
    rw [List.append_assoc, List.drop_left' (by simp)]; exact List.take_left' (by simp [hl])
  rw [e1, e2, hintSum_ok xs ws 0 hx hw (by simpa using hb), zero_add]
  have hq : gridQuot (idot xs ws) (2 ^ κ) = roundedMean (idot xs ws) (2 ^ κ) := by
    unfold gridQuot
    rw [if_pos h0]
    rw [roundedMean_eq] at h1 ⊢
    rw [min_eq_left (by omega)]
  have hnn : 0 ≤ roundedMean (idot xs ws) (2 ^ κ) := by
    rw [roundedMean_eq]
    exact Int.ediv_nonneg (by positivity) (by positivity)
  simp only [hq]
  rw [if_neg (by omega)]

theorem complete_gridBilinear {rc : RangeCtx} (hT : IsRangeTable T rc) (h : GridFits g x grid) {nb : Nat}
    (hκ : g.kappa < 63) (hnb : nb ≤ 63) (huk : RangeUsable p rc g.kappa) (hun : RangeUsable p rc nb)
    (hκp : 2 ^ g.kappa + 2 < p) {M : Int} (hM : 0 ≤ M) (hM63 : M < 2 ^ 63) (hM' : M * (2 ^ g.kappa + 2) < 2 ^ 127)
    (hMp : 2 * M < p) (hMnb : 3 * M < 2 ^ nb) (hx0 : ∀ v ∈ x.data, 0 ≤ v ∧ v ≤ M) :
    Complete T (gridBilinear rc nb g grid.data g.out (castArr p x))
      (fun y => y = castArr p (tabulate g.out (gridVal g x grid))) := by
  have hxM : ∀ v ∈ x.data, |v| ≤ M := fun v hv => by rw [abs_of_nonneg (hx0 v hv).1]; exact (hx0 v hv).2
  have h0 : ∀ c, 0 ≤ idot (gridVals g x grid c) (gridWts g grid c) := by
    intro c
    refine List.sum_nonneg fun z hz => ?_
    obtain ⟨q, hq, rfl⟩ := List.mem_map.1 hz
    obtain ⟨a, b⟩ := List.of_mem_zip hq
    refine mul_nonneg ?_ (gridWts_nonneg h c _ b)
    obtain ⟨r, _, hr⟩ := List.mem_map.1 a
    rw [← hr]
    cases e : elem x [c.getD 0 0, c.getD 1 0, r.1, r.2.1] with
    | none => simp
    | some v => exact (hx0 v (List.mem_of_getElem? e)).1
  have hp1 : (1 : Int) ≤ 2 ^ g.kappa := one_le_pow₀ (by norm_num)
  have hrange : ∀ c, 0 ≤ gridVal g x grid c ∧ gridVal g x grid c < 2 ^ nb := by
    intro c
    have h1 := (le_abs_self _).trans ((dot_le_abs (gridVals g x grid c) (gridWts g grid c)).trans (gridDot_bound h hM hxM c))
    have h2 := h0 c
    unfold gridVal
    rw [roundedMean_eq]
    generalize idot (gridVals g x grid c) (gridWts g grid c) = X at *
    refine ⟨Int.ediv_nonneg (by positivity) (by positivity), lt_of_lt_of_le (Int.ediv_lt_of_lt_mul (by positivity) ?_)
      (show 3 * M + 1 ≤ 2 ^ nb by omega)⟩
    have h3 : ((2 ^ g.kappa / 2 : Nat) : Int) * 2 ≤ 2 ^ g.kappa := by
      have := Nat.div_mul_le_self (2 ^ g.kappa) 2
      exact_mod_cast this
    push_cast at h3 ⊢
    nlinarith
  unfold gridBilinear
  refine (complete_liftR (gridSpecs_ok h)).bind ?_
  rintro _ rfl
  have hcol : Complete T (collectG (gridOut rc g.kappa nb (castArr p x)) (gridSpecs g x grid))
      (fun ys => ys = (List.range g.out.prod).map fun f => ((gridVal g x grid (unravel f g.out) : Int) : ZMod p)) := by
    rw [gridSpecs, collectG_map]
    refine (complete_collectG (Q := fun f y => y = ((gridVal g x grid (unravel f g.out) : Int) : ZMod p))
      (List.range g.out.prod) ?_).conseq fun ys hys => ?_
    · intro f hf
      have hc' := unravel_inRange (List.mem_range.1 hf)
      rw [gridOut_reads h hc']
      have hdb := gridDot_bound h hM hxM (unravel f g.out)
      have hr := hrange (unravel f g.out)
      have hh := gridsampleHint_ok (p := p) (κ := g.kappa) (by omega) (by omega)
        (xs := gridVals g x grid (unravel f g.out)) (ws := gridWts g grid (unravel f g.out))
        (by simp [gridVals, quadAt, quad]) (by simp [gridVals, gridWts]) (by
          intro v hv
          have := gridVals_bound (g := g) (grid := grid) hM hxM _ v hv
          rw [Int.abs_eq_natAbs] at this
          constructor <;> omega) (by
          intro w hw
          have hnn := gridWts_nonneg h (unravel f g.out)
          have hle : w ≤ 2 ^ g.kappa + 2 :=
            (List.single_le_sum hnn w hw).trans (gridWts_sum h (unravel f g.out))
          have h63 : (2 : Int) ^ g.kappa ≤ 2 ^ 62 := pow_le_pow_right₀ (by norm_num) (by omega)
          have hpp : (2 : Int) ^ g.kappa + 2 < p := by exact_mod_cast hκp
          exact ⟨hnn w hw, by omega, by omega⟩) (by omega) (h0 _)
        (lt_of_lt_of_le hr.2 (pow_le_pow_right₀ (by norm_num) hnb))
      refine (Complete.newHint hh rfl).bind ?_
      rintro _ rfl
      exact complete_gridChecks hT huk hun _ hr.1 hr.2
    · refine List.ext_getElem (by simp [← hys.length_eq]) fun f h1 h2 => ?_
      have := (List.forall₂_iff_get.1 hys).2 f (by simpa using h2) h1
      simpa using this
  refine hcol.bind ?_
  rintro _ rfl
  refine (complete_liftR (fromShapeVec_ok (by simp))).conseq ?_
  rintro _ rfl
  simp [castArr, tabulate, Function.comp_def]

/-! ### A grid in the circuit -/

theorem forge_gridDynamic {hint : List (ZMod p) → Except Err (List (ZMod p))} {rc : RangeCtx} (hT : IsRangeTable T rc)
    (h : GridFits g x grid) {nb : Nat} (huk : RangeCallable rc g.kappa) (hun : RangeCallable rc nb)
    (Y : List Nat → Int) (hY : ∀ c, InRange g.out c → 0 ≤ Y c ∧ Y c < 2 ^ nb) :
    Forge T (gridDynamic hint rc nb g g.out (castArr p x) (castArr p grid))
      (fun y => y = castArr p (tabulate g.out Y)) := by
  unfold gridDynamic
  rw [out_prod]
  refine (forge_collectG (g := fun f => ((Y (unravel f g.out) : Int) : ZMod p)) _ fun f hf => ?_).bind (fun _ h => h) ?_
  · have hc := unravel_inRange (List.mem_range.1 hf)
    have hY' := hY _ hc
    unfold gridDynOut
    dsimp only
    rw [show unravel f [g.n, g.c, g.hOut, g.wOut] = unravel f g.out from rfl]
    generalize unravel f g.out = c at hc hY' ⊢
    match c, hc.length_eq with
    | [a, b, i, j], _ =>
      simp only [InRange, GridGeom.out, List.forall₂_cons] at hc
      obtain ⟨h0, h1, h2, h3, _⟩ := hc
      simp only [List.getD_cons_zero, List.getD_cons_succ]
      have hdata : (List.range (g.hIn * g.wIn)).mapM (fun k => readAt .panic (castArr p x).data
          (a * g.c * (g.hIn * g.wIn) + b * (g.hIn * g.wIn) + k)) = .ok ((List.range (g.hIn * g.wIn)).map fun k =>
          (castArr p x).data.getD (a * g.c * (g.hIn * g.wIn) + b * (g.hIn * g.wIn) + k) 0) := by
        refine mapM_ok fun k hk => readAt_getD ?_ 0
        have hk' := List.mem_range.1 hk
        have hl : (castArr p x).data.length = g.n * (g.c * (g.hIn * g.wIn)) := by
          simp only [castArr, List.length_map]
          rw [h.xwf, h.xs]
          simp
        rw [hl]
        calc a * g.c * (g.hIn * g.wIn) + b * (g.hIn * g.wIn) + k
            < a * g.c * (g.hIn * g.wIn) + b * (g.hIn * g.wIn) + (g.hIn * g.wIn) := by omega
          _ = (a * g.c + (b + 1)) * (g.hIn * g.wIn) := by ring
          _ ≤ (a * g.c + g.c) * (g.hIn * g.wIn) := by gcongr; omega
          _ = (a + 1) * (g.c * (g.hIn * g.wIn)) := by ring
          _ ≤ g.n * (g.c * (g.hIn * g.wIn)) := by gcongr; omega
      have hgl : ∀ k, k < 2 → (a * g.hOut * g.wOut + i * g.wOut + j) * 2 + k < (castArr p grid).data.length := by
        intro k hk
        have hl : (castArr p grid).data.length = g.n * (g.hOut * (g.wOut * 2)) := by
          simp only [castArr, List.length_map]
          rw [h.gwf, h.gs]
          simp
        rw [hl]
        calc (a * g.hOut * g.wOut + i * g.wOut + j) * 2 + k
            < (a * g.hOut * g.wOut + i * g.wOut + j) * 2 + 2 := by omega
          _ = (a * g.hOut * g.wOut + i * g.wOut + (j + 1)) * 2 := by ring
          _ ≤ (a * g.hOut * g.wOut + i * g.wOut + g.wOut) * 2 := by gcongr; omega
          _ = (a * g.hOut + (i + 1)) * (g.wOut * 2) := by ring
          _ ≤ (a * g.hOut + g.hOut) * (g.wOut * 2) := by gcongr; omega
          _ = (a + 1) * (g.hOut * (g.wOut * 2)) := by ring
          _ ≤ g.n * (g.hOut * (g.wOut * 2)) := by gcongr; omega
      rw [hdata, liftR_ok_bind, readAt_getD (by simpa using hgl 0 (by norm_num)) 0, liftR_ok_bind,
        readAt_getD (hgl 1 (by norm_num)) 0, liftR_ok_bind]
      refine (Forge.newHint _ _ [((Y [a, b, i, j] : Int) : ZMod p), ((Y [a, b, i, j] : Int) : ZMod p), 0, 0, 0,
        ((2 ^ g.kappa : Nat) : ZMod p), 0, 0, 0] rfl).bind (fun _ h => h) ?_
      unfold gridChecks
      have hsum : gridDot ((List.drop 1 [((Y [a, b, i, j] : Int) : ZMod p), ((Y [a, b, i, j] : Int) : ZMod p), 0, 0, 0,
        ((2 ^ g.kappa : Nat) : ZMod p), 0, 0, 0]).take 4) ((List.drop 5 [((Y [a, b, i, j] : Int) : ZMod p),
          ((Y [a, b, i, j] : Int) : ZMod p), 0, 0, 0, ((2 ^ g.kappa : Nat) : ZMod p), 0, 0, 0]).take 4) =
          ((Y [a, b, i, j] : Int) : ZMod p) * ((2 ^ g.kappa : Nat) : ZMod p) := by
        simp [gridDot]
      simp only [hsum, List.headD_cons]
      have hhalf : 2 ^ g.kappa / 2 < 2 ^ g.kappa := Nat.div_lt_self (by positivity) (by norm_num)
      refine (huk.forge hT (k := ((2 ^ g.kappa / 2 : Nat) : Int)) (accepted_nonneg (by positivity) (by exact_mod_cast hhalf))
        ?_).bind (a := ()) (fun _ _ => rfl) ?_
      · rw [Int.cast_natCast]; ring
      · exact (hun.forge hT (accepted_nonneg hY'.1 hY'.2) rfl).bind (a := ()) (fun _ _ => rfl) (Forge.pure rfl)
  · rw [fromShapeVec_ok (by simp)]
    refine Forge.pure ?_
    simp [castArr, tabulate, Function.comp_def]

/-! ## The layer -/

/-- What a GridSample tensor is: every element is within the stated error of the expected value. -/
def IsSampled (g : GridGeom) (nb : Nat) (M : Int) (E : List Nat → ℚ) (y : Arr Int) : Prop :=
  y.shape = g.out ∧ y.WF ∧ ∀ c, InRange g.out c → ∃ v : Int, elem y c = some v ∧ 0 ≤ v ∧ v < 2 ^ nb ∧
    |(v : ℚ) - E c| ≤ 1 / 2 + 2 * M / 2 ^ g.kappa

/-- The point lies on the image. -/
def OnImage (g : GridGeom) (pt : ℚ × ℚ) : Prop :=
  (0 ≤ pt.1 ∧ pt.1 ≤ (g.hIn : ℚ) - 1) ∧ (0 ≤ pt.2 ∧ pt.2 ≤ (g.wIn : ℚ) - 1)

/-- The point has no pixel around it. -/
def OffImage (g : GridGeom) (pt : ℚ × ℚ) : Prop :=
  (pt.1 ≤ -1 ∨ (g.hIn : ℚ) ≤ pt.1) ∨ (pt.2 ≤ -1 ∨ (g.wIn : ℚ) ≤ pt.2)

/-- The layer for the geometry `g`. -/
def gridProgram (hint : List (ZMod p) → Except Err (List (ZMod p))) (rc : RangeCtx) (nb : Nat) (mode : String)
    (g : GridGeom) (x : Arr Int) (grid : GridArg p) : G (ZMod p) (Arr (ZMod p)) :=
  gridLayer hint rc g.kappa nb mode g.pad g.ac g.out (castArr p x) grid

variable {hint : List (ZMod p) → Except Err (List (ZMod p))}

theorem gridProgram_const {rc : RangeCtx} {nb : Nat} {mode : String} (h : GridFits g x grid) (hκ : g.kappa < 64)
    (h1 : mode ≠ "bicubic") (h2 : mode ≠ "nearest") :
    gridProgram hint rc nb mode g x (.const grid.data) = gridBilinear rc nb g grid.data g.out (castArr p x) := by
  unfold gridProgram gridLayer
  have e : (castArr p x).shape = [g.n, g.c, g.hIn, g.wIn] := h.xs
  rw [e]
  simp only [GridGeom.out]
  rw [if_neg (by omega), if_neg h1, if_neg h2]

theorem lerpZ_zero {f : Int → ℚ} {x : ℚ} {n : Nat} (hf : ∀ i : Int, (i < 0 ∨ (n : Int) ≤ i) → f i = 0)
    (h : x ≤ -1 ∨ (n : ℚ) ≤ x) : lerpZ f x = 0 := by
  unfold lerpZ
  have e := Int.floor_add_fract x
  rcases h with h | h
  · have h1 : ⌊x⌋ ≤ -1 := by
      have := Int.floor_le x
      have h3 : (⌊x⌋ : ℚ) ≤ ((-1 : Int) : ℚ) := by push_cast; linarith
      exact_mod_cast h3
    rw [hf _ (.inl (by omega))]
    rcases eq_or_lt_of_le h1 with h2 | h2
    · have : Int.fract x = 0 := by
        rw [h2] at e
        have := Int.fract_nonneg x
        push_cast at e; linarith
      rw [this]; ring
    · rw [hf _ (.inl (by omega))]; ring
  · have h1 : (n : Int) ≤ ⌊x⌋ := Int.le_floor.2 (by exact_mod_cast h)
    rw [hf _ (.inr h1), hf _ (.inr (by omega))]; ring

theorem samplePix_out {c : List Nat} {i j : Int} (h : (i < 0 ∨ (g.hIn : Int) ≤ i) ∨ (j < 0 ∨ (g.wIn : Int) ≤ j)) :
    samplePix g x c i j = 0 := by
  unfold samplePix pixel
  rw [if_neg (by omega)]

theorem bilin_off {c : List Nat} {pt : ℚ × ℚ} (h : OffImage g pt) : bilin (samplePix g x c) pt.1 pt.2 = 0 := by
  unfold bilin
  rcases h with h | h
  · refine lerpZ_zero (n := g.hIn) (fun i hi => ?_) h
    unfold lerpZ
    rw [samplePix_out (.inl hi), samplePix_out (.inl hi)]; ring
  · have : ∀ i : Int, lerpZ (samplePix g x c i) pt.2 = 0 := fun i =>
      lerpZ_zero (n := g.wIn) (fun j hj => samplePix_out (.inr hj)) h
    unfold lerpZ at this ⊢
    simp only [this]; ring

theorem clampPt_on {pt : ℚ × ℚ} (h : OnImage g pt) : clampPt g pt = pt := by
  obtain ⟨⟨h1, h2⟩, ⟨h3, h4⟩⟩ := h
  unfold clampPt clampCoord
  rw [if_neg (by linarith), if_neg (by linarith), if_neg (by linarith), if_neg (by linarith)]

theorem near_of_on {pt : ℚ × ℚ} (h : OnImage g pt) : NearImage g pt := by
  obtain ⟨⟨h1, h2⟩, ⟨h3, h4⟩⟩ := h
  refine ⟨⟨?_, ?_⟩, ⟨?_, ?_⟩⟩ <;> linarith

theorem not_near_of_off {pt : ℚ × ℚ} (h : OffImage g pt) : ¬ NearImage g pt := by
  rintro ⟨⟨h1, h2⟩, ⟨h3, h4⟩⟩
  rcases h with (h | h) | (h | h) <;> linarith

theorem isSampled_tabulate {nb : Nat} {M : Int} {E : List Nat → ℚ}
    (hr : ∀ c, InRange g.out c → 0 ≤ gridVal g x grid c ∧ gridVal g x grid c < 2 ^ nb)
    (hE : ∀ c, InRange g.out c → |(gridVal g x grid c : ℚ) - E c| ≤ 1 / 2 + 2 * M / 2 ^ g.kappa) :
    IsSampled g nb M E (tabulate g.out (gridVal g x grid)) :=
  ⟨rfl, tabulate_wf _ _, fun c hc => ⟨_, tabulate_elem _ hc, (hr c hc).1, (hr c hc).2, hE c hc⟩⟩

theorem partial_value (h : GridFits g x grid) {M : Int} (hM : 0 ≤ M) (hx : ∀ v ∈ x.data, |v| ≤ M) {c : List Nat}
    (hpt : OnImage g (samplePt g grid c) ∨ (g.pad = .zeros ∧ OffImage g (samplePt g grid c))) :
    |(gridVal g x grid c : ℚ) - bilin (samplePix g x c) (samplePt g grid c).1 (samplePt g grid c).2| ≤
      1 / 2 + 2 * M / 2 ^ g.kappa := by
  rcases hpt with hon | ⟨hz, hoff⟩
  · have := gridVal_near h hM hx (.inr (near_of_on hon))
    rwa [clampPt_on hon] at this
  · rw [gridVal_zero hz (not_near_of_off hoff), bilin_off hoff]
    have : (0 : ℚ) ≤ M := by exact_mod_cast hM
    simp only [Int.cast_zero, sub_zero, abs_zero]
    positivity

/-- What the layer interpolates when no output is cut off: the point moved to the image. -/
theorem C87_clamps {rc : RangeCtx} (hT : IsRangeTable T rc) (hc : 0 < rc.chunk) {nb : Nat} {mode : String}
    (h1 : mode ≠ "bicubic") (h2 : mode ≠ "nearest") (h : GridFits g x grid) (hκ : g.kappa < 64)
    (hpt : g.pad ≠ .zeros ∨ ∀ c, InRange g.out c → NearImage g (samplePt g grid c))
    (hd : rc.chunk ∣ g.kappa) (hdn : rc.chunk ∣ nb) {M : Int} (hM : 0 ≤ M)
    (hx : ∀ v ∈ x.data, |v| ≤ M) (hp : M * (2 ^ g.kappa + 2) + 2 ^ g.kappa * 2 ^ nb + 2 ^ g.kappa ≤ p) :
    Sound T (gridProgram hint rc nb mode g x (.const grid.data)) (fun y => ∃ yi, y = castArr p yi ∧
      IsSampled g nb M (fun c => bilin (samplePix g x c) (clampCoord g.hIn (samplePt g grid c).1)
        (clampCoord g.wIn (samplePt g grid c).2)) yi) := by
  rw [gridProgram_const h hκ h1 h2]
  refine (sound_gridBilinear hT hc h hd hdn hM hx hp).conseq fun y ⟨e, hr⟩ => ⟨_, e, isSampled_tabulate hr fun c hc => ?_⟩
  exact gridVal_near h hM hx (hpt.imp id fun h => h c hc)

/-- **C87, border padding.** With a constant grid, any image and any grid, an accepted output is the interpolation
that ONNX defines, up to the rounding of the four weights and of the result. -/
theorem C87_border {rc : RangeCtx} (hT : IsRangeTable T rc) (hc : 0 < rc.chunk) {nb : Nat} {mode : String}
    (h1 : mode ≠ "bicubic") (h2 : mode ≠ "nearest") (h : GridFits g x grid) (hκ : g.kappa < 64)
    (hb : g.pad = .border) (hd : rc.chunk ∣ g.kappa) (hdn : rc.chunk ∣ nb) {M : Int} (hM : 0 ≤ M)
    (hx : ∀ v ∈ x.data, |v| ≤ M) (hp : M * (2 ^ g.kappa + 2) + 2 ^ g.kappa * 2 ^ nb + 2 ^ g.kappa ≤ p) :
    Sound T (gridProgram hint rc nb mode g x (.const grid.data)) (fun y => ∃ yi, y = castArr p yi ∧
      IsSampled g nb M (fun c => bilin (samplePix g x c) (clampCoord g.hIn (samplePt g grid c).1)
        (clampCoord g.wIn (samplePt g grid c).2)) yi) :=
  C87_clamps hT hc h1 h2 h hκ (.inl (by rw [hb]; decide)) hd hdn hM hx hp

/-- **C87, zero padding is wrong at the edge.** ONNX lets the missing neighbours of a point just outside the image
count as zero: halfway outside, a pixel `v` counts half. `C87_clamps` applies to this node, with the whole of `v`. -/
theorem C87_zeros_edge (κ : Nat) (v : Int) : ∃ (g : GridGeom) (x grid : Arr Int), GridFits g x grid ∧ g.kappa = κ ∧
    g.pad = .zeros ∧ x.data = [v] ∧ (∀ c, InRange g.out c → NearImage g (samplePt g grid c)) ∧
    InRange g.out [0, 0, 0, 0] ∧
    bilin (samplePix g x [0, 0, 0, 0]) (samplePt g grid [0, 0, 0, 0]).1 (samplePt g grid [0, 0, 0, 0]).2 = v / 2 ∧
    bilin (samplePix g x [0, 0, 0, 0]) (clampCoord g.hIn (samplePt g grid [0, 0, 0, 0]).1)
      (clampCoord g.wIn (samplePt g grid [0, 0, 0, 0]).2) = v := by
  have hp : (2 : ℚ) ^ κ ≠ 0 := by positivity
  have hpt : gridPoint ⟨[1, 1, 1, 2], [-2 ^ κ, 0]⟩ κ false 1 1 0 0 0 = (0, -1 / 2) := by
    simp only [gridPoint, elem, rowMajor, gridCoord, List.prod_cons, List.prod_nil]
    norm_num [neg_div, div_self hp]
  have hf : ⌊(-1 / 2 : ℚ)⌋ = -1 := by rw [Int.floor_eq_iff]; norm_num
  have hfr : Int.fract (-1 / 2 : ℚ) = 1 / 2 := by rw [Int.fract, hf]; norm_num
  refine ⟨⟨1, 1, 1, 1, 1, 1, κ, .zeros, false⟩, ⟨[1, 1, 1, 1], [v]⟩, ⟨[1, 1, 1, 2], [-2 ^ κ, 0]⟩,
    ⟨rfl, rfl, rfl, rfl, by norm_num, by norm_num⟩, rfl, rfl, rfl, ?_, ?_, ?_, ?_⟩
  · intro c hc
    match c, hc.length_eq with
    | [a, b, i, j], _ =>
      simp only [InRange, GridGeom.out, List.forall₂_cons, Nat.lt_one_iff] at hc
      obtain ⟨rfl, rfl, rfl, rfl, _⟩ := hc
      simp only [samplePt, List.getD_cons_zero, List.getD_cons_succ, hpt, NearImage]
      norm_num
  · simp [InRange, GridGeom.out]
  · simp only [samplePt, List.getD_cons_zero, List.getD_cons_succ, hpt, bilin, lerpZ, hf, hfr, samplePix, pixel]
    norm_num [elem, rowMajor]
    ring
  · simp only [samplePt, List.getD_cons_zero, List.getD_cons_succ, hpt, bilin, lerpZ, samplePix, pixel, clampCoord]
    norm_num [elem, rowMajor]

/-- **C87, reflection is ignored.** For the pixels `a, b` and a point half a pixel beyond `b`, the mirrored point lies
halfway between them. `C87_clamps` applies to this node, with `b`. -/
theorem C87_reflection_ignored (κ : Nat) (a b : Int) : ∃ (g : GridGeom) (x grid : Arr Int), GridFits g x grid ∧ g.kappa = κ ∧
    g.pad = .reflection ∧ g.ac = true ∧ x.data = [a, b] ∧ InRange g.out [0, 0, 0, 0] ∧
    (∃ z, IsMirrored 0 ((g.wIn : ℚ) - 1) (samplePt g grid [0, 0, 0, 0]).2 z ∧
      bilin (samplePix g x [0, 0, 0, 0]) (samplePt g grid [0, 0, 0, 0]).1 z = (a + b) / 2) ∧
    OnImage g ((samplePt g grid [0, 0, 0, 0]).1, 0) ∧
    bilin (samplePix g x [0, 0, 0, 0]) (clampCoord g.hIn (samplePt g grid [0, 0, 0, 0]).1)
      (clampCoord g.wIn (samplePt g grid [0, 0, 0, 0]).2) = b := by
  have hp : (2 : ℚ) ^ κ ≠ 0 := by positivity
  have hpt : gridPoint ⟨[1, 1, 1, 2], [2 * 2 ^ κ, 0]⟩ κ true 1 2 0 0 0 = (0, 3 / 2) := by
    simp only [gridPoint, elem, rowMajor, gridCoord, List.prod_cons, List.prod_nil]
    norm_num [mul_div_assoc, div_self hp]
  have hf : ⌊(1 / 2 : ℚ)⌋ = 0 := by rw [Int.floor_eq_iff]; norm_num
  have hfr : Int.fract (1 / 2 : ℚ) = 1 / 2 := by rw [Int.fract, hf]; norm_num
  refine ⟨⟨1, 1, 1, 2, 1, 1, κ, .reflection, true⟩, ⟨[1, 1, 1, 2], [a, b]⟩, ⟨[1, 1, 1, 2], [2 * 2 ^ κ, 0]⟩,
    ⟨rfl, rfl, rfl, rfl, by norm_num, by norm_num⟩, rfl, rfl, rfl, rfl, ?_, ⟨1 / 2, ?_, ?_⟩, ?_, ?_⟩
  · simp [InRange, GridGeom.out]
  · simp only [samplePt, List.getD_cons_zero, hpt, List.getD_cons_succ]
    refine ⟨by norm_num, by norm_num, 1, .inr (by norm_num)⟩
  · simp only [samplePt, List.getD_cons_zero, List.getD_cons_succ, hpt, bilin, lerpZ, hf, hfr, samplePix, pixel]
    norm_num [elem, rowMajor]
    ring
  · simp only [samplePt, List.getD_cons_zero, List.getD_cons_succ, hpt, OnImage]; norm_num
  · simp only [samplePt, List.getD_cons_zero, List.getD_cons_succ, hpt, bilin, lerpZ, samplePix, pixel, clampCoord]
    norm_num [elem, rowMajor]

/-- **C87, points on the image, and points beyond it with zero padding.** Missing: points within one pixel of the edge
with zero padding, and points outside with reflection; for those see `C87_zeros_edge` and `C87_reflection_ignored`. -/
theorem C87_bilinear_partial {rc : RangeCtx} (hT : IsRangeTable T rc) (hc : 0 < rc.chunk) {nb : Nat} {mode : String}
    (h1 : mode ≠ "bicubic") (h2 : mode ≠ "nearest") (h : GridFits g x grid) (hκ : g.kappa < 64)
    (hpt : ∀ c, InRange g.out c → OnImage g (samplePt g grid c) ∨ (g.pad = .zeros ∧ OffImage g (samplePt g grid c)))
    (hd : rc.chunk ∣ g.kappa) (hdn : rc.chunk ∣ nb) {M : Int} (hM : 0 ≤ M)
    (hx : ∀ v ∈ x.data, |v| ≤ M) (hp : M * (2 ^ g.kappa + 2) + 2 ^ g.kappa * 2 ^ nb + 2 ^ g.kappa ≤ p) :
    Sound T (gridProgram hint rc nb mode g x (.const grid.data)) (fun y => ∃ yi, y = castArr p yi ∧
      IsSampled g nb M (fun c => bilin (samplePix g x c) (samplePt g grid c).1 (samplePt g grid c).2) yi) := by
  rw [gridProgram_const h hκ h1 h2]
  exact (sound_gridBilinear hT hc h hd hdn hM hx hp).conseq fun y ⟨e, hr⟩ =>
    ⟨_, e, isSampled_tabulate hr fun c hc' => partial_value h hM hx (hpt c hc')⟩

/-- **C87, the honest prover** succeeds on images without negative pixels. -/
theorem C87_complete {rc : RangeCtx} (hT : IsRangeTable T rc) {nb : Nat} {mode : String}
    (h1 : mode ≠ "bicubic") (h2 : mode ≠ "nearest") (h : GridFits g x grid)
    (hκ : g.kappa < 63) (hnb : nb ≤ 63) (huk : RangeUsable p rc g.kappa) (hun : RangeUsable p rc nb)
    (hκp : 2 ^ g.kappa + 2 < p) {M : Int} (hM : 0 ≤ M) (hM63 : M < 2 ^ 63) (hM' : M * (2 ^ g.kappa + 2) < 2 ^ 127)
    (hMp : 2 * M < p) (hMnb : 3 * M < 2 ^ nb) (hx0 : ∀ v ∈ x.data, 0 ≤ v ∧ v ≤ M)
    (hpt : g.pad = .border ∨ ∀ c, InRange g.out c → OnImage g (samplePt g grid c)) :
    Complete T (gridProgram hint rc nb mode g x (.const grid.data)) (fun y => ∃ yi, y = castArr p yi ∧
      yi.shape = g.out ∧ yi.WF ∧ ∀ c, InRange g.out c → ∃ v : Int, elem yi c = some v ∧
        |(v : ℚ) - bilin (samplePix g x c) (clampCoord g.hIn (samplePt g grid c).1)
          (clampCoord g.wIn (samplePt g grid c).2)| ≤ 1 / 2 + 2 * M / 2 ^ g.kappa) := by
  have hxM : ∀ v ∈ x.data, |v| ≤ M := fun v hv => by rw [abs_of_nonneg (hx0 v hv).1]; exact (hx0 v hv).2
  rw [gridProgram_const h (by omega) h1 h2]
  refine (complete_gridBilinear hT h hκ hnb huk hun hκp hM hM63 hM' hMp hMnb hx0).conseq fun y e =>
    ⟨_, e, rfl, tabulate_wf _ _, fun c hc => ⟨_, tabulate_elem _ hc, ?_⟩⟩
  refine gridVal_near h hM hxM ?_
  rcases hpt with hb | hon
  · exact .inl (by rw [hb]; decide)
  · exact .inr (near_of_on (hon c hc))

/-- **C87, negative results have no proof.** -/
theorem C87_negative_refused {rc : RangeCtx} (hT : IsRangeTable T rc) (hc : 0 < rc.chunk) {nb : Nat} {mode : String}
    (h1 : mode ≠ "bicubic") (h2 : mode ≠ "nearest") (h : GridFits g x grid) (hκ : g.kappa < 64)
    (hd : rc.chunk ∣ g.kappa) (hdn : rc.chunk ∣ nb) {M : Int} (hM : 0 ≤ M)
    (hx : ∀ v ∈ x.data, |v| ≤ M) (hp : M * (2 ^ g.kappa + 2) + 2 ^ g.kappa * 2 ^ nb + 2 ^ g.kappa ≤ p)
    {c : List Nat} (hc' : InRange g.out c) (hpt : OnImage g (samplePt g grid c))
    (hneg : bilin (samplePix g x c) (samplePt g grid c).1 (samplePt g grid c).2 < -(1 / 2 + 2 * M / 2 ^ g.kappa)) :
    Sound T (gridProgram hint rc nb mode g x (.const grid.data)) (fun _ => False) := by
  rw [gridProgram_const h hκ h1 h2]
  refine (sound_gridBilinear hT hc h hd hdn hM hx hp).conseq fun y ⟨_, hr⟩ => ?_
  have e := (abs_le.1 (partial_value h hM hx (.inl hpt))).2
  have : (0 : ℚ) ≤ gridVal g x grid c := by exact_mod_cast (hr c hc').1
  linarith

/-- **C87, a grid in the circuit.** When the grid is not a constant of the model, every tensor of in-range values is an
accepted output, for every image, every grid, every padding and every hint. -/
theorem C87_dynamic_any_output {rc : RangeCtx} (hT : IsRangeTable T rc) {nb : Nat} {mode : String}
    (h1 : mode ≠ "bicubic") (h : GridFits g x grid) (hκ : g.kappa < 64) (huk : RangeCallable rc g.kappa)
    (hun : RangeCallable rc nb) (y : Arr Int) (hys : y.shape = g.out) (hyw : y.WF)
    (hy : ∀ v ∈ y.data, 0 ≤ v ∧ v < 2 ^ nb) :
    Forge T (gridProgram hint rc nb mode g x (.wire (castArr p grid))) (fun w => w = castArr p y) := by
  unfold gridProgram gridLayer
  have e : (castArr p x).shape = [g.n, g.c, g.hIn, g.wIn] := h.xs
  rw [e]
  simp only [GridGeom.out]
  rw [if_neg (by omega), if_neg h1]
  refine (forge_gridDynamic hT h huk hun (fun c => (elem y c).getD 0) fun c hc => ?_).conseq fun w hw => ?_
  · have hlt := rowMajor_lt hc
    rw [← hys, ← hyw] at hlt
    rw [elem, List.getElem?_eq_getElem hlt]
    exact hy _ (List.getElem_mem _)
  · rw [hw]
    congr 1
    obtain ⟨s, d⟩ := y
    have hs : s = g.out := hys
    subst hs
    have hl : d.length = g.out.prod := hyw
    simp only [tabulate, elem]
    congr 1
    refine List.ext_getElem (by simp [hl]) fun f h1 h2 => ?_
    have hf : f < g.out.prod := by omega
    simp only [List.getElem_map, List.getElem_range, rowMajor_unravel hf, List.getElem?_eq_getElem h2, Option.getD_some]

/-- **C87, the mode is ignored** when the grid is not a constant: `nearest` is the same program as `bilinear`. -/
theorem C87_dynamic_mode_ignored (rc : RangeCtx) (κ nb : Nat) (pad : GridPad) (ac : Bool) (out : List Nat)
    (x grid : Arr (ZMod p)) {m m' : String} (h : m ≠ "bicubic") (h' : m' ≠ "bicubic") :
    gridLayer hint rc κ nb m pad ac out x (.wire grid) = gridLayer hint rc κ nb m' pad ac out x (.wire grid) := by
  unfold gridLayer
  simp only [if_neg h, if_neg h']

end

/-! ## Nearest -/

/-- The coordinate is not halfway between two pixels. -/
def NoTie (v : ℚ) : Prop := ∀ k : Int, v ≠ k + 1 / 2

theorem rint_lt {v : ℚ} {i : Int} (h : IsRint v i) (ht : NoTie v) : (i : ℚ) - 1 / 2 < v ∧ v < i + 1 / 2 := by
  obtain ⟨h1, h2⟩ := abs_le.1 h.1
  refine ⟨lt_of_le_of_ne (by linarith) fun e => ht (i - 1) ?_, lt_of_le_of_ne (by linarith) (ht i)⟩
  push_cast; linarith

theorem nearestPx_eq {v : ℚ} {size : Nat} (h0 : 0 ≤ v) (h1 : v ≤ (size : ℚ) - 1) {i : Int} (h : IsRint v i) (ht : NoTie v) :
    nearestPx v size = i.toNat ∧ 0 ≤ i ∧ i < size := by
  obtain ⟨a, b⟩ := rint_lt h ht
  have hi0 : 0 ≤ i := by
    have : ((-1 : Int) : ℚ) < (i : ℚ) := by push_cast; linarith
    have : -1 < i := by exact_mod_cast this
    omega
  have hi1 : i < size := by
    have : (i : ℚ) < ((size : Int) : ℚ) := by push_cast; linarith
    exact_mod_cast this
  obtain ⟨k, rfl⟩ := Int.eq_ofNat_of_zero_le hi0
  have hk : k < size := by exact_mod_cast hi1
  have hfl : ⌊v + 1 / 2⌋ = (k : Int) := by
    rw [Int.floor_eq_iff]; push_cast at a b ⊢; constructor <;> linarith
  refine ⟨?_, hi0, hi1⟩
  unfold nearestPx
  rw [hfl, clampCoord_eq (by omega)]
  rw [show (((k : Nat) : Int) : ℚ) = (k : ℚ) by push_cast; rfl, clampCoord_int hk, Nat.floor_natCast]
  simp

theorem nearestPx_lt (v : ℚ) {size : Nat} (h : 0 < size) : nearestPx v size < size := by
  unfold nearestPx
  rw [clampCoord_eq h]
  have := Nat.floor_le_of_le (clampCoord_bounds h ((⌊v + 1 / 2⌋ : Int) : ℚ)).2
  omega

/-- The pixel chosen along both axes. -/
def nearestSel (g : GridGeom) (grid : Arr Int) (c : List Nat) : Option (Nat × Nat) :=
  (gridPad (samplePt g grid c).1 g.hIn g.pad g.ac).bind fun y =>
    (gridPad (samplePt g grid c).2 g.wIn g.pad g.ac).map fun x => (nearestPx y g.hIn, nearestPx x g.wIn)

section
variable {α : Type} {g : GridGeom} {x : Arr α} {grid : Arr Int}

theorem nearestEntry_ok (h : GridFits g x grid) {f : Nat} (hf : f < g.out.prod) :
    nearestEntry g grid.data f = .ok ((nearestSel g grid (unravel f g.out)).map fun q => rowMajor x.shape
      [(unravel f g.out).getD 0 0, (unravel f g.out).getD 1 0, q.1, q.2]) := by
  have hc := unravel_inRange hf
  unfold nearestEntry
  change (gridRead g grid.data ((unravel f g.out).getD 0 0) ((unravel f g.out).getD 2 0)
    ((unravel f g.out).getD 3 0) >>= _) = _
  rw [gridRead_ok h hc]
  have hflat : ∀ a b i j, g.flat a b i j = rowMajor x.shape [a, b, i, j] := by
    intro a b i j
    rw [h.xs]
    simp only [GridGeom.flat, rowMajor, List.prod_cons, List.prod_nil]
    ring
  simp only [bind, Except.bind, hflat, nearestSel]
  congr 1
  cases gridPad (samplePt g grid (unravel f g.out)).1 g.hIn g.pad g.ac with
  | none => rfl
  | some y => cases gridPad (samplePt g grid (unravel f g.out)).2 g.wIn g.pad g.ac <;> rfl

theorem nearestSel_inRange (h : GridFits g x grid) {c : List Nat} (hc : InRange g.out c) {q : Nat × Nat}
    (hq : nearestSel g grid c = some q) : InRange x.shape [c.getD 0 0, c.getD 1 0, q.1, q.2] := by
  obtain ⟨_, h3⟩ := inRange_iff.1 hc
  have a0 := h3 0 (by simp [GridGeom.out])
  have a1 := h3 1 (by simp [GridGeom.out])
  simp only [nearestSel, Option.bind_eq_some_iff, Option.map_eq_some_iff] at hq
  obtain ⟨_, _, _, _, rfl⟩ := hq
  rw [h.xs]
  exact .cons a0 (.cons a1 (.cons (nearestPx_lt _ h.hpos) (.cons (nearestPx_lt _ h.wpos) .nil)))

theorem gridNearest_ok (z : α) (h : GridFits g x grid) :
    ∃ y, gridNearest z g grid.data g.out x = .ok y ∧ y.shape = g.out ∧ y.WF ∧ ∀ c, InRange g.out c →
      elem y c = match nearestSel g grid c with
        | some q => elem x [c.getD 0 0, c.getD 1 0, q.1, q.2]
        | none => some z := by
  refine ⟨⟨g.out, (List.range g.out.prod).map fun f => match nearestSel g grid (unravel f g.out) with
    | some q => x.data.getD (rowMajor x.shape [(unravel f g.out).getD 0 0, (unravel f g.out).getD 1 0, q.1, q.2]) z
    | none => z⟩, ?_, rfl, by simp [Arr.WF], fun c hc => ?_⟩
  · unfold gridNearest
    rw [out_prod, mapM_ok fun f hf => nearestEntry_ok h (List.mem_range.1 hf)]
    simp only [bind, Except.bind]
    rw [mapM_ok (g := fun e : Option Nat => match e with
      | some i => x.data.getD i z
      | none => z)]
    · rw [List.map_map]
      dsimp only
      rw [fromShapeVec_ok (by simp)]
      congr 2
      refine List.map_congr_left fun f _ => ?_
      simp only [Function.comp_apply]
      cases nearestSel g grid (unravel f g.out) <;> rfl
    · intro e he
      obtain ⟨f, hf, rfl⟩ := List.mem_map.1 he
      cases hq : nearestSel g grid (unravel f g.out) with
      | none => rfl
      | some q =>
        have := rowMajor_lt (nearestSel_inRange h (unravel_inRange (List.mem_range.1 hf)) hq)
        rw [← h.xwf] at this
        simp only [Option.map_some]
        exact readAt_getD this z
  · have hlt := rowMajor_lt hc
    simp only [elem]
    rw [List.getElem?_map, List.getElem?_range hlt, Option.map_some, unravel_rowMajor hc]
    cases hq : nearestSel g grid c with
    | none => rfl
    | some q =>
      have := rowMajor_lt (nearestSel_inRange h hc hq)
      rw [← h.xwf] at this
      dsimp only
      rw [List.getD_eq_getElem _ _ this, List.getElem?_eq_getElem this]

/-- Zero padding along one axis. -/
theorem zeros_axis {v : ℚ} {size : Nat} (hs : 0 < size) {i : Int} (h : IsRint v i) (ht : NoTie v) (ac : Bool) :
    (0 ≤ i ∧ i < size → ∃ u, gridPad v size .zeros ac = some u ∧ nearestPx u size = i.toNat) ∧
    (¬ (0 ≤ i ∧ i < size) → gridPad v size .zeros ac = none) := by
  obtain ⟨a, b⟩ := rint_lt h ht
  have hs' : (1 : ℚ) ≤ size := by exact_mod_cast hs
  constructor
  · rintro ⟨h0, h1⟩
    have h0' : (0 : ℚ) ≤ i := by exact_mod_cast h0
    have h1' : (i : ℚ) + 1 ≤ size := by exact_mod_cast h1
    refine ⟨_, by unfold gridPad; dsimp only; rw [if_neg (by push Not; constructor <;> linarith)], ?_⟩
    rw [clampCoord_eq hs]
    obtain ⟨b1, b2⟩ := clampCoord_bounds hs v
    rw [Nat.cast_sub hs] at b2
    push_cast at b2
    have hc : (i : ℚ) - 1 / 2 < clampCoord size v ∧ clampCoord size v < i + 1 / 2 := by
      unfold clampCoord
      split_ifs <;> constructor <;> linarith
    refine (nearestPx_eq b1 b2 ⟨abs_le.2 ⟨by linarith [hc.1], by linarith [hc.2]⟩, fun e => ?_⟩ ?_).1
    · rcases abs_eq (by norm_num : (0 : ℚ) ≤ 1 / 2) |>.1 e with e | e <;> linarith [hc.1, hc.2]
    · intro k e
      have h3 : ((i - 1 : Int) : ℚ) < (k : ℚ) := by push_cast; linarith [hc.1]
      have h4 : (k : ℚ) < (i : ℚ) := by linarith [hc.2]
      have h3' : i - 1 < k := by exact_mod_cast h3
      have h4' : k < i := by exact_mod_cast h4
      omega
  · intro hn
    unfold gridPad
    dsimp only
    rw [if_pos]
    by_contra hcon
    push Not at hcon
    obtain ⟨c1, c2⟩ := hcon
    apply hn
    have n1 : v ≠ -1 / 2 := fun e => ht (-1) (by rw [e]; norm_num)
    have n2 : v ≠ (size : ℚ) - 1 / 2 := fun e => ht (size - 1) (by rw [e]; push_cast; ring)
    have c1' := lt_of_le_of_ne c1 (Ne.symm n1)
    have c2' := lt_of_le_of_ne c2 n2
    have h3 : ((-1 : Int) : ℚ) < (i : ℚ) := by push_cast; linarith
    have h4 : (i : ℚ) < ((size : Int) : ℚ) := by push_cast; linarith
    have h3' : -1 < i := by exact_mod_cast h3
    have h4' : i < (size : Int) := by exact_mod_cast h4
    omega

/-- Folding a distance into one half of the period. -/
theorem fold_eq {t s R : ℚ} (hR : 0 < R) (h0 : 0 ≤ s) (h1 : s ≤ R) {k : Int}
    (h : s = t + 2 * k * R ∨ s = -t + 2 * k * R) :
    (if remEuclid t (2 * R) > R then 2 * R - remEuclid t (2 * R) else remEuclid t (2 * R)) = s := by
  have h2 : (0 : ℚ) < 2 * R := by linarith
  have key : ∀ m : Int, (m : ℚ) * (2 * R) ≤ t → t < ((m : ℚ) + 1) * (2 * R) → remEuclid t (2 * R) = t - 2 * R * m := by
    intro m ha hb
    unfold remEuclid
    rw [(Int.floor_eq_iff (z := m)).2 ⟨(le_div_iff₀ h2).2 ha, (div_lt_iff₀ h2).2 hb⟩]
  rcases h with h | h
  · rw [key (-k) (by push_cast; linarith) (by push_cast; linarith)]
    push_cast
    rw [if_neg (by linarith)]
    linarith
  · rcases h0.eq_or_lt with e | hlt
    · rw [key k (by linarith) (by linarith)]
      rw [if_neg (by linarith)]
      linarith
    · rw [key (k - 1) (by push_cast; linarith) (by push_cast; linarith)]
      push_cast
      split_ifs <;> linarith

/-- The ends at which ONNX mirrors a coordinate. -/
def mirrorLo (ac : Bool) : ℚ := if ac then 0 else -1 / 2

@[inherit_doc mirrorLo]
def mirrorHi (ac : Bool) (size : Nat) : ℚ := if ac then (size : ℚ) - 1 else (size : ℚ) - 1 / 2

theorem reflectCoord_eq {v z : ℚ} {size : Nat} (hs : 1 < size) {ac : Bool}
    (h : IsMirrored (mirrorLo ac) (mirrorHi ac size) v z) : reflectCoord v size ac = clampCoord size z := by
  obtain ⟨h0, h1, k, hk⟩ := h
  have hs' : (1 : ℚ) < size := by exact_mod_cast hs
  unfold reflectCoord
  rw [if_neg (by omega)]
  dsimp only
  rw [clampCoord_eq (by omega)]
  congr 1
  cases ac
  · simp only [mirrorLo, mirrorHi, Bool.false_eq_true, if_false] at h0 h1 hk ⊢
    rw [fold_eq (s := z + 1 / 2) (k := k) (by linarith) (by linarith) (by linarith)]
    · ring
    · rcases hk with hk | hk
      · left; rw [hk]; ring
      · right; rw [hk]; ring
  · simp only [mirrorLo, mirrorHi, if_true] at h0 h1 hk ⊢
    rw [Nat.cast_sub hs.le, Nat.cast_one]
    rw [fold_eq (s := z) (k := k) (by linarith) (by linarith) (by linarith)]
    · ring
    · rcases hk with hk | hk
      · left; rw [hk]; ring
      · right; rw [hk]; ring

/-- **C87, nearest.** With a constant grid, every output is the pixel that ONNX selects, unless a coordinate is exactly
halfway between two pixels. Missing: those, see `C87_nearest_tie`. -/
theorem C87_nearest_partial (z : α) (h : GridFits g x grid) :
    ∃ y, gridNearest z g grid.data g.out x = .ok y ∧ y.shape = g.out ∧ y.WF ∧
      (g.pad = .zeros → ∀ c, InRange g.out c → NoTie (samplePt g grid c).1 → NoTie (samplePt g grid c).2 →
        ∀ i j, IsRint (samplePt g grid c).1 i → IsRint (samplePt g grid c).2 j →
          elem y c = if (0 ≤ i ∧ i < g.hIn) ∧ (0 ≤ j ∧ j < g.wIn) then
            elem x [c.getD 0 0, c.getD 1 0, i.toNat, j.toNat] else some z) ∧
      (g.pad = .border → ∀ c, InRange g.out c → NoTie (clampPt g (samplePt g grid c)).1 →
        NoTie (clampPt g (samplePt g grid c)).2 →
        ∀ i j, IsRint (clampPt g (samplePt g grid c)).1 i → IsRint (clampPt g (samplePt g grid c)).2 j →
          elem y c = elem x [c.getD 0 0, c.getD 1 0, i.toNat, j.toNat]) ∧
      (g.pad = .reflection → 1 < g.hIn → 1 < g.wIn → ∀ c, InRange g.out c → ∀ pt : ℚ × ℚ,
        IsMirrored (mirrorLo g.ac) (mirrorHi g.ac g.hIn) (samplePt g grid c).1 pt.1 →
        IsMirrored (mirrorLo g.ac) (mirrorHi g.ac g.wIn) (samplePt g grid c).2 pt.2 →
        NoTie (clampPt g pt).1 → NoTie (clampPt g pt).2 →
        ∀ i j, IsRint (clampPt g pt).1 i → IsRint (clampPt g pt).2 j →
          elem y c = elem x [c.getD 0 0, c.getD 1 0, i.toNat, j.toNat]) := by
  obtain ⟨y, h1, h2, h3, h4⟩ := gridNearest_ok z h
  refine ⟨y, h1, h2, h3, fun hz c hc t1 t2 i j r1 r2 => ?_, fun hb c hc t1 t2 i j r1 r2 => ?_,
    fun hb k1 k2 c hc pt m1 m2 t1 t2 i j r1 r2 => ?_⟩
  · obtain ⟨p1, p2⟩ := zeros_axis h.hpos r1 t1 g.ac
    obtain ⟨q1, q2⟩ := zeros_axis h.wpos r2 t2 g.ac
    rw [h4 c hc, nearestSel, hz]
    split_ifs with hin
    · obtain ⟨u, e1, e2⟩ := p1 hin.1
      obtain ⟨w, e3, e4⟩ := q1 hin.2
      rw [e1, e3]
      simp only [Option.bind_some, Option.map_some, e2, e4]
    · rcases not_and_or.1 hin with hin | hin
      · rw [p2 hin]; rfl
      · rw [q2 hin]
        cases gridPad (samplePt g grid c).1 g.hIn .zeros g.ac <;> rfl
  · obtain ⟨b1, b2⟩ := clampCoord_bounds h.hpos (samplePt g grid c).1
    obtain ⟨b3, b4⟩ := clampCoord_bounds h.wpos (samplePt g grid c).2
    rw [Nat.cast_sub h.hpos] at b2
    rw [Nat.cast_sub h.wpos] at b4
    push_cast at b2 b4
    rw [h4 c hc, nearestSel, hb]
    unfold gridPad
    dsimp only
    rw [clampCoord_eq h.hpos, clampCoord_eq h.wpos]
    simp only [Option.bind_some, Option.map_some]
    have e1 := (nearestPx_eq b1 b2 r1 t1).1
    have e2 := (nearestPx_eq b3 b4 r2 t2).1
    rw [e1, e2]
  · obtain ⟨b1, b2⟩ := clampCoord_bounds h.hpos pt.1
    obtain ⟨b3, b4⟩ := clampCoord_bounds h.wpos pt.2
    rw [Nat.cast_sub h.hpos] at b2
    rw [Nat.cast_sub h.wpos] at b4
    push_cast at b2 b4
    rw [h4 c hc, nearestSel, hb]
    unfold gridPad
    dsimp only
    rw [reflectCoord_eq k1 m1, reflectCoord_eq k2 m2]
    simp only [Option.bind_some, Option.map_some]
    have e1 := (nearestPx_eq b1 b2 r1 t1).1
    have e2 := (nearestPx_eq b3 b4 r2 t2).1
    rw [e1, e2]

/-- The program of a `nearest` node. -/
theorem C87_nearest_program {p : Nat} {hint : List (ZMod p) → Except Err (List (ZMod p))} {rc : RangeCtx} {nb : Nat}
    {x : Arr Int} (h : GridFits g x grid) (hκ : g.kappa < 64) :
    gridProgram hint rc nb "nearest" g x (.const grid.data) = liftR (gridNearest 0 g grid.data g.out (castArr p x)) := by
  unfold gridProgram gridLayer
  have e : (castArr p x).shape = [g.n, g.c, g.hIn, g.wIn] := h.xs
  rw [e]
  simp only [GridGeom.out]
  rw [if_neg (by omega), if_neg (by decide), if_pos trivial]

end

/-- **C87, ties go up.** Halfway between pixels 0 and 1 ONNX takes the even one; the layer takes pixel 1. -/
theorem C87_nearest_tie (a b : Int) :
    let g : GridGeom := ⟨1, 1, 1, 2, 1, 1, 18, .border, true⟩
    GridFits g (⟨[1, 1, 1, 2], [a, b]⟩ : Arr Int) ⟨[1, 1, 1, 2], [0, 0]⟩ ∧
    gridNearest 0 g [0, 0] g.out (⟨[1, 1, 1, 2], [a, b]⟩ : Arr Int) = .ok ⟨[1, 1, 1, 1], [b]⟩ ∧
    (samplePt g ⟨[1, 1, 1, 2], [0, 0]⟩ [0, 0, 0, 0]).2 = 1 / 2 ∧ IsRint (1 / 2) 0 ∧ ∀ i, IsRint (1 / 2) i → i = 0 := by
  refine ⟨⟨rfl, rfl, rfl, rfl, by norm_num, by norm_num⟩, ?_, ?_, ?_, ?_⟩
  · have : (nearestEntry ⟨1, 1, 1, 2, 1, 1, 18, .border, true⟩ [0, 0] 0).toOption = some (some 1) := by decide +kernel
    have e : nearestEntry ⟨1, 1, 1, 2, 1, 1, 18, .border, true⟩ [0, 0] 0 = .ok (some 1) := by
      revert this
      cases nearestEntry ⟨1, 1, 1, 2, 1, 1, 18, .border, true⟩ [0, 0] 0 with
      | error e => simp [Except.toOption]
      | ok q => simp [Except.toOption]
    unfold gridNearest
    simp only [Nat.mul_one, List.range_one, List.mapM_cons, List.mapM_nil, e]
    rfl
  · simp only [samplePt, gridPoint, elem, rowMajor, gridCoord, List.prod_cons, List.prod_nil]
    norm_num
  · constructor <;> norm_num [abs_of_pos]
  · rintro i ⟨h1, h2⟩
    obtain ⟨h3, h4⟩ := abs_le.1 h1
    have h5 : (i : ℚ) ≤ ((1 : Int) : ℚ) := by push_cast; linarith
    have h6 : ((0 : Int) : ℚ) ≤ (i : ℚ) := by push_cast; linarith
    have h5' : i ≤ 1 := by exact_mod_cast h5
    have h6' : 0 ≤ i := by exact_mod_cast h6
    rcases (by omega : i = 0 ∨ i = 1) with rfl | rfl
    · rfl
    · have := h2 (by norm_num [abs_of_neg])
      omega

/-- **C87, refusals**: `bicubic`, and a scale that does not fit 64 bits. -/
theorem C87_refuses {p : Nat} {hint : List (ZMod p) → Except Err (List (ZMod p))} (rc : RangeCtx) {κ nb : Nat}
    {mode : String} (pad : GridPad) (ac : Bool) (out : List Nat) (x : Arr (ZMod p)) (gr : GridArg p)
    (h : mode = "bicubic" ∨ 64 ≤ κ) : ∃ s, gridLayer hint rc κ nb mode pad ac out x gr = throwErr s := by
  unfold gridLayer
  split
  · dsimp only
    by_cases hk : κ ≥ 64
    · exact ⟨_, if_pos hk⟩
    · rw [if_neg hk, if_pos (h.resolve_right hk)]
      exact ⟨_, rfl⟩
  · exact ⟨_, rfl⟩

/-! ## The hypotheses are met -/

/-- A 2×2 image sampled at two points, one of them outside. -/
def gridEx : GridGeom := ⟨1, 1, 2, 2, 1, 2, 18, .border, true⟩

@[inherit_doc gridEx]
def gridExImg : Arr Int := ⟨[1, 1, 2, 2], [1000, 2000, 3000, 4000]⟩

@[inherit_doc gridEx]
def gridExPts : Arr Int := ⟨[1, 1, 2, 2], [0, 131072, 524288, -262144]⟩

theorem gridEx_fits : GridFits gridEx gridExImg gridExPts := ⟨rfl, rfl, rfl, rfl, by decide, by decide⟩

example : Sound (rangeTables bn254P ⟨0, 9⟩) (gridProgram (fun _ => .ok []) ⟨0, 9⟩ 36 "bilinear" gridEx gridExImg
    (.const gridExPts.data)) (fun y => ∃ yi, y = castArr bn254P yi ∧
      IsSampled gridEx 36 4000 (fun c => bilin (samplePix gridEx gridExImg c)
        (clampCoord gridEx.hIn (samplePt gridEx gridExPts c).1)
        (clampCoord gridEx.wIn (samplePt gridEx gridExPts c).2)) yi) :=
  C87_border (rangeTables_spec _) (by decide) (by decide) (by decide) gridEx_fits (by decide) rfl (by decide) (by decide)
    (by decide) (by decide) (by decide +kernel)

example : Complete (rangeTables bn254P ⟨0, 9⟩) (gridProgram (fun _ => .ok []) ⟨0, 9⟩ 36 "bilinear" gridEx gridExImg
    (.const gridExPts.data)) (fun y => ∃ yi, y = castArr bn254P yi ∧ yi.shape = gridEx.out) :=
  (C87_complete (rangeTables_spec _) (by decide) (by decide) gridEx_fits (by decide) (by decide)
    ⟨by decide, by decide, by decide, by decide, by decide, by decide +kernel⟩
    ⟨by decide, by decide, by decide, by decide, by decide, by decide +kernel⟩
    (by decide +kernel) (M := 4000) (by decide) (by decide) (by decide) (by decide +kernel) (by decide) (by decide)
    (.inl rfl)).conseq fun _ ⟨yi, e, hs, _⟩ => ⟨yi, e, hs⟩

/-- With a grid in the circuit, the image above is proved to be sampled as `7, 2^36 - 1`. -/
example : Forge (rangeTables bn254P ⟨0, 9⟩) (gridProgram (fun _ => .ok []) ⟨0, 9⟩ 36 "nearest" gridEx gridExImg
    (.wire (castArr bn254P gridExPts))) (fun w => w = castArr bn254P ⟨[1, 1, 1, 2], [7, 2 ^ 36 - 1]⟩) :=
  C87_dynamic_any_output (rangeTables_spec _) (by decide) gridEx_fits (by decide)
    ⟨by decide, by decide, by decide, by decide, by decide⟩ ⟨by decide, by decide, by decide, by decide, by decide⟩ _ rfl rfl (by decide)

/-- In a row of three pixels, 13/4 is mirrored to 7/4, whose nearest pixel is 2. -/
example : IsMirrored (mirrorLo false) (mirrorHi false 3) (13 / 4) (7 / 4) ∧ NoTie (clampCoord 3 (7 / 4)) ∧
    IsRint (clampCoord 3 (7 / 4)) 2 := by
  have e : clampCoord 3 (7 / 4) = 7 / 4 := by norm_num [clampCoord]
  rw [e]
  refine ⟨⟨by norm_num [mirrorLo], by norm_num [mirrorHi], 1, .inr (by norm_num [mirrorLo, mirrorHi])⟩, fun k hk => ?_, ?_, ?_⟩
  · have h : ((4 * k : Int) : ℚ) = ((5 : Int) : ℚ) := by push_cast; linarith
    have h' : 4 * k = 5 := by exact_mod_cast h
    omega
  · norm_num [abs_of_neg]
  · norm_num [abs_of_neg]

end JST.Props
