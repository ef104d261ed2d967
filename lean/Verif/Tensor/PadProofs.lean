import Verif.Tensor.ConcatProofs

/-! # Pad -/

namespace JST.Layers

open JST.Shape JST.Spec

theorem padCoords_ok {shape begins oc : List Nat} (hb : begins.length = shape.length)
    (ho : oc.length = shape.length) : ∀ (axes : List Nat), (∀ a ∈ axes, a < shape.length) →
    padCoords shape begins oc axes = .ok
      (if ∀ a ∈ axes, begins.getD a 0 ≤ oc.getD a 0 ∧ oc.getD a 0 - begins.getD a 0 < shape.getD a 0
       then some (axes.map fun a => oc.getD a 0 - begins.getD a 0) else none)
  | [], _ => by simp [padCoords]
  | a :: axes, h => by
    have ha := h a (by simp)
    have ih := padCoords_ok hb ho axes (fun b hb => h b (by simp [hb]))
    simp only [padCoords]
    rw [readAt_getD (by omega) 0, readAt_getD (by omega) 0, readAt_getD (by omega) 0]
    show (if oc.getD a 0 < begins.getD a 0 then _ else _) = _
    by_cases h1 : oc.getD a 0 < begins.getD a 0
    · rw [if_pos h1, if_neg]
      intro hall
      have := (hall a (by simp)).1
      omega
    · rw [if_neg h1]
      by_cases h2 : oc.getD a 0 - begins.getD a 0 < shape.getD a 0
      · rw [if_pos h2, ih]
        show Except.ok (Option.map _ _) = _
        congr 1
        by_cases h3 : ∀ a ∈ axes, begins.getD a 0 ≤ oc.getD a 0 ∧
            oc.getD a 0 - begins.getD a 0 < shape.getD a 0
        · rw [if_pos h3, if_pos]
          · rfl
          · intro b hb
            rcases List.mem_cons.1 hb with rfl | hb
            · exact ⟨by omega, h2⟩
            · exact h3 b hb
        · rw [if_neg h3, if_neg]
          · rfl
          · intro hall
            exact h3 fun b hb => hall b (by simp [hb])
      · rw [if_neg h2, if_neg]
        intro hall
        exact h2 (hall a (by simp)).2

/-- The data position a padded position shows, if any. -/
def padSrc (shape begins c : List Nat) : Option (List Nat) :=
  if ∀ a ∈ List.range shape.length, begins.getD a 0 ≤ c.getD a 0 ∧
      c.getD a 0 - begins.getD a 0 < shape.getD a 0 then
    some ((List.range shape.length).map fun a => c.getD a 0 - begins.getD a 0)
  else none

theorem padSrc_some {shape begins c d : List Nat} (hb : begins.length = shape.length)
    (hc : c.length = shape.length) :
    padSrc shape begins c = some d ↔ InRange shape d ∧ c = List.zipWith (· + ·) begins d := by
  unfold padSrc
  constructor
  · intro h
    split_ifs at h with hall
    simp only [Option.some.injEq] at h
    subst h
    refine ⟨inRange_iff.2 ⟨by simp, fun i hi => ?_⟩, ?_⟩
    · rw [getD_map_range _ _ hi]
      exact (hall i (List.mem_range.2 hi)).2
    · apply List.ext_getElem
      · simp [hb, hc]
      · intro i h1 h2
        have := (hall i (List.mem_range.2 (by omega))).1
        rw [List.getD_eq_getElem _ _ (by omega), List.getD_eq_getElem _ _ h1] at this
        simp only [List.getElem_zipWith, List.getElem_map, List.getElem_range]
        rw [List.getD_eq_getElem c _ h1, List.getD_eq_getElem begins _ (by omega)]
        omega
  · rintro ⟨hd, rfl⟩
    obtain ⟨hl, hlt⟩ := inRange_iff.1 hd
    have hz : ∀ a, a < shape.length → (List.zipWith (· + ·) begins d).getD a 0
        = begins.getD a 0 + d.getD a 0 := by
      intro a ha
      rw [List.getD_eq_getElem _ _ (by simp; omega), List.getElem_zipWith,
        List.getD_eq_getElem _ _ (by omega), List.getD_eq_getElem _ _ (by omega)]
    rw [if_pos]
    · congr 1
      apply List.ext_getElem
      · simp [hl]
      · intro i h1 h2
        have hi : i < shape.length := by simpa using h1
        rw [List.getElem_map, List.getElem_range, hz i hi, List.getD_eq_getElem d _ (by omega)]
        omega
    · intro a ha
      rw [List.mem_range] at ha
      rw [hz a ha]
      have := hlt a ha
      omega

theorem padMap_ok {shape out begins : List Nat} (hb : begins.length = shape.length)
    (ho : out.length = shape.length) :
    padMap shape out begins = .ok ((List.range out.prod).map fun f =>
      (padSrc shape begins (unravel f out)).map (rowMajor shape)) := by
  unfold padMap
  apply mapM_ok
  intro f _
  have hl : (unravel f out).length = shape.length := by rw [unravel_length, ho]
  rw [padCoords_ok hb hl _ (fun a ha => List.mem_range.1 ha)]
  show (match padSrc shape begins (unravel f out) with
    | none => (.ok none : R (Option Nat))
    | some ic => do
      let i ← ravelR ic shape
      .ok (some i)) = _
  cases hp : padSrc shape begins (unravel f out) with
  | none => rfl
  | some ic =>
    have := ((padSrc_some hb hl).1 hp).1.length
    simp only
    rw [ravelR_ok this]
    rfl

/-- The map applied to data. -/
theorem applyPad_ok {F : Type} [Zero F] {x : Arr F} (hx : x.WF) {begins ends : List Nat}
    (hb : begins.length = x.shape.length) (he : ends.length = x.shape.length) :
    ∃ map y, padMap x.shape (List.zipWith (· + ·) (List.zipWith (· + ·) begins x.shape) ends) begins
        = .ok map ∧
      applyPad map (List.zipWith (· + ·) (List.zipWith (· + ·) begins x.shape) ends) x = .ok y ∧
      IsZeroPad begins ends x y := by
  generalize hout : List.zipWith (· + ·) (List.zipWith (· + ·) begins x.shape) ends = out
  have hol : out.length = x.shape.length := by rw [← hout]; simp [hb, he]
  refine ⟨_, ⟨out, (List.range out.prod).map fun f =>
    ((padSrc x.shape begins (unravel f out)).map fun ic =>
      x.data.getD (rowMajor x.shape ic) 0).getD 0⟩, padMap_ok hb hol, ?_, ?_, hout.symm, ?_, ?_⟩
  · unfold applyPad
    have hm : ((List.range out.prod).map fun f =>
        (padSrc x.shape begins (unravel f out)).map (rowMajor x.shape)).mapM
        (padCell x.data) = .ok ((List.range out.prod).map fun f =>
        ((padSrc x.shape begins (unravel f out)).map fun ic =>
          x.data.getD (rowMajor x.shape ic) 0).getD 0) := by
      rw [mapM_ok (g := fun m : Option Nat => (m.map fun i => x.data.getD i 0).getD 0)]
      · rw [List.map_map]
        congr 1
        apply List.map_congr_left
        intro f _
        simp only [Function.comp]
        cases padSrc x.shape begins (unravel f out) <;> rfl
      · intro m hm
        obtain ⟨f, _, rfl⟩ := List.mem_map.1 hm
        cases hp : padSrc x.shape begins (unravel f out) with
        | none => rfl
        | some ic =>
          have h1 := rowMajor_lt ((padSrc_some hb (by rw [unravel_length, hol])).1 hp).1
          simp only [Option.map_some, Option.getD_some]
          exact readAt_getD (by rw [show x.data.length = x.shape.prod from hx]; exact h1) 0
    rw [hm]
    exact fromShapeVec_ok (by simp)
  · simp [Arr.WF]
  · intro c hc
    have hcl := hc.length
    have hin : InRange out (List.zipWith (· + ·) begins c) := by
      rw [inRange_iff]
      refine ⟨by simp [hb, hcl, hol], fun i hi => ?_⟩
      have := (inRange_iff.1 hc).2 i (by omega)
      rw [← hout, List.getD_eq_getElem _ _ (by simp; omega), List.getElem_zipWith,
        List.getD_eq_getElem _ _ (by simp; omega), List.getElem_zipWith, List.getElem_zipWith]
      rw [List.getD_eq_getElem _ _ (by omega), List.getD_eq_getElem _ _ (by omega)] at this
      omega
    refine ⟨hin, ?_⟩
    rw [elem_tabulate _ _ _ hin, unravel_rowMajor hin, (padSrc_some hb (by simp [hb, hcl])).2 ⟨hc, rfl⟩]
    exact (elem_getD hx hc 0).symm
  · intro c hc hn
    have hp : padSrc x.shape begins c = none := by
      cases hp : padSrc x.shape begins c with
      | none => rfl
      | some d => exact absurd ⟨d, (padSrc_some hb (by rw [hc.length]; exact hol)).1 hp⟩ hn
    rw [elem_tabulate _ _ _ hc, unravel_rowMajor hc, hp]
    rfl

theorem inferPad_ok {shape begins ends : List Nat} (hb : begins.length = shape.length)
    (he : ends.length = shape.length) :
    inferPad shape ((begins ++ ends).map Int.ofNat) = .ok
      (List.zipWith (· + ·) (List.zipWith (· + ·) begins shape) ends) := by
  unfold inferPad
  rw [if_neg (by simp; omega), mapM_ok (g := fun i =>
    begins.getD i 0 + shape.getD i 0 + ends.getD i 0)]
  · congr 1
    apply List.ext_getElem
    · simp [hb, he]
    · intro i h1 h2
      have hi : i < shape.length := by simpa using h1
      simp only [List.getElem_map, List.getElem_range, List.getElem_zipWith]
      rw [List.getD_eq_getElem _ _ (by omega), List.getD_eq_getElem _ _ hi,
        List.getD_eq_getElem _ _ (by omega)]
  · intro i hi
    rw [List.mem_range] at hi
    unfold padDim
    rw [readAt_ok (x := ((begins.getD i 0 : Nat) : Int)) (by
        rw [List.getElem?_map, List.getElem?_append_left (by omega),
          List.getElem?_eq_getElem (by omega), List.getD_eq_getElem _ _ (by omega)]; rfl),
      readAt_ok (x := ((ends.getD i 0 : Nat) : Int)) (by
        rw [List.getElem?_map, List.getElem?_append_right (by omega), hb, Nat.add_sub_cancel_left,
          List.getElem?_eq_getElem (by omega), List.getD_eq_getElem _ _ (by omega)]; rfl)]
    show (if ((begins.getD i 0 : Nat) : Int) < 0 ∨ ((ends.getD i 0 : Nat) : Int) < 0 then
      (.error .invalid : R Nat) else do
        let d ← readAt .panic shape i
        .ok (d + ((begins.getD i 0 : Nat) : Int).toNat + ((ends.getD i 0 : Nat) : Int).toNat)) = _
    rw [if_neg (by omega), readAt_getD hi 0, Int.toNat_natCast, Int.toNat_natCast]
    show Except.ok _ = Except.ok _
    congr 1
    omega

/-- What Pad does with its fill value: refused when it is known and not zero. -/
def fillRefused (fill : Option PadValue) : Prop := ∃ f ∈ fill, f.found ∧ f.value ≠ 0

theorem buildPad_eq {shape out begins ends : List Nat} {fill : Option PadValue}
    (hb : begins.length = shape.length) (he : ends.length = shape.length)
    (hf : ¬ fillRefused fill) :
    buildPad shape out true ((begins ++ ends).map Int.ofNat) fill = padMap shape out begins := by
  unfold buildPad
  rw [if_neg (by simp), if_neg (by simp; omega), if_neg (by
    unfold fillRefused at hf
    simpa using hf), if_neg (by simp)]
  congr 1
  rw [List.map_append, List.take_append_of_le_length (by simp; omega), List.take_of_length_le (by
    simp; omega), List.map_map]
  refine Eq.trans (List.map_congr_left fun a _ => ?_) (List.map_id _)
  simp

theorem runPad_ok {F : Type} [Zero F] {x : Arr F} (hx : x.WF) {begins ends : List Nat}
    {fill : Option PadValue} (hb : begins.length = x.shape.length)
    (he : ends.length = x.shape.length) (hf : ¬ fillRefused fill) :
    ∃ y, runPad true ((begins ++ ends).map Int.ofNat) fill x = .ok y ∧ IsZeroPad begins ends x y := by
  obtain ⟨map, y, h1, h2, h3⟩ := applyPad_ok hx hb he
  refine ⟨y, ?_, h3⟩
  unfold runPad
  rw [inferPad_ok hb he]
  show (do
    let map ← buildPad x.shape (List.zipWith (· + ·) (List.zipWith (· + ·) begins x.shape) ends) true
      ((begins ++ ends).map Int.ofNat) fill
    applyPad map (List.zipWith (· + ·) (List.zipWith (· + ·) begins x.shape) ends) x) = _
  rw [buildPad_eq hb he hf, h1]
  exact h2

theorem padDim_eq {shape : List Nat} {pads : List Int} (hl : pads.length = 2 * shape.length) {i : Nat}
    (hi : i < shape.length) : padDim shape pads i =
      if pads.getD i 0 < 0 ∨ pads.getD (shape.length + i) 0 < 0 then .error .invalid
      else .ok (shape.getD i 0 + (pads.getD i 0).toNat + (pads.getD (shape.length + i) 0).toNat) := by
  unfold padDim
  rw [readAt_getD (by omega) 0, readAt_getD (by omega) 0, readAt_getD hi 0]
  rfl

/-- Everything else is refused. -/
theorem runPad_error {F : Type} [Zero F] {constantMode : Bool} {pads : List Int}
    {fill : Option PadValue} {x : Arr F}
    (h : ¬ (constantMode = true ∧ pads.length = 2 * x.shape.length ∧ (∀ p ∈ pads, 0 ≤ p) ∧
      ¬ fillRefused fill)) : runPad constantMode pads fill x = .error .invalid := by
  unfold runPad
  by_cases hl : pads.length = 2 * x.shape.length
  swap
  · unfold inferPad
    rw [if_pos hl]
    rfl
  by_cases hp : ∀ p ∈ pads, 0 ≤ p
  · -- shape inference succeeds; `build` refuses
    have hinf : ∃ out, inferPad x.shape pads = .ok out := by
      refine ⟨(List.range x.shape.length).map fun i =>
        x.shape.getD i 0 + (pads.getD i 0).toNat + (pads.getD (x.shape.length + i) 0).toNat, ?_⟩
      unfold inferPad
      rw [if_neg (by simpa using hl)]
      apply mapM_ok
      intro i hi
      rw [List.mem_range] at hi
      have p1 : 0 ≤ pads.getD i 0 := by
        rw [List.getD_eq_getElem _ _ (by omega)]; exact hp _ (List.getElem_mem _)
      have p2 : 0 ≤ pads.getD (x.shape.length + i) 0 := by
        rw [List.getD_eq_getElem _ _ (by omega)]; exact hp _ (List.getElem_mem _)
      rw [padDim_eq hl hi, if_neg (by omega)]
    obtain ⟨out, ho⟩ := hinf
    rw [ho]
    show (do
      let map ← buildPad x.shape out constantMode pads fill
      applyPad map out x) = _
    unfold buildPad
    by_cases hc : constantMode = true
    · rw [if_neg (by simp [hc]), if_neg (by simpa using hl)]
      have hr : fillRefused fill := by
        by_contra hr
        exact h ⟨hc, hl, hp, hr⟩
      rw [if_pos (by unfold fillRefused at hr; simpa using hr)]
      rfl
    · rw [if_pos hc]; rfl
  · -- a negative pad is refused by shape inference
    push Not at hp
    obtain ⟨p, hpm, hp0⟩ := hp
    obtain ⟨j, hj, rfl⟩ := List.mem_iff_getElem.1 hpm
    unfold inferPad
    rw [if_neg (by simpa using hl)]
    have hrow : ∀ i, i < x.shape.length → ∀ e, padDim x.shape pads i = .error e → e = .invalid := by
      intro i hi e he
      rw [padDim_eq hl hi] at he
      split_ifs at he
      cases he; rfl
    have hfail : ∃ i, i < x.shape.length ∧ padDim x.shape pads i = .error .invalid := by
      by_cases hjl : j < x.shape.length
      · refine ⟨j, hjl, ?_⟩
        rw [padDim_eq hl hjl, if_pos (.inl (by rw [List.getD_eq_getElem _ _ hj]; exact hp0))]
      · refine ⟨j - x.shape.length, by omega, ?_⟩
        rw [padDim_eq hl (by omega), if_pos (.inr (by
          rw [show x.shape.length + (j - x.shape.length) = j by omega, List.getD_eq_getElem _ _ hj]
          exact hp0))]
    obtain ⟨i, hi, hfi⟩ := hfail
    obtain ⟨e, he⟩ := mapM_fails (List.mem_range.2 hi) hfi
    obtain ⟨i', hi', he'⟩ := mapM_err he
    have := hrow i' (List.mem_range.1 hi') e he'
    subst this
    rw [he]
    rfl

end JST.Layers
