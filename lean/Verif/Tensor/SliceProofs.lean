import Verif.Tensor.LayerLemmas

/-! # Slice and Split -/

namespace JST.Layers

open JST.Shape JST.Spec

theorem lt_divCeil {n k s : Nat} (hs : 0 < s) : k < divCeil n s ↔ k * s < n := by
  unfold divCeil
  rw [Nat.lt_div_iff_mul_lt hs]
  constructor
  · intro h
    by_contra hc
    have : n + s - 1 - (s - 1) = n := by omega
    omega
  · intro h; omega

/-- The number of positions the code computes for a positive step. -/
def stepLen (s e step : Nat) : Nat := if s < e then divCeil (e - s) step else 0

theorem lt_stepLen {s e step k : Nat} (hs : 0 < step) :
    k < stepLen s e step ↔ s + k * step < e := by
  unfold stepLen
  split_ifs with h
  · rw [lt_divCeil hs]; omega
  · constructor
    · intro h'; omega
    · intro h'
      have : 0 ≤ k * step := Nat.zero_le _
      omega

theorem sliceSel_eq (dim : Nat) (start stop step : Int) (hs : 0 < step) :
    sliceSel dim start stop step
      = (List.range (stepLen (sliceBound dim start) (sliceBound dim stop) step.toNat)).map
          fun k => sliceBound dim start + k * step.toNat := by
  have hst : 0 < step.toNat := by omega
  have key : ∀ i, i ∈ sliceSel dim start stop step ↔ i ∈
      (List.range (stepLen (sliceBound dim start) (sliceBound dim stop) step.toNat)).map
          fun k => sliceBound dim start + k * step.toNat := by
    intro i
    simp only [sliceSel, List.mem_filter, List.mem_range, List.mem_map, decide_eq_true_eq,
      lt_stepLen hst]
    have hS : (sliceBound dim start : Int)
        = min (max 0 (if start < 0 then start + dim else start)) dim := by
      unfold sliceBound clampI
      split_ifs <;> omega
    have hE : (sliceBound dim stop : Int)
        = min (max 0 (if stop < 0 then stop + dim else stop)) dim := by
      unfold sliceBound clampI
      split_ifs <;> omega
    generalize sliceBound dim start = S at *
    generalize sliceBound dim stop = E at *
    generalize (if start < 0 then start + (dim : Int) else start) = s0 at *
    generalize (if stop < 0 then stop + (dim : Int) else stop) = e0 at *
    constructor
    · rintro ⟨h1, h2, h3, h4⟩
      have hSeq : (S : Int) = max 0 s0 := by omega
      rw [← hSeq] at h4 h2
      obtain ⟨q, hq⟩ := Int.dvd_of_emod_eq_zero h4
      have hq0 : 0 ≤ q := by
        by_contra hn
        have : step * q < 0 := mul_neg_of_pos_of_neg hs (by omega)
        omega
      have hi : i = S + q.toNat * step.toNat := by
        zify
        rw [Int.toNat_of_nonneg hq0, Int.toNat_of_nonneg hs.le]
        linarith [mul_comm step q]
      refine ⟨q.toNat, ?_, hi.symm⟩
      omega
    · rintro ⟨k, hk, rfl⟩
      have hk0 : 0 ≤ k * step.toNat := Nat.zero_le _
      have hSeq : (S : Int) = max 0 s0 := by omega
      refine ⟨by omega, by omega, by omega, ?_⟩
      rw [← hSeq]
      push_cast
      rw [Int.toNat_of_nonneg hs.le]
      simp
  refine List.Pairwise.eq_of_mem_iff (r := (· < ·)) ?_ ?_ key
  · exact List.Pairwise.filter _ List.pairwise_lt_range
  · rw [List.pairwise_map]
    refine List.pairwise_lt_range.imp ?_
    intro a b hab
    have : a * step.toNat < b * step.toNat := Nat.mul_lt_mul_of_pos_right hab hst
    omega

theorem normAxis_ok' (rank : Nat) (a : Int) (x : Nat) :
    normAxis rank a = .ok x ↔ AxisOf rank a x := by
  rw [normAxis_ok]
  unfold AxisOf
  omega

/-- What the shape-inference loop does. -/
theorem inferSliceLoop_ok (shape : List Nat) (starts ends steps : List Int) :
    ∀ (axes : List Int) (nax : List Nat) (k : Nat) (out : List Nat),
      List.Forall₂ (AxisOf shape.length) axes nax → nax.Nodup → out.length = shape.length →
      (∀ i, k ≤ i → i < k + axes.length → 0 < steps.getD i 1) →
      ∃ r, inferSliceLoop shape starts ends steps (axes.zipIdx k) out = .ok r ∧
        r.length = shape.length ∧
        ∀ a, r.getD a 0 = if a ∈ nax then
          stepLen (sliceBound (shape.getD a 0) (starts.getD (k + nax.idxOf a) 0))
            (sliceBound (shape.getD a 0) (ends.getD (k + nax.idxOf a) (shape.getD a 0)))
            (steps.getD (k + nax.idxOf a) 1).toNat
          else out.getD a 0
  | [], nax, k, out, hf, _, hl, _ => by
    cases hf
    exact ⟨out, rfl, hl, by simp⟩
  | ar :: axes, [], k, out, hf, _, _, _ => by cases hf
  | ar :: axes, ax :: nax, k, out, hf, hn, hl, hst => by
    cases hf with
    | cons h1 hf =>
    rw [List.nodup_cons] at hn
    have hax : ax < shape.length := h1.1
    have hstep := hst k (le_refl _) (by simp)
    obtain ⟨r, hr1, hr2, hr3⟩ := inferSliceLoop_ok shape starts ends steps axes nax (k + 1)
      (out.set ax (stepLen (sliceBound (shape.getD ax 0) (starts.getD k 0))
            (sliceBound (shape.getD ax 0) (ends.getD k (shape.getD ax 0)))
            (steps.getD k 1).toNat)) hf hn.2 (by simpa using hl)
      (fun i hi hi' => hst i (by omega) (by simp; omega))
    refine ⟨r, ?_, hr2, ?_⟩
    · rw [List.zipIdx_cons, inferSliceLoop, (normAxis_ok' _ _ _).2 h1]
      show (do
        let dim ← readAt .panic shape ax
        if steps.getD k 1 ≤ 0 then .error .invalid
        else do
          let out ← writeAt out ax
            (if sliceBound dim (starts.getD k 0) < sliceBound dim (ends.getD k dim) then
              divCeil (sliceBound dim (ends.getD k dim) - sliceBound dim (starts.getD k 0))
                (steps.getD k 1).toNat else 0)
          inferSliceLoop shape starts ends steps (axes.zipIdx (k + 1)) out) = _
      rw [readAt_getD hax 0]
      show (if steps.getD k 1 ≤ 0 then .error .invalid
        else do
          let out ← writeAt out ax (stepLen (sliceBound (shape.getD ax 0) (starts.getD k 0))
            (sliceBound (shape.getD ax 0) (ends.getD k (shape.getD ax 0)))
            (steps.getD k 1).toNat)
          inferSliceLoop shape starts ends steps (axes.zipIdx (k + 1)) out) = _
      rw [if_neg (by omega), writeAt_ok (by omega)]
      exact hr1
    · intro a
      rw [hr3 a]
      by_cases ha : a ∈ nax
      · have hne : ax ≠ a := fun h => hn.1 (h ▸ ha)
        rw [if_pos ha, if_pos (by simp [ha]), List.idxOf_cons_ne _ hne]
        have : k + 1 + nax.idxOf a = k + (nax.idxOf a + 1) := by omega
        rw [this]
      · rw [if_neg ha]
        by_cases hax' : a = ax
        · subst hax'
          rw [if_pos (by simp), List.idxOf_cons_self, List.getD_eq_getElem _ _ (by simp; omega)]
          simp
        · rw [if_neg (by simp [ha, hax'])]
          simp only [List.getD_eq_getElem?_getD]
          rw [List.getElem?_set_ne (by omega)]

theorem sliceLen_pos {s e : Nat} {step : Int} (h : 0 < step) :
    sliceLen s e step = stepLen s e step.toNat := by
  unfold sliceLen stepLen
  rw [if_pos h]

/-- What the loop over axes of the index-map construction does. -/
theorem sliceLoop_ok (shape out : List Nat) (starts ends steps : List Int)
    (hl : out.length = shape.length) :
    ∀ (axes : List Int) (nax : List Nat) (k : Nat) (acc : List (Int × Int)),
      List.Forall₂ (AxisOf shape.length) axes nax → nax.Nodup → acc.length = shape.length →
      (∀ i, k ≤ i → i < k + axes.length → 0 < steps.getD i 1) →
      (∀ a ∈ nax, out.getD a 0
          = stepLen (sliceBound (shape.getD a 0) (starts.getD (k + nax.idxOf a) 0))
            (sliceBound (shape.getD a 0) (ends.getD (k + nax.idxOf a) (shape.getD a 0)))
            (steps.getD (k + nax.idxOf a) 1).toNat) →
      ∃ r, sliceLoop shape out starts ends steps (axes.zipIdx k) acc = .ok r ∧
        r.length = shape.length ∧
        ∀ a, r.getD a (0, 1) = if a ∈ nax then
          ((sliceBound (shape.getD a 0) (starts.getD (k + nax.idxOf a) 0) : Int),
            steps.getD (k + nax.idxOf a) 1)
          else acc.getD a (0, 1)
  | [], nax, k, acc, hf, _, hla, _, _ => by
    cases hf
    exact ⟨acc, rfl, hla, by simp⟩
  | ar :: axes, [], k, acc, hf, _, _, _, _ => by cases hf
  | ar :: axes, ax :: nax, k, acc, hf, hn, hla, hst, hout => by
    cases hf with
    | cons h1 hf =>
    rw [List.nodup_cons] at hn
    have hax : ax < shape.length := h1.1
    have hstep := hst k (le_refl _) (by simp)
    have hout0 := hout ax (by simp)
    rw [List.idxOf_cons_self, Nat.add_zero] at hout0
    obtain ⟨r, hr1, hr2, hr3⟩ := sliceLoop_ok shape out starts ends steps hl axes nax (k + 1)
      (acc.set ax ((sliceBound (shape.getD ax 0) (starts.getD k 0) : Int), steps.getD k 1))
      hf hn.2 (by simpa using hla) (fun i hi hi' => hst i (by omega) (by simp; omega))
      (fun a ha => by
        have hne : ax ≠ a := fun h => hn.1 (h ▸ ha)
        have := hout a (by simp [ha])
        rw [List.idxOf_cons_ne _ hne] at this
        rw [this, show k + 1 + nax.idxOf a = k + (nax.idxOf a + 1) by omega])
    refine ⟨r, ?_, hr2, ?_⟩
    · rw [List.zipIdx_cons, sliceLoop, (normAxis_ok' _ _ _).2 h1]
      show (do
        let dim ← readAt .panic shape ax
        if steps.getD k 1 = 0 then .error .invalid
        else do
          let o ← readAt .panic out ax
          if sliceLen (sliceBound dim (starts.getD k 0)) (sliceBound dim (ends.getD k dim))
              (steps.getD k 1) ≠ o then .error .invalid
          else do
            let acc ← writeAt acc ax ((sliceBound dim (starts.getD k 0) : Int), steps.getD k 1)
            sliceLoop shape out starts ends steps (axes.zipIdx (k + 1)) acc) = _
      rw [readAt_getD hax 0]
      show (if steps.getD k 1 = 0 then .error .invalid
        else do
          let o ← readAt .panic out ax
          if sliceLen (sliceBound (shape.getD ax 0) (starts.getD k 0))
              (sliceBound (shape.getD ax 0) (ends.getD k (shape.getD ax 0)))
              (steps.getD k 1) ≠ o then .error .invalid
          else do
            let acc ← writeAt acc ax
              ((sliceBound (shape.getD ax 0) (starts.getD k 0) : Int), steps.getD k 1)
            sliceLoop shape out starts ends steps (axes.zipIdx (k + 1)) acc) = _
      rw [if_neg (by omega), readAt_getD (by omega) 0]
      show (if sliceLen (sliceBound (shape.getD ax 0) (starts.getD k 0))
              (sliceBound (shape.getD ax 0) (ends.getD k (shape.getD ax 0)))
              (steps.getD k 1) ≠ out.getD ax 0 then .error .invalid
          else do
            let acc ← writeAt acc ax
              ((sliceBound (shape.getD ax 0) (starts.getD k 0) : Int), steps.getD k 1)
            sliceLoop shape out starts ends steps (axes.zipIdx (k + 1)) acc) = _
      rw [if_neg (by rw [sliceLen_pos hstep, hout0]; simp), writeAt_ok (by omega)]
      exact hr1
    · intro a
      rw [hr3 a]
      by_cases ha : a ∈ nax
      · have hne : ax ≠ a := fun h => hn.1 (h ▸ ha)
        rw [if_pos ha, if_pos (by simp [ha]), List.idxOf_cons_ne _ hne]
        have : k + 1 + nax.idxOf a = k + (nax.idxOf a + 1) := by omega
        rw [this]
      · rw [if_neg ha]
        by_cases hax' : a = ax
        · subst hax'
          rw [if_pos (by simp), List.idxOf_cons_self, List.getD_eq_getElem _ _ (by simp; omega)]
          simp
        · rw [if_neg (by simp [ha, hax'])]
          simp only [List.getD_eq_getElem?_getD]
          rw [List.getElem?_set_ne (by omega)]

theorem getD_map_range {α : Type} (f : Nat → α) (d : α) {n i : Nat} (h : i < n) :
    ((List.range n).map f).getD i d = f i := by
  rw [List.getD_eq_getElem _ _ (by simpa using h), List.getElem_map, List.getElem_range]

/-- The index map of a selection with one start and step per axis. -/
theorem select_ok {α : Type} (e : Shape.Err) (x : Arr α) (hx : x.WF) (sel : List (List Nat))
    (hlen : sel.length = x.shape.length)
    (hsel : ∀ a, a < x.shape.length → ∀ k, k < (sel.getD a []).length →
      (sel.getD a []).getD k 0 < x.shape.getD a 0) :
    ∃ y, applyMap e ((List.range (sel.map List.length).prod).map fun f => rowMajor x.shape
        (List.zipWith (fun s k => s.getD k 0) sel (unravel f (sel.map List.length))))
        (sel.map List.length) x = .ok y ∧ IsSelect sel x y := by
  obtain ⟨y, h1, h2, h3⟩ := applyMap_ok e x hx (sel.map List.length)
    (fun c => List.zipWith (fun s k => s.getD k 0) sel c) (by
      intro c hc
      have hcl := hc.length
      rw [inRange_iff] at hc ⊢
      simp only [List.length_map] at hc hcl
      refine ⟨by simp [hlen, hcl], fun a ha => ?_⟩
      have ha' : a < sel.length := by omega
      have := hc.2 a ha'
      rw [List.getD_eq_getElem _ _ (by simp; omega), List.getElem_zipWith]
      have h4 := hsel a ha (c.getD a 0)
      rw [List.getD_eq_getElem sel _ ha', List.getD_eq_getElem c _ (by omega)] at h4
      apply h4
      rw [List.getD_eq_getElem (sel.map List.length) _ (by simpa using ha'), List.getElem_map,
        List.getD_eq_getElem c _ (by omega)] at this
      exact this)
  exact ⟨y, h1, h2, h3⟩

theorem zipWith_sel_eq (S : List (List Nat)) (c : List Nat) (n : Nat) (hS : S.length = n)
    (hc : c.length = n) : List.zipWith (fun (s : List Nat) k => s.getD k 0) S c
      = (List.range n).map fun a => (S.getD a []).getD (c.getD a 0) 0 := by
  apply List.ext_getElem
  · simp [hS, hc]
  · intro a h1 h2
    have ha : a < n := by simpa using h2
    rw [List.getElem_zipWith, List.getElem_map, List.getElem_range,
      List.getD_eq_getElem S _ (by omega), List.getD_eq_getElem c _ (by omega)]

theorem sliceSel_lt (dim : Nat) (start stop step : Int) (k : Nat)
    (h : k < (sliceSel dim start stop step).length) :
    (sliceSel dim start stop step).getD k 0 < dim := by
  rw [List.getD_eq_getElem _ _ h]
  have := List.getElem_mem h
  simp only [sliceSel, List.mem_filter, List.mem_range] at this
  exact this.1

theorem runSlice_ok {α : Type} (starts ends : List Int) (axes steps : Option (List Int))
    (x : Arr α) (hx : x.WF) (hse : starts.length = ends.length)
    (hax : ∀ a ∈ axes, a.length = starts.length) (hst : ∀ s ∈ steps, s.length = starts.length)
    (hpos : ∀ s ∈ sliceSteps starts steps, 0 < s) (nax : List Nat)
    (hn : List.Forall₂ (AxisOf x.shape.length) (sliceAxes starts axes) nax) (hnd : nax.Nodup) :
    ∃ y, runSlice starts ends axes steps x = .ok y ∧
      IsSlice starts ends (sliceSteps starts steps) nax x y := by
  have hal : (sliceAxes starts axes).length = starts.length := by
    unfold sliceAxes
    cases axes with
    | none => simp
    | some a => exact hax a rfl
  have hsl : (sliceSteps starts steps).length = starts.length := by
    unfold sliceSteps
    cases steps with
    | none => simp
    | some a => exact hst a rfl
  have hnl : nax.length = starts.length := by rw [← hn.length_eq, hal]
  have hp : ∀ i, 0 < (sliceSteps starts steps).getD i 1 := by
    intro i
    by_cases hi : i < (sliceSteps starts steps).length
    · rw [List.getD_eq_getElem _ _ hi]; exact hpos _ (List.getElem_mem hi)
    · rw [List.getD_eq_default _ _ (by omega)]; omega
  obtain ⟨out, ho1, ho2, ho3⟩ := inferSliceLoop_ok x.shape starts ends (sliceSteps starts steps)
    (sliceAxes starts axes) nax 0 x.shape hn hnd rfl (fun i _ _ => hp i)
  have hinfer : inferSlice x.shape starts ends axes steps = .ok out := by
    unfold inferSlice
    rw [if_neg (by simpa using hse), if_neg (by push Not; exact hax),
      if_neg (by push Not; exact hst)]
    exact ho1
  simp only [Nat.zero_add] at ho3
  obtain ⟨sel, hs1, hs2, hs3⟩ := sliceLoop_ok x.shape out starts ends (sliceSteps starts steps) ho2
    (sliceAxes starts axes) nax 0 (List.replicate x.shape.length (0, 1)) hn hnd (by simp)
    (fun i _ _ => hp i) (fun a ha => by rw [Nat.zero_add, ho3 a, if_pos ha])
  simp only [Nat.zero_add] at hs3
  -- the selected positions of every axis
  let S := (List.range x.shape.length).map
    (sliceAxisSel x.shape starts ends (sliceSteps starts steps) nax)
  have hSlen : S.length = x.shape.length := by simp [S]
  have hends : ∀ a ∈ nax, ends.getD (nax.idxOf a) (x.shape.getD a 0) = ends.getD (nax.idxOf a) 0 := by
    intro a ha
    have := List.idxOf_lt_length_of_mem ha
    rw [List.getD_eq_getElem _ _ (by omega), List.getD_eq_getElem _ _ (by omega)]
  have hSa : ∀ a, a < x.shape.length → S.getD a []
      = (List.range (out.getD a 0)).map fun k =>
          (sel.getD a (0, 1)).1.toNat + k * (sel.getD a (0, 1)).2.toNat := by
    intro a ha
    rw [show S.getD a [] = sliceAxisSel x.shape starts ends (sliceSteps starts steps) nax a from
      getD_map_range _ _ ha, ho3 a, hs3 a]
    unfold sliceAxisSel
    split_ifs with hm
    · rw [sliceSel_eq _ _ _ _ (hp _), hends a hm]
      simp
    · have : (List.replicate x.shape.length ((0 : Int), (1 : Int))).getD a (0, 1) = (0, 1) := by
        rw [List.getD_eq_getElem _ _ (by simpa using ha)]; simp
      rw [this]
      simp
  have hSlt : ∀ a, a < x.shape.length → ∀ k, k < (S.getD a []).length →
      (S.getD a []).getD k 0 < x.shape.getD a 0 := by
    intro a ha
    rw [show S.getD a [] = sliceAxisSel x.shape starts ends (sliceSteps starts steps) nax a from
      getD_map_range _ _ ha]
    unfold sliceAxisSel
    split_ifs with hm
    · exact fun k hk => sliceSel_lt _ _ _ _ k hk
    · intro k hk
      rw [List.length_range] at hk
      rw [List.getD_eq_getElem _ _ (by simpa using hk), List.getElem_range]
      exact hk
  have hout : out = S.map List.length := by
    apply List.ext_getElem
    · simp [hSlen, ho2]
    · intro a h1 h2
      have ha : a < x.shape.length := by omega
      rw [List.getElem_map]
      have := congrArg List.length (hSa a ha)
      rw [List.length_map, List.length_range, List.getD_eq_getElem S _ (by omega),
        List.getD_eq_getElem out _ h1] at this
      exact this.symm
  obtain ⟨y, hy1, hy2⟩ := select_ok .panic x hx S hSlen hSlt
  refine ⟨y, ?_, hy2⟩
  unfold runSlice
  rw [hinfer]
  show (do
    let map ← buildSlice x.shape out starts ends (sliceAxes starts axes) (sliceSteps starts steps)
    applyMap .panic map out x) = _
  have hbuild : buildSlice x.shape out starts ends (sliceAxes starts axes) (sliceSteps starts steps)
      = .ok ((List.range out.prod).map fun f => rowMajor x.shape
        (List.zipWith (fun s k => s.getD k 0) S (unravel f out))) := by
    unfold buildSlice
    rw [hs1]
    show (List.range out.prod).mapM _ = _
    apply mapM_ok
    intro f hf
    have hf := List.mem_range.1 hf
    have hur := unravel_inRange hf
    have hcl := hur.length
    have hic : ((List.range x.shape.length).mapM fun ax => do
        let ss ← readAt .panic sel ax
        let o ← readAt .panic (unravel f out) ax
        let dim ← readAt .panic x.shape ax
        sliceCoord dim ss o)
        = .ok (List.zipWith (fun s k => s.getD k 0) S (unravel f out)) := by
      have he := zipWith_sel_eq S (unravel f out) x.shape.length hSlen (by omega)
      rw [he]
      apply mapM_ok
      intro a ha
      have ha := List.mem_range.1 ha
      rw [readAt_getD (by omega) (0, 1), readAt_getD (by omega) 0, readAt_getD ha 0]
      show sliceCoord (x.shape.getD a 0) (sel.getD a (0, 1)) ((unravel f out).getD a 0) = _
      have hk : (unravel f out).getD a 0 < out.getD a 0 := (inRange_iff.1 hur).2 a (by omega)
      have hlt := hSlt a ha ((unravel f out).getD a 0) (by rw [hSa a ha]; simpa using hk)
      rw [hSa a ha, getD_map_range _ _ hk] at hlt ⊢
      have hnn : 0 ≤ (sel.getD a (0, 1)).1 ∧ 0 < (sel.getD a (0, 1)).2 := by
        rw [hs3 a]
        split_ifs with hm
        · exact ⟨by simp, hp _⟩
        · have : (List.replicate x.shape.length ((0 : Int), (1 : Int))).getD a (0, 1) = (0, 1) := by
            rw [List.getD_eq_getElem _ _ (by simpa using ha)]; simp
          rw [this]; simp
      generalize sel.getD a (0, 1) = ss at *
      generalize (unravel f out).getD a 0 = o at *
      have hcoord : ss.1 + (o : Int) * ss.2 = ((ss.1.toNat + o * ss.2.toNat : Nat) : Int) := by
        push_cast
        rw [Int.toNat_of_nonneg hnn.1, Int.toNat_of_nonneg hnn.2.le]
      unfold sliceCoord
      simp only [hcoord]
      rw [if_neg (by omega), Int.toNat_natCast]
    simp only [hic]
    exact ravelR_ok (by simp [hSlen, hcl, ho2])
  rw [hbuild]
  have hy1' := hy1
  rw [← hout] at hy1'
  exact hy1'

end JST.Layers
