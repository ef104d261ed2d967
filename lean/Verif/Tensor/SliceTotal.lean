import Verif.Tensor.SliceProofs
import Verif.Tensor.LayerNoPanic

/-! # Slice never panics, and refuses bad attributes -/

namespace JST.Layers

open JST.Shape JST.Spec

theorem inferSliceLoop_inv (shape : List Nat) (starts ends steps : List Int) :
    ∀ (axes : List Int) (k : Nat) (out : List Nat), out.length = shape.length →
      NoPanic (inferSliceLoop shape starts ends steps (axes.zipIdx k) out) ∧
      ∀ r, inferSliceLoop shape starts ends steps (axes.zipIdx k) out = .ok r →
        r.length = shape.length ∧ (∃ nax, List.Forall₂ (AxisOf shape.length) axes nax) ∧
        ∀ i, k ≤ i → i < k + axes.length → 0 < steps.getD i 1
  | [], k, out, hl => by
    refine ⟨.ok _, fun r hr => ?_⟩
    cases hr
    exact ⟨hl, ⟨[], .nil⟩, fun i h1 h2 => by simp at h2; omega⟩
  | ar :: axes, k, out, hl => by
    rw [List.zipIdx_cons, inferSliceLoop]
    constructor
    · refine .bind (.normAxis _ _) fun ax hax => ?_
      have hax' := ((normAxis_ok' _ _ _).1 hax).1
      refine .bind (.readAt _ hax') fun dim _ => ?_
      refine .ite (fun _ => .invalid) fun _ => ?_
      refine .bind (.writeAt _ (by omega)) fun o ho => ?_
      rw [writeAt_ok_iff] at ho
      exact (inferSliceLoop_inv shape starts ends steps axes (k + 1) o
        (by rw [ho.2, List.length_set]; exact hl)).1
    · intro r hr
      obtain ⟨ax, hax, hr⟩ := bind_eq_ok hr
      obtain ⟨dim, _, hr⟩ := bind_eq_ok hr
      dsimp only at hr
      by_cases hs : steps.getD k 1 ≤ 0
      · rw [if_pos hs] at hr; cases hr
      rw [if_neg hs] at hr
      obtain ⟨o, ho, hr⟩ := bind_eq_ok hr
      rw [writeAt_ok_iff] at ho
      obtain ⟨h1, ⟨nax, h2⟩, h3⟩ := (inferSliceLoop_inv shape starts ends steps axes (k + 1) o
        (by rw [ho.2, List.length_set]; exact hl)).2 r hr
      refine ⟨h1, ⟨ax :: nax, .cons ((normAxis_ok' _ _ _).1 hax) h2⟩, fun i hi hi' => ?_⟩
      by_cases hik : i = k
      · subst hik; omega
      · exact h3 i (by omega) (by simp at hi'; omega)

theorem sliceLoop_inv (shape out : List Nat) (starts ends steps : List Int)
    (ho : out.length = shape.length) :
    ∀ (axes : List Int) (k : Nat) (acc : List (Int × Int)), acc.length = shape.length →
      NoPanic (sliceLoop shape out starts ends steps (axes.zipIdx k) acc) ∧
      ∀ r, sliceLoop shape out starts ends steps (axes.zipIdx k) acc = .ok r →
        r.length = shape.length
  | [], k, acc, hl => ⟨.ok _, fun r hr => by cases hr; exact hl⟩
  | ar :: axes, k, acc, hl => by
    rw [List.zipIdx_cons, sliceLoop]
    constructor
    · refine .bind (.normAxis _ _) fun ax hax => ?_
      have hax' := ((normAxis_ok' _ _ _).1 hax).1
      refine .bind (.readAt _ hax') fun dim _ => ?_
      refine .ite (fun _ => .invalid) fun _ => ?_
      refine .bind (.readAt _ (by omega)) fun o _ => ?_
      refine .ite (fun _ => .invalid) fun _ => ?_
      refine .bind (.writeAt _ (by omega)) fun a ha => ?_
      rw [writeAt_ok_iff] at ha
      exact (sliceLoop_inv shape out starts ends steps ho axes (k + 1) a
        (by rw [ha.2, List.length_set]; exact hl)).1
    · intro r hr
      obtain ⟨ax, hax, hr⟩ := bind_eq_ok hr
      obtain ⟨dim, _, hr⟩ := bind_eq_ok hr
      dsimp only at hr
      split_ifs at hr with hs
      obtain ⟨o, _, hr⟩ := bind_eq_ok hr
      split_ifs at hr with hs
      obtain ⟨a, ha, hr⟩ := bind_eq_ok hr
      rw [writeAt_ok_iff] at ha
      exact (sliceLoop_inv shape out starts ends steps ho axes (k + 1) a
        (by rw [ha.2, List.length_set]; exact hl)).2 r hr

theorem sliceCoord_lt {dim o i : Nat} {ss : Int × Int} (h : sliceCoord dim ss o = .ok i) :
    i < dim := by
  unfold sliceCoord at h
  dsimp only at h
  split_ifs at h with hc
  cases h
  omega

theorem NoPanic.sliceCoord (dim o : Nat) (ss : Int × Int) : NoPanic (sliceCoord dim ss o) :=
  .ite (fun _ => .invalid) (fun _ => .ok _)

theorem runSlice_noPanic {α : Type} (starts ends : List Int) (axes steps : Option (List Int))
    (x : Arr α) (hx : x.WF) : NoPanic (runSlice starts ends axes steps x) := by
  have hout : ∀ out, inferSlice x.shape starts ends axes steps = .ok out →
      out.length = x.shape.length := by
    intro out h
    unfold inferSlice at h
    split_ifs at h
    exact ((inferSliceLoop_inv x.shape starts ends _ _ 0 x.shape rfl).2 out h).1
  refine .bind ?_ fun out ho => ?_
  · unfold inferSlice
    refine .ite (fun _ => .invalid) fun _ => .ite (fun _ => .invalid) fun _ =>
      .ite (fun _ => .invalid) fun _ => ?_
    exact (inferSliceLoop_inv x.shape starts ends _ _ 0 x.shape rfl).1
  · have hol := hout out ho
    have hcoords : ∀ (sel : List (Int × Int)) (f : Nat), sel.length = x.shape.length →
        NoPanic ((List.range x.shape.length).mapM fun ax => do
          let ss ← readAt .panic sel ax
          let o ← readAt .panic (unravel f out) ax
          let dim ← readAt .panic x.shape ax
          sliceCoord dim ss o) := by
      intro sel f hsel
      refine .mapM fun a ha => ?_
      have ha := List.mem_range.1 ha
      refine .bind (.readAt _ (by omega)) fun _ _ => .bind (.readAt _ (by
        rw [unravel_length]; omega)) fun _ _ => .bind (.readAt _ ha) fun _ _ => .sliceCoord _ _ _
    refine .bind ?_ fun map hmap => ?_
    · unfold buildSlice
      refine .bind (sliceLoop_inv x.shape out starts ends _ hol _ 0 _ (by simp)).1 fun sel hsel => ?_
      have hsl := (sliceLoop_inv x.shape out starts ends _ hol _ 0 _ (by simp)).2 sel hsel
      refine .mapM fun f _ => ?_
      refine .bind (hcoords sel f hsl) fun ic hic => .ravelR ?_
      rw [mapM_ok_length hic]; simp
    · refine .applyMap _ _ fun i hi => ?_
      unfold buildSlice at hmap
      obtain ⟨sel, hsel, hmap⟩ := bind_eq_ok hmap
      have hsl := (sliceLoop_inv x.shape out starts ends _ hol _ 0 _ (by simp)).2 sel hsel
      obtain ⟨f, _, hf⟩ := mapM_ok_mem hmap hi
      obtain ⟨ic, hic, hf⟩ := bind_eq_ok hf
      have hicl := mapM_ok_length hic
      rw [List.length_range] at hicl
      rw [ravelR_ok_iff hicl] at hf
      rw [hf, show x.data.length = x.shape.prod from hx]
      apply rowMajor_lt
      rw [inRange_iff]
      refine ⟨hicl, fun a ha => ?_⟩
      have h1 := mapM_ok_getElem hic a (by simpa using ha) (by omega)
      obtain ⟨ss, _, h1⟩ := bind_eq_ok h1
      obtain ⟨o, _, h1⟩ := bind_eq_ok h1
      obtain ⟨dim, hd, h1⟩ := bind_eq_ok h1
      rw [List.getElem_range, readAt_getD ha 0] at hd
      cases hd
      rw [List.getD_eq_getElem ic _ (by omega)]
      exact sliceCoord_lt h1

/-- A slice that is accepted had attributes of matching lengths, axes in range and positive steps. -/
theorem runSlice_valid {α : Type} (starts ends : List Int) (axes steps : Option (List Int))
    (x y : Arr α) (h : runSlice starts ends axes steps x = .ok y) :
    starts.length = ends.length ∧ (∀ a ∈ axes, a.length = starts.length) ∧
    (∀ s ∈ steps, s.length = starts.length) ∧ (∀ s ∈ sliceSteps starts steps, 0 < s) ∧
    ∃ nax, List.Forall₂ (AxisOf x.shape.length) (sliceAxes starts axes) nax := by
  unfold runSlice at h
  obtain ⟨out, ho, h⟩ := bind_eq_ok h
  unfold inferSlice at ho
  split_ifs at ho with h1 h2 h3
  push Not at h1 h2 h3
  have hal : (sliceAxes starts axes).length = starts.length := by
    unfold sliceAxes
    cases axes with
    | none => simp
    | some a => exact h2 a rfl
  have hsl : (sliceSteps starts steps).length = starts.length := by
    unfold sliceSteps
    cases steps with
    | none => simp
    | some a => exact h3 a rfl
  obtain ⟨_, hn, hs⟩ := (inferSliceLoop_inv x.shape starts ends _ _ 0 x.shape rfl).2 out ho
  refine ⟨h1, h2, h3, fun s hs' => ?_, hn⟩
  obtain ⟨i, hi, rfl⟩ := List.mem_iff_getElem.1 hs'
  have := hs i (by omega) (by omega)
  rwa [List.getD_eq_getElem _ _ hi] at this

end JST.Layers
