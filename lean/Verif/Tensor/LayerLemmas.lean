import Verif.Tensor.Layers
import Verif.Tensor.ShapeProofs
import Verif.Spec.Layers

/-! # Facts shared by the layer proofs -/

namespace JST.Layers

open JST.Shape JST.Spec

theorem mapM_ok {ε α β : Type} {f : α → Except ε β} {g : α → β} : ∀ {l : List α},
    (∀ x ∈ l, f x = .ok (g x)) → l.mapM f = .ok (l.map g)
  | [], _ => rfl
  | x :: l, h => by
    rw [List.mapM_cons, h x (by simp), mapM_ok (fun y hy => h y (by simp [hy]))]
    rfl

theorem mapM_ok_iff {ε α β : Type} {f : α → Except ε β} : ∀ {l : List α} {r : List β},
    l.mapM f = .ok r ↔ List.Forall₂ (fun x y => f x = .ok y) l r
  | [], r => by
    rw [List.mapM_nil, List.forall₂_nil_left_iff]
    constructor
    · intro h; cases h; rfl
    · rintro rfl; rfl
  | x :: l, r => by
    rw [List.mapM_cons]
    cases hx : f x with
    | error e =>
      constructor
      · intro h; cases h
      · intro h
        cases h with
        | cons h1 _ => rw [hx] at h1; cases h1
    | ok y =>
      cases hl : l.mapM f with
      | error e =>
        constructor
        · intro h; cases h
        · intro h
          cases h with
          | cons h1 h2 => rw [mapM_ok_iff.2 h2] at hl; cases hl
      | ok ys =>
        constructor
        · intro h; cases h; exact .cons hx (mapM_ok_iff.1 hl)
        · intro h
          cases h with
          | cons h1 h2 =>
            rw [hx] at h1; cases h1
            rw [mapM_ok_iff.2 h2] at hl; cases hl
            rfl

/-- A failing `mapM` fails with the error of one of the calls. -/
theorem mapM_err {ε α β : Type} {f : α → Except ε β} : ∀ {l : List α} {e : ε},
    l.mapM f = .error e → ∃ x ∈ l, f x = .error e
  | [], e, h => by cases h
  | x :: l, e, h => by
    rw [List.mapM_cons] at h
    cases hx : f x with
    | error e' =>
      rw [hx] at h; cases h
      exact ⟨x, by simp, hx⟩
    | ok y =>
      rw [hx] at h
      cases hl : l.mapM f with
      | error e' =>
        rw [hl] at h; cases h
        obtain ⟨z, hz, hz'⟩ := mapM_err hl
        exact ⟨z, by simp [hz], hz'⟩
      | ok ys => rw [hl] at h; cases h

/-- A call that fails makes the whole `mapM` fail. -/
theorem mapM_fails {ε α β : Type} {f : α → Except ε β} {l : List α} {x : α} {e : ε} (hx : x ∈ l)
    (h : f x = .error e) : ∃ e', l.mapM f = .error e' := by
  cases hm : l.mapM f with
  | error e' => exact ⟨e', rfl⟩
  | ok r =>
    exfalso
    have := mapM_ok_iff.1 hm
    clear hm
    induction this with
    | nil => cases hx
    | cons h1 _ ih =>
      rcases List.mem_cons.1 hx with rfl | hx
      · rw [h] at h1; cases h1
      · exact ih hx

theorem readAt_ok {α : Type} {e : Shape.Err} {v : List α} {i : Nat} {x : α}
    (h : v[i]? = some x) : readAt e v i = .ok x := by
  simp [readAt, h]

theorem readAt_ok_iff {α : Type} {e : Shape.Err} {v : List α} {i : Nat} {x : α} :
    readAt e v i = .ok x ↔ v[i]? = some x := by
  unfold readAt
  cases v[i]? <;> simp

theorem readAt_getD {α : Type} {e : Shape.Err} {v : List α} {i : Nat} (h : i < v.length) (d : α) :
    readAt e v i = .ok (v.getD i d) := by
  apply readAt_ok
  rw [List.getD_eq_getElem _ _ h, List.getElem?_eq_getElem h]

theorem writeAt_ok {α : Type} {v : List α} {i : Nat} {x : α} (h : i < v.length) :
    writeAt v i x = .ok (v.set i x) := by
  simp [writeAt, h]

theorem ravelR_ok {c s : List Nat} (h : c.length = s.length) :
    ravelR c s = .ok (rowMajor s c) := by
  simp [ravelR, ravel_eq h]

theorem fromShapeVec_ok {α : Type} {s : List Nat} {d : List α} (h : d.length = s.prod) :
    fromShapeVec s d = .ok ⟨s, d⟩ := by
  simp [fromShapeVec, h]

theorem unravel_length (flat : Nat) : ∀ (s : List Nat), (unravel flat s).length = s.length := by
  intro s
  unfold unravel
  induction s with
  | nil => rfl
  | cons d s ih =>
    simp only [unravelAux]
    split <;> simp [ih]

theorem inRange_iff {s c : List Nat} : InRange s c ↔ c.length = s.length ∧
    ∀ i, i < s.length → c.getD i 0 < s.getD i 0 := by
  unfold InRange
  rw [List.forall₂_iff_get]
  constructor
  · rintro ⟨h1, h2⟩
    refine ⟨h1, fun i hi => ?_⟩
    rw [List.getD_eq_getElem _ _ (by omega), List.getD_eq_getElem _ _ hi]
    exact h2 i (by omega) hi
  · rintro ⟨h1, h2⟩
    refine ⟨h1, fun i hi hi' => ?_⟩
    have := h2 i hi'
    rw [List.getD_eq_getElem _ _ (by omega), List.getD_eq_getElem _ _ hi'] at this
    exact this

/-- Reading through a precomputed index map. -/
theorem applyMap_ok {α : Type} (e : Shape.Err) (x : Arr α) (hx : x.WF) (out : List Nat)
    (src : List Nat → List Nat) (hsrc : ∀ c, InRange out c → InRange x.shape (src c)) :
    ∃ y, applyMap e ((List.range out.prod).map fun f => rowMajor x.shape (src (unravel f out))) out x
        = .ok y ∧ y.shape = out ∧ Reads x y src := by
  by_cases hz : out.prod = 0
  · refine ⟨⟨out, []⟩, ?_, rfl, ?_, ?_⟩
    · rw [hz]
      simp only [List.range_zero, List.map_nil, applyMap, List.mapM_nil]
      exact fromShapeVec_ok (by simp [hz])
    · simp [Arr.WF, hz]
    · intro c hc
      have := rowMajor_lt hc
      simp only at this
      omega
  · have hpos : 0 < out.prod := Nat.pos_of_ne_zero hz
    have hlt : ∀ f, f < out.prod → rowMajor x.shape (src (unravel f out)) < x.data.length := by
      intro f hf
      rw [show x.data.length = x.shape.prod from hx]
      exact rowMajor_lt (hsrc _ (unravel_inRange hf))
    let d : α := x.data[rowMajor x.shape (src (unravel 0 out))]'(hlt 0 hpos)
    have hm : ((List.range out.prod).map fun f => rowMajor x.shape (src (unravel f out))).mapM
        (readAt e x.data) = .ok (((List.range out.prod).map fun f =>
          rowMajor x.shape (src (unravel f out))).map fun i => x.data.getD i d) := by
      apply mapM_ok
      intro i hi
      obtain ⟨f, hf, rfl⟩ := List.mem_map.1 hi
      exact readAt_getD (hlt f (List.mem_range.1 hf)) d
    refine ⟨⟨out, ((List.range out.prod).map fun f =>
          rowMajor x.shape (src (unravel f out))).map fun i => x.data.getD i d⟩, ?_, rfl, ?_, ?_⟩
    · unfold applyMap
      rw [hm]
      exact fromShapeVec_ok (by simp)
    · simp [Arr.WF]
    · intro c hc
      refine ⟨hsrc c hc, ?_⟩
      rw [List.map_map]
      refine (elem_tabulate out _ c hc).trans ?_
      simp only [Function.comp]
      rw [unravel_rowMajor hc]
      unfold elem
      have := rowMajor_lt (hsrc c hc)
      rw [List.getD_eq_getElem _ _ (by rw [show x.data.length = x.shape.prod from hx]; exact this),
        List.getElem?_eq_getElem]

end JST.Layers
