import Verif.Tensor.LayerLemmas
import Mathlib.Data.List.Nodup
import Mathlib.Data.List.Perm.Lattice

/-! # Transpose -/

namespace JST.Layers

open JST.Shape JST.Spec

theorem permEntry_ok (rank : Nat) (a : Int) (x : Nat) :
    permEntry rank a = .ok x ↔ AxisOf rank a x := by
  unfold permEntry AxisOf
  dsimp only
  split_ifs with h1 h2 h2 <;> first
    | (constructor
       · intro h; cases h
       · rintro ⟨h3, h4 | h4⟩ <;> omega)
    | (simp only [Except.ok.injEq]
       constructor <;> intro h <;> omega)

theorem permEntry_error (rank : Nat) (a : Int) (e : Shape.Err) (h : permEntry rank a = .error e) :
    e = .invalid := by
  unfold permEntry at h
  dsimp only at h
  split_ifs at h <;> cases h <;> rfl

theorem perm_range_iff {rank : Nat} {perm : List Nat} :
    perm.Perm (List.range rank) ↔ perm.length = rank ∧ perm.Nodup ∧ ∀ p ∈ perm, p < rank := by
  constructor
  · intro h
    exact ⟨by simpa using h.length_eq, h.nodup_iff.2 List.nodup_range,
      fun p hp => List.mem_range.1 (h.mem_iff.1 hp)⟩
  · rintro ⟨h1, h2, h3⟩
    have hsub : perm ⊆ List.range rank := fun p hp => List.mem_range.2 (h3 p hp)
    exact (List.subperm_of_subset h2 hsub).perm_of_length_le (by simp [h1])

theorem resolvePerm_ok (rank : Nat) (attr : Option (List Int)) (perm : List Nat) :
    resolvePerm rank attr = .ok perm ↔ PermAttr rank attr perm := by
  unfold resolvePerm PermAttr
  cases attr with
  | none =>
    have hl : (List.range rank).reverse.length = rank := by simp
    have hn : (List.range rank).reverse.Nodup := List.nodup_reverse.2 List.nodup_range
    show (if (List.range rank).reverse.length ≠ rank then Except.error Shape.Err.invalid
      else if ¬ (List.range rank).reverse.Nodup then .error .invalid
      else .ok (List.range rank).reverse) = Except.ok perm ↔ _
    rw [if_neg (by simp), if_neg (by simpa using hn)]
    simp only [Except.ok.injEq]
    constructor
    · rintro rfl; exact ⟨List.reverse_perm _, rfl⟩
    · rintro ⟨_, h⟩; exact h.symm
  | some raw =>
    simp only
    cases hm : raw.mapM (permEntry rank) with
    | error e =>
      constructor
      · intro h; cases h
      · rintro ⟨_, h⟩
        have := mapM_ok_iff.2 (h.imp fun a b hab => (permEntry_ok rank a b).2 hab)
        rw [hm] at this; cases this
    | ok r =>
      have hr := mapM_ok_iff.1 hm
      have hr' : List.Forall₂ (AxisOf rank) raw r := hr.imp fun a b hab => (permEntry_ok rank a b).1 hab
      have hlt : ∀ p ∈ r, p < rank := by
        intro p hp
        obtain ⟨i, hi⟩ := List.getElem?_of_mem hp
        have hil := (List.getElem?_eq_some_iff.1 hi).1
        have := hr'.get (i := i) (by rw [hr'.length_eq]; exact hil) hil
        have h2 := this.1
        rw [List.get_eq_getElem, (List.getElem?_eq_some_iff.1 hi).2] at h2
        exact h2
      show (if r.length ≠ rank then Except.error Shape.Err.invalid
        else if ¬ r.Nodup then .error .invalid else .ok r) = Except.ok perm ↔ _
      split_ifs with h1 h2
      · constructor
        · intro h; cases h
        · rintro ⟨hp, hf⟩
          have h3 := hf.length_eq
          have h4 := hr.length_eq
          have h5 := hp.length_eq
          simp at h5
          omega
      · simp only [Except.ok.injEq]
        constructor
        · rintro rfl
          exact ⟨perm_range_iff.2 ⟨by simpa using h1, by simpa using h2, hlt⟩, hr'⟩
        · rintro ⟨hp, hf⟩
          have := mapM_ok_iff.2 (hf.imp fun a b hab => (permEntry_ok rank a b).2 hab)
          rw [hm] at this; cases this
          rfl
      · constructor
        · intro h; cases h
        · rintro ⟨hp, hf⟩
          have := mapM_ok_iff.2 (hf.imp fun a b hab => (permEntry_ok rank a b).2 hab)
          rw [hm] at this; cases this
          exact absurd (perm_range_iff.1 hp).2.1 h2

theorem resolvePerm_error (rank : Nat) (attr : Option (List Int)) (e : Shape.Err)
    (h : resolvePerm rank attr = .error e) : e = .invalid := by
  unfold resolvePerm at h
  cases attr with
  | none =>
    have h : (if (List.range rank).reverse.length ≠ rank then Except.error Shape.Err.invalid
      else if ¬ (List.range rank).reverse.Nodup then .error .invalid
      else .ok (List.range rank).reverse) = Except.error e := h
    split_ifs at h <;> cases h <;> rfl
  | some raw =>
    cases hm : raw.mapM (permEntry rank) with
    | error e' =>
      simp only [hm] at h
      cases h
      obtain ⟨a, _, ha⟩ := mapM_err hm
      exact permEntry_error rank a _ ha
    | ok r =>
      simp only [hm] at h
      have h : (if r.length ≠ rank then Except.error Shape.Err.invalid
        else if ¬ r.Nodup then .error .invalid else .ok r) = Except.error e := h
      split_ifs at h <;> cases h <;> rfl

theorem invLoop_ok : ∀ (l : List Nat) (k : Nat) (v : List Nat), l.Nodup → (∀ p ∈ l, p < v.length) →
    ∃ v', (l.zipIdx k).foldlM (fun v (pi : Nat × Nat) => writeAt v pi.1 pi.2) v = .ok v' ∧
      v'.length = v.length ∧
      ∀ p, v'.getD p 0 = if p ∈ l then k + l.idxOf p else v.getD p 0
  | [], k, v, _, _ => ⟨v, rfl, rfl, by simp⟩
  | q :: l, k, v, hn, hl => by
    rw [List.nodup_cons] at hn
    have hq : q < v.length := hl q (by simp)
    obtain ⟨v', h1, h2, h3⟩ := invLoop_ok l (k + 1) (v.set q k) hn.2
      (fun p hp => by rw [List.length_set]; exact hl p (by simp [hp]))
    refine ⟨v', ?_, by rw [h2, List.length_set], ?_⟩
    · rw [List.zipIdx_cons, List.foldlM_cons, writeAt_ok hq]
      exact h1
    · intro p
      rw [h3 p]
      by_cases hpl : p ∈ l
      · have hpq : q ≠ p := fun h => hn.1 (h ▸ hpl)
        rw [if_pos hpl, if_pos (by simp [hpl]), List.idxOf_cons_ne _ hpq]
        omega
      · rw [if_neg hpl]
        by_cases hpq : p = q
        · subst hpq
          rw [if_pos (by simp), List.idxOf_cons_self, List.getD_eq_getElem _ _ (by simpa using hq)]
          simp
        · rw [if_neg (by simp [hpl, hpq])]
          simp only [List.getD_eq_getElem?_getD]
          rw [List.getElem?_set_ne (by omega)]

theorem invPerm_ok {rank : Nat} {perm : List Nat} (hp : perm.Perm (List.range rank)) :
    ∃ inv, invPerm perm = .ok inv ∧ inv.length = rank ∧ ∀ p, p < rank → inv.getD p 0 = perm.idxOf p := by
  obtain ⟨h1, h2, h3⟩ := perm_range_iff.1 hp
  obtain ⟨v, hv1, hv2, hv3⟩ := invLoop_ok perm 0 (List.replicate perm.length 0) h2
    (fun p hp => by simpa [h1] using h3 p hp)
  refine ⟨v, hv1, by simpa [h1] using hv2, fun p hp' => ?_⟩
  rw [hv3 p, if_pos (hp.mem_iff.2 (List.mem_range.2 hp'))]
  omega

/-- The source coordinates of a transpose. -/
def transposeSrc (perm : List Nat) (c : List Nat) : List Nat :=
  (List.range perm.length).map fun p => c.getD (perm.idxOf p) 0

theorem pick_length (perm l : List Nat) : (pick perm l).length = perm.length := by simp [pick]

theorem pick_getD (perm l : List Nat) (i : Nat) (h : i < perm.length) :
    (pick perm l).getD i 0 = l.getD (perm.getD i 0) 0 := by
  unfold pick
  rw [List.getD_eq_getElem _ _ (by simpa using h), List.getElem_map,
    List.getD_eq_getElem perm _ h]

theorem transposeSrc_getD (perm c : List Nat) (p : Nat) (h : p < perm.length) :
    (transposeSrc perm c).getD p 0 = c.getD (perm.idxOf p) 0 := by
  unfold transposeSrc
  rw [List.getD_eq_getElem _ _ (by simpa using h), List.getElem_map, List.getElem_range]

theorem transposeSrc_inRange {shape perm c : List Nat} (hp : perm.Perm (List.range shape.length))
    (hc : InRange (pick perm shape) c) : InRange shape (transposeSrc perm c) := by
  obtain ⟨h1, h2, h3⟩ := perm_range_iff.1 hp
  rw [inRange_iff] at hc ⊢
  refine ⟨by simp [transposeSrc, h1], fun p hpl => ?_⟩
  have hmem : p ∈ perm := hp.mem_iff.2 (List.mem_range.2 hpl)
  have hi := List.idxOf_lt_length_of_mem hmem
  rw [transposeSrc_getD _ _ _ (by omega)]
  have := hc.2 (perm.idxOf p) (by rw [pick_length]; exact hi)
  rw [pick_getD _ _ _ hi, List.getD_eq_getElem perm _ hi, List.getElem_idxOf] at this
  exact this

theorem mapM_pick {shape perm : List Nat} (h : ∀ p ∈ perm, p < shape.length) (e : Shape.Err) :
    perm.mapM (readAt e shape) = .ok (pick perm shape) :=
  mapM_ok fun p hp => readAt_getD (h p hp) 0

theorem transposeMap_ok {shape perm : List Nat} (hp : perm.Perm (List.range shape.length)) :
    transposeMap shape perm = .ok ((List.range (pick perm shape).prod).map fun f =>
      rowMajor shape (transposeSrc perm (unravel f (pick perm shape)))) := by
  obtain ⟨h1, h2, h3⟩ := perm_range_iff.1 hp
  obtain ⟨inv, hi1, hi2, hi3⟩ := invPerm_ok hp
  unfold transposeMap
  rw [mapM_pick h3, hi1]
  show ((List.range (pick perm shape).prod).mapM _) = _
  apply mapM_ok
  intro f hf
  have hic : ((List.range shape.length).mapM fun p => do
      let q ← readAt .panic inv p
      readAt .panic (unravel f (pick perm shape)) q)
      = .ok (transposeSrc perm (unravel f (pick perm shape))) := by
    have he : transposeSrc perm (unravel f (pick perm shape))
        = (List.range shape.length).map fun p =>
          (unravel f (pick perm shape)).getD (perm.idxOf p) 0 := by
      unfold transposeSrc; rw [h1]
    rw [he]
    apply mapM_ok
    intro p hpr
    have hpl := List.mem_range.1 hpr
    have hmem : p ∈ perm := hp.mem_iff.2 hpr
    rw [readAt_getD (d := 0) (by omega), hi3 p hpl]
    refine readAt_getD ?_ 0
    rw [unravel_length, pick_length]
    exact List.idxOf_lt_length_of_mem hmem
  simp only [hic]
  refine ravelR_ok ?_
  simp [transposeSrc, h1]

theorem inferTranspose_ok {shape : List Nat} {attr : Option (List Int)} {perm : List Nat}
    (h : PermAttr shape.length attr perm) : inferTranspose shape attr = .ok (pick perm shape) := by
  unfold inferTranspose
  rw [(resolvePerm_ok _ _ _).2 h]
  exact mapM_pick (perm_range_iff.1 h.1).2.2 _

theorem buildTranspose_ok {shape : List Nat} {attr : Option (List Int)} {perm : List Nat}
    (h : PermAttr shape.length attr perm) :
    buildTranspose shape attr (pick perm shape)
      = .ok ((List.range (pick perm shape).prod).map fun f =>
          rowMajor shape (transposeSrc perm (unravel f (pick perm shape)))) := by
  unfold buildTranspose
  rw [(resolvePerm_ok _ _ _).2 h]
  show (do
    let expected ← perm.mapM (readAt .panic shape)
    if expected ≠ pick perm shape then .error .invalid
    else do
      let map ← transposeMap shape perm
      if map.any (fun i => i ≥ shape.prod) then .error .invalid else .ok map) = _
  rw [mapM_pick (perm_range_iff.1 h.1).2.2, transposeMap_ok h.1]
  show (if pick perm shape ≠ pick perm shape then _ else _) = _
  rw [if_neg (by simp)]
  show (if _ then _ else _) = _
  rw [if_neg]
  simp only [ge_iff_le, List.any_eq_true, List.mem_map, List.mem_range, decide_eq_true_eq,
    not_exists, not_and, not_le]
  rintro i ⟨f, hf, rfl⟩
  exact rowMajor_lt (transposeSrc_inRange h.1 (unravel_inRange hf))

theorem runTranspose_ok {α : Type} {attr : Option (List Int)} {x : Arr α} {perm : List Nat}
    (hx : x.WF) (h : PermAttr x.shape.length attr perm) :
    ∃ y, runTranspose attr x = .ok y ∧ IsTranspose perm x y := by
  obtain ⟨h1, h2, h3⟩ := perm_range_iff.1 h.1
  obtain ⟨y, hy, hs, hw, hr⟩ := applyMap_ok .invalid x hx (pick perm x.shape) (transposeSrc perm)
    (fun c hc => transposeSrc_inRange h.1 hc)
  refine ⟨y, ?_, hw, hs, ?_⟩
  · unfold runTranspose
    rw [inferTranspose_ok h]
    show (do let map ← buildTranspose x.shape attr (pick perm x.shape); applyMap .invalid map _ x) = _
    rw [buildTranspose_ok h]
    exact hy
  · intro c hc
    have hin : InRange y.shape (pick perm c) := by
      rw [hs, inRange_iff]
      refine ⟨by rw [pick_length, pick_length], fun i hi => ?_⟩
      rw [pick_length] at hi
      rw [pick_getD _ _ _ hi, pick_getD _ _ _ hi]
      refine (inRange_iff.1 hc).2 _ ?_
      rw [List.getD_eq_getElem _ _ hi]
      exact h3 _ (List.getElem_mem hi)
    refine ⟨hin, ?_⟩
    rw [(hr _ hin).2]
    congr 1
    apply List.ext_getElem
    · simp [transposeSrc, h1, hc.length]
    · intro p hp1 hp2
      have hpl : p < perm.length := by simpa [transposeSrc] using hp1
      have hmem : p ∈ perm := h.1.mem_iff.2 (List.mem_range.2 (by omega))
      have hi := List.idxOf_lt_length_of_mem hmem
      have e1 := transposeSrc_getD perm (pick perm c) p hpl
      rw [pick_getD _ _ _ hi, List.getD_eq_getElem perm _ hi, List.getElem_idxOf,
        List.getD_eq_getElem _ _ hp1, List.getD_eq_getElem _ _ hp2] at e1
      exact e1

theorem runTranspose_error {α : Type} {attr : Option (List Int)} {x : Arr α}
    (h : ¬ ∃ perm, PermAttr x.shape.length attr perm) : runTranspose attr x = .error .invalid := by
  cases hr : resolvePerm x.shape.length attr with
  | ok perm => exact absurd ⟨perm, (resolvePerm_ok _ _ _).1 hr⟩ h
  | error e =>
    have := resolvePerm_error _ _ _ hr
    subst this
    unfold runTranspose inferTranspose
    rw [hr]
    rfl

end JST.Layers
