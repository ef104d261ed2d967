import Verif.Tensor.TopKLayer
import Verif.Tensor.GatherProofs
import Verif.Props.TopK
import Verif.Props.Lanes
import Verif.Props.Resize

/-!
# The TopK layer selects along every lane
-/

set_option linter.unusedSectionVars false

namespace JST.Props

open JST.Shape JST.Layers JST.Spec

/-- Values and indices have `k` entries along the axis, and in every lane the pair is in relation `R` with the lane of the
input. -/
def IsSelected {p : Nat} (axis : Nat) (x : Arr Int) (k : Nat) (R : List Int → Nat → List Int → List Nat → Prop)
    (r : Arr (ZMod p) × Arr (ZMod p)) : Prop :=
  r.1.shape = x.shape.set axis k ∧ r.1.WF ∧ r.2.shape = x.shape.set axis k ∧ r.2.WF ∧
    ∀ c, InRange (x.shape.set axis 1) c → ∃ lane vals idx, IsLane axis x c lane ∧ R lane k vals idx ∧
      IsLane axis r.1 c (vals.map fun v : Int => (v : ZMod p)) ∧ IsLane axis r.2 c (idx.map fun i : Nat => (i : ZMod p))

/-! ## Positions -/

theorem split_shape {s : List Nat} {axis : Nat} (h : axis < s.length) :
    ∃ A d B, s = A ++ d :: B ∧ A.length = axis :=
  ⟨s.take axis, s[axis], s.drop (axis + 1), by
    rw [List.cons_getElem_drop_succ, List.take_append_drop], by simp; omega⟩

theorem split_coord {A B c : List Nat} {d : Nat} (h : InRange (A ++ d :: B) c) :
    ∃ a j b, c = a ++ j :: b ∧ InRange A a ∧ j < d ∧ InRange B b := by
  have h1 := List.forall₂_take_append _ _ _ h
  have h2 := List.forall₂_drop_append _ _ _ h
  cases hd : c.drop A.length with
  | nil => rw [hd] at h2; cases h2
  | cons j b =>
    rw [hd] at h2
    cases h2 with
    | cons hj hb => exact ⟨c.take A.length, j, b, by rw [← hd, List.take_append_drop], h1, hj, hb⟩

theorem rowMajor_mid {A B a b : List Nat} {d j : Nat} (ha : a.length = A.length) :
    rowMajor (A ++ d :: B) (a ++ j :: b) = (rowMajor A a * d + j) * B.prod + rowMajor B b := by
  rw [rowMajor_append _ _ _ _ ha]
  simp only [rowMajor, List.prod_cons]
  ring

theorem set_mid {A B : List Nat} {d k : Nat} : (A ++ d :: B).set A.length k = A ++ k :: B := by simp

/-- The lane that position `(o, inr)` stands for. -/
theorem lane_index {A B a b : List Nat} (ha : InRange A a) (hb : InRange B b) (d j : Nat) (hj : j < d) :
    rowMajor (A ++ d :: B) (a ++ j :: b) / B.prod / d * B.prod + rowMajor (A ++ d :: B) (a ++ j :: b) % B.prod =
      rowMajor (A ++ 1 :: B) (a ++ 0 :: b) ∧
    rowMajor (A ++ d :: B) (a ++ j :: b) / B.prod % d = j := by
  have hI := rowMajor_lt hb
  have h0 : 0 < B.prod := by omega
  rw [rowMajor_mid ha.length, rowMajor_mid ha.length]
  have e1 : ((rowMajor A a * d + j) * B.prod + rowMajor B b) / B.prod = rowMajor A a * d + j := by
    rw [Nat.mul_comm, Nat.mul_add_div h0, Nat.div_eq_of_lt hI, Nat.add_zero]
  have e2 : ((rowMajor A a * d + j) * B.prod + rowMajor B b) % B.prod = rowMajor B b := by
    rw [Nat.mul_comm, Nat.mul_add_mod, Nat.mod_eq_of_lt hI]
  have e3 : (rowMajor A a * d + j) / d = rowMajor A a := by
    rw [Nat.mul_comm, Nat.mul_add_div (by omega), Nat.div_eq_of_lt hj, Nat.add_zero]
  have e4 : (rowMajor A a * d + j) % d = j := by
    rw [Nat.mul_comm, Nat.mul_add_mod, Nat.mod_eq_of_lt hj]
  rw [e1, e2, e3, e4]
  exact ⟨by ring, rfl⟩

section
variable {p : Nat} [Fact p.Prime] {T : Tables (ZMod p)} {x : Arr Int} {axis : Nat}

theorem topkRead_ok (hw : x.WF) (hax : axis < x.shape.length) {l : Nat} (hl : l < (x.shape.set axis 1).prod) :
    topkRead (castArr p x).data (x.shape.getD axis 0) (x.shape.drop (axis + 1)).prod
      (l / (x.shape.drop (axis + 1)).prod) (l % (x.shape.drop (axis + 1)).prod) =
        .ok (castL p (laneVals x axis (unravel l (x.shape.set axis 1)))) := by
  have hu := unravel_inRange hl
  have hr := rowMajor_unravel hl
  have hb := base_inRange hl
  generalize unravel l (x.shape.set axis 1) = c at hu hr hb
  obtain ⟨A, d, B, hs, rfl⟩ := split_shape hax
  unfold topkRead laneVals castL
  rw [List.map_map]
  refine mapM_ok fun i hi => ?_
  have hi' := List.mem_range.1 hi
  have hri := hb i hi'
  apply readAt_ok
  have e := castArr_elem_map (p := p) x (c.set A.length i)
  rw [elem_some_getD hw hri] at e
  rw [elem] at e
  rw [hs, set_mid] at hu hr
  obtain ⟨a, j, b, rfl, ha, hj, hbb⟩ := split_coord hu
  obtain rfl : j = 0 := by omega
  have e1 := (lane_index ha hbb 1 0 (by omega))
  have hI := rowMajor_lt hbb
  have h0 : 0 < B.prod := by omega
  have ed : x.shape.drop (A.length + 1) = B := by rw [hs]; simp
  have eg : x.shape.getD A.length 0 = d := by rw [hs]; simp
  rw [ed, eg, ← hr, rowMajor_mid ha.length]
  have e2 : ((rowMajor A a * 1 + 0) * B.prod + rowMajor B b) / B.prod = rowMajor A a := by
    rw [Nat.mul_comm, Nat.mul_add_div h0, Nat.div_eq_of_lt hI]; ring
  have e3 : ((rowMajor A a * 1 + 0) * B.prod + rowMajor B b) % B.prod = rowMajor B b := by
    rw [Nat.mul_comm, Nat.mul_add_mod, Nat.mod_eq_of_lt hI]
  rw [e2, e3]
  have es : (a ++ 0 :: b).set A.length i = a ++ i :: b := by rw [← ha.length]; simp
  rw [es] at e
  have esh : (castArr p x).shape = A ++ d :: B := hs
  rw [esh, rowMajor_mid ha.length] at e
  simp only [Function.comp_apply, es]
  exact e

/-- Placing lanes of `k` entries. -/
theorem topkPlace_ok {α : Type} [Inhabited α] {s : List Nat} (hax : axis < s.length) {k : Nat} {lanes : List (List α)}
    (hl : lanes.length = (s.set axis 1).prod) (hk : ∀ l ∈ lanes, l.length = k) :
    ∃ y : Arr α, (List.range (s.set axis k).prod).mapM (topkPlace lanes k (s.drop (axis + 1)).prod) = .ok y.data ∧
      y.shape = s.set axis k ∧ y.WF ∧ ∀ c, InRange (s.set axis 1) c →
        ∃ l, lanes[rowMajor (s.set axis 1) c]? = some l ∧ IsLane axis y c l := by
  obtain ⟨A, d, B, rfl, rfl⟩ := split_shape hax
  rw [set_mid, set_mid] at *
  have ed : (A ++ d :: B).drop (A.length + 1) = B := by simp
  rw [ed]
  let g : Nat → α := fun f => (lanes.getD (f / B.prod / k * B.prod + f % B.prod) []).getD (f / B.prod % k) default
  have key : ∀ a j b, InRange A a → j < k → InRange B b → ∃ l,
      lanes[rowMajor (A ++ 1 :: B) (a ++ 0 :: b)]? = some l ∧ l.length = k ∧
      l[j]? = some (g (rowMajor (A ++ k :: B) (a ++ j :: b))) := by
    intro a j b ha hj hb
    have hlt : rowMajor (A ++ 1 :: B) (a ++ 0 :: b) < lanes.length := by
      rw [hl]; exact rowMajor_lt (InRange_append ha (.cons (by omega) hb))
    obtain ⟨e1, e2⟩ := lane_index ha hb k j hj
    have hlk := hk _ (List.getElem_mem hlt)
    refine ⟨_, List.getElem?_eq_getElem hlt, hlk, ?_⟩
    simp only [g]
    rw [e1, e2, List.getD_eq_getElem _ _ hlt, List.getD_eq_getElem _ _ (by omega), List.getElem?_eq_getElem]
  refine ⟨⟨A ++ k :: B, (List.range (A ++ k :: B).prod).map g⟩, mapM_ok fun f hf => ?_, rfl, by simp [Arr.WF],
    fun c hc => ?_⟩
  · have hf := List.mem_range.1 hf
    obtain ⟨a, j, b, hc, ha, hj, hb⟩ := split_coord (unravel_inRange hf)
    obtain ⟨l, h1, h2, h3⟩ := key a j b ha hj hb
    obtain ⟨e1, e2⟩ := lane_index ha hb k j hj
    have hr := rowMajor_unravel hf
    rw [hc] at hr
    rw [hr] at e1 e2 h3
    unfold topkPlace
    rw [e1, e2, readAt_ok h1]
    exact readAt_ok h3
  · obtain ⟨a, j, b, rfl, ha, hj, hb⟩ := split_coord hc
    obtain rfl : j = 0 := by omega
    have hlt := rowMajor_lt hc
    rw [← hl] at hlt
    have hlk := hk _ (List.getElem_mem hlt)
    refine ⟨_, List.getElem?_eq_getElem hlt, ?_⟩
    have eg : (A ++ k :: B).getD A.length 0 = k := by simp
    unfold IsLane
    dsimp only
    rw [eg]
    refine List.ext_getElem (by simp [hlk]) fun i h1 h2 => ?_
    have hi : i < k := by simpa using h2
    obtain ⟨l, h3, h4, h5⟩ := key a i b ha hi hb
    rw [List.getElem?_eq_getElem hlt] at h3
    cases h3
    have es : (a ++ 0 :: b).set A.length i = a ++ i :: b := by rw [← ha.length]; simp
    simp only [List.getElem_map, List.getElem_range, elem, es]
    rw [List.getElem?_map, List.getElem?_range (rowMajor_lt (InRange_append ha (.cons hi hb))), Option.map_some, ← h5,
      List.getElem?_eq_getElem (by omega)]

/-- What follows the loop, for lanes that are in relation `R`. -/
theorem topk_tail (hw : x.WF) (hax : axis < x.shape.length) {k : Nat} {R : List Int → Nat → List Int → List Nat → Prop}
    (hR : ∀ l vals idx, R l k vals idx → vals.length = k ∧ idx.length = k)
    {res : List (List (ZMod p) × List (ZMod p))}
    (h : List.Forall₂ (fun l r => ∃ vals idx, r = (castL p vals, castN p idx) ∧
      R (laneVals x axis (unravel l (x.shape.set axis 1))) k vals idx) (List.range (x.shape.set axis 1).prod) res) :
    ∃ v i : Arr (ZMod p),
      (List.range (x.shape.set axis k).prod).mapM (topkPlace (res.map Prod.fst) k (x.shape.drop (axis + 1)).prod) = .ok v.data ∧
      (List.range (x.shape.set axis k).prod).mapM (topkPlace (res.map Prod.snd) k (x.shape.drop (axis + 1)).prod) = .ok i.data ∧
      fromShapeVec (x.shape.set axis k) v.data = .ok v ∧ fromShapeVec (x.shape.set axis k) i.data = .ok i ∧
      IsSelected axis x k R (v, i) := by
  have hlen : res.length = (x.shape.set axis 1).prod := by simpa using h.length_eq.symm
  have key : ∀ r ∈ res, ∃ l vals idx, r = (castL p vals, castN p idx) ∧ R l k vals idx := by
    intro r hr
    obtain ⟨n, hn, rfl⟩ := List.getElem_of_mem hr
    obtain ⟨vals, idx, e, hr⟩ := (List.forall₂_iff_get.1 h).2 n (by simpa [← hlen] using hn) hn
    exact ⟨_, vals, idx, e, hr⟩
  obtain ⟨v, a1, a2, a3, a4⟩ := topkPlace_ok (s := x.shape) hax (lanes := res.map Prod.fst) (k := k) (by simpa using hlen) (by
    intro l hl
    obtain ⟨r, hr, rfl⟩ := List.mem_map.1 hl
    obtain ⟨l, vals, idx, rfl, hrr⟩ := key r hr
    simpa [castL] using (hR _ _ _ hrr).1)
  obtain ⟨i, b1, b2, b3, b4⟩ := topkPlace_ok (s := x.shape) hax (lanes := res.map Prod.snd) (k := k) (by simpa using hlen) (by
    intro l hl
    obtain ⟨r, hr, rfl⟩ := List.mem_map.1 hl
    obtain ⟨l, vals, idx, rfl, hrr⟩ := key r hr
    simpa [castN] using (hR _ _ _ hrr).2)
  refine ⟨v, i, a1, b1, ?_, ?_, a2, a3, b2, b3, fun c hc => ?_⟩
  · rw [← a2, fromShapeVec_ok a3]
  · rw [← b2, fromShapeVec_ok b3]
  · obtain ⟨l1, c1, c2⟩ := a4 c hc
    obtain ⟨l2, d1, d2⟩ := b4 c hc
    have hlt := rowMajor_lt hc
    obtain ⟨vals, idx, e, hr⟩ := (List.forall₂_iff_get.1 h).2 (rowMajor (x.shape.set axis 1) c) (by simpa using hlt)
      (by rw [hlen]; exact hlt)
    simp only [List.get_eq_getElem, List.getElem_range, unravel_rowMajor hc] at e hr
    rw [List.getElem?_map, List.getElem?_eq_getElem (by rw [hlen]; exact hlt), Option.map_some, e] at c1 d1
    cases c1
    cases d1
    refine ⟨_, vals, idx, laneVals_isLane hw fun n hn => inRange_unset hc hn, hr, c2, d2⟩

theorem outer_inner (hax : axis < x.shape.length) :
    (x.shape.take axis).prod * (x.shape.drop (axis + 1)).prod = (x.shape.set axis 1).prod := by
  obtain ⟨A, d, B, hs, rfl⟩ := split_shape hax
  rw [hs, set_mid]
  simp

theorem sound_topkApply {rc : RangeCtx} {κ n k : Nat} (hw : x.WF) (hax : axis < x.shape.length)
    {R : List Int → Nat → List Int → List Nat → Prop} (hR : ∀ l vals idx, R l k vals idx → vals.length = k ∧ idx.length = k)
    (hf : ∀ lane : List Int, lane.length = x.shape.getD axis 0 → (∀ u ∈ lane, u ∈ x.data) →
      Sound T (topkLane rc n k ((2 ^ κ : Nat) : ZMod p) (castL p lane)) (fun r => ∃ vals idx,
        r = (castL p vals, castN p idx) ∧ R lane k vals idx)) :
    Sound T (topkApply rc κ n k axis (x.shape.set axis k) (castArr p x)) (IsSelected axis x k R) := by
  unfold topkApply
  split_ifs
  · exact Sound.throwErr
  have e : (castArr p x).shape = x.shape := rfl
  rw [e]
  dsimp only
  rw [outer_inner hax]
  refine Sound.bind (sound_collectG (Q := fun l r => ∃ vals idx, r = (castL p vals, castN p idx) ∧
    R (laneVals x axis (unravel l (x.shape.set axis 1))) k vals idx) _ ?_) ?_
  · intro l hl
    have hl := List.mem_range.1 hl
    rw [topkRead_ok hw hax hl, liftR_ok_bind]
    exact hf _ (laneVals_length ..) (isLane_mem (laneVals_isLane hw (base_inRange hl)))
  · intro res hres
    obtain ⟨v, i, h1, h2, h3, h4, h5⟩ := topk_tail hw hax hR hres
    rw [h1, liftR_ok_bind, h2, liftR_ok_bind, h3, liftR_ok_bind, h4, liftR_ok_bind]
    exact Sound.pure h5

theorem complete_topkApply {rc : RangeCtx} {κ n k : Nat} (hn : n < 64) (hw : x.WF) (hax : axis < x.shape.length)
    {R : List Int → Nat → List Int → List Nat → Prop} (hR : ∀ l vals idx, R l k vals idx → vals.length = k ∧ idx.length = k)
    (hf : ∀ lane : List Int, lane.length = x.shape.getD axis 0 → (∀ u ∈ lane, u ∈ x.data) →
      Complete T (topkLane rc n k ((2 ^ κ : Nat) : ZMod p) (castL p lane)) (fun r => ∃ vals idx,
        r = (castL p vals, castN p idx) ∧ R lane k vals idx)) :
    Complete T (topkApply rc κ n k axis (x.shape.set axis k) (castArr p x)) (IsSelected axis x k R) := by
  unfold topkApply
  rw [if_neg (by omega)]
  have e : (castArr p x).shape = x.shape := rfl
  rw [e]
  dsimp only
  rw [outer_inner hax]
  refine Complete.bind (complete_collectG (Q := fun l r => ∃ vals idx, r = (castL p vals, castN p idx) ∧
    R (laneVals x axis (unravel l (x.shape.set axis 1))) k vals idx) _ ?_) ?_
  · intro l hl
    have hl := List.mem_range.1 hl
    rw [topkRead_ok hw hax hl, liftR_ok_bind]
    exact hf _ (laneVals_length ..) (isLane_mem (laneVals_isLane hw (base_inRange hl)))
  · intro res hres
    obtain ⟨v, i, h1, h2, h3, h4, h5⟩ := topk_tail hw hax hR hres
    rw [h1, liftR_ok_bind, h2, liftR_ok_bind, h3, liftR_ok_bind, h4, liftR_ok_bind]
    exact Complete.pure h5

theorem forge_topkApply {rc : RangeCtx} {κ n k : Nat} (hn : n < 64) (hw : x.WF) (hax : axis < x.shape.length)
    {R : List Int → Nat → List Int → List Nat → Prop} (hR : ∀ l vals idx, R l k vals idx → vals.length = k ∧ idx.length = k)
    (V : List Int → List Int) (I : List Int → List Nat)
    (hf : ∀ lane : List Int, lane.length = x.shape.getD axis 0 → (∀ u ∈ lane, u ∈ x.data) → R lane k (V lane) (I lane) ∧
      Forge T (topkLane rc n k ((2 ^ κ : Nat) : ZMod p) (castL p lane)) (fun r => r = (castL p (V lane), castN p (I lane)))) :
    Forge T (topkApply rc κ n k axis (x.shape.set axis k) (castArr p x)) (IsSelected axis x k R) := by
  unfold topkApply
  rw [if_neg (by omega)]
  have e : (castArr p x).shape = x.shape := rfl
  rw [e]
  dsimp only
  rw [outer_inner hax]
  have hlane : ∀ l, l < (x.shape.set axis 1).prod → _ := fun l hl =>
    hf (laneVals x axis (unravel l (x.shape.set axis 1))) (laneVals_length ..)
      (isLane_mem (laneVals_isLane hw (base_inRange hl)))
  refine Forge.bind (forge_collectG (g := fun l => (castL p (V (laneVals x axis (unravel l (x.shape.set axis 1)))),
    castN p (I (laneVals x axis (unravel l (x.shape.set axis 1)))))) _ ?_) (fun _ h => h) ?_
  · intro l hl
    have hl := List.mem_range.1 hl
    rw [topkRead_ok hw hax hl, liftR_ok_bind]
    exact (hlane l hl).2
  · obtain ⟨v, i, h1, h2, h3, h4, h5⟩ := topk_tail (p := p) hw hax hR (res := (List.range (x.shape.set axis 1).prod).map
      fun l => (castL p (V (laneVals x axis (unravel l (x.shape.set axis 1)))),
        castN p (I (laneVals x axis (unravel l (x.shape.set axis 1)))))) (by
      rw [List.forall₂_map_right_iff, List.forall₂_same]
      intro l hl
      exact ⟨_, _, rfl, (hlane l (List.mem_range.1 hl)).1⟩)
    rw [h1, liftR_ok_bind, h2, liftR_ok_bind, h3, liftR_ok_bind, h4, liftR_ok_bind]
    exact Forge.pure h5

/-- The layer, when nothing is refused. -/
theorem topkLayer_eq {rc : RangeCtx} {κ n k : Nat} {a : Int} (hk : 0 < k) (ha : normAxis x.shape.length a = .ok axis)
    (hkd : k ≤ x.shape.getD axis 0) (hκ : κ < 64) :
    topkLayer rc κ n [(k : Int)] a 1 (x.shape.set axis k) (castArr p x) =
      topkApply rc κ n k axis (x.shape.set axis k) (castArr p x) := by
  unfold topkLayer
  have e : (castArr p x).shape = x.shape := rfl
  rw [e, ha]
  dsimp only
  rw [if_neg (by omega), liftR_ok_bind, Int.toNat_natCast, if_neg (by omega), if_neg (by simp), if_neg (by simp),
    if_neg (by omega)]

theorem normAxis_lt {rank ax : Nat} {a : Int} (h : normAxis rank a = .ok ax) : ax < rank := by
  unfold normAxis at h
  dsimp only at h
  split_ifs at h with h1 h2 <;> simp only [Except.ok.injEq, reduceCtorEq] at h <;> omega

theorem accepted_length {l : List Int} {k : Nat} {vals : List Int} {idx : List Nat} (h : Accepted l k vals idx) :
    vals.length = k ∧ idx.length = k := ⟨h.len, by rw [← h.picks.length_eq, h.len]⟩

theorem isTopK_length {l : List Int} {k : Nat} {vals : List Int} {idx : List Nat} (h : IsTopK l k vals idx) :
    vals.length = k ∧ idx.length = k := accepted_length h.accepted

/-- **C88, what is enforced.** Along every lane of the tensor, for every shape and axis, the accepted values stand at the
accepted indices, and each entry is among them or at most the last of them. Missing: order and distinct indices. -/
theorem C88_topk_partial {rc : RangeCtx} (hT : IsRangeTable T rc) (hc : 0 < rc.chunk) {κ n k : Nat} {a : Int}
    (hw : x.WF) (ha : normAxis x.shape.length a = .ok axis) (hk : 0 < k) (hkd : k ≤ x.shape.getD axis 0) (hκ : κ < 64)
    (hd : rc.chunk ∣ n + 1) (hp : 2 ^ (n + 2) ≤ p) (hb : ∀ u ∈ x.data, -2 ^ n ≤ u ∧ u < 2 ^ n)
    (hl : x.shape.getD axis 0 ≤ 2 ^ 32) (hlp : x.shape.getD axis 0 ≤ p) :
    Sound T (topkLayer rc κ n [(k : Int)] a 1 (x.shape.set axis k) (castArr p x)) (IsSelected axis x k Accepted) := by
  rw [topkLayer_eq hk ha hkd hκ]
  exact sound_topkApply hw (normAxis_lt ha) (fun _ _ _ => accepted_length) fun lane h1 h2 =>
    C13_topk_sound_partial hT hc n k hd hp _ lane (fun u hu => hb u (h2 u hu)) (by omega) (by omega)

/-- **C88 for `k = 1`**: the maximum of every lane and one of its positions. -/
theorem C88_top1 {rc : RangeCtx} (hT : IsRangeTable T rc) (hc : 0 < rc.chunk) {κ n : Nat} {a : Int}
    (hw : x.WF) (ha : normAxis x.shape.length a = .ok axis) (hkd : 1 ≤ x.shape.getD axis 0) (hκ : κ < 64)
    (hd : rc.chunk ∣ n + 1) (hp : 2 ^ (n + 2) ≤ p) (hb : ∀ u ∈ x.data, -2 ^ n ≤ u ∧ u < 2 ^ n)
    (hl : x.shape.getD axis 0 ≤ 2 ^ 32) (hlp : x.shape.getD axis 0 ≤ p) :
    Sound T (topkLayer rc κ n [1] a 1 (x.shape.set axis 1) (castArr p x)) (IsSelected axis x 1 IsTopK) := by
  rw [show ([1] : List Int) = [((1 : Nat) : Int)] from rfl, topkLayer_eq (by omega) ha hkd hκ]
  exact sound_topkApply hw (normAxis_lt ha) (fun _ _ _ => isTopK_length) fun lane h1 h2 =>
    C13_top1_sound hT hc n hd hp _ lane (fun u hu => hb u (h2 u hu)) (by omega) (by omega)

/-- **C88, the honest prover** selects the `k` largest entries of every lane in descending order. -/
theorem C88_topk_complete {rc : RangeCtx} (hT : IsRangeTable T rc) {κ n k : Nat} {a : Int} (hn : 1 ≤ n) (hn64 : n < 64)
    (hw : x.WF) (ha : normAxis x.shape.length a = .ok axis) (hk : 0 < k) (hkd : k ≤ x.shape.getD axis 0) (hκ : κ < 64)
    (hu : RangeUsable p rc (n + 1)) (hui : RangeUsable p rc (topkIdxBits (x.shape.getD axis 0)))
    (hb : ∀ u ∈ x.data, -2 ^ (n - 1) ≤ u ∧ u < 2 ^ (n - 1)) (hl : x.shape.getD axis 0 ≤ 2 ^ 32)
    (hlp : x.shape.getD axis 0 ≤ p) :
    Complete T (topkLayer rc κ n [(k : Int)] a 1 (x.shape.set axis k) (castArr p x)) (IsSelected axis x k IsTopK) := by
  rw [topkLayer_eq hk ha hkd hκ]
  exact complete_topkApply hn64 hw (normAxis_lt ha) (fun _ _ _ => isTopK_length) fun lane h1 h2 =>
    C13_topk_complete hT n k hn hn64 (by omega) hu _ lane (by omega) (by rw [h1]; exact hui)
      (fun u hu => hb u (h2 u hu)) (by omega) (by omega)

theorem exists_max : ∀ l : List Int, l ≠ [] → ∃ (i : Nat) (m : Int), l[i]? = some m ∧ ∀ u ∈ l, u ≤ m
  | [a], _ => ⟨0, a, rfl, by simp⟩
  | a :: b :: l, _ => by
    obtain ⟨i, m, h1, h2⟩ := exists_max (b :: l) (by simp)
    by_cases h : a ≤ m
    · exact ⟨i + 1, m, h1, fun u hu => (List.mem_cons.1 hu).elim (fun e => e ▸ h) (h2 u)⟩
    · exact ⟨0, a, rfl, fun u hu => (List.mem_cons.1 hu).elim (fun e => e.le) fun hu => by have := h2 u hu; omega⟩

/-- **C88 is violated for every `k ≥ 2`**, every tensor and every axis: a prover can return, in every lane, `k` copies of the
maximum at one and the same index. -/
theorem C88_topk_unsound {rc : RangeCtx} (hT : IsRangeTable T rc) {κ n k : Nat} {a : Int} (hn : 1 ≤ n) (hn64 : n < 64)
    (hw : x.WF) (ha : normAxis x.shape.length a = .ok axis) (hk : 2 ≤ k) (hkd : k ≤ x.shape.getD axis 0) (hκ : κ < 64)
    (hu : RangeUsable p rc (n + 1)) (hui : RangeUsable p rc (topkIdxBits (x.shape.getD axis 0)))
    (hb : ∀ u ∈ x.data, -2 ^ (n - 1) ≤ u ∧ u < 2 ^ (n - 1)) (hl : x.shape.getD axis 0 ≤ 2 ^ 32)
    (hlp : x.shape.getD axis 0 ≤ p) :
    Forge T (topkLayer rc κ n [(k : Int)] a 1 (x.shape.set axis k) (castArr p x)) (IsSelected axis x k
      fun lane k vals idx => ¬ IsTopK lane k vals idx ∧ ∃ (i : Nat) (m : Int), lane[i]? = some m ∧ (∀ u ∈ lane, u ≤ m) ∧
        vals = List.replicate k m ∧ idx = List.replicate k i) := by
  classical
  rw [topkLayer_eq (by omega) ha hkd hκ]
  have hex : ∀ l : List Int, ∃ im : Nat × Int, l ≠ [] → l[im.1]? = some im.2 ∧ ∀ u ∈ l, u ≤ im.2 := by
    intro l
    by_cases hl : l = []
    · exact ⟨(0, 0), fun h => (h hl).elim⟩
    · obtain ⟨i, m, h⟩ := exists_max l hl
      exact ⟨(i, m), fun _ => h⟩
  choose im him using hex
  refine forge_topkApply hn64 hw (normAxis_lt ha) ?_ (fun l => List.replicate k (im l).2)
    (fun l => List.replicate k (im l).1) fun lane h1 h2 => ?_
  · rintro l vals idx ⟨_, i, m, _, _, rfl, rfl⟩
    simp
  · have hne : lane ≠ [] := by rintro rfl; rw [List.length_nil] at h1; omega
    obtain ⟨g1, g2⟩ := him lane hne
    obtain ⟨f1, f2⟩ := C13_topk_unsound hT n k hn hn64 hk hu ((2 ^ κ : Nat) : ZMod p) lane (by rw [h1]; exact hui)
      (fun u hu => hb u (h2 u hu)) (by omega) (by omega) _ _ g1 g2
    exact ⟨⟨f2, _, _, g1, g2, rfl, rfl⟩, f1⟩

/-- **C88, refusals.** -/
theorem C88_refuses (rc : RangeCtx) {κ n : Nat} {ks : List Int} {a lg : Int} {out : List Nat} (x : Arr (ZMod p))
    (h : (∀ k : Int, ks ≠ [k]) ∨ (∃ k : Int, ks = [k] ∧ (k ≤ 0 ∨ lg ≠ 1 ∨ 64 ≤ κ ∨
      ∀ ax, normAxis x.shape.length a = .ok ax → (x.shape.getD ax 0 : Int) < k ∨ out ≠ x.shape.set ax k.toNat))) :
    Sound T (topkLayer rc κ n ks a lg out x) (fun _ => False) := by
  unfold topkLayer
  split
  · rename_i k
    rcases h with h | ⟨k', hk', h⟩
    · exact (h k rfl).elim
    · cases hk'
      by_cases h0 : k ≤ 0
      · rw [if_pos h0]; exact Sound.throwErr
      rw [if_neg h0]
      refine Sound.bind sound_liftR fun ax hax => ?_
      by_cases h1 : k.toNat > x.shape.getD ax 0
      · rw [if_pos h1]; exact Sound.throwErr
      rw [if_neg h1]
      by_cases h2 : lg ≠ 1
      · rw [if_pos h2]; exact Sound.throwErr
      rw [if_neg h2]
      by_cases h3 : out ≠ x.shape.set ax k.toNat
      · rw [if_pos h3]; exact Sound.throwErr
      rw [if_neg h3]
      by_cases h4 : κ ≥ 64
      · rw [if_pos h4]; exact Sound.throwErr
      exfalso
      rcases h with h | h | h | h
      · exact h0 h
      · exact h2 h
      · exact h4 h
      · rcases h ax hax with h | h
        · omega
        · exact h3 h
  · exact Sound.throwErr

end

/-! ## The hypotheses are met -/

/-- A 2×3×2 tensor, selected along its middle axis. -/
def topkEx : Arr Int := ⟨[2, 3, 2], [5, -1, 3, 9, 1, 4, 0, 7, 7, -8, 2, 6]⟩

example : Complete (rangeTables bn254P ⟨0, 9⟩) (topkLayer ⟨0, 9⟩ 18 35 [2] (-2) 1 [2, 2, 2] (castArr bn254P topkEx))
    (IsSelected 1 topkEx 2 IsTopK) :=
  C88_topk_complete (k := 2) (x := topkEx) (axis := 1) (rangeTables_spec _) (by decide) (by decide) rfl rfl (by decide) (by decide) (by decide)
    ⟨by decide, by decide, by decide, by decide, by decide, by decide +kernel⟩
    ⟨by decide, by decide, by decide, by decide, by decide, by decide +kernel⟩ (by decide) (by decide) (by decide +kernel)

example : Sound (rangeTables bn254P ⟨0, 9⟩) (topkLayer ⟨0, 9⟩ 18 35 [2] (-2) 1 [2, 2, 2] (castArr bn254P topkEx))
    (IsSelected 1 topkEx 2 Accepted) :=
  C88_topk_partial (k := 2) (x := topkEx) (axis := 1) (rangeTables_spec _) (by decide) rfl rfl (by decide) (by decide) (by decide)
    (by decide) (by decide +kernel) (by decide) (by decide) (by decide +kernel)

/-- The lane through `[0, _, 1]`. -/
example : IsLane 1 topkEx [0, 0, 1] [-1, 9, 4] := by unfold IsLane; decide

end JST.Props
