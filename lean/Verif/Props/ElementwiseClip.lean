import Verif.Props.ElementwiseDiv

/-!
# C56: Clip
-/

set_option linter.unusedSectionVars false

namespace JST.Props

open JST.Shape JST.Layers JST.Spec

variable {p : Nat} [Fact p.Prime] {T : Tables (ZMod p)}

/-! ## Broadcasting a broadcast -/

theorem stretches_refl (s : List Nat) : Stretches s s := ⟨le_refl _, fun _ _ => .inr rfl⟩

theorem stretches_trans {a s t : List Nat} (h1 : Stretches a s) (h2 : Stretches s t) : Stretches a t := by
  refine ⟨h1.1.trans h2.1, fun i hi => ?_⟩
  rcases h1.2 i hi with h | h
  · exact .inl h
  · rcases h2.2 i (lt_of_lt_of_le hi h1.1) with h' | h'
    · exact .inl (h.trans h')
    · exact .inr (h.trans h')

theorem srcCoords_length {s c : List Nat} (h : s.length ≤ c.length) : (srcCoords s c).length = s.length := by
  unfold srcCoords
  rw [List.length_zipWith, List.length_drop]
  omega

theorem srcCoords_getElem? {s c : List Nat} (h : s.length ≤ c.length) {i : Nat} (hi : i < s.length) :
    (srcCoords s c)[i]? = some (if s[i] = 1 then 0 else c[c.length - s.length + i]'(by omega)) := by
  unfold srcCoords
  rw [List.getElem?_zipWith, List.getElem?_drop, List.getElem?_eq_getElem hi,
    List.getElem?_eq_getElem (by omega)]

theorem srcCoords_comp {a s c : List Nat} (h1 : Stretches a s) (hl : s.length ≤ c.length) :
    srcCoords a (srcCoords s c) = srcCoords a c := by
  have hal := h1.1
  have h1 := (stretches_iff _ _).1 h1
  have hlen := srcCoords_length hl
  apply List.ext_getElem?
  intro i
  by_cases hi : i < a.length
  · rw [srcCoords_getElem? (by omega) hi, srcCoords_getElem? (by omega) hi]
    have h2 := (List.forall₂_iff_get.1 h1.2).2 i (by rw [List.length_drop]; omega) hi
    simp only [List.get_eq_getElem, List.getElem_drop] at h2
    by_cases ha : a[i] = 1
    · rw [if_pos ha, if_pos ha]
    · rw [if_neg ha, if_neg ha]
      have h3 := srcCoords_getElem? hl (i := s.length - a.length + i) (by omega)
      rw [if_neg (by rcases h2 with h2 | h2
                     · exact absurd h2 ha
                     · rw [← h2]; exact ha)] at h3
      rw [← List.getElem?_eq_getElem, hlen, h3]
      congr 2
      omega
  · rw [List.getElem?_eq_none, List.getElem?_eq_none]
    · rw [srcCoords_length (by omega)]; omega
    · rw [srcCoords_length (by omega)]; omega

theorem srcCoords_self' {s c : List Nat} (h : InRange s c) : srcCoords s c = c := by
  have hl := h.length
  apply List.ext_getElem?
  intro i
  by_cases hi : i < s.length
  · have h2 := (List.forall₂_iff_get.1 h).2 i (by omega) hi
    simp only [List.get_eq_getElem] at h2
    have e : c.length - s.length + i = i := by omega
    rw [srcCoords_getElem? (by omega) hi, List.getElem?_eq_getElem (by omega)]
    simp only [e]
    split_ifs with h1
    · congr 1; omega
    · rfl
  · rw [List.getElem?_eq_none (by rw [srcCoords_length (by omega)]; omega), List.getElem?_eq_none (by omega)]

/-- `r` holds, at shape `t`, the entries of `a` that broadcasting assigns. -/
structure Tracks (a : Arr Int) (t : List Nat) (r : Arr (ZMod p)) : Prop where
  stretches : Stretches a.shape t
  shape : r.shape = t
  wf : r.WF
  src : ∀ c, InRange t c → elem a (srcCoords a.shape c) = some (valAt a c)
  elems : ∀ c, InRange t c → elem r c = some ((valAt a c : Int) : ZMod p)

theorem elem_isSome {α : Type} {a : Arr α} (hw : a.WF) {c : List Nat} (hc : InRange a.shape c) :
    ∃ u, elem a c = some u := by
  unfold elem
  exact ⟨_, List.getElem?_eq_getElem (by rw [hw]; exact rowMajor_lt hc)⟩

theorem valAt_some {a : Arr Int} {c : List Nat} {u : Int} (h : elem a (srcCoords a.shape c) = some u) :
    valAt a c = u := by unfold valAt; rw [h]; rfl

theorem Tracks.self {a : Arr Int} (hw : a.WF) : Tracks (p := p) a a.shape (castArr p a) := by
  refine ⟨stretches_refl _, rfl, castArr_WF hw, fun c hc => ?_, fun c hc => ?_⟩
  · obtain ⟨u, hu⟩ := elem_isSome hw hc
    rw [valAt_some (by rw [srcCoords_self' hc]; exact hu), srcCoords_self' hc]; exact hu
  · obtain ⟨u, hu⟩ := elem_isSome hw hc
    rw [valAt_some (by rw [srcCoords_self' hc]; exact hu), castArr_elem_map, hu]; rfl

theorem Tracks.broadcast {a : Arr Int} {s t : List Nat} {r r' : Arr (ZMod p)} (h : Tracks a s r)
    (hr : broadcastArray r t = .ok r') : Tracks a t r' := by
  obtain ⟨h1, h2, h3, h4⟩ := (broadcastArray_ok r t h.wf r').1 hr
  rw [h.shape] at h1 h4
  have key : ∀ c, InRange t c → srcCoords a.shape (srcCoords s c) = srcCoords a.shape c := fun c hc =>
    srcCoords_comp h.stretches (by rw [hc.length]; exact h1.1)
  have val : ∀ c, InRange t c → valAt a (srcCoords s c) = valAt a c := fun c hc => by
    unfold valAt; rw [key c hc]
  refine ⟨stretches_trans h.stretches h1, h2, h3, fun c hc => ?_, fun c hc => ?_⟩
  · have := h.src _ (srcCoords_inRange h1 hc)
    rwa [key c hc, val c hc] at this
  · rw [(h4 c hc).2, h.elems _ (srcCoords_inRange h1 hc), val c hc]

theorem Tracks.data {a : Arr Int} {t : List Nat} {r : Arr (ZMod p)} (h : Tracks a t r) :
    r.data = (List.range t.prod).map (fun k : Nat => (valAt a (unravel k t) : ZMod p)) := by
  apply List.ext_getElem?
  intro k
  by_cases hk : k < t.prod
  · have := h.elems _ (unravel_inRange hk)
    unfold elem at this
    rw [h.shape, rowMajor_unravel hk] at this
    rw [this, List.getElem?_map, List.getElem?_range hk]
    rfl
  · rw [List.getElem?_eq_none (by rw [h.wf, h.shape]; omega), List.getElem?_eq_none (by simp; omega)]

theorem Tracks.two {a b : Arr Int} {s u : List Nat} {x y : Arr (ZMod p)} {r : Arr (ZMod p) × Arr (ZMod p)}
    (ha : Tracks a s x) (hb : Tracks b u y) (h : broadcastTwo x y = .ok r) :
    ∃ t, IsBroadcast s u t ∧ Tracks a t r.1 ∧ Tracks b t r.2 := by
  obtain ⟨_, h2, _⟩ := C37_elements _ _ r.1 r.2 ha.wf hb.wf h
  unfold broadcastTwo at h
  obtain ⟨out, _, h⟩ := Layers.bind_eq_ok h
  obtain ⟨ra, h3, h⟩ := Layers.bind_eq_ok h
  obtain ⟨rb, h4, h⟩ := Layers.bind_eq_ok h
  obtain rfl := Except.ok.inj h
  have t1 := ha.broadcast h3
  refine ⟨out, ?_, t1, hb.broadcast h4⟩
  rw [ha.shape, hb.shape, t1.shape] at h2
  exact h2

theorem Tracks.exists_two {a b : Arr Int} {s u t : List Nat} {x y : Arr (ZMod p)}
    (ha : Tracks a s x) (hb : Tracks b u y) (zs : ∀ d ∈ s, d ≠ 0) (zu : ∀ d ∈ u, d ≠ 0)
    (h : IsBroadcast s u t) : ∃ r, broadcastTwo x y = .ok r ∧ Tracks a t r.1 ∧ Tracks b t r.2 := by
  obtain ⟨r, hr⟩ := C37_succeeds_partial x y ha.wf hb.wf (by rw [ha.shape]; exact zs)
    (by rw [hb.shape]; exact zu) ⟨t, by rw [ha.shape, hb.shape]; exact h⟩
  obtain ⟨t', h1, h2, h3⟩ := ha.two hb hr
  have e : t' = t := Except.ok.inj
    (((broadcastShapes_ok_iff _ _ _).2 h1).symm.trans ((broadcastShapes_ok_iff _ _ _).2 h))
  subst e
  exact ⟨r, hr, h2, h3⟩

theorem isBroadcast_of_stretches {s t : List Nat} (h : Stretches s t) : IsBroadcast t s t := by
  refine ⟨by have := h.1; omega, fun i _ => ?_⟩
  by_cases hi : i < s.length
  · rcases h.2 i hi with e | e
    · exact .inr (.inr ⟨e, rfl⟩)
    · exact .inl ⟨e.symm, rfl⟩
  · refine .inr (.inr ⟨?_, rfl⟩)
    unfold fromRight
    rw [List.getD_eq_default _ _ (by simp; omega)]

theorem isBroadcast_pos {a b t : List Nat} (ha : ∀ d ∈ a, d ≠ 0) (hb : ∀ d ∈ b, d ≠ 0)
    (h : IsBroadcast a b t) : ∀ d ∈ t, d ≠ 0 := by
  have hpos : ∀ (l : List Nat), (∀ d ∈ l, d ≠ 0) → ∀ i, fromRight l i ≠ 0 := by
    intro l hl i
    unfold fromRight
    by_cases hi : i < l.reverse.length
    · rw [List.getD_eq_getElem _ _ hi]
      exact hl _ (List.mem_reverse.1 (List.getElem_mem hi))
    · rw [List.getD_eq_default _ _ (by omega)]; omega
  intro d hd
  obtain ⟨i, hi, rfl⟩ := List.getElem_of_mem hd
  rw [← fromRight_eq_getElem hi]
  rcases h.2 (t.length - 1 - i) (by omega) with ⟨_, e⟩ | ⟨_, e⟩ | ⟨_, e⟩ <;> rw [e]
  · exact hpos a ha _
  · exact hpos b hb _
  · exact hpos a ha _

/-! ## The bounds -/

/-- The value an optional bound takes at an output position. -/
def optVal (b : Option (Arr Int)) (c : List Nat) : Option Int := b.map fun b => valAt b c

/-- An optional tensor of integers in the circuit. -/
def castOpt (p : Nat) (b : Option (Arr Int)) : Option (Arr (ZMod p)) := b.map (castArr p)

theorem optVal_optElem {b : Option (Arr Int)} {t : List Nat} {r : Option (Arr (ZMod p))}
    (h : Option.Rel (fun a r => Tracks a t r) b r) {c : List Nat} (hc : InRange t c) :
    optElem b c = optVal b c ∧ (optElem b c).isSome = b.isSome := by
  cases h with
  | none => exact ⟨rfl, rfl⟩
  | some h =>
    have := h.src c hc
    constructor
    · simpa [optElem, optVal] using this
    · simp [optElem, this]

theorem boundVals_eq {b : Option (Arr Int)} {t : List Nat} {r : Option (Arr (ZMod p))}
    (h : Option.Rel (fun a r => Tracks a t r) b r) :
    boundVals t.prod r = (List.range t.prod).map
      (fun k : Nat => (optVal b (unravel k t)).map fun z : Int => (z : ZMod p)) := by
  cases h with
  | none => simp [boundVals, optVal, List.map_const']
  | some h => simp [boundVals, optVal, h.data, List.map_map, Function.comp_def]

theorem optVal_mem {b : Option (Arr Int)} {t : List Nat} {r : Option (Arr (ZMod p))}
    (h : Option.Rel (fun a r => Tracks a t r) b r) {c : List Nat} (hc : InRange t c) {v : Int}
    (hv : v ∈ optVal b c) : ∃ a ∈ b, v ∈ a.data := by
  cases h with
  | none => simp [optVal] at hv
  | some h =>
    simp only [optVal, Option.map_some, Option.mem_def, Option.some.injEq] at hv
    subst hv
    exact ⟨_, rfl, valAt_mem (h.src c hc)⟩

theorem clipShapes_rel {b : Option (Arr Int)} {t : List Nat} {r : Option (Arr (ZMod p))} {x : Arr (ZMod p)}
    (hx : x.shape = t) (hb : Option.Rel (fun a r => ∃ t, Tracks a t r) b r) (h : clipShapesOk x r = true) :
    Option.Rel (fun a r => Tracks a t r) b r := by
  cases hb with
  | none => exact .none
  | some hb =>
    obtain ⟨t', hb⟩ := hb
    refine .some ?_
    have e : t' = t := by
      rw [← hb.shape, ← hx]
      simpa [clipShapesOk] using h
    subst e
    exact hb

theorem clipShapes_ok {b : Option (Arr Int)} {t : List Nat} {r : Option (Arr (ZMod p))} {x : Arr (ZMod p)}
    (hx : x.shape = t) (hb : Option.Rel (fun a r => Tracks a t r) b r) : clipShapesOk x r = true := by
  cases hb with
  | none => rfl
  | some hb => simp [clipShapesOk, hb.shape, hx]

/-- Where the operands of Clip stand after broadcasting. -/
structure ClipReady (x : Arr Int) (lo hi : Option (Arr Int)) (t : List Nat)
    (r : Arr (ZMod p) × Option (Arr (ZMod p)) × Option (Arr (ZMod p))) : Prop where
  shape : ∃ s, OptBroadcast x.shape lo s ∧ OptBroadcast s hi t
  data : Tracks x t r.1
  lower : Option.Rel (fun a r => Tracks a t r) lo r.2.1
  upper : Option.Rel (fun a r => Tracks a t r) hi r.2.2

theorem clipLower_ok {x : Arr Int} {lo : Option (Arr Int)} (hx : x.WF) (hlo : ∀ a ∈ lo, a.WF)
    {r : Arr (ZMod p) × Option (Arr (ZMod p))} (h : clipLower (castArr p x) (castOpt p lo) = .ok r) :
    ∃ s, OptBroadcast x.shape lo s ∧ Tracks x s r.1 ∧ Option.Rel (fun a r => Tracks a s r) lo r.2 := by
  cases lo with
  | none =>
    obtain rfl := Except.ok.inj h
    exact ⟨_, rfl, .self hx, .none⟩
  | some l =>
    simp only [castOpt, Option.map_some, clipLower] at h
    obtain ⟨q, hq, h⟩ := Layers.bind_eq_ok h
    obtain rfl := Except.ok.inj h
    obtain ⟨t, h1, h2, h3⟩ := (Tracks.self hx).two (.self (hlo l rfl)) hq
    exact ⟨t, h1, h2, .some h3⟩

theorem clipRealign_ok {x : Arr Int} {lo : Option (Arr Int)} {s t : List Nat} {y : Arr (ZMod p)}
    {l r : Option (Arr (ZMod p))} (hy : Tracks x t y) (hl : Option.Rel (fun a r => Tracks a s r) lo l)
    (h : clipRealign y l = .ok r) : Option.Rel (fun a r => ∃ t, Tracks a t r) lo r := by
  cases hl with
  | none => obtain rfl := Except.ok.inj h; exact .none
  | some hl =>
    simp only [clipRealign] at h
    split_ifs at h with e
    · obtain rfl := Except.ok.inj h; exact .some ⟨_, hl⟩
    · obtain ⟨q, hq, h⟩ := Layers.bind_eq_ok h
      obtain rfl := Except.ok.inj h
      obtain ⟨_, _, _, h3⟩ := hy.two hl hq
      exact .some ⟨_, h3⟩

theorem clipReady_of_ok {x : Arr Int} {lo hi : Option (Arr Int)} (hx : x.WF) (hlo : ∀ a ∈ lo, a.WF)
    (hhi : ∀ a ∈ hi, a.WF) {r1 : Arr (ZMod p) × Option (Arr (ZMod p))}
    {r2 : Arr (ZMod p) × Option (Arr (ZMod p)) × Option (Arr (ZMod p))}
    (h1 : clipLower (castArr p x) (castOpt p lo) = .ok r1) (h2 : clipUpper r1.1 r1.2 (castOpt p hi) = .ok r2)
    (c1 : clipShapesOk r2.1 r2.2.1 = true) : ∃ t, ClipReady x lo hi t r2 := by
  obtain ⟨s, hs, t1, t2⟩ := clipLower_ok hx hlo h1
  cases hi with
  | none =>
    obtain rfl := Except.ok.inj h2
    exact ⟨s, ⟨s, hs, rfl⟩, t1, t2, .none⟩
  | some h =>
    simp only [castOpt, Option.map_some, clipUpper] at h2
    obtain ⟨q, hq, h2⟩ := Layers.bind_eq_ok h2
    obtain ⟨l, hl, h2⟩ := Layers.bind_eq_ok h2
    obtain rfl := Except.ok.inj h2
    obtain ⟨t, h3, h4, h5⟩ := t1.two (.self (hhi h rfl)) hq
    exact ⟨t, ⟨s, hs, h3⟩, h4, clipShapes_rel h4.shape (clipRealign_ok h4 t2 hl) c1, .some h5⟩

theorem clipReady_exists {x : Arr Int} {lo hi : Option (Arr Int)} (hx : x.WF) (hlo : ∀ a ∈ lo, a.WF)
    (hhi : ∀ a ∈ hi, a.WF) (zx : ∀ d ∈ x.shape, d ≠ 0) (zlo : ∀ a ∈ lo, ∀ d ∈ a.shape, d ≠ 0)
    (zhi : ∀ a ∈ hi, ∀ d ∈ a.shape, d ≠ 0) {s t : List Nat} (hs : OptBroadcast x.shape lo s)
    (ht : OptBroadcast s hi t) :
    ∃ r1 : Arr (ZMod p) × Option (Arr (ZMod p)), ∃ r2,
      clipLower (castArr p x) (castOpt p lo) = .ok r1 ∧ clipUpper r1.1 r1.2 (castOpt p hi) = .ok r2 ∧
      ClipReady x lo hi t r2 := by
  have key : ∃ r1 : Arr (ZMod p) × Option (Arr (ZMod p)), clipLower (castArr p x) (castOpt p lo) = .ok r1 ∧
      Tracks x s r1.1 ∧ Option.Rel (fun a r => Tracks a s r) lo r1.2 ∧ ∀ d ∈ s, d ≠ 0 := by
    cases lo with
    | none => obtain rfl : s = x.shape := hs; exact ⟨_, rfl, .self hx, .none, zx⟩
    | some l =>
      obtain ⟨q, hq, h1, h2⟩ := (Tracks.self (p := p) hx).exists_two (.self (hlo l rfl)) zx (zlo l rfl) hs
      refine ⟨(q.1, some q.2), ?_, h1, .some h2, isBroadcast_pos zx (zlo l rfl) hs⟩
      simp only [castOpt, Option.map_some, clipLower, hq]
      rfl
  obtain ⟨r1, h1, t1, t2, zs⟩ := key
  cases hi with
  | none =>
    obtain rfl : t = s := ht
    exact ⟨r1, (r1.1, r1.2, none), h1, rfl, ⟨t, hs, rfl⟩, t1, t2, .none⟩
  | some h =>
    obtain ⟨q, hq, h3, h4⟩ := t1.exists_two (.self (hhi h rfl)) zs (zhi h rfl) ht
    have st : Stretches s t := (stretches_of_ok ht).1
    have zt : ∀ d ∈ t, d ≠ 0 := isBroadcast_pos zs (zhi h rfl) ht
    have key2 : ∃ l, clipRealign q.1 r1.2 = .ok l ∧ Option.Rel (fun a r => Tracks a t r) lo l := by
      generalize r1.2 = l0 at t2
      cases t2 with
      | none => exact ⟨none, rfl, .none⟩
      | @some a l tl =>
        by_cases e : l.shape = q.1.shape
        · refine ⟨some l, by simp only [clipRealign, if_pos e], ?_⟩
          rw [tl.shape, h3.shape] at e
          subst e
          exact .some tl
        · obtain ⟨q2, hq2, _, h6⟩ := h3.exists_two tl zt zs (isBroadcast_of_stretches st)
          refine ⟨some q2.2, ?_, .some h6⟩
          simp only [clipRealign, if_neg e, hq2]
          rfl
    obtain ⟨l, hl, hl2⟩ := key2
    refine ⟨r1, (q.1, l, some q.2), h1, ?_, ⟨s, hs, ht⟩, h3, hl2, .some h4⟩
    simp only [castOpt, Option.map_some, clipUpper, hq]
    show (clipRealign q.1 r1.2 >>= fun lo' => Except.ok (q.1, lo', some q.2)) = _
    rw [hl]
    rfl

theorem isBounded_of_ready {x : Arr Int} {lo hi : Option (Arr Int)} {t : List Nat}
    {r : Arr (ZMod p) × Option (Arr (ZMod p)) × Option (Arr (ZMod p))} (hr : ClipReady x lo hi t r)
    {ys : List (ZMod p)}
    (h : List.Forall₂ (fun k y => y = ((clipSpec (optVal lo (unravel k t)) (optVal hi (unravel k t))
      (valAt x (unravel k t)) : Int) : ZMod p)) (List.range t.prod) ys) :
    IsBounded x lo hi (fun l h u w => w = ((clipSpec l h u : Int) : ZMod p)) ⟨t, ys⟩ := by
  obtain ⟨h3, h4⟩ := collected (R := fun c y => y = ((clipSpec (optVal lo c) (optVal hi c)
      (valAt x c) : Int) : ZMod p)) h
  refine ⟨hr.shape, h3, fun c hc => ?_⟩
  obtain ⟨w, h5, h6⟩ := h4 c hc
  obtain ⟨e1, e2⟩ := optVal_optElem hr.lower hc
  obtain ⟨e3, e4⟩ := optVal_optElem hr.upper hc
  refine ⟨e2, e4, _, w, hr.data.src c hc, h5, ?_⟩
  rw [e1, e3]
  exact h6

theorem isBounded_none {x : Arr Int} (hx : x.WF) :
    IsBounded x none none (fun l h u w => w = ((clipSpec l h u : Int) : ZMod p)) (castArr p x) := by
  refine ⟨⟨_, rfl, rfl⟩, castArr_WF hx, fun c hc => ⟨rfl, rfl, ?_⟩⟩
  have t := Tracks.self (p := p) hx
  exact ⟨_, _, t.src c hc, t.elems c hc, rfl⟩

/-- **C56, Clip is sound.** Every accepted output is the entry of the data bounded below by the entry of
the lower bound and then above by the entry of the upper bound, both read with broadcasting; a missing
bound does nothing. Missing: digit widths that do not divide the number of bits (`C06_unsound`). -/
theorem C56_clip_sound_partial {rc : RangeCtx} (hT : IsRangeTable T rc) (hc : 0 < rc.chunk) {nb : Nat}
    (hd : rc.chunk ∣ nb) (hp : 2 ^ (nb + 1) ≤ p) (x : Arr Int) (lo hi : Option (Arr Int)) (hx : x.WF)
    (hlo : ∀ a ∈ lo, a.WF) (hhi : ∀ a ∈ hi, a.WF) (rx : Signed nb x) (rlo : ∀ a ∈ lo, Signed nb a)
    (rhi : ∀ a ∈ hi, Signed nb a) :
    Sound T (clipLayer rc nb (castArr p x) (castOpt p lo) (castOpt p hi))
      (IsBounded x lo hi fun l h u w => w = ((clipSpec l h u : Int) : ZMod p)) := by
  unfold clipLayer
  split_ifs with h0 hn
  · exact Sound.throwErr
  · have e : lo = none ∧ hi = none := by
      cases lo <;> cases hi <;> simp_all [castOpt]
    obtain ⟨rfl, rfl⟩ := e
    exact Sound.pure (isBounded_none hx)
  · obtain ⟨s, rfl⟩ : ∃ s, nb = s + 1 := ⟨nb - 1, by omega⟩
    refine Sound.bind sound_liftR fun r1 h1 => Sound.bind sound_liftR fun r2 h2 => ?_
    split_ifs with hs
    · exact Sound.throwErr
    · simp only [Bool.or_eq_true, Bool.not_eq_true', not_or, Bool.not_eq_false] at hs
      obtain ⟨t, hr⟩ := clipReady_of_ok hx hlo hhi h1 h2 hs.1
      refine Sound.bind sound_shiftCtx ?_
      rintro _ rfl
      have hlen : r2.1.data.length = t.prod := by rw [hr.data.wf, hr.data.shape]
      rw [hlen, boundVals_eq hr.lower, boundVals_eq hr.upper, hr.data.data, zip_map_map, zip_map_map,
        collectG_map]
      refine Sound.bind (sound_collectG (Q := fun k y => y = ((clipSpec (optVal lo (unravel k t))
        (optVal hi (unravel k t)) (valAt x (unravel k t)) : Int) : ZMod p)) _ fun k hk => ?_) fun ys hys => ?_
      · have hk' := unravel_inRange (List.mem_range.1 hk)
        refine C06_clip_sound_partial hT hc hd hp _ _ _ (rx _ (valAt_mem (hr.data.src _ hk'))) ?_ ?_
        · intro v hv
          obtain ⟨a, ha, hm⟩ := optVal_mem hr.lower hk' hv
          exact rlo a ha v hm
        · intro v hv
          obtain ⟨a, ha, hm⟩ := optVal_mem hr.upper hk' hv
          exact rhi a ha v hm
      · refine sound_liftR.conseq fun out ho => ?_
        unfold fromShapeVec at ho
        split_ifs at ho
        obtain rfl := Except.ok.inj ho
        rw [hr.data.shape]
        exact isBounded_of_ready hr hys

/-- **C56, Clip is complete** for every digit width. Missing: tensors with an empty dimension
(`C37_empty_rejected`). -/
theorem C56_clip_complete_partial {rc : RangeCtx} (hT : IsRangeTable T rc) {nb : Nat} (hn : 1 ≤ nb)
    (hn64 : nb ≤ 64) (hu : RangeUsable p rc nb) (x : Arr Int) (lo hi : Option (Arr Int)) (hx : x.WF)
    (hlo : ∀ a ∈ lo, a.WF) (hhi : ∀ a ∈ hi, a.WF) (rx : Signed nb x) (rlo : ∀ a ∈ lo, Signed nb a)
    (rhi : ∀ a ∈ hi, Signed nb a) (zx : ∀ d ∈ x.shape, d ≠ 0) (zlo : ∀ a ∈ lo, ∀ d ∈ a.shape, d ≠ 0)
    (zhi : ∀ a ∈ hi, ∀ d ∈ a.shape, d ≠ 0)
    (hb : ∃ s t, OptBroadcast x.shape lo s ∧ OptBroadcast s hi t) :
    Complete T (clipLayer rc nb (castArr p x) (castOpt p lo) (castOpt p hi))
      (IsBounded x lo hi fun l h u w => w = ((clipSpec l h u : Int) : ZMod p)) := by
  obtain ⟨n, rfl⟩ : ∃ n, nb = n + 1 := ⟨nb - 1, by omega⟩
  unfold clipLayer
  rw [if_neg (by omega)]
  split_ifs with hnn
  · have e : lo = none ∧ hi = none := by
      cases lo <;> cases hi <;> simp_all [castOpt]
    obtain ⟨rfl, rfl⟩ := e
    exact Complete.pure (isBounded_none hx)
  · obtain ⟨s, t, hs, ht⟩ := hb
    obtain ⟨r1, r2, h1, h2, hr⟩ := clipReady_exists (p := p) hx hlo hhi zx zlo zhi hs ht
    refine Complete.bind (complete_liftR h1) ?_
    rintro r1 rfl
    refine Complete.bind (complete_liftR h2) ?_
    rintro r2 rfl
    rw [if_neg (by simp [clipShapes_ok hr.data.shape hr.lower, clipShapes_ok hr.data.shape hr.upper])]
    refine Complete.bind (complete_shiftCtx (by omega)) ?_
    rintro _ rfl
    have hlen : r2.1.data.length = t.prod := by rw [hr.data.wf, hr.data.shape]
    rw [hlen, boundVals_eq hr.lower, boundVals_eq hr.upper, hr.data.data, zip_map_map, zip_map_map,
      collectG_map]
    refine Complete.bind (complete_collectG (Q := fun k y => y = ((clipSpec (optVal lo (unravel k t))
      (optVal hi (unravel k t)) (valAt x (unravel k t)) : Int) : ZMod p)) _ fun k hk => ?_) fun ys hys => ?_
    · have hk' := unravel_inRange (List.mem_range.1 hk)
      refine C06_clip_complete hT hu _ _ _ (rx _ (valAt_mem (hr.data.src _ hk'))) ?_ ?_
      · intro v hv
        obtain ⟨a, ha, hm⟩ := optVal_mem hr.lower hk' hv
        exact rlo a ha v hm
      · intro v hv
        obtain ⟨a, ha, hm⟩ := optVal_mem hr.upper hk' hv
        exact rhi a ha v hm
    · refine Complete.conseq (complete_liftR (a := ⟨t, ys⟩) ?_) fun out ho => ?_
      · unfold fromShapeVec
        rw [hr.data.shape, if_pos (by rw [← hys.length_eq, List.length_range])]
      · subst ho
        exact isBounded_of_ready hr hys

/-- Clip needs at least one bit, even without bounds. -/
theorem C56_clip_refuses (rc : RangeCtx) (x : Arr (ZMod p)) (lo hi : Option (Arr (ZMod p)))
    (hs : Hints (ZMod p)) : ∃ m, clipLayer rc 0 x lo hi hs = .error (.err m) := ⟨_, rfl⟩

/-! ## The hypotheses are met -/

/-- A 2×3 tensor with both signs, a row and a scalar. -/
def ewX : Arr Int := ⟨[2, 3], [-7, 0, 9, 100, -100, 5]⟩
def ewRow : Arr Int := ⟨[3], [2, -3, 4]⟩
def ewLo : Arr Int := ⟨[], [-10]⟩
def ewHi : Arr Int := ⟨[2, 1], [6, 8]⟩

example : IsBroadcast [2, 3] [3] [2, 3] := (broadcastShapes_ok_iff _ _ _).1 (by decide +kernel)
example : ¬ ∃ s, IsBroadcast [2, 3] [2] s := by
  rintro ⟨s, h⟩
  have := (broadcastShapes_ok_iff _ _ _).2 h
  rw [show broadcastShapes [2, 3] [2] = .error .invalid by decide +kernel] at this
  exact absurd this (by simp)

example : Sound (rangeTables goldP ⟨0, 8⟩) (mulLayer ⟨0, 8⟩ true 8 16 true (castArr goldP ewX) (castArr goldP ewRow))
    (IsBinary ewX ewRow fun u v w => w = ((postSpec true 8 true (u * v) : Int) : ZMod goldP)) :=
  C56_mul_sound_partial (rangeTables_spec _) (by norm_num) (by norm_num) (by norm_num) (by norm_num)
    (by norm_num [goldP]) true true _ _ rfl rfl (by simp only [postRange]; decide +kernel)

example : Complete (rangeTables goldP ⟨0, 8⟩)
    (mulLayer ⟨0, 8⟩ true 8 16 true (castArr goldP ewX) (castArr goldP ewRow))
    (IsBinary ewX ewRow fun u v w => w = ((postSpec true 8 true (u * v) : Int) : ZMod goldP)) :=
  C56_mul_complete_partial (rangeTables_spec _) (by norm_num) (by norm_num) (by norm_num)
    ⟨by norm_num, by norm_num, by norm_num, by norm_num, by norm_num, by norm_num [slackBits, goldP]⟩
    ⟨by norm_num, by norm_num, by norm_num, by norm_num, by norm_num, by norm_num [slackBits, goldP]⟩
    (by norm_num [goldP]) true true _ _ rfl rfl (by decide) (by decide)
    ⟨[2, 3], (broadcastShapes_ok_iff _ _ _).1 (by decide +kernel)⟩ (by simp only [postRange]; decide +kernel)

example : Sound (rangeTables goldP ⟨0, 8⟩) (maxLayer ⟨0, 8⟩ 16 (castArr goldP ewX) (castArr goldP ewRow))
    (IsBinary ewX ewRow fun u v w => w = ((max u v : Int) : ZMod goldP)) :=
  (C56_max_min_sound_partial (rangeTables_spec _) (by norm_num) (by norm_num) (by norm_num [goldP]) ewX ewRow rfl rfl
    (by unfold Signed; decide +kernel) (by unfold Signed; decide +kernel)).1

/-- Divisors 1, 256 (eight-bit digits divide eight bits) in one tensor. -/
example : Sound (rangeTables goldP ⟨0, 8⟩) (divLayer ⟨0, 8⟩ 8 16 (castArr goldP ewX) (some ⟨[3], [1, 256, 1]⟩))
    (IsBinary ewX (⟨[3], [1, 256, 1]⟩ : Arr Int) fun u d w => 0 < d ∧ w = ((u / d : Int) : ZMod goldP)) :=
  C56_div_sound_partial (rangeTables_spec _) (by norm_num) (by norm_num) _ _ rfl rfl
    (by unfold DivFits; decide +kernel)

/-- Divisor 3 with eight-bit digits: complete. -/
example : Complete (rangeTables goldP ⟨0, 8⟩) (divLayer ⟨0, 8⟩ 8 16 (castArr goldP ewX) (some ⟨[1], [3]⟩))
    (IsBinary ewX (⟨[1], [3]⟩ : Arr Int) fun u d w => 0 < d ∧ w = ((u / d : Int) : ZMod goldP)) :=
  C56_div_complete (rangeTables_spec _) (by norm_num) (by norm_num) (by norm_num)
    ⟨by norm_num, by norm_num, by norm_num, by norm_num, by norm_num, by norm_num [slackBits, goldP]⟩
    _ _ rfl rfl ⟨[2, 3], (broadcastShapes_ok_iff _ _ _).1 (by decide +kernel)⟩ (by decide +kernel)
    (by
      intro u hu d hd _
      simp only [List.mem_singleton] at hd
      subst hd
      refine ⟨?_, by norm_num [goldP], ?_⟩
      · rw [show bitLen ((3 : Int).toNat - 1) = 2 by decide +kernel]
        exact ⟨by norm_num, by norm_num, by norm_num, by norm_num, by norm_num, by norm_num [slackBits, goldP]⟩
      · revert u; decide +kernel)

example : Sound (rangeTables goldP ⟨0, 8⟩)
    (clipLayer ⟨0, 8⟩ 16 (castArr goldP ewX) (castOpt goldP (some ewLo)) (castOpt goldP (some ewHi)))
    (IsBounded ewX (some ewLo) (some ewHi) fun l h u w => w = ((clipSpec l h u : Int) : ZMod goldP)) :=
  C56_clip_sound_partial (rangeTables_spec _) (by norm_num) (by norm_num) (by norm_num [goldP]) _ _ _ rfl
    (by rintro _ ⟨⟩; rfl) (by rintro _ ⟨⟩; rfl) (by unfold Signed; decide +kernel)
    (by rintro _ ⟨⟩; unfold Signed; decide +kernel) (by rintro _ ⟨⟩; unfold Signed; decide +kernel)

example : Complete (rangeTables goldP ⟨0, 8⟩)
    (clipLayer ⟨0, 8⟩ 16 (castArr goldP ewX) (castOpt goldP (some ewLo)) (castOpt goldP (some ewHi)))
    (IsBounded ewX (some ewLo) (some ewHi) fun l h u w => w = ((clipSpec l h u : Int) : ZMod goldP)) :=
  C56_clip_complete_partial (rangeTables_spec _) (by norm_num) (by norm_num)
    ⟨by norm_num, by norm_num, by norm_num, by norm_num, by norm_num, by norm_num [slackBits, goldP]⟩ _ _ _ rfl
    (by rintro _ ⟨⟩; rfl) (by rintro _ ⟨⟩; rfl) (by unfold Signed; decide +kernel)
    (by rintro _ ⟨⟩; unfold Signed; decide +kernel) (by rintro _ ⟨⟩; unfold Signed; decide +kernel)
    (by decide) (by rintro _ ⟨⟩; decide) (by rintro _ ⟨⟩; decide)
    ⟨[2, 3], [2, 3], (broadcastShapes_ok_iff _ _ _).1 (by decide +kernel),
      (broadcastShapes_ok_iff _ _ _).1 (by decide +kernel)⟩

/-- With seventeen bits and eight-bit digits the maximum of 9 and 2 can be proved to be 2. -/
example : Forge (rangeTables goldP ⟨0, 8⟩) (maxLayer ⟨0, 8⟩ 17 (castArr goldP ⟨[1], [9]⟩) (castArr goldP ⟨[1], [2]⟩))
    (IsBinary (⟨[1], [9]⟩ : Arr Int) (⟨[1], [2]⟩ : Arr Int) fun _ v w => w = ((v : Int) : ZMod goldP)) :=
  C56_max_unsound (rangeTables_spec _) (by norm_num) (by norm_num)
    ⟨by norm_num, by norm_num, by norm_num, by norm_num, by norm_num⟩ (by decide) _ _ rfl rfl
    (by unfold Signed; decide +kernel) (by unfold Signed; decide +kernel) (by decide) (by decide)
    ⟨[1], (broadcastShapes_ok_iff _ _ _).1 (by decide +kernel)⟩ (by decide)

end JST.Props
