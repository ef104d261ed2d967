import Verif.Tensor.ConcatProofs

/-! # Tile -/

namespace JST.Layers

open JST.Shape JST.Spec

theorem axisSizes_replicate {α : Type} (axis rep : Nat) (x : Arr α) :
    axisSizes axis (List.replicate rep x) = List.replicate rep (x.shape.getD axis 0) := by
  simp [axisSizes]

/-- Concatenating copies of a tensor. -/
theorem concatenate_replicate {α : Type} [Inhabited α] {axis rep : Nat} {x : Arr α} (hx : x.WF)
    (hax : axis < x.shape.length) (hr : rep ≠ 0) :
    ∃ y, concatenate axis (List.replicate rep x) = .ok y ∧
      y.shape = x.shape.set axis (x.shape.getD axis 0 * rep) ∧
      Reads x y fun c => c.set axis (c.getD axis 0 % x.shape.getD axis 0) := by
  obtain ⟨n, rfl⟩ := Nat.exists_eq_succ_of_ne_zero hr
  have hmem : ∀ a ∈ x :: List.replicate n x, a = x := by
    intro a ha
    rcases List.mem_cons.1 ha with rfl | ha
    · rfl
    · exact (List.mem_replicate.1 ha).2
  obtain ⟨y, h1, h2, h3⟩ := concatenate_ok (axis := axis) (x := x) (rest := List.replicate n x)
    (fun a ha => hmem a ha ▸ hx) hax (by
      intro s hs t ht
      obtain ⟨a, ha, rfl⟩ := List.mem_map.1 hs
      obtain ⟨b, hb, rfl⟩ := List.mem_map.1 ht
      rw [hmem a ha, hmem b hb]
      exact ⟨rfl, fun _ _ => rfl⟩)
  have hsum : (axisSizes axis (x :: List.replicate n x)).sum = x.shape.getD axis 0 * (n + 1) := by
    rw [← List.replicate_succ, axisSizes_replicate]
    simp [Nat.mul_comm]
  refine ⟨y, h1, by rw [h3, hsum], h2.1, fun c hc => ?_⟩
  obtain ⟨wy, ay, _, py⟩ := h2
  have hcl := hc.length
  have hyl : y.shape.length = x.shape.length := by rw [h3]; simp
  have hi := (inRange_iff.1 hc).2 axis ay
  rw [h3, hsum, getD_set _ _ _ _ _ hax, if_pos rfl] at hi
  have hd : 0 < x.shape.getD axis 0 := by
    rcases Nat.eq_zero_or_pos (x.shape.getD axis 0) with h | h
    · rw [h] at hi; omega
    · exact h
  have hin : InRange x.shape (c.set axis (c.getD axis 0 % x.shape.getD axis 0)) := by
    rw [inRange_iff]
    refine ⟨by simpa using hcl.trans hyl, fun a ha => ?_⟩
    rw [getD_set _ _ _ _ _ (by omega)]
    split_ifs with h
    · subst h; exact Nat.mod_lt _ hd
    · have := (inRange_iff.1 hc).2 a (by omega)
      rwa [h3, getD_set _ _ _ _ _ hax, if_neg h] at this
  refine ⟨hin, ?_⟩
  have hk : c.getD axis 0 / x.shape.getD axis 0 < n + 1 := Nat.div_lt_of_lt_mul hi
  have hget : (x :: List.replicate n x)[c.getD axis 0 / x.shape.getD axis 0]? = some x := by
    rw [← List.replicate_succ, List.getElem?_replicate, if_pos hk]
  have hp := ((isPart_iff ay).1 (py _ x hget)).2.2 _ hin
  have hback : (c.set axis (c.getD axis 0 % x.shape.getD axis 0)).set axis
      ((c.set axis (c.getD axis 0 % x.shape.getD axis 0)).getD axis 0 +
        ((axisSizes axis (x :: List.replicate n x)).take
          (c.getD axis 0 / x.shape.getD axis 0)).sum) = c := by
    rw [List.set_set, getD_set _ _ _ _ _ (by omega), if_pos rfl, ← List.replicate_succ,
      axisSizes_replicate, List.take_replicate, List.sum_replicate, Nat.min_eq_left hk.le,
      smul_eq_mul, Nat.mul_comm, Nat.mod_add_div, List.getD_eq_getElem _ _ (by omega),
      List.set_getElem_self]
  rw [hback] at hp
  exact hp.2.symm

/-- Shape after the axes from `k` on are tiled. -/
def tileShape (k : Nat) (s reps : List Nat) : List Nat :=
  (List.range s.length).map fun i => if i < k then s.getD i 0 else s.getD i 0 * reps.getD (i - k) 1

/-- Where an element comes from after the axes from `k` on are tiled. -/
def tileSrc (k : Nat) (s c : List Nat) : List Nat :=
  (List.range s.length).map fun i => if i < k then c.getD i 0 else c.getD i 0 % s.getD i 0

theorem map_range_getD (l : List Nat) : (List.range l.length).map (fun i => l.getD i 0) = l := by
  apply List.ext_getElem
  · simp
  · intro i h1 h2
    rw [List.getElem_map, List.getElem_range, List.getD_eq_getElem _ _ h2]

theorem applyTile_ok {α : Type} [Inhabited α] : ∀ (reps : List Nat) (k : Nat) (x : Arr α), x.WF →
    x.shape.length = k + reps.length → (∀ r ∈ reps, r ≠ 0) →
    ∃ y, applyTile (reps.zipIdx k) x = .ok y ∧ y.shape = tileShape k x.shape reps ∧
      Reads x y (tileSrc k x.shape)
  | [], k, x, hx, hl, _ => by
    simp only [List.length_nil, Nat.add_zero] at hl
    refine ⟨x, rfl, ?_, hx, fun c hc => ?_⟩
    · unfold tileShape
      refine (map_range_getD _).symm.trans (List.map_congr_left fun i hi => ?_)
      rw [List.mem_range] at hi
      rw [if_pos (by omega)]
    · have : tileSrc k x.shape c = c := by
        unfold tileSrc
        rw [← hc.length]
        refine Eq.trans (List.map_congr_left fun i hi => ?_) (map_range_getD c)
        rw [List.mem_range, hc.length] at hi
        rw [if_pos (by omega)]
      rw [this]
      exact ⟨hc, rfl⟩
  | r :: reps, k, x, hx, hl, hr => by
    have hr0 : r ≠ 0 := hr r (by simp)
    rw [List.length_cons] at hl
    have hstep : ∃ z, applyTile ((r :: reps).zipIdx k) x = applyTile (reps.zipIdx (k + 1)) z ∧
        z.shape = x.shape.set k (x.shape.getD k 0 * r) ∧
        Reads x z fun c => c.set k (c.getD k 0 % x.shape.getD k 0) := by
      rw [List.zipIdx_cons]
      simp only [applyTile]
      rw [if_neg hr0]
      by_cases h1 : r = 1
      · subst h1
        refine ⟨x, by rw [if_pos rfl], ?_, hx, fun c hc => ?_⟩
        · rw [Nat.mul_one, List.getD_eq_getElem _ _ (by omega), List.set_getElem_self]
        · have hcl := hc.length
          have : c.set k (c.getD k 0 % x.shape.getD k 0) = c := by
            rw [Nat.mod_eq_of_lt ((inRange_iff.1 hc).2 k (by omega)),
              List.getD_eq_getElem _ _ (by omega), List.set_getElem_self]
          dsimp only
          rw [this]
          exact ⟨hc, rfl⟩
      · rw [if_neg h1]
        obtain ⟨z, e1, e2, e3⟩ := concatenate_replicate (axis := k) hx (by omega) hr0
        refine ⟨z, ?_, e2, e3⟩
        rw [e1]
        rfl
    obtain ⟨z, e0, e1, e2, e3⟩ := hstep
    have hzl : z.shape.length = x.shape.length := by rw [e1]; simp
    obtain ⟨y, f1, f2, f3, f4⟩ := applyTile_ok reps (k + 1) z e2 (by rw [hzl]; omega)
      (fun q hq => hr q (by simp [hq]))
    have hz : ∀ i, z.shape.getD i 0 = if i = k then x.shape.getD k 0 * r else x.shape.getD i 0 := by
      intro i
      rw [e1, getD_set _ _ _ _ _ (by omega)]
    refine ⟨y, e0.trans f1, ?_, f3, fun c hc => ?_⟩
    · rw [f2]
      unfold tileShape
      rw [hzl]
      refine List.map_congr_left fun i hi => ?_
      rw [hz i]
      rcases lt_trichotomy i k with h | h | h
      · rw [if_pos (by omega), if_neg (by omega), if_pos h]
      · subst h
        rw [if_pos (by omega), if_pos rfl, if_neg (by omega), Nat.sub_self]
        rfl
      · rw [if_neg (by omega), if_neg (by omega), if_neg (by omega),
          show i - k = (i - (k + 1)) + 1 by omega]
        simp
    · obtain ⟨g1, g2⟩ := f4 c hc
      obtain ⟨g3, g4⟩ := e3 _ g1
      have : (tileSrc (k + 1) z.shape c).set k
          ((tileSrc (k + 1) z.shape c).getD k 0 % x.shape.getD k 0) = tileSrc k x.shape c := by
        have hk0 : (tileSrc (k + 1) z.shape c).getD k 0 = c.getD k 0 := by
          unfold tileSrc
          rw [getD_map_range _ _ (by omega), if_pos (by omega)]
        rw [hk0]
        apply List.ext_getElem
        · simp [tileSrc, hzl]
        · intro i h1 h2
          have hi : i < x.shape.length := by simpa [tileSrc] using h2
          rw [List.getElem_set]
          simp only [tileSrc, List.getElem_map, List.getElem_range]
          rw [hz i]
          rcases lt_trichotomy i k with h | h | h
          · rw [if_neg (by omega), if_pos (by omega), if_pos h]
          · subst h
            rw [if_pos rfl, if_neg (by omega)]
          · rw [if_neg (by omega), if_neg (by omega), if_neg (by omega), if_neg (by omega)]
      simp only [this] at g3 g4
      exact ⟨g3, g2.trans g4⟩

theorem inferTile_ok_iff {shape : List Nat} {repeats : List Int} {out : List Nat} :
    inferTile shape repeats = .ok out ↔ repeats.length ≤ shape.length ∧ (∀ r ∈ repeats, 1 ≤ r) ∧
      out = List.zipWith (· * ·) shape ((tileReps shape.length repeats).map Int.toNat) ∧
      ∀ d ∈ out, d < usizeMax := by
  unfold inferTile
  split_ifs with h
  · constructor
    · intro h'; cases h'
    · rintro ⟨h', _⟩; omega
  · rw [mapM_ok_iff]
    have hl : repeats.length ≤ shape.length := by omega
    have hrl : (tileReps shape.length repeats).length = shape.length := by
      simp [tileReps]; omega
    have hone : (∀ r ∈ repeats, 1 ≤ r) ↔ ∀ r ∈ tileReps shape.length repeats, 1 ≤ r := by
      unfold tileReps
      simp only [List.mem_append, List.mem_replicate]
      constructor
      · rintro h r (⟨_, rfl⟩ | hr)
        · exact le_refl _
        · exact h r hr
      · intro h r hr; exact h r (.inr hr)
    rw [hone]
    change List.Forall₂ _ (shape.zip (tileReps shape.length repeats)) out ↔ _
    generalize tileReps shape.length repeats = rs at *
    have key : ∀ (s : List Nat) (rs : List Int) (o : List Nat), rs.length = s.length →
        (List.Forall₂ (fun (dr : Nat × Int) y =>
          (if dr.2 < 1 then (.error .invalid : R Nat)
            else if dr.1 * dr.2.toNat < usizeMax then .ok (dr.1 * dr.2.toNat) else .error .invalid)
            = .ok y) (s.zip rs) o ↔
          (∀ r ∈ rs, 1 ≤ r) ∧ o = List.zipWith (· * ·) s (rs.map Int.toNat) ∧
            ∀ d ∈ o, d < usizeMax) := by
      intro s
      induction s with
      | nil =>
        intro rs o hl
        have : rs = [] := List.eq_nil_of_length_eq_zero (by simpa using hl)
        subst this
        simp only [List.zip_nil_left, List.forall₂_nil_left_iff, List.map_nil, List.zipWith_nil_left,
          List.not_mem_nil, false_imp_iff, implies_true, true_and]
        constructor
        · rintro rfl; simp
        · rintro ⟨rfl, _⟩; rfl
      | cons d s ih =>
        intro rs o hl
        cases rs with
        | nil => simp at hl
        | cons r rs =>
          rw [List.zip_cons_cons, List.map_cons, List.zipWith_cons_cons]
          constructor
          · intro hf
            cases hf with
            | cons h1 h2 =>
              obtain ⟨a1, a2, a3⟩ := (ih rs _ (by simpa using hl)).1 h2
              simp only at h1
              split_ifs at h1 with b1 b2
              cases h1
              refine ⟨?_, by rw [← a2], ?_⟩
              · intro q hq
                rcases List.mem_cons.1 hq with rfl | hq
                · omega
                · exact a1 q hq
              · intro q hq
                rcases List.mem_cons.1 hq with rfl | hq
                · exact b2
                · exact a3 q hq
          · rintro ⟨a1, rfl, a3⟩
            refine .cons ?_ ((ih rs _ (by simpa using hl)).2 ⟨fun q hq => a1 q (by simp [hq]), rfl,
              fun q hq => a3 q (by simp [hq])⟩)
            have := a1 r (by simp)
            simp only
            rw [if_neg (by omega), if_pos (a3 _ (by simp))]
    rw [key shape rs out hrl]
    exact ⟨fun h => ⟨hl, h⟩, fun h => h.2⟩

theorem buildTile_ok {shape reps : List Nat} (hl : reps.length = shape.length)
    (hs : ∀ d ∈ shape, d ≠ 0) (hr : ∀ r ∈ reps, r ≠ 0) :
    buildTile shape (List.zipWith (· * ·) shape reps) = .ok reps := by
  unfold buildTile
  rw [if_neg (by simp [hl]), mapM_ok_iff]
  induction shape generalizing reps with
  | nil =>
    have : reps = [] := List.eq_nil_of_length_eq_zero (by simpa using hl)
    subst this; exact .nil
  | cons d shape ih =>
    cases reps with
    | nil => simp at hl
    | cons r reps =>
      rw [List.zipWith_cons_cons, List.zip_cons_cons]
      have hd := hs d (by simp)
      have hr' := hr r (by simp)
      refine .cons ?_ (ih (by simpa using hl) (fun q hq => hs q (by simp [hq]))
        fun q hq => hr q (by simp [hq]))
      simp only
      rw [if_neg (Nat.mul_ne_zero hd hr'), if_neg hd, if_neg (by simp),
        Nat.mul_div_cancel_left _ (Nat.pos_of_ne_zero hd)]

theorem runTile_ok {α : Type} [Inhabited α] {repeats : List Int} (x : Arr α) (hx : x.WF)
    (hs : ∀ d ∈ x.shape, d ≠ 0) (hl : repeats.length ≤ x.shape.length) (hr : ∀ r ∈ repeats, 1 ≤ r)
    (hsz : ∀ d ∈ List.zipWith (· * ·) x.shape ((tileReps x.shape.length repeats).map Int.toNat),
      d < usizeMax) :
    ∃ y, runTile repeats x = .ok y ∧
      IsTile ((tileReps x.shape.length repeats).map Int.toNat) x y := by
  have hrl : ((tileReps x.shape.length repeats).map Int.toNat).length = x.shape.length := by
    simp [tileReps]; omega
  have hr0 : ∀ r ∈ (tileReps x.shape.length repeats).map Int.toNat, r ≠ 0 := by
    intro r hr'
    obtain ⟨q, hq, rfl⟩ := List.mem_map.1 hr'
    unfold tileReps at hq
    rw [List.mem_append, List.mem_replicate] at hq
    rcases hq with ⟨_, rfl⟩ | hq
    · decide
    · have := hr q hq; omega
  obtain ⟨y, h1, h2, h3, h4⟩ := applyTile_ok _ 0 x hx (by rw [hrl]; omega) hr0
  refine ⟨y, ?_, ?_, h3, fun c hc => ?_⟩
  · unfold runTile
    rw [inferTile_ok_iff.2 ⟨hl, hr, rfl, hsz⟩]
    show (do
      let reps ← buildTile x.shape
        (List.zipWith (· * ·) x.shape ((tileReps x.shape.length repeats).map Int.toNat))
      applyTile reps.zipIdx x) = _
    rw [buildTile_ok hrl hs hr0]
    exact h1
  · rw [h2]
    apply List.ext_getElem
    · simp [tileShape, hrl]
    · intro i i1 i2
      have hi : i < x.shape.length := by simpa [tileShape] using i1
      simp only [tileShape, List.getElem_map, List.getElem_range, Nat.not_lt_zero, if_false,
        Nat.sub_zero, List.getElem_zipWith]
      rw [List.getD_eq_getElem _ _ hi, List.getD_eq_getElem _ _ (by omega), List.getElem_map]
  · have hcl : c.length = x.shape.length := by rw [hc.length, h2]; simp [tileShape]
    have : tileSrc 0 x.shape c = List.zipWith (· % ·) c x.shape := by
      apply List.ext_getElem
      · simp [tileSrc, hcl]
      · intro i i1 i2
        have hi : i < x.shape.length := by simpa [tileSrc] using i1
        simp only [tileSrc, List.getElem_map, List.getElem_range, Nat.not_lt_zero, if_false,
          List.getElem_zipWith]
        rw [List.getD_eq_getElem _ _ hi, List.getD_eq_getElem _ _ (by omega)]
    dsimp only
    rw [← this]
    exact h4 c hc

/-- What Tile accepts. -/
theorem runTile_valid {α : Type} [Inhabited α] {repeats : List Int} {x y : Arr α}
    (h : runTile repeats x = .ok y) : (∀ d ∈ x.shape, d ≠ 0) ∧ repeats.length ≤ x.shape.length ∧
      (∀ r ∈ repeats, 1 ≤ r) ∧ ∀ d ∈ List.zipWith (· * ·) x.shape
        ((tileReps x.shape.length repeats).map Int.toNat), d < usizeMax := by
  unfold runTile at h
  obtain ⟨out, ho, h⟩ := bind_eq_ok h
  obtain ⟨reps, hb, h⟩ := bind_eq_ok h
  obtain ⟨h1, h2, rfl, h3⟩ := inferTile_ok_iff.1 ho
  refine ⟨?_, h1, h2, h3⟩
  unfold buildTile at hb
  split_ifs at hb with hl
  have hf := mapM_ok_iff.1 hb
  intro d hd h0
  obtain ⟨i, hi, rfl⟩ := List.mem_iff_getElem.1 hd
  have hl' : x.shape.length = (List.zipWith (· * ·) x.shape
    ((tileReps x.shape.length repeats).map Int.toNat)).length := by simpa using hl
  have := mapM_ok_getElem hb i (by rw [List.length_zip]; omega) (by
    rw [← hf.length_eq, List.length_zip]; omega)
  rw [List.getElem_zip] at this
  simp only at this
  rw [if_pos h0] at this
  split_ifs at this

theorem runTile_noPanic {α : Type} [Inhabited α] (repeats : List Int) (x : Arr α) :
    NoPanic (runTile repeats x) := by
  refine .bind (.ite (fun _ => .invalid) fun _ => .mapM fun dr _ => .ite (fun _ => .invalid)
    fun _ => .ite (fun _ => .ok _) fun _ => .invalid) fun out hout =>
    .bind (.ite (fun _ => .invalid) fun _ => .mapM fun oi _ => .ite (fun _ => .invalid) fun _ =>
      .ite (fun _ => .invalid) fun _ => .ite (fun _ => .invalid) fun _ => .ok _) fun reps hreps => ?_
  clear hreps
  clear hout
  generalize reps.zipIdx = l
  induction l generalizing x with
  | nil => exact .ok _
  | cons p l ih =>
    obtain ⟨rep, ax⟩ := p
    simp only [applyTile]
    exact .ite (fun _ => .invalid) fun _ => .ite (fun _ => ih _) fun _ =>
      .bind (.concatenate _ _) fun y _ => ih y

end JST.Layers
