import Verif.Tensor.GatherProofs

/-! # ScatterND -/

namespace JST.Layers

open JST.Shape JST.Spec

/-! ### The update map -/

theorem mem_insertMap {m : List (Nat × Nat)} {k v a b : Nat} :
    (a, b) ∈ insertMap m k v ↔ (a = k ∧ b = v) ∨ ((a, b) ∈ m ∧ a ≠ k) := by
  simp [insertMap]

theorem insertMap_nodup {m : List (Nat × Nat)} {k v : Nat} (h : (m.map Prod.fst).Nodup) :
    ((insertMap m k v).map Prod.fst).Nodup := by
  unfold insertMap
  rw [List.map_cons, List.nodup_cons]
  refine ⟨?_, ?_⟩
  · intro hm
    obtain ⟨e, he, h1⟩ := List.mem_map.1 hm
    rw [List.mem_filter] at he
    have := he.2
    simp [h1] at this
  · exact h.sublist (List.Sublist.map _ List.filter_sublist)

/-- Inserting a block of consecutive keys. -/
theorem insertBlock {B E : Nat} (f : Nat → Nat) (m : List (Nat × Nat)) (hm : (m.map Prod.fst).Nodup) :
    ∀ (n : Nat), (∀ s, s < n → f s = B + s) →
    (((List.range n).foldl (fun m s => insertMap m (f s) (E + s)) m).map Prod.fst).Nodup ∧
    ∀ a b, (a, b) ∈ (List.range n).foldl (fun m s => insertMap m (f s) (E + s)) m ↔
      (∃ s, s < n ∧ a = B + s ∧ b = E + s) ∨ ((a, b) ∈ m ∧ ¬ ∃ s, s < n ∧ a = B + s)
  | 0, _ => ⟨hm, fun a b => by simp⟩
  | n + 1, hf => by
    obtain ⟨ih1, ih2⟩ := insertBlock (B := B) (E := E) f m hm n (fun s hs => hf s (by omega))
    rw [List.range_succ, List.foldl_append]
    simp only [List.foldl_cons, List.foldl_nil]
    refine ⟨insertMap_nodup ih1, fun a b => ?_⟩
    rw [mem_insertMap, ih2, hf n (by omega)]
    constructor
    · rintro (⟨h1, h2⟩ | ⟨⟨s, h1, h2, h3⟩ | ⟨h1, h2⟩, h4⟩)
      · exact .inl ⟨n, by omega, h1, h2⟩
      · exact .inl ⟨s, by omega, h2, h3⟩
      · refine .inr ⟨h1, ?_⟩
        rintro ⟨s, hs, rfl⟩
        by_cases hsn : s = n
        · exact h4 (by rw [hsn])
        · exact h2 ⟨s, by omega, rfl⟩
    · rintro (⟨s, h1, h2, h3⟩ | ⟨h1, h2⟩)
      · by_cases hsn : s = n
        · subst hsn; exact .inl ⟨h2, h3⟩
        · exact .inr ⟨.inl ⟨s, by omega, h2, h3⟩, by omega⟩
      · refine .inr ⟨.inr ⟨h1, ?_⟩, ?_⟩
        · rintro ⟨s, hs, rfl⟩; exact h2 ⟨s, by omega, rfl⟩
        · intro h; exact h2 ⟨n, by omega, h⟩

/-! ### Applying the map, in any order -/

/-- One write of `apply`. -/
def scatterWrite {α : Type} (upd : List α) (out : List α) (e : Nat × Nat) : List α :=
  match upd[e.2]? with
  | some v => if e.1 < out.length then out.set e.1 v else out
  | none => out

theorem scatterWrite_length {α : Type} (upd out : List α) (e : Nat × Nat) :
    (scatterWrite upd out e).length = out.length := by
  unfold scatterWrite
  split
  · split_ifs <;> simp
  · rfl

theorem scatterFold_length {α : Type} (upd : List α) : ∀ (es : List (Nat × Nat)) (out : List α),
    (es.foldl (scatterWrite upd) out).length = out.length
  | [], _ => rfl
  | e :: es, out => by
    rw [List.foldl_cons, scatterFold_length upd es, scatterWrite_length]

theorem scatterWrite_ne {α : Type} (upd out : List α) (e : Nat × Nat) (i : Nat) (h : e.1 ≠ i) :
    (scatterWrite upd out e)[i]? = out[i]? := by
  unfold scatterWrite
  split
  · split_ifs
    · rw [List.getElem?_set_ne h]
    · rfl
  · rfl

theorem scatterFold_ne {α : Type} (upd : List α) (i : Nat) : ∀ (es : List (Nat × Nat))
    (out : List α), (∀ e ∈ es, e.1 ≠ i) → (es.foldl (scatterWrite upd) out)[i]? = out[i]?
  | [], _, _ => rfl
  | e :: es, out, h => by
    rw [List.foldl_cons, scatterFold_ne upd i es _ (fun f hf => h f (by simp [hf])),
      scatterWrite_ne _ _ _ _ (h e (by simp))]

theorem scatterFold_mem {α : Type} (upd : List α) {i j : Nat} {v : α} (hv : upd[j]? = some v) :
    ∀ (es : List (Nat × Nat)) (out : List α), (es.map Prod.fst).Nodup → (i, j) ∈ es →
    i < out.length → (es.foldl (scatterWrite upd) out)[i]? = some v
  | [], _, _, h, _ => by simp at h
  | e :: es, out, hn, h, hi => by
    rw [List.map_cons, List.nodup_cons] at hn
    rw [List.foldl_cons]
    rcases List.mem_cons.1 h with rfl | h
    · rw [scatterFold_ne upd i es _ (by
        intro f hf hfi
        exact hn.1 (List.mem_map.2 ⟨f, hf, hfi⟩))]
      unfold scatterWrite
      simp only [hv]
      rw [if_pos hi, List.getElem?_set_self hi]
    · exact scatterFold_mem upd hv es _ hn.2 h (by rwa [scatterWrite_length])

theorem applyScatter_eq {α : Type} (es : List (Nat × Nat)) (x upd : Arr α) (hx : x.WF) :
    applyScatter es x.shape x upd = .ok ⟨x.shape, es.foldl (scatterWrite upd.data) x.data⟩ := by
  unfold applyScatter
  apply fromShapeVec_ok
  show (es.foldl (scatterWrite upd.data) x.data).length = _
  rw [scatterFold_length]
  exact hx

/-! ### Building the map -/

/-- The coordinates update `u` names. -/
def scatterPos (dims : List Nat) (indices : List Int) (u : Nat) : List Nat :=
  (List.range dims.length).map fun j =>
    gatherPos (dims.getD j 0) (indices.getD (u * dims.length + j) 0)

/-- Every index is in range. -/
def ScatterValid (dims : List Nat) (idx : Arr Int) : Prop :=
  ∀ q j, InRange idx.shape.dropLast q → j < dims.length →
    ∃ v p, elem idx (q ++ [j]) = some v ∧ AxisOf (dims.getD j 0) v p

theorem scatterCoord_eq {d : Nat} {v : Int} {p : Nat} (hd : d < usizeMax) (h : AxisOf d v p) :
    scatterCoord d v = gatherPos d v := by
  obtain ⟨h1, h2⟩ := h
  unfold scatterCoord gatherPos
  split_ifs with hv
  · rw [Int.emod_eq_of_lt (by omega) (by omega)]
  · rfl

theorem getLast?_split {s : List Nat} {k : Nat} (h : s.getLast? = some k) :
    s = s.dropLast ++ [k] := by
  have hne : s ≠ [] := by rintro rfl; simp at h
  rw [List.getLast?_eq_some_getLast hne, Option.some.injEq] at h
  rw [← h, List.dropLast_append_getLast]

/-- An index of the tuple of an update. -/
theorem idx_entry {idx : Arr Int} {k : Nat} (hs : idx.shape = idx.shape.dropLast ++ [k])
    {q : List Nat} (hq : InRange idx.shape.dropLast q) {j : Nat} :
    elem idx (q ++ [j]) = idx.data[rowMajor idx.shape.dropLast q * k + j]? := by
  unfold elem
  conv_lhs => rw [hs]
  rw [rowMajor_append _ _ _ _ hq.length]
  simp [rowMajor]

theorem scatterStep_eq {dataShape : List Nat} {k slice : Nat} {idx : Arr Int}
    (hk : k ≤ dataShape.length) (hd : ∀ d ∈ dataShape, d < usizeMax)
    (hs : idx.shape = idx.shape.dropLast ++ [k]) (hi : idx.WF)
    (hv : ScatterValid (dataShape.take k) idx) {u : Nat} (hu : u < idx.shape.dropLast.prod)
    (m : List (Nat × Nat)) :
    scatterStep dataShape k slice idx.data u m = .ok ((List.range slice).foldl (fun m s => insertMap m
      (((rowMajor (dataShape.take k) (scatterPos (dataShape.take k) idx.data u) % usizeMax) * slice
        % usizeMax + s) % usizeMax) (u * slice + s)) m) ∧
    InRange (dataShape.take k) (scatterPos (dataShape.take k) idx.data u) := by
  have hlk : (dataShape.take k).length = k := by simp; omega
  have hlen : idx.data.length = idx.shape.dropLast.prod * k := by
    rw [show idx.data.length = idx.shape.prod from hi]
    conv_lhs => rw [hs]
    simp
  have hentry : ∀ j, j < k → ∃ p, AxisOf ((dataShape.take k).getD j 0)
      (idx.data.getD (u * k + j) 0) p := by
    intro j hj
    obtain ⟨v, p, h1, h2⟩ := hv _ j (unravel_inRange hu) (by omega)
    rw [idx_entry hs (unravel_inRange hu), rowMajor_unravel hu] at h1
    have e : idx.data.getD (u * k + j) 0 = v := by rw [List.getD_eq_getElem?_getD, h1]; rfl
    exact ⟨p, by rw [e]; exact h2⟩
  have hdim : ∀ j, j < k → dataShape.getD j 0 = (dataShape.take k).getD j 0 := by
    intro j hj
    simp only [List.getD_eq_getElem?_getD]
    rw [List.getElem?_take, if_pos hj]
  constructor
  · unfold scatterStep
    rw [mapM_ok (g := fun j => gatherPos ((dataShape.take k).getD j 0) (idx.data.getD (u * k + j) 0))]
    · have : (List.range k).map (fun j => gatherPos ((dataShape.take k).getD j 0)
          (idx.data.getD (u * k + j) 0)) = scatterPos (dataShape.take k) idx.data u := by
        unfold scatterPos
        rw [hlk]
      rw [this]
      show (do
        let base ← ravelWrap (scatterPos (dataShape.take k) idx.data u) (dataShape.take k)
        .ok _) = _
      unfold ravelWrap
      rw [ravelR_ok (by simp [scatterPos])]
      rfl
    · intro j hj
      rw [List.mem_range] at hj
      have hb : u * k + j < idx.data.length := by
        rw [hlen]
        have := Nat.mul_le_mul_right k (Nat.succ_le_of_lt hu)
        rw [Nat.succ_mul] at this
        omega
      rw [readAt_getD hb 0, readAt_getD (by omega) 0]
      show Except.ok _ = _
      obtain ⟨p, hp⟩ := hentry j hj
      rw [hdim j hj, scatterCoord_eq (by
        rw [← hdim j hj, List.getD_eq_getElem _ _ (by omega)]
        exact hd _ (List.getElem_mem _)) hp]
  · rw [inRange_iff]
    refine ⟨by simp [scatterPos], fun j hj => ?_⟩
    unfold scatterPos
    rw [getD_map_range _ _ hj, hlk]
    obtain ⟨p, hp⟩ := hentry j (by omega)
    rw [AxisOf_pos hp]
    exact hp.1

/-- The map built: keys are distinct, and an entry belongs to the last update naming its position. -/
def MapSpec (dims : List Nat) (slice : Nat) (indices : List Int) (n : Nat) (m : List (Nat × Nat)) :
    Prop :=
  (m.map Prod.fst).Nodup ∧ ∀ a b, (a, b) ∈ m ↔
    ∃ u s, u < n ∧ s < slice ∧ a = rowMajor dims (scatterPos dims indices u) * slice + s ∧
      b = u * slice + s ∧ ∀ u', u < u' → u' < n → scatterPos dims indices u' ≠ scatterPos dims indices u

theorem block_unique {a b s t L : Nat} (hs : s < L) (ht : t < L) (h : a * L + s = b * L + t) :
    a = b ∧ s = t := by
  have h1 : (a * L + s) / L = a := by
    rw [Nat.mul_comm, Nat.mul_add_div (by omega), Nat.div_eq_of_lt hs, Nat.add_zero]
  have h2 : (b * L + t) / L = b := by
    rw [Nat.mul_comm, Nat.mul_add_div (by omega), Nat.div_eq_of_lt ht, Nat.add_zero]
  have : a = b := by rw [← h1, h, h2]
  subst this
  exact ⟨rfl, by omega⟩

theorem buildLoop_ok {dataShape : List Nat} {k : Nat} {idx : Arr Int}
    (hk : k ≤ dataShape.length) (hd : ∀ d ∈ dataShape, d < usizeMax) (hp : dataShape.prod < usizeMax)
    (hs : idx.shape = idx.shape.dropLast ++ [k]) (hi : idx.WF)
    (hv : ScatterValid (dataShape.take k) idx) : ∀ n, n ≤ idx.shape.dropLast.prod →
    ∃ m, (List.range n).foldlM (fun m u => scatterStep dataShape k (dataShape.drop k).prod idx.data u m)
        [] = .ok m ∧ MapSpec (dataShape.take k) (dataShape.drop k).prod idx.data n m
  | 0, _ => ⟨[], rfl, by simp, by simp⟩
  | n + 1, hn => by
    obtain ⟨m, h1, h2, h3⟩ := buildLoop_ok hk hd hp hs hi hv n (by omega)
    obtain ⟨e1, e2⟩ := scatterStep_eq (slice := (dataShape.drop k).prod) hk hd hs hi hv
      (u := n) (by omega) m
    have hprod : dataShape.prod = (dataShape.take k).prod * (dataShape.drop k).prod := by
      rw [← List.prod_append, List.take_append_drop]
    have hlt := rowMajor_lt e2
    generalize hS : (dataShape.drop k).prod = S at *
    generalize hD : dataShape.take k = dims at *
    have hnowrap : ∀ s, s < S → ((rowMajor dims (scatterPos dims idx.data n) % usizeMax) * S
        % usizeMax + s) % usizeMax = rowMajor dims (scatterPos dims idx.data n) * S + s := by
      intro s hsS
      have hb : rowMajor dims (scatterPos dims idx.data n) * S + s < dataShape.prod := by
        rw [hprod]
        have := Nat.mul_le_mul_right S (Nat.succ_le_of_lt hlt)
        rw [Nat.succ_mul] at this
        omega
      have hb1 : rowMajor dims (scatterPos dims idx.data n) ≤
          rowMajor dims (scatterPos dims idx.data n) * S := Nat.le_mul_of_pos_right _ (by omega)
      rw [Nat.mod_eq_of_lt (a := rowMajor dims (scatterPos dims idx.data n)) (by omega),
        Nat.mod_eq_of_lt (a := rowMajor dims (scatterPos dims idx.data n) * S) (by omega),
        Nat.mod_eq_of_lt (by omega)]
    obtain ⟨f1, f2⟩ := insertBlock (B := rowMajor dims (scatterPos dims idx.data n) * S) (E := n * S)
      (fun s => ((rowMajor dims (scatterPos dims idx.data n) % usizeMax) * S % usizeMax + s) % usizeMax)
      m h2 S hnowrap
    refine ⟨_, ?_, f1, ?_⟩
    · rw [List.range_succ, List.foldlM_append, h1]
      show ([n].foldlM (fun m u => scatterStep dataShape k S idx.data u m) m : R _) = _
      rw [List.foldlM_cons, e1]
      rfl
    · intro a b
      rw [f2, h3]
      constructor
      · rintro (⟨s, g1, g2, g3⟩ | ⟨⟨u, s, g1, g2, g3, g4, g5⟩, g6⟩)
        · exact ⟨n, s, by omega, g1, g2, g3, fun u' _ _ => by omega⟩
        · refine ⟨u, s, by omega, g2, g3, g4, fun u' hu1 hu2 => ?_⟩
          by_cases hun : u' = n
          · subst hun
            intro heq
            exact g6 ⟨s, g2, by rw [heq]; exact g3⟩
          · exact g5 u' hu1 (by omega)
      · rintro ⟨u, s, g1, g2, g3, g4, g5⟩
        by_cases hun : u = n
        · subst hun
          exact .inl ⟨s, g2, g3, g4⟩
        · refine .inr ⟨⟨u, s, by omega, g2, g3, g4, fun u' hu1 hu2 => g5 u' hu1 (by omega)⟩, ?_⟩
          rintro ⟨t, ht, hat⟩
          have hb := block_unique g2 ht (g3.symm.trans hat)
          have hinu := (scatterStep_eq (slice := S) hk hd hs hi (by rw [hD]; exact hv)
            (u := u) (by omega) m).2
          rw [hD] at hinu
          exact g5 n (by omega) (by omega) (rowMajor_inj e2 hinu hb.1.symm)

/-- An update names exactly the position computed from its indices. -/
theorem scatterHits_iff {dims : List Nat} {idx : Arr Int}
    (hs : idx.shape = idx.shape.dropLast ++ [dims.length]) (hi : idx.WF) (hv : ScatterValid dims idx)
    {q p : List Nat} (hq : InRange idx.shape.dropLast q) :
    ScatterHits idx dims q p ↔ p = scatterPos dims idx.data (rowMajor idx.shape.dropLast q) := by
  have hpos : ∀ j, j < dims.length → ∃ v pp, elem idx (q ++ [j]) = some v ∧
      AxisOf (dims.getD j 0) v pp ∧
      (scatterPos dims idx.data (rowMajor idx.shape.dropLast q)).getD j 0 = pp := by
    intro j hj
    obtain ⟨v, pp, h1, h2⟩ := hv q j hq hj
    refine ⟨v, pp, h1, h2, ?_⟩
    unfold scatterPos
    rw [getD_map_range _ _ hj]
    rw [idx_entry hs hq] at h1
    have e : idx.data.getD (rowMajor idx.shape.dropLast q * dims.length + j) 0 = v := by
      rw [List.getD_eq_getElem?_getD, h1]; rfl
    rw [e]
    exact AxisOf_pos h2
  constructor
  · rintro ⟨hl, h⟩
    apply List.ext_getElem
    · simp [scatterPos, hl]
    · intro j h1 h2
      obtain ⟨v, pp, e1, e2, e3⟩ := hpos j (by omega)
      obtain ⟨v', e4, e5⟩ := h j (by omega)
      rw [e1] at e4
      cases e4
      have := AxisOf_unique e2 e5
      rw [List.getD_eq_getElem _ _ h1] at this
      rw [List.getD_eq_getElem _ _ h2] at e3
      rw [e3, this]
  · rintro rfl
    refine ⟨by simp [scatterPos], fun j hj => ?_⟩
    obtain ⟨v, pp, e1, e2, e3⟩ := hpos j hj
    exact ⟨v, e1, by rw [e3]; exact e2⟩

/-- ScatterND, for every iteration order of the update map. -/
theorem scatter_ok {α : Type} {x upd : Arr α} {idx : Arr Int} {k : Nat} (hx : x.WF) (hi : idx.WF)
    (hu : upd.WF) (hlast : idx.shape.getLast? = some k) (hk : k ≤ x.shape.length)
    (hus : upd.shape = idx.shape.dropLast ++ x.shape.drop k)
    (hd : ∀ d ∈ x.shape, d < usizeMax) (hp : x.shape.prod < usizeMax)
    (hv : ScatterValid (x.shape.take k) idx) :
    ∃ m, buildScatter x.shape idx = .ok m ∧ ∀ order, order.Perm m →
      ∃ y, applyScatter order x.shape x upd = .ok y ∧ IsScatterND k idx upd x y := by
  have hs := getLast?_split hlast
  have hlk : (x.shape.take k).length = k := by simp; omega
  obtain ⟨m, h1, h2, h3⟩ := buildLoop_ok hk hd hp hs hi hv _ (le_refl _)
  refine ⟨m, ?_, fun order hord => ⟨_, applyScatter_eq order x upd hx, ?_, rfl, ?_⟩⟩
  · unfold buildScatter
    rw [hlast]
    simp only
    rw [if_neg (by omega)]
    exact h1
  · show (order.foldl (scatterWrite upd.data) x.data).length = _
    rw [scatterFold_length]
    exact hx
  · intro p s hpr hsr
    have hpl := hpr.length
    have hsl := rowMajor_lt hsr
    have hplt := rowMajor_lt hpr
    have hs' : idx.shape = idx.shape.dropLast ++ [(x.shape.take k).length] := by rw [hlk]; exact hs
    have hxs : x.shape = x.shape.take k ++ x.shape.drop k := (List.take_append_drop _ _).symm
    have hflat : rowMajor x.shape (p ++ s) =
        rowMajor (x.shape.take k) p * (x.shape.drop k).prod + rowMajor (x.shape.drop k) s := by
      conv_lhs => rw [hxs]
      exact rowMajor_append _ _ _ _ hpl
    have hin : rowMajor x.shape (p ++ s) < x.data.length := by
      rw [show x.data.length = x.shape.prod from hx]
      apply rowMajor_lt
      conv => rw [hxs]
      exact InRange_append hpr hsr
    have hnod : (order.map Prod.fst).Nodup := (hord.map Prod.fst).nodup_iff.2 h2
    constructor
    · intro q hq hhit hmax
      have hqp := (scatterHits_iff hs' hi hv hq).1 hhit
      have hqlt := rowMajor_lt hq
      have hent : (rowMajor x.shape (p ++ s),
          rowMajor idx.shape.dropLast q * (x.shape.drop k).prod + rowMajor (x.shape.drop k) s) ∈ m := by
        rw [h3]
        refine ⟨rowMajor idx.shape.dropLast q, rowMajor (x.shape.drop k) s, hqlt, hsl, ?_, rfl, ?_⟩
        · rw [hflat, ← hqp]
        · intro u' hu1 hu2 heq
          have hq' := unravel_inRange hu2
          have := hmax _ hq' ((scatterHits_iff hs' hi hv hq').2 (by
            rw [rowMajor_unravel hu2, heq, ← hqp]))
          rw [rowMajor_unravel hu2] at this
          omega
      have hupd : InRange upd.shape (q ++ s) := by rw [hus]; exact InRange_append hq hsr
      obtain ⟨v, hev⟩ := elem_isSome hu hupd
      have hev' := hev
      unfold elem at hev'
      rw [hus, rowMajor_append _ _ _ _ hq.length] at hev'
      rw [hev]
      exact scatterFold_mem upd.data hev' order x.data hnod (hord.mem_iff.2 hent) hin
    · intro hno
      unfold elem
      simp only
      apply scatterFold_ne
      intro e he heq
      obtain ⟨a, b⟩ := e
      simp only at heq
      subst heq
      obtain ⟨u, t, g1, g2, g3, g4, g5⟩ := (h3 _ _).1 (hord.mem_iff.1 he)
      rw [hflat] at g3
      have hb := block_unique hsl g2 g3
      have hq := unravel_inRange g1
      have hinu := (scatterStep_eq (slice := 0) hk hd hs hi hv g1 []).2
      refine hno ⟨_, hq, (scatterHits_iff hs' hi hv hq).2 ?_⟩
      rw [rowMajor_unravel g1]
      exact rowMajor_inj hpr hinu hb.1

/-! ### What is not checked -/

/-- A single two-dimensional index pair: the update goes to the flat position, in range or not. -/
theorem scatter_pair {α : Type} (m n : Nat) (data : List α) (i j : Nat) (v : α)
    (hx : data.length = m * n) (hm : m * n < usizeMax) (hn : n < usizeMax)
    (hij : i * n + j < m * n) :
    ∃ es, buildScatter [m, n] ⟨[1, 2], [(i : Int), (j : Int)]⟩ = .ok es ∧
      applyScatter es [m, n] ⟨[m, n], data⟩ ⟨[1], [v]⟩ = .ok ⟨[m, n], data.set (i * n + j) v⟩ := by
  have hn0 : n ≠ 0 := by rintro rfl; simp at hij
  have hi : i < usizeMax := by
    have : i ≤ i * n := Nat.le_mul_of_pos_right _ (by omega)
    omega
  refine ⟨[(i * n + j, 0)], ?_, ?_⟩
  · have hr : ravelR [i, j] [m, n] = .ok (i * n + j) := by
      have := ravelR_ok (s := [m, n]) (c := [i, j]) rfl
      rw [this]; simp [rowMajor]
    have h0 : scatterCoord m (i : Int) = i := by simp [scatterCoord]
    have h1 : scatterCoord n (j : Int) = j := by simp [scatterCoord]
    show (do
      let base ← ravelWrap [scatterCoord m (i : Int), scatterCoord n (j : Int)] [m, n]
      (.ok ((List.range 1).foldl
        (fun mm s => insertMap mm ((base * 1 % usizeMax + s) % usizeMax) (0 * 1 + s)) []) :
          R (List (Nat × Nat)))) = _
    rw [h0, h1]
    unfold ravelWrap
    rw [hr]
    show (Except.ok [((((i * n + j) % usizeMax) * 1 % usizeMax + 0) % usizeMax, 0)] : R _) = _
    rw [Nat.mul_one, Nat.add_zero, Nat.mod_mod, Nat.mod_mod, Nat.mod_eq_of_lt (by omega)]
  · have ha := applyScatter_eq [(i * n + j, 0)] ⟨[m, n], data⟩ ⟨[1], [v]⟩ (by simpa [Arr.WF] using hx)
    rw [show ([m, n] : List Nat) = (⟨[m, n], data⟩ : Arr α).shape from rfl, ha]
    simp only [List.foldl_cons, List.foldl_nil, scatterWrite, List.getElem?_cons_zero]
    rw [if_pos (by omega)]

/-- Without updates nothing is written, whatever the indices are. -/
theorem scatter_no_updates {α : Type} (es : List (Nat × Nat)) (x : Arr α) (hx : x.WF) :
    applyScatter es x.shape x ⟨[0], []⟩ = .ok x := by
  rw [applyScatter_eq _ _ _ hx]
  have : es.foldl (scatterWrite ([] : List α)) x.data = x.data := by
    induction es with
    | nil => rfl
    | cons e es ih =>
      rw [List.foldl_cons]
      have : scatterWrite [] x.data e = x.data := by simp [scatterWrite]
      rw [this, ih]
  rw [this]

theorem buildScatter_noPanic (dataShape : List Nat) {idx : Arr Int} (hi : idx.WF) :
    NoPanic (buildScatter dataShape idx) := by
  unfold buildScatter
  cases hl : idx.shape.getLast? with
  | none => exact .invalid
  | some k =>
    have hs := getLast?_split hl
    have hlen : idx.data.length = idx.shape.dropLast.prod * k := by
      rw [show idx.data.length = idx.shape.prod from hi]
      conv_lhs => rw [hs]
      simp
    simp only
    refine .ite (fun _ => .invalid) fun hk => ?_
    have key : ∀ (l : List Nat) (m : List (Nat × Nat)), (∀ u ∈ l, u < idx.shape.dropLast.prod) →
        NoPanic (l.foldlM (fun m u => scatterStep dataShape k (dataShape.drop k).prod idx.data u m)
          m) := by
      intro l
      induction l with
      | nil => intro m _; exact .ok _
      | cons u l ih =>
        intro m hu
        rw [List.foldlM_cons]
        refine .bind ?_ fun m' _ => ih m' fun w hw => hu w (by simp [hw])
        unfold scatterStep
        refine .bind (.mapM fun j hj => ?_) fun coords hc => .bind ?_ fun _ _ => .ok _
        · rw [List.mem_range] at hj
          refine .bind (.readAt _ ?_) fun _ _ => .bind (.readAt _ (by omega)) fun _ _ => .ok _
          rw [hlen]
          have := Nat.mul_le_mul_right k (Nat.succ_le_of_lt (hu u (by simp)))
          rw [Nat.succ_mul] at this
          omega
        · unfold ravelWrap
          refine .bind (.ravelR ?_) fun _ _ => .ok _
          rw [mapM_ok_length hc]
          simp; omega
    exact key _ _ fun u hu => List.mem_range.1 hu

end JST.Layers
