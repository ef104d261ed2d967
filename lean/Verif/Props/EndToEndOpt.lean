import Verif.Props.EndToEnd
import Verif.Props.Sharing

/-!
# C84: from constraints to the verifier's decision, at the default optimization level

Puts the last optimizations (C83) between the compiler's layers and the export of C82. A flattening of the
optimized circuit is the flattening of layers whose gates are those of the compiler's layers in another order,
up to gates with constant coefficients, so the coins only change places.
-/

namespace JST.Export

open JST JST.Gkr JST.Spec JST.Props JST.Flat JST.Comp JST.Circ

variable {F R : Type} [Field F]

/-! ### Lists -/

omit [Field F] in
/-- A rearrangement of images comes from a rearrangement. -/
theorem perm_lift {A B : Type} (f : A → B) : ∀ {l : List B} {G : List A}, l.Perm (G.map f) → ∃ G' : List A, G'.map f = l ∧ G'.Perm G
  | [], G, h => by
    have : G = [] := List.map_eq_nil_iff.1 (List.perm_nil.1 h.symm)
    exact ⟨[], rfl, by rw [this]⟩
  | b :: l, G, h => by
    obtain ⟨a, ha, rfl⟩ := List.mem_map.1 (h.mem_iff.1 (List.mem_cons_self ..))
    obtain ⟨x, y, rfl⟩ := List.append_of_mem ha
    rw [List.map_append, List.map_cons] at h
    have h' : l.Perm ((x ++ y).map f) := by
      rw [List.map_append]; exact (List.perm_cons _).1 (h.trans List.perm_middle)
    obtain ⟨G', e, hp⟩ := perm_lift f h'
    exact ⟨a :: G', by rw [List.map_cons, e], (hp.cons a).trans List.perm_middle.symm⟩

/-- The gate's coefficient is not a constant. -/
def varies (g : Gate F R) : Bool := !(eraseGate g).isConst

omit [Field F] in
/-- Names for the coins of a list of gates, from a list with the same varying gates. -/
theorem name_gates : ∀ (L : List (Gt F)) (S : List (Gate F R)), (varying L).Perm (S.map eraseGate) →
    ∃ N : List (Gate F R), N.map eraseGate = L ∧ (N.filter varies).Perm S
  | [], S, h => by
    have : S = [] := List.map_eq_nil_iff.1 (List.perm_nil.1 h.symm)
    exact ⟨[], rfl, by rw [this]; exact List.Perm.refl _⟩
  | g :: L, S, h => by
    cases hg : g.isConst with
    | true =>
      have e : varying (g :: L) = varying L := by simp [varying, hg]
      rw [e] at h
      obtain ⟨N, hN, hp⟩ := name_gates L S h
      cases hc : g.coef with
      | const c =>
        have eg : eraseGate (⟨g.ins, g.o, .const c⟩ : Gate F R) = g := by
          cases g; simp only [eraseGate, erase] at hc ⊢; rw [hc]
        refine ⟨⟨g.ins, g.o, .const c⟩ :: N, by rw [List.map_cons, hN, eg], ?_⟩
        rw [List.filter_cons_of_neg (by rw [varies, eg, hg]; simp)]
        exact hp
      | rnd => simp [Gt.isConst, hc] at hg
      | pub i => simp [Gt.isConst, hc] at hg
    | false =>
      have e : varying (g :: L) = g :: varying L := by simp [varying, hg]
      rw [e] at h
      obtain ⟨a, ha, eg⟩ := List.mem_map.1 (h.mem_iff.1 (List.mem_cons_self ..))
      obtain ⟨x, y, rfl⟩ := List.append_of_mem ha
      rw [List.map_append, List.map_cons, eg] at h
      have h' : (varying L).Perm ((x ++ y).map eraseGate) := by
        rw [List.map_append]; exact (List.perm_cons _).1 (h.trans List.perm_middle)
      obtain ⟨N, hN, hp⟩ := name_gates L (x ++ y) h'
      refine ⟨a :: N, by rw [List.map_cons, hN, eg], ?_⟩
      rw [List.filter_cons_of_pos (by rw [varies, eg, hg]; rfl)]
      exact (hp.cons a).trans List.perm_middle.symm

omit [Field F] in
theorem varying_erase (S : List (Gate F R)) : varying (S.map eraseGate) = (S.filter varies).map eraseGate := by
  unfold varying varies
  rw [List.filter_map]
  rfl

/-! ### What gates add, with coins -/

theorem gateSum_append (E : Env F R) (w : Nat → F) (a b : List (Gate F R)) (p : Nat) :
    gateSum E w (a ++ b) p = gateSum E w a p + gateSum E w b p := by
  simp [gateSum, List.filter_append]

theorem gateSum_perm (E : Env F R) (w : Nat → F) {a b : List (Gate F R)} (h : a.Perm b) (p : Nat) :
    gateSum E w a p = gateSum E w b p := ((h.filter _).map _).sum_eq

/-- Constant gates apart, and the others. -/
theorem gateSum_split (E : Env F R) (w : Nat → F) (p : Nat) : ∀ S : List (Gate F R),
    gateSum E w S p = addsTo (fun _ => 0) (S.map eraseGate) w p + gateSum E w (S.filter varies) p
  | [] => by simp [gateSum, addsTo]
  | g :: S => by
    have e1 : gateSum E w (g :: S) p = gateSum E w [g] p + gateSum E w S p := gateSum_append E w [g] S p
    have e2 : (g :: S).filter varies = [g].filter varies ++ S.filter varies := List.filter_append [g] S
    have e3 : addsTo (fun _ => 0) ((g :: S).map eraseGate) w p =
        addsTo (fun _ => 0) [eraseGate g] w p + addsTo (fun _ => 0) (S.map eraseGate) w p :=
      addsTo_append _ [eraseGate g] (S.map eraseGate) w p
    rw [e1, e2, e3, gateSum_append, gateSum_split E w p S]
    have : gateSum E w [g] p = addsTo (fun _ => 0) [eraseGate g] w p + gateSum E w ([g].filter varies) p := by
      obtain ⟨ins, o, coef⟩ := g
      cases coef <;> by_cases ho : o = p <;>
        simp [gateSum, addsTo, varies, eraseGate, erase, Gt.isConst, Cf.fixed, ho, Gate.val, Coef.val]
    rw [this]; ring

omit [Field F] in
theorem coins_varies (S : List (Gate F R)) :
    (S.flatMap fun g => g.coef.coins) = (S.filter varies).flatMap fun g => g.coef.coins := by
  induction S with
  | nil => rfl
  | cons g S ih =>
    rw [List.flatMap_cons, ih]
    obtain ⟨ins, o, coef⟩ := g
    cases coef <;> simp [varies, eraseGate, erase, Gt.isConst, Coef.coins]

/-! ### The gates of a flattened layer -/

/-- The gates of one kind which a segment stands for. -/
def Nested.allOf (c : Nested F) (K : Kind) : Nat → Nat → List (Gt F)
  | 0, _ => []
  | d + 1, id =>
    match c.segs[id]? with
    | none => []
    | some s => K.s s ++ place (c.allOf K d) s.kids

theorem expand_allOf (c : Nested F) (K : Kind) : ∀ d id,
    expand (c.segs.map Sg.export) K.p d id = (c.allOf K d id).map Gt.export
  | 0, _ => rfl
  | d + 1, id => by
    rw [expand, Nested.allOf, exportAt]
    cases c.segs[id]? with
    | none => rfl
    | some s =>
      simp only [Option.map_some, List.map_append, Kind.export]
      congr 1
      simp only [place, List.map_flatMap]
      show s.kids.flatMap _ = _
      congr 1; funext k; congr 1; funext a
      rw [expand_allOf c K d k.1, List.map_map, List.map_map]
      rfl

omit [Field F] in
theorem place_two (f g : Nat → List (Gt F)) (kids) : (place f kids ++ place g kids).Perm (place (fun i => f i ++ g i) kids) := by
  unfold place
  refine (List.flatMap_append_perm kids _ _).trans (List.Perm.flatMap_left _ fun k _ => ?_)
  refine (List.flatMap_append_perm k.2 _ _).trans (List.Perm.flatMap_left _ fun a _ => ?_)
  rw [List.map_append]

omit [Field F] in
theorem allOf_all (c : Nested F) : ∀ d id,
    (c.allOf .mul d id ++ c.allOf .add d id ++ c.allOf .cst d id).Perm (c.all d id)
  | 0, _ => List.Perm.refl _
  | d + 1, id => by
    simp only [Nested.allOf, Nested.all]
    cases c.segs[id]? with
    | none => exact List.Perm.refl _
    | some s =>
      dsimp only [Kind.s, Sg.own]
      have h : (place (c.allOf .mul d) s.kids ++ place (c.allOf .add d) s.kids ++ place (c.allOf .cst d) s.kids).Perm
          (place (c.all d) s.kids) := by
        refine ((place_two _ _ _).append_right _).trans ((place_two _ _ _).trans ?_)
        unfold place
        exact List.Perm.flatMap_left _ fun k _ => List.Perm.flatMap_left _ fun a _ => (allOf_all c d k.1).map _
      refine List.Perm.trans ?_ (h.append_left _)
      classical
      rw [List.perm_iff_count]
      intro x
      simp only [List.count_append]
      omega

omit [Field F] in
theorem allOf_forall (c : Nested F) (K : Kind) (P : Gt F → Prop) (hshift : ∀ a g, P g → P (Gt.shift a g))
    (h : ∀ s ∈ c.segs, ∀ g ∈ K.s s, P g) : ∀ d id, ∀ g ∈ c.allOf K d id, P g
  | 0, _, _, hg => by cases hg
  | d + 1, id, g, hg => by
    rw [Nested.allOf] at hg
    cases hs : c.segs[id]? with
    | none => rw [hs] at hg; cases hg
    | some s =>
      rw [hs] at hg
      rcases List.mem_append.1 hg with hg | hg
      · exact h s (List.mem_of_getElem? hs) g hg
      · simp only [place, List.mem_flatMap, List.mem_map] at hg
        obtain ⟨k, -, a, -, g', hg', rfl⟩ := hg
        exact hshift a g' (allOf_forall c K P hshift h d k.1 g' hg')

/-- A flattened layer is the flattening of the compiler's layer with its gates in another order, up to gates with
constant coefficients. -/
theorem name_layer {s : Seg F R} (hs : s.WF) (hp : PubNil (s.muls ++ s.adds)) {d : Nested F} (hd : d.Ok) {j : Nat}
    {t : Sg F} (ht : d.segs[j]? = some t) (hi : t.numIn = s.numIn) (ho : t.numOut = s.numOut)
    (hsame : SameGates (d.gates j) ((s.muls ++ s.adds ++ s.csts).map eraseGate)) {l : PLayer F}
    (hl : FlatLayer (d.segs.map Sg.export) j l) :
    ∃ s' : Seg F R, flatSeg s' = l ∧ s'.WF ∧ s'.numIn = s.numIn ∧ s'.numOut = s.numOut ∧
      PubNil (s'.muls ++ s'.adds) ∧ s'.coins.Perm s.coins ∧ ∀ E w, s'.eval E w = s.eval E w := by
  obtain ⟨t', ht', hin, hout, h1, h2, h3⟩ := flatLayer_perm d hd hl
  rw [ht] at ht'; cases ht'
  have e := fun K : Kind => expand_allOf d K (j + 1) j
  have e1 := e .mul
  have e2 := e .add
  have e3 := e .cst
  simp only [Kind.p] at e1 e2 e3
  rw [e1] at h1; rw [e2] at h2; rw [e3] at h3
  obtain ⟨M, eM, pM⟩ := perm_lift _ h1
  obtain ⟨A, eA, pA⟩ := perm_lift _ h2
  obtain ⟨C, eC, pC⟩ := perm_lift _ h3
  have hall : (M ++ A ++ C).Perm (d.gates j) := ((pM.append pA).append pC).trans (allOf_all d (j + 1) j)
  have hsame' := (SameGates.of_perm hall).trans hsame
  have hv := hsame'.2
  rw [varying_erase] at hv
  obtain ⟨N, eN, pN⟩ := name_gates _ _ hv
  obtain ⟨N12, C', rfl, e12, eC'⟩ := List.map_eq_append_iff.1 eN
  obtain ⟨M', A', rfl, eM', eA'⟩ := List.map_eq_append_iff.1 e12
  have segOk : ∀ s ∈ d.segs, ∃ id, s.Ok d.segs id := fun s hs => by
    obtain ⟨i, hi⟩ := List.getElem?_of_mem hs
    exact ⟨i, hd.seg i s hi⟩
  have kinds : ∀ g ∈ M' ++ A' ++ C', ∃ K : Kind, eraseGate g ∈ d.allOf K (j + 1) j := by
    intro g hg
    rcases List.mem_append.1 hg with hg | hg
    · rcases List.mem_append.1 hg with hg | hg
      · exact ⟨.mul, pM.mem_iff.1 (by rw [← eM']; exact List.mem_map_of_mem hg)⟩
      · exact ⟨.add, pA.mem_iff.1 (by rw [← eA']; exact List.mem_map_of_mem hg)⟩
    · exact ⟨.cst, pC.mem_iff.1 (by rw [← eC']; exact List.mem_map_of_mem hg)⟩
  have rng : ∀ g ∈ M' ++ A' ++ C', g.o < t.numOut ∧ ∀ i ∈ g.ins, i < t.numIn := by
    intro g hg
    obtain ⟨K, hK⟩ := kinds g hg
    exact expand_range d hd K (j + 1) j t ht (eraseGate g).export (by rw [e K]; exact List.mem_map_of_mem hK)
  have pubnil : ∀ g ∈ M' ++ A' ++ C', ∀ i, g.coef = .pub i → g.ins = [] := by
    intro g hg i hc
    have : g ∈ s.muls ++ s.adds ++ s.csts := (List.mem_filter.1 (pN.mem_iff.1 (List.mem_filter.2 ⟨hg, by
      simp [varies, eraseGate, erase, Gt.isConst, hc]⟩))).1
    rcases List.mem_append.1 this with h | h
    · exact hp g h i hc
    · exact List.length_eq_zero_iff.1 (hs.cstLen g h)
  refine ⟨⟨s.numIn, s.numOut, M', A', C'⟩, ?_, ⟨?_, ?_, ?_, ?_, ?_, hs.sizeIn, hs.sizeOut⟩, rfl, rfl, ?_, ?_, ?_⟩
  · rw [flatSeg, eM', eA', eC', eM, eA, eC, ← hi, ← ho, ← hin, ← hout]
  · intro g hg
    have hg' : eraseGate g ∈ d.allOf .mul (j + 1) j := pM.mem_iff.1 (by rw [← eM']; exact List.mem_map_of_mem hg)
    refine allOf_forall d .mul (fun g => g.ins.length = 2) (fun a g h => by simpa [Gt.shift] using h) (fun s hs g hg => ?_) _ _ _ hg'
    obtain ⟨id, ok⟩ := segOk s hs
    exact List.length_eq_two.2 (ok.mulLen g hg)
  · intro g hg
    have hg' : eraseGate g ∈ d.allOf .add (j + 1) j := pA.mem_iff.1 (by rw [← eA']; exact List.mem_map_of_mem hg)
    refine allOf_forall d .add (fun g => g.ins.length = 1) (fun a g h => by simpa [Gt.shift] using h) (fun s hs g hg => ?_) _ _ _ hg'
    obtain ⟨id, ok⟩ := segOk s hs
    exact List.length_eq_one_iff.2 (ok.addLen g hg)
  · intro g hg
    have hg' : eraseGate g ∈ d.allOf .cst (j + 1) j := pC.mem_iff.1 (by rw [← eC']; exact List.mem_map_of_mem hg)
    refine allOf_forall d .cst (fun g => g.ins.length = 0) (fun a g h => by simpa [Gt.shift] using h) (fun s hs g hg => ?_) _ _ _ hg'
    obtain ⟨id, ok⟩ := segOk s hs
    exact List.length_eq_zero_iff.2 (ok.cstLen g hg)
  · intro g hg i hi'
    have := (rng g hg).2 i hi'
    rwa [hi] at this
  · intro g hg
    have := (rng g hg).1
    rwa [ho] at this
  · exact fun g hg => pubnil g (List.mem_append_left _ hg)
  · unfold Seg.coins
    rw [coins_varies (M' ++ A' ++ C'), coins_varies (s.muls ++ s.adds ++ s.csts)]
    exact pN.flatMap_right _
  · intro E w
    funext p
    have hsum : gateSum E w (M' ++ A' ++ C') p = gateSum E w (s.muls ++ s.adds ++ s.csts) p := by
      rw [gateSum_split E w p (M' ++ A' ++ C'), gateSum_split E w p (s.muls ++ s.adds ++ s.csts), eN, hsame'.1,
        gateSum_perm E w pN]
    rw [gateSum_append, gateSum_append, gateSum_append, gateSum_append] at hsum
    exact hsum

/-- The same for the circuit. -/
theorem name_layers {segs : List (Seg F R)} {n : Nat} (hf : Fit n segs) (hp : ∀ s ∈ segs, PubNil (s.muls ++ s.adds))
    {d : Nested F} (hd : d.Ok) (hsame : SameLayers (ofSegs segs) d) {ls : List (PLayer F)} (hl : Flatten d ls) :
    ∃ segs' : List (Seg F R), segs'.map flatSeg = ls ∧ Fit n segs' ∧ (∀ s ∈ segs', PubNil (s.muls ++ s.adds)) ∧
      (segs'.flatMap Seg.coins).Perm (segs.flatMap Seg.coins) ∧ segs'.length = segs.length ∧
      ∀ E w, evalSegs E segs' w = evalSegs E segs w := by
  have own : ∀ i (s : Seg F R), segs[i]? = some s → (ofSegs segs).gates i = (s.muls ++ s.adds ++ s.csts).map eraseGate := by
    intro i s h
    rw [Nested.gates, Nested.all, ofSegs_at, h]
    simp [eraseSeg, Sg.own, place]
  have key : ∀ (r : List (Seg F R)) (i n : Nat) (js : List Nat) (ls : List (PLayer F)), Fit n r →
      (∀ s ∈ r, PubNil (s.muls ++ s.adds)) → (∀ j, segs[i + j]? = r[j]?) →
      List.Forall₂ (fun i j => ∃ s t, (ofSegs segs).segs[i]? = some s ∧ d.segs[j]? = some t ∧ t.numIn = s.numIn ∧
        t.numOut = s.numOut ∧ SameGates (d.gates j) ((ofSegs segs).gates i)) (List.range' i r.length) js →
      List.Forall₂ (FlatLayer (d.segs.map Sg.export)) js ls →
      ∃ segs' : List (Seg F R), segs'.map flatSeg = ls ∧ Fit n segs' ∧ (∀ s ∈ segs', PubNil (s.muls ++ s.adds)) ∧
        (segs'.flatMap Seg.coins).Perm (r.flatMap Seg.coins) ∧ segs'.length = r.length ∧
        ∀ E w, evalSegs E segs' w = evalSegs E r w := by
    intro r
    induction r with
    | nil =>
      intro i n js ls _ _ _ h h'
      cases h; cases h'
      exact ⟨[], rfl, trivial, fun s hs => (nomatch hs), List.Perm.refl _, rfl, fun _ _ => rfl⟩
    | cons s r ih =>
      intro i n js ls hf hp hj h h'
      rw [List.length_cons, List.range'_succ] at h
      cases h with
      | cons h1 h2 =>
        cases h' with
        | cons h1' h2' =>
          obtain ⟨s0, t, hs0, ht, hi, ho, hsg⟩ := h1
          have hs : segs[i]? = some s := by simpa using hj 0
          rw [ofSegs_at, hs] at hs0
          cases hs0
          rw [own i s hs] at hsg
          obtain ⟨s', a1, a2, a3, a4, a5, a6, a7⟩ :=
            name_layer hf.2.1 (hp s (List.mem_cons_self ..)) hd ht hi ho hsg h1'
          obtain ⟨r', b1, b2, b3, b4, b5, b6⟩ := ih (i + 1) s.numOut _ _ hf.2.2
            (fun s hs => hp s (List.mem_cons_of_mem _ hs)) (fun j => by
              have := hj (j + 1)
              rw [List.getElem?_cons_succ] at this
              rw [← this]; congr 1; omega) h2 h2'
          refine ⟨s' :: r', by rw [List.map_cons, a1, b1], ⟨a3.trans hf.1, a2, by rw [a4]; exact b2⟩, ?_, ?_, by simp [b5], ?_⟩
          · intro x hx
            rcases List.mem_cons.1 hx with rfl | hx
            · exact a5
            · exact b3 x hx
          · rw [List.flatMap_cons, List.flatMap_cons]
            exact a6.append b4
          · intro E w
            rw [evalSegs, evalSegs, b6, a7]
  refine key segs 0 n d.layers ls hf hp (fun j => by rw [Nat.zero_add]) ?_ hl
  have := hsame
  unfold SameLayers at this
  rwa [show (ofSegs segs).layers = List.range' 0 segs.length from List.range_eq_range' ..] at this

/-! ### The last sorting -/

theorem sortAll_same {c d : Nested F} (hc : c.Ok) (h : SortAll c d) : d.Ok ∧ SameLayers c d := by
  obtain ⟨h1, h2⟩ := h
  have hlen := h1.length_eq
  have fwd : ∀ (i : Nat) (s : Sg F), c.segs[i]? = some s → ∃ t, d.segs[i]? = some t ∧ SortSeg s t := by
    intro i s hs
    obtain ⟨hi, e⟩ := List.getElem?_eq_some_iff.1 hs
    have hi' : i < d.segs.length := hlen ▸ hi
    refine ⟨d.segs[i], List.getElem?_eq_getElem hi', ?_⟩
    have := h1.get (i := i) hi hi'
    simpa [e] using this
  have bwd : ∀ (i : Nat) (t : Sg F), d.segs[i]? = some t → ∃ s, c.segs[i]? = some s ∧ SortSeg s t := by
    intro i t ht
    have hi : i < c.segs.length := by rw [hlen]; exact (List.getElem?_eq_some_iff.1 ht).1
    obtain ⟨t', ht', hst⟩ := fwd i _ (List.getElem?_eq_getElem hi)
    rw [ht] at ht'; cases ht'
    exact ⟨_, List.getElem?_eq_getElem hi, hst⟩
  have own : ∀ {s t : Sg F}, SortSeg s t → t.own.Perm s.own := fun h => (h.muls.append h.adds).append h.csts
  have hd : d.Ok := by
    refine ⟨fun i t ht => ?_, fun i hi => ?_, ?_, by rw [h2]; exact hc.nonempty⟩
    · obtain ⟨s, hs, hst⟩ := bwd i t ht
      have ok := hc.seg i s hs
      refine ⟨hst.numIn ▸ ok.sizeIn, hst.numOut ▸ ok.sizeOut, fun g hg => ok.mulLen g (hst.muls.mem_iff.1 hg),
        fun g hg => ok.addLen g (hst.adds.mem_iff.1 hg), fun g hg => ok.cstLen g (hst.csts.mem_iff.1 hg),
        fun g hg => hst.numIn ▸ ok.read g ((own hst).mem_iff.1 hg), fun g hg => hst.numOut ▸ ok.write g ((own hst).mem_iff.1 hg),
        fun k hk => ?_⟩
      obtain ⟨a, b⟩ := ok.kidsOk k (hst.kids.mem_iff.1 hk)
      refine ⟨a, fun u hu => ?_⟩
      obtain ⟨u', hu', huu⟩ := bwd _ u hu
      rw [hst.numIn, hst.numOut, huu.numIn, huu.numOut]
      exact b u' hu'
    · obtain ⟨s, hs⟩ := hc.layer i (h2 ▸ hi)
      obtain ⟨t, ht, -⟩ := fwd i s hs
      exact ⟨t, ht⟩
    · rw [h2]
      refine hc.fit.imp fun a b hab s t hs ht => ?_
      obtain ⟨s0, hs0, es⟩ := bwd _ _ hs
      obtain ⟨t0, ht0, et⟩ := bwd _ _ ht
      rw [es.numOut, et.numIn]
      exact hab s0 t0 hs0 ht0
  have same := same_sim c d hd.down (fun i => i < c.segs.length) id fun i hi => by
    obtain ⟨t, ht, hst⟩ := fwd i _ (List.getElem?_eq_getElem hi)
    have hs : c.segs[i]? = some c.segs[i] := List.getElem?_eq_getElem hi
    refine ⟨t, t, [], ?_, fun k hk => ?_, ht, by simp, by simpa [place] using SameGates.refl _⟩
    · rw [gates_eq c hc.down hs]
      exact SameGates.of_perm ((own hst).append (place_perm _ hst.kids))
    · have := hc.down i _ hs k (hst.kids.mem_iff.1 hk)
      exact ⟨by omega, this⟩
  refine ⟨hd, ?_⟩
  unfold SameLayers
  rw [h2, List.forall₂_same]
  intro i hi
  obtain ⟨s, hs⟩ := hc.layer i hi
  obtain ⟨t, ht, hst⟩ := fwd i s hs
  exact ⟨s, t, hs, ht, hst.numIn, hst.numOut, same i (List.getElem?_eq_some_iff.1 hs).1⟩

/-! ### No layer of the compiler has two equal gates with a coin or a public input -/

/-- No sum multiplies a variable by two coins. -/
def RndDistinct (c : DCircuit F R) : Prop := ∀ i ∈ c.insns, ∀ e rl, i = .iv e rl → (rl.map Prod.snd).Nodup

omit [Field F] in
theorem posIn_inj {b : List Nat} {x y p : Nat} (hx : posIn b x = some p) (hy : posIn b y = some p) : x = y := by
  unfold posIn at hx hy
  split_ifs at hx hy with h1 h2
  simp only [Option.some.injEq] at hx hy
  exact (List.idxOf_inj h1).1 (hx.trans hy.symm)

theorem gather_const {α : Type} {f : α → Option (List (Gate F R))}
    (h : ∀ x ys, f x = some ys → ∀ g ∈ ys, varies g = false) (l : List α) (ys) (hg : Comp.gather f l = some ys) :
    varying (ys.map eraseGate) = [] := by
  rw [varying_erase]
  have : ∀ g ∈ ys, varies g = false := gather_all h l ys hg
  rw [List.filter_eq_nil_iff.2 fun g hg => by simp [this g hg]]
  rfl

theorem gather_rnd_eq (a : List Nat) (pos : Nat) : ∀ (rl : List (R × Nat)) (ys : List (Gate F R)),
    Comp.gather (rndGate a pos) rl = some ys →
    ys.map eraseGate = (rl.map Prod.snd).map (fun x => (⟨[a.idxOf x], pos, .rnd⟩ : Gt F)) ∧ ∀ x ∈ rl.map Prod.snd, x ∈ a
  | [], ys, h => by cases h; exact ⟨rfl, fun x hx => (nomatch hx)⟩
  | t :: r, ys, h => by
    rw [Comp.gather] at h
    simp only [Option.bind_eq_bind, Option.bind_eq_some_iff] at h
    obtain ⟨u, hu, v, hv, e⟩ := h
    cases e
    obtain ⟨i1, i2⟩ := gather_rnd_eq a pos r v hv
    simp only [rndGate, Option.bind_eq_bind, Option.bind_eq_some_iff] at hu
    obtain ⟨q, hq, e⟩ := hu
    cases e
    unfold posIn at hq
    split_ifs at hq with hm
    cases hq
    refine ⟨by rw [List.map_append, i1]; rfl, fun x hx => ?_⟩
    rcases List.mem_cons.1 hx with rfl | hx
    · exact hm
    · exact i2 x hx

theorem insn_vary (a : List Nat) (pos : Nat) (i : DInsn F R) (hi : ∀ e rl, i = .iv e rl → (rl.map Prod.snd).Nodup)
    (gs) (h : insnGates a pos i = some gs) : (varying (gs.map eraseGate)).Nodup ∧ ∀ g ∈ gs, g.o = pos := by
  cases i with
  | iv e rl =>
    simp only [insnGates, Option.bind_eq_bind, Option.bind_eq_some_iff] at h
    obtain ⟨g1, h1, g2, h2, h3⟩ := h
    cases h3
    have t1 : ∀ (x : Term F) (ys : List (Gate F R)), termGate a pos x = some ys → ∀ g ∈ ys, varies g = false ∧ g.o = pos := by
      intro t ys ht y hy
      unfold termGate at ht
      split at ht
      · cases ht; rw [List.mem_singleton.1 hy]; exact ⟨rfl, rfl⟩
      · simp only [Option.bind_eq_bind, Option.bind_eq_some_iff] at ht
        obtain ⟨q, -, ht⟩ := ht
        cases ht; rw [List.mem_singleton.1 hy]; exact ⟨rfl, rfl⟩
      · simp only [Option.bind_eq_bind, Option.bind_eq_some_iff] at ht
        obtain ⟨q, -, q', -, ht⟩ := ht
        cases ht; rw [List.mem_singleton.1 hy]; exact ⟨rfl, rfl⟩
    have c1 := gather_const (fun x ys h g hg => (t1 x ys h g hg).1) _ _ h1
    obtain ⟨c2, c3⟩ := gather_rnd_eq a pos rl g2 h2
    refine ⟨?_, fun g hg => ?_⟩
    · rw [List.map_append, varying_append, c1, List.nil_append, c2]
      refine List.Nodup.filter _ (List.Nodup.map_on ?_ (hi e rl rfl))
      intro x hx y hy e
      simp only [Gt.mk.injEq, List.cons.injEq, and_true] at e
      exact (List.idxOf_inj (c3 x hx)).1 e
    · rcases List.mem_append.1 hg with hg | hg
      · exact gather_all (P := fun g : Gate F R => g.o = pos) (fun x ys h g hg => (t1 x ys h g hg).2) _ _ h1 g hg
      · have : eraseGate g ∈ g2.map eraseGate := List.mem_map_of_mem hg
        rw [c2] at this
        obtain ⟨x, -, e⟩ := List.mem_map.1 this
        exact (congrArg Gt.o e).symm
  | random r =>
    cases h
    refine ⟨?_, fun g hg => by rw [List.mem_singleton.1 hg]⟩
    simp [varying, eraseGate, erase, Gt.isConst]
  | publicInput i =>
    cases h
    refine ⟨?_, fun g hg => by rw [List.mem_singleton.1 hg]⟩
    simp [varying, eraseGate, erase, Gt.isConst]

theorem var_vary (c : DCircuit F R) (hc : RndDistinct c) (a b : List Nat) (l x : Nat) (gs)
    (h : varGates c a b l x = some gs) : (varying (gs.map eraseGate)).Nodup ∧ ∀ g ∈ gs, posIn b x = some g.o := by
  have tgt : ∀ (last : Bool) (f : Nat → Option (List (Gate F R))) ys,
      Comp.target b last x f = some ys → ys = [] ∨ ∃ pos, posIn b x = some pos ∧ f pos = some ys := by
    intro last f ys h
    unfold Comp.target at h
    split at h
    · exact .inr ⟨_, ‹_›, h⟩
    · split_ifs at h; cases h; exact .inl rfl
  simp only [varGates, Option.bind_eq_bind, Option.bind_eq_some_iff] at h
  obtain ⟨g1, h1, g2, h2, h3⟩ := h
  cases h3
  have f1 : (varying (g1.map eraseGate)).Nodup ∧ ∀ g ∈ g1, posIn b x = some g.o := by
    unfold firstGates at h1
    split_ifs at h1
    · rcases tgt _ _ _ h1 with rfl | ⟨pos, hp, hz⟩
      · exact ⟨List.nodup_nil, fun g hg => (nomatch hg)⟩
      · cases hi : insnOf c x with
        | none => rw [hi] at hz; cases hz; exact ⟨List.nodup_nil, fun g hg => (nomatch hg)⟩
        | some i =>
          rw [hi] at hz
          obtain ⟨_, _, hm⟩ := insnOf_some hi
          obtain ⟨u, v⟩ := insn_vary a pos i (hc i (List.mem_of_getElem? hm)) g1 hz
          exact ⟨u, fun g hg => by rw [v g hg]; exact hp⟩
    · cases h1; exact ⟨List.nodup_nil, fun g hg => (nomatch hg)⟩
  have f2 : varying (g2.map eraseGate) = [] ∧ ∀ g ∈ g2, posIn b x = some g.o := by
    unfold relayGates at h2
    split_ifs at h2
    · rcases tgt _ _ _ h2 with rfl | ⟨pos, hp, hz⟩
      · exact ⟨rfl, fun g hg => (nomatch hg)⟩
      · simp only [Option.bind_eq_bind, Option.bind_eq_some_iff] at hz
        obtain ⟨q, -, hz⟩ := hz
        cases hz
        exact ⟨by simp [varying, eraseGate, erase, Gt.isConst], fun g hg => by rw [List.mem_singleton.1 hg]; exact hp⟩
    · cases h2; exact ⟨rfl, fun g hg => (nomatch hg)⟩
  refine ⟨by rw [List.map_append, varying_append, f2.1, List.append_nil]; exact f1.1, fun g hg => ?_⟩
  rcases List.mem_append.1 hg with hg | hg
  · exact f1.2 g hg
  · exact f2.2 g hg

omit [Field F] in
theorem gather_vary (b : List Nat) {f : Nat → Option (List (Gate F R))}
    (hf : ∀ x ys, f x = some ys → (varying (ys.map eraseGate)).Nodup ∧ ∀ g ∈ ys, posIn b x = some g.o) :
    ∀ (xs : List Nat) (ys), xs.Nodup → Comp.gather f xs = some ys →
      (varying (ys.map eraseGate)).Nodup ∧ ∀ g ∈ ys, ∃ x ∈ xs, posIn b x = some g.o
  | [], ys, _, h => by cases h; exact ⟨List.nodup_nil, fun g hg => (nomatch hg)⟩
  | x :: r, ys, hn, h => by
    rw [Comp.gather] at h
    simp only [Option.bind_eq_bind, Option.bind_eq_some_iff] at h
    obtain ⟨u, hu, v, hv, e⟩ := h
    cases e
    obtain ⟨hn1, hn2⟩ := List.nodup_cons.1 hn
    obtain ⟨i1, i2⟩ := gather_vary b hf r v hn2 hv
    obtain ⟨j1, j2⟩ := hf x u hu
    refine ⟨?_, fun g hg => ?_⟩
    · rw [List.map_append, varying_append]
      refine List.nodup_append.2 ⟨j1, i1, fun p hp q hq e => ?_⟩
      subst e
      obtain ⟨g, hg, rfl⟩ := List.mem_map.1 (List.mem_filter.1 hp).1
      obtain ⟨g', hg', e⟩ := List.mem_map.1 (List.mem_filter.1 hq).1
      obtain ⟨y, hy, hpos⟩ := i2 g' hg'
      have eo : g'.o = g.o := congrArg Gt.o e
      rw [eo] at hpos
      exact hn1 (posIn_inj (j2 g hg) hpos ▸ hy)
    · rcases List.mem_append.1 hg with hg | hg
      · exact ⟨x, List.mem_cons_self .., j2 g hg⟩
      · obtain ⟨y, hy, h⟩ := i2 g hg
        exact ⟨y, List.mem_cons_of_mem _ hy, h⟩

theorem seg_vary (c : DCircuit F R) (hc : RndDistinct c) (l : Nat) (s) (h : segAt c l = some s) :
    (varying ((s.muls ++ s.adds ++ s.csts).map eraseGate)).Nodup := by
  simp only [segAt, Option.bind_eq_bind, Option.bind_eq_some_iff] at h
  obtain ⟨gs, hg, e⟩ := h
  cases e
  have hn := (gather_vary _ (var_vary c hc _ _ l) _ _ (List.nodup_range') hg).1
  dsimp only
  have part : ∀ n : Nat, (varying ((gs.filter fun g => g.ins.length = n).map eraseGate)).Nodup ∧
      ∀ g ∈ varying ((gs.filter fun g => g.ins.length = n).map eraseGate), g.ins.length = n := by
    intro n
    refine ⟨hn.sublist ((List.filter_sublist.map _).filter _), fun g hg => ?_⟩
    obtain ⟨g', hg', rfl⟩ := List.mem_map.1 (List.mem_filter.1 hg).1
    exact of_decide_eq_true (List.mem_filter.1 hg').2
  rw [List.map_append, List.map_append, varying_append, varying_append]
  refine List.nodup_append.2 ⟨List.nodup_append.2 ⟨(part 2).1, (part 1).1, fun p hp q hq e => ?_⟩, (part 0).1,
    fun p hp q hq e => ?_⟩
  · have h1 := (part 2).2 p hp
    have h2 := (part 1).2 q hq
    rw [e] at h1; omega
  · have h2 := (part 0).2 q hq
    rcases List.mem_append.1 hp with hp | hp
    · have h1 := (part 2).2 p hp
      rw [e] at h1; omega
    · have h1 := (part 1).2 p hp
      rw [e] at h1; omega

section

variable [DecidableEq F]

theorem ren_distinct {i : DInsn F R} (hi : ∀ e rl, i = .iv e rl → (rl.map Prod.snd).Nodup) {f : Nat → Nat}
    (hf : ∀ x ∈ DInsn.vars i, ∀ y ∈ DInsn.vars i, f x = f y → x = y) :
    ∀ e rl, DInsn.ren f i = .iv e rl → (rl.map Prod.snd).Nodup := by
  intro e rl h
  cases i with
  | iv e0 rl0 =>
    simp only [DInsn.ren, DInsn.iv.injEq] at h
    obtain ⟨-, rfl⟩ := h
    have e : (rl0.map fun p => (p.1, f p.2)).map Prod.snd = (rl0.map Prod.snd).map f := by simp
    rw [e]
    exact List.Nodup.map_on (fun x hx y hy => hf x (List.mem_append_right _ hx) y (List.mem_append_right _ hy)) (hi _ _ rfl)
  | random r => cases h
  | publicInput r => cases h

theorem mem_keep {L : List Nat} : ∀ {n : Nat} {is : List (DInsn F R)} {j}, j ∈ keepInsns DInsn.ren L n is →
    ∃ k i, is[k]? = some i ∧ n + k ∈ L ∧ j = DInsn.ren (Comp.newId L) i
  | _, [], _, h => by cases h
  | n, i :: r, j, h => by
    have tail : j ∈ keepInsns DInsn.ren L (n + 1) r → ∃ k i', (i :: r)[k]? = some i' ∧ n + k ∈ L ∧ j = DInsn.ren (Comp.newId L) i' := by
      intro h
      obtain ⟨k, i', h1, h2, h3⟩ := mem_keep h
      exact ⟨k + 1, i', by simpa using h1, by rw [show n + (k + 1) = n + 1 + k by omega]; exact h2, h3⟩
    rw [keepInsns] at h
    split_ifs at h with hm
    · rcases List.mem_cons.1 h with rfl | h
      · exact ⟨0, i, rfl, hm, rfl⟩
      · exact tail h
    · exact tail h

theorem prune_distinct {c : DCircuit F R} (hv : c.Valid) (hc : RndDistinct c) : RndDistinct (pruneD c) := by
  have h1 : RndDistinct (removeUnreachable DInsn.vars DInsn.ren c) := by
    intro j hj
    obtain ⟨k, i, hk, hl, rfl⟩ := mem_keep hj
    have rb := readsBelow_of_valid hv.insns
    have hsub := live_closed rb hk hl
    exact ren_distinct (hc i (List.mem_of_getElem? hk)) fun x hx y hy e =>
      newId_inj (hsub hx) (hsub hy) (rb k i hk x hx).1 (rb k i hk y hy).1 e
  unfold pruneD reassignOuts
  split_ifs
  · exact h1
  · intro j hj
    rcases List.mem_append.1 (show j ∈ _ ++ _ from hj) with hj | hj
    · obtain ⟨i, hi, rfl⟩ := List.mem_map.1 hj
      exact ren_distinct (h1 i hi) fun x _ y _ e => e
    · have : ∀ (os seen : List Nat) (n : Nat), ∀ j ∈ (splitOuts (DInsn.copy : Nat → DInsn F R) seen os n).1, ∃ x, j = DInsn.copy x := by
        intro os
        induction os with
        | nil => intro _ _ j hj; cases hj
        | cons o r ih =>
          intro seen n j hj
          simp only [splitOuts] at hj
          split_ifs at hj
          · rcases List.mem_cons.1 hj with rfl | hj
            · exact ⟨_, rfl⟩
            · exact ih _ _ j hj
          · exact ih _ _ j hj
      obtain ⟨x, rfl⟩ := this _ _ _ j hj
      intro e rl h
      simp only [DInsn.copy, DInsn.iv.injEq] at h
      obtain ⟨-, rfl⟩ := h
      exact List.nodup_nil

theorem prunes_distinct (k : Nat) {c : DCircuit F R} (hv : c.Valid) (hc : RndDistinct c) : RndDistinct (prunes k c) := by
  induction k generalizing c with
  | zero => exact hc
  | succ k ih => exact ih (pruneD_ok hv).1 (prune_distinct hv hc)

theorem combRounds_distinct (layer : Nat → Nat) (k : Nat) : ∀ (i : Nat) (s : CombSt F R),
    (∀ j ∈ s.out, ∀ e rl, j = .iv e rl → (rl.map Prod.snd).Nodup) →
    ∀ j ∈ (combRounds layer i k s).out, ∀ e rl, j = .iv e rl → (rl.map Prod.snd).Nodup := by
  induction k with
  | zero => exact fun i s h => h
  | succ k ih =>
    intro i s h
    refine ih (i + 1) _ fun j hj => ?_
    unfold combRound at hj
    dsimp only at hj
    split_ifs at hj
    · exact h j hj
    all_goals
      rcases List.mem_append.1 (show j ∈ _ ++ _ from hj) with hj | hj
      · exact h j hj
      · rw [List.mem_singleton.1 hj]
        intro e rl he
        simp only [emitTerms, DInsn.iv.injEq] at he
        obtain ⟨-, rfl⟩ := he
        rw [List.map_map]
        refine List.Nodup.map (f := _) ?_ ((List.nodup_dedup _).filter _)
        exact fun x y h => h

theorem combine_distinct {c : DCircuit F R} (hc : RndDistinct c) : RndDistinct (combine c) := by
  intro j hj
  rcases List.mem_append.1 (show j ∈ _ ++ _ from hj) with hj | hj
  · obtain ⟨i, hi, rfl⟩ := List.mem_map.1 hj
    intro e rl h
    cases i with
    | iv e0 rl0 =>
      simp only [liftInsn, DInsn.iv.injEq] at h
      obtain ⟨-, rfl⟩ := h
      have e : (rl0.map fun p => ((.inl p.1 : R ⊕ Nat × Nat), p.2)).map Prod.snd = rl0.map Prod.snd := by simp
      rw [e]
      exact hc _ hi _ _ rfl
    | random r => cases h
    | publicInput r => cases h
  · exact combRounds_distinct _ _ _ _ (fun j hj => (List.not_mem_nil hj).elim) j hj

/-- The compiler's layers can be shared without loss. -/
theorem layers_sharable (k1 k2 : Nat) {c : DCircuit F R} (hv : c.Valid) (hc : RndDistinct c) {raw}
    (h : layerize (lowered k1 (k2 + 1) c) = some raw) : Sharable (ofSegs raw) := by
  have v1 := (prunes_ok k1 hv).1
  have v2 := (combine_valid v1).1
  obtain ⟨v3, nd3, -⟩ := prunes_ok (k2 + 1) v2
  obtain ⟨segs, hs, hne, hfit, -⟩ := layerize_ok v3 (nd3 (by omega))
  have hs : layerize (lowered k1 (k2 + 1) c) = some segs := hs
  rw [h] at hs; cases hs
  have hd : RndDistinct (lowered k1 (k2 + 1) c) :=
    prunes_distinct _ v2 (combine_distinct (prunes_distinct _ hv hc))
  refine ⟨ofSegs_ok hfit hne, fun s hs k hk => ?_, fun i hi => ?_⟩
  · obtain ⟨t, -, rfl⟩ := List.mem_map.1 (show s ∈ raw.map eraseSeg from hs)
    cases hk
  · have hi : i < raw.length := by simpa [ofSegs] using hi
    have : (ofSegs raw).gates i = (raw[i].muls ++ raw[i].adds ++ raw[i].csts).map eraseGate := by
      rw [Nested.gates, Nested.all, ofSegs_at, List.getElem?_eq_getElem hi]
      simp [eraseSeg, Sg.own, place]
    rw [this]
    refine gather_all (P := fun s => (varying ((s.muls ++ s.adds ++ s.csts).map eraseGate)).Nodup)
      (fun l ys hl s hs => ?_) _ _ h _ (List.getElem_mem hi)
    obtain ⟨t, ht, e⟩ := Option.map_eq_some_iff.1 hl
    subst e
    rw [List.mem_singleton.1 hs]
    exact seg_vary _ hd l t ht

end

/-! ### C84 -/

variable [DecidableEq F] [Ord F]

omit [Field F] [DecidableEq F] [Ord F] in
/-- A circuit without coins of its own. -/
theorem rndDistinct_empty (c : DCircuit F Empty) : RndDistinct c := by
  intro i _ e rl _
  cases rl with
  | nil => exact List.nodup_nil
  | cons p r => exact p.1.elim

/-- `compile/mod.rs:175-299` at the default optimization level 3, for the main circuit of a program without calls:
as `layersFor`, but the layers go through the loop of `compile_step_3`. -/
def Compiled (k1 k2 : Nat) (c : DCircuit F Empty) (d : Nested F) : Prop :=
  ∃ raw e, layerize (lowered k1 k2 c) = some raw ∧ Step3 (ofSegs raw) e ∧ SortAll e d

/-- A flattening of the compiled circuit, as layers with named coins. -/
theorem compiled_layers [Std.TransOrd F] (k1 k2 : Nat) {c : DCircuit F Empty} (hv : c.Valid)
    (hfew : FewConstraints F c.cons.length) {d : Nested F} (hd : Compiled k1 (k2 + 1) c d) {ls : List (PLayer F)}
    (hl : Flatten d ls) : d.Ok ∧ ∃ segs segs2 m, layersFor k1 (k2 + 1) c = some segs ∧ Fit m segs2 ∧ segs2 ≠ [] ∧
      (∀ s ∈ segs2, PubNil (s.muls ++ s.adds)) ∧ (segs2.flatMap Seg.coins).Perm (segs.flatMap Seg.coins) ∧
      (segs2.flatMap Seg.coins).Nodup ∧ (∀ E w, evalSegs E segs2 w = evalSegs E segs w) ∧ Flatten (ofSegs segs2) ls := by
  obtain ⟨raw, e, hraw, h3, hsort⟩ := hd
  have hsh := layers_sharable k1 k2 hv (rndDistinct_empty c) hraw
  obtain ⟨eok, esame⟩ := C83_layers_partial hsh h3
  obtain ⟨dok, dsame⟩ := sortAll_same eok hsort
  obtain ⟨segs, hs, -, -, hnd⟩ := C74_layers_fit k1 k2 hv hfew
  have hs' := hs
  unfold layersFor at hs'
  rw [hraw, Option.map_some, Option.some.injEq] at hs'
  have v1 := (prunes_ok k1 hv).1
  obtain ⟨v3, nd3, -⟩ := prunes_ok (k2 + 1) (combine_valid v1).1
  obtain ⟨raw', hr', hne, hfit, -⟩ := layerize_ok v3 (nd3 (by omega))
  have hr' : layerize (lowered k1 (k2 + 1) c) = some raw' := hr'
  rw [hraw] at hr'; cases hr'
  have hpub : ∀ s ∈ raw, PubNil (s.muls ++ s.adds) := fun s hs g hg =>
    pub_layerize _ _ hraw s hs g (List.mem_append_left _ hg)
  obtain ⟨segs2, b1, b2, b3, b4, b5, b6⟩ := name_layers hfit hpub dok (esame.trans dsame) hl
  have hne2 : segs2 ≠ [] := fun h => hne (List.length_eq_zero_iff.1 (by rw [← b5, h]; rfl))
  have hperm : (segs2.flatMap Seg.coins).Perm (segs.flatMap Seg.coins) := by
    rw [← hs']
    exact b4.trans (coins_map _ (fun s => (sortSeg_coins _).trans (dedupSeg_coins s)) raw).symm
  refine ⟨dok, segs, segs2, _, hs, b2, hne2, b3, hperm, hperm.nodup_iff.2 (hnd (coins_empty c)), fun E w => ?_, ?_⟩
  · rw [b6, ← hs']
    exact (evalSegs_map E _ (fun s w p => by rw [sortSeg_eval, dedupSeg_eval]) raw w).symm
  · obtain ⟨ls', hl'⟩ := C81_flatten_exists _ (ofSegs_ok b2 hne2)
    rwa [flatten_ofSegs segs2 hl', b1] at hl'

/-- **C84, honest provers.** As C82 for the circuit after the last optimizations: if the inputs of every lane satisfy
the constraints, then whatever coins are drawn the sum of the constraints is zero in every lane, the next output
wires carry the outputs, and the honest proof is accepted by a verifier with the same flattening. -/
theorem C84_complete [Std.TransOrd F] (h6 : (6 : F) ≠ 0) (k1 k2 : Nat) {c : DCircuit F Empty} (hv : c.Valid)
    (hfew : FewConstraints F c.cons.length) (hc : c.cons ≠ []) {d : Nested F} (hd : Compiled k1 (k2 + 1) c d)
    {ls : List (PLayer F)} (hl : Flatten d ls) (s : Nat)
    (ins : Nat → List F) (hins : ∀ k, (ins k).length = c.numInputs) (pub w : Nat → Nat → F)
    (hw : ∀ i k, w i k = wiresFor k1 (k2 + 1) c (ins k) i)
    (hacc : ∀ k < 2 ^ s, DCircuit.Accepts (laneEnv pub k) c (ins k)) (ρ : Nat → F) :
    (∀ k < 2 ^ s, evalCircuit pub (finish ρ ls) w 0 k = 0) ∧
    (∀ k j, j < c.outputs.length →
      evalCircuit pub (finish ρ ls) w (j + 1) k = (DCircuit.outs (laneEnv pub k) c (ins k)).getD j 0) ∧
    ∀ {S : Type} (tr : Tr F S) (t : S) (sp : Bufs F) (rest : List F),
      let p := Gkr.run tr (snarkProve s (finish ρ ls) pub w sp) t []
      let v := Gkr.run tr (snarkVerify s (finish ρ ls) pub p.val w) t (p.sent ++ rest)
      v.val = true ∧ v.state = p.state ∧ v.rest = rest := by
  obtain ⟨dok, segs, segs2, m, hs, hf, hne, hp, hperm, hnd, hsame, hl2⟩ := compiled_layers k1 k2 hv hfew hd hl
  have ev := fun p k => C82_evaluate hf hne hp hnd hl2 ρ pub w p k
  have hw' : ∀ k, (fun i => w i k) = wiresFor k1 (k2 + 1) c (ins k) := fun k => funext fun i => hw i k
  have acc := fun k => C74_accepting k1 k2 hv hfew hc hs (coinEnv (fun i => pub i k) segs2 ρ) (hins k)
  refine ⟨fun k hk => ?_, fun k j hj => ?_, ?_⟩
  · rw [ev, hw', hsame]
    exact (acc k).1 (by rw [left_coinEnv]; exact hacc k hk)
  · rw [ev, hw', hsame, ← left_coinEnv pub k segs2 ρ]
    exact (acc k).2 j hj
  · obtain ⟨h1, ⟨n, h2⟩, h3⟩ := C81_ok d dok hl ρ
    intro S tr t sp rest
    exact C19_completeness h6 tr t s n _ h1 h2 h3 pub w sp rest

/-- **C84, dishonest provers** (partial: for a caller who fixes the claimed value to zero). The bound of C82 for the
circuit after the last optimizations. -/
theorem C84_sound_partial [Fintype F] [Std.TransOrd F] (h6 : (6 : F) ≠ 0) (k1 k2 : Nat) {c : DCircuit F Empty}
    (hv : c.Valid) (hfew : FewConstraints F c.cons.length) {d : Nested F} (hd : Compiled k1 (k2 + 1) c d)
    {ls : List (PLayer F)} (hl : Flatten d ls) (s : Nat) (ins : Nat → List F)
    (hins : ∀ k, (ins k).length = c.numInputs) (pub w : Nat → Nat → F)
    (hw : ∀ i k, w i k = wiresFor k1 (k2 + 1) c (ins k) i)
    (hno : ∃ k < 2 ^ s, ¬ DCircuit.Accepts (laneEnv pub k) c (ins k)) :
    ∃ segs, layersFor k1 (k2 + 1) c = some segs ∧ ∀ n, n = (segs.flatMap Seg.coins).length →
    ∀ adv : (Fin n → F) → List F → Nat → Option F,
    let C := finish (fun _ => (0 : F)) ls
    let D := outputVars 0 C + s + gkrDraws s C
    (∑ ρ, (hits (· = true) (adv ρ) (snarkVerify s (finish (pad ρ) ls) pub 0 w) [] 0 D).card) * Fintype.card F ≤
      (1 + (outputVars 0 C + s + gkrErr s C)) * Fintype.card F ^ (n + D) := by
  obtain ⟨-, segs, segs2, m, hs, hf, hne, hp, hperm, hnd, hsame, hl2⟩ := compiled_layers k1 k2 hv hfew hd hl
  refine ⟨segs, hs, fun n hn adv => ?_⟩
  rw [← hperm.length_eq] at hn
  subst hn
  exact sound_from h6 k1 k2 hv hfew hs hf hne hp hperm hsame hl2 s ins hins pub w hw hno adv

/-- The compiler can always be run, and what it returns can be flattened. -/
theorem C84_exists [Std.TransOrd F] (k1 k2 : Nat) {c : DCircuit F Empty} (hv : c.Valid)
    (hfew : FewConstraints F c.cons.length) : ∃ d ls, Compiled k1 (k2 + 1) c d ∧ Flatten d ls := by
  obtain ⟨segs, hs, -⟩ := C74_layers_fit k1 k2 hv hfew
  unfold layersFor at hs
  obtain ⟨raw, hraw, -⟩ := Option.map_eq_some_iff.1 hs
  have hsh := layers_sharable k1 k2 hv (rndDistinct_empty c) hraw
  have ok := (C83_layers_partial hsh Step3.start).1
  obtain ⟨ls, hl⟩ := C81_flatten_exists _ ok
  exact ⟨_, ls, ⟨raw, _, hraw, Step3.start, List.forall₂_same.2 fun s _ => ⟨rfl, rfl, .refl _, .refl _, .refl _, .refl _⟩, rfl⟩, hl⟩

end JST.Export
