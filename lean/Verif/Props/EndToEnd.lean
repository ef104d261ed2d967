import Verif.Props.Export
import Verif.Props.Layering

/-!
# C82: from constraints to the verifier's decision

Puts the compiler's last steps (C74), the export (C81) and the interactive proof (C19, C21) together.
-/

namespace JST.Export

open JST JST.Gkr JST.Spec JST.Props JST.Flat JST.Comp JST.Circ

variable {F R : Type} [Field F]

/-! ### Layers without nesting as a nested circuit -/

/-- Forgetting the names of the coins. -/
def erase : Coef F R → Cf F
  | .const c => .const c
  | .rnd _ => .rnd
  | .pub i => .pub i

def eraseGate (g : Gate F R) : Gt F := ⟨g.ins, g.o, erase g.coef⟩

def eraseSeg (s : Seg F R) : Sg F :=
  ⟨s.numIn, s.numOut, s.muls.map eraseGate, s.adds.map eraseGate, s.csts.map eraseGate, []⟩

/-- The compiled circuit with one segment for each layer, as the compiler leaves it at optimization
levels 1 and 2. -/
def ofSegs (segs : List (Seg F R)) : Nested F := ⟨segs.map eraseSeg, List.range segs.length⟩

theorem fit_next : ∀ {segs : List (Seg F R)} {n : Nat}, Fit n segs → ∀ i (s t : Seg F R), segs[i]? = some s →
    segs[i + 1]? = some t → s.numOut = t.numIn
  | [], _, _, i, s, t, h, _ => by simp at h
  | a :: r, _, hf, 0, s, t, h, h' => by
    cases r with
    | nil => simp at h'
    | cons b r =>
      simp only [List.getElem?_cons_zero, Option.some.injEq, List.getElem?_cons_succ] at h h'
      subst h; subst h'
      exact hf.2.2.1.symm
  | a :: r, _, hf, i + 1, s, t, h, h' => fit_next hf.2.2 i s t (by simpa using h) (by simpa using h')

theorem fit_all : ∀ {segs : List (Seg F R)} {n : Nat}, Fit n segs → ∀ s ∈ segs, s.WF
  | [], _, _, _, h => by simp at h
  | _ :: _, _, hf, s, h => by
    rcases List.mem_cons.1 h with rfl | h
    · exact hf.2.1
    · exact fit_all hf.2.2 s h

theorem eraseSeg_ok {s : Seg F R} (h : s.WF) (segs : List (Sg F)) (id : Nat) : (eraseSeg s).Ok segs id := by
  have own : ∀ g ∈ (eraseSeg s).own, ∃ g' ∈ s.muls ++ s.adds ++ s.csts, g.ins = g'.ins ∧ g.o = g'.o := by
    intro g hg
    simp only [Sg.own, eraseSeg, ← List.map_append] at hg
    obtain ⟨g', hg', rfl⟩ := List.mem_map.1 hg
    exact ⟨g', hg', rfl, rfl⟩
  refine ⟨h.sizeIn, h.sizeOut, fun g hg => ?_, fun g hg => ?_, fun g hg => ?_, fun g hg => ?_, fun g hg => ?_,
    fun k hk => (nomatch hk)⟩
  · obtain ⟨g', hg', rfl⟩ := List.mem_map.1 hg
    exact List.length_eq_two.1 (h.mulLen g' hg')
  · obtain ⟨g', hg', rfl⟩ := List.mem_map.1 hg
    exact List.length_eq_one_iff.1 (h.addLen g' hg')
  · obtain ⟨g', hg', rfl⟩ := List.mem_map.1 hg
    exact List.length_eq_zero_iff.1 (h.cstLen g' hg')
  · obtain ⟨g', hg', e, -⟩ := own g hg
    rw [e]; exact h.read g' hg'
  · obtain ⟨g', hg', -, e⟩ := own g hg
    rw [e]; exact h.write g' hg'

theorem ofSegs_at (segs : List (Seg F R)) (i : Nat) : (ofSegs segs).segs[i]? = segs[i]?.map eraseSeg := by
  simp [ofSegs]

theorem ofSegs_ok {segs : List (Seg F R)} {n : Nat} (hf : Fit n segs) (hne : segs ≠ []) : (ofSegs segs).Ok := by
  refine ⟨fun id s hs => ?_, fun id hid => ?_, ?_, ?_⟩
  · rw [ofSegs_at] at hs
    obtain ⟨t, ht, rfl⟩ := Option.map_eq_some_iff.1 hs
    exact eraseSeg_ok (fit_all hf t (List.mem_of_getElem? ht)) _ _
  · have : id < segs.length := List.mem_range.1 hid
    exact ⟨eraseSeg segs[id], by rw [ofSegs_at, List.getElem?_eq_getElem this]; rfl⟩
  · refine List.isChain_iff_getElem.2 fun i hi s t hs ht => ?_
    simp only [ofSegs, List.getElem_range] at hs ht
    rw [List.getElem?_map] at hs ht
    obtain ⟨s', hs', rfl⟩ := Option.map_eq_some_iff.1 hs
    obtain ⟨t', ht', rfl⟩ := Option.map_eq_some_iff.1 ht
    exact fit_next hf i s' t' hs' ht'
  · intro h
    exact hne (List.length_eq_zero_iff.1 (List.range_eq_nil.1 h))

/-- The only flattening. -/
def flatSeg (s : Seg F R) : PLayer F :=
  ⟨max (padicValNat 2 s.numIn) 1, max (padicValNat 2 s.numOut) 1, (s.muls.map eraseGate).map Gt.export,
    (s.adds.map eraseGate).map Gt.export, (s.csts.map eraseGate).map Gt.export⟩

theorem gather_start (c : Nested F) (K : Kind) {id : Nat} {s : Sg F} (hs : c.segs[id]? = some s) :
    gather (c.segs.map Sg.export) K.p (s.export.start id) = K.p s.export := by
  unfold PSeg.start
  cases hcg : s.export.containGates with
  | false => rw [K.isKind _ hcg]; rfl
  | true => simp [gather_eq, atLeaf, hs, funext shift_zero]

theorem flatLayer_ofSegs (segs : List (Seg F R)) {id : Nat} {s : Seg F R} (hs : segs[id]? = some s) {l : PLayer F}
    (h : FlatLayer ((ofSegs segs).segs.map Sg.export) id l) : l = flatSeg s := by
  obtain ⟨s', d, leaves, hs', hscan, rfl⟩ := h
  have hs1 : (ofSegs segs).segs[id]? = some (eraseSeg s) := by rw [ofSegs_at, hs]; rfl
  rw [exportAt, hs1] at hs'
  cases hs'
  have hl : leaves = (eraseSeg s).export.start id := by
    cases d with
    | zero => exact hscan.elim
    | succ d =>
      obtain ⟨s', m, hs', hk, hp⟩ := hscan
      rw [exportAt, hs1] at hs'
      cases hs'
      have hk : m = (eraseSeg s).export.start id := hk
      subst hk
      unfold PSeg.start at hp ⊢
      split_ifs at hp ⊢
      · exact List.perm_singleton.1 hp.symm
      · exact List.perm_nil.1 hp.symm
  subst hl
  have g := fun K : Kind => gather_start (ofSegs segs) K hs1
  have g1 := g .mul
  have g2 := g .add
  have g3 := g .cst
  simp only [Kind.p] at g1 g2 g3
  rw [g1, g2, g3]
  rfl

theorem flatten_ofSegs (segs : List (Seg F R)) {ls : List (PLayer F)} (h : Flatten (ofSegs segs) ls) :
    ls = segs.map flatSeg := by
  have key : ∀ (r : List (Seg F R)) (i : Nat) (ls : List (PLayer F)), (∀ j, segs[i + j]? = r[j]?) →
      List.Forall₂ (FlatLayer ((ofSegs segs).segs.map Sg.export)) (List.range' i r.length) ls → ls = r.map flatSeg := by
    intro r
    induction r with
    | nil => intro i ls _ h; cases h; rfl
    | cons s r ih =>
      intro i ls hj h
      rw [List.length_cons, List.range'_succ] at h
      cases h with
      | cons h1 h2 =>
        rw [List.map_cons, flatLayer_ofSegs segs (by simpa using hj 0) h1, ih (i + 1) _ (fun j => ?_) h2]
        have := hj (j + 1)
        rw [List.getElem?_cons_succ] at this
        rw [← this]; congr 1; omega
  refine key segs 0 ls (fun j => by rw [Nat.zero_add]) ?_
  have := h
  unfold Flatten at this
  rwa [show (ofSegs segs).layers = List.range' 0 segs.length from List.range_eq_range' ..] at this

/-! ### Coins -/

/-- The coins of a list of gates. -/
def coinsOf (gs : List (Gate F R)) : List R := gs.flatMap fun g => g.coef.coins

/-- Filling in order gives every gate the value of its coin. -/
theorem fill_sum (E : Env F R) (w : Nat → F) (p : Nat) (ρ : Nat → F) : ∀ (gs : List (Gate F R)) (n : Nat),
    (∀ j r, (coinsOf gs)[j]? = some r → E.rnd r = ρ (n + j)) →
    sumAt E.pub (fillGates ρ n ((gs.map eraseGate).map Gt.export)).1 w p = gateSum E w gs p ∧
      (fillGates ρ n ((gs.map eraseGate).map Gt.export)).2 = n + (coinsOf gs).length
  | [], n, _ => ⟨rfl, rfl⟩
  | g :: r, n, h => by
    have cons1 : ∀ (a : PGate F) (l : List (PGate F)),
        sumAt E.pub (a :: l) w p = (if a.o = p then a.cval E.pub * (a.ins.map w).prod else 0) + sumAt E.pub l w p := by
      intro a l
      unfold sumAt
      by_cases e : a.o = p
      · rw [List.filter_cons_of_pos (by simpa using e), if_pos e]; rfl
      · rw [List.filter_cons_of_neg (by simpa using e), if_neg e, zero_add]
    have cons2 : gateSum E w (g :: r) p = (if g.o = p then g.val E w else 0) + gateSum E w r p := by
      unfold gateSum
      by_cases e : g.o = p
      · rw [List.filter_cons_of_pos (by simpa using e), if_pos e]; rfl
      · rw [List.filter_cons_of_neg (by simpa using e), if_neg e, zero_add]
    rw [List.map_cons, List.map_cons, fillGates, cons2]
    obtain ⟨ins, o, coef⟩ := g
    cases coef with
    | const c =>
      obtain ⟨h1, h2⟩ := fill_sum E w p ρ r n (by simpa [coinsOf, Coef.coins] using h)
      rw [if_neg (by simp [eraseGate, Gt.export, erase, Cf.export])]
      refine ⟨?_, by simpa [coinsOf, Coef.coins] using h2⟩
      rw [cons1, h1]
      simp [eraseGate, Gt.export, erase, Cf.export, PGate.cval, Gate.val, Coef.val]
      congr
    | pub i =>
      obtain ⟨h1, h2⟩ := fill_sum E w p ρ r n (by simpa [coinsOf, Coef.coins] using h)
      rw [if_neg (by simp [eraseGate, Gt.export, erase, Cf.export])]
      refine ⟨?_, by simpa [coinsOf, Coef.coins] using h2⟩
      rw [cons1, h1]
      simp [eraseGate, Gt.export, erase, Cf.export, PGate.cval, Gate.val, Coef.val]
      congr
    | rnd q =>
      have h0 : E.rnd q = ρ n := by simpa using h 0 q (by simp [coinsOf, Coef.coins])
      obtain ⟨h1, h2⟩ := fill_sum E w p ρ r (n + 1) fun j s hs => by
        rw [h (j + 1) s (by simpa [coinsOf, Coef.coins] using hs)]; congr 1; omega
      rw [if_pos (by simp [eraseGate, Gt.export, erase, Cf.export])]
      refine ⟨?_, ?_⟩
      · rw [cons1, h1]
        simp [eraseGate, Gt.export, erase, Cf.export, PGate.cval, Gate.val, Coef.val, h0]
        congr
      · have : (coinsOf (⟨ins, o, .rnd q⟩ :: r)).length = 1 + (coinsOf r).length := by
          simp [coinsOf, Coef.coins]; omega
        rw [this]
        show (fillGates ρ (n + 1) _).2 = _
        rw [h2]; omega

/-- Public inputs are constants. -/
def PubNil (gs : List (Gate F R)) : Prop := ∀ g ∈ gs, ∀ i, g.coef = .pub i → g.ins = []

theorem fill_shape {s : Seg F R} (h : s.WF) (hp : PubNil (s.muls ++ s.adds)) (ρ : Nat → F) (n : Nat) :
    (fillLayer ρ n (flatSeg s)).1.Shape := by
  have back : ∀ (gs : List (Gate F R)) (m : Nat) (g : PGate F),
      g ∈ (fillGates ρ m ((gs.map eraseGate).map Gt.export)).1 →
      ∃ g' ∈ gs, g.ins = g'.ins ∧ ∀ i, g.ty = .pub i → g'.coef = .pub i := by
    intro gs m g hg
    obtain ⟨a, ha, e1, -, e3⟩ := mem_fillGates hg
    obtain ⟨b, hb, rfl⟩ := List.mem_map.1 ha
    obtain ⟨g', hg', rfl⟩ := List.mem_map.1 hb
    refine ⟨g', hg', e1, fun i hi => ?_⟩
    rw [hi] at e3
    have := export_ty_pub e3.symm
    simp only [eraseGate] at this
    cases hc : g'.coef <;> rw [hc] at this <;> simp_all [erase]
  refine ⟨fun g hg => ?_, fun g hg => ?_, fun g hg => ?_⟩
  · obtain ⟨g', hg', e, hpub⟩ := back _ _ _ hg
    have hl := h.mulLen g' hg'
    rw [e]
    refine ⟨List.length_eq_two.1 hl, fun i hi => ?_⟩
    rw [hp g' (List.mem_append_left _ hg') i (hpub i hi)] at hl
    simp at hl
  · obtain ⟨g', hg', e, hpub⟩ := back _ _ _ hg
    have hl := h.addLen g' hg'
    rw [e]
    refine ⟨List.length_eq_one_iff.1 hl, fun i hi => ?_⟩
    rw [hp g' (List.mem_append_right _ hg') i (hpub i hi)] at hl
    simp at hl
  · obtain ⟨g', hg', e, -⟩ := back _ _ _ hg
    rw [e]
    exact List.length_eq_zero_iff.1 (h.cstLen g' hg')

theorem fill_eval {s : Seg F R} (h : s.WF) (hp : PubNil (s.muls ++ s.adds)) (E : Env F R) (ρ : Nat → F) (n : Nat)
    (hE : ∀ j r, s.coins[j]? = some r → E.rnd r = ρ (n + j)) (pub w : Nat → Nat → F) (k : Nat)
    (hpub : ∀ i, pub i k = E.pub i) (p : Nat) :
    (fillLayer ρ n (flatSeg s)).1.toLayer.evaluate pub w p k = s.eval E (fun i => w i k) p ∧
      (fillLayer ρ n (flatSeg s)).2 = n + s.coins.length := by
  rw [evaluate_eq _ (fill_shape h hp ρ n)]
  have hpub' : (fun i => pub i k) = E.pub := funext hpub
  rw [hpub']
  have hc : s.coins = coinsOf s.muls ++ coinsOf s.adds ++ coinsOf s.csts := by
    simp [Seg.coins, coinsOf]
  rw [hc] at hE ⊢
  have h1 := fill_sum E (fun i => w i k) p ρ s.muls n fun j r hj => hE j r (by
    have : j < (coinsOf s.muls).length := (List.getElem?_eq_some_iff.1 hj).1
    rw [List.append_assoc, List.getElem?_append_left this]; exact hj)
  have h2 := fill_sum E (fun i => w i k) p ρ s.adds (n + (coinsOf s.muls).length) fun j r hj => by
    have hlt : j < (coinsOf s.adds).length := (List.getElem?_eq_some_iff.1 hj).1
    rw [hE ((coinsOf s.muls).length + j) r, Nat.add_assoc]
    rw [List.append_assoc, List.getElem?_append_right (by omega), List.getElem?_append_left (by omega)]
    rw [Nat.add_sub_cancel_left]; exact hj
  have h3 := fill_sum E (fun i => w i k) p ρ s.csts (n + (coinsOf s.muls).length + (coinsOf s.adds).length) fun j r hj => by
    rw [hE ((coinsOf s.muls).length + (coinsOf s.adds).length + j) r, ← Nat.add_assoc, ← Nat.add_assoc]
    rw [List.getElem?_append_right (by simp)]
    rw [List.length_append, Nat.add_sub_cancel_left]; exact hj
  simp only [fillLayer, flatSeg]
  rw [h1.2, h2.2, h1.1, h2.1, h3.1, h3.2]
  refine ⟨rfl, ?_⟩
  simp only [List.length_append]; omega

theorem fill_run (pub : Nat → Nat → F) (k : Nat) (E : Env F R) (hpub : ∀ i, pub i k = E.pub i) (ρ : Nat → F) :
    ∀ (segs : List (Seg F R)) (m n : Nat) (w : Nat → Nat → F), Fit m segs → (∀ s ∈ segs, PubNil (s.muls ++ s.adds)) →
      (∀ j r, (segs.flatMap Seg.coins)[j]? = some r → E.rnd r = ρ (n + j)) →
      ∀ p, evalCircuit pub ((fillLayers ρ n (segs.map flatSeg)).map PLayer.toLayer) w p k =
        evalSegs E segs (fun i => w i k) p
  | [], _, _, _, _, _, _, _ => rfl
  | s :: r, m, n, w, hf, hp, hE, p => by
    have hp1 := hp s (List.mem_cons_self ..)
    have h1 := fun q => fill_eval hf.2.1 hp1 E ρ n (fun j q hj => hE j q (by
      have : j < s.coins.length := (List.getElem?_eq_some_iff.1 hj).1
      rw [List.flatMap_cons, List.getElem?_append_left this]; exact hj)) pub w k hpub q
    rw [List.map_cons, fillLayers, List.map_cons, evalCircuit, (h1 0).2,
      fill_run pub k E hpub ρ r s.numOut (n + s.coins.length) _ hf.2.2 (fun s hs => hp s (List.mem_cons_of_mem _ hs))
        (fun j q hj => by
          rw [hE (s.coins.length + j) q, Nat.add_assoc]
          rw [List.flatMap_cons, List.getElem?_append_right (by omega), Nat.add_sub_cancel_left]; exact hj) p]
    rw [evalSegs]
    congr 1
    funext i
    exact (h1 i).1

theorem relay_same' {l : PLayer F} (hS : l.Shape) (hR : l.Range) (pub w : Nat → Nat → F) :
    l.toLayer.evaluate pub ((relayLayer l.inVars : PLayer F).toLayer.evaluate pub w) = l.toLayer.evaluate pub w := by
  funext p k
  rw [evaluate_eq l hS, evaluate_eq l hS]
  have r : ∀ g ∈ l.mul ++ l.add ++ l.cst, ∀ i ∈ g.ins,
      (relayLayer l.inVars : PLayer F).toLayer.evaluate pub w i k = w i k := fun g hg i hi =>
    relay_evaluate _ _ _ _ _ ((hR g hg).2 i hi)
  rw [sumAt_congr _ l.mul fun g hg => r g (by simp [hg]), sumAt_congr _ l.add fun g hg => r g (by simp [hg]),
    sumAt_congr _ l.cst fun g hg => r g (by simp [hg])]

omit [Field F] in
theorem fillLayer_relay [Field F] (ρ : Nat → F) (n m : Nat) :
    fillLayer ρ m (relayLayer n : PLayer F) = (relayLayer n, m) := by
  have h : ∀ g ∈ (relayLayer n : PLayer F).add, g.ty ≠ .rnd := by
    intro g hg
    obtain ⟨i, -, rfl⟩ := List.mem_map.1 hg
    intro h; cases h
  simp only [fillLayer]
  rw [fillGates_none ρ m (relayLayer n : PLayer F).mul (by simp [relayLayer])]
  dsimp only
  rw [fillGates_none ρ m (relayLayer n : PLayer F).add h]
  dsimp only
  rw [fillGates_none ρ m (relayLayer n : PLayer F).cst (by simp [relayLayer])]

/-- The coins by name, from the drawn list. -/
def coinEnv [DecidableEq R] (pub : Nat → F) (segs : List (Seg F R)) (ρ : Nat → F) : Env F R :=
  ⟨pub, fun r => ρ ((segs.flatMap Seg.coins).idxOf r)⟩

/-- **C82, evaluation.** What prover and verifier run on, with the coins `ρ` drawn, computes in every lane
what the compiler's layers mean, the coins being given to the gates in order. -/
theorem C82_evaluate [DecidableEq R] {segs : List (Seg F R)} {n : Nat} (hf : Fit n segs) (hne : segs ≠ [])
    (hp : ∀ s ∈ segs, PubNil (s.muls ++ s.adds)) (hnd : (segs.flatMap Seg.coins).Nodup) {ls : List (PLayer F)}
    (h : Flatten (ofSegs segs) ls) (ρ : Nat → F) (pub w : Nat → Nat → F) (p k : Nat) :
    evalCircuit pub (finish ρ ls) w p k =
      evalSegs (coinEnv (fun i => pub i k) segs ρ) segs (fun i => w i k) p := by
  have hrange : ∀ l ∈ ls, l.Range := fun l hl => by
    obtain ⟨id, -, hh⟩ := forall₂_mem h l hl
    exact (flatLayer_range _ (ofSegs_ok hf hne) hh).1
  have hls := flatten_ofSegs segs h
  have hE : ∀ j r, (segs.flatMap Seg.coins)[j]? = some r →
      (coinEnv (fun i => pub i k) segs ρ).rnd r = ρ (0 + j) := by
    intro j r hj
    obtain ⟨hlt, e⟩ := List.getElem?_eq_some_iff.1 hj
    simp only [coinEnv]
    rw [← e, hnd.idxOf_getElem, Nat.zero_add]
  have base := fill_run pub k (coinEnv (fun i => pub i k) segs ρ) (fun _ => rfl) ρ segs n 0 w hf hp hE p
  rw [← base, finish, hls]
  cases segs with
  | nil => exact absurd rfl hne
  | cons s r =>
    rw [List.map_cons, preprocess]
    split_ifs with h0
    · rfl
    · rw [fillLayers, fillLayer_relay]
      dsimp only
      simp only [fillLayers, List.map_cons, evalCircuit]
      have hin : (flatSeg s).inVars = (fillLayer ρ 0 (flatSeg s)).1.inVars := rfl
      rw [hin, relay_same' (fill_shape hf.2.1 (hp s (List.mem_cons_self ..)) ρ 0) (fillLayer_range ρ 0 _ (hrange _ (by
        rw [hls]; exact List.mem_cons_self ..)))]

/-! ### Public inputs are constants in the compiler's layers -/

theorem gather_all {α β : Type} {f : α → Option (List β)} {P : β → Prop}
    (h : ∀ x ys, f x = some ys → ∀ y ∈ ys, P y) : ∀ (l : List α) (ys : List β), Comp.gather f l = some ys → ∀ y ∈ ys, P y
  | [], ys, e, y, hy => by cases e; cases hy
  | x :: r, ys, e, y, hy => by
    rw [Comp.gather] at e
    cases h1 : f x with
    | none => rw [h1] at e; cases e
    | some a =>
      cases h2 : Comp.gather f r with
      | none => rw [h1, h2] at e; cases e
      | some b =>
        rw [h1, h2] at e
        cases e
        rcases List.mem_append.1 hy with hy | hy
        · exact h x a h1 y hy
        · exact gather_all h r b h2 y hy

/-- A gate whose coefficient is a public input has no inputs. -/
def PubG (g : Gate F R) : Prop := ∀ i, g.coef = .pub i → g.ins = []

theorem pub_insn (a : List Nat) (pos : Nat) (i : DInsn F R) (gs) (h : insnGates a pos i = some gs) :
    ∀ g ∈ gs, PubG g := by
  cases i with
  | iv e rl =>
    simp only [insnGates, Option.bind_eq_bind, Option.bind_eq_some_iff] at h
    obtain ⟨g1, h1, g2, h2, h3⟩ := h
    cases h3
    have t1 : ∀ g ∈ g1, PubG g := gather_all (fun t ys ht y hy => by
      unfold termGate at ht
      intro i hi
      split at ht
      · cases ht; rw [List.mem_singleton.1 hy]
      · simp only [Option.bind_eq_bind, Option.bind_eq_some_iff] at ht
        obtain ⟨q, -, ht⟩ := ht
        cases ht; rw [List.mem_singleton.1 hy] at hi; cases hi
      · simp only [Option.bind_eq_bind, Option.bind_eq_some_iff] at ht
        obtain ⟨q, -, q', -, ht⟩ := ht
        cases ht; rw [List.mem_singleton.1 hy] at hi; cases hi) _ _ h1
    have t2 : ∀ g ∈ g2, PubG g := gather_all (fun t ys ht y hy => by
      unfold rndGate at ht
      intro i hi
      simp only [Option.bind_eq_bind, Option.bind_eq_some_iff] at ht
      obtain ⟨q, -, ht⟩ := ht
      cases ht; rw [List.mem_singleton.1 hy] at hi; cases hi) _ _ h2
    intro g hg
    rcases List.mem_append.1 hg with hg | hg
    · exact t1 g hg
    · exact t2 g hg
  | random r => cases h; intro g hg i hi; rw [List.mem_singleton.1 hg]
  | publicInput i => cases h; intro g hg i hi; rw [List.mem_singleton.1 hg]

theorem pub_var (c : DCircuit F R) (a b : List Nat) (l x : Nat) (gs) (h : varGates c a b l x = some gs) :
    ∀ g ∈ gs, PubG g := by
  have tgt : ∀ (last : Bool) (f : Nat → Option (List (Gate F R))) ys,
      (∀ pos zs, f pos = some zs → ∀ g ∈ zs, PubG g) → Comp.target b last x f = some ys → ∀ g ∈ ys, PubG g := by
    intro last f ys hf h
    unfold Comp.target at h
    split at h
    · exact hf _ _ h
    · split_ifs at h; cases h; intro g hg; cases hg
  simp only [varGates, Option.bind_eq_bind, Option.bind_eq_some_iff] at h
  obtain ⟨g1, h1, g2, h2, h3⟩ := h
  cases h3
  intro g hg
  rcases List.mem_append.1 hg with hg | hg
  · unfold firstGates at h1
    split_ifs at h1
    · refine tgt _ _ _ (fun pos zs hz => ?_) h1 g hg
      cases hi : insnOf c x with
      | none => rw [hi] at hz; cases hz; intro g hg; cases hg
      | some i => rw [hi] at hz; exact pub_insn a pos i zs hz
    · cases h1; cases hg
  · unfold relayGates at h2
    split_ifs at h2
    · refine tgt _ _ _ (fun pos zs hz => ?_) h2 g hg
      simp only [Option.bind_eq_bind, Option.bind_eq_some_iff] at hz
      obtain ⟨q, -, hz⟩ := hz
      cases hz
      intro g hg i hi
      rw [List.mem_singleton.1 hg] at hi; cases hi
    · cases h2; cases hg

theorem pub_layerize (c : DCircuit F R) (segs) (h : layerize c = some segs) :
    ∀ s ∈ segs, ∀ g ∈ s.muls ++ s.adds ++ s.csts, PubG g := by
  refine gather_all (fun l ys hl s hs => ?_) _ _ h
  obtain ⟨t, ht, e⟩ := Option.map_eq_some_iff.1 hl
  subst e
  rw [List.mem_singleton.1 hs]
  simp only [segAt, Option.bind_eq_bind, Option.bind_eq_some_iff] at ht
  obtain ⟨gs, hg, e⟩ := ht
  cases e
  have := gather_all (P := PubG) (pub_var c _ _ l) _ _ hg
  intro g hg
  simp only [List.mem_append, List.mem_filter] at hg
  rcases hg with (hg | hg) | hg <;> exact this g hg.1

theorem mergeFrom_pub : ∀ (r : List (Gate F R)) (g : Gate F R), PubG g → (∀ h ∈ r, PubG h) →
    ∀ k ∈ mergeFrom g r, PubG k
  | [], g, hg, _, k, hk => by rw [List.mem_singleton.1 hk]; exact hg
  | h :: r, g, hg, hr, k, hk => by
    rw [mergeFrom] at hk
    cases hm : mergeTwo g h with
    | none =>
      rw [hm] at hk
      rcases List.mem_cons.1 hk with rfl | hk
      · exact hg
      · exact mergeFrom_pub r h (hr h (List.mem_cons_self ..)) (fun x hx => hr x (List.mem_cons_of_mem _ hx)) k hk
    | some m =>
      rw [hm] at hk
      refine mergeFrom_pub r m (fun i hi => ?_) (fun x hx => hr x (List.mem_cons_of_mem _ hx)) k hk
      unfold mergeTwo at hm
      split at hm
      · split_ifs at hm
        cases hm; cases hi
      · cases hm

variable [DecidableEq F] [Ord F]

theorem dedup_pub (gs : List (Gate F R)) (t : Bool) (h : ∀ g ∈ gs, PubG g) : ∀ g ∈ dedupGates gs t, PubG g := by
  have h1 : ∀ g ∈ mergeAll (sortGates gs), PubG g := by
    have hs : ∀ g ∈ sortGates gs, PubG g := fun g hg => h g ((sortGates_perm gs).mem_iff.1 hg)
    generalize sortGates gs = l at hs
    cases l with
    | nil => intro g hg; cases hg
    | cons a r => exact mergeFrom_pub r a (hs a (List.mem_cons_self ..)) fun x hx => hs x (List.mem_cons_of_mem _ hx)
  intro g hg
  unfold dedupGates at hg
  dsimp only at hg
  split_ifs at hg
  · exact h1 g (List.mem_filter.1 hg).1
  · exact h1 g hg

theorem layersFor_pub (k1 k2 : Nat) (c : DCircuit F R) {segs} (h : layersFor k1 k2 c = some segs) :
    ∀ s ∈ segs, PubNil (s.muls ++ s.adds) := by
  unfold layersFor at h
  obtain ⟨raw, hr, rfl⟩ := Option.map_eq_some_iff.1 h
  intro s hs
  obtain ⟨t, ht, rfl⟩ := List.mem_map.1 hs
  have hraw := pub_layerize _ _ hr t ht
  intro g hg
  rcases List.mem_append.1 hg with hg | hg
  · exact dedup_pub t.muls true (fun g hg => hraw g (by simp [hg])) g ((sortGates_perm _).mem_iff.1 hg)
  · exact dedup_pub t.adds true (fun g hg => hraw g (by simp [hg])) g ((sortGates_perm _).mem_iff.1 hg)

/-! ### Honest provers -/

/-- The environment of lane `k` of a circuit without coins of its own. -/
def laneEnv (pub : Nat → Nat → F) (k : Nat) : Env F Empty := ⟨fun i => pub i k, Empty.elim⟩

omit [DecidableEq F] [Ord F] in
theorem left_coinEnv (pub : Nat → Nat → F) (k : Nat) (segs : List (Seg F (Empty ⊕ Nat × Nat))) (ρ : Nat → F) :
    Comp.Env.left (coinEnv (fun i => pub i k) segs ρ) = laneEnv pub k := by
  simp only [Comp.Env.left, coinEnv, laneEnv, Flat.Env.mk.injEq, true_and]
  exact funext fun r => r.elim

omit [Field F] [DecidableEq F] [Ord F] in
theorem coins_empty [Field F] (c : DCircuit F Empty) : c.coins.Nodup := by
  cases h : c.coins with
  | nil => exact List.nodup_nil
  | cons e _ => exact e.elim

/-- **C82, honest provers.** If the inputs of every lane satisfy the constraints, then whatever coins are
drawn the sum of the constraints is zero in every lane, the next output wires carry the outputs, and the
honest proof, made from the prover's flattening, is accepted by a verifier with their own flattening. -/
theorem C82_complete (h6 : (6 : F) ≠ 0) (k1 k2 : Nat) {c : DCircuit F Empty} (hv : c.Valid)
    (hfew : FewConstraints F c.cons.length) (hc : c.cons ≠ []) {segs} (hs : layersFor k1 (k2 + 1) c = some segs)
    {ls ls' : List (PLayer F)} (hl : Flatten (ofSegs segs) ls) (hl' : Flatten (ofSegs segs) ls') (s : Nat)
    (ins : Nat → List F) (hins : ∀ k, (ins k).length = c.numInputs) (pub w : Nat → Nat → F)
    (hw : ∀ i k, w i k = wiresFor k1 (k2 + 1) c (ins k) i)
    (hacc : ∀ k < 2 ^ s, DCircuit.Accepts (laneEnv pub k) c (ins k)) (ρ : Nat → F) :
    (∀ k < 2 ^ s, evalCircuit pub (finish ρ ls) w 0 k = 0) ∧
    (∀ k j, j < c.outputs.length →
      evalCircuit pub (finish ρ ls) w (j + 1) k = (DCircuit.outs (laneEnv pub k) c (ins k)).getD j 0) ∧
    ∀ {S : Type} (tr : Tr F S) (t : S) (sp : Bufs F) (rest : List F),
      let p := Gkr.run tr (snarkProve s (finish ρ ls) pub w sp) t []
      let v := Gkr.run tr (snarkVerify s (finish ρ ls') pub p.val w) t (p.sent ++ rest)
      v.val = true ∧ v.state = p.state ∧ v.rest = rest := by
  obtain ⟨segs', hs', hne, hf, hnd⟩ := C74_layers_fit k1 k2 hv hfew
  rw [hs] at hs'; cases hs'
  have hnd := hnd (coins_empty c)
  have hp := layersFor_pub _ _ _ hs
  have ev := fun p k => C82_evaluate hf hne hp hnd hl ρ pub w p k
  have hw' : ∀ k, (fun i => w i k) = wiresFor k1 (k2 + 1) c (ins k) := fun k => funext fun i => hw i k
  have acc := fun k => C74_accepting k1 k2 hv hfew hc hs (coinEnv (fun i => pub i k) segs ρ) (hins k)
  refine ⟨fun k hk => ?_, fun k j hj => ?_, ?_⟩
  · rw [ev, hw']
    exact (acc k).1 (by rw [left_coinEnv]; exact hacc k hk)
  · rw [ev, hw', ← left_coinEnv pub k segs ρ]
    exact (acc k).2 j hj
  · rw [flatten_ofSegs segs hl', ← flatten_ofSegs segs hl]
    obtain ⟨h1, ⟨n, h2⟩, h3⟩ := C81_ok _ (ofSegs_ok hf hne) hl ρ
    intro S tr t sp rest
    exact C19_completeness h6 tr t s n _ h1 h2 h3 pub w sp rest

/-! ### Dishonest provers -/

omit [DecidableEq F] [Ord F] in
theorem fill_struct (ρ ρ' : Nat → F) (s : Nat) : ∀ (ls : List (PLayer F)) (m m' n : Nat),
    gkrErr s ((fillLayers ρ m ls).map PLayer.toLayer) = gkrErr s ((fillLayers ρ' m' ls).map PLayer.toLayer) ∧
    gkrDraws s ((fillLayers ρ m ls).map PLayer.toLayer) = gkrDraws s ((fillLayers ρ' m' ls).map PLayer.toLayer) ∧
    outputVars n ((fillLayers ρ m ls).map PLayer.toLayer) = outputVars n ((fillLayers ρ' m' ls).map PLayer.toLayer)
  | [], _, _, _ => ⟨rfl, rfl, rfl⟩
  | l :: r, m, m', n => by
    obtain ⟨h1, h2, h3⟩ := fill_struct ρ ρ' s r (fillLayer ρ m l).2 (fillLayer ρ' m' l).2 l.outVars
    have hskip : ((fillLayer ρ m l).1.toLayer).skip = ((fillLayer ρ' m' l).1.toLayer).skip := by
      have len : ∀ (ρ : Nat → F) (m : Nat) (gs : List (PGate F)), (fillGates ρ m gs).1.length = gs.length := by
        intro ρ m gs
        induction gs generalizing m with
        | nil => rfl
        | cons g r ih => rw [fillGates]; split_ifs <;> simp [ih]
      simp only [Layer.skip, PLayer.toLayer, fillLayer]
      rw [Bool.eq_iff_iff, List.isEmpty_iff_length_eq_zero, List.isEmpty_iff_length_eq_zero, List.length_map,
        List.length_map, len, len]
    simp only [fillLayers, List.map_cons, gkrErr, gkrDraws, outputVars, layerErr]
    rw [h1, h2, hskip]
    exact ⟨rfl, rfl, h3⟩

omit [Field F] [DecidableEq F] [Ord F] in
theorem outputVars_ne [Field F] (n m : Nat) {ls : List (Layer F)} (h : ls ≠ []) : outputVars n ls = outputVars m ls := by
  cases ls with
  | nil => exact absurd rfl h
  | cons l r => rfl

omit [DecidableEq F] [Ord F] in
/-- Only the coins of the layers matter. -/
theorem evalSegs_coins (E E' : Env F R) (hpub : E.pub = E'.pub) : ∀ (segs : List (Seg F R)) (w : Nat → F),
    (∀ r ∈ segs.flatMap Seg.coins, E.rnd r = E'.rnd r) → evalSegs E segs w = evalSegs E' segs w
  | [], _, _ => rfl
  | s :: r, w, h => by
    rw [evalSegs, evalSegs]
    have hg : ∀ gs : List (Gate F R), (∀ g ∈ gs, g ∈ s.muls ++ s.adds ++ s.csts) → ∀ p,
        gateSum E w gs p = gateSum E' w gs p := by
      intro gs hgs p
      unfold gateSum
      refine congrArg List.sum (List.map_congr_left fun g hg => ?_)
      have hm := hgs g (List.mem_filter.1 hg).1
      unfold Gate.val
      congr 1
      cases hc : g.coef with
      | const c => rfl
      | pub i => simp only [Coef.val]; rw [hpub]
      | rnd q =>
        refine h q ?_
        rw [List.flatMap_cons]
        refine List.mem_append_left _ (List.mem_flatMap.2 ⟨g, hm, ?_⟩)
        rw [hc]; exact List.mem_singleton_self q
    have e : s.eval E w = s.eval E' w := by
      funext p
      unfold Seg.eval
      rw [hg s.muls (fun g hg => by simp [hg]), hg s.adds (fun g hg => by simp [hg]), hg s.csts (fun g hg => by simp [hg])]
    rw [e]
    exact evalSegs_coins E E' hpub r _ fun q hq => h q (by rw [List.flatMap_cons]; exact List.mem_append_right _ hq)

/-- The drawn coins as a sequence. -/
def pad {m : Nat} (ρ : Fin m → F) (n : Nat) : F := if h : n < m then ρ ⟨n, h⟩ else 0

omit [DecidableEq F] [Ord F] in
/-- Drawing one coin again changes the environment at its name. -/
theorem coinEnv_update [DecidableEq R] (pub : Nat → F) (segs : List (Seg F R)) {r0 : R}
    (h : r0 ∈ segs.flatMap Seg.coins) : ∃ j : Fin (segs.flatMap Seg.coins).length, ∀ ρ t,
      ∀ r ∈ segs.flatMap Seg.coins, (coinEnv pub segs (pad (Function.update ρ j t))).rnd r =
        (Props.Env.set (coinEnv pub segs (pad ρ)) r0 t).rnd r := by
  have hlt := List.idxOf_lt_length_iff.2 h
  refine ⟨⟨(segs.flatMap Seg.coins).idxOf r0, hlt⟩, fun ρ t r hr => ?_⟩
  have hr' := List.idxOf_lt_length_iff.2 hr
  simp only [coinEnv, Props.Env.set, pad]
  rw [dif_pos hr']
  by_cases e : r = r0
  · subst e; simp
  · have : (segs.flatMap Seg.coins).idxOf r ≠ (segs.flatMap Seg.coins).idxOf r0 := fun h =>
      e ((List.idxOf_inj hr).1 h)
    rw [Function.update_of_ne (Fin.ne_of_val_ne this), Function.update_of_ne e, dif_pos hr']

/-- If some constraint is violated in lane `k`, one in `|F|` of the draws of the coins makes the sum of the
constraints vanish in that lane; the coins may be drawn in another order, that of `segs2`. -/
theorem bad_coins [Fintype F] (k1 k2 : Nat) {c : DCircuit F Empty} (hv : c.Valid)
    (hfew : FewConstraints F c.cons.length) {segs segs2} (hs : layersFor k1 (k2 + 1) c = some segs)
    (hm : (segs2.flatMap Seg.coins).Perm (segs.flatMap Seg.coins)) (pub : Nat → Nat → F)
    (k : Nat) {ins : List F} (hins : ins.length = c.numInputs) (hno : ¬ DCircuit.Accepts (laneEnv pub k) c ins) :
    Fintype.card {ρ : Fin (segs2.flatMap Seg.coins).length → F //
      evalSegs (coinEnv (fun i => pub i k) segs2 (pad ρ)) segs (wiresFor k1 (k2 + 1) c ins) 0 = 0} * Fintype.card F =
    Fintype.card F ^ (segs2.flatMap Seg.coins).length := by
  obtain ⟨q, hq⟩ := C74_rejecting k1 k2 hv hfew hs (laneEnv pub k) hins hno
  have hmem : (.inr q : Empty ⊕ Nat × Nat) ∈ segs2.flatMap Seg.coins := by
    by_contra hnot
    obtain ⟨t, ht, hu⟩ := hq (coinEnv (fun i => pub i k) segs2 fun _ => (0 : F)) (left_coinEnv ..)
    have : t + 1 = t := hu (t + 1) (by
      refine Eq.trans (congrFun (evalSegs_coins _ (Props.Env.set (coinEnv (fun i => pub i k) segs2 fun _ => (0 : F))
        (.inr q) t) (by rfl) _ _ fun r hr => ?_) 0) ht
      have hne : r ≠ .inr q := fun e => hnot (hm.mem_iff.2 (e ▸ hr))
      simp [Props.Env.set, hne])
    simp at this
  obtain ⟨j, hj⟩ := coinEnv_update (fun i => pub i k) segs2 hmem
  have hcard := card_unique (F := F) (fun ρ : Fin (segs2.flatMap Seg.coins).length → F =>
    evalSegs (coinEnv (fun i => pub i k) segs2 (pad ρ)) segs (wiresFor k1 (k2 + 1) c ins) 0 = 0) j fun ρ => by
      obtain ⟨t, ht, hu⟩ := hq (coinEnv (fun i => pub i k) segs2 (pad ρ)) (left_coinEnv ..)
      have e := fun t => congrFun (evalSegs_coins (coinEnv (fun i => pub i k) segs2 (pad (Function.update ρ j t)))
        (Props.Env.set (coinEnv (fun i => pub i k) segs2 (pad ρ)) (.inr q) t) rfl segs (wiresFor k1 (k2 + 1) c ins)
        fun r hr => hj ρ t r (hm.mem_iff.2 hr)) 0
      exact ⟨t, (e t).trans ht, fun t' ht' => hu t' ((e t').symm.trans ht')⟩
  rw [hcard]
  simp

/-- For layers `segs2` which compute what the compiler's layers compute, from the same coins. -/
theorem sound_from [Fintype F] (h6 : (6 : F) ≠ 0) (k1 k2 : Nat) {c : DCircuit F Empty} (hv : c.Valid)
    (hfew : FewConstraints F c.cons.length) {segs segs2} (hs : layersFor k1 (k2 + 1) c = some segs)
    {m : Nat} (hf : Fit m segs2) (hne : segs2 ≠ []) (hp : ∀ s ∈ segs2, PubNil (s.muls ++ s.adds))
    (hm : (segs2.flatMap Seg.coins).Perm (segs.flatMap Seg.coins))
    (hsame : ∀ E w, evalSegs E segs2 w = evalSegs E segs w)
    {ls : List (PLayer F)} (hl : Flatten (ofSegs segs2) ls) (s : Nat) (ins : Nat → List F)
    (hins : ∀ k, (ins k).length = c.numInputs) (pub w : Nat → Nat → F)
    (hw : ∀ i k, w i k = wiresFor k1 (k2 + 1) c (ins k) i)
    (hno : ∃ k < 2 ^ s, ¬ DCircuit.Accepts (laneEnv pub k) c (ins k))
    (adv : (Fin (segs2.flatMap Seg.coins).length → F) → List F → Nat → Option F) :
    let C := finish (fun _ => (0 : F)) ls
    let D := outputVars 0 C + s + gkrDraws s C
    (∑ ρ, (hits (· = true) (adv ρ) (snarkVerify s (finish (pad ρ) ls) pub 0 w) [] 0 D).card) * Fintype.card F ≤
      (1 + (outputVars 0 C + s + gkrErr s C)) * Fintype.card F ^ ((segs2.flatMap Seg.coins).length + D) := by
  intro C D
  obtain ⟨segs', hs', -, -, hnd⟩ := C74_layers_fit k1 k2 hv hfew
  rw [hs] at hs'; cases hs'
  have hnd := hm.nodup_iff.2 (hnd (coins_empty c))
  obtain ⟨k, hk, hno⟩ := hno
  have hw' : (fun i => w i k) = wiresFor k1 (k2 + 1) c (ins k) := funext fun i => hw i k
  let bad : (Fin (segs2.flatMap Seg.coins).length → F) → Prop := fun ρ =>
    evalSegs (coinEnv (fun i => pub i k) segs2 (pad ρ)) segs (wiresFor k1 (k2 + 1) c (ins k)) 0 = 0
  have hbad := bad_coins k1 k2 hv hfew hs hm pub k (hins k) hno
  rw [Fintype.card_subtype] at hbad
  have each : ∀ ρ, (hits (· = true) (adv ρ) (snarkVerify s (finish (pad ρ) ls) pub 0 w) [] 0 D).card * Fintype.card F ≤
      (if bad ρ then Fintype.card F * Fintype.card F ^ D else 0) +
        (outputVars 0 C + s + gkrErr s C) * Fintype.card F ^ D := by
    intro ρ
    by_cases hb : bad ρ
    · rw [if_pos hb]
      refine le_trans ?_ (Nat.le_add_right _ _)
      rw [mul_comm]
      refine Nat.mul_le_mul_left _ ((Finset.card_le_univ _).trans ?_)
      simp
    · rw [if_neg hb, zero_add]
      obtain ⟨h1, ⟨n, h2⟩, h3⟩ := C81_ok _ (ofSegs_ok hf hne) hl (pad ρ)
      obtain ⟨e1, e2, e3⟩ := fill_struct (pad ρ) (fun _ => (0 : F)) s (preprocess ls) 0 0 0
      have e1 : gkrErr s (finish (pad ρ) ls) = gkrErr s C := e1
      have e2 : gkrDraws s (finish (pad ρ) ls) = gkrDraws s C := e2
      have e3 : outputVars n (finish (pad ρ) ls) = outputVars 0 C := (outputVars_ne n 0 h1).trans e3
      have := C21_zero_claim_sound_partial h6 s n (finish (pad ρ) ls) h1 h2 pub w
        ⟨0, Nat.two_pow_pos _, k, hk, by
          rw [C82_evaluate hf hne hp hnd hl (pad ρ) pub w 0 k, hw', hsame]; exact hb⟩ (adv ρ)
      rw [e1, e2, e3] at this
      exact this
  calc (∑ ρ, (hits (· = true) (adv ρ) (snarkVerify s (finish (pad ρ) ls) pub 0 w) [] 0 D).card) * Fintype.card F
      = ∑ ρ, (hits (· = true) (adv ρ) (snarkVerify s (finish (pad ρ) ls) pub 0 w) [] 0 D).card * Fintype.card F :=
        Finset.sum_mul ..
    _ ≤ ∑ ρ, ((if bad ρ then Fintype.card F * Fintype.card F ^ D else 0) +
        (outputVars 0 C + s + gkrErr s C) * Fintype.card F ^ D) := Finset.sum_le_sum fun ρ _ => each ρ
    _ = (Finset.univ.filter bad).card * (Fintype.card F * Fintype.card F ^ D) +
        Fintype.card F ^ (segs2.flatMap Seg.coins).length * ((outputVars 0 C + s + gkrErr s C) * Fintype.card F ^ D) := by
        rw [Finset.sum_add_distrib, ← Finset.sum_filter, Finset.sum_const, Finset.sum_const, smul_eq_mul, smul_eq_mul,
          Finset.card_univ]
        simp
    _ = (1 + (outputVars 0 C + s + gkrErr s C)) * Fintype.card F ^ ((segs2.flatMap Seg.coins).length + D) := by
        rw [← mul_assoc, hbad, pow_add]; ring

/-- **C82, dishonest provers** (partial: for a caller who fixes the claimed value to zero). Let the inputs be
committed before the coins are drawn. If a constraint is violated in some lane, then whatever the prover
sends, having seen the coins, the verifier accepts for at most
`1 + outputVars + s + gkrErr` in `|F|` of all draws of coins and challenges. -/
theorem C82_sound_partial [Fintype F] (h6 : (6 : F) ≠ 0) (k1 k2 : Nat) {c : DCircuit F Empty} (hv : c.Valid)
    (hfew : FewConstraints F c.cons.length) {segs} (hs : layersFor k1 (k2 + 1) c = some segs)
    {ls : List (PLayer F)} (hl : Flatten (ofSegs segs) ls) (s : Nat) (ins : Nat → List F)
    (hins : ∀ k, (ins k).length = c.numInputs) (pub w : Nat → Nat → F)
    (hw : ∀ i k, w i k = wiresFor k1 (k2 + 1) c (ins k) i)
    (hno : ∃ k < 2 ^ s, ¬ DCircuit.Accepts (laneEnv pub k) c (ins k))
    (adv : (Fin (segs.flatMap Seg.coins).length → F) → List F → Nat → Option F) :
    let C := finish (fun _ => (0 : F)) ls
    let D := outputVars 0 C + s + gkrDraws s C
    (∑ ρ, (hits (· = true) (adv ρ) (snarkVerify s (finish (pad ρ) ls) pub 0 w) [] 0 D).card) * Fintype.card F ≤
      (1 + (outputVars 0 C + s + gkrErr s C)) * Fintype.card F ^ ((segs.flatMap Seg.coins).length + D) := by
  obtain ⟨segs', hs', hne, hf, -⟩ := C74_layers_fit k1 k2 hv hfew
  rw [hs] at hs'; cases hs'
  exact sound_from h6 k1 k2 hv hfew hs hf hne (layersFor_pub _ _ _ hs) (List.Perm.refl _) (fun _ _ => rfl) hl s ins hins
    pub w hw hno adv

/-- **C82, where it fails.** The verifier of the code takes the claimed value from the proof (C21): then for
all inputs, coins and transcripts there is a proof it accepts, whether or not the constraints hold. -/
theorem C82_claim_from_proof (h6 : (6 : F) ≠ 0) (k1 k2 : Nat) {c : DCircuit F Empty} (hv : c.Valid)
    (hfew : FewConstraints F c.cons.length) {segs} (hs : layersFor k1 (k2 + 1) c = some segs)
    {ls : List (PLayer F)} (hl : Flatten (ofSegs segs) ls) (s : Nat) (pub w : Nat → Nat → F) (ρ : Nat → F)
    {S : Type} (tr : Tr F S) (t : S) :
    ∃ claimed proof, (Gkr.run tr (snarkVerify s (finish ρ ls) pub claimed w) t proof).val = true := by
  obtain ⟨segs', hs', hne, hf, -⟩ := C74_layers_fit k1 k2 hv hfew
  rw [hs] at hs'; cases hs'
  obtain ⟨h1, ⟨n, h2⟩, h3⟩ := C81_ok _ (ofSegs_ok hf hne) hl ρ
  exact C21_unsatisfied_accepted h6 tr t s n _ h1 h2 h3 pub w

/-- The compiler's layers can always be flattened. -/
theorem C82_flatten_exists (k1 k2 : Nat) {c : DCircuit F Empty} (hv : c.Valid)
    (hfew : FewConstraints F c.cons.length) : ∃ segs ls, layersFor k1 (k2 + 1) c = some segs ∧ Flatten (ofSegs segs) ls := by
  obtain ⟨segs, hs, hne, hf, -⟩ := C74_layers_fit k1 k2 hv hfew
  obtain ⟨ls, hl⟩ := C81_flatten_exists _ (ofSegs_ok hf hne)
  exact ⟨segs, ls, hs, hl⟩

/-- A circuit over a finite field which meets the hypotheses: `x·y = 6` and a public input. -/
example : haveI : Fact (Nat.Prime 11) := ⟨by norm_num⟩
    ∃ c : DCircuit (ZMod 11) Empty, c.Valid ∧ c.cons ≠ [] ∧ FewConstraints (ZMod 11) c.cons.length ∧
    (6 : ZMod 11) ≠ 0 ∧ DCircuit.Accepts (laneEnv (fun _ _ => 6) 0) c [2, 3] ∧
    ¬ DCircuit.Accepts (laneEnv (fun _ _ => 6) 0) c [2, 2] := by
  haveI : Fact (Nat.Prime 11) := ⟨by norm_num⟩
  refine ⟨⟨[.publicInput 0, .iv [⟨1, .quad 1 2⟩, ⟨-1, .lin 3⟩] []], [4], [], 2⟩, ⟨?_, ?_, ?_⟩, by simp, ?_, by decide, ?_, ?_⟩
  · simp [DInsn.ValidAll, VarSpec.Below]
  · simp
  · simp
  · intro k h1 h2
    have : k = 1 := by simp at h2; omega
    subst this; decide
  · intro v hv
    have : v = 4 := by simpa using hv
    subst this
    simp [DCircuit.values, Flat.run, look, DInsn.val, Expr.eval, Term.eval, VarSpec.eval, laneEnv]
    decide
  · intro h
    have := h 4 (by simp)
    simp [DCircuit.values, Flat.run, look, DInsn.val, Expr.eval, Term.eval, VarSpec.eval, laneEnv] at this
    revert this; decide

end JST.Export
