import Verif.Compiler.ExportLemmas
import Verif.Props.Gkr
import Mathlib.NumberTheory.Padics.PadicVal.Basic

/-!
# C81: exporting and flattening a compiled circuit

The prover and the verifier each load the compiled circuit, in which segments are nested, and flatten
it. These theorems say that the flat circuit computes what the nested one means, that it is always one
the proof system can handle, and where the coins go.
-/

namespace JST.Export

open JST.Gkr JST.Spec JST.Props

variable {F : Type} [Field F]

/-! ### Sums over gates -/

/-- The coefficient `evaluate` uses for a constant gate. -/
def PGate.cval (pub : Nat → F) (g : PGate F) : F :=
  match g.ty with
  | .pub i => pub i
  | _ => g.coef

def sumAt (pub : Nat → F) (gs : List (PGate F)) (w : Nat → F) (p : Nat) : F :=
  ((gs.filter fun g => g.o = p).map fun g => g.cval pub * (g.ins.map w).prod).sum

theorem sumAt_append (pub : Nat → F) (a b : List (PGate F)) (w : Nat → F) (p : Nat) :
    sumAt pub (a ++ b) w p = sumAt pub a w p + sumAt pub b w p := by
  simp [sumAt]

theorem sumAt_flatMap {A : Type} (pub : Nat → F) (l : List A) (f : A → List (PGate F)) (w : Nat → F) (p : Nat) :
    sumAt pub (l.flatMap f) w p = (l.map fun a => sumAt pub (f a) w p).sum := by
  induction l with
  | nil => rfl
  | cons a r ih => rw [List.flatMap_cons, sumAt_append, ih, List.map_cons, List.sum_cons]

theorem sumAt_perm (pub : Nat → F) {a b : List (PGate F)} (h : a.Perm b) (w : Nat → F) (p : Nat) :
    sumAt pub a w p = sumAt pub b w p :=
  ((h.filter _).map _).sum_eq

theorem sumAt_congr (pub : Nat → F) (gs : List (PGate F)) {w w' : Nat → F}
    (h : ∀ g ∈ gs, ∀ i ∈ g.ins, w i = w' i) (p : Nat) : sumAt pub gs w p = sumAt pub gs w' p := by
  unfold sumAt
  refine congrArg List.sum (List.map_congr_left fun g hg => ?_)
  rw [List.map_congr_left (h g (List.mem_filter.1 hg).1)]

theorem sumAt_zero (pub : Nat → F) (gs : List (PGate F)) (w : Nat → F) (p : Nat) (h : ∀ g ∈ gs, g.o ≠ p) :
    sumAt pub gs w p = 0 := by
  unfold sumAt
  rw [List.filter_eq_nil_iff.2 fun g hg => by simpa using h g hg]
  rfl

theorem sumAt_shift (pub : Nat → F) (a : Nat × Nat) (gs : List (PGate F)) (w : Nat → F) (p : Nat) :
    sumAt pub (gs.map (PGate.shift a)) w p =
      if a.2 ≤ p then sumAt pub gs (fun i => w (a.1 + i)) (p - a.2) else 0 := by
  split_ifs with h
  · unfold sumAt
    rw [List.filter_map, List.map_map]
    have e : (fun g : PGate F => decide (g.o = p)) ∘ PGate.shift a = fun g => decide (g.o = p - a.2) := by
      funext g
      exact decide_eq_decide.2 (show a.2 + g.o = p ↔ g.o = p - a.2 by omega)
    rw [e]
    refine congrArg List.sum (List.map_congr_left fun g _ => ?_)
    simp only [Function.comp_apply, PGate.shift, PGate.cval, List.map_map]
    rfl
  · refine sumAt_zero pub _ w p fun g hg => ?_
    obtain ⟨g', -, rfl⟩ := List.mem_map.1 hg
    simp only [PGate.shift]
    omega

theorem sumAt_export (pub : Nat → F) (gs : List (Gt F)) (w : Nat → F) (p : Nat) :
    sumAt pub (gs.map Gt.export) w p = addsTo pub gs w p := by
  unfold sumAt addsTo
  rw [List.filter_map, List.map_map]
  refine congrArg List.sum (List.map_congr_left fun g _ => ?_)
  simp only [Function.comp_apply, Gt.export, PGate.cval]
  cases g.coef <;> rfl

theorem addsTo_append (pub : Nat → F) (a b : List (Gt F)) (w : Nat → F) (p : Nat) :
    addsTo pub (a ++ b) w p = addsTo pub a w p + addsTo pub b w p := by
  simp [addsTo]

/-! ### Properties of the gates of a segment -/

omit [Field F] in
/-- What shifting keeps and all gates have, the expanded gates have. -/
theorem expand_forall (segs : List (PSeg F)) (kind) (P : PGate F → Prop) (hshift : ∀ a g, P g → P (PGate.shift a g))
    (hall : ∀ s ∈ segs, ∀ g ∈ kind s, P g) : ∀ d id, ∀ g ∈ expand segs kind d id, P g
  | 0, _, g, h => by cases h
  | d + 1, id, g, h => by
    rw [expand] at h
    cases hs : segs[id]? with
    | none => rw [hs] at h; cases h
    | some s =>
      rw [hs] at h
      rcases List.mem_append.1 h with h | h
      · exact hall s (List.mem_of_getElem? hs) g h
      · obtain ⟨k, -, h⟩ := List.mem_flatMap.1 h
        obtain ⟨a, -, h⟩ := List.mem_flatMap.1 h
        obtain ⟨g', h', rfl⟩ := List.mem_map.1 h
        exact hshift _ _ (expand_forall segs kind P hshift hall d k.1 g' h')

/-- The three kinds, on both sides. -/
inductive Kind | mul | add | cst

def Kind.p : Kind → PSeg F → List (PGate F)
  | .mul => PSeg.muls
  | .add => PSeg.adds
  | .cst => PSeg.csts

def Kind.s : Kind → Sg F → List (Gt F)
  | .mul => Sg.muls
  | .add => Sg.adds
  | .cst => Sg.csts

omit [Field F] in
theorem Kind.isKind (K : Kind) : IsKind (F := F) K.p := by
  cases K
  · exact isKind_muls
  · exact isKind_adds
  · exact isKind_csts

theorem Kind.export (K : Kind) (s : Sg F) : K.p s.export = (K.s s).map Gt.export := by cases K <;> rfl

omit [Field F] in
theorem Kind.own (K : Kind) (s : Sg F) : ∀ g ∈ K.s s, g ∈ s.own := by
  intro g hg
  cases K <;> simp only [Kind.s] at hg <;> simp [Sg.own, hg]

theorem exportAt (c : Nested F) (id : Nat) : (c.segs.map Sg.export)[id]? = c.segs[id]?.map Sg.export := by
  simp

theorem earlier (c : Nested F) (hc : c.Ok) : Earlier (c.segs.map Sg.export) := by
  intro id s hs k hk
  rw [exportAt] at hs
  obtain ⟨s', hs', rfl⟩ := Option.map_eq_some_iff.1 hs
  exact ((hc.seg id s' hs').kidsOk k hk).1

/-- The gates a segment stands for stay within it. -/
theorem expand_range (c : Nested F) (hc : c.Ok) (K : Kind) :
    ∀ d id s, c.segs[id]? = some s → ∀ g ∈ expand (c.segs.map Sg.export) K.p d id,
      g.o < s.numOut ∧ ∀ i ∈ g.ins, i < s.numIn
  | 0, _, _, _, g, h => by cases h
  | d + 1, id, s, hs, g, h => by
    have ok := hc.seg id s hs
    rw [expand, exportAt, hs] at h
    rcases List.mem_append.1 h with h | h
    · rw [Kind.export] at h
      obtain ⟨g', h', rfl⟩ := List.mem_map.1 h
      exact ⟨ok.write g' (K.own s g' h'), ok.read g' (K.own s g' h')⟩
    · obtain ⟨k, hk, h⟩ := List.mem_flatMap.1 h
      obtain ⟨a, ha, h⟩ := List.mem_flatMap.1 h
      obtain ⟨g', h', rfl⟩ := List.mem_map.1 h
      cases ht : c.segs[k.1]? with
      | none =>
        cases d with
        | zero => cases h'
        | succ d => rw [expand, exportAt, ht] at h'; cases h'
      | some t =>
        obtain ⟨h1, h2⟩ := expand_range c hc K d k.1 t ht g' h'
        obtain ⟨b1, b2⟩ := (ok.kidsOk k hk).2 t ht a ha
        refine ⟨by simp only [PGate.shift]; omega, fun i hi => ?_⟩
        obtain ⟨j, hj, rfl⟩ := List.mem_map.1 (show i ∈ g'.ins.map (a.1 + ·) from hi)
        have := h2 j hj
        omega

/-- The gates a segment stands for add up to its meaning. -/
theorem expand_wire (c : Nested F) (hc : c.Ok) (pub : Nat → F) :
    ∀ (d id : Nat) (w : Nat → F) (p : Nat),
      sumAt pub (expand (c.segs.map Sg.export) PSeg.muls d id) w p +
        sumAt pub (expand (c.segs.map Sg.export) PSeg.adds d id) w p +
        sumAt pub (expand (c.segs.map Sg.export) PSeg.csts d id) w p = c.wire pub d id w p
  | 0, _, _, _ => by simp [expand, sumAt, Nested.wire]
  | d + 1, id, w, p => by
    rw [expand, expand, expand, exportAt, Nested.wire]
    cases hs : c.segs[id]? with
    | none => simp [sumAt]
    | some s =>
      have ok := hc.seg id s hs
      simp only [Option.map_some, sumAt_append, sumAt_flatMap]
      have hk : ∀ k ∈ s.kids, ∀ a ∈ k.2,
          sumAt pub ((expand (c.segs.map Sg.export) PSeg.muls d k.1).map (PGate.shift a)) w p +
          sumAt pub ((expand (c.segs.map Sg.export) PSeg.adds d k.1).map (PGate.shift a)) w p +
          sumAt pub ((expand (c.segs.map Sg.export) PSeg.csts d k.1).map (PGate.shift a)) w p =
          (match c.segs[k.1]? with
            | none => 0
            | some t => if a.2 ≤ p ∧ p < a.2 + t.numOut then
                c.wire pub d k.1 (fun i => w (a.1 + i)) (p - a.2) else 0) := by
        intro k hk a ha
        rw [sumAt_shift, sumAt_shift, sumAt_shift]
        cases ht : c.segs[k.1]? with
        | none =>
          have hn : ∀ kind, expand (c.segs.map Sg.export) kind d k.1 = [] := by
            intro kind
            cases d with
            | zero => rfl
            | succ d => rw [expand, exportAt, ht]; rfl
          simp [hn, sumAt]
        | some t =>
          dsimp only
          by_cases h1 : a.2 ≤ p
          · rw [if_pos h1, if_pos h1, if_pos h1]
            by_cases h2 : p < a.2 + t.numOut
            · rw [if_pos ⟨h1, h2⟩]
              exact expand_wire c hc pub d k.1 _ _
            · rw [if_neg fun h => h2 h.2]
              have z : ∀ K : Kind, sumAt pub (expand (c.segs.map Sg.export) K.p d k.1)
                  (fun i => w (a.1 + i)) (p - a.2) = 0 := by
                intro K
                refine sumAt_zero _ _ _ _ fun g hg => ?_
                have := (expand_range c hc K d k.1 t ht g hg).1
                omega
              have z1 := z .mul; have z2 := z .add; have z3 := z .cst
              simp only [Kind.p] at z1 z2 z3
              rw [z1, z2, z3]; simp
          · rw [if_neg h1, if_neg h1, if_neg h1, if_neg fun h => h1 h.1]; simp
      have hsum : ∀ kids : List (Nat × List (Nat × Nat)), (∀ k ∈ kids, k ∈ s.kids) →
          (kids.map fun k => (k.2.map fun a =>
            sumAt pub ((expand (c.segs.map Sg.export) PSeg.muls d k.1).map (PGate.shift a)) w p).sum).sum +
          (kids.map fun k => (k.2.map fun a =>
            sumAt pub ((expand (c.segs.map Sg.export) PSeg.adds d k.1).map (PGate.shift a)) w p).sum).sum +
          (kids.map fun k => (k.2.map fun a =>
            sumAt pub ((expand (c.segs.map Sg.export) PSeg.csts d k.1).map (PGate.shift a)) w p).sum).sum =
          (kids.map fun k => (k.2.map fun a =>
            match c.segs[k.1]? with
            | none => 0
            | some t => if a.2 ≤ p ∧ p < a.2 + t.numOut then
                c.wire pub d k.1 (fun i => w (a.1 + i)) (p - a.2) else 0).sum).sum := by
        intro kids hkids
        rw [← List.sum_map_add, ← List.sum_map_add]
        refine congrArg List.sum (List.map_congr_left fun k hk' => ?_)
        rw [← List.sum_map_add, ← List.sum_map_add]
        exact congrArg List.sum (List.map_congr_left fun a ha => hk k (hkids k hk') a ha)
      have hs' := hsum s.kids fun _ h => h
      refine Eq.trans ?_ (congrArg (fun x => addsTo pub s.own w p + x) hs')
      rw [Sg.own, addsTo_append, addsTo_append, ← sumAt_export, ← sumAt_export, ← sumAt_export]
      simp only [Sg.export]
      ring

/-! ### Evaluation of a layer -/

/-- What `evaluate` relies on: numbers of inputs, and no public input as the coefficient of a product. -/
structure PLayer.Shape (l : PLayer F) : Prop where
  mul : ∀ g ∈ l.mul, (∃ a b, g.ins = [a, b]) ∧ ∀ i, g.ty ≠ .pub i
  add : ∀ g ∈ l.add, (∃ a, g.ins = [a]) ∧ ∀ i, g.ty ≠ .pub i
  cst : ∀ g ∈ l.cst, g.ins = []

theorem cval_coef (pub : Nat → F) (g : PGate F) (h : ∀ i, g.ty ≠ .pub i) : g.cval pub = g.coef := by
  unfold PGate.cval
  split
  · exact absurd ‹_› (h _)
  · rfl

theorem evaluate_eq (l : PLayer F) (hl : l.Shape) (pub w : Nat → Nat → F) (p k : Nat) :
    l.toLayer.evaluate pub w p k = sumAt (fun i => pub i k) l.mul (fun i => w i k) p +
      sumAt (fun i => pub i k) l.add (fun i => w i k) p + sumAt (fun i => pub i k) l.cst (fun i => w i k) p := by
  classical
  obtain ⟨mid, h1, h2⟩ := C19_evaluate pub w k [l.toLayer]
  have h2 : l.toLayer.evaluate pub w p k = mid p k := h2 p
  rw [h2, h1 p]
  simp only [PLayer.toLayer, List.filter_map, List.map_map, List.filter_nil, List.map_nil, List.sum_nil, add_zero]
  unfold sumAt
  congr 1
  · congr 1
    · refine congrArg List.sum (List.map_congr_left fun g hg => ?_)
      obtain ⟨⟨a, b, hi⟩, hp⟩ := hl.mul g (List.mem_filter.1 hg).1
      simp [PGate.toMul, hi, cval_coef _ g hp]
    · refine congrArg List.sum (List.map_congr_left fun g hg => ?_)
      obtain ⟨⟨a, hi⟩, hp⟩ := hl.add g (List.mem_filter.1 hg).1
      simp [PGate.toAdd, hi, cval_coef _ g hp]
  · refine congrArg List.sum (List.map_congr_left fun g hg => ?_)
    have hi := hl.cst g (List.mem_filter.1 hg).1
    simp only [Function.comp_apply, PGate.toCst, hi, PGate.cval]
    cases g.ty <;> simp

/-- Public inputs occur only as constants, as in the compiler's output (C74). -/
def Nested.PubConst (c : Nested F) : Prop :=
  ∀ s ∈ c.segs, ∀ g ∈ s.muls ++ s.adds, ∀ i, g.coef ≠ .pub i

/-- No random coefficients. -/
def Nested.NoCoins (c : Nested F) : Prop := ∀ s ∈ c.segs, ∀ g ∈ s.own, g.coef ≠ .rnd

theorem flatLayer_perm (c : Nested F) (hc : c.Ok) {id : Nat} {l : PLayer F}
    (h : FlatLayer (c.segs.map Sg.export) id l) : ∃ s, c.segs[id]? = some s ∧
      l.inVars = max (padicValNat 2 s.numIn) 1 ∧ l.outVars = max (padicValNat 2 s.numOut) 1 ∧
      l.mul.Perm (expand (c.segs.map Sg.export) PSeg.muls (id + 1) id) ∧
      l.add.Perm (expand (c.segs.map Sg.export) PSeg.adds (id + 1) id) ∧
      l.cst.Perm (expand (c.segs.map Sg.export) PSeg.csts (id + 1) id) := by
  obtain ⟨s, d, leaves, hs, hscan, rfl⟩ := h
  rw [exportAt] at hs
  obtain ⟨s', hs', rfl⟩ := Option.map_eq_some_iff.1 hs
  have he := earlier c hc
  refine ⟨s', hs', rfl, rfl, ?_, ?_, ?_⟩
  · rw [← expand_scan_id _ _ he hscan]; exact gather_scan _ isKind_muls _ _ _ hscan
  · rw [← expand_scan_id _ _ he hscan]; exact gather_scan _ isKind_adds _ _ _ hscan
  · rw [← expand_scan_id _ _ he hscan]; exact gather_scan _ isKind_csts _ _ _ hscan

theorem export_ty_pub {g : Gt F} {i : Nat} (h : g.export.ty = .pub i) : g.coef = .pub i := by
  unfold Gt.export at h
  cases hc : g.coef <;> rw [hc] at h <;> simp [Cf.export] at h ⊢ <;> assumption

theorem export_ty_rnd {g : Gt F} : g.export.ty = .rnd ↔ g.coef = .rnd := by
  unfold Gt.export
  cases hc : g.coef <;> simp [Cf.export]

theorem flatLayer_shape (c : Nested F) (hc : c.Ok) (hp : c.PubConst) {id : Nat} {l : PLayer F}
    (h : FlatLayer (c.segs.map Sg.export) id l) : l.Shape := by
  obtain ⟨s, hs, -, -, h1, h2, h3⟩ := flatLayer_perm c hc h
  have ok : ∀ s ∈ c.segs, ∃ id, s.Ok c.segs id := fun s hs => by
    obtain ⟨i, hi⟩ := List.getElem?_of_mem hs
    exact ⟨i, hc.seg i s hi⟩
  refine ⟨fun g hg => ?_, fun g hg => ?_, fun g hg => ?_⟩
  · refine expand_forall _ PSeg.muls (fun g => (∃ a b, g.ins = [a, b]) ∧ ∀ i, g.ty ≠ .pub i) ?_ ?_ _ _ g (h1.mem_iff.1 hg)
    · rintro a g ⟨⟨x, y, h⟩, h'⟩
      exact ⟨⟨a.1 + x, a.1 + y, by simp [PGate.shift, h]⟩, h'⟩
    · intro s hs g hg
      obtain ⟨s', hs', rfl⟩ := List.mem_map.1 hs
      obtain ⟨g', hg', rfl⟩ := List.mem_map.1 hg
      obtain ⟨id, ok⟩ := ok s' hs'
      exact ⟨ok.mulLen g' hg', fun i hi => hp s' hs' g' (List.mem_append_left _ hg') i (export_ty_pub hi)⟩
  · refine expand_forall _ PSeg.adds (fun g => (∃ a, g.ins = [a]) ∧ ∀ i, g.ty ≠ .pub i) ?_ ?_ _ _ g (h2.mem_iff.1 hg)
    · rintro a g ⟨⟨x, h⟩, h'⟩
      exact ⟨⟨a.1 + x, by simp [PGate.shift, h]⟩, h'⟩
    · intro s hs g hg
      obtain ⟨s', hs', rfl⟩ := List.mem_map.1 hs
      obtain ⟨g', hg', rfl⟩ := List.mem_map.1 hg
      obtain ⟨id, ok⟩ := ok s' hs'
      exact ⟨ok.addLen g' hg', fun i hi => hp s' hs' g' (List.mem_append_right _ hg') i (export_ty_pub hi)⟩
  · refine expand_forall _ PSeg.csts (fun g => g.ins = []) ?_ ?_ _ _ g (h3.mem_iff.1 hg)
    · rintro a g h
      simp [PGate.shift, h]
    · intro s hs g hg
      obtain ⟨s', hs', rfl⟩ := List.mem_map.1 hs
      obtain ⟨g', hg', rfl⟩ := List.mem_map.1 hg
      obtain ⟨id, ok⟩ := ok s' hs'
      exact ok.cstLen g' hg'

theorem flatLayer_evaluate (c : Nested F) (hc : c.Ok) (hp : c.PubConst) {id : Nat} {l : PLayer F}
    (h : FlatLayer (c.segs.map Sg.export) id l) (pub w : Nat → Nat → F) (p k : Nat) :
    l.toLayer.evaluate pub w p k = c.wire (fun i => pub i k) (id + 1) id (fun i => w i k) p := by
  obtain ⟨s, hs, -, -, h1, h2, h3⟩ := flatLayer_perm c hc h
  rw [evaluate_eq l (flatLayer_shape c hc hp h), sumAt_perm _ h1, sumAt_perm _ h2, sumAt_perm _ h3,
    expand_wire c hc]

/-! ### All layers -/

theorem forall₂_mem {A B : Type} {R : A → B → Prop} {as : List A} {bs : List B} (h : List.Forall₂ R as bs) :
    ∀ b ∈ bs, ∃ a ∈ as, R a b := by
  induction h with
  | nil => intro b hb; cases hb
  | cons h _ ih =>
    intro b hb
    rcases List.mem_cons.1 hb with rfl | hb
    · exact ⟨_, List.mem_cons_self .., h⟩
    · obtain ⟨a, ha, hr⟩ := ih b hb
      exact ⟨a, List.mem_cons_of_mem _ ha, hr⟩

theorem flatten_run (c : Nested F) (hc : c.Ok) (hp : c.PubConst) (pub : Nat → Nat → F) (k : Nat) :
    ∀ (ids : List Nat) (ls : List (PLayer F)) (w : Nat → Nat → F) (v : Nat → F), (∀ i, w i k = v i) →
      List.Forall₂ (FlatLayer (c.segs.map Sg.export)) ids ls →
      ∀ p, evalCircuit pub (ls.map PLayer.toLayer) w p k = c.run (fun i => pub i k) ids v p
  | [], _, w, v, hw, h, p => by cases h; exact hw p
  | id :: ids, _, w, v, hw, .cons hl h, p => by
    have : (fun i => w i k) = v := funext hw
    exact flatten_run c hc hp pub k ids _ _ _ (fun i => by rw [flatLayer_evaluate c hc hp hl, this]) h p

theorem relay_shape (n : Nat) : (relayLayer n : PLayer F).Shape :=
  ⟨fun g h => (nomatch h), fun g h => by
    obtain ⟨i, -, rfl⟩ := List.mem_map.1 h
    exact ⟨⟨i, rfl⟩, fun j h => (nomatch h)⟩, fun g h => (nomatch h)⟩

theorem relay_evaluate (n : Nat) (pub w : Nat → Nat → F) (p k : Nat) (hp : p < 2 ^ n) :
    (relayLayer n : PLayer F).toLayer.evaluate pub w p k = w p k := by
  rw [evaluate_eq _ (relay_shape n)]
  simp only [relayLayer, sumAt, List.filter_nil, List.map_nil, List.sum_nil, zero_add, add_zero, List.filter_map,
    List.map_map]
  have e : (List.range (2 ^ n)).filter ((fun g : PGate F => decide (g.o = p)) ∘ fun i => ⟨[i], i, 1, .const⟩) = [p] := by
    have e' : ((fun g : PGate F => decide (g.o = p)) ∘ fun i => (⟨[i], i, 1, .const⟩ : PGate F)) =
        (fun i => i == p) := funext fun i => by simp [Bool.beq_eq_decide_eq]
    rw [e', List.filter_beq, List.count_eq_one_of_mem List.nodup_range (List.mem_range.2 hp)]
    rfl
  rw [e]
  simp [PGate.cval]

theorem pow_max {n k : Nat} (h : n = 2 ^ k) : max (padicValNat 2 n) 1 = max k 1 ∧ n ≤ 2 ^ max k 1 := by
  subst h
  rw [padicValNat.prime_pow]
  exact ⟨rfl, Nat.pow_le_pow_right (by norm_num) (le_max_left _ _)⟩

/-- The first layer does not see a layer of copies before it. -/
theorem relay_same (c : Nested F) (hc : c.Ok) (hp : c.PubConst) {id : Nat} {l : PLayer F}
    (h : FlatLayer (c.segs.map Sg.export) id l) (pub w : Nat → Nat → F) :
    l.toLayer.evaluate pub ((relayLayer l.inVars : PLayer F).toLayer.evaluate pub w) = l.toLayer.evaluate pub w := by
  funext p k
  rw [evaluate_eq l (flatLayer_shape c hc hp h), evaluate_eq l (flatLayer_shape c hc hp h)]
  obtain ⟨s, hs, hi, -, h1, h2, h3⟩ := flatLayer_perm c hc h
  obtain ⟨e, he⟩ := (hc.seg id s hs).sizeIn
  have hb := (pow_max he).2
  rw [← (pow_max he).1, ← hi] at hb
  have r : ∀ K : Kind, ∀ g ∈ expand (c.segs.map Sg.export) K.p (id + 1) id, ∀ i ∈ g.ins,
      (relayLayer l.inVars : PLayer F).toLayer.evaluate pub w i k = w i k := fun K g hg i hi' =>
    relay_evaluate _ _ _ _ _ (lt_of_lt_of_le ((expand_range c hc K _ _ s hs g hg).2 i hi') hb)
  rw [sumAt_congr _ l.mul fun g hg => r .mul g (h1.mem_iff.1 hg),
    sumAt_congr _ l.add fun g hg => r .add g (h2.mem_iff.1 hg),
    sumAt_congr _ l.cst fun g hg => r .cst g (h3.mem_iff.1 hg)]

omit [Field F] in
theorem fillLayers_none (ρ : Nat → F) (n : Nat) : ∀ ls : List (PLayer F),
    (∀ l ∈ ls, (∀ g ∈ l.mul, g.ty ≠ .rnd) ∧ (∀ g ∈ l.add, g.ty ≠ .rnd) ∧ ∀ g ∈ l.cst, g.ty ≠ .rnd) →
      fillLayers ρ n ls = ls
  | [], _ => rfl
  | l :: r, h => by
    obtain ⟨h1, h2, h3⟩ := h l (List.mem_cons_self ..)
    rw [fillLayers, fillLayer, fillGates_none ρ n _ h1]
    dsimp only
    rw [fillGates_none ρ n _ h2]
    dsimp only
    rw [fillGates_none ρ n _ h3]
    dsimp only
    rw [fillLayers_none ρ n r fun l hl => h l (List.mem_cons_of_mem _ hl)]

theorem flatLayer_noCoins (c : Nested F) (hc : c.Ok) (hn : c.NoCoins) {id : Nat} {l : PLayer F}
    (h : FlatLayer (c.segs.map Sg.export) id l) :
    (∀ g ∈ l.mul, g.ty ≠ .rnd) ∧ (∀ g ∈ l.add, g.ty ≠ .rnd) ∧ ∀ g ∈ l.cst, g.ty ≠ .rnd := by
  obtain ⟨s, hs, -, -, h1, h2, h3⟩ := flatLayer_perm c hc h
  have r : ∀ K : Kind, ∀ g ∈ expand (c.segs.map Sg.export) K.p (id + 1) id, g.ty ≠ .rnd := fun K => by
    refine expand_forall _ K.p _ (fun a g h => h) (fun s hs g hg => ?_) _ _
    obtain ⟨s', hs', rfl⟩ := List.mem_map.1 hs
    rw [Kind.export] at hg
    obtain ⟨g', hg', rfl⟩ := List.mem_map.1 hg
    exact fun h => hn s' hs' g' (K.own _ g' hg') (export_ty_rnd.1 h)
  exact ⟨fun g hg => r .mul g (h1.mem_iff.1 hg), fun g hg => r .add g (h2.mem_iff.1 hg),
    fun g hg => r .cst g (h3.mem_iff.1 hg)⟩

/-- **C81, meaning.** Whatever order the hash maps come in, the flattened circuit computes, in every lane,
what the nested circuit means. -/
theorem C81_meaning (c : Nested F) (hc : c.Ok) (hp : c.PubConst) (hn : c.NoCoins) {ls : List (PLayer F)}
    (h : Flatten c ls) (ρ : Nat → F) (pub w : Nat → Nat → F) (p k : Nat) :
    evalCircuit pub (finish ρ ls) w p k = c.run (fun i => pub i k) c.layers (fun i => w i k) p := by
  have hnone : ∀ l ∈ ls, (∀ g ∈ l.mul, g.ty ≠ .rnd) ∧ (∀ g ∈ l.add, g.ty ≠ .rnd) ∧ ∀ g ∈ l.cst, g.ty ≠ .rnd := by
    intro l hl
    obtain ⟨id, -, h'⟩ := forall₂_mem h l hl
    exact flatLayer_noCoins c hc hn h'
  have hpre : fillLayers ρ 0 (preprocess ls) = preprocess ls := by
    refine fillLayers_none ρ 0 _ fun l hl => ?_
    cases ls with
    | nil => cases hl
    | cons l0 r =>
      rw [preprocess] at hl
      split_ifs at hl with h0
      · exact hnone l hl
      · rcases List.mem_cons.1 hl with rfl | hl
        · refine ⟨fun g h => (nomatch h), fun g h => ?_, fun g h => (nomatch h)⟩
          obtain ⟨i, -, rfl⟩ := List.mem_map.1 h
          intro h; cases h
        · exact hnone l hl
  rw [finish, hpre]
  unfold Flatten at h
  generalize hids : c.layers = ids at h ⊢
  cases h with
  | nil => rfl
  | @cons id l ids r hl hr =>
    have base := flatten_run c hc hp pub k (id :: ids) (l :: r) w (fun i => w i k) (fun _ => rfl) (.cons hl hr) p
    rw [preprocess]
    split_ifs with h0
    · exact base
    · rw [← base]
      simp only [List.map_cons, evalCircuit]
      rw [relay_same c hc hp hl]

/-! ### A circuit the proof system can handle -/

theorem getD_lt {l : List Nat} {b : Nat} (h : ∀ i ∈ l, i < b) (hb : 0 < b) (n : Nat) : l.getD n 0 < b := by
  rw [List.getD_eq_getElem?_getD]
  cases e : l[n]? with
  | none => exact hb
  | some x => exact h x (List.mem_of_getElem? e)

/-- Gates stay within the layer. -/
def PLayer.Range (l : PLayer F) : Prop :=
  ∀ g ∈ l.mul ++ l.add ++ l.cst, g.o < 2 ^ l.outVars ∧ ∀ i ∈ g.ins, i < 2 ^ l.inVars

/-- The layers fit, the first reading `2 ^ n` wires. -/
def PFit : Nat → List (PLayer F) → Prop
  | _, [] => True
  | n, l :: r => l.inVars = n ∧ 0 < l.inVars ∧ l.Range ∧ PFit l.outVars r

omit [Field F] in
theorem fillLayer_range (ρ : Nat → F) (n : Nat) (l : PLayer F) (h : l.Range) : (fillLayer ρ n l).1.Range := by
  intro g hg
  have : ∃ g' ∈ l.mul ++ l.add ++ l.cst, g.ins = g'.ins ∧ g.o = g'.o := by
    rcases List.mem_append.1 hg with hg | hg
    · rcases List.mem_append.1 hg with hg | hg
      · obtain ⟨g', h, e1, e2, -⟩ := mem_fillGates hg
        exact ⟨g', by simp [h], e1, e2⟩
      · obtain ⟨g', h, e1, e2, -⟩ := mem_fillGates hg
        exact ⟨g', by simp [h], e1, e2⟩
    · obtain ⟨g', h, e1, e2, -⟩ := mem_fillGates hg
      exact ⟨g', by simp [h], e1, e2⟩
  obtain ⟨g', hg', e1, e2⟩ := this
  rw [e1, e2]
  exact h g' hg'

theorem layerOk (l : PLayer F) (h : l.Range) : LayerOk l.toLayer := by
  have pos : 0 < 2 ^ l.inVars := Nat.two_pow_pos _
  refine ⟨fun g hg => ?_, fun g hg => ?_, fun g hg => ?_, rfl⟩
  · obtain ⟨g', hg', rfl⟩ := List.mem_map.1 hg
    obtain ⟨h1, h2⟩ := h g' (by simp [hg'])
    exact ⟨h1, getD_lt h2 pos 0, getD_lt h2 pos 1⟩
  · obtain ⟨g', hg', rfl⟩ := List.mem_map.1 hg
    obtain ⟨h1, h2⟩ := h g' (by simp [hg'])
    exact ⟨h1, getD_lt h2 pos 0⟩
  · obtain ⟨g', hg', rfl⟩ := List.mem_map.1 hg
    exact (h g' (by simp [hg'])).1

theorem circuitOk (ρ : Nat → F) : ∀ (ls : List (PLayer F)) (n m : Nat), PFit n ls →
    CircuitOk n ((fillLayers ρ m ls).map PLayer.toLayer) ∧ ∀ l ∈ (fillLayers ρ m ls).map PLayer.toLayer, 0 < l.inVars
  | [], _, _, _ => ⟨trivial, fun l h => (nomatch h)⟩
  | l :: r, n, m, ⟨h1, h2, h3, h4⟩ => by
    obtain ⟨k1, k2⟩ := circuitOk ρ r l.outVars (fillLayer ρ m l).2 h4
    refine ⟨⟨h1, layerOk _ (fillLayer_range ρ m l h3), k1⟩, fun l' hl' => ?_⟩
    rcases List.mem_cons.1 hl' with rfl | hl'
    · exact h2
    · exact k2 l' hl'

theorem flatLayer_range (c : Nested F) (hc : c.Ok) {id : Nat} {l : PLayer F}
    (h : FlatLayer (c.segs.map Sg.export) id l) : l.Range ∧ 0 < l.inVars := by
  obtain ⟨s, hs, hi, ho, h1, h2, h3⟩ := flatLayer_perm c hc h
  obtain ⟨e, he⟩ := (hc.seg id s hs).sizeIn
  obtain ⟨e', he'⟩ := (hc.seg id s hs).sizeOut
  have bi := (pow_max he).2
  have bo := (pow_max he').2
  rw [← (pow_max he).1, ← hi] at bi
  rw [← (pow_max he').1, ← ho] at bo
  have r : ∀ K : Kind, ∀ g ∈ expand (c.segs.map Sg.export) K.p (id + 1) id,
      g.o < 2 ^ l.outVars ∧ ∀ i ∈ g.ins, i < 2 ^ l.inVars := fun K g hg => by
    obtain ⟨a, b⟩ := expand_range c hc K _ _ s hs g hg
    exact ⟨lt_of_lt_of_le a bo, fun i hi => lt_of_lt_of_le (b i hi) bi⟩
  refine ⟨fun g hg => ?_, by rw [hi]; exact lt_of_lt_of_le Nat.one_pos (le_max_right _ _)⟩
  rcases List.mem_append.1 hg with hg | hg
  · rcases List.mem_append.1 hg with hg | hg
    · exact r .mul g (h1.mem_iff.1 hg)
    · exact r .add g (h2.mem_iff.1 hg)
  · exact r .cst g (h3.mem_iff.1 hg)

theorem flatten_fit (c : Nested F) (hc : c.Ok) : ∀ (ids : List Nat) (ls : List (PLayer F)),
    ids.IsChain (fun a b => ∀ s t, c.segs[a]? = some s → c.segs[b]? = some t → s.numOut = t.numIn) →
    List.Forall₂ (FlatLayer (c.segs.map Sg.export)) ids ls → ∀ l r, ls = l :: r → PFit l.inVars ls
  | [], _, _, h, l, r, e => by cases h; cases e
  | id :: ids, _, hch, .cons (l₂ := ls) (b := l') hl h, l, r, e => by
    cases e
    obtain ⟨h1, h2⟩ := flatLayer_range c hc hl
    refine ⟨rfl, h2, h1, ?_⟩
    cases h with
    | nil => trivial
    | @cons id2 l2 ids2 ls2 hl2 h =>
      have := flatten_fit c hc (id2 :: ids2) (l2 :: ls2) hch.tail (.cons hl2 h) l2 ls2 rfl
      obtain ⟨s, hs, -, ho, -⟩ := flatLayer_perm c hc hl
      obtain ⟨t, ht, hi, -⟩ := flatLayer_perm c hc hl2
      have e := (List.isChain_cons_cons.1 hch).1 s t hs ht
      rwa [ho, e, ← hi]

omit [Field F] in
theorem fillLayers_ne (ρ : Nat → F) (n : Nat) {ls : List (PLayer F)} (h : ls ≠ []) : fillLayers ρ n ls ≠ [] := by
  cases ls with
  | nil => exact absurd rfl h
  | cons l r => exact List.cons_ne_nil _ _

/-- **C81, the proof system can handle it.** Every flattened circuit meets the side conditions of the
completeness and soundness of the interactive proof (C19, C21), with every number of variables at least
one. -/
theorem C81_ok (c : Nested F) (hc : c.Ok) {ls : List (PLayer F)} (h : Flatten c ls) (ρ : Nat → F) :
    finish ρ ls ≠ [] ∧ (∃ n, CircuitOk n (finish ρ ls)) ∧ ∀ l ∈ finish ρ ls, 0 < l.inVars := by
  cases ls with
  | nil => exact absurd (List.forall₂_nil_right_iff.1 h) hc.nonempty
  | cons l r =>
    have fit := flatten_fit c hc c.layers (l :: r) hc.fit h l r rfl
    have fit' : ∃ n, PFit n (preprocess (l :: r)) := by
      rw [preprocess]
      split_ifs with h0
      · exact ⟨_, fit⟩
      · refine ⟨l.inVars, rfl, fit.2.1, fun g hg => ?_, fit⟩
        have hg : g ∈ (relayLayer l.inVars : PLayer F).add := by
          simpa [relayLayer] using hg
        obtain ⟨i, hi, rfl⟩ := List.mem_map.1 hg
        exact ⟨List.mem_range.1 hi, fun j hj => by rw [List.mem_singleton.1 hj]; exact List.mem_range.1 hi⟩
    obtain ⟨n, fit'⟩ := fit'
    obtain ⟨h1, h2⟩ := circuitOk ρ _ n 0 fit'
    refine ⟨?_, ⟨n, h1⟩, h2⟩
    have hne : preprocess (l :: r) ≠ [] := by
      rw [preprocess]; split_ifs <;> exact List.cons_ne_nil _ _
    simpa [finish] using fillLayers_ne ρ 0 hne

/-- **C81, flattening returns.** -/
theorem C81_flatten_exists (c : Nested F) (hc : c.Ok) : ∃ ls, Flatten c ls := by
  have : ∀ ids : List Nat, (∀ id ∈ ids, ∃ s, c.segs[id]? = some s) →
      ∃ ls, List.Forall₂ (FlatLayer (c.segs.map Sg.export)) ids ls := by
    intro ids
    induction ids with
    | nil => intro _; exact ⟨[], .nil⟩
    | cons id r ih =>
      intro hl
      obtain ⟨s, hs⟩ := hl id (List.mem_cons_self ..)
      obtain ⟨ls, h⟩ := ih fun i hi => hl i (List.mem_cons_of_mem _ hi)
      obtain ⟨m, hm⟩ := scan_exists _ (earlier c hc) (id + 1) id (Nat.lt_succ_self _)
        (by rw [List.length_map]; exact (List.getElem?_eq_some_iff.1 hs).1)
      exact ⟨_, .cons ⟨s.export, id + 1, m, by rw [exportAt, hs]; rfl, hm, rfl⟩ h⟩
  exact this c.layers hc.layer

/-! ### Coins -/

/-- Segments which are children have no random gates. -/
def Nested.TopCoins (c : Nested F) : Prop :=
  ∀ s ∈ c.segs, ∀ k ∈ s.kids, ∀ t, c.segs[k.1]? = some t → ∀ g ∈ t.own, g.coef ≠ .rnd

theorem push_filter (id key : Nat) (new) (h : key ≠ id) (m : Leaves) :
    (m.push key new).filter (fun l => l.1 = id) = m.filter (fun l => l.1 = id) := by
  induction m with
  | nil => simp [Leaves.push, h]
  | cons e r ih =>
    rw [Leaves.push]
    split_ifs with he
    · rw [List.filter_cons_of_neg (by simp; rw [he]; exact h), List.filter_cons_of_neg (by simp; rw [he]; exact h)]
    · rw [List.filter_cons, List.filter_cons, ih]

theorem push_keys (P : Nat → Prop) (key : Nat) (new) (h : P key) (m : Leaves) (hm : ∀ l ∈ m, P l.1) :
    ∀ l ∈ m.push key new, P l.1 := by
  induction m with
  | nil => intro l hl; rw [List.mem_singleton.1 hl]; exact h
  | cons e r ih =>
    rw [Leaves.push]
    have he := hm e (List.mem_cons_self ..)
    have hr : ∀ l ∈ r, P l.1 := fun l hl => hm l (List.mem_cons_of_mem _ hl)
    split_ifs
    · intro l hl
      rcases List.mem_cons.1 hl with rfl | hl
      · exact he
      · exact hr l hl
    · intro l hl
      rcases List.mem_cons.1 hl with rfl | hl
      · exact he
      · exact ih hr l hl

theorem merge_keys (P : Nat → Prop) (id : Nat) (places) (leaves : Leaves) (hl : ∀ l ∈ leaves, P l.1 ∧ l.1 ≠ id) :
    ∀ m : Leaves, (m.merge places leaves).filter (fun l => l.1 = id) = m.filter (fun l => l.1 = id) ∧
      ((∀ l ∈ m, P l.1) → ∀ l ∈ m.merge places leaves, P l.1) := by
  induction leaves with
  | nil => intro m; exact ⟨rfl, fun h => h⟩
  | cons l r ih =>
    intro m
    obtain ⟨hP, hne⟩ := hl l (List.mem_cons_self ..)
    obtain ⟨h1, h2⟩ := ih (fun l h => hl l (List.mem_cons_of_mem _ h)) (m.push l.1 _)
    exact ⟨h1.trans (push_filter id l.1 _ hne m), fun hm => h2 (push_keys P l.1 _ hP m hm)⟩

/-- The keys of a scan: the segment itself, at most once and at no offset, and children. -/
theorem scan_keys (segs : List (PSeg F)) (he : Earlier segs) :
    ∀ (d id : Nat) (m : Leaves), Scan segs d id m → ∃ s, segs[id]? = some s ∧
      m.filter (fun l => l.1 = id) = s.start id ∧
      ∀ l ∈ m, l.1 ≤ id ∧ (l.1 ≠ id → ∃ t ∈ segs, ∃ k ∈ t.kids, k.1 = l.1)
  | 0, _, _, h => h.elim
  | d + 1, id, m', h => by
    obtain ⟨s, m, hs, h, hp⟩ := h
    let P : Nat → Prop := fun key => key ≤ id ∧ (key ≠ id → ∃ t ∈ segs, ∃ k ∈ t.kids, k.1 = key)
    have key : ∀ (kids : List (Nat × List (Nat × Nat))) (m m' : Leaves), (∀ k ∈ kids, k ∈ s.kids) →
        ScanKids (Scan segs d) kids m m' → (∀ l ∈ m, P l.1) →
        m'.filter (fun l => l.1 = id) = m.filter (fun l => l.1 = id) ∧ ∀ l ∈ m', P l.1 := by
      intro kids
      induction kids with
      | nil => intro m m' _ h hm; cases h; exact ⟨rfl, hm⟩
      | cons k r ih =>
        rintro m m' hsub ⟨leaves, hl, h⟩ hm
        have hk := hsub k (List.mem_cons_self ..)
        have hlt := he id s hs k hk
        obtain ⟨t, ht, -, hkeys⟩ := scan_keys segs he d k.1 leaves hl
        have hleaf : ∀ l ∈ leaves, P l.1 ∧ l.1 ≠ id := by
          intro l hl
          obtain ⟨h1, h2⟩ := hkeys l hl
          refine ⟨⟨by omega, fun _ => ?_⟩, by omega⟩
          by_cases e : l.1 = k.1
          · exact ⟨s, List.mem_of_getElem? hs, k, hk, e.symm⟩
          · exact h2 e
        obtain ⟨f1, f2⟩ := merge_keys P id k.2 leaves hleaf m
        obtain ⟨g1, g2⟩ := ih _ _ (fun k h => hsub k (List.mem_cons_of_mem _ h)) h (f2 hm)
        exact ⟨g1.trans f1, g2⟩
    have hstart : ∀ l ∈ s.start id, l.1 = id := by
      intro l hl
      unfold PSeg.start at hl
      split_ifs at hl
      · rw [List.mem_singleton.1 hl]
      · cases hl
    obtain ⟨h1, h2⟩ := key s.kids _ _ (fun _ h => h) h fun l hl => by
      rw [hstart l hl]; exact ⟨le_refl _, fun h => absurd rfl h⟩
    have h3 : (s.start id).filter (fun l => l.1 = id) = s.start id :=
      List.filter_eq_self.2 fun l hl => by simpa using hstart l hl
    refine ⟨s, hs, ?_, fun l hl => h2 l (hp.mem_iff.2 hl)⟩
    have h4 := hp.filter (fun l => decide (l.1 = id))
    rw [h1, h3] at h4
    unfold PSeg.start at h4 ⊢
    split_ifs at h4 ⊢
    · exact List.perm_singleton.1 h4.symm
    · exact List.perm_nil.1 h4.symm

/-- If only top segments have random gates, a layer's random gates come in one order. -/
theorem gather_rnd (c : Nested F) (hc : c.Ok) (ht : c.TopCoins) (K : Kind) {d id : Nat} {m : Leaves}
    (h : Scan (c.segs.map Sg.export) d id m) : ∃ s, c.segs[id]? = some s ∧
      (gather (c.segs.map Sg.export) K.p m).filter (fun g => g.ty = .rnd) =
        (K.p s.export).filter (fun g => g.ty = .rnd) := by
  obtain ⟨s, hs, hf, hk⟩ := scan_keys _ (earlier c hc) d id m h
  rw [exportAt] at hs
  obtain ⟨s', hs', rfl⟩ := Option.map_eq_some_iff.1 hs
  refine ⟨s', hs', ?_⟩
  have key : ∀ m : Leaves, (∀ l ∈ m, l.1 ≤ id ∧ (l.1 ≠ id → ∃ t ∈ c.segs.map Sg.export, ∃ k ∈ t.kids, k.1 = l.1)) →
      (gather (c.segs.map Sg.export) K.p m).filter (fun g => g.ty = .rnd) =
      (gather (c.segs.map Sg.export) K.p (m.filter fun l => l.1 = id)).filter (fun g => g.ty = .rnd) := by
    intro m
    induction m with
    | nil => intro _; rfl
    | cons l r ih =>
      intro hm
      have ih := ih fun l h => hm l (List.mem_cons_of_mem _ h)
      by_cases e : l.1 = id
      · rw [List.filter_cons_of_pos (by simpa using e)]
        simp only [gather_eq, List.flatMap_cons, List.filter_append] at ih ⊢
        rw [ih]
      · rw [List.filter_cons_of_neg (by simpa using e), ← ih]
        simp only [gather_eq, List.flatMap_cons, List.filter_append]
        rw [show (atLeaf (c.segs.map Sg.export) K.p l.1 l.2).filter (fun g => g.ty = .rnd) = [] from ?_, List.nil_append]
        refine List.filter_eq_nil_iff.2 fun g hg => ?_
        unfold atLeaf at hg
        rw [exportAt] at hg
        cases hl : c.segs[l.1]? with
        | none => rw [hl] at hg; cases hg
        | some t =>
          rw [hl] at hg
          obtain ⟨a, -, hg⟩ := List.mem_flatMap.1 hg
          obtain ⟨g', hg', rfl⟩ := List.mem_map.1 hg
          rw [Kind.export] at hg'
          obtain ⟨g'', hg'', rfl⟩ := List.mem_map.1 hg'
          obtain ⟨t', ht', k, hk', ek⟩ := (hm l (List.mem_cons_self ..)).2 e
          obtain ⟨t0, ht0, rfl⟩ := List.mem_map.1 ht'
          have := ht t0 ht0 k hk' t (by rw [ek]; exact hl) g'' (K.own t g'' hg'')
          exact fun h => this (export_ty_rnd.1 (of_decide_eq_true h))
  rw [key m hk, hf]
  unfold PSeg.start
  cases hcg : s'.export.containGates with
  | false => rw [K.isKind _ hcg]; rfl
  | true => simp [gather_eq, atLeaf, hs', funext shift_zero]

/-- Same gates, with the random ones in the same order. -/
structure LayerSim (l l' : PLayer F) : Prop where
  inVars : l.inVars = l'.inVars
  outVars : l.outVars = l'.outVars
  mul : l.mul.Perm l'.mul
  add : l.add.Perm l'.add
  cst : l.cst.Perm l'.cst
  mulR : l.mul.filter (fun g => g.ty = .rnd) = l'.mul.filter (fun g => g.ty = .rnd)
  addR : l.add.filter (fun g => g.ty = .rnd) = l'.add.filter (fun g => g.ty = .rnd)
  cstR : l.cst.filter (fun g => g.ty = .rnd) = l'.cst.filter (fun g => g.ty = .rnd)

omit [Field F] in
theorem fillGates_sim (ρ : Nat → F) (n : Nat) {a b : List (PGate F)} (h : a.Perm b)
    (hr : a.filter (fun g => g.ty = .rnd) = b.filter (fun g => g.ty = .rnd)) :
    (fillGates ρ n a).1.Perm (fillGates ρ n b).1 ∧ (fillGates ρ n a).2 = (fillGates ρ n b).2 := by
  refine ⟨(fillGates_perm ρ n a).trans (List.Perm.trans ?_ (fillGates_perm ρ n b).symm), ?_⟩
  · rw [hr]
    exact (h.filter _).append_right _
  · rw [fillGates_count, fillGates_count, h.countP_eq]

/-- The same gates in another order. -/
def LayerPerm (l l' : PLayer F) : Prop := l.mul.Perm l'.mul ∧ l.add.Perm l'.add ∧ l.cst.Perm l'.cst

theorem fillLayers_sim (ρ : Nat → F) : ∀ (ls ls' : List (PLayer F)) (n : Nat), List.Forall₂ LayerSim ls ls' →
    List.Forall₂ LayerPerm (fillLayers ρ n ls) (fillLayers ρ n ls')
  | [], _, n, h => by cases h; exact .nil
  | l :: r, _, n, .cons (b := l') (l₂ := r') h hr => by
    obtain ⟨m1, m2⟩ := fillGates_sim ρ n h.mul h.mulR
    obtain ⟨a1, a2⟩ := fillGates_sim ρ (fillGates ρ n l.mul).2 h.add h.addR
    obtain ⟨c1, c2⟩ := fillGates_sim ρ (fillGates ρ (fillGates ρ n l.mul).2 l.add).2 h.cst h.cstR
    rw [m2] at a1 a2
    rw [m2, a2] at c1 c2
    have e : (fillLayer ρ n l).2 = (fillLayer ρ n l').2 := by
      simp only [fillLayer]; rw [m2, a2]; exact c2
    have hh := fillLayers_sim ρ r r' (fillLayer ρ n l).2 hr
    rw [fillLayers, fillLayers]
    refine .cons ⟨m1, ?_, ?_⟩ ?_
    · simp only [fillLayer]; rw [m2]; exact a1
    · simp only [fillLayer]; rw [m2, a2]; exact c1
    · rw [← e]; exact hh

theorem evaluate_perm {l l' : PLayer F} (h : LayerPerm l l') (pub w : Nat → Nat → F) :
    l.toLayer.evaluate pub w = l'.toLayer.evaluate pub w := by
  classical
  funext p k
  obtain ⟨mid, h1, h2⟩ := C19_evaluate pub w k [l.toLayer]
  obtain ⟨mid', h1', h2'⟩ := C19_evaluate pub w k [l'.toLayer]
  have h2 : l.toLayer.evaluate pub w p k = mid p k := h2 p
  have h2' : l'.toLayer.evaluate pub w p k = mid' p k := h2' p
  rw [h2, h2', h1 p, h1' p]
  obtain ⟨a, b, c⟩ := h
  congr 1
  congr 1
  · congr 1
    · exact (((a.map _).filter _).map _).sum_eq
    · exact (((b.map _).filter _).map _).sum_eq
  · exact (((c.map _).filter _).map _).sum_eq

theorem evalCircuit_perm (pub : Nat → Nat → F) {ls ls' : List (PLayer F)} (h : List.Forall₂ LayerPerm ls ls') :
    ∀ w, evalCircuit pub (ls.map PLayer.toLayer) w = evalCircuit pub (ls'.map PLayer.toLayer) w := by
  induction h with
  | nil => intro w; rfl
  | cons h _ ih =>
    intro w
    simp only [List.map_cons, evalCircuit]
    rw [evaluate_perm h]
    exact ih _

omit [Field F] in
theorem layerSim_refl (l : PLayer F) : LayerSim l l :=
  ⟨rfl, rfl, .refl _, .refl _, .refl _, rfl, rfl, rfl⟩

theorem flatten_sim (c : Nested F) (hc : c.Ok) (ht : c.TopCoins) {id : Nat} {l l' : PLayer F}
    (h : FlatLayer (c.segs.map Sg.export) id l) (h' : FlatLayer (c.segs.map Sg.export) id l') : LayerSim l l' := by
  obtain ⟨s, hs, i1, o1, m1, a1, c1⟩ := flatLayer_perm c hc h
  obtain ⟨s', hs', i2, o2, m2, a2, c2⟩ := flatLayer_perm c hc h'
  rw [hs] at hs'; cases hs'
  obtain ⟨_, d, lv, _, hsc, rfl⟩ := h
  obtain ⟨_, d', lv', _, hsc', rfl⟩ := h'
  have r : ∀ K : Kind, (gather (c.segs.map Sg.export) K.p lv).filter (fun g => g.ty = .rnd) =
      (gather (c.segs.map Sg.export) K.p lv').filter (fun g => g.ty = .rnd) := by
    intro K
    obtain ⟨t, ht1, e⟩ := gather_rnd c hc ht K hsc
    obtain ⟨t', ht1', e'⟩ := gather_rnd c hc ht K hsc'
    rw [ht1] at ht1'; cases ht1'
    rw [e, e']
  exact ⟨i1.trans i2.symm, o1.trans o2.symm, m1.trans m2.symm, a1.trans a2.symm, c1.trans c2.symm, r .mul, r .add,
    r .cst⟩

/-- **C81, prover and verifier agree.** If only the layers' own segments have random gates, any two
flattenings compute the same from the same coins. -/
theorem C81_same_coins_partial (c : Nested F) (hc : c.Ok) (ht : c.TopCoins) {ls ls' : List (PLayer F)}
    (h : Flatten c ls) (h' : Flatten c ls') (ρ : Nat → F) (pub w : Nat → Nat → F) :
    evalCircuit pub (finish ρ ls) w = evalCircuit pub (finish ρ ls') w := by
  have key : ∀ (ids : List Nat) (ls ls' : List (PLayer F)),
      List.Forall₂ (FlatLayer (c.segs.map Sg.export)) ids ls →
      List.Forall₂ (FlatLayer (c.segs.map Sg.export)) ids ls' → List.Forall₂ LayerSim ls ls' := by
    intro ids
    induction ids with
    | nil => intro ls ls' h h'; cases h; cases h'; exact .nil
    | cons id r ih =>
      intro ls ls' h h'
      cases h with
      | cons h1 h2 =>
        cases h' with
        | cons h1' h2' => exact .cons (flatten_sim c hc ht h1 h1') (ih _ _ h2 h2')
  have hsim := key _ _ _ h h'
  have hpre : List.Forall₂ LayerSim (preprocess ls) (preprocess ls') := by
    cases hsim with
    | nil => exact .nil
    | @cons l l' r r' h0 hr =>
      rw [preprocess, preprocess]
      have e : l.mul.isEmpty = l'.mul.isEmpty := by
        have := h0.mul.length_eq
        cases hm : l.mul <;> cases hm' : l'.mul <;> simp_all
      rw [e, h0.inVars]
      split_ifs
      · exact .cons h0 hr
      · exact .cons (layerSim_refl _) (.cons h0 hr)
  exact evalCircuit_perm pub (fillLayers_sim ρ _ _ 0 hpre) w

/-! ### Where it fails -/

/-- Two nested segments, each with a random gate. -/
def twoCoins (F : Type) : Nested F :=
  ⟨[⟨2, 2, [], [⟨[0], 0, .rnd⟩], [], []⟩, ⟨2, 2, [], [⟨[1], 0, .rnd⟩], [], [(0, [(0, 0)])]⟩], [1]⟩

omit [Field F] in
theorem twoCoins_ok : (twoCoins F).Ok ∧ (twoCoins F).PubConst := by
  refine ⟨⟨fun id s hs => ?_, ?_, ?_, by simp [twoCoins]⟩, ?_⟩
  · match id with
    | 0 =>
      cases hs
      exact ⟨⟨1, rfl⟩, ⟨1, rfl⟩, by simp, by simp, by simp, by simp [Sg.own], by simp [Sg.own], by simp⟩
    | 1 =>
      cases hs
      exact ⟨⟨1, rfl⟩, ⟨1, rfl⟩, by simp, by simp, by simp, by simp [Sg.own], by simp [Sg.own], by simp [twoCoins]⟩
    | n + 2 => simp [twoCoins] at hs
  · simp [twoCoins]
  · simp [twoCoins]
  · simp [Nested.PubConst, twoCoins]

theorem twoCoins_scan (m : Leaves) (h : m.Perm [(1, [(0, 0)]), (0, [(0, 0)])]) :
    Scan ((twoCoins F).segs.map Sg.export) 2 1 m := by
  refine ⟨_, [(1, [(0, 0)]), (0, [(0, 0)])], rfl, ⟨[(0, [(0, 0)])], ?_, ?_⟩, h.symm⟩
  · exact ⟨_, [(0, [(0, 0)])], rfl, rfl, .refl _⟩
  · rfl

/-- **C81, where it fails.** If a random gate is in a segment and another in its child, the order in which
they get their coins depends on the order of a hash map, which differs between runs: a prover and a
verifier who draw the same coins can have different circuits. -/
theorem C81_coin_order : ∃ c : Nested F, c.Ok ∧ c.PubConst ∧ ∃ ls ls', Flatten c ls ∧ Flatten c ls' ∧
    ∃ (ρ : Nat → F) (pub w : Nat → Nat → F),
      evalCircuit pub (finish ρ ls) w 0 0 ≠ evalCircuit pub (finish ρ ls') w 0 0 := by
  refine ⟨twoCoins F, twoCoins_ok.1, twoCoins_ok.2, _, _,
    .cons ⟨_, 2, _, rfl, twoCoins_scan _ (.refl _), rfl⟩ .nil,
    .cons ⟨_, 2, _, rfl, twoCoins_scan _ (List.Perm.swap _ _ _), rfl⟩ .nil,
    fun n => if n = 0 then 1 else 0, fun _ _ => 0, fun i _ => if i = 0 then 1 else 0, ?_⟩
  simp [finish, preprocess, gather, twoCoins, Sg.export, fillLayers, fillLayer, fillGates, PGate.shift, Gt.export,
    Cf.export, evalCircuit, Layer.evaluate, PLayer.toLayer, PGate.toAdd, addAt]

/-- **C81, where it fails.** A public input as the coefficient of an addition is accepted by the compiler's
own check and lost in the export. The compiler does not make such gates (C74). -/
theorem C81_public_input_lost : ∃ c : Nested F, c.Ok ∧ c.NoCoins ∧ ∃ ls, Flatten c ls ∧
    ∀ ρ, ∃ pub w : Nat → Nat → F,
      evalCircuit pub (finish ρ ls) w 0 0 ≠ c.run (fun i => pub i 0) c.layers (fun i => w i 0) 0 := by
  let c : Nested F := ⟨[⟨2, 2, [], [⟨[0], 0, .pub 0⟩], [], []⟩], [0]⟩
  refine ⟨c, ⟨fun id s hs => ?_, by simp [c], by simp [c], by simp [c]⟩, by simp [Nested.NoCoins, c, Sg.own], _,
    .cons ⟨_, 1, [(0, [(0, 0)])], rfl, ⟨_, [(0, [(0, 0)])], rfl, rfl, .refl _⟩, rfl⟩ .nil,
    fun ρ => ⟨fun _ _ => 1, fun _ _ => 1, ?_⟩⟩
  · match id with
    | 0 =>
      cases hs
      exact ⟨⟨1, rfl⟩, ⟨1, rfl⟩, by simp, by simp, by simp, by simp [Sg.own], by simp [Sg.own], by simp⟩
    | n + 1 => simp [c] at hs
  · simp [finish, preprocess, gather, c, Sg.export, fillLayers, fillLayer, fillGates, PGate.shift, Gt.export,
      Cf.export, evalCircuit, Layer.evaluate, PLayer.toLayer, PGate.toAdd, addAt, Nested.run, Nested.wire, addsTo,
      Sg.own, Cf.fixed]

/-! ### The hypotheses can be met -/

/-- A product and a constant in a segment which is put twice into the one layer, which adds a public
input. -/
def demoNested (F : Type) [Field F] : Nested F :=
  ⟨[⟨2, 2, [⟨[0, 1], 1, .const 3⟩], [], [⟨[], 0, .const 1⟩], []⟩,
    ⟨4, 4, [], [⟨[3], 0, .const 2⟩], [⟨[], 3, .pub 0⟩], [(0, [(0, 0), (2, 2)])]⟩], [1]⟩

theorem demoNested_ok : (demoNested F).Ok ∧ (demoNested F).PubConst ∧ (demoNested F).NoCoins ∧
    (demoNested F).TopCoins := by
  refine ⟨⟨fun id s hs => ?_, ?_, ?_, by simp [demoNested]⟩, ?_, ?_, ?_⟩
  · match id with
    | 0 =>
      cases hs
      exact ⟨⟨1, rfl⟩, ⟨1, rfl⟩, by simp, by simp, by simp, by simp [Sg.own], by simp [Sg.own], by simp⟩
    | 1 =>
      cases hs
      exact ⟨⟨2, rfl⟩, ⟨2, rfl⟩, by simp, by simp, by simp, by simp [Sg.own], by simp [Sg.own], by simp [demoNested]; omega⟩
    | n + 2 => simp [demoNested] at hs
  · simp [demoNested]
  · simp [demoNested]
  · simp [Nested.PubConst, demoNested]
  · simp [Nested.NoCoins, demoNested, Sg.own]
  · simp [Nested.TopCoins, demoNested, Sg.own]

/-- Wire 3: the second copy's product and the public input. -/
example : (demoNested ℚ).run (fun _ => 7) (demoNested ℚ).layers (fun i => i) 3 = 3 * (2 * 3) + 7 := by
  simp [demoNested, Nested.run, Nested.wire, addsTo, Sg.own, Cf.fixed]
  norm_num

example (ls : List (PLayer ℚ)) (h : Flatten (demoNested ℚ) ls) :
    evalCircuit (fun _ _ => 7) (finish (fun _ => 0) ls) (fun i _ => (i : ℚ)) 3 0 = 25 := by
  rw [C81_meaning _ demoNested_ok.1 demoNested_ok.2.1 demoNested_ok.2.2.1 h]
  simp [demoNested, Nested.run, Nested.wire, addsTo, Sg.own, Cf.fixed]
  norm_num

end JST.Export
