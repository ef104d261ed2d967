import Verif.Compiler.CombineValid
import Verif.Compiler.LiveValid
import Verif.Compiler.LayeringEval
import Verif.Compiler.DedupProofs
import Mathlib.Data.Fintype.BigOperators
import Mathlib.Data.Fintype.EquivFin
import Mathlib.Data.Fintype.Pi
import Mathlib.Algebra.Field.Rat
import Mathlib.Algebra.Field.ZMod

/-!
# Property C74: from quadratic expressions to layers

What a circuit of expressions means is specified in `Verif/Spec/Flat.lean`, what layers mean in
`Verif/Spec/Segments.lean`.
-/

set_option linter.unusedSectionVars false

namespace JST.Props

open JST JST.Comp JST.Circ JST.Flat

section
variable {F R : Type} [Field F] [DecidableEq F] [Ord F]

/-- `compile/mod.rs:175-299` for the main circuit of a program without calls, at optimization levels
1 and 2: `k1` rounds of the optimizer, the constraints become one output, `k2` rounds, layers,
merged and sorted gates. -/
def lowered (k1 k2 : Nat) (c : DCircuit F R) : DCircuit F (R ⊕ Nat × Nat) := prunes k2 (combine (prunes k1 c))

def layersFor (k1 k2 : Nat) (c : DCircuit F R) : Option (List (Seg F (R ⊕ Nat × Nat))) :=
  (layerize (lowered k1 k2 c)).map fun segs => segs.map fun s => sortSeg (dedupSeg s)

/-- The wires before the first layer. -/
def wiresFor (k1 k2 : Nat) (c : DCircuit F R) (ins : List F) : Nat → F :=
  inputWires (prunesIns k2 (combine (prunes k1 c)) (prunesIns k1 c ins))

theorem prunes_cons_length (k : Nat) (c : DCircuit F R) : (prunes k c).cons.length = c.cons.length := by
  induction k generalizing c with
  | zero => rfl
  | succ k ih =>
    rw [prunes, ih]
    unfold pruneD reassignOuts
    split
    · simp [removeUnreachable]
    · simp [removeUnreachable]

theorem evalSegs_map (E : Env F R) (f : Seg F R → Seg F R) (hf : ∀ s w p, (f s).eval E w p = s.eval E w p)
    (segs : List (Seg F R)) (w : Nat → F) : evalSegs E (segs.map f) w = evalSegs E segs w := by
  induction segs generalizing w with
  | nil => rfl
  | cons s r ih =>
    simp only [List.map_cons, evalSegs]
    rw [ih, show (f s).eval E w = s.eval E w from funext (hf s w)]

theorem fit_map (f : Seg F R → Seg F R) (hf : ∀ s, s.WF → (f s).WF) (hi : ∀ s, (f s).numIn = s.numIn)
    (ho : ∀ s, (f s).numOut = s.numOut) (segs : List (Seg F R)) (n : Nat) (h : Fit n segs) : Fit n (segs.map f) := by
  induction segs generalizing n with
  | nil => trivial
  | cons s r ih => exact ⟨(hi s).trans h.1, hf s h.2.1, by rw [ho]; exact ih _ h.2.2⟩

theorem coins_map (f : Seg F R → Seg F R) (hf : ∀ s, (f s).coins.Perm s.coins) (segs : List (Seg F R)) :
    ((segs.map f).flatMap Seg.coins).Perm (segs.flatMap Seg.coins) := by
  induction segs with
  | nil => exact List.Perm.refl _
  | cons s r ih => simp only [List.map_cons, List.flatMap_cons]; exact (hf s).append ih

/-- Fewer constraints than the characteristic of the field. -/
def FewConstraints (F : Type) [Field F] (n : Nat) : Prop := ∀ k, 0 < k → k ≤ n → (k : F) ≠ 0

/-- What the layers compute. -/
theorem layersFor_ok (k1 k2 : Nat) {c : DCircuit F R} (hv : c.Valid) (hfew : FewConstraints F c.cons.length) :
    ∃ segs, layersFor k1 (k2 + 1) c = some segs ∧ segs ≠ [] ∧
      Fit (nextPowerOfTwo (lowered k1 (k2 + 1) c).numInputs) segs ∧
      (c.coins.Nodup → (segs.flatMap Seg.coins).Nodup) ∧
      (c.cons = [] → ∀ E (ins : List F), ins.length = c.numInputs → ∀ k, k < c.outputs.length →
        evalSegs E segs (wiresFor k1 (k2 + 1) c ins) k = (DCircuit.outs (Env.left E) c ins).getD k 0) ∧
      (c.cons ≠ [] → ∃ rd : Nat → Nat, ∀ E (ins : List F), ins.length = c.numInputs →
        evalSegs E segs (wiresFor k1 (k2 + 1) c ins) 0 = ∑ v ∈ (prunes k1 c).cons.toFinset,
          E.rnd (.inr (rd v, v)) * look (DCircuit.values (Env.left E) (prunes k1 c) (prunesIns k1 c ins)) v ∧
        ∀ k, k < c.outputs.length →
          evalSegs E segs (wiresFor k1 (k2 + 1) c ins) (k + 1) = (DCircuit.outs (Env.left E) c ins).getD k 0) := by
  obtain ⟨v1, -, s1, l1, cn1, e1⟩ := prunes_ok k1 hv
  have hcount : ∀ v ∈ (prunes k1 c).cons, ((prunes k1 c).cons.count v : F) ≠ 0 := by
    intro v hm
    refine hfew _ (List.count_pos_iff.2 hm) ?_
    rw [← prunes_cons_length k1 c]; exact List.count_le_length
  obtain ⟨v2, cons2, n2, coins2⟩ := combine_valid v1
  obtain ⟨old, out0, out1⟩ := combine_values v1 hcount
  obtain ⟨v3, nd3, s3, l3, cn3, e3⟩ := prunes_ok (k2 + 1) v2
  obtain ⟨segs, hs, hne, hfit, hcoins, -, hval⟩ := layerize_ok v3 (nd3 (by omega))
  have hev : ∀ E w, evalSegs E (segs.map fun s => sortSeg (dedupSeg s)) w = evalSegs E segs w := fun E w =>
    evalSegs_map E _ (fun s w p => by rw [sortSeg_eval, dedupSeg_eval]) segs w
  have hout : ∀ E (ins : List F), ins.length = c.numInputs → ∀ k, k < (combine (prunes k1 c)).outputs.length →
      evalSegs E (segs.map fun s => sortSeg (dedupSeg s)) (wiresFor k1 (k2 + 1) c ins) k =
        (DCircuit.outs E (combine (prunes k1 c)) (prunesIns k1 c ins)).getD k 0 := by
    intro E ins hins k hk
    obtain ⟨hl, -, -⟩ := e1 (Env.left E) ins hins
    obtain ⟨hl', -, ho⟩ := e3 E (prunesIns k1 c ins) (by rw [hl, n2])
    have hk' : k < (lowered k1 (k2 + 1) c).outputs.length := by rw [lowered, l3]; exact hk
    rw [hev, ← ho]
    rw [show evalSegs E segs (wiresFor k1 (k2 + 1) c ins) k = _ from hval E _ hl' k _ (List.getElem?_eq_getElem hk')]
    rw [DCircuit.outs, List.getD_eq_getElem?_getD, List.getElem?_map,
      show (prunes (k2 + 1) (combine (prunes k1 c))).outputs[k]? = _ from List.getElem?_eq_getElem hk']
    rfl
  have hold : ∀ E (ins : List F), ins.length = c.numInputs →
      (prunes k1 c).outputs.map (look (DCircuit.values E (combine (prunes k1 c)) (prunesIns k1 c ins))) =
        DCircuit.outs (Env.left E) c ins := by
    intro E ins hins
    obtain ⟨hl, -, ho⟩ := e1 (Env.left E) ins hins
    rw [← ho, DCircuit.outs]
    refine List.map_congr_left fun x hx => old E _ hl x ?_
    have := v1.outputs x hx; omega
  refine ⟨_, by rw [layersFor]; rw [show layerize (lowered k1 (k2 + 1) c) = some segs from hs]; rfl, by simpa using hne,
    fit_map _ (fun s h => sortSeg_wf (dedupSeg_wf h)) (fun _ => rfl) (fun _ => rfl) segs _ hfit,
    fun hc => ?_, fun hc E ins hins k hk => ?_, fun hc => ?_⟩
  · refine ((coins_map _ (fun s => (sortSeg_coins _).trans (dedupSeg_coins s)) segs).trans hcoins).nodup_iff.2 ?_
    exact s3.nodup (coins2 (s1.nodup hc))
  · have h0 := out0 (cn1.2 hc)
    rw [hout E ins hins k (by rw [h0, l1]; exact hk), DCircuit.outs, h0, hold E ins hins]
  · obtain ⟨a, rd, ha, -, -, hsum⟩ := out1 (fun h => hc (cn1.1 h))
    refine ⟨rd, fun E ins hins => ⟨?_, fun k hk => ?_⟩⟩
    · obtain ⟨hl, -, -⟩ := e1 (Env.left E) ins hins
      rw [hout E ins hins 0 (by rw [ha]; simp), DCircuit.outs, ha]
      exact hsum E _ hl
    · rw [hout E ins hins (k + 1) (by rw [ha]; simpa [l1] using hk), DCircuit.outs, ha, List.map_cons, hold E ins hins]
      rfl

/-- The value of one coin replaced. -/
def Env.set [DecidableEq R] (E : Env F R) (r : R) (t : F) : Env F R := ⟨E.pub, Function.update E.rnd r t⟩

/-- **C74, shape.** On every valid circuit with fewer constraints than the characteristic, the passes
after the second one end without a panic.  The layers fit together, read and write only wires which
exist, have sizes which are powers of two, and no coin is drawn twice. -/
theorem C74_layers_fit (k1 k2 : Nat) {c : DCircuit F R} (hv : c.Valid) (hfew : FewConstraints F c.cons.length) :
    ∃ segs, layersFor k1 (k2 + 1) c = some segs ∧ segs ≠ [] ∧
      Fit (nextPowerOfTwo (lowered k1 (k2 + 1) c).numInputs) segs ∧
      (c.coins.Nodup → (segs.flatMap Seg.coins).Nodup) := by
  obtain ⟨segs, h1, h2, h3, h4, -⟩ := layersFor_ok k1 k2 hv hfew
  exact ⟨segs, h1, h2, h3, h4⟩

/-- **C74, honest provers.** If all constraints hold, the first wire of the last layer is zero
whatever the coins for the constraints are, and the outputs of the circuit are on the wires after
it. -/
theorem C74_accepting (k1 k2 : Nat) {c : DCircuit F R} (hv : c.Valid) (hfew : FewConstraints F c.cons.length)
    (hc : c.cons ≠ []) {segs} (hs : layersFor k1 (k2 + 1) c = some segs) (E : Env F (R ⊕ Nat × Nat)) {ins : List F}
    (hins : ins.length = c.numInputs) :
    (DCircuit.Accepts (Env.left E) c ins → evalSegs E segs (wiresFor k1 (k2 + 1) c ins) 0 = 0) ∧
    ∀ k, k < c.outputs.length →
      evalSegs E segs (wiresFor k1 (k2 + 1) c ins) (k + 1) = (DCircuit.outs (Env.left E) c ins).getD k 0 := by
  obtain ⟨segs', h1, -, -, -, -, h⟩ := layersFor_ok k1 k2 hv hfew
  rw [hs] at h1; cases h1
  obtain ⟨rd, h⟩ := h hc
  obtain ⟨h0, ho⟩ := h E ins hins
  refine ⟨fun ha => ?_, ho⟩
  rw [h0]
  refine Finset.sum_eq_zero fun v hv' => ?_
  have := ((prunes_ok k1 hv).2.2.2.2.2 (Env.left E) ins hins).2.1.2 ha v (List.mem_toFinset.1 hv')
  rw [this, mul_zero]

/-- **C74, a violated constraint.** If some constraint does not hold, there is a coin such that for
all values of the other coins exactly one value of this coin makes the first wire zero. -/
theorem C74_rejecting [DecidableEq R] (k1 k2 : Nat) {c : DCircuit F R} (hv : c.Valid)
    (hfew : FewConstraints F c.cons.length) {segs} (hs : layersFor k1 (k2 + 1) c = some segs)
    (E : Env F R) {ins : List F} (hins : ins.length = c.numInputs) (hno : ¬ DCircuit.Accepts E c ins) :
    ∃ q : Nat × Nat, ∀ E' : Env F (R ⊕ Nat × Nat), Env.left E' = E →
      ∃! t, evalSegs (Env.set E' (.inr q) t) segs (wiresFor k1 (k2 + 1) c ins) 0 = 0 := by
  have hc : c.cons ≠ [] := fun h => hno fun v hv => by rw [h] at hv; cases hv
  obtain ⟨segs', h1, -, -, -, -, h⟩ := layersFor_ok k1 k2 hv hfew
  rw [hs] at h1; cases h1
  obtain ⟨rd, h⟩ := h hc
  have hno' : ¬ DCircuit.Accepts E (prunes k1 c) (prunesIns k1 c ins) := fun h =>
    hno (((prunes_ok k1 hv).2.2.2.2.2 E ins hins).2.1.1 h)
  unfold DCircuit.Accepts at hno'
  push Not at hno'
  obtain ⟨v0, hv0, hne⟩ := hno'
  refine ⟨(rd v0, v0), fun E' hE' => ?_⟩
  have hleft : ∀ t, Env.left (Env.set E' (.inr (rd v0, v0)) t) = E := by
    intro t; rw [← hE']; simp [Env.left, Env.set]
  set val := fun v => look (DCircuit.values E (prunes k1 c) (prunesIns k1 c ins)) v with hval
  have hsplit : ∀ t, evalSegs (Env.set E' (.inr (rd v0, v0)) t) segs (wiresFor k1 (k2 + 1) c ins) 0 =
      t * val v0 + ∑ v ∈ (prunes k1 c).cons.toFinset.erase v0, E'.rnd (.inr (rd v, v)) * val v := by
    intro t
    rw [(h _ ins hins).1, hleft t, ← Finset.add_sum_erase _ _ (List.mem_toFinset.2 hv0)]
    congr 1
    · simp [Env.set, hval]
    · refine Finset.sum_congr rfl fun v hv => ?_
      have : v ≠ v0 := (Finset.mem_erase.1 hv).1
      simp [Env.set, this, hval]
  refine ⟨-(∑ v ∈ (prunes k1 c).cons.toFinset.erase v0, E'.rnd (.inr (rd v, v)) * val v) / val v0, ?_, ?_⟩
  · dsimp only
    rw [hsplit, div_mul_cancel₀ _ hne]; ring
  · intro t ht
    rw [hsplit] at ht
    rw [eq_div_iff hne]
    exact eq_neg_of_add_eq_zero_left ht

/-- The coins of the constraints in a finite set `S` are given by `ρ`, all others by `E`. -/
def Env.draw (E : Env F (R ⊕ Nat × Nat)) (S : Finset (Nat × Nat)) (ρ : S → F) : Env F (R ⊕ Nat × Nat) :=
  ⟨E.pub, fun r => match r with
    | .inl r => E.rnd (.inl r)
    | .inr q => if h : q ∈ S then ρ ⟨q, h⟩ else E.rnd (.inr q)⟩

/-- If exactly one value of one coordinate makes a test succeed, whatever the others are, the test
succeeds for one in `|F|` of all assignments. -/
theorem card_unique {S : Type} [Fintype S] [DecidableEq S] [Fintype F] (P : (S → F) → Prop) [DecidablePred P] (s : S)
    (h : ∀ ρ, ∃! t, P (Function.update ρ s t)) :
    Fintype.card {ρ // P ρ} * Fintype.card F = Fintype.card (S → F) := by
  rw [← Fintype.card_prod]
  refine Fintype.card_congr ⟨fun q => Function.update q.1.1 s q.2,
    fun ρ => (⟨Function.update ρ s (h ρ).choose, (h ρ).choose_spec.1⟩, ρ s), ?_, ?_⟩
  · rintro ⟨⟨ρ, hρ⟩, t⟩
    have hc : (h (Function.update ρ s t)).choose = ρ s := by
      refine ((h (Function.update ρ s t)).choose_spec.2 (ρ s) ?_).symm
      simpa using hρ
    refine Prod.ext (Subtype.ext ?_) (by simp)
    show Function.update (Function.update ρ s t) s _ = ρ
    rw [hc]; simp
  · intro ρ; simp

/-- **C74, the chance of a violated constraint.** When the coins are drawn from a finite field, the
first wire is zero for exactly one in `|F|` of all draws, for every finite set of coins which
contains those of the layers. -/
theorem C74_chance [Fintype F] [DecidableEq R] (k1 k2 : Nat) {c : DCircuit F R} (hv : c.Valid)
    (hfew : FewConstraints F c.cons.length) {segs} (hs : layersFor k1 (k2 + 1) c = some segs)
    (E : Env F (R ⊕ Nat × Nat)) {ins : List F} (hins : ins.length = c.numInputs)
    (hno : ¬ DCircuit.Accepts (Env.left E) c ins) :
    ∃ q, ∀ S : Finset (Nat × Nat), q ∈ S →
      Fintype.card {ρ : S → F // evalSegs (Env.draw E S ρ) segs (wiresFor k1 (k2 + 1) c ins) 0 = 0} * Fintype.card F =
        Fintype.card (S → F) := by
  obtain ⟨q, hq⟩ := C74_rejecting k1 k2 hv hfew hs (Env.left E) hins hno
  refine ⟨q, fun S hS => card_unique (S := S) _ ⟨q, hS⟩ fun ρ => ?_⟩
  obtain ⟨t, ht, hu⟩ := hq (Env.draw E S ρ) rfl
  have e : ∀ t, Env.draw E S (Function.update ρ ⟨q, hS⟩ t) = Env.set (Env.draw E S ρ) (.inr q) t := by
    intro t
    simp only [Env.draw, Env.set, Flat.Env.mk.injEq, true_and]
    funext r
    rcases r with r | r
    · simp
    · by_cases hr : r = q
      · subst hr; simp [hS]
      · by_cases hrS : r ∈ S
        · simp [hr, hrS, Function.update_apply]
        · simp [hr, hrS]
  exact ⟨t, by simpa only [e] using ht, fun t' ht' => hu t' (by simpa only [e] using ht')⟩

/-- **C74, without constraints.** There is no sum of constraints then, and the first wire is an
output of the circuit.  The compiler still expects the first wire to be zero
(`layering/ir_split.rs:496-497`), so an input without any constraint to violate is refused. -/
theorem C74_no_constraint :
    ∃ c : DCircuit ℚ Nat, c.Valid ∧ c.cons = [] ∧ ∃ segs, layersFor 1 1 c = some segs ∧
      ∀ E ins, ins = [1] → DCircuit.Accepts (Env.left E) c ins ∧ evalSegs E segs (wiresFor 1 1 c ins) 0 ≠ 0 := by
  let c : DCircuit ℚ Nat := { insns := [], cons := [], outputs := [1], numInputs := 1 }
  have hv : c.Valid := ⟨trivial, by simp [c], by simp [c]⟩
  obtain ⟨segs, h1, -, -, -, h, -⟩ := layersFor_ok 1 0 hv (by intro k h1 h2; simp [c] at h2; omega)
  refine ⟨c, hv, rfl, segs, h1, fun E ins hins => ⟨by intro v hv; simp [c] at hv, ?_⟩⟩
  subst hins
  rw [h rfl E [1] rfl 0 (by simp [c])]
  simp [DCircuit.outs, c, DCircuit.values, run, look]

theorem fit_wf {S : Type} : ∀ {segs : List (Seg F S)} {n : Nat}, Fit n segs → ∀ s ∈ segs, s.WF
  | [], _, _, _, h => by simp at h
  | _ :: _, _, hf, s, h => by
    rcases List.mem_cons.1 h with rfl | h
    · exact hf.2.1
    · exact fit_wf hf.2.2 s h

theorem Mergeable.symm {S : Type} {g h : Gate F S} (H : Mergeable g h) : Mergeable h g :=
  ⟨H.1.symm, H.2.1.symm, H.2.2.2, H.2.2.1⟩

theorem sort_distinct {S : Type} {l : List (Gate F S)} (h : l.Pairwise fun g h => ¬ Mergeable g h) :
    (sortGates l).Pairwise fun g h => ¬ Mergeable g h :=
  ((sortGates_perm l).pairwise_iff fun H H' => H (Mergeable.symm H')).2 h

/-- **C74, merging is complete and loses no wire.** In every layer no two gates with constant
coefficients from the same inputs to the same wire are left, and the wires which had a gate still have
one. -/
theorem C74_merged [Std.TransOrd F] (k1 k2 : Nat) {c : DCircuit F R} (hv : c.Valid)
    {segs} (hs : layersFor k1 (k2 + 1) c = some segs) :
    (∀ s ∈ segs, (s.muls.Pairwise fun g h => ¬ Mergeable g h) ∧ (s.adds.Pairwise fun g h => ¬ Mergeable g h) ∧
      s.csts.Pairwise fun g h => ¬ Mergeable g h) ∧
    ∃ raw, layerize (lowered k1 (k2 + 1) c) = some raw ∧
      List.Forall₂ (fun s t : Seg F (R ⊕ Nat × Nat) => ∀ p, hasGate t p = hasGate s p) raw segs := by
  unfold layersFor at hs
  obtain ⟨raw, hr, rfl⟩ := Option.map_eq_some_iff.1 hs
  refine ⟨fun s hm => ?_, raw, hr, ?_⟩
  · obtain ⟨t, -, rfl⟩ := List.mem_map.1 hm
    refine ⟨sort_distinct (dedupGates_distinct t.muls true), sort_distinct (dedupGates_distinct t.adds true),
      sort_distinct (sort_distinct ?_)⟩
    refine List.pairwise_append.2 ⟨dedupGates_distinct t.csts false, ?_, fun g hg h hh hm => ?_⟩
    · refine List.pairwise_map.2 ?_
      refine ((List.nodup_range (n := t.numOut)).filter _).imp fun hne hm => hne hm.2.1
    · obtain ⟨q, hq, rfl⟩ := List.mem_map.1 hh
      have hq := (List.mem_filter.1 hq).2
      rw [Bool.and_eq_true] at hq
      have : hasGate ({ t with
          muls := dedupGates t.muls true
          adds := dedupGates t.adds true
          csts := dedupGates t.csts false } : Seg F (R ⊕ Nat × Nat)) q = true :=
        (hasGate_iff _ _).2 ⟨g, Or.inr (Or.inr hg), hm.2.1⟩
      rw [this] at hq
      simp at hq
  · rw [List.forall₂_map_right_iff]
    obtain ⟨v1, -⟩ := prunes_ok k1 hv
    obtain ⟨v2, -⟩ := combine_valid v1
    obtain ⟨v3, nd3, -⟩ := prunes_ok (k2 + 1) v2
    obtain ⟨raw', hr', -, hfit, -⟩ := layerize_ok v3 (nd3 (by omega))
    obtain rfl : raw' = raw := Option.some.inj (hr'.symm.trans hr)
    refine List.forall₂_same.2 fun s hs p => ?_
    rw [Bool.eq_iff_iff, ← dedupSeg_hasGate (fit_wf hfit s hs) p, hasGate_iff, hasGate_iff]
    unfold sortSeg
    simp only [(sortGates_perm _).mem_iff]

/-- A circuit which meets the hypotheses: `x·y = 6`, twice, and `x + 3·y` is an output. -/
example : ∃ c : DCircuit ℚ Nat, c.Valid ∧ c.cons.length = 2 ∧ FewConstraints ℚ c.cons.length ∧
    (∀ E, DCircuit.Accepts E c [2, 3]) ∧ (∀ E, ¬ DCircuit.Accepts E c [2, 2]) ∧ c.coins.Nodup := by
  refine ⟨⟨[.iv [⟨1, .quad 1 2⟩, ⟨-6, .const⟩] [], .iv [⟨1, .lin 1⟩, ⟨3, .lin 2⟩] []], [3, 3], [4], 2⟩, ⟨?_, ?_, ?_⟩, rfl, ?_, ?_, ?_, ?_⟩
  · simp [DInsn.ValidAll, VarSpec.Below]
  · simp
  · simp
  · intro k h1 _; exact_mod_cast (by omega : k ≠ 0)
  · intro E v hv
    have : v = 3 := by simpa using hv
    subst this
    norm_num [DCircuit.values, run, look, DInsn.val, Expr.eval, Term.eval, VarSpec.eval]
  · intro E h
    have := h 3 (by simp)
    norm_num [DCircuit.values, run, look, DInsn.val, Expr.eval, Term.eval, VarSpec.eval] at this
  · simp [DCircuit.coins, DInsn.coins]

end

end JST.Props
