import Verif.Remainder.Guarded
import Verif.Remainder.CompleteWhole

/-!
# The Remainder backend: acceptance and the reference
-/

namespace JST.Remainder

variable {p : Nat}

/-- The layer with the width of the proof. -/
theorem withBits_layers (m : Model) (obs : String → Option Nat) :
    ∃ g : Layer → Layer, (m.withBits obs).layers = m.layers.map g ∧
      ∀ l, ∃ b, g l = { l with nBits := b } ∧ (l.nBits ≠ none → b ≠ none) := by
  refine ⟨_, rfl, fun l => ?_⟩
  cases h : obs l.name with
  | none => exact ⟨l.nBits, by simp [h], id⟩
  | some b => exact ⟨some b, by simp [h], by simp⟩

theorem refStep_bits (α : Int) (l : Layer) (b : Option Nat) (st : RSt) :
    refStep α { l with nBits := b } st = refStep α l st := by
  cases l; rfl

theorem refSteps_map (α : Int) (g : Layer → Layer) (hg : ∀ l, ∃ b, g l = { l with nBits := b }) :
    ∀ (ls : List Layer) (st : RSt), refSteps α (ls.map g) st = refSteps α ls st
  | [], _ => rfl
  | l :: ls, st => by
    obtain ⟨b, hb⟩ := hg l
    simp only [List.map_cons, refSteps]
    rw [hb, refStep_bits]
    congr 1
    funext s
    exact refSteps_map α g hg ls s

/-- The reference ignores the widths. -/
theorem refModel_withBits (m : Model) (obs : String → Option Nat) (input : List Int) :
    refModel (m.withBits obs) input = refModel m input := by
  obtain ⟨g, h1, h2⟩ := withBits_layers m obs
  have := refSteps_map m.alpha g (fun l => (h2 l).imp fun _ h => h.1) m.layers (refInit m input)
  unfold refModel
  rw [h1]
  show (if _ then _ else _) = _
  have e : refInit (m.withBits obs) input = refInit m input := rfl
  have ea : (m.withBits obs).alpha = m.alpha := rfl
  have eo : (m.withBits obs).outputNames = m.outputNames := rfl
  rw [e, ea, eo, this]

theorem guarded_map (out : String) (g : Layer → Layer) (hg : ∀ l, ∃ b, g l = { l with nBits := b }) :
    ∀ (ls : List Layer), Guarded out ls → Guarded out (ls.map g)
  | [], _ => trivial
  | l :: ls, h => by
    refine ⟨?_, guarded_map out g hg ls h.2⟩
    obtain ⟨b, hb⟩ := hg l
    rw [hb]
    intro hr
    obtain ⟨t, ht, h⟩ := h.1 hr
    refine ⟨t, ht, h.imp_right ?_⟩
    rintro ⟨l', hl', ho, hi⟩
    obtain ⟨b', hb'⟩ := hg l'
    exact ⟨g l', List.mem_map_of_mem hl', by rw [hb']; exact ho, by rw [hb']; exact hi⟩

theorem getD_inI64 {l : List Int} (he : ∀ v ∈ l, InI64 v) (i : Nat) : InI64 (l.getD i 0) := by
  by_cases hlt : i < l.length
  · have : l.getD i 0 = l[i] := by simp [hlt]
    rw [this]; exact he _ (List.getElem_mem hlt)
  · have : l.getD i 0 = 0 := by simp [List.getD, List.getElem?_eq_none (by omega : l.length ≤ i)]
    rw [this]
    unfold InI64; norm_num

/-- Soundness for guarded models. -/
theorem accepts_sound [Fact p.Prime] {m : Model} {input expected : List Int} {obs : String → Option Nat}
    (h : Accepts p m input expected obs) (hp : 2 ^ 100 < p) (hα : m.alpha = 2 ^ m.exponent)
    (hnd : (m.layers.map (·.name)).Nodup) (hout : (m.layers.flatMap (·.outputs)).Nodup)
    (hb : ∀ l ∈ m.layers, (l.op = .relu ∨ l.op = .maxPool) → l.nBits ≠ none)
    (hg : Guarded (m.outputNames.headD "") m.layers) (he : ∀ v ∈ expected, InI64 v)
    {nv : Nat} {f : Nat → Int} (hr : refModel m input = .ok (nv, f)) :
    nextPow2 expected.length = 2 ^ nv ∧ ∀ i < 2 ^ nv, expected.getD i 0 = f i := by
  obtain ⟨pub, C, hpub, hC, hold⟩ := h
  obtain ⟨g, hl, hgl⟩ := withBits_layers m obs
  have hg0 : ∀ l, ∃ b, g l = { l with nBits := b } := fun l => (hgl l).imp fun _ h => h.1
  have hnames : ((m.withBits obs).layers.map (·.name)).Nodup := by
    rw [hl, List.map_map]
    convert hnd using 2
    funext l
    obtain ⟨b, hb⟩ := hg0 l
    simp [hb]
  have houts : ((m.withBits obs).layers.flatMap (·.outputs)).Nodup := by
    rw [hl, List.flatMap_map]
    convert hout using 2
    funext l
    obtain ⟨b, hb⟩ := hg0 l
    simp [hb]
  have hbits : ∀ l ∈ (m.withBits obs).layers, (l.op = .relu ∨ l.op = .maxPool) → l.nBits ≠ none := by
    rw [hl]
    intro l' hl' ho
    obtain ⟨l, hl, rfl⟩ := List.mem_map.1 hl'
    obtain ⟨b, e, hb'⟩ := hgl l
    rw [e] at ho ⊢
    exact hb' (hb l hl ho)
  obtain ⟨env, inp, bs, st, vs, ps, node, ov, P⟩ := parts_of_holds hpub hC hold hnames
  obtain ⟨t, ht⟩ := P.plan
  refine parts_sound P hp hα hbits ?_ he (by rw [refModel_withBits]; exact hr)
  refine guarded_small hp P.steps P.pubs (plan_planned ht hbits) P.hold P.ok P.vals P.out ?_ houts ?_
  · intro i hi
    exact ⟨_, getD_inI64 he i, P.eval i hi⟩
  · rw [hl]; exact guarded_map _ g hg0 _ hg

/-- Completeness: the reference output is accepted. -/
theorem accepts_complete {m : Model} {input expected : List Int}
    (hpub : ∃ pub, publicShreds m input expected = .ok pub)
    (hC : ∃ C, build m (nextPow2 input.length) = .ok C)
    (hnd : (m.layers.map (·.name)).Nodup) (hα : m.alpha = 2 ^ m.exponent)
    {nv : Nat} {f : Nat → Int} (hr : refModel m input = .ok (nv, f))
    (hbd : BoundedSteps m.exponent m.alpha m.layers (refInit m input))
    (hlen : nextPow2 expected.length = 2 ^ nv) (hexp : ∀ i < 2 ^ nv, expected.getD i 0 = f i) :
    Accepts p m input expected (fun _ => none) := by
  obtain ⟨pub, hpub⟩ := hpub
  obtain ⟨C, hC⟩ := hC
  have e : m.withBits (fun _ => none) = m := by simp [Model.withBits]
  exact ⟨pub, C, by rw [e]; exact hpub, by rw [e]; exact hC, holds_of_ref hpub hC hnd hα hr hbd hlen hexp⟩

end JST.Remainder
