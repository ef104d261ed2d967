import Verif.Remainder.Free

/-!
# The Remainder backend: output vectors, and acceptance of concrete cases
-/

namespace JST.Remainder

variable {p : Nat}

theorem padded_eq {e : List Int} {nv : Nat} {f : Nat → Int} :
    padded e = (List.range (2 ^ nv)).map f ↔ nextPow2 e.length = 2 ^ nv ∧ ∀ i < 2 ^ nv, e.getD i 0 = f i := by
  unfold padded
  constructor
  · intro h
    have hl := congrArg List.length h
    simp only [List.length_map, List.length_range] at hl
    refine ⟨hl, fun i hi => ?_⟩
    have := congrArg (fun l => l[i]?) h
    simpa [List.getElem?_map, List.getElem?_range, hl, hi] using this
  · rintro ⟨hl, h⟩
    rw [hl]
    exact List.map_congr_left fun i hi => h i (List.mem_range.1 hi)

theorem refOutput_ok {m : Model} {input out : List Int} (h : refOutput m input = .ok out) :
    ∃ nv f, refModel m input = .ok (nv, f) ∧ out = (List.range (2 ^ nv)).map f := by
  simp only [refOutput, bind_ok] at h
  obtain ⟨⟨nv, f⟩, h1, h2⟩ := h
  exact ⟨nv, f, h1, (Except.ok.inj h2).symm⟩

/-- `BoundedSteps` as a check, for models without MaxPool. -/
def boundedCheck (e : Nat) (alpha : Int) : List Layer → RSt → Bool
  | [], _ => true
  | l :: ls, st => decide (l.op ≠ .maxPool) && (decide (l.op ≠ .relu) ||
      match l.nBits, l.inputs[0]?.bind st.val with
      | some b, some (nv, f) => decide (∀ i < 2 ^ nv, -2 ^ (max (b - e) 1) < f i ∧ f i < 2 ^ (max (b - e) 1))
      | _, _ => true) &&
    match refStep alpha l st with
    | .ok st' => boundedCheck e alpha ls st'
    | .error _ => true

theorem boundedCheck_ok {e : Nat} {alpha : Int} : ∀ {ls : List Layer} {st : RSt},
    boundedCheck e alpha ls st = true → BoundedSteps e alpha ls st
  | [], _, _ => trivial
  | l :: ls, st, h => by
    simp only [boundedCheck, Bool.and_eq_true, Bool.or_eq_true, decide_eq_true_eq] at h
    obtain ⟨⟨h1, h2⟩, h3⟩ := h
    refine ⟨?_, ?_⟩
    · intro b hb x nv f hx hf
      refine ⟨fun ho => ?_, fun ho => absurd ho h1⟩
      have := h2.resolve_left (by simpa using ho)
      rw [hb, hx] at this
      simpa only [Option.bind_some, hf, decide_eq_true_eq] using this
    · intro st' hs
      rw [hs] at h3
      exact boundedCheck_ok h3

/-- Acceptance from values: `tbl` has the public ones. -/
theorem accepts_of {m : Model} {input e : List Int} {C : Circuit} (tbl : SName → List Int)
    (env : SName → Nat → ZMod p) (hC : (build m (nextPow2 input.length)).toOption = some C)
    (hpub : (publicShreds m input e).toOption.map (fun pub => C.shreds.all fun s => !s.pub ||
      match pub s.name with
      | some v => decide (v.1 = 2 ^ s.nv) && decide ((List.range v.1).map v.2 = tbl s.name)
      | none => false) = some true)
    (henv : ∀ s ∈ C.shreds, s.pub = true → ∀ i < 2 ^ s.nv, env s.name i = (((tbl s.name).getD i 0 : Int) : ZMod p))
    (houts : ∀ x ∈ C.outs, ∀ i < 2 ^ x.1, x.2.eval env i = 0)
    (hlook : ∀ q ∈ C.lookups, ∀ i < 2 ^ q.2.1, ∃ j < 2 ^ q.2.2, q.1.eval env i = env (.table q.2.2) j) :
    Accepts p m input e (fun _ => none) := by
  have hw : m.withBits (fun _ => none) = m := by simp [Model.withBits]
  cases hb : build m (nextPow2 input.length) with
  | error _ => rw [hb] at hC; simp [Except.toOption] at hC
  | ok C' =>
    rw [hb] at hC
    obtain rfl : C' = C := by simpa [Except.toOption] using hC
    cases hq : publicShreds m input e with
    | error _ => rw [hq] at hpub; simp [Except.toOption] at hpub
    | ok pub =>
      rw [hq] at hpub
      simp only [Except.toOption, Option.map_some, Option.some.injEq, List.all_eq_true] at hpub
      have key : ∀ s ∈ C'.shreds, s.pub = true → ∃ v, pub s.name = some v ∧ v.1 = 2 ^ s.nv ∧
          (List.range v.1).map v.2 = tbl s.name := by
        intro s hs hp
        have := hpub s hs
        rw [hp] at this
        cases hv : pub s.name with
        | none => rw [hv] at this; simp at this
        | some v =>
          rw [hv] at this
          simp only [Bool.not_true, Bool.false_or, Bool.and_eq_true, decide_eq_true_eq] at this
          exact ⟨v, rfl, this⟩
      refine ⟨pub, C', by rw [hw]; exact hq, by rw [hw]; exact hb, ?_, env, ?_, houts, hlook⟩
      · intro s hs hp
        obtain ⟨v, h1, h2, -⟩ := key s hs hp
        exact ⟨v, h1, h2⟩
      · intro s hs hp v hv i hi
        obtain ⟨v', h1, h2, h3⟩ := key s hs hp
        rw [hv] at h1
        obtain rfl := Option.some.inj h1
        rw [henv s hs hp i hi, ← h3, h2]
        simp [List.getD, List.getElem?_map, List.getElem?_range, hi]

end JST.Remainder
