import Verif.LogUp.Proofs2
import Verif.Gadgets.ArithProofs2

/-! # Closing a circuit: gadgets followed by the range table's final check -/

set_option linter.unusedSectionVars false

namespace JST

section lemmas
variable {K : Type} [Field K]

/-- Soundness of the range table's final check for fixed hints. -/
theorem rangeFinal_sound {T : Tables K} (toNat : K → Nat) (table queries : List K) (h : Hints K)
    (hchar : ∀ k : Nat, 0 < k → k ≤ queries.length → ((k : Nat) : K) ≠ 0)
    (hbad : ∃ q ∈ queries, q ∉ table) :
    ∃ bad : Finset K, bad.card ≤ table.length + queries.length - 1 ∧
      ∀ α o, rangeFinalCheck toNat table queries α h = .ok o → Sat T o.cons → α ∈ bad := by
  classical
  obtain ⟨q, hq, hqt⟩ := hbad
  obtain ⟨counts, hlen, hc⟩ := rangeFinal_eq (T := T) toNat table queries h
    (by rintro rfl; simp at hq)
  have hpoly : numPoly (table.zip counts ++
      (queries.zip (List.replicate queries.length (1 : K))).map fun u => (u.1, -u.2)) ≠ 0 := by
    intro h0
    have hz := coeffs_zero_of_numPoly _ h0 q
    rw [List.filter_append, List.map_append, List.sum_append, filter_zip_none _ _ _ hqt,
      filter_queries_sum] at hz
    have h1 : 0 < queries.count q := List.count_pos_iff.mpr hq
    have := hchar _ h1 List.count_le_length
    apply this
    simpa using hz
  obtain ⟨bad, hcard, hb⟩ := bad_challenges _ hpoly
  refine ⟨bad, le_trans hcard ?_, fun α o ho hs => hb α (hc α o ho hs)⟩
  simp [hlen]

end lemmas

variable {p : Nat} [Fact p.Prime] {T : Tables (ZMod p)}

/-- Every lookup emitted by `g` is a one-element row of table `tid`. -/
def OnlyRange {β : Type} (tid : Nat) (g : G (ZMod p) β) : Prop :=
  ∀ h o, g h = .ok o → ∀ l ∈ o.cons.lookups, ∃ q, l = (tid, [q])

namespace OnlyRange
variable {α β : Type} {tid : Nat}

theorem bind {g : G (ZMod p) α} {f : α → G (ZMod p) β} (hg : OnlyRange tid g)
    (hf : ∀ a, OnlyRange tid (f a)) : OnlyRange tid (g >>= f) := by
  intro h o e l hl
  obtain ⟨o1, o2, h1, h2, rfl⟩ := bind_eq_ok e
  rcases List.mem_append.mp hl with hl | hl
  · exact hg _ _ h1 l hl
  · exact hf _ _ _ h2 l hl

theorem pure {a : α} : OnlyRange tid (Pure.pure a : G (ZMod p) α) := by
  intro h o e l hl; cases e; simp [Cons.nil] at hl

theorem throwErr {m : String} : OnlyRange tid (throwErr m : G (ZMod p) α) := by
  intro h o e; cases e

theorem panicWith {m : String} : OnlyRange tid (panicWith m : G (ZMod p) α) := by
  intro h o e; cases e

theorem assertZero {v : ZMod p} : OnlyRange tid (assertZero v) := by
  intro h o e l hl; cases e; simp at hl

theorem assertEq {x y : ZMod p} : OnlyRange tid (assertEq x y) := assertZero
theorem assertBool {x : ZMod p} : OnlyRange tid (assertBool x) := assertZero

theorem lookup {v : ZMod p} : OnlyRange tid (lookup tid [v]) := by
  intro h o e l hl; cases e; simp at hl; exact ⟨v, hl⟩

theorem newHint {f : List (ZMod p) → Except Err (List (ZMod p))} {i : List (ZMod p)} {n : Nat} :
    OnlyRange tid (newHint f i n) := by
  intro h o e l hl
  unfold JST.newHint at e
  split at e
  · split at e
    · split at e
      · cases e; simp [Cons.nil] at hl
      · cases e
    · cases e
  · split at e
    · cases e
    · cases e; simp [Cons.nil] at hl

theorem hint2 {f : ZMod p → ZMod p → Except Err (ZMod p)} {x y : ZMod p} :
    OnlyRange tid (hint2 f x y) := by
  refine newHint.bind fun l => ?_
  split
  · exact pure
  · exact panicWith

theorem queryAll (ws : List (ZMod p)) : OnlyRange tid (queryAll tid ws) := by
  induction ws with
  | nil => exact pure
  | cons w ws ih => exact lookup.bind fun _ => ih

theorem padStep {c : Nat} {a : ZMod p} {n : Nat} : OnlyRange tid (padStep c a n) := by
  unfold JST.padStep addShift
  dsimp only
  split_ifs
  all_goals first | exact panicWith (p := p) | exact pure (p := p)

theorem rangeCheck (rc : RangeCtx) (a : ZMod p) (n : Nat) :
    OnlyRange rc.tid (rangeCheck rc a n) := by
  unfold JST.rangeCheck rangeproof rangeproofOneChunk
  dsimp only
  split_ifs
  · exact throwErr (p := p)
  · exact throwErr (p := p)
  · exact panicWith (p := p)
  · exact padStep.bind fun _ => lookup
  · refine padStep.bind fun _ => newHint.bind fun ws => ?_
    cases ws with
    | nil => exact panicWith
    | cons w ws => exact assertEq.bind fun _ => queryAll _

theorem relu (sc : ShiftCtx p) (rc : RangeCtx) (x : ZMod p) :
    OnlyRange rc.tid (constrainedRelu sc rc x) := by
  unfold constrainedRelu uGreaterEq
  exact hint2.bind fun _ => assertBool.bind fun _ => (rangeCheck _ _ _).bind fun _ => pure

theorem max2 (sc : ShiftCtx p) (rc : RangeCtx) (x a : ZMod p) :
    OnlyRange rc.tid (max2 sc rc x a) := by
  unfold JST.max2 uGreaterEq
  exact hint2.bind fun _ => assertBool.bind fun _ => (rangeCheck _ _ _).bind fun _ => pure

theorem min2 (sc : ShiftCtx p) (rc : RangeCtx) (x a : ZMod p) :
    OnlyRange rc.tid (min2 sc rc x a) := by
  unfold JST.min2 uGreaterEq
  exact hint2.bind fun _ => assertBool.bind fun _ => (rangeCheck _ _ _).bind fun _ => pure

theorem divPow2Inner (rc : RangeCtx) (a b c : ZMod p) (k s : Nat) (d : ZMod p) (r : Bool) :
    OnlyRange rc.tid (divPow2Inner rc a b c k s d r) := by
  unfold JST.divPow2Inner uIntDiv uMod
  refine hint2.bind fun _ => hint2.bind fun _ => assertEq.bind fun _ =>
    (rangeCheck _ _ _).bind fun _ => ?_
  cases r
  · exact pure
  · exact (rangeCheck _ _ _).bind fun _ => pure

theorem rescale (ctx : RescaleCtx p) (rc : RangeCtx) (x : ZMod p) (r : Bool) :
    OnlyRange rc.tid (rescale ctx rc x r) := by
  unfold JST.rescale
  refine (divPow2Inner _ _ _ _ _ _ _ _).bind fun q => ?_
  cases r
  · exact pure
  · refine OnlyRange.bind ?_ fun _ => relu _ _ _
    unfold ShiftCtx.new
    split_ifs
    · exact throwErr
    · exact pure

theorem mapG {f : ZMod p → G (ZMod p) (ZMod p)} (hf : ∀ x, OnlyRange tid (f x))
    (xs : List (ZMod p)) : OnlyRange tid (mapG f xs) := by
  induction xs with
  | nil => exact pure
  | cons x xs ih => exact (hf x).bind fun _ => ih.bind fun _ => pure

theorem maybeRescale (rc : RangeCtx) (xs : List (ZMod p)) (a : Bool) (k n : Nat) (b : Bool) :
    OnlyRange rc.tid (maybeRescale rc xs a k n b) := by
  unfold JST.maybeRescale reluArray rescaleArray RescaleCtx.new ShiftCtx.new
  split_ifs
  · exact throwErr
  · exact throwErr.bind fun _ => mapG (fun _ => relu _ _ _) _
  · exact pure.bind fun _ => mapG (fun _ => relu _ _ _) _
  · exact pure
  · exact throwErr
  · exact throwErr.bind fun _ => mapG (fun _ => rescale _ _ _ _) _
  · exact throwErr.bind fun _ => mapG (fun _ => rescale _ _ _ _) _
  · exact pure.bind fun _ => mapG (fun _ => rescale _ _ _ _) _

end OnlyRange

/-- The query values recorded by a run: `self.query_keys`, logup.rs:355-357, 440-442. -/
def rangeQueries (c : Cons (ZMod p)) : List (ZMod p) := c.lookups.map fun l => l.2.headD 0

/-- A circuit made of the gadget `g` followed by the final check of its range table
(LogupRangeCheckContext::finalize, range_check.rs:265-275) is satisfied with result `v`, for challenge
`α`. The challenge may come from an extension `K` of the circuit field (`φ`), as it does for
Goldilocks; `h` are the hints of `g` and `hK` the multiplicities. -/
def Accepts {K β : Type} [Field K] (φ : ZMod p →+* K) (toNat : K → Nat) (rc : RangeCtx)
    (g : G (ZMod p) β) (h : Hints (ZMod p)) (hK : Hints K) (α : K) (v : β) : Prop :=
  ∃ o o', g h = .ok o ∧
    rangeFinalCheck toNat (rangeTableKeys rc.chunk) ((rangeQueries o.cons).map φ) α hK = .ok o' ∧
    (∀ z ∈ o.cons.zeros, z = 0) ∧ (∀ z ∈ o'.cons.zeros, z = 0) ∧ v = o.val

end JST
