import Verif.Gadgets.Ops

/-!
# Replaying an honest run

A cheating prover can always supply the values an honest prover would have supplied. `Replay g` says so
for a gadget, and turns completeness results into forging results for the gadgets that follow a forged
hint.
-/

set_option linter.unusedSectionVars false

namespace JST

variable {F : Type} [CommRing F] {T : Tables F} {α β : Type}

/-- An honest run of `g` can be reproduced by an adversary supplying the same hint values. -/
def Replay (g : G F α) : Prop :=
  ∀ o, g .honest = .ok o → o.rest = .honest ∧
    ∃ hs : List F, ∀ rest, g (.adversary (hs ++ rest)) = .ok ⟨o.val, o.cons, .adversary rest⟩

theorem Complete.forge {g : G F α} {Q : α → Prop} (h : Complete T g Q) (hr : Replay g) :
    Forge T g Q := by
  obtain ⟨o, h1, -, h3, h4⟩ := h
  obtain ⟨-, hs, H⟩ := hr o h1
  exact ⟨hs, fun rest => ⟨_, H rest, rfl, h3, h4⟩⟩

/-- Sequencing a forged part with an honestly played part, remembering only a predicate. -/
theorem Forge.bind' {g : G F α} {f : α → G F β} {P : α → Prop} {Q : β → Prop}
    (hg : ∃ a, P a ∧ Forge T g (fun b => b = a)) (hf : ∀ a, P a → Forge T (f a) Q) :
    Forge T (g >>= f) Q := by
  obtain ⟨a, ha, hg⟩ := hg
  exact hg.bind (fun _ h => h) (hf a ha)

theorem Replay.pure {a : α} : Replay (Pure.pure a : G F α) := by
  intro o e; cases e; exact ⟨rfl, [], fun _ => rfl⟩

theorem Replay.throwErr {m : String} : Replay (throwErr m : G F α) := by intro o e; cases e
theorem Replay.panicWith {m : String} : Replay (panicWith m : G F α) := by intro o e; cases e
theorem Replay.assertZero {v : F} : Replay (assertZero v) := by
  intro o e; cases e; exact ⟨rfl, [], fun _ => rfl⟩
theorem Replay.assertEq {x y : F} : Replay (assertEq x y) := Replay.assertZero
theorem Replay.assertBool {x : F} : Replay (assertBool x) := Replay.assertZero
theorem Replay.lookup {t : Nat} {r : List F} : Replay (lookup t r) := by
  intro o e; cases e; exact ⟨rfl, [], fun _ => rfl⟩

theorem Replay.newHint {f : List F → Except Err (List F)} {i : List F} {n : Nat} :
    Replay (newHint f i n) := by
  intro o e
  unfold JST.newHint at e ⊢
  dsimp only at e
  split at e
  · next outs he =>
    split at e
    · next hl =>
      cases e
      exact ⟨rfl, outs, fun rest => by simp [← hl]⟩
    · cases e
  · cases e

theorem Replay.bind {g : G F α} {f : α → G F β} (hg : Replay g) (hf : ∀ a, Replay (f a)) :
    Replay (g >>= f) := by
  intro o e
  obtain ⟨o1, o2, h1, h2, rfl⟩ := bind_eq_ok e
  obtain ⟨r1, hs1, H1⟩ := hg o1 h1
  rw [r1] at h2
  obtain ⟨r2, hs2, H2⟩ := hf _ o2 h2
  refine ⟨r2, hs1 ++ hs2, fun rest => ?_⟩
  rw [List.append_assoc]
  exact bind_ok (H1 (hs2 ++ rest)) (H2 rest)

section
variable {p : Nat} [Fact p.Prime]

theorem Replay.hint2 {f : ZMod p → ZMod p → Except Err (ZMod p)} {x y : ZMod p} :
    Replay (hint2 f x y) := by
  refine Replay.newHint.bind fun l => ?_
  split
  · exact Replay.pure
  · exact Replay.panicWith

theorem Replay.isZero (x : ZMod p) : Replay (isZero x) :=
  Replay.hint2.bind fun _ => Replay.assertZero.bind fun _ => Replay.pure

theorem Replay.queryAll (t : Nat) (ws : List (ZMod p)) : Replay (queryAll t ws) := by
  induction ws with
  | nil => exact Replay.pure
  | cons w ws ih => exact Replay.lookup.bind fun _ => ih

theorem Replay.padStep {c : Nat} {a : ZMod p} {n : Nat} : Replay (padStep c a n) := by
  unfold JST.padStep addShift
  dsimp only
  split_ifs
  all_goals first | exact Replay.panicWith | exact Replay.pure

theorem Replay.rangeCheck (rc : RangeCtx) (a : ZMod p) (n : Nat) : Replay (rangeCheck rc a n) := by
  unfold JST.rangeCheck rangeproof rangeproofOneChunk
  dsimp only
  split_ifs
  · exact Replay.throwErr
  · exact Replay.throwErr
  · exact Replay.panicWith
  · exact Replay.padStep.bind fun _ => Replay.lookup
  · refine Replay.padStep.bind fun _ => Replay.newHint.bind fun ws => ?_
    cases ws with
    | nil => exact Replay.panicWith
    | cons w ws => exact Replay.assertEq.bind fun _ => Replay.queryAll _ _

end

end JST
