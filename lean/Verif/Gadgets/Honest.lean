import Verif.Gadgets.Replay
import Verif.Tensor.PoolProofs

/-!
# What an honest run can achieve

`Honest T g Q`: if the honest run of `g` succeeds with all constraints satisfied, then its result satisfies
`Q`. With `Q` false: the honest prover has no proof.
-/

set_option linter.unusedSectionVars false

namespace JST

variable {F : Type} [CommRing F] {T : Tables F} {α β : Type}

/-- Every satisfied honest run of `g` ends honestly with a result in `Q`. -/
def Honest (T : Tables F) (g : G F α) (Q : α → Prop) : Prop :=
  ∀ o, g .honest = .ok o → Sat T o.cons → o.rest = .honest ∧ Q o.val

theorem Honest.bind {g : G F α} {f : α → G F β} {P : α → Prop} {Q : β → Prop} (hg : Honest T g P)
    (hf : ∀ a, P a → Honest T (f a) Q) : Honest T (g >>= f) Q := by
  intro o e hs
  obtain ⟨o1, o2, h1, h2, rfl⟩ := bind_eq_ok e
  have hs' := Sat.app.mp hs
  obtain ⟨r1, p1⟩ := hg o1 h1 hs'.1
  rw [r1] at h2
  exact hf _ p1 o2 h2 hs'.2

theorem Sound.honest {g : G F α} {Q : α → Prop} (h : Sound T g Q) (hr : Replay g) : Honest T g Q :=
  fun o e hs => ⟨(hr o e).1, h _ o e hs⟩

theorem Honest.newHint {f : List F → Except Err (List F)} {i outs : List F} {n : Nat} (h : f i = .ok outs) :
    Honest T (newHint f i n) (fun o => o = outs) := by
  intro o e _
  refine ⟨(Replay.newHint o e).1, ?_⟩
  unfold JST.newHint at e
  dsimp only at e
  rw [h] at e
  dsimp only at e
  split_ifs at e
  cases e
  rfl

theorem Honest.pure {a : α} {Q : α → Prop} (h : Q a) : Honest T (Pure.pure a : G F α) Q :=
  Sound.honest (Sound.pure h) Replay.pure

theorem Honest.conseq {g : G F α} {P Q : α → Prop} (h : Honest T g P) (hPQ : ∀ a, P a → Q a) : Honest T g Q :=
  fun o e hs => ⟨(h o e hs).1, hPQ _ (h o e hs).2⟩

theorem Replay.collectG {f : α → G F β} (hf : ∀ a, Replay (f a)) : ∀ l : List α, Replay (Layers.collectG f l)
  | [] => Replay.pure
  | a :: l => by
    unfold Layers.collectG
    exact (hf a).bind fun _ => (Replay.collectG hf l).bind fun _ => Replay.pure

theorem honest_collectG_false {f : α → G F β} (hr : ∀ a, Replay (f a)) :
    ∀ l : List α, (∃ a ∈ l, Honest T (f a) (fun _ => False)) → Honest T (Layers.collectG f l) (fun _ => False)
  | [], h => by simp at h
  | a :: l, h => by
    unfold Layers.collectG
    obtain ⟨b, hb, hs⟩ := h
    rcases List.mem_cons.1 hb with rfl | hb
    · exact hs.bind fun _ h => h.elim
    · exact Honest.bind (P := fun _ => True) (Sound.honest (fun _ _ _ _ => trivial) (hr a)) fun _ _ =>
        (honest_collectG_false hr l ⟨b, hb, hs⟩).bind fun _ h => h.elim

/-- The honest prover has no proof. -/
theorem Honest.no_proof {g : G F α} (h : Honest T g (fun _ => False)) {Q : α → Prop} : ¬ Complete T g Q :=
  fun ⟨o, h1, _, h3, _⟩ => (h o h1 h3).2

end JST
