import Mathlib.Data.Fintype.BigOperators
import Mathlib.Algebra.BigOperators.Group.Finset.Piecewise
import Mathlib.Algebra.Order.BigOperators.Group.Finset
import Verif.Spec.MatMul
import Verif.Tensor.Pool
import Verif.Props.LinAlg

/-!
# Soundness but for few challenges

Composition rules of `AlmostSound`: sequencing with challenge-free steps, and a union bound over a loop in which every
step draws its own challenge.
-/

namespace JST.Props

open JST.Spec JST.Layers

variable {F : Type} [CommRing F] {T : Tables F} {X : Type} [Fintype X] {α β : Type}

theorem almost_of_sound {g : X → G F α} {Q : α → Prop} {num den : Nat} (h : ∀ x, Sound T (g x) Q) :
    AlmostSound T g num den Q := fun s =>
  ⟨∅, by simp, fun x _ o ho hs => h x s o ho hs⟩

theorem AlmostSound.conseq {g : X → G F α} {P Q : α → Prop} {num den : Nat} (h : AlmostSound T g num den P)
    (hq : ∀ a, P a → Q a) : AlmostSound T g num den Q := fun s => by
  obtain ⟨bad, h1, h2⟩ := h s
  exact ⟨bad, h1, fun x hx o ho hs => hq _ (h2 x hx o ho hs)⟩

theorem AlmostSound.bind {g : X → G F α} {f : X → α → G F β} {P : α → Prop} {Q : β → Prop} {num den : Nat}
    (hg : AlmostSound T g num den P) (hf : ∀ x a, P a → Sound T (f x a) Q) :
    AlmostSound T (fun x => g x >>= f x) num den Q := fun s => by
  obtain ⟨bad, h1, h2⟩ := hg s
  refine ⟨bad, h1, fun x hx o ho hs => ?_⟩
  obtain ⟨o1, o2, e1, e2, rfl⟩ := JST.bind_eq_ok ho
  have hs' := Sat.app.mp hs
  exact hf x _ (h2 x hx o1 e1 hs'.1) _ o2 e2 hs'.2

/-- A step before the challenge. -/
theorem AlmostSound.after {g : G F α} {f : X → α → G F β} {P : α → Prop} {Q : β → Prop} {num den : Nat}
    (hg : Sound T g P) (hf : ∀ a, P a → AlmostSound T (fun x => f x a) num den Q) :
    AlmostSound T (fun x => g >>= f x) num den Q := fun s => by
  by_cases hex : ∃ o1, g s = .ok o1 ∧ Sat T o1.cons
  · obtain ⟨o1, e1, hs1⟩ := hex
    obtain ⟨bad, h1, h2⟩ := hf _ (hg s o1 e1 hs1) o1.rest
    refine ⟨bad, h1, fun x hx o ho hs => ?_⟩
    obtain ⟨o1', o2, e1', e2, rfl⟩ := JST.bind_eq_ok ho
    have : o1' = o1 := by rw [e1'] at e1; exact Except.ok.inj e1
    subst this
    exact h2 x hx o2 e2 (Sat.app.mp hs).2
  · refine ⟨∅, by simp, fun x _ o ho hs => ?_⟩
    obtain ⟨o1, o2, e1, -, rfl⟩ := JST.bind_eq_ok ho
    exact absurd ⟨o1, e1, (Sat.app.mp hs).1⟩ hex

/-- The hints left when a loop whose steps consume hints independently of the challenges reaches step `j`. -/
theorem collectG_steps {ι : Type} {f : ι → G F β} {R : ι → Hints F → Hints F}
    (hR : ∀ i h o, f i h = .ok o → o.rest = R i h) :
    ∀ (l : List ι) (h : Hints F) (o : Out F (List β)), collectG f l h = .ok o → Sat T o.cons →
      o.val.length = l.length ∧ ∀ (j : Nat) (hj : j < l.length), ∃ oj,
        f l[j] ((l.take j).foldl (fun h i => R i h) h) = .ok oj ∧ Sat T oj.cons ∧ o.val[j]? = some oj.val
  | [], h, o, ho, _ => by
    have : (Except.ok ⟨[], Cons.nil, h⟩ : Except Err (Out F (List β))) = .ok o := ho
    cases Except.ok.inj this
    exact ⟨rfl, fun j hj => absurd hj (by simp)⟩
  | i :: l, h, o, ho, hs => by
    rw [collectG] at ho
    obtain ⟨o1, o2, e1, e2, rfl⟩ := JST.bind_eq_ok ho
    obtain ⟨o3, o4, e3, e4, rfl⟩ := JST.bind_eq_ok e2
    have e5 : (Except.ok ⟨o1.val :: o3.val, Cons.nil, o3.rest⟩ : Except Err (Out F (List β))) = .ok o4 := e4
    cases Except.ok.inj e5
    obtain ⟨s1, s2⟩ := Sat.app.mp hs
    obtain ⟨s3, -⟩ := Sat.app.mp s2
    obtain ⟨k1, k2⟩ := collectG_steps hR l o1.rest o3 e3 s3
    refine ⟨by simp [k1], fun j hj => ?_⟩
    cases j with
    | zero => exact ⟨o1, by simpa using e1, s1, rfl⟩
    | succ j =>
      obtain ⟨oj, q1, q2, q3⟩ := k2 j (by simpa using hj)
      refine ⟨oj, ?_, q2, by simpa using q3⟩
      have := hR i h o1 e1
      rw [this] at q1
      simpa using q1

/-- The challenges for which step `i` has a challenge in a small set are few. -/
theorem card_step_bad [DecidableEq X] {B den : Nat} (i : Fin B) (s : Finset X)
    (h : s.card * den ≤ Fintype.card X) :
    (Fintype.piFinset (Function.update (fun _ : Fin B => (Finset.univ : Finset X)) i s)).card * den ≤
      Fintype.card (Fin B → X) := by
  classical
  rw [Fintype.card_piFinset]
  have e1 : ∏ j, (Function.update (fun _ : Fin B => (Finset.univ : Finset X)) i s j).card =
      s.card * ∏ j ∈ Finset.univ.erase i, Fintype.card X := by
    rw [← Finset.mul_prod_erase _ _ (Finset.mem_univ i), Function.update_self]
    congr 1
    refine Finset.prod_congr rfl fun j hj => ?_
    rw [Function.update_of_ne (Finset.ne_of_mem_erase hj)]
    rfl
  have e2 : Fintype.card (Fin B → X) = Fintype.card X * ∏ j ∈ Finset.univ.erase i, Fintype.card X := by
    rw [Fintype.card_pi, ← Finset.mul_prod_erase _ _ (Finset.mem_univ i)]
  rw [e1, e2, mul_right_comm]
  exact Nat.mul_le_mul_right _ h

/-- A loop of `B` steps, each with its own challenge: the bound is `B` times that of a step. -/
theorem almost_collectG {B den : Nat} {f : X → Nat → G F β} {g : (Fin B → X) → Nat → G F β}
    {Q : Nat → β → Prop} {R : Nat → Hints F → Hints F}
    (hg : ∀ xs i (hi : i < B), g xs i = f (xs ⟨i, hi⟩) i)
    (hR : ∀ xs i h o, g xs i h = .ok o → o.rest = R i h)
    (hf : ∀ i < B, AlmostSound T (fun x => f x i) 1 den (Q i)) :
    AlmostSound T (fun xs => collectG (g xs) (List.range B)) B den
      (fun o => List.Forall₂ Q (List.range B) o) := by
  classical
  intro h
  have hst : ∀ i : Fin B, ∃ bad : Finset X, bad.card * den ≤ 1 * Fintype.card X ∧ ∀ x, x ∉ bad → ∀ o,
      f x i (((List.range B).take i).foldl (fun h i => R i h) h) = .ok o → Sat T o.cons → Q i o.val :=
    fun i => hf i i.2 _
  choose bad hb1 hb2 using hst
  refine ⟨Finset.univ.biUnion fun i : Fin B =>
    Fintype.piFinset (Function.update (fun _ : Fin B => (Finset.univ : Finset X)) i (bad i)), ?_, ?_⟩
  · calc _ ≤ (∑ i : Fin B, (Fintype.piFinset (Function.update (fun _ : Fin B => (Finset.univ : Finset X)) i
          (bad i))).card) * den := Nat.mul_le_mul_right _ Finset.card_biUnion_le
      _ = ∑ i : Fin B, (Fintype.piFinset (Function.update (fun _ : Fin B => (Finset.univ : Finset X)) i
          (bad i))).card * den := Finset.sum_mul _ _ _
      _ ≤ ∑ _i : Fin B, Fintype.card (Fin B → X) :=
        Finset.sum_le_sum fun i _ => card_step_bad i (bad i) (by simpa using hb1 i)
      _ = B * Fintype.card (Fin B → X) := by simp
  · intro xs hxs o ho hs
    obtain ⟨k1, k2⟩ := collectG_steps (fun i h o => hR xs i h o) _ h o ho hs
    rw [List.forall₂_iff_get]
    refine ⟨k1.symm, fun j hj hj' => ?_⟩
    have hjB : j < B := by simpa using hj
    obtain ⟨oj, q1, q2, q3⟩ := k2 j hj
    rw [List.getElem_range, hg xs j hjB] at q1
    have hnb : xs ⟨j, hjB⟩ ∉ bad ⟨j, hjB⟩ := by
      intro hc
      refine hxs (Finset.mem_biUnion.2 ⟨⟨j, hjB⟩, Finset.mem_univ _, ?_⟩)
      rw [Fintype.mem_piFinset]
      intro a
      by_cases ha : a = ⟨j, hjB⟩
      · subst ha
        rw [Function.update_self]
        exact hc
      · rw [Function.update_of_ne ha]
        exact Finset.mem_univ _
    have := hb2 ⟨j, hjB⟩ _ hnb oj q1 q2
    rw [List.getElem?_eq_getElem (by simpa using hj')] at q3
    simp only [List.get_eq_getElem, List.getElem_range]
    rw [Option.some.inj q3]
    exact this

end JST.Props
