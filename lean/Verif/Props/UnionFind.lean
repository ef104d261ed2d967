import Verif.Spec.Joined
import Verif.Compiler.UnionFind

/-!
# C85: union-find

Two numbers get the same answer from `find` exactly if the calls of `union` connect them, and the loop which groups
the segments gives the groups of the model of C83.
-/

namespace JST.Export

/-- The pairs which were joined. -/
def pairsOf : List UfOp → List (Nat × Nat)
  | [] => []
  | .find _ :: r => pairsOf r
  | .union x y :: r => (x, y) :: pairsOf r

/-- The numbers which are used. -/
def UfOp.below (n : Nat) : UfOp → Prop
  | .find x => x < n
  | .union x y => x < n ∧ y < n

/-- The parents give the sets `t`. -/
structure Gives (p : Nat → Nat) (t : Nat → Nat → Prop) (rt : Nat → Nat) : Prop where
  root : ∀ z, Root p z (rt z)
  same : ∀ x y, rt x = rt y ↔ t x y

theorem Gives.forest {p t rt} (h : Gives p t rt) : Forest p := fun z => ⟨_, h.root z⟩

theorem Gives.find {p p' t rt x r} (h : Gives p t rt) (hf : Find p x p' r) : r = rt x ∧ Gives p' t rt := by
  obtain ⟨-, h2, h3⟩ := find_ok hf h.forest
  exact ⟨(h.root x).unique h2, fun z => h3 z _ (h.root z), h.same⟩

theorem Gives.idem {p t rt} (h : Gives p t rt) (z : Nat) : rt (rt z) = rt z := by
  obtain ⟨k, hk⟩ := h.root z
  exact ((h.root (rt z)).unique ⟨0, .done hk.fixed⟩).symm

theorem Gives.fixed {p t rt} (h : Gives p t rt) (z : Nat) : p (rt z) = rt z := by
  obtain ⟨k, hk⟩ := h.root z
  exact hk.fixed

theorem together_cons {done : List (Nat × Nat)} {x y a b : Nat} :
    Spec.Together (done ++ [(x, y)]) a b ↔
      Spec.Together done a b ∨ (Spec.Together done a x ∧ Spec.Together done y b) ∨
        (Spec.Together done a y ∧ Spec.Together done x b) := by
  constructor
  · intro h
    induction h with
    | rel a b h =>
      rcases List.mem_append.1 h with h | h
      · exact .inl (.rel _ _ h)
      · simp only [List.mem_singleton, Prod.mk.injEq] at h
        obtain ⟨rfl, rfl⟩ := h
        exact .inr (.inl ⟨.refl _, .refl _⟩)
    | refl a => exact .inl (.refl _)
    | symm a b _ ih =>
      rcases ih with h | ⟨h, h'⟩ | ⟨h, h'⟩
      · exact .inl h.symm
      · exact .inr (.inr ⟨h'.symm, h.symm⟩)
      · exact .inr (.inl ⟨h'.symm, h.symm⟩)
    | trans a b c _ _ ih ih' =>
      rcases ih with h | ⟨h, h'⟩ | ⟨h, h'⟩ <;> rcases ih' with g | ⟨g, g'⟩ | ⟨g, g'⟩
      · exact .inl (h.trans _ _ _ g)
      · exact .inr (.inl ⟨h.trans _ _ _ g, g'⟩)
      · exact .inr (.inr ⟨h.trans _ _ _ g, g'⟩)
      · exact .inr (.inl ⟨h, h'.trans _ _ _ g⟩)
      · exact .inr (.inl ⟨h, g'⟩)
      · exact .inl (h.trans _ _ _ g')
      · exact .inr (.inr ⟨h, h'.trans _ _ _ g⟩)
      · exact .inl (h.trans _ _ _ g')
      · exact .inr (.inr ⟨h, g'⟩)
  · have mono : ∀ {a b}, Spec.Together done a b → Spec.Together (done ++ [(x, y)]) a b := fun h =>
      Relation.EqvGen.mono (p := fun x' y' => (x', y') ∈ done ++ [(x, y)]) (fun _ _ h => List.mem_append_left _ h) _ _ h
    have new : Spec.Together (done ++ [(x, y)]) x y := .rel _ _ (by simp)
    rintro (h | ⟨h, h'⟩ | ⟨h, h'⟩)
    · exact mono h
    · exact ((mono h).trans _ _ _ new).trans _ _ _ (mono h')
    · exact ((mono h).trans _ _ _ new.symm).trans _ _ _ (mono h')

theorem Gives.union {p p' done rt x y} (h : Gives p (Spec.Together done) rt) (hu : Union p x y p') :
    ∃ rt', Gives p' (Spec.Together (done ++ [(x, y)])) rt' := by
  obtain ⟨p1, a, p2, b, h1, h2, rfl⟩ := hu
  obtain ⟨rfl, s1⟩ := h.find h1
  obtain ⟨rfl, s2⟩ := s1.find h2
  refine ⟨fun z => if rt z = rt x then rt y else rt z, ?_, fun a b => ?_⟩
  · intro z
    by_cases e : rt x = rt y
    · have : Function.update p2 (rt x) (rt y) = p2 := by
        rw [← e]; exact Function.update_eq_self_iff.2 (s2.fixed x).symm
      rw [this, ← e]
      split_ifs with hz
      · rw [← hz]; exact s2.root z
      · exact s2.root z
    · obtain ⟨k, hk⟩ := s2.root z
      exact link_root (s2.fixed x) (s2.fixed y) e hk
  · rw [together_cons, ← h.same, ← h.same, ← h.same, ← h.same, ← h.same]
    split_ifs with ha hb hb
    · exact ⟨fun _ => .inl (ha.trans hb.symm), fun _ => rfl⟩
    · rw [ha]
      constructor
      · exact fun e => .inr (.inl ⟨rfl, e⟩)
      · rintro (e | ⟨-, e⟩ | ⟨-, e⟩)
        · exact absurd e.symm hb
        · exact e
        · exact absurd e.symm hb
    · rw [hb]
      constructor
      · exact fun e => .inr (.inr ⟨e, rfl⟩)
      · rintro (e | ⟨e, -⟩ | ⟨e, -⟩)
        · exact absurd e ha
        · exact absurd e ha
        · exact e
    · constructor
      · exact .inl
      · rintro (e | ⟨e, -⟩ | ⟨-, e⟩)
        · exact e
        · exact absurd e ha
        · exact absurd e.symm hb

theorem run_gives {p ops q} (h : UfRun p ops q) : ∀ {done rt}, Gives p (Spec.Together done) rt →
    ∃ rt', Gives q (Spec.Together (done ++ pairsOf ops)) rt' := by
  induction h with
  | nil => exact fun hg => ⟨_, by rw [pairsOf, List.append_nil]; exact hg⟩
  | find hf _ ih => exact fun hg => ih (hg.find hf).2
  | union hu _ ih =>
    intro done rt hg
    obtain ⟨rt', hg'⟩ := hg.union hu
    have := ih hg'
    rwa [List.append_assoc] at this

theorem gives_id : Gives (fun i => i) (Spec.Together []) fun i => i :=
  ⟨fun _ => ⟨0, .done rfl⟩, fun x y => by
    constructor
    · rintro rfl; exact .refl _
    · intro h
      induction h with
      | rel _ _ h => exact absurd h List.not_mem_nil
      | refl => rfl
      | symm _ _ _ ih => exact ih.symm
      | trans _ _ _ _ _ ih ih' => exact ih.trans ih'⟩

/-! ### Indices -/

theorem find_below {n p x p' r} (h : Find p x p' r) (hp : ∀ i < n, p i < n) (hx : x < n) : r < n ∧ ∀ i < n, p' i < n := by
  induction h with
  | done => exact ⟨hx, hp⟩
  | @step p x _ _ _ _ ih =>
    have hh : ∀ i < n, halve p x i < n := by
      intro i hi
      by_cases e : i = x
      · rw [e, halve_self]; exact hp _ (hp _ hx)
      · rw [halve_other p e]; exact hp _ hi
    exact ih hh (hh _ hx)

theorem run_below {n p ops q} (h : UfRun p ops q) : (∀ i < n, p i < n) → (∀ o ∈ ops, UfOp.below n o) → ∀ i < n, q i < n := by
  induction h with
  | nil => exact fun hp _ => hp
  | find hf _ ih => exact fun hp ho => ih (find_below hf hp (ho _ List.mem_cons_self : UfOp.below n (.find _))).2 fun o h => ho o (List.mem_cons_of_mem _ h)
  | union hu _ ih =>
    obtain ⟨p1, a, p2, b, h1, h2, rfl⟩ := hu
    intro hp ho
    have hxy := ho _ List.mem_cons_self
    obtain ⟨-, b1⟩ := find_below h1 hp hxy.1
    obtain ⟨hb, b2⟩ := find_below h2 b1 hxy.2
    refine ih (fun i hi => ?_) fun o h => ho o (List.mem_cons_of_mem _ h)
    by_cases e : i = a
    · subst e; rw [Function.update_self]; exact hb
    · rw [Function.update_of_ne e]; exact b2 i hi

theorem runs : ∀ (ops : List UfOp) {p done rt}, Gives p (Spec.Together done) rt → ∃ q, UfRun p ops q
  | [], p, _, _, _ => ⟨p, .nil⟩
  | .find x :: r, p, _, _, h => by
    obtain ⟨p', s, hf⟩ := find_runs h.forest x
    obtain ⟨q, hq⟩ := runs r (h.find hf).2
    exact ⟨q, .find hf hq⟩
  | .union x y :: r, p, _, _, h => by
    obtain ⟨p1, a, h1⟩ := find_runs h.forest x
    obtain ⟨p2, b, h2⟩ := find_runs (h.find h1).2.forest y
    have hu : Union p x y (Function.update p2 a b) := ⟨p1, a, p2, b, h1, h2, rfl⟩
    obtain ⟨rt', h'⟩ := h.union hu
    obtain ⟨q, hq⟩ := runs r h'
    exact ⟨q, .union hu hq⟩

/-! ### The theorems -/

/-- **Every sequence of calls comes to an end**, and with numbers below the size no index is out of range. -/
theorem C85_returns (ops : List UfOp) :
    (∃ q, UfRun (fun i => i) ops q) ∧
    ∀ q, UfRun (fun i => i) ops q → (∀ x, ∃ q' r, Find q x q' r) ∧
      ∀ n, (∀ o ∈ ops, UfOp.below n o) → (∀ i < n, q i < n) ∧ ∀ x < n, ∀ q' r, Find q x q' r → r < n := by
  refine ⟨runs ops gives_id, fun q h => ?_⟩
  obtain ⟨rt, hg⟩ := run_gives h gives_id
  refine ⟨find_runs hg.forest, fun n ho => ?_⟩
  have hb := run_below h (fun i hi => hi) ho
  exact ⟨hb, fun x hx q' r hf => (find_below hf hb hx).1⟩

/-- **`find` gives the same answer exactly for numbers which are joined.** -/
theorem C85_find (ops : List UfOp) {q : Nat → Nat} (h : UfRun (fun i => i) ops q) {x y : Nat} {q1 q2 : Nat → Nat} {r s : Nat}
    (hx : Find q x q1 r) (hy : Find q1 y q2 s) : r = s ↔ Spec.Together (pairsOf ops) x y := by
  obtain ⟨rt, hg⟩ := run_gives h gives_id
  obtain ⟨rfl, h1⟩ := hg.find hx
  obtain ⟨rfl, -⟩ := h1.find hy
  exact hg.same x y

/-- **The answer is one of the joined numbers.** -/
theorem C85_member (ops : List UfOp) {q : Nat → Nat} (h : UfRun (fun i => i) ops q) {x : Nat} {q1 : Nat → Nat} {r : Nat}
    (hx : Find q x q1 r) : Spec.Together (pairsOf ops) x r := by
  obtain ⟨rt, hg⟩ := run_gives h gives_id
  obtain ⟨rfl, -⟩ := hg.find hx
  exact (hg.same _ _).1 (hg.idem x).symm

/-- **The loop over the edges.** Run with the array, it comes to an end with the groups of the model of C83: the same
gates, and `find` returns the representative. -/
theorem C85_groups {F : Type} [DecidableEq F] (c : Nested F) (edges : List (Nat × Nat)) :
    let s0 : (Nat → Nat) × (Nat → Grp F) := (fun i => i, (groups c []).grp)
    (∃ t, JoinRun s0 edges t) ∧ ∀ t, JoinRun s0 edges t →
      t.2 = (groups c edges).grp ∧
      ∀ i, (∃ p r, Find t.1 i p r) ∧ ∀ p r, Find t.1 i p r → r = (groups c edges).root i :=
  joinRun_ok edges (p := fun i => i) (u := groups c []) fun _ => ⟨0, .done rfl⟩

/-- Non-vacuity: a look-up which shortens a path of length two. -/
example : ∃ q', Find (fun i => if i = 0 then 1 else if i = 1 then 3 else i) 0 q' 3 ∧ q' 0 = 3 :=
  ⟨_, .step (by decide) (.done (by decide)), by decide⟩

/-- Non-vacuity: after three unions the first four numbers are together, the fifth is alone. -/
example : ∃ q, UfRun (fun i => i) [.union 0 1, .union 2 3, .find 2, .union 0 2] q ∧
    ∀ q1 q2 q3 a b c, Find q 1 q1 a → Find q1 3 q2 b → Find q2 4 q3 c → a = b ∧ b ≠ c := by
  obtain ⟨q, hq⟩ := (C85_returns [.union 0 1, .union 2 3, .find 2, .union 0 2]).1
  refine ⟨q, hq, fun q1 q2 q3 a b c h1 h2 h3 => ?_⟩
  obtain ⟨rt, hg⟩ := run_gives hq gives_id
  obtain ⟨rfl, g1⟩ := hg.find h1
  obtain ⟨rfl, g2⟩ := g1.find h2
  obtain ⟨rfl, -⟩ := g2.find h3
  constructor
  · refine (hg.same _ _).2 ?_
    have h01 : Spec.Together [(0, 1), (2, 3), (0, 2)] 0 1 := .rel _ _ (by simp)
    have h23 : Spec.Together [(0, 1), (2, 3), (0, 2)] 2 3 := .rel _ _ (by simp)
    have h02 : Spec.Together [(0, 1), (2, 3), (0, 2)] 0 2 := .rel _ _ (by simp)
    exact (h01.symm.trans _ _ _ h02).trans _ _ _ h23
  · intro e
    have h : Spec.Together [(0, 1), (2, 3), (0, 2)] 3 4 := (hg.same _ _).1 e
    have key : ∀ x y, Spec.Together [(0, 1), (2, 3), (0, 2)] x y → (x < 4 ↔ y < 4) := by
      intro x y h
      induction h with
      | rel x y h =>
        simp only [List.mem_cons, Prod.mk.injEq, List.not_mem_nil, or_false] at h
        omega
      | refl => exact Iff.rfl
      | symm _ _ _ ih => exact ih.symm
      | trans _ _ _ _ _ ih ih' => exact ih.trans ih'
    have := key _ _ h
    omega

end JST.Export
