import Verif.Compiler.Share

/-!
# The union-find structure of `find_common_parts`

Model of `compiler/expander_compiler/src/utils/union_find.rs` and of the loop over the edges as the code runs it
(`circuit/layered/opt.rs:620-648`), with the array of parents and the look-ups which shorten paths.
-/

namespace JST.Export

/-- One turn of the loop of `find`, `union_find.rs:12-15`. -/
def halve (p : Nat → Nat) (x : Nat) : Nat → Nat := Function.update p x (p (p x))

/-- `find`, `union_find.rs:11-17`: called with parents `p` on `x` it leaves the parents `p'` and returns `r`. -/
inductive Find : (Nat → Nat) → Nat → (Nat → Nat) → Nat → Prop
  | done {p x} : p x = x → Find p x p x
  | step {p x p' r} : p x ≠ x → Find (halve p x) (halve p x x) p' r → Find p x p' r

/-- `union`, `union_find.rs:19-23`. -/
def Union (p : Nat → Nat) (x y : Nat) (p' : Nat → Nat) : Prop :=
  ∃ p1 a p2 b, Find p x p1 a ∧ Find p1 y p2 b ∧ p' = Function.update p2 a b

/-- A call of a user of the structure. -/
inductive UfOp
  | find (x : Nat)
  | union (x y : Nat)

/-- A sequence of calls. -/
inductive UfRun : (Nat → Nat) → List UfOp → (Nat → Nat) → Prop
  | nil {p} : UfRun p [] p
  | find {p x p' r ops q} : Find p x p' r → UfRun p' ops q → UfRun p (.find x :: ops) q
  | union {p x y p' ops q} : Union p x y p' → UfRun p' ops q → UfRun p (.union x y :: ops) q

variable {F : Type} [DecidableEq F]

/-- One round of the loop over the edges, `opt.rs:623-648`. -/
def JoinStep (s : (Nat → Nat) × (Nat → Grp F)) (e : Nat × Nat) (s' : (Nat → Nat) × (Nat → Grp F)) : Prop :=
  ∃ p1 a p2 b, Find s.1 e.1 p1 a ∧ Find p1 e.2 p2 b ∧
    if a = b then s' = (p2, s.2) else
    let x := if (s.2 a).size < (s.2 b).size then b else a
    let y := if (s.2 a).size < (s.2 b).size then a else b
    if ((s.2 y).inter (s.2 x)).size < 10 then s' = (p2, s.2) else
    ∃ p3 p4 z, Union p2 x y p3 ∧ Find p3 x p4 z ∧ s' = (p4, Function.update s.2 z ((s.2 x).inter (s.2 y)))

/-- The loop. -/
inductive JoinRun : (Nat → Nat) × (Nat → Grp F) → List (Nat × Nat) → (Nat → Nat) × (Nat → Grp F) → Prop
  | nil {s} : JoinRun s [] s
  | cons {s e s' r t} : JoinStep s e s' → JoinRun s' r t → JoinRun s (e :: r) t

/-! ### Representatives -/

/-- From `x` the root `r` is reached in `k` steps. -/
inductive RootIn (p : Nat → Nat) : Nat → Nat → Nat → Prop
  | done {x} : p x = x → RootIn p 0 x x
  | step {k x r} : p x ≠ x → RootIn p k (p x) r → RootIn p (k + 1) x r

def Root (p : Nat → Nat) (x r : Nat) : Prop := ∃ k, RootIn p k x r

theorem RootIn.fixed {p : Nat → Nat} {k x r : Nat} (h : RootIn p k x r) : p r = r := by
  induction h with
  | done h => exact h
  | step _ _ ih => exact ih

theorem RootIn.unique {p : Nat → Nat} {k x r : Nat} (h : RootIn p k x r) : ∀ {k' r'}, RootIn p k' x r' → r' = r := by
  induction h with
  | done h =>
    intro k' r' h'
    cases h' with
    | done _ => rfl
    | step hn _ => exact absurd h hn
  | step hn _ ih =>
    intro k' r' h'
    cases h' with
    | done h => exact absurd h hn
    | step _ h' => exact ih h'

theorem Root.unique {p : Nat → Nat} {x r r' : Nat} (h : Root p x r) (h' : Root p x r') : r' = r := by
  obtain ⟨k, h⟩ := h
  obtain ⟨k', h'⟩ := h'
  exact h.unique h'

/-- No circle of length two. -/
theorem RootIn.noCircle {p : Nat → Nat} {x : Nat} (hx : p x ≠ x) (hc : p (p x) = x) {k y r : Nat} (h : RootIn p k y r) :
    ¬ (y = x ∨ y = p x) := by
  induction h with
  | done h =>
    rintro (rfl | rfl)
    · exact hx h
    · exact hx (h.symm.trans hc)
  | step _ _ ih =>
    rintro (rfl | rfl)
    · exact ih (.inr rfl)
    · exact ih (.inl hc)

theorem halve_other (p : Nat → Nat) {x y : Nat} (h : y ≠ x) : halve p x y = p y := Function.update_of_ne h ..

theorem halve_self (p : Nat → Nat) (x : Nat) : halve p x x = p (p x) := Function.update_self ..

/-- Shortening a path keeps the roots, and makes no path longer. -/
theorem halve_root {p : Nat → Nat} {x : Nat} (hx : p x ≠ x) (hc : p (p x) ≠ x) {k y r : Nat} (h : RootIn p k y r) :
    ∃ k' ≤ k, RootIn (halve p x) k' y r := by
  induction h with
  | @done y h =>
    have : y ≠ x := fun e => hx (e ▸ h)
    exact ⟨0, le_refl _, .done (by rw [halve_other p this]; exact h)⟩
  | @step k y r hn h ih =>
    obtain ⟨k1, hk1, h1⟩ := ih
    by_cases e : y = x
    · subst e
      by_cases hp : p (p y) = p y
      · refine ⟨k1 + 1, by omega, .step (by rw [halve_self]; exact hc) ?_⟩
        rw [halve_self, hp]; exact h1
      · have e' : halve p y (p y) = p (p y) := halve_other p hn
        cases h1 with
        | done h0 => exact absurd (e'.symm.trans h0) hp
        | @step k2 _ _ _ h2 =>
          refine ⟨k2 + 1, by omega, .step (by rw [halve_self]; exact hc) ?_⟩
          rw [halve_self, ← e']; exact h2
    · refine ⟨k1 + 1, by omega, .step (by rw [halve_other p e]; exact hn) ?_⟩
      rw [halve_other p e]; exact h1

/-- Everything has a root. -/
def Forest (p : Nat → Nat) : Prop := ∀ x, ∃ r, Root p x r

theorem halve_forest {p : Nat → Nat} (hp : Forest p) {x : Nat} (hx : p x ≠ x) : p (p x) ≠ x := by
  obtain ⟨r, k, h⟩ := hp x
  exact fun hc => h.noCircle hx hc (.inl rfl)

/-- **`find`** returns the root and changes no root. -/
theorem find_ok {p : Nat → Nat} {x : Nat} {p' : Nat → Nat} {r : Nat} (h : Find p x p' r) (hp : Forest p) :
    Forest p' ∧ Root p x r ∧ ∀ y s, Root p y s → Root p' y s := by
  induction h with
  | done h => exact ⟨hp, ⟨0, .done h⟩, fun _ _ h => h⟩
  | @step p x p' r hx _ ih =>
    have hc := halve_forest hp hx
    have key : ∀ y s, Root p y s → Root (halve p x) y s := fun y s ⟨k, h⟩ => by
      obtain ⟨k', -, h'⟩ := halve_root hx hc h
      exact ⟨k', h'⟩
    obtain ⟨h1, h2, h3⟩ := ih fun y => by
      obtain ⟨s, hs⟩ := hp y
      exact ⟨s, key y s hs⟩
    refine ⟨h1, ?_, fun y s hs => h3 y s (key y s hs)⟩
    obtain ⟨s, hs⟩ := hp x
    obtain ⟨k, hk⟩ := key x s hs
    have hne : halve p x x ≠ x := by rw [halve_self]; exact hc
    cases hk with
    | done h => exact absurd h hne
    | step _ hk =>
      have := h2.unique ⟨_, hk⟩
      subst this
      exact hs

/-- **`find`** returns. -/
theorem find_exists : ∀ (k : Nat) {p : Nat → Nat} {x r : Nat}, Forest p → RootIn p k x r → ∃ p' r', Find p x p' r' := by
  intro k
  induction k using Nat.strong_induction_on with
  | _ k ih =>
    intro p x r hp h
    cases h with
    | done h => exact ⟨p, x, .done h⟩
    | @step k _ _ hx h =>
      have hc := halve_forest hp hx
      obtain ⟨k', hk', h'⟩ := halve_root hx hc (.step hx h)
      have hne : halve p x x ≠ x := by rw [halve_self]; exact hc
      cases h' with
      | done h0 => exact absurd h0 hne
      | @step k2 _ _ _ h2 =>
        obtain ⟨p', r', hf⟩ := ih k2 (by omega) (fun y => by
          obtain ⟨s, j, hs⟩ := hp y
          obtain ⟨j', -, hs'⟩ := halve_root hx hc hs
          exact ⟨s, j', hs'⟩) h2
        exact ⟨p', r', .step hx hf⟩

/-- Putting one root below another. -/
theorem link_root {p : Nat → Nat} {a b : Nat} (ha : p a = a) (hb : p b = b) (hab : a ≠ b) {k y r : Nat} (h : RootIn p k y r) :
    Root (Function.update p a b) y (if r = a then b else r) := by
  have hb' : Function.update p a b b = b := by rw [Function.update_of_ne hab.symm]; exact hb
  induction h with
  | @done y h =>
    by_cases e : y = a
    · subst e
      rw [if_pos rfl]
      exact ⟨1, .step (by rw [Function.update_self]; exact hab.symm) (by rw [Function.update_self]; exact .done hb')⟩
    · rw [if_neg e]
      exact ⟨0, .done (by rw [Function.update_of_ne e]; exact h)⟩
  | @step k y r hn _ ih =>
    have e : y ≠ a := fun e => hn (e ▸ ha)
    obtain ⟨j, hj⟩ := ih
    exact ⟨j + 1, .step (by rw [Function.update_of_ne e]; exact hn) (by rw [Function.update_of_ne e]; exact hj)⟩

/-! ### The loop -/

/-- The parents give the representatives of `u`. -/
def Stands (p : Nat → Nat) (u : Groups F) : Prop := ∀ z, Root p z (u.root z)

omit [DecidableEq F] in
theorem Stands.forest {p : Nat → Nat} {u : Groups F} (h : Stands p u) : Forest p := fun z => ⟨_, h z⟩

omit [DecidableEq F] in
theorem Stands.find {p p' : Nat → Nat} {u : Groups F} (h : Stands p u) {x r : Nat} (hf : Find p x p' r) :
    r = u.root x ∧ Stands p' u := by
  obtain ⟨-, h2, h3⟩ := find_ok hf h.forest
  exact ⟨(h x).unique h2, fun z => h3 z _ (h z)⟩

omit [DecidableEq F] in
theorem Stands.idem {p : Nat → Nat} {u : Groups F} (h : Stands p u) (z : Nat) : u.root (u.root z) = u.root z := by
  obtain ⟨k, hk⟩ := h z
  exact ((h (u.root z)).unique ⟨0, .done hk.fixed⟩).symm

omit [DecidableEq F] in
theorem Stands.union {p p' : Nat → Nat} {u : Groups F} (h : Stands p u) {x y : Nat} (hx : u.root x = x)
    (hy : u.root y = y) (hxy : x ≠ y) (hu : Union p x y p') (g : Nat → Grp F) :
    Stands p' ⟨fun z => if u.root z = x then y else u.root z, g⟩ := by
  obtain ⟨p1, a, p2, b, h1, h2, rfl⟩ := hu
  obtain ⟨rfl, s1⟩ := h.find h1
  obtain ⟨rfl, s2⟩ := s1.find h2
  rw [hx, hy]
  have fx : p2 x = x := by obtain ⟨k, hk⟩ := s2 x; rw [hx] at hk; exact hk.fixed
  have fy : p2 y = y := by obtain ⟨k, hk⟩ := s2 y; rw [hy] at hk; exact hk.fixed
  intro z
  obtain ⟨k, hk⟩ := s2 z
  exact link_root fx fy hxy hk

theorem joinStep_ok {p : Nat → Nat} {u : Groups F} (h : Stands p u) {e : Nat × Nat} {s'} (hj : JoinStep (p, u.grp) e s') :
    Stands s'.1 (u.join e) ∧ s'.2 = (u.join e).grp := by
  obtain ⟨p1, a, p2, b, h1, h2, hj⟩ := hj
  obtain ⟨rfl, s1⟩ := h.find h1
  obtain ⟨rfl, s2⟩ := s1.find h2
  unfold Groups.join
  dsimp only at hj ⊢
  by_cases hab : u.root e.1 = u.root e.2
  · rw [if_pos hab] at hj
    subst hj
    rw [if_pos hab]; exact ⟨s2, rfl⟩
  rw [if_neg hab] at hj ⊢
  generalize hxd : (if (u.grp (u.root e.1)).size < (u.grp (u.root e.2)).size then u.root e.2 else u.root e.1) = x at hj ⊢
  generalize hyd : (if (u.grp (u.root e.1)).size < (u.grp (u.root e.2)).size then u.root e.1 else u.root e.2) = y at hj ⊢
  have hx : u.root x = x := by rw [← hxd]; split_ifs <;> exact h.idem _
  have hy : u.root y = y := by rw [← hyd]; split_ifs <;> exact h.idem _
  have hxy : x ≠ y := by
    rw [← hxd, ← hyd]; split_ifs
    · exact fun e => hab e.symm
    · exact hab
  by_cases hsz : ((u.grp y).inter (u.grp x)).size < 10
  · rw [if_pos hsz] at hj
    subst hj
    rw [if_pos hsz]; exact ⟨s2, rfl⟩
  rw [if_neg hsz] at hj ⊢
  obtain ⟨p3, p4, z, hu, hf, rfl⟩ := hj
  obtain ⟨hz, s4⟩ := (s2.union hx hy hxy hu (Function.update u.grp y ((u.grp x).inter (u.grp y)))).find hf
  have hz : z = y := by rw [hz]; exact if_pos hx
  subst hz
  exact ⟨s4, rfl⟩

theorem find_runs {p : Nat → Nat} (hp : Forest p) (x : Nat) : ∃ p' r, Find p x p' r := by
  obtain ⟨r, k, h⟩ := hp x
  exact find_exists k hp h

theorem joinStep_exists {p : Nat → Nat} {u : Groups F} (h : Stands p u) (e : Nat × Nat) : ∃ s', JoinStep (p, u.grp) e s' := by
  obtain ⟨p1, a, h1⟩ := find_runs h.forest e.1
  obtain ⟨rfl, s1⟩ := h.find h1
  obtain ⟨p2, b, h2⟩ := find_runs s1.forest e.2
  obtain ⟨rfl, s2⟩ := s1.find h2
  by_cases hab : u.root e.1 = u.root e.2
  · exact ⟨(p2, u.grp), p1, _, p2, _, h1, h2, by rw [if_pos hab]⟩
  generalize hxd : (if (u.grp (u.root e.1)).size < (u.grp (u.root e.2)).size then u.root e.2 else u.root e.1) = x
  generalize hyd : (if (u.grp (u.root e.1)).size < (u.grp (u.root e.2)).size then u.root e.1 else u.root e.2) = y
  by_cases hsz : ((u.grp y).inter (u.grp x)).size < 10
  · refine ⟨(p2, u.grp), p1, _, p2, _, h1, h2, ?_⟩
    rw [if_neg hab]
    dsimp only
    rw [hxd, hyd, if_pos hsz]
  have hx : u.root x = x := by rw [← hxd]; split_ifs <;> exact h.idem _
  have hy : u.root y = y := by rw [← hyd]; split_ifs <;> exact h.idem _
  have hxy : x ≠ y := by
    rw [← hxd, ← hyd]; split_ifs
    · exact fun e => hab e.symm
    · exact hab
  obtain ⟨q1, c, g1⟩ := find_runs s2.forest x
  have t1 := (s2.find g1).2
  obtain ⟨q2, d, g2⟩ := find_runs t1.forest y
  have hu : Union p2 x y (Function.update q2 c d) := ⟨q1, c, q2, d, g1, g2, rfl⟩
  have t3 := s2.union hx hy hxy hu u.grp
  obtain ⟨p4, z, g3⟩ := find_runs t3.forest x
  refine ⟨(p4, Function.update u.grp z ((u.grp x).inter (u.grp y))), p1, _, p2, _, h1, h2, ?_⟩
  rw [if_neg hab]
  dsimp only
  rw [hxd, hyd, if_neg hsz]
  exact ⟨_, p4, z, hu, g3, rfl⟩

/-- **The union-find structure is the function of representatives.** The loop of the code over any edges comes to an
end, and then its parents and gates stand for the groups of the model, so that `find` returns their representatives. -/
theorem joinRun_ok : ∀ (edges : List (Nat × Nat)) {p : Nat → Nat} {u : Groups F}, Stands p u →
    (∃ t, JoinRun (p, u.grp) edges t) ∧ ∀ t, JoinRun (p, u.grp) edges t →
      t.2 = (edges.foldl Groups.join u).grp ∧
      ∀ i, (∃ p' r, Find t.1 i p' r) ∧ ∀ p' r, Find t.1 i p' r → r = (edges.foldl Groups.join u).root i
  | [], p, u, h => by
    refine ⟨⟨_, .nil⟩, fun t ht => ?_⟩
    cases ht
    exact ⟨rfl, fun i => ⟨find_runs h.forest i, fun p' r hf => (h.find hf).1⟩⟩
  | e :: r, p, u, h => by
    refine ⟨?_, fun t ht => ?_⟩
    · obtain ⟨⟨q, g⟩, hs⟩ := joinStep_exists h e
      obtain ⟨h1, h2⟩ := joinStep_ok h hs
      have h2 : g = (u.join e).grp := h2
      subst h2
      obtain ⟨⟨t, ht⟩, -⟩ := joinRun_ok r h1
      exact ⟨t, .cons hs ht⟩
    · cases ht with
      | @cons _ _ s' _ _ hs ht =>
        obtain ⟨q, g⟩ := s'
        obtain ⟨h1, h2⟩ := joinStep_ok h hs
        have h2 : g = (u.join e).grp := h2
        subst h2
        exact (joinRun_ok r h1).2 t ht

end JST.Export
