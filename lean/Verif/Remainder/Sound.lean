import Verif.Remainder.LayerValues
import Mathlib.Algebra.BigOperators.Group.List.Lemmas
import Mathlib.Algebra.GroupWithZero.Basic

/-!
# The Remainder backend: the constraints force the values, layer by layer
-/

namespace JST.Remainder

open scoped BigOperators

theorem bind_ok {α β : Type} {x : R α} {f : α → R β} {b : β} :
    (x >>= f) = .ok b ↔ ∃ a, x = .ok a ∧ f a = .ok b := by
  cases x with
  | error e => simp [bind, Except.bind]
  | ok a => simp [bind, Except.bind]

theorem need_ok {α : Type} {o : Option α} {e : String} {a : α} : need o e = .ok a ↔ o = some a := by
  cases o <;> simp [need]

theorem maxOf_eq {l : List Int} {x : Int} (hx : x ∈ l) (hle : ∀ y ∈ l, y ≤ x) : maxOf l = x := by
  have key : ∀ (l : List Int) (a : Int), (∀ y ∈ l, y ≤ l.foldl max a) ∧ a ≤ l.foldl max a ∧
      (l.foldl max a = a ∨ l.foldl max a ∈ l) := by
    intro l
    induction l with
    | nil => intro a; simp
    | cons b l ih =>
      intro a
      obtain ⟨h1, h2, h3⟩ := ih (max a b)
      refine ⟨?_, le_trans (le_max_left a b) h2, ?_⟩
      · intro y hy
        rcases List.mem_cons.1 hy with rfl | hy
        · exact le_trans (le_max_right a y) h2
        · exact h1 y hy
      · simp only [List.foldl_cons]
        rcases h3 with h3 | h3
        · rw [h3]
          rcases max_choice a b with h | h
          · left; exact h
          · right; rw [h]; simp
        · right; exact List.mem_cons_of_mem _ h3
  cases l with
  | nil => simp at hx
  | cons a l =>
    obtain ⟨h1, h2, h3⟩ := key l a
    apply le_antisymm
    · apply hle
      simp only [maxOf]
      rcases h3 with h3 | h3
      · rw [h3]; simp
      · exact List.mem_cons_of_mem _ h3
    · rcases List.mem_cons.1 hx with rfl | hx
      · exact h2
      · exact h1 x hx

section

variable {p : Nat}

/-- The equations of a MaxPool. -/
theorem pool_forced [Fact p.Prime] (hp : 2 ^ 100 < p) {xs : List Int} {m : ZMod p} {j : Nat → Nat} (h0 : xs ≠ [])
    (hx : ∀ x ∈ xs, InI64 x) (hj : ∀ i < xs.length, j i < 2 ^ 18)
    (h1 : ∀ i < xs.length, m - ((xs.getD i 0 : Int) : ZMod p) - (j i : ZMod p) = 0)
    (h2 : ((List.range xs.length).map fun i => (j i : ZMod p)).prod = 0) :
    m = ((maxOf xs : Int) : ZMod p) ∧ InI64 (maxOf xs) := by
  have hp' : ((2 : Int) ^ 100) < p := by exact_mod_cast hp
  obtain ⟨i0, hi0, hz⟩ : ∃ i < xs.length, (j i : ZMod p) = 0 := by
    rw [List.prod_eq_zero_iff, List.mem_map] at h2
    obtain ⟨i, hi, h⟩ := h2
    exact ⟨i, List.mem_range.1 hi, h⟩
  have hm : m = ((xs.getD i0 0 : Int) : ZMod p) := by
    have := h1 i0 hi0; rw [hz] at this; linear_combination this
  have hmem : ∀ i < xs.length, xs.getD i 0 ∈ xs := by
    intro i hi
    have : xs.getD i 0 = xs[i] := by simp [hi]
    rw [this]; exact List.getElem_mem hi
  have hmax : maxOf xs = xs.getD i0 0 := by
    apply maxOf_eq (hmem i0 hi0)
    intro y hy
    obtain ⟨i, hi, rfl⟩ := List.getElem_of_mem hy
    have hg : xs.getD i 0 = xs[i] := by simp [hi]
    have e := h1 i hi
    rw [hm, hg] at e
    have e2 : ((xs.getD i0 0 : Int) : ZMod p) = ((xs[i] + (j i : Int) : Int) : ZMod p) := by
      push_cast; linear_combination e
    obtain ⟨a1, a2⟩ := hx _ (hmem i0 hi0)
    obtain ⟨b1, b2⟩ := hx _ (List.getElem_mem hi)
    have hji : (j i : Int) < 2 ^ 18 := by exact_mod_cast hj i hi
    have := int_eq_of_cast e2 (by norm_num at *; linarith) (by norm_num at *; linarith)
    rw [this]; linarith [Int.natCast_nonneg (j i)]
  rw [hmax]
  exact ⟨hm, hx _ (hmem i0 hi0)⟩

/-- The constraints of a layer. -/
def BlockHolds (env : SName → Nat → ZMod p) (b : Block) : Prop :=
  (∀ e ∈ b.outs, ∀ i < 2 ^ e.1, e.2.eval env i = 0) ∧
  (∀ r ∈ b.reqs, ∀ i < 2 ^ r.nodeNv, ∃ j : Nat, j < 2 ^ r.tableNv ∧ r.node.eval env i = (j : ZMod p))

/-- The public vectors of a layer have their public values. -/
def PubOK (env : SName → Nat → ZMod p) (pub : SName → Option Vec) (b : Block) : Prop :=
  ∀ s ∈ b.shreds, s.pub = true → ∀ v, pub s.name = some v → ∀ i < 2 ^ s.nv, env s.name i = (v.2 i : ZMod p)

/-- A field element that stands for a machine integer. -/
def Small (x : ZMod p) : Prop := ∃ z : Int, InI64 z ∧ x = (z : ZMod p)

/-- The quotients of a layer stand for machine integers. -/
def SmallQ (env : SName → Nat → ZMod p) (b : Block) : Prop :=
  ∀ s ∈ b.shreds, ∀ n, s.name = .q n → ∀ i < 2 ^ s.nv, Small (env s.name i)

/-- Builder, public values and reference agree. -/
structure Inv (env : SName → Nat → ZMod p) (st : St) (ps : PSt) (rs : RSt) : Prop where
  val : ∀ t n nv, st.node t = some (n, nv) → ∃ f, rs.val t = some (nv, f) ∧
    ∀ i < 2 ^ nv, n.eval env i = (f i : ZMod p) ∧ InI64 (f i)
  none : ∀ t, st.node t = none → rs.val t = none
  size : ∀ t, ps.size t = (st.node t).map fun q => 2 ^ q.2
  lay : rs.layout = st.layout
  play : ps.layout = st.layout

theorem Inv.set {env : SName → Nat → ZMod p} {st : St} {ps : PSt} {rs : RSt} (h : Inv env st ps rs)
    (ns : List String) (n : Node) (nv : Nat) (f : Nat → Int) (lay lay' lay'' : Tab Layout)
    (hl : lay' = lay) (hl' : lay'' = lay)
    (hf : ∀ i < 2 ^ nv, n.eval env i = (f i : ZMod p) ∧ InI64 (f i)) :
    Inv env ⟨setAll st.node ns (n, nv), lay⟩ ⟨setAll ps.size ns (2 ^ nv), lay'⟩ ⟨setAll rs.val ns (nv, f), lay''⟩ := by
  refine ⟨?_, ?_, ?_, hl', hl⟩
  · intro t n' nv' ht
    by_cases hm : t ∈ ns
    · simp only [setAll, hm, if_true, Option.some.injEq, Prod.mk.injEq] at ht
      obtain ⟨rfl, rfl⟩ := ht
      exact ⟨f, by simp [setAll, hm], hf⟩
    · simp only [setAll, hm, if_false] at ht
      obtain ⟨g, hg, hv⟩ := h.val t n' nv' ht
      exact ⟨g, by simp [setAll, hm, hg], hv⟩
  · intro t ht
    by_cases hm : t ∈ ns
    · simp [setAll, hm] at ht
    · simp only [setAll, hm, if_false] at ht ⊢
      exact h.none t ht
  · intro t
    by_cases hm : t ∈ ns
    · simp [setAll, hm]
    · simp only [setAll, hm, if_false]; exact h.size t

theorem Inv.node_of_val {env : SName → Nat → ZMod p} {st : St} {ps : PSt} {rs : RSt} (h : Inv env st ps rs)
    {t : String} {nv : Nat} {f : Nat → Int} (hv : rs.val t = some (nv, f)) {n : Node} {nv' : Nat}
    (hn : st.node t = some (n, nv')) :
    nv' = nv ∧ ∀ i < 2 ^ nv, n.eval env i = (f i : ZMod p) ∧ InI64 (f i) := by
  obtain ⟨g, hg, h2⟩ := h.val t n nv' hn
  rw [hv] at hg
  simp only [Option.some.injEq, Prod.mk.injEq] at hg
  obtain ⟨rfl, rfl⟩ := hg
  exact ⟨rfl, h2⟩

/-- What the rescaling check gives. -/
theorem rescale_block (m : Model) (l : Layer) (hp : 2 ^ 100 < p) (he : m.exponent ≤ 18)
    (hα : m.alpha = 2 ^ m.exponent) (env : SName → Nat → ZMod p) (V A : Expr) (nv : Nat) (sh : List Shred)
    (s b : Nat → Int) (f : Nat × (Nat → Int))
    (hV : ∀ i < 2 ^ nv, V.eval env i = (s i : ZMod p)) (hA : ∀ i < 2 ^ nv, A.eval env i = (b i : ZMod p))
    (hb : BlockHolds env ⟨sh, (rescaleBlock m l V A nv).1, (rescaleBlock m l V A nv).2⟩)
    (hq : ∀ i < 2 ^ nv, Small (env (.q l.name) i))
    (hf : rescaleAll m.alpha nv s b = .ok f) :
    f.1 = nv ∧ ∀ i < 2 ^ nv, (Node.shred (.q l.name)).eval env i = (f.2 i : ZMod p) ∧ InI64 (f.2 i) := by
  unfold rescaleAll at hf
  split_ifs at hf with hr
  simp only [Except.ok.injEq] at hf
  subst hf
  refine ⟨rfl, fun i hi => ?_⟩
  obtain ⟨z, hz, hqz⟩ := hq i hi
  have h1 := hb.1 _ (List.mem_singleton.2 rfl) i hi
  obtain ⟨j, hj, hrj⟩ := hb.2 _ (List.mem_singleton.2 rfl) i hi
  simp only [Expr.eval, Node.eval] at h1 hrj
  rw [hV i hi, hA i hi, hrj, hqz, hα] at h1
  obtain ⟨⟨-, -⟩, c1, c2⟩ := hr i hi
  have hzv : z = (s i + b i) / 2 ^ m.exponent := by
    apply rescale_forced he hp hz ⟨by norm_num at *; linarith, by norm_num at *; linarith⟩ hj
    push_cast at h1 ⊢
    linear_combination h1
  simp only [Node.eval]
  rw [hqz, hα, ← hzv]
  exact ⟨rfl, hz⟩

end

end JST.Remainder
