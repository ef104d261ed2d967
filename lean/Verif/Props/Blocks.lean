import Verif.Tensor.LayerNorm
import Verif.Props.Lanes

/-!
# Block-wise layers: what each block guarantees, the layer guarantees
-/

set_option linter.unusedSectionVars false

namespace JST.Props

open JST.Shape JST.Layers JST.Spec

variable {p : Nat} [Fact p.Prime] {T : Tables (ZMod p)}

/-- Block number `k` of a list of blocks of `n`. -/
def chunkAt {α : Type} (n : Nat) (l : List α) (k : Nat) : List α := (l.drop (k * n)).take n

theorem chunkAt_length {α : Type} {n k m : Nat} {l : List α} (hl : l.length = m * n) (hk : k < m) :
    (chunkAt n l k).length = n := by
  unfold chunkAt
  rw [List.length_take, List.length_drop, hl]
  have : (k + 1) * n ≤ m * n := Nat.mul_le_mul_right _ hk
  rw [Nat.add_mul, Nat.one_mul] at this
  omega

theorem chunkAt_flatten {α : Type} {n : Nat} : ∀ {ls : List (List α)} (_ : ∀ l ∈ ls, l.length = n) {k : Nat}
    (hk : k < ls.length), chunkAt n ls.flatten k = ls[k]
  | l :: ls, h, 0, _ => by
    have := h l (by simp)
    simp [chunkAt, ← this]
  | l :: ls, h, k + 1, hk => by
    have hl := h l (by simp)
    have ih := chunkAt_flatten (n := n) (ls := ls) (fun m hm => h m (by simp [hm])) (k := k) (by simpa using hk)
    simp only [List.getElem_cons_succ, ← ih, chunkAt, List.flatten_cons]
    congr 1
    rw [Nat.add_mul, Nat.one_mul, Nat.add_comm, ← List.drop_drop, ← hl, List.drop_left]

theorem flatten_length_const {α : Type} {n : Nat} : ∀ {ls : List (List α)} (_ : ∀ l ∈ ls, l.length = n),
    ls.flatten.length = ls.length * n
  | [], _ => by simp
  | l :: ls, h => by
    have ih := flatten_length_const (ls := ls) fun m hm => h m (by simp [hm])
    simp only [List.flatten_cons, List.length_append, ih, h l (by simp), List.length_cons]
    ring

theorem take_drop_prod (s : List Nat) (a : Nat) : (s.take a).prod * (s.drop a).prod = s.prod := by
  rw [← List.prod_append, List.take_append_drop]

theorem chunkAt_isBlock {α : Type} {x : Arr α} (hw : x.WF) {axis : Nat} {lead : List Nat}
    (hl : InRange (x.shape.take axis) lead) :
    IsBlock axis x lead (chunkAt (x.shape.drop axis).prod x.data (rowMajor (x.shape.take axis) lead)) := by
  have hk := rowMajor_lt hl
  have hlen : x.data.length = (x.shape.take axis).prod * (x.shape.drop axis).prod := by rw [take_drop_prod]; exact hw
  unfold IsBlock
  have e : ∀ c ∈ coordsOf (x.shape.drop axis), elem x (lead ++ c) =
      x.data[rowMajor (x.shape.take axis) lead * (x.shape.drop axis).prod + rowMajor (x.shape.drop axis) c]? := by
    intro c _
    unfold elem
    conv_lhs => rw [← List.take_append_drop axis x.shape]
    rw [rowMajor_append _ _ _ _ hl.length_eq]
  rw [List.map_congr_left e]
  have e2 : (coordsOf (x.shape.drop axis)).map (fun c =>
      x.data[rowMajor (x.shape.take axis) lead * (x.shape.drop axis).prod + rowMajor (x.shape.drop axis) c]?) =
      (List.range (x.shape.drop axis).prod).map fun j =>
        x.data[rowMajor (x.shape.take axis) lead * (x.shape.drop axis).prod + j]? := by
    rw [← coordsOf_rowMajor, List.map_map]; rfl
  rw [e2]
  apply List.ext_getElem (by simp [chunkAt_length hlen hk])
  intro i h1 h2
  have hi : i < (x.shape.drop axis).prod := by simpa using h2
  simp only [List.getElem_map, List.getElem_range, chunkAt, List.getElem_take, List.getElem_drop]
  rw [List.getElem?_eq_getElem]

theorem isBlock_unique {α : Type} {axis : Nat} {a : Arr α} {c : List Nat} {l l' : List α} (h : IsBlock axis a c l)
    (h' : IsBlock axis a c l') : l = l' := by
  have e : l.map some = l'.map some := by rw [h, h']
  exact List.map_injective_iff.2 (Option.some_injective _) e

theorem chunkAt_map {α β : Type} (f : α → β) (n : Nat) (l : List α) (k : Nat) :
    chunkAt n (l.map f) k = (chunkAt n l k).map f := by
  simp [chunkAt, List.map_take, List.map_drop]

theorem chunkAt_mem {α : Type} {n k : Nat} {l : List α} {u : α} (h : u ∈ chunkAt n l k) : u ∈ l :=
  List.mem_of_mem_drop (List.mem_of_mem_take h)

theorem isBlockwise_of {x : Arr Int} (hw : x.WF) {axis : Nat} {R : List Int → List (ZMod p) → Prop}
    (hR : ∀ l l', R l l' → l'.length = l.length) {ls : List (List (ZMod p))}
    (h : List.Forall₂ (fun k l => R (chunkAt (x.shape.drop axis).prod x.data k) l)
      (List.range (x.shape.take axis).prod) ls) :
    ls.flatten.length = x.shape.prod ∧ IsBlockwise axis x R ⟨x.shape, ls.flatten⟩ := by
  have hlen : x.data.length = (x.shape.take axis).prod * (x.shape.drop axis).prod := by rw [take_drop_prod]; exact hw
  have hll : ls.length = (x.shape.take axis).prod := by simpa using h.length_eq.symm
  have hk : ∀ k (hk : k < ls.length), R (chunkAt (x.shape.drop axis).prod x.data k) ls[k] := by
    intro k hk
    have := (List.forall₂_iff_get.1 h).2 k (by simpa [hll] using hk) hk
    simpa using this
  have hn : ∀ l ∈ ls, l.length = (x.shape.drop axis).prod := by
    intro l hl
    obtain ⟨k, hk', rfl⟩ := List.getElem_of_mem hl
    rw [hR _ _ (hk k hk'), chunkAt_length hlen (by omega)]
  have hfl : ls.flatten.length = x.shape.prod := by
    rw [flatten_length_const hn, hll, take_drop_prod]
  refine ⟨hfl, rfl, hfl, fun lead hlead => ?_⟩
  have hlt := rowMajor_lt hlead
  refine ⟨_, _, chunkAt_isBlock hw hlead, chunkAt_isBlock (x := ⟨x.shape, ls.flatten⟩) hfl hlead, ?_⟩
  dsimp only
  rw [chunkAt_flatten hn (by omega)]
  exact hk _ _

theorem sound_blockMap {f : List (ZMod p) → G (ZMod p) (List (ZMod p))} {x : Arr Int} (hw : x.WF) {axis : Nat}
    {R : List Int → List (ZMod p) → Prop} (hR : ∀ l l', R l l' → l'.length = l.length)
    (hf : ∀ l : List Int, l.length = (x.shape.drop axis).prod → (∀ u ∈ l, u ∈ x.data) →
      Sound T (f (l.map fun z : Int => (z : ZMod p))) (R l)) :
    Sound T (blockMap f axis (castArr p x)) (IsBlockwise axis x R) := by
  have hlen : x.data.length = (x.shape.take axis).prod * (x.shape.drop axis).prod := by rw [take_drop_prod]; exact hw
  unfold blockMap
  dsimp only
  refine Sound.bind (sound_collectG (Q := fun k l => R (chunkAt (x.shape.drop axis).prod x.data k) l) _ ?_) ?_
  · intro k hk
    have hk : k < (x.shape.take axis).prod := List.mem_range.1 hk
    have e := chunkAt_map (fun z : Int => (z : ZMod p)) (x.shape.drop axis).prod x.data k
    change Sound T (f (chunkAt (x.shape.drop axis).prod (x.data.map fun z : Int => (z : ZMod p)) k)) _
    rw [e]
    exact hf _ (chunkAt_length hlen hk) fun u hu => chunkAt_mem hu
  intro ls hls
  obtain ⟨h1, h2⟩ := isBlockwise_of hw hR hls
  refine sound_liftR.conseq ?_
  intro z hz
  rw [fromShapeVec_ok (by exact h1)] at hz
  cases hz
  exact h2

theorem complete_blockMap {f : List (ZMod p) → G (ZMod p) (List (ZMod p))} {x : Arr Int} (hw : x.WF) {axis : Nat}
    {R : List Int → List (ZMod p) → Prop} (hR : ∀ l l', R l l' → l'.length = l.length)
    (hf : ∀ lead l, InRange (x.shape.take axis) lead → IsBlock axis x lead l →
      Complete T (f (l.map fun z : Int => (z : ZMod p))) (R l)) :
    Complete T (blockMap f axis (castArr p x)) (IsBlockwise axis x R) := by
  unfold blockMap
  dsimp only
  refine Complete.bind (complete_collectG (Q := fun k l => R (chunkAt (x.shape.drop axis).prod x.data k) l) _ ?_) ?_
  · intro k hk
    have hk : k < (x.shape.take axis).prod := List.mem_range.1 hk
    have e := chunkAt_map (fun z : Int => (z : ZMod p)) (x.shape.drop axis).prod x.data k
    change Complete T (f (chunkAt (x.shape.drop axis).prod (x.data.map fun z : Int => (z : ZMod p)) k)) _
    rw [e]
    have hb := chunkAt_isBlock hw (unravel_inRange hk)
    rw [rowMajor_unravel hk] at hb
    exact hf _ _ (unravel_inRange hk) hb
  intro ls hls
  obtain ⟨h1, h2⟩ := isBlockwise_of hw hR hls
  refine (complete_liftR (fromShapeVec_ok (by exact h1))).conseq ?_
  rintro _ rfl
  exact h2

theorem forall₂_map {α β : Type} {Q : α → β → Prop} {g : α → β} : ∀ {l : List α}, (∀ a ∈ l, Q a (g a)) →
    List.Forall₂ Q l (l.map g)
  | [], _ => .nil
  | a :: l, h => .cons (h a (by simp)) (forall₂_map fun b hb => h b (by simp [hb]))

/-- Forging block by block. -/
theorem forge_blockMap {f : List (ZMod p) → G (ZMod p) (List (ZMod p))} {x : Arr Int} (hw : x.WF) {axis : Nat}
    {g : List Int → List (ZMod p)} (hg : ∀ l : List Int, l.length = (x.shape.drop axis).prod → (g l).length = l.length)
    (hf : ∀ l : List Int, l.length = (x.shape.drop axis).prod → (∀ u ∈ l, u ∈ x.data) →
      Forge T (f (l.map fun z : Int => (z : ZMod p))) (fun o => o = g l)) :
    Forge T (blockMap f axis (castArr p x)) (IsBlockwise axis x fun l o => o = g l ∧ o.length = l.length) := by
  have hlen : x.data.length = (x.shape.take axis).prod * (x.shape.drop axis).prod := by rw [take_drop_prod]; exact hw
  unfold blockMap
  dsimp only
  refine Forge.bind (forge_collectG (g := fun k => g (chunkAt (x.shape.drop axis).prod x.data k)) _ ?_) (fun _ h => h) ?_
  · intro k hk
    have hk : k < (x.shape.take axis).prod := List.mem_range.1 hk
    have e := chunkAt_map (fun z : Int => (z : ZMod p)) (x.shape.drop axis).prod x.data k
    change Forge T (f (chunkAt (x.shape.drop axis).prod (x.data.map fun z : Int => (z : ZMod p)) k)) _
    rw [e]
    exact hf _ (chunkAt_length hlen hk) fun u hu => chunkAt_mem hu
  have hl := forall₂_map (Q := fun k l => (fun (l : List Int) (o : List (ZMod p)) => o = g l ∧ o.length = l.length)
    (chunkAt (x.shape.drop axis).prod x.data k) l) (g := fun k => g (chunkAt (x.shape.drop axis).prod x.data k))
    (l := List.range (x.shape.take axis).prod)
    fun k hk => ⟨rfl, hg _ (chunkAt_length hlen (List.mem_range.1 hk))⟩
  obtain ⟨h1, h2⟩ := isBlockwise_of (R := fun (l : List Int) (o : List (ZMod p)) => o = g l ∧ o.length = l.length)
    (axis := axis) hw (fun _ _ h => h.2) hl
  rw [fromShapeVec_ok (by exact h1)]
  exact Forge.pure h2

/-- If no block can be proved and there is a block, nothing can be proved. -/
theorem sound_blockMap_false {f : List (ZMod p) → G (ZMod p) (List (ZMod p))} {x : Arr (ZMod p)} {axis : Nat}
    (hne : ∀ d ∈ x.shape.take axis, d ≠ 0) (hf : ∀ l, Sound T (f l) fun _ => False) :
    Sound T (blockMap f axis x) fun _ => False := by
  unfold blockMap
  dsimp only
  refine Sound.bind (sound_collectG_false _ ⟨0, ?_, hf _⟩) fun _ h => h.elim
  rw [List.mem_range]
  exact Nat.pos_of_ne_zero (List.prod_ne_zero fun h => hne 0 h rfl)

end JST.Props
