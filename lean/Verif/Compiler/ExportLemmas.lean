import Verif.Compiler.Export
import Mathlib.Algebra.BigOperators.Group.List.Lemmas

/-!
# Flattening: lemmas
-/

namespace JST.Export

open JST.Gkr

variable {F : Type} [Field F]

/-! ### The gates a segment stands for -/

/-- The gates of one kind a segment stands for: its own, then those of its children at their places. -/
def expand (segs : List (PSeg F)) (kind : PSeg F → List (PGate F)) : Nat → Nat → List (PGate F)
  | 0, _ => []
  | d + 1, id => match segs[id]? with
    | none => []
    | some s => kind s ++ s.kids.flatMap fun k => k.2.flatMap fun a => (expand segs kind d k.1).map (PGate.shift a)

/-- A segment without gates has none of the kind. -/
def IsKind (kind : PSeg F → List (PGate F)) : Prop := ∀ s, s.containGates = false → kind s = []

omit [Field F] in
theorem isKind_muls : IsKind (F := F) PSeg.muls := fun s h => by
  simp [PSeg.containGates] at h; exact h.1.1

omit [Field F] in
theorem isKind_adds : IsKind (F := F) PSeg.adds := fun s h => by
  simp [PSeg.containGates] at h; exact h.1.2

omit [Field F] in
theorem isKind_csts : IsKind (F := F) PSeg.csts := fun s h => by
  simp [PSeg.containGates] at h; exact h.2

/-- The gates of one leaf. -/
def atLeaf (segs : List (PSeg F)) (kind : PSeg F → List (PGate F)) (id : Nat) (as : List (Nat × Nat)) :
    List (PGate F) :=
  match segs[id]? with
  | none => []
  | some s => as.flatMap fun a => (kind s).map (PGate.shift a)

omit [Field F] in
theorem gather_eq (segs : List (PSeg F)) (kind) (m : Leaves) :
    gather segs kind m = m.flatMap fun l => atLeaf segs kind l.1 l.2 := rfl

omit [Field F] in
theorem atLeaf_append (segs : List (PSeg F)) (kind) (id) (a b : List (Nat × Nat)) :
    atLeaf segs kind id (a ++ b) = atLeaf segs kind id a ++ atLeaf segs kind id b := by
  unfold atLeaf
  cases segs[id]? with
  | none => rfl
  | some s => simp

omit [Field F] in
theorem shift_shift (a b : Nat × Nat) (g : PGate F) :
    PGate.shift a (PGate.shift b g) = PGate.shift (a.1 + b.1, a.2 + b.2) g := by
  simp [PGate.shift, Nat.add_assoc, Function.comp_def]

omit [Field F] in
theorem shift_zero (g : PGate F) : PGate.shift (0, 0) g = g := by
  simp [PGate.shift]

omit [Field F] in
theorem gather_push (segs : List (PSeg F)) (kind) (id : Nat) (new) (m : Leaves) :
    (gather segs kind (m.push id new)).Perm (gather segs kind m ++ atLeaf segs kind id new) := by
  induction m with
  | nil => simp [Leaves.push, gather_eq]
  | cons e r ih =>
    rw [Leaves.push]
    split_ifs with h
    · subst h
      simp only [gather_eq, List.flatMap_cons, atLeaf_append, List.append_assoc]
      exact (List.perm_append_comm).append_left _
    · simp only [gather_eq, List.flatMap_cons, List.append_assoc] at ih ⊢
      exact ih.append_left _

omit [Field F] in
theorem atLeaf_places (segs : List (PSeg F)) (kind) (id : Nat) (places as : List (Nat × Nat)) :
    atLeaf segs kind id (places.flatMap fun c => as.map fun a => (c.1 + a.1, c.2 + a.2)) =
      places.flatMap fun c => (atLeaf segs kind id as).map (PGate.shift c) := by
  unfold atLeaf
  cases segs[id]? with
  | none => simp
  | some s =>
    simp only [List.flatMap_assoc, List.map_flatMap, List.flatMap_map, List.map_map]
    congr 1; funext c; congr 1; funext a
    refine List.map_congr_left fun g _ => ?_
    rw [Function.comp_apply, shift_shift]

omit [Field F] in
theorem gather_merge (segs : List (PSeg F)) (kind) (places) (leaves m : Leaves) :
    (gather segs kind (m.merge places leaves)).Perm
      (gather segs kind m ++ places.flatMap fun c => (gather segs kind leaves).map (PGate.shift c)) := by
  induction leaves generalizing m with
  | nil =>
    rw [show (places.flatMap fun c => (gather segs kind []).map (PGate.shift c)) = [] from
      List.flatMap_eq_nil_iff.2 fun _ _ => rfl, List.append_nil]
    exact List.Perm.refl _
  | cons l r ih =>
    have h1 := ih (m.push l.1 (places.flatMap fun c => l.2.map fun a => (c.1 + a.1, c.2 + a.2)))
    have h2 := gather_push segs kind l.1 (places.flatMap fun c => l.2.map fun a => (c.1 + a.1, c.2 + a.2)) m
    rw [atLeaf_places] at h2
    refine h1.trans ((h2.append_right _).trans ?_)
    rw [List.append_assoc]
    refine List.Perm.append_left _ ?_
    refine (List.flatMap_append_perm _ _ _).trans ?_
    simp [gather_eq]

omit [Field F] in
theorem gather_kids (segs : List (PSeg F)) (kind) (d : Nat)
    (hrec : ∀ id m, Scan segs d id m → (gather segs kind m).Perm (expand segs kind d id)) :
    ∀ (kids : List (Nat × List (Nat × Nat))) (m m' : Leaves), ScanKids (Scan segs d) kids m m' →
      (gather segs kind m').Perm (gather segs kind m ++
        kids.flatMap fun k => k.2.flatMap fun a => (expand segs kind d k.1).map (PGate.shift a))
  | [], m, m', h => by cases h; simp
  | k :: r, m, m', h => by
    obtain ⟨leaves, hl, h⟩ := h
    have h1 := gather_kids segs kind d hrec r _ _ h
    have h2 := gather_merge segs kind k.2 leaves m
    refine h1.trans ((h2.append_right _).trans ?_)
    rw [List.append_assoc, List.flatMap_cons]
    refine List.Perm.append_left _ (List.Perm.append_right _ ?_)
    exact List.Perm.flatMap_left _ fun a _ => (hrec _ _ hl).map _

omit [Field F] in
/-- Whatever order the maps come in, the leaves give the gates the segment stands for. -/
theorem gather_scan (segs : List (PSeg F)) {kind} (hk : IsKind kind) :
    ∀ (d id : Nat) (m : Leaves), Scan segs d id m → (gather segs kind m).Perm (expand segs kind d id)
  | 0, _, _, h => h.elim
  | d + 1, id, m', h => by
    obtain ⟨s, m, hs, h, hp⟩ := h
    have h1 := gather_kids segs kind d (gather_scan segs hk d) _ _ _ h
    have h0 : gather segs kind (s.start id) = kind s := by
      unfold PSeg.start
      cases hc : s.containGates with
      | false => simp [gather_eq, hk s hc]
      | true => simp [gather_eq, atLeaf, hs, funext shift_zero]
    rw [h0] at h1
    rw [expand, hs]
    refine List.Perm.trans ?_ h1
    rw [gather_eq, gather_eq]
    exact (hp.symm.flatMap_right _)

/-! ### Depth -/

/-- Children are earlier segments. -/
def Earlier (segs : List (PSeg F)) : Prop := ∀ (id : Nat) (s : PSeg F), segs[id]? = some s → ∀ k ∈ s.kids, k.1 < id

omit [Field F] in
theorem expand_depth (segs : List (PSeg F)) (kind) (he : Earlier segs) :
    ∀ (d d' id : Nat), id < d → id < d' → expand segs kind d id = expand segs kind d' id
  | 0, _, _, h, _ => by omega
  | _, 0, _, _, h => by omega
  | d + 1, d' + 1, id, h, h' => by
    rw [expand, expand]
    cases hs : segs[id]? with
    | none => rfl
    | some s =>
      dsimp only
      congr 1
      refine List.flatMap_congr fun k hk => ?_
      have := he id s hs k hk
      rw [expand_depth segs kind he d d' k.1 (by omega) (by omega)]

omit [Field F] in
/-- A scan which succeeds has gone deep enough: more depth gives the same gates. -/
theorem expand_scan (segs : List (PSeg F)) (kind) :
    ∀ (d id : Nat) (m : Leaves), Scan segs d id m → ∀ e, expand segs kind (d + e) id = expand segs kind d id
  | 0, _, _, h, _ => h.elim
  | d + 1, id, m', h, e => by
    obtain ⟨s, m, hs, h, -⟩ := h
    rw [show d + 1 + e = (d + e) + 1 by omega, expand, expand, hs]
    dsimp only
    congr 1
    have : ∀ (kids : List (Nat × List (Nat × Nat))) (m m' : Leaves), ScanKids (Scan segs d) kids m m' →
        ∀ k ∈ kids, ∃ l, Scan segs d k.1 l := by
      intro kids
      induction kids with
      | nil => intro _ _ _ k hk; cases hk
      | cons k r ih =>
        rintro m m' ⟨l, hl, h⟩ k' hk'
        rcases List.mem_cons.1 hk' with rfl | hk'
        · exact ⟨l, hl⟩
        · exact ih _ _ h k' hk'
    refine List.flatMap_congr fun k hk => ?_
    obtain ⟨l, hl⟩ := this _ _ _ h k hk
    rw [expand_scan segs kind d k.1 l hl e]

omit [Field F] in
theorem expand_scan_id (segs : List (PSeg F)) (kind) (he : Earlier segs) {d id : Nat} {m : Leaves}
    (h : Scan segs d id m) : expand segs kind d id = expand segs kind (id + 1) id := by
  rw [← expand_scan segs kind d id m h (id + 1)]
  exact expand_depth segs kind he _ _ _ (by omega) (by omega)

omit [Field F] in
/-- There is a scan of every segment. -/
theorem scan_exists (segs : List (PSeg F)) (he : Earlier segs) :
    ∀ (d id : Nat), id < d → id < segs.length → ∃ m, Scan segs d id m
  | 0, _, h, _ => by omega
  | d + 1, id, h, hl => by
    have hs : segs[id]? = some segs[id] := List.getElem?_eq_getElem hl
    have : ∀ (kids : List (Nat × List (Nat × Nat))) (m : Leaves), (∀ k ∈ kids, k.1 < id) →
        ∃ m', ScanKids (Scan segs d) kids m m' := by
      intro kids
      induction kids with
      | nil => intro m _; exact ⟨m, rfl⟩
      | cons k r ih =>
        intro m hk
        have hk1 := hk k (List.mem_cons_self ..)
        obtain ⟨l, hl'⟩ := scan_exists segs he d k.1 (by omega) (by omega)
        obtain ⟨m', h'⟩ := ih (m.merge k.2 l) fun k' h => hk k' (List.mem_cons_of_mem _ h)
        exact ⟨m', l, hl', h'⟩
    obtain ⟨m', h'⟩ := this segs[id].kids (segs[id].start id) (he id _ hs)
    exact ⟨m', _, m', hs, h', List.Perm.refl _⟩

/-! ### Coins -/

omit [Field F] in
/-- The number of coins taken. -/
theorem fillGates_count (ρ : Nat → F) (n : Nat) (gs : List (PGate F)) :
    (fillGates ρ n gs).2 = n + gs.countP (·.ty = .rnd) := by
  induction gs generalizing n with
  | nil => rfl
  | cons g r ih =>
    rw [fillGates]
    by_cases h : g.ty = .rnd
    · simp [h, ih]; omega
    · simp [h, ih]

omit [Field F] in
theorem fillGates_none (ρ : Nat → F) (n : Nat) (gs : List (PGate F)) (h : ∀ g ∈ gs, g.ty ≠ .rnd) :
    fillGates ρ n gs = (gs, n) := by
  induction gs generalizing n with
  | nil => rfl
  | cons g r ih =>
    rw [fillGates, if_neg (h g (List.mem_cons_self ..))]
    rw [ih n fun g hg => h g (List.mem_cons_of_mem _ hg)]

omit [Field F] in
/-- Filled gates are the fixed gates and the filled random gates. -/
theorem fillGates_perm (ρ : Nat → F) (n : Nat) (gs : List (PGate F)) :
    (fillGates ρ n gs).1.Perm
      (gs.filter (fun g => g.ty ≠ .rnd) ++ (fillGates ρ n (gs.filter fun g => g.ty = .rnd)).1) := by
  induction gs generalizing n with
  | nil => simp [fillGates]
  | cons g r ih =>
    rw [fillGates]
    by_cases h : g.ty = .rnd
    · rw [if_pos h, List.filter_cons_of_neg (by simp [h]), List.filter_cons_of_pos (by simp [h]), fillGates, if_pos h]
      exact ((ih (n + 1)).cons _).trans List.perm_middle.symm
    · rw [if_neg h, List.filter_cons_of_pos (by simp [h]), List.filter_cons_of_neg (by simp [h])]
      exact (ih n).cons _

omit [Field F] in
theorem mem_fillGates {ρ : Nat → F} {n : Nat} {gs : List (PGate F)} {g : PGate F} (h : g ∈ (fillGates ρ n gs).1) :
    ∃ g' ∈ gs, g.ins = g'.ins ∧ g.o = g'.o ∧ g.ty = g'.ty := by
  induction gs generalizing n with
  | nil => cases h
  | cons a r ih =>
    rw [fillGates] at h
    by_cases ha : a.ty = .rnd
    · rw [if_pos ha] at h
      rcases List.mem_cons.1 h with rfl | h
      · exact ⟨a, List.mem_cons_self .., rfl, rfl, rfl⟩
      · obtain ⟨g', hg, e⟩ := ih h
        exact ⟨g', List.mem_cons_of_mem _ hg, e⟩
    · rw [if_neg ha] at h
      rcases List.mem_cons.1 h with rfl | h
      · exact ⟨g, List.mem_cons_self .., rfl, rfl, rfl⟩
      · obtain ⟨g', hg, e⟩ := ih h
        exact ⟨g', List.mem_cons_of_mem _ hg, e⟩

end JST.Export
