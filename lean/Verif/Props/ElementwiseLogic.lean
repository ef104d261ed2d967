import Verif.Props.ElementwiseClip
import Verif.Props.Ops

/-!
# C57: comparison, logic and selection layers
-/

set_option linter.unusedSectionVars false

namespace JST.Props

open JST.Shape JST.Layers JST.Spec

variable {p : Nat} [Fact p.Prime] {T : Tables (ZMod p)}

/-! ## Equal -/

theorem cast_sub_eq_zero {u v : Int} (h : |u - v| < p) : ((u : ZMod p) - (v : ZMod p) = 0) ↔ u = v := by
  rw [← Int.cast_sub, ZMod.intCast_zmod_eq_zero_iff_dvd]
  constructor
  · intro hd
    have := Int.eq_zero_of_abs_lt_dvd hd h
    omega
  · rintro rfl; simp

/-- **C57, Equal is sound**: for entries less than the modulus apart, every accepted output is 1 exactly
where the entries are equal. -/
theorem C57_equal_sound (a b : Arr Int) (ha : a.WF) (hb : b.WF)
    (h : ∀ u ∈ a.data, ∀ v ∈ b.data, |u - v| < p) :
    Sound T (equalLayer (castArr p a) (castArr p b)) (IsBinary a b fun u v w => w = if u = v then 1 else 0) := by
  unfold equalLayer
  refine sound_broadcast ha hb fun t r hr => sound_zipLoop hr fun u hu v hv => ?_
  exact (sound_isZero _).conseq fun w hw => by rw [hw]; simp only [cast_sub_eq_zero (h u hu v hv)]

/-- **C57, Equal is complete.** Missing: empty dimensions (`C37_empty_rejected`). -/
theorem C57_equal_complete_partial (a b : Arr Int) (ha : a.WF) (hb : b.WF) (za : ∀ d ∈ a.shape, d ≠ 0)
    (zb : ∀ d ∈ b.shape, d ≠ 0) (hs : ∃ s, IsBroadcast a.shape b.shape s)
    (h : ∀ u ∈ a.data, ∀ v ∈ b.data, |u - v| < p) :
    Complete T (equalLayer (castArr p a) (castArr p b))
      (IsBinary a b fun u v w => w = if u = v then 1 else 0) := by
  unfold equalLayer
  refine complete_broadcast ha hb za zb hs fun t r hr => complete_zipLoop hr fun u hu v hv => ?_
  exact (complete_isZero _).conseq fun w hw => by rw [hw]; simp only [cast_sub_eq_zero (h u hu v hv)]

/-! ## Greater and Less -/

theorem val_nonneg {u : Int} (h0 : 0 ≤ u) (h1 : u < p) : (((u : ZMod p).val : Nat) : Int) = u := by
  rw [ZMod.val_intCast, Int.emod_eq_of_lt h0 h1]

theorem val_neg {u : Int} (h0 : u < 0) (h1 : -(p : Int) ≤ u) : (((u : ZMod p).val : Nat) : Int) = u + p := by
  rw [ZMod.val_intCast, ← Int.add_emod_right, Int.emod_eq_of_lt (by omega) (by omega)]

/-- The entries are non-negative, below the modulus, and have only one `n`-bit representative. -/
def Unique (p n : Nat) (x : Arr Int) : Prop := ∀ v ∈ x.data, 0 ≤ v ∧ v < p ∧ 2 ^ n ≤ v + p

/-- **C57, Greater and Less are sound** for non-negative entries with a single `n`-bit representative.
Missing: every other entry (`C57_compare_unsound`, `C57_compare_negative`). -/
theorem C57_compare_sound_partial (n : Nat) (a b : Arr Int) (ha : a.WF) (hb : b.WF) (hua : Unique p n a)
    (hub : Unique p n b) :
    Sound T (greaterLayer n (castArr p a) (castArr p b))
      (IsBinary a b fun u v w => w = if v < u then 1 else 0) ∧
    Sound T (lessLayer n (castArr p a) (castArr p b))
      (IsBinary a b fun u v w => w = if u < v then 1 else 0) := by
  have key : ∀ x y : Arr Int, Unique p n x → Unique p n y → ∀ u ∈ x.data, ∀ v ∈ y.data,
      Sound T (gt n (u : ZMod p) (v : ZMod p)) (fun w => w = if v < u then 1 else 0) := by
    intro x y hx hy u hu v hv
    obtain ⟨h1, h2, h3⟩ := hx u hu
    obtain ⟨h4, h5, h6⟩ := hy v hv
    have e1 := val_nonneg h1 h2
    have e2 := val_nonneg h4 h5
    refine (C15_gt_sound_partial n _ _ (by zify; rw [e1]; exact h3) (by zify; rw [e2]; exact h6)).conseq
      fun w hw => ?_
    rw [hw]
    refine if_congr ?_ rfl rfl
    omega
  unfold greaterLayer lessLayer
  refine ⟨sound_broadcast ha hb fun t r hr => sound_zipLoop hr fun u hu v hv => key a b hua hub u hu v hv,
    sound_broadcast ha hb fun t r hr => sound_zipLoop hr fun u hu v hv => key b a hub hua v hv u hu⟩

/-- **C57, Greater and Less are complete** for non-negative entries. Missing: empty dimensions
(`C37_empty_rejected`) and negative entries (`C57_compare_negative`). -/
theorem C57_compare_complete_partial (n : Nat) (hn : p ≤ 2 ^ n) (a b : Arr Int) (ha : a.WF) (hb : b.WF)
    (za : ∀ d ∈ a.shape, d ≠ 0) (zb : ∀ d ∈ b.shape, d ≠ 0) (hs : ∃ s, IsBroadcast a.shape b.shape s)
    (hua : ∀ v ∈ a.data, 0 ≤ v ∧ v < p) (hub : ∀ v ∈ b.data, 0 ≤ v ∧ v < p) :
    Complete T (greaterLayer n (castArr p a) (castArr p b))
      (IsBinary a b fun u v w => w = if v < u then 1 else 0) ∧
    Complete T (lessLayer n (castArr p a) (castArr p b))
      (IsBinary a b fun u v w => w = if u < v then 1 else 0) := by
  have key : ∀ u v : Int, 0 ≤ u ∧ u < p → 0 ≤ v ∧ v < p →
      Complete T (gt n (u : ZMod p) (v : ZMod p)) (fun w => w = if v < u then 1 else 0) := by
    intro u v hu hv
    have e1 := val_nonneg hu.1 hu.2
    have e2 := val_nonneg hv.1 hv.2
    refine (C15_gt_complete n _ _ hn).conseq fun w hw => ?_
    rw [hw]
    refine if_congr ?_ rfl rfl
    omega
  unfold greaterLayer lessLayer
  exact ⟨complete_broadcast ha hb za zb hs fun t r hr => complete_zipLoop hr fun u hu v hv =>
      key u v (hua u hu) (hub v hv),
    complete_broadcast ha hb za zb hs fun t r hr => complete_zipLoop hr fun u hu v hv =>
      key v u (hub v hv) (hua u hu)⟩

/-- **C57 is false for negative entries**: even the honest execution proves that a negative entry is
greater, and not less, than a non-negative one. -/
theorem C57_compare_negative (n : Nat) (hn : p ≤ 2 ^ n) (a b : Arr Int) (ha : a.WF) (hb : b.WF)
    (za : ∀ d ∈ a.shape, d ≠ 0) (zb : ∀ d ∈ b.shape, d ≠ 0) (hs : ∃ s, IsBroadcast a.shape b.shape s)
    (hua : ∀ u ∈ a.data, u < 0) (hub : ∀ v ∈ b.data, 0 ≤ v)
    (h : ∀ u ∈ a.data, ∀ v ∈ b.data, v - u < p) :
    Complete T (greaterLayer n (castArr p a) (castArr p b)) (IsBinary a b fun u v w => u < v ∧ w = 1) ∧
    Complete T (lessLayer n (castArr p a) (castArr p b)) (IsBinary a b fun u v w => u < v ∧ w = 0) := by
  have key : ∀ u ∈ a.data, ∀ v ∈ b.data, (v : ZMod p).val < (u : ZMod p).val := by
    intro u hu v hv
    have := h u hu v hv
    have := hua u hu
    have := hub v hv
    have e1 := val_neg (p := p) (hua u hu) (by omega)
    have e2 := val_nonneg (p := p) (hub v hv) (by omega)
    omega
  have lt : ∀ u ∈ a.data, ∀ v ∈ b.data, u < v := fun u hu v hv => lt_of_lt_of_le (hua u hu) (hub v hv)
  unfold greaterLayer lessLayer
  constructor
  · refine complete_broadcast ha hb za zb hs fun t r hr => complete_zipLoop hr fun u hu v hv => ?_
    refine (C15_gt_complete n _ _ hn).conseq fun w hw => ⟨lt u hu v hv, ?_⟩
    rw [hw, if_pos (key u hu v hv)]
  · refine complete_broadcast ha hb za zb hs fun t r hr => complete_zipLoop hr fun u hu v hv => ?_
    refine (C15_gt_complete n _ _ hn).conseq fun w hw => ⟨lt u hu v hv, ?_⟩
    rw [hw, if_neg (by have := key u hu v hv; omega)]

/-- **C57 is false for small entries**: when every entry is non-negative and below `2^n - p`, *every* 0/1
tensor of the right shape can be proved to be the result of Greater, and of Less. -/
theorem C57_compare_unsound (n : Nat) (a b : Arr Int) (ha : a.WF) (hb : b.WF)
    (za : ∀ d ∈ a.shape, d ≠ 0) (zb : ∀ d ∈ b.shape, d ≠ 0) {s : List Nat}
    (hs : IsBroadcast a.shape b.shape s)
    (hua : ∀ u ∈ a.data, 0 ≤ u ∧ u < p ∧ u + p < 2 ^ n) (hub : ∀ v ∈ b.data, 0 ≤ v ∧ v < p ∧ v + p < 2 ^ n)
    (want : List Nat → Bool) :
    Forge T (greaterLayer n (castArr p a) (castArr p b))
      (fun out => out.shape = s ∧ out.WF ∧ ∀ c, InRange s c → elem out c = some (if want c then 1 else 0)) ∧
    Forge T (lessLayer n (castArr p a) (castArr p b))
      (fun out => out.shape = s ∧ out.WF ∧ ∀ c, InRange s c → elem out c = some (if want c then 1 else 0)) := by
  obtain ⟨r, t, h1, h2⟩ := aligned_exists (p := p) ha hb za zb ⟨s, hs⟩
  have e : t = s := Except.ok.inj
    (((broadcastShapes_ok_iff _ _ _).2 h2.broadcast).symm.trans ((broadcastShapes_ok_iff _ _ _).2 hs))
  subst e
  have key : ∀ u v : Int, 0 ≤ u ∧ u < p ∧ u + p < 2 ^ n → 0 ≤ v ∧ v < p ∧ v + p < 2 ^ n → ∀ w : Bool,
      Forge T (gt n (u : ZMod p) (v : ZMod p)) (fun r => r = if w then 1 else 0) := by
    intro u v hu hv w
    have e1 := val_nonneg hu.1 hu.2.1
    have e2 := val_nonneg hv.1 hv.2.1
    have := C15_gt_unsound (T := T) n (u : ZMod p) (v : ZMod p)
    cases w with
    | true => exact this.1 (by zify; rw [e1]; exact hu.2.2)
    | false => exact this.2 (by zify; rw [e2]; exact hv.2.2)
  have fin : ∀ out : Arr (ZMod p), out = ⟨t, (List.range t.prod).map fun k => if want (unravel k t) then 1 else 0⟩ →
      out.shape = t ∧ out.WF ∧ ∀ c, InRange t c → elem out c = some (if want c then 1 else 0) := by
    rintro _ rfl
    refine ⟨rfl, by simp [Arr.WF], fun c hc => ?_⟩
    rw [elem_tabulate _ _ _ hc, unravel_rowMajor hc]
  unfold greaterLayer lessLayer
  constructor
  · refine forge_broadcast h1 ((forge_zipLoop h2 (g := fun c => if want c then 1 else 0) fun c hc => ?_).conseq fin)
    exact key _ _ (hua _ (valAt_mem (h2.elem1 c hc))) (hub _ (valAt_mem (h2.elem2 c hc))) _
  · refine forge_broadcast h1 ((forge_zipLoop h2 (g := fun c => if want c then 1 else 0) fun c hc => ?_).conseq fin)
    exact key _ _ (hub _ (valAt_mem (h2.elem2 c hc))) (hua _ (valAt_mem (h2.elem1 c hc))) _

/-! ## Comparisons of constants -/

theorem comparePre_ok (cmp : Int → Int → Bool) (out : List Nat) (a b : Arr Int) (ha : a.WF) (hb : b.WF)
    (sa : Stretches a.shape out) (sb : Stretches b.shape out) :
    ∃ r : Arr (ZMod p), comparePre cmp out a b = .ok r ∧
      IsZip out a b (fun u v w => w = if cmp u v then 1 else 0) r := by
  obtain ⟨a', ha'⟩ := broadcastArray_of_stretches (a := a) sa
  obtain ⟨b', hb'⟩ := broadcastArray_of_stretches (a := b) sb
  obtain ⟨d1, e1⟩ := valAt_cast_data ha ha'
  obtain ⟨d2, e2⟩ := valAt_cast_data hb hb'
  refine ⟨⟨out, (List.range out.prod).map fun k =>
    if cmp (valAt a (unravel k out)) (valAt b (unravel k out)) then (1 : ZMod p) else 0⟩, ?_, rfl,
    by simp [Arr.WF], fun c hc => ?_⟩
  · unfold comparePre
    rw [ha', hb']
    show fromShapeVec out _ = _
    rw [d1, d2, zip_map_map, List.map_map]
    unfold fromShapeVec
    rw [if_pos (by simp)]
    rfl
  · refine ⟨_, _, _, e1 c hc, e2 c hc, ?_, rfl⟩
    rw [elem_tabulate _ _ _ hc, unravel_rowMajor hc]

/-- **C57, constants**: Equal, Greater and Less of two constant tensors compare signed integers, for every
shape both stretch to. -/
theorem C57_precomputed (out : List Nat) (a b : Arr Int) (ha : a.WF) (hb : b.WF)
    (sa : Stretches a.shape out) (sb : Stretches b.shape out) :
    (∃ r : Arr (ZMod p), equalPre out a b = .ok r ∧ IsZip out a b (fun u v w => w = if u = v then 1 else 0) r) ∧
    (∃ r : Arr (ZMod p), greaterPre out a b = .ok r ∧
      IsZip out a b (fun u v w => w = if v < u then 1 else 0) r) ∧
    (∃ r : Arr (ZMod p), lessPre out a b = .ok r ∧
      IsZip out a b (fun u v w => w = if u < v then 1 else 0) r) := by
  refine ⟨?_, ?_, ?_⟩
  · have := comparePre_ok (p := p) (fun x y => decide (x = y)) out a b ha hb sa sb
    simp only [decide_eq_true_eq] at this
    exact this
  · have := comparePre_ok (p := p) (fun x y => decide (x > y)) out a b ha hb sa sb
    simp only [decide_eq_true_eq] at this
    exact this
  · have := comparePre_ok (p := p) (fun x y => decide (x < y)) out a b ha hb sa sb
    simp only [decide_eq_true_eq] at this
    exact this

/-- Constants that do not stretch to the output shape are refused. -/
theorem C57_precomputed_refuses (out : List Nat) (a b : Arr Int)
    (h : ¬ Stretches a.shape out ∨ ¬ Stretches b.shape out) :
    (equalPre out a b : R (Arr (ZMod p))) = .error .invalid ∧
    (greaterPre out a b : R (Arr (ZMod p))) = .error .invalid ∧
    (lessPre out a b : R (Arr (ZMod p))) = .error .invalid := by
  have key : ∀ cmp, (comparePre cmp out a b : R (Arr (ZMod p))) = .error .invalid := by
    intro cmp
    have bad : ∀ x : Arr Int, ¬ Stretches x.shape out → broadcastArray x out = .error .invalid := by
      intro x hx
      rcases broadcastArray_ok_or x out with h | ⟨y, hy⟩
      · exact h
      · unfold broadcastArray at hy
        split_ifs at hy with hc
        exact absurd ((stretches_iff _ _).2 ⟨hc.1, (all_zip_iff _ _ (by simp; omega)).1 hc.2⟩) hx
    unfold comparePre
    rcases broadcastArray_ok_or a out with ha | ⟨a', ha⟩
    · rw [ha]; rfl
    · rw [ha]
      rcases h with h | h
      · rw [bad a h] at ha; cases ha
      · rw [bad b h]; rfl
  exact ⟨key _, key _, key _⟩

/-! ## And, Not -/

theorem sound_pure_eq {x : ZMod p} : Sound T (pure x : G (ZMod p) (ZMod p)) (fun w => w = x) := Sound.pure rfl

/-- **C57, And.** The output is the product of the entries, so the conjunction when both tensors hold only
0 and 1. -/
theorem C57_and_sound (a b : Arr Int) (ha : a.WF) (hb : b.WF) :
    Sound T (andLayer (castArr p a) (castArr p b)) (IsBinary a b fun u v w => w = ((u * v : Int) : ZMod p)) ∧
    ((∀ u ∈ a.data, u = 0 ∨ u = 1) → (∀ v ∈ b.data, v = 0 ∨ v = 1) →
      Sound T (andLayer (castArr p a) (castArr p b))
        (IsBinary a b fun u v w => w = if u = 1 ∧ v = 1 then 1 else 0)) := by
  unfold andLayer
  refine ⟨sound_broadcast ha hb fun t r hr => sound_zipLoop hr fun u _ v _ =>
    sound_pure_eq.conseq fun w hw => by rw [hw]; push_cast; rfl, fun h1 h2 =>
    sound_broadcast ha hb fun t r hr => sound_zipLoop hr fun u hu v hv =>
      sound_pure_eq.conseq fun w hw => ?_⟩
  rw [hw]
  rcases h1 u hu with rfl | rfl <;> rcases h2 v hv with rfl | rfl <;> simp

/-- **C57, And accepts any input**: nothing checks that the entries are 0 or 1; the honest execution of
other entries is accepted and yields their product. Missing: empty dimensions (`C37_empty_rejected`). -/
theorem C57_and_complete_partial (a b : Arr Int) (ha : a.WF) (hb : b.WF) (za : ∀ d ∈ a.shape, d ≠ 0)
    (zb : ∀ d ∈ b.shape, d ≠ 0) (hs : ∃ s, IsBroadcast a.shape b.shape s) :
    Complete T (andLayer (castArr p a) (castArr p b)) (IsBinary a b fun u v w => w = ((u * v : Int) : ZMod p)) := by
  unfold andLayer
  refine complete_broadcast ha hb za zb hs fun t r hr => complete_zipLoop hr fun u _ v _ =>
    Complete.pure (by push_cast; rfl)

/-- **C57, Not.** A proof exists only if every entry is 0 or 1 in the field, and the output is the negation. -/
theorem C57_not_sound (x : Arr Int) (hx : x.WF) :
    Sound T (notLayer (castArr p x)) (IsUnary x fun u w =>
      ((u : ZMod p) = 0 ∧ w = 1) ∨ ((u : ZMod p) = 1 ∧ w = 0)) := by
  unfold notLayer
  refine sound_mapLayer hx fun u _ => Sound.bind Sound.assertBool fun _ h => Sound.pure ?_
  rcases h with h | h <;> rw [h] <;> simp

theorem C57_not_complete (x : Arr Int) (hx : x.WF) (h : ∀ u ∈ x.data, u = 0 ∨ u = 1) :
    Complete T (notLayer (castArr p x)) (IsUnary x fun u w => w = if u = 1 then 0 else 1) := by
  unfold notLayer
  refine complete_mapLayer hx fun u hu => Complete.bind (Det.complete (Det.assertBool ?_)) fun _ _ =>
    Complete.pure ?_
  · rcases h u hu with rfl | rfl <;> simp
  · rcases h u hu with rfl | rfl <;> simp

/-! ## Where -/

theorem where_pure {out : List Nat} {cond x y : Arr (ZMod p)} (hc : cond.WF) (hx : x.WF) (hy : y.WF)
    (sc : Stretches cond.shape out) (sx : Stretches x.shape out) (sy : Stretches y.shape out) :
    ∃ r : Arr (ZMod p), (List.range out.prod).mapM (whereElem
        (cond.data.map fun v : ZMod p => (if v = 0 then 0 else 1 : ZMod p)) x.data y.data
        cond.shape x.shape y.shape out) = .ok r.data ∧ IsSelected out cond x y r := by
  let rd : Arr (ZMod p) → Nat → ZMod p := fun a i => (elem a (srcCoords a.shape (unravel i out))).getD 0
  have hrd : ∀ (a : Arr (ZMod p)), a.WF → Stretches a.shape out → ∀ c, InRange out c →
      elem a (srcCoords a.shape c) = some (rd a (rowMajor out c)) := by
    intro a ha hs c hc
    obtain ⟨v, hv⟩ := elem_isSome ha (srcCoords_inRange hs hc)
    simp only [rd, unravel_rowMajor hc, hv, Option.getD_some]
  refine ⟨⟨out, (List.range out.prod).map fun i => if rd cond i ≠ 0 then rd x i else rd y i⟩, ?_, rfl,
    by simp [Arr.WF], fun c hcr => ⟨_, _, _, hrd cond hc sc c hcr, hrd x hx sx c hcr, hrd y hy sy c hcr, ?_⟩⟩
  · refine Layers.mapM_ok fun i hi => ?_
    have hi' : i < out.prod := by simpa using hi
    have hr := unravel_inRange hi'
    have hrm := rowMajor_unravel hi'
    have e : ∀ (a : Arr (ZMod p)), a.WF → Stretches a.shape out →
        a.data[rowMajor a.shape (srcCoords a.shape (unravel i out))]? = some (rd a i) := by
      intro a ha hs
      have := hrd a ha hs _ hr
      rw [hrm] at this
      exact this
    unfold whereElem
    have ok_bind : ∀ {α β : Type} (v : α) (g : α → R β), ((.ok v : R α) >>= g) = g v := fun _ _ => rfl
    simp only [broadcastIndex_eq sc hr, broadcastIndex_eq sx hr, broadcastIndex_eq sy hr, Option.elim_some,
      readAt, List.getElem?_map, ok_bind, e cond hc sc, e x hx sx, e y hy sy, Option.map_some]
    by_cases h0 : rd cond i = 0 <;> simp [h0]
  · rw [elem_tabulate _ _ _ hcr]

theorem forall₂_map_eq {α β : Type} {f : α → β} : ∀ {l : List α} {ys : List β},
    List.Forall₂ (fun x y => y = f x) l ys → ys = l.map f
  | _, _, .nil => rfl
  | _, _, .cons h t => by rw [List.map_cons, h, forall₂_map_eq t]

/-- **C57, Where** with a run-time condition is sound and complete: for operands that stretch to the output
shape, the accepted outputs are exactly the selected entries. -/
theorem C57_where (out : List Nat) (cond x y : Arr (ZMod p)) (hc : cond.WF) (hx : x.WF) (hy : y.WF)
    (sc : Stretches cond.shape out) (sx : Stretches x.shape out) (sy : Stretches y.shape out) :
    Sound T (whereLayer out cond.shape x.shape y.shape cond x y) (IsSelected out cond x y) ∧
    Complete T (whereLayer out cond.shape x.shape y.shape cond x y) (IsSelected out cond x y) := by
  obtain ⟨r, h1, h2⟩ := where_pure hc hx hy sc sx sy
  have h3 : fromShapeVec out r.data = .ok r := by
    unfold fromShapeVec
    rw [if_pos (by rw [h2.2.1, h2.1])]
    rw [← h2.1]
  have val : ∀ v m : ZMod p, (m = if v = 0 then 1 else 0) → 1 - m = if v = 0 then 0 else 1 := by
    rintro v m rfl
    split_ifs <;> simp
  unfold whereLayer
  constructor
  · refine Sound.bind (sound_collectG (Q := fun v c => c = (if v = 0 then 0 else 1 : ZMod p)) _ fun v _ =>
      Sound.bind (sound_isZero v) fun m hm => Sound.pure (val v m hm)) fun cs hcs => ?_
    obtain rfl := forall₂_map_eq hcs
    rw [h1]
    refine Sound.bind sound_liftR fun ys hys => sound_liftR.conseq fun o ho => ?_
    obtain rfl := Except.ok.inj hys
    obtain rfl := Except.ok.inj (h3.symm.trans ho)
    exact h2
  · refine Complete.bind (complete_collectG (Q := fun v c => c = (if v = 0 then 0 else 1 : ZMod p)) _ fun v _ =>
      Complete.bind (complete_isZero v) fun m hm => Complete.pure (val v m hm)) fun cs hcs => ?_
    obtain rfl := forall₂_map_eq hcs
    refine Complete.bind (complete_liftR h1) ?_
    rintro _ rfl
    exact (complete_liftR h3).conseq fun o ho => by rw [ho]; exact h2

/-- **C57, refusals**: operands that do not broadcast are a reported error, whatever the hints. -/
theorem C57_refuses (n : Nat) (a b : Arr (ZMod p)) (ha : a.WF) (hb : b.WF)
    (h : ¬ ∃ s, IsBroadcast a.shape b.shape s) (hs : Hints (ZMod p)) :
    (∃ m, equalLayer a b hs = .error (.err m)) ∧ (∃ m, greaterLayer n a b hs = .error (.err m)) ∧
    (∃ m, lessLayer n a b hs = .error (.err m)) ∧ (∃ m, andLayer a b hs = .error (.err m)) := by
  have e := broadcastTwo_refuses ha hb h
  exact ⟨liftR_invalid e, liftR_invalid e, liftR_invalid e, liftR_invalid e⟩

/-! ## The hypotheses are met -/

example {T : Tables (ZMod goldP)} : Sound T (equalLayer (castArr goldP ewX) (castArr goldP ewRow))
    (IsBinary ewX ewRow fun u v w => w = if u = v then 1 else 0) :=
  C57_equal_sound _ _ rfl rfl (by decide +kernel)

/-- On BN254 every 0/1 tensor is a provable result of comparing these two. -/
example {T : Tables (ZMod bn254P)} (want : List Nat → Bool) :
    Forge T (greaterLayer 254 (castArr bn254P ⟨[2], [3, 70000]⟩) (castArr bn254P ⟨[1], [5]⟩))
      (fun out => out.shape = [2] ∧ out.WF ∧ ∀ c, InRange [2] c → elem out c = some (if want c then 1 else 0)) :=
  (C57_compare_unsound 254 ⟨[2], [3, 70000]⟩ ⟨[1], [5]⟩ rfl rfl (by decide) (by decide)
    ((broadcastShapes_ok_iff _ _ _).1 (by decide +kernel)) (by decide +kernel) (by decide +kernel) want).1

/-- On BN254 the honest prover shows that -1 is greater than 5. -/
example {T : Tables (ZMod bn254P)} :
    Complete T (greaterLayer 254 (castArr bn254P ⟨[1], [-1]⟩) (castArr bn254P ⟨[1], [5]⟩))
      (IsBinary (⟨[1], [-1]⟩ : Arr Int) (⟨[1], [5]⟩ : Arr Int) fun u v w => u < v ∧ w = 1) :=
  (C57_compare_negative 254 (by decide +kernel) ⟨[1], [-1]⟩ ⟨[1], [5]⟩ rfl rfl (by decide) (by decide)
    ⟨[1], (broadcastShapes_ok_iff _ _ _).1 (by decide +kernel)⟩ (by decide) (by decide) (by decide +kernel)).1

/-- ... while the same comparison of constants is right. -/
example : (greaterPre [1] ⟨[1], [-1]⟩ ⟨[1], [5]⟩ : R (Arr (ZMod m31P))) = .ok ⟨[1], [0]⟩ := by rfl

example {T : Tables (ZMod m31P)} : Sound T (greaterLayer 31 (castArr m31P ⟨[2], [3, 70000]⟩) (castArr m31P ⟨[1], [5]⟩))
    (IsBinary (⟨[2], [3, 70000]⟩ : Arr Int) (⟨[1], [5]⟩ : Arr Int) fun u v w => w = if v < u then 1 else 0) :=
  (C57_compare_sound_partial 31 ⟨[2], [3, 70000]⟩ ⟨[1], [5]⟩ rfl rfl (by unfold Unique; decide +kernel)
    (by unfold Unique; decide +kernel)).1

example : Stretches [2] [2, 2] ∧ Stretches [2, 1] [2, 2] ∧ Stretches [] [2, 2] := by
  refine ⟨?_, ?_, ?_⟩ <;> exact ⟨by decide, by decide⟩

end JST.Props
