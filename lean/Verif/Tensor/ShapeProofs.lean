import Verif.Tensor.Shape
import Verif.Spec.Tensor
import Mathlib.Data.List.Forall2
import Mathlib.Data.List.Sort
import Mathlib.Data.List.GetD
import Mathlib.Algebra.BigOperators.Group.List.Basic

/-! # Facts about shapes, flat indices and broadcasting -/

namespace JST.Shape

open JST.Spec

theorem ravelAux_eq : ∀ (coords shape : List Nat), coords.length = shape.length →
    ravelAux coords shape = some (rowMajor shape coords, shape.prod)
  | [], [], _ => rfl
  | c :: cs, s :: ss, h => by
    have ih := ravelAux_eq cs ss (by simpa using h)
    simp only [ravelAux, ih, rowMajor, List.prod_cons]
    simp [Nat.add_comm, Nat.mul_comm]

theorem ravel_eq {coords shape : List Nat} (h : coords.length = shape.length) :
    ravel coords shape = some (rowMajor shape coords) := by
  simp [ravel, ravelAux_eq coords shape h]

theorem _root_.JST.Spec.InRange.length {shape coords : List Nat} (h : InRange shape coords) :
    coords.length = shape.length := List.Forall₂.length_eq h

theorem rowMajor_lt : ∀ {shape coords : List Nat}, InRange shape coords →
    rowMajor shape coords < shape.prod
  | [], [], _ => by simp [rowMajor]
  | [], _ :: _, h => by cases h
  | _ :: _, [], h => by cases h
  | s :: ss, c :: cs, h => by
    cases h with
    | cons hc hcs =>
      have ih := rowMajor_lt (shape := ss) (coords := cs) hcs
      simp only [rowMajor, List.prod_cons]
      calc c * ss.prod + rowMajor ss cs < c * ss.prod + ss.prod := by omega
        _ = (c + 1) * ss.prod := by ring
        _ ≤ s * ss.prod := Nat.mul_le_mul_right _ hc

theorem unravelAux_spec : ∀ (shape : List Nat), (∀ s ∈ shape, 0 < s) → ∀ flat,
    InRange shape (unravelAux shape flat).1 ∧
    flat = (unravelAux shape flat).2 * shape.prod + rowMajor shape (unravelAux shape flat).1
  | [], _, flat => ⟨.nil, by simp [unravelAux, rowMajor]⟩
  | s :: ss, h, flat => by
    have hs : 0 < s := h s (by simp)
    obtain ⟨ih1, ih2⟩ := unravelAux_spec ss (fun x hx => h x (by simp [hx])) flat
    simp only [unravelAux, hs, if_true, gt_iff_lt]
    refine ⟨.cons (Nat.mod_lt _ hs) ih1, ?_⟩
    simp only [rowMajor, List.prod_cons]
    generalize (unravelAux ss flat).2 = q at *
    generalize rowMajor ss (unravelAux ss flat).1 = r at *
    conv_lhs => rw [ih2, ← Nat.div_add_mod q s]
    ring

theorem unravelAux_quot {shape : List Nat} (h : ∀ s ∈ shape, 0 < s) {flat : Nat}
    (hf : flat < shape.prod) : (unravelAux shape flat).2 = 0 := by
  have h2 := (unravelAux_spec shape h flat).2
  by_contra hq
  have : shape.prod ≤ (unravelAux shape flat).2 * shape.prod :=
    Nat.le_mul_of_pos_left _ (Nat.pos_of_ne_zero hq)
  omega

theorem pos_of_lt_prod {shape : List Nat} {flat : Nat} (hf : flat < shape.prod) :
    ∀ s ∈ shape, 0 < s := by
  intro s hs
  rcases Nat.eq_zero_or_pos s with h | h
  · subst h
    rw [List.prod_eq_zero hs] at hf
    omega
  · exact h

theorem _root_.JST.Spec.InRange.pos {shape coords : List Nat} (h : InRange shape coords) : ∀ s ∈ shape, 0 < s :=
  pos_of_lt_prod (rowMajor_lt h)

theorem unravel_inRange {shape : List Nat} {flat : Nat} (hf : flat < shape.prod) :
    InRange shape (unravel flat shape) :=
  (unravelAux_spec shape (pos_of_lt_prod hf) flat).1

theorem rowMajor_unravel {shape : List Nat} {flat : Nat} (hf : flat < shape.prod) :
    rowMajor shape (unravel flat shape) = flat := by
  have h := (unravelAux_spec shape (pos_of_lt_prod hf) flat).2
  rw [unravelAux_quot (pos_of_lt_prod hf) hf] at h
  simpa [unravel] using h.symm

theorem rowMajor_inj : ∀ {shape c d : List Nat}, InRange shape c → InRange shape d →
    rowMajor shape c = rowMajor shape d → c = d
  | [], [], [], _, _, _ => rfl
  | s :: ss, a :: c, b :: d, hc, hd, h => by
    cases hc with
    | cons ha hc =>
    cases hd with
    | cons hb hd =>
    have h1 := rowMajor_lt (shape := ss) hc
    have h2 := rowMajor_lt (shape := ss) hd
    simp only [rowMajor] at h
    have hab : a = b := by
      have hp : 0 < ss.prod := by omega
      have e1 : (a * ss.prod + rowMajor ss c) / ss.prod = a := by
        rw [Nat.add_comm, Nat.add_mul_div_right _ _ hp, Nat.div_eq_of_lt h1, Nat.zero_add]
      have e2 : (b * ss.prod + rowMajor ss d) / ss.prod = b := by
        rw [Nat.add_comm, Nat.add_mul_div_right _ _ hp, Nat.div_eq_of_lt h2, Nat.zero_add]
      rw [← e1, ← e2, h]
    subst hab
    rw [rowMajor_inj hc hd (by omega)]
  | [], _ :: _, _, hc, _, _ => by cases hc
  | [], [], _ :: _, _, hd, _ => by cases hd
  | _ :: _, [], _, hc, _, _ => by cases hc
  | _ :: _, _ :: _, [], _, hd, _ => by cases hd

theorem unravel_rowMajor {shape coords : List Nat} (h : InRange shape coords) :
    unravel (rowMajor shape coords) shape = coords :=
  rowMajor_inj (unravel_inRange (rowMajor_lt h)) h (rowMajor_unravel (rowMajor_lt h))

/-! ### Broadcast shapes -/

theorem dimFromRight_eq (a : List Nat) (i : Nat) : dimFromRight a i = fromRight a i := by
  unfold dimFromRight fromRight
  split_ifs with h
  · rw [List.getD_eq_getElem _ _ (by omega), List.getD_eq_getElem _ _ (by simp; omega),
      List.getElem_reverse]
    congr 1
    omega
  · rw [List.getD_eq_default _ _ (by simp; omega)]

/-- The dimensions can be aligned. -/
def Compat (a b : List Nat) (i : Nat) : Prop :=
  fromRight a i = fromRight b i ∨ fromRight a i = 1 ∨ fromRight b i = 1

theorem bcastLoop_ok (a b : List Nat) : ∀ (n i : Nat) (out r : List Nat),
    bcastLoop a b n i out = .ok r ↔
      (∀ j, i ≤ j → j < i + n → Compat a b j) ∧
      r = ((List.range' i n).map fun j => max (fromRight a j) (fromRight b j)).reverse ++ out
  | 0, i, out, r => by
    simp only [bcastLoop, List.range'_zero, List.map_nil, List.reverse_nil, List.nil_append,
      Except.ok.injEq]
    constructor
    · intro h; exact ⟨fun j h1 h2 => by omega, h.symm⟩
    · intro h; exact h.2.symm
  | n + 1, i, out, r => by
    simp only [bcastLoop, dimFromRight_eq]
    split_ifs with h
    · rw [bcastLoop_ok a b n (i + 1)]
      rw [List.range'_succ]
      simp only [List.map_cons, List.reverse_cons, List.append_assoc, List.singleton_append]
      constructor
      · rintro ⟨h1, h2⟩
        refine ⟨fun j hj hj' => ?_, h2⟩
        rcases Nat.eq_or_lt_of_le hj with e | e
        · subst e; exact h
        · exact h1 j e (by omega)
      · rintro ⟨h1, h2⟩
        exact ⟨fun j hj hj' => h1 j (by omega) (by omega), h2⟩
    · constructor
      · intro hh; cases hh
      · rintro ⟨h1, _⟩
        exact absurd (h1 i (le_refl _) (by omega)) h

theorem bcastLoop_error (a b : List Nat) : ∀ (n i : Nat) (out : List Nat) (e : Err),
    bcastLoop a b n i out = .error e → e = .invalid
  | 0, i, out, e => by simp [bcastLoop]
  | n + 1, i, out, e => by
    simp only [bcastLoop]
    split_ifs with h
    · exact bcastLoop_error a b n (i + 1) _ e
    · intro hh; cases hh; rfl

/-- The computed shape, described from the right. -/
theorem broadcastShape_ok (a b r : List Nat) :
    broadcastShape a b = .ok r ↔
      r.length = max a.length b.length ∧
      ∀ i, i < r.length → Compat a b i ∧ fromRight r i = max (fromRight a i) (fromRight b i) := by
  unfold broadcastShape
  rw [bcastLoop_ok]
  simp only [List.append_nil, Nat.zero_add, Nat.zero_le, forall_const]
  constructor
  · rintro ⟨h1, h2⟩
    have hl : r.length = max a.length b.length := by rw [h2]; simp
    refine ⟨hl, fun i hi => ⟨h1 i (by omega), ?_⟩⟩
    rw [h2]
    unfold fromRight
    rw [List.reverse_reverse, List.getD_eq_getElem _ _ (by simp; omega)]
    simp
  · rintro ⟨h1, h2⟩
    refine ⟨fun j hj => (h2 j (by omega)).1, ?_⟩
    rw [← List.reverse_inj, List.reverse_reverse]
    apply List.ext_getElem
    · simp [h1]
    · intro i hi hi'
      have hi2 : i < r.length := by simpa using hi
      have := (h2 i hi2).2
      unfold fromRight at this ⊢
      rw [List.getD_eq_getElem _ _ (by simpa using hi)] at this
      rw [this]
      simp

/-! ### Reading broadcast operands -/

/-- The shape can be stretched to the target. -/
def Stretches (s t : List Nat) : Prop :=
  s.length ≤ t.length ∧ ∀ i, i < s.length → fromRight s i = 1 ∨ fromRight s i = fromRight t i

theorem all_zip_iff : ∀ (t s : List Nat), t.length = s.length →
    ((t.zip s).all (fun (t, s) => s == 1 || s == t) = true ↔
      List.Forall₂ (fun t s => s = 1 ∨ s = t) t s)
  | [], [], _ => by simp
  | a :: t, b :: s, h => by
    rw [List.zip_cons_cons, List.all_cons, List.forall₂_cons, Bool.and_eq_true,
      all_zip_iff t s (by simpa using h)]
    simp

theorem forall₂_iff_getElem {α β : Type} {R : α → β → Prop} : ∀ (l : List α) (m : List β),
    List.Forall₂ R l m ↔ l.length = m.length ∧
      ∀ i (h1 : i < l.length) (h2 : i < m.length), R l[i] m[i] := by
  intro l m
  rw [List.forall₂_iff_get]
  simp

theorem stretches_iff (s t : List Nat) :
    Stretches s t ↔ s.length ≤ t.length ∧
      List.Forall₂ (fun t s => s = 1 ∨ s = t) (t.drop (t.length - s.length)) s := by
  unfold Stretches
  refine and_congr_right fun hl => ?_
  rw [forall₂_iff_getElem]
  have hlen : (t.drop (t.length - s.length)).length = s.length := by simp; omega
  constructor
  · intro h
    refine ⟨hlen, fun i h1 h2 => ?_⟩
    have h3 := h (s.length - 1 - i) (by omega)
    unfold fromRight at h3
    rw [List.getD_eq_getElem _ _ (by simp; omega), List.getD_eq_getElem _ _ (by simp; omega),
      List.getElem_reverse, List.getElem_reverse] at h3
    rw [List.getElem_drop]
    have e1 : s.length - 1 - (s.length - 1 - i) = i := by omega
    have e2 : t.length - 1 - (s.length - 1 - i) = t.length - s.length + i := by omega
    simpa only [e1, e2] using h3
  · rintro ⟨_, h⟩ i hi
    have h3 := h (s.length - 1 - i) (by omega) (by omega)
    rw [List.getElem_drop] at h3
    unfold fromRight
    rw [List.getD_eq_getElem _ _ (by simp; omega), List.getD_eq_getElem _ _ (by simp; omega),
      List.getElem_reverse, List.getElem_reverse]
    have e2 : t.length - s.length + (s.length - 1 - i) = t.length - 1 - i := by omega
    simpa only [e2] using h3

theorem srcCoords_inRange {s t c : List Nat} (hs : Stretches s t) (hc : InRange t c) :
    InRange s (srcCoords s c) := by
  have hl := hc.length
  obtain ⟨h1, h2⟩ := (stretches_iff s t).1 hs
  unfold InRange srcCoords
  rw [hl]
  have hd : List.Forall₂ (fun c s => c < s) (c.drop (t.length - s.length))
      (t.drop (t.length - s.length)) := List.forall₂_drop _ hc
  generalize c.drop (t.length - s.length) = c' at *
  generalize t.drop (t.length - s.length) = t' at *
  clear hl h1 hc hs
  induction h2 generalizing c' with
  | nil => cases hd; exact .nil
  | cons h _ ih =>
    cases hd with
    | cons hlt hd =>
      refine .cons ?_ (ih _ hd)
      dsimp only
      split_ifs <;> omega

theorem broadcastIndex_eq {s t c : List Nat} (hs : Stretches s t) (hc : InRange t c) :
    broadcastIndex c s t.length = some (rowMajor s (srcCoords s c)) := by
  have hl := hc.length
  have hr := srcCoords_inRange hs hc
  unfold broadcastIndex
  rw [if_pos hs.1, if_pos (by omega)]
  rw [← hl]
  have : (((c.drop (c.length - s.length)).zip s).map fun (oc, s) => if s = 1 then 0 else oc)
      = srcCoords s c := by
    unfold srcCoords
    rw [List.zip, List.map_zipWith]
  rw [this, ravel_eq hr.length]

theorem broadcastArray_ok {α : Type} [Inhabited α] (a : Arr α) (t : List Nat) (hw : a.WF)
    (r : Arr α) : broadcastArray a t = .ok r ↔
      Stretches a.shape t ∧ r.shape = t ∧ r.WF ∧
      ∀ c, InRange t c → (elem a (srcCoords a.shape c)).isSome ∧
        elem r c = elem a (srcCoords a.shape c) := by
  have hiff : (a.shape.length ≤ t.length ∧
      ((t.drop (t.length - a.shape.length)).zip a.shape).all
        (fun (t, s) => s == 1 || s == t) = true) ↔ Stretches a.shape t := by
    rw [stretches_iff]
    refine and_congr_right fun hl => all_zip_iff _ _ (by simp; omega)
  unfold broadcastArray
  have key : Stretches a.shape t → ∀ c, InRange t c →
      ∃ v, elem a (srcCoords a.shape c) = some v ∧
        ((List.range t.prod).map fun i =>
          a.data.getD ((broadcastIndex (unravel i t) a.shape t.length).getD 0) default)[rowMajor t c]?
          = some v := by
    intro hs c hc
    have hlt := rowMajor_lt hc
    have h2 := rowMajor_lt (srcCoords_inRange hs hc)
    have hw' : a.data.length = a.shape.prod := hw
    refine ⟨a.data[rowMajor a.shape (srcCoords a.shape c)]'(by omega), ?_, ?_⟩
    · unfold elem; rw [List.getElem?_eq_getElem]
    · rw [List.getElem?_map, List.getElem?_range hlt]
      simp only [Option.map_some, unravel_rowMajor hc, broadcastIndex_eq hs hc, Option.getD_some]
      rw [List.getD_eq_getElem _ _ (by omega)]
  split_ifs with h
  · have hs := hiff.1 h
    simp only [Except.ok.injEq]
    constructor
    · rintro rfl
      refine ⟨hs, rfl, by simp [Arr.WF], fun c hc => ?_⟩
      obtain ⟨v, h1, h2⟩ := key hs c hc
      refine ⟨by rw [h1]; rfl, ?_⟩
      rw [h1]; exact h2
    · rintro ⟨_, h1, h2, h3⟩
      have hd : r.data = (List.range t.prod).map fun i =>
          a.data.getD ((broadcastIndex (unravel i t) a.shape t.length).getD 0) default := by
        apply List.ext_getElem?
        intro i
        by_cases hi : i < t.prod
        · obtain ⟨v, e1, e2⟩ := key hs (unravel i t) (unravel_inRange hi)
          have e3 := (h3 (unravel i t) (unravel_inRange hi)).2
          unfold elem at e3 e1
          rw [h1, rowMajor_unravel hi, e1] at e3
          rw [rowMajor_unravel hi] at e2
          rw [e3, e2]
        · unfold Arr.WF at h2
          rw [h1] at h2
          rw [List.getElem?_eq_none (by omega), List.getElem?_eq_none (by simp; omega)]
      cases r
      simp only at h1 hd
      subst h1 hd
      rfl
  · constructor
    · intro hh; cases hh
    · intro hh; exact absurd (hiff.2 hh.1) h

/-! ### Axes -/

theorem normAxis_ok (rank : Nat) (a : Int) (x : Nat) :
    normAxis rank a = .ok x ↔ x < rank ∧ ((x : Int) = a ∨ (x : Int) = a + rank ∧ a < 0) := by
  unfold normAxis
  dsimp only
  split_ifs with h1 h2 h2
  · constructor
    · intro h; cases h
    · rintro ⟨h3, h4 | h4⟩ <;> omega
  · simp only [Except.ok.injEq]
    constructor <;> intro h <;> omega
  · constructor
    · intro h; cases h
    · rintro ⟨h3, h4 | h4⟩ <;> omega
  · simp only [Except.ok.injEq]
    constructor <;> intro h <;> omega

theorem normLoop_ok (rank : Nat) : ∀ (axes : List Int) (out r : List Nat),
    normLoop rank axes out = .ok r ↔
      ∃ xs, List.Forall₂ (fun a x => normAxis rank a = .ok x) axes xs ∧ xs.Nodup ∧
        (∀ x ∈ xs, x ∉ out) ∧ r = out ++ xs
  | [], out, r => by
    simp only [normLoop, Except.ok.injEq, List.forall₂_nil_left_iff]
    constructor
    · rintro rfl; exact ⟨[], rfl, by simp, by simp, by simp⟩
    · rintro ⟨xs, rfl, _, _, h⟩; simpa using h.symm
  | a :: as, out, r => by
    cases hx : normAxis rank a with
    | error e =>
      simp only [normLoop, hx]
      constructor
      · intro h; cases h
      · rintro ⟨xs, hf, _⟩
        cases hf with
        | cons h _ => rw [hx] at h; cases h
    | ok x =>
      have : normLoop rank (a :: as) out
          = if x ∈ out then .error .invalid else normLoop rank as (out ++ [x]) := by
        simp only [normLoop, hx]; rfl
      rw [this]
      split_ifs with hm
      · constructor
        · intro h; cases h
        · rintro ⟨xs, hf, _, hn, _⟩
          cases hf with
          | cons h _ =>
            rw [hx] at h; cases h
            exact absurd hm (hn x (by simp))
      · rw [normLoop_ok rank as]
        constructor
        · rintro ⟨xs, hf, hnd, hn, rfl⟩
          refine ⟨x :: xs, .cons hx hf, ?_, ?_, by simp⟩
          · rw [List.nodup_cons]
            exact ⟨fun hin => hn x hin (by simp), hnd⟩
          · intro y hy
            rcases List.mem_cons.1 hy with rfl | hy
            · exact hm
            · intro ho; exact hn y hy (by simp [ho])
        · rintro ⟨xs, hf, hnd, hn, rfl⟩
          cases hf with
          | cons h hf =>
            rw [hx] at h; cases h
            rw [List.nodup_cons] at hnd
            refine ⟨_, hf, hnd.2, ?_, by simp⟩
            intro y hy ho
            rcases List.mem_append.1 ho with ho | ho
            · exact hn y (by simp [hy]) ho
            · simp only [List.mem_singleton] at ho
              subst ho
              exact hnd.1 hy

theorem normAxis_error (rank : Nat) (a : Int) (e : Err) (h : normAxis rank a = .error e) :
    e = .invalid := by
  unfold normAxis at h
  dsimp only at h
  split_ifs at h <;> cases h <;> rfl

theorem normLoop_error (rank : Nat) : ∀ (axes : List Int) (out : List Nat) (e : Err),
    normLoop rank axes out = .error e → e = .invalid
  | [], out, e, h => by cases h
  | a :: as, out, e, h => by
    cases hx : normAxis rank a with
    | error e' =>
      simp only [normLoop, hx] at h
      cases h
      exact normAxis_error _ _ _ hx
    | ok x =>
      have : normLoop rank (a :: as) out
          = if x ∈ out then .error .invalid else normLoop rank as (out ++ [x]) := by
        simp only [normLoop, hx]; rfl
      rw [this] at h
      split_ifs at h with hm
      · cases h; rfl
      · exact normLoop_error rank as _ e h

/-! ### Reshape -/

/-- The product of the entries other than `-1`. -/
def knownProd (shape : List Int) : Nat :=
  ((shape.filter (· ≠ -1)).map Int.toNat).prod

theorem knownProd_cons_neg (ds : List Int) : knownProd (-1 :: ds) = knownProd ds := by
  simp [knownProd]

theorem knownProd_cons {d : Int} (h : d ≠ -1) (ds : List Int) :
    knownProd (d :: ds) = d.toNat * knownProd ds := by
  simp [knownProd, h]

theorem reshapeFold_ok : ∀ (shape : List Int) (acc : Nat) (seen : Bool) (k : Nat) (s : Bool),
    reshapeFold shape acc seen = .ok (k, s) →
      (∀ d ∈ shape, d = -1 ∨ 0 < d) ∧ k = acc * knownProd shape ∧
      (seen.toNat + shape.count (-1) = s.toNat)
  | [], acc, seen, k, s, h => by
    simp only [reshapeFold, Except.ok.injEq, Prod.mk.injEq] at h
    obtain ⟨rfl, rfl⟩ := h
    simp [knownProd]
  | d :: ds, acc, seen, k, s, h => by
    simp only [reshapeFold] at h
    split_ifs at h with h1 h2 h3
    · subst h1
      obtain ⟨e1, e2, e3⟩ := reshapeFold_ok ds acc true k s h
      refine ⟨by simpa using e1, by rw [knownProd_cons_neg]; exact e2, ?_⟩
      simp only [Bool.not_eq_true] at h2
      subst h2
      simp only [List.count_cons_self, Bool.toNat_true, Bool.toNat_false] at e3 ⊢
      omega
    · cases hu : usz (acc * d.toNat) with
      | error e => rw [hu] at h; cases h
      | ok a =>
        rw [hu] at h
        have ha : a = acc * d.toNat := by
          unfold usz at hu; split_ifs at hu; cases hu; rfl
        obtain ⟨e1, e2, e3⟩ := reshapeFold_ok ds a seen k s h
        refine ⟨?_, ?_, ?_⟩
        · intro x hx
          rcases List.mem_cons.1 hx with rfl | hx
          · right; omega
          · exact e1 x hx
        · rw [e2, ha, knownProd_cons h1, Nat.mul_assoc]
        · rw [List.count_cons_of_ne (by simpa using h1)]
          exact e3

theorem knownProd_pos {shape : List Int} (h : ∀ d ∈ shape, d = -1 ∨ 0 < d) :
    0 < knownProd shape := by
  unfold knownProd
  rw [Nat.pos_iff_ne_zero, Ne, List.prod_eq_zero_iff]
  intro hx
  simp only [List.mem_map, List.mem_filter] at hx
  obtain ⟨d, ⟨hd, hd2⟩, hz⟩ := hx
  simp only [decide_eq_true_eq] at hd2
  rcases h d hd with h | h
  · exact absurd h hd2
  · omega

theorem reshapeFold_complete : ∀ (shape : List Int) (acc : Nat) (seen : Bool),
    (∀ d ∈ shape, d = -1 ∨ 0 < d) → seen.toNat + shape.count (-1) ≤ 1 →
    0 < acc → acc * knownProd shape < usizeMax →
    ∃ s : Bool, reshapeFold shape acc seen = .ok (acc * knownProd shape, s)
  | [], acc, seen, _, _, _, _ => ⟨seen, by simp [reshapeFold, knownProd]⟩
  | d :: ds, acc, seen, hd, hc, ha, hb => by
    simp only [reshapeFold]
    have hds : ∀ x ∈ ds, x = -1 ∨ 0 < x := fun x hx => hd x (by simp [hx])
    split_ifs with h1 h2 h3
    · subst h1; subst h2
      simp at hc
    · subst h1
      rw [knownProd_cons_neg] at hb ⊢
      apply reshapeFold_complete ds acc true hds _ ha hb
      simp only [List.count_cons_self] at hc
      simp only [Bool.toNat_true]
      omega
    · rcases hd d (by simp) with h | h <;> omega
    · rw [knownProd_cons h1, ← Nat.mul_assoc] at hb ⊢
      have hp := knownProd_pos hds
      have hd0 : 0 < d.toNat := by omega
      have hlt : acc * d.toNat < usizeMax :=
        lt_of_le_of_lt (Nat.le_mul_of_pos_right _ hp) hb
      have hu : usz (acc * d.toNat) = .ok (acc * d.toNat) := by unfold usz; rw [if_pos hlt]
      rw [hu]
      apply reshapeFold_complete ds _ seen hds _ (Nat.mul_pos ha hd0) hb
      rw [List.count_cons_of_ne (by simpa using h1)] at hc
      exact hc

/-- Filling the `-1` entries with `v`. -/
theorem prod_fill (v : Nat) : ∀ (shape : List Int),
    (shape.map fun d => if d = -1 then v else d.toNat).prod
      = knownProd shape * v ^ shape.count (-1)
  | [] => by simp [knownProd]
  | d :: ds => by
    rw [List.map_cons, List.prod_cons, prod_fill v ds]
    by_cases h : d = -1
    · subst h
      rw [knownProd_cons_neg, List.count_cons_self, if_pos rfl, pow_succ]; ring
    · rw [knownProd_cons h, List.count_cons_of_ne (by simpa using h), if_neg h]; ring

theorem mapM_some {α β : Type} (f : α → Option β) (g : α → β) : ∀ (l : List α),
    (∀ x ∈ l, f x = some (g x)) → l.mapM f = some (l.map g)
  | [], _ => rfl
  | x :: l, h => by
    rw [List.mapM_cons, h x (by simp), mapM_some f g l (fun y hy => h y (by simp [hy]))]
    rfl

/-- A tensor filled element by element from its coordinates. -/
theorem elem_tabulate {α : Type} (t : List Nat) (g : Nat → α) (c : List Nat) (hc : InRange t c) :
    elem (⟨t, (List.range t.prod).map g⟩ : Arr α) c = some (g (rowMajor t c)) := by
  unfold elem
  simp only
  rw [List.getElem?_map, List.getElem?_range (rowMajor_lt hc)]
  rfl

theorem elem_isSome {α : Type} {a : Arr α} (hw : a.WF) {c : List Nat} (hc : InRange a.shape c) :
    ∃ v, elem a c = some v := by
  have h := rowMajor_lt hc
  have hw' : a.data.length = a.shape.prod := hw
  exact ⟨a.data[rowMajor a.shape c]'(by omega), by unfold elem; rw [List.getElem?_eq_getElem]⟩

end JST.Shape
