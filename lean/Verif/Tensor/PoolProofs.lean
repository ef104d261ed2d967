import Verif.Tensor.Pool
import Verif.Tensor.ConvProofs
import Verif.Tensor.LayerNoPanic

/-!
# The windows read by the pooling layers
-/

namespace JST.Layers

open JST.Shape JST.Spec

section collect
variable {F : Type} [CommRing F] {T : Tables F} {α β : Type}

theorem sound_collectG {f : α → G F β} {Q : α → β → Prop} :
    ∀ l : List α, (∀ a ∈ l, Sound T (f a) (Q a)) → Sound T (collectG f l) (fun o => List.Forall₂ Q l o)
  | [], _ => Sound.pure List.Forall₂.nil
  | a :: l, h => by
    unfold collectG
    exact (h a (by simp)).bind fun b hb => (sound_collectG l fun x hx => h x (List.mem_cons_of_mem _ hx)).bind
      fun bs hbs => Sound.pure (List.Forall₂.cons hb hbs)

theorem complete_collectG {f : α → G F β} {Q : α → β → Prop} :
    ∀ l : List α, (∀ a ∈ l, Complete T (f a) (Q a)) → Complete T (collectG f l) (fun o => List.Forall₂ Q l o)
  | [], _ => Complete.pure List.Forall₂.nil
  | a :: l, h => by
    unfold collectG
    exact (h a (by simp)).bind fun b hb =>
      (complete_collectG l fun x hx => h x (List.mem_cons_of_mem _ hx)).bind
        fun bs hbs => Complete.pure (List.Forall₂.cons hb hbs)

theorem sound_collectG_false {f : α → G F β} :
    ∀ l : List α, (∃ a ∈ l, Sound T (f a) (fun _ => False)) → Sound T (collectG f l) (fun _ => False)
  | [], h => by simp at h
  | a :: l, h => by
    unfold collectG
    obtain ⟨b, hb, hs⟩ := h
    rcases List.mem_cons.1 hb with rfl | hb
    · exact hs.bind fun _ h => h.elim
    · exact Sound.bind (P := fun _ => True) (fun _ _ _ _ => trivial) fun _ _ =>
        (sound_collectG_false l ⟨b, hb, hs⟩).bind fun _ h => h.elim

theorem forge_collectG {f : α → G F β} {g : α → β} :
    ∀ l : List α, (∀ a ∈ l, Forge T (f a) (fun o => o = g a)) → Forge T (collectG f l) (fun o => o = l.map g)
  | [], _ => Forge.pure rfl
  | a :: l, h => by
    unfold collectG
    exact (h a (by simp)).bind (fun _ h => h)
      ((forge_collectG l fun x hx => h x (List.mem_cons_of_mem _ hx)).bind (fun _ h => h) (Forge.pure rfl))

end collect

theorem block_lt {a A r L : Nat} (ha : a < A) (hr : r < L) : a * L + r < A * L := by
  have : (a + 1) * L ≤ A * L := Nat.mul_le_mul_right _ ha
  rw [Nat.add_mul] at this; omega

theorem length_idx4 (N C H W : Nat) : (idx4 N C H W).length = N * (C * (H * W)) := by
  unfold idx4
  refine length_flatMap_block _ _ _ fun n _ => ?_
  refine length_flatMap_block _ _ _ fun c _ => ?_
  refine length_flatMap_block _ _ _ fun h _ => ?_
  simp

theorem idx4_getElem? {N C H W n c i j : Nat} (hn : n < N) (hc : c < C) (hi : i < H) (hj : j < W) :
    (idx4 N C H W)[rowMajor [N, C, H, W] [n, c, i, j]]? = some (n, c, i, j) := by
  have h1 : i * W + j < H * W := block_lt hi hj
  have h2 : c * (H * W) + (i * W + j) < C * (H * W) := block_lt hc h1
  have e : rowMajor [N, C, H, W] [n, c, i, j] = n * (C * (H * W)) + (c * (H * W) + (i * W + j)) := by
    simp [rowMajor]
  rw [e]
  unfold idx4
  rw [getElem?_flatMap_block _ (C * (H * W)) _ _ _ _ hn h2]
  · rw [getElem?_flatMap_block _ (H * W) _ _ _ _ hc h1]
    · rw [getElem?_flatMap_block _ W _ _ _ _ hi hj]
      · simp [hj]
      · intro i _; simp
    · intro i _
      exact length_flatMap_block _ _ _ fun _ _ => by simp
  · intro i _
    exact length_flatMap_block _ _ _ fun _ _ => length_flatMap_block _ _ _ fun _ _ => by simp

theorem mem_idx4 {N C H W : Nat} {a : Nat × Nat × Nat × Nat} (h : a ∈ idx4 N C H W) :
    a.1 < N ∧ a.2.1 < C ∧ a.2.2.1 < H ∧ a.2.2.2 < W := by
  simp only [idx4, List.mem_flatMap, List.mem_map, List.mem_range] at h
  obtain ⟨n, hn, c, hc, i, hi, j, hj, rfl⟩ := h
  exact ⟨hn, hc, hi, hj⟩

theorem mem_idx4_of {N C H W n c i j : Nat} (hn : n < N) (hc : c < C) (hi : i < H) (hj : j < W) :
    (n, c, i, j) ∈ idx4 N C H W := by
  simp only [idx4, List.mem_flatMap, List.mem_map, List.mem_range]
  exact ⟨n, hn, c, hc, i, hi, j, hj, rfl⟩

theorem forall₂_getElem? {α β : Type} {Q : α → β → Prop} {l : List α} {o : List β} (h : List.Forall₂ Q l o)
    {k : Nat} {a : α} (hk : l[k]? = some a) : ∃ b, o[k]? = some b ∧ Q a b := by
  induction h generalizing k with
  | nil => simp at hk
  | cons hab hrest ih =>
    cases k with
    | zero => simp only [List.getElem?_cons_zero, Option.some.injEq] at hk ⊢; subst hk; exact ⟨_, rfl, hab⟩
    | succ k => simp only [List.getElem?_cons_succ] at hk ⊢; exact ih hk

/-- Results collected over the four loops, as an array. -/
theorem idx4_elems {β : Type} {Q : Nat × Nat × Nat × Nat → β → Prop} {N C H W : Nat} {o : List β}
    (h : List.Forall₂ Q (idx4 N C H W) o) :
    o.length = N * (C * (H * W)) ∧ ∀ n c i j, n < N → c < C → i < H → j < W →
      ∃ v, elem ⟨[N, C, H, W], o⟩ [n, c, i, j] = some v ∧ Q (n, c, i, j) v :=
  ⟨by rw [← h.length_eq, length_idx4], fun n c i j hn hc hi hj =>
    forall₂_getElem? h (idx4_getElem? hn hc hi hj)⟩

theorem stepRange_window (lo : Int) (k : Nat) {d : Nat} (hd : 0 < d) :
    stepRange lo (lo + (k * d : Nat)) d = (List.range k).map fun a : Nat => lo + a * d := by
  unfold stepRange
  congr 2
  have : (lo + (k * d : Nat) - lo + d - 1) / (d : Int) = k := by
    rw [Int.ediv_eq_iff_of_pos (by omega)]
    push_cast
    constructor <;> nlinarith
  rw [this]; simp

theorem insideSteps_eq (lo : Int) (k : Nat) {d : Nat} (hd : 0 < d) (dim : Nat) :
    insideSteps lo (lo + (k * d : Nat)) d dim = (List.range k).filterMap fun a : Nat =>
      if 0 ≤ lo + a * d ∧ lo + a * d < dim then some (lo + a * d).toNat else none := by
  unfold insideSteps
  rw [stepRange_window lo k hd, List.filterMap_map]
  congr 1
  funext a
  simp only [Function.comp]
  by_cases h : 0 ≤ lo + a * d
  · have : (lo + a * d).toNat < dim ↔ lo + a * d < dim := by omega
    simp only [h, this, true_and]
  · simp [h]

section windows
variable {F : Type} [Zero F]

theorem read4_ok {x : Arr F} (hw : x.WF) {N C H W n c h w : Nat} (hs : x.shape = [N, C, H, W]) (hn : n < N)
    (hc : c < C) (hh : h < H) (hwd : w < W) :
    ∃ v, elem x [n, c, h, w] = some v ∧ read4 x n c h w = .ok v := by
  have h1 : h * W + w < H * W := block_lt hh hwd
  have h2 : c * (H * W) + (h * W + w) < C * (H * W) := block_lt hc h1
  have h3 : n * (C * (H * W)) + (c * (H * W) + (h * W + w)) < N * (C * (H * W)) := block_lt hn h2
  have e : rowMajor [N, C, H, W] [n, c, h, w] = n * (C * (H * W)) + (c * (H * W) + (h * W + w)) := by
    simp [rowMajor]
  have hlen : x.data.length = N * (C * (H * W)) := by rw [hw, hs]; simp
  refine ⟨x.data[n * (C * (H * W)) + (c * (H * W) + (h * W + w))]'(by omega), ?_, ?_⟩
  · unfold elem
    rw [hs, e, List.getElem?_eq_getElem]
  · unfold read4
    rw [hs]
    simp only [List.getD_cons_zero, List.getD_cons_succ]
    rw [if_pos ⟨hn, hc, hh, hwd⟩]
    have e2 : ((n * C + c) * H + h) * W + w = n * (C * (H * W)) + (c * (H * W) + (h * W + w)) := by ring
    rw [e2, List.getD_eq_getElem]

theorem maxRow_ok {x : Arr F} (hw : x.WF) {N C H W n c h : Nat} (hs : x.shape = [N, C, H, W]) (hn : n < N)
    (hc : c < C) (hh : h < H) (w0 : Int) (kw : Nat) {dw : Nat} (hd : 0 < dw) :
    maxRow x n c w0 (w0 + (kw * dw : Nat)) dw W h = .ok ((List.range kw).filterMap fun b : Nat =>
      if 0 ≤ w0 + b * dw ∧ w0 + b * dw < W then elem x [n, c, h, (w0 + b * dw).toNat] else none) := by
  unfold maxRow
  rw [if_neg (by omega), insideSteps_eq w0 kw hd]
  generalize List.range kw = l
  induction l with
  | nil => rfl
  | cons b l ih =>
    rw [List.filterMap_cons, List.filterMap_cons]
    by_cases hb : 0 ≤ w0 + b * dw ∧ w0 + b * dw < W
    · obtain ⟨v, hv, hr⟩ := read4_ok hw hs hn hc hh (w := (w0 + b * dw).toNat) (by omega)
      simp only [if_pos hb, hv]
      rw [List.mapM_cons, hr, ih]; rfl
    · simp only [if_neg hb]
      exact ih

/-- MaxPool reads exactly the data inside the window. -/
theorem maxValues_ok {x : Arr F} (hw : x.WF) {N C H W n c : Nat} (hs : x.shape = [N, C, H, W]) (hn : n < N)
    (hc : c < C) (P : PoolParams) (hdh : 0 < P.dh) (hdw : 0 < P.dw) (ph pw : Nat) :
    maxValues x P H W n c ph pw =
      .ok (poolWindow x P.kh P.kw P.dh P.dw P.sh P.sw P.padH.1 P.padW.1 n c ph pw) := by
  unfold maxValues poolWindow
  dsimp only
  rw [if_neg (by omega), insideSteps_eq _ P.kh hdh, hs]
  simp only [List.getD_cons_zero, List.getD_cons_succ]
  generalize List.range P.kh = l
  induction l with
  | nil => rfl
  | cons a l ih =>
    rw [List.filterMap_cons, List.flatMap_cons]
    have ea : (ph * P.sh : Int) - P.padH.1 + a * P.dh = ph * P.sh + a * P.dh - P.padH.1 := by ring
    rw [ea]
    have eb : ∀ b : Nat, (pw * P.sw : Int) - P.padW.1 + b * P.dw = pw * P.sw + b * P.dw - P.padW.1 := by
      intro b; ring
    by_cases h : 0 ≤ (ph * P.sh : Int) + a * P.dh - P.padH.1 ∧ (ph * P.sh : Int) + a * P.dh - P.padH.1 < H
    · simp only [if_pos h]
      rw [List.mapM_cons, maxRow_ok hw hs hn hc (by omega) _ P.kw hdw]
      obtain ⟨rows, e1, e2⟩ := Layers.bind_eq_ok ih
      rw [e1]
      simp only [eb, h.1, h.2, true_and]
      have := (Except.ok.inj e2)
      rw [← this]
      rfl
    · simp only [if_neg h]
      have : ((List.range P.kw).filterMap fun b : Nat =>
          if 0 ≤ (ph * P.sh : Int) + a * P.dh - P.padH.1 ∧ (ph * P.sh : Int) + a * P.dh - P.padH.1 < H ∧
            0 ≤ (pw * P.sw : Int) + b * P.dw - P.padW.1 ∧ (pw * P.sw : Int) + b * P.dw - P.padW.1 < W then
          elem x [n, c, ((ph * P.sh : Int) + a * P.dh - P.padH.1).toNat,
            ((pw * P.sw : Int) + b * P.dw - P.padW.1).toNat] else none) = [] := by
        rw [List.filterMap_eq_nil_iff]
        intro b _
        rw [if_neg]
        intro hh; exact h ⟨hh.1, hh.2.1⟩
      rw [this, List.nil_append]
      exact ih

/-- AveragePool reads exactly the data inside the window. -/
theorem avgValues_eq {x : Arr F} (hw : x.WF) {N C H W n c : Nat} (hs : x.shape = [N, C, H, W]) (hn : n < N)
    (hc : c < C) (L : AvgPool) (oh ow : Nat) :
    avgValues x.data L C H W n c oh ow =
      poolWindow x L.kh L.kw 1 1 L.sh L.sw L.p0 L.p1 n c oh ow := by
  unfold avgValues poolWindow
  rw [hs]
  simp only [List.getD_cons_zero, List.getD_cons_succ]
  congr 1; funext a; congr 1; funext b
  have ea : ((oh * L.sh : Nat) : Int) - L.p0 + a = oh * L.sh + a * (1 : Nat) - L.p0 := by push_cast; ring
  have eb : ((ow * L.sw : Nat) : Int) - L.p1 + b = ow * L.sw + b * (1 : Nat) - L.p1 := by push_cast; ring
  rw [ea, eb]
  generalize (oh * L.sh : Int) + a * (1 : Nat) - L.p0 = h
  generalize (ow * L.sw : Int) + b * (1 : Nat) - L.p1 = w
  by_cases hin : 0 ≤ h ∧ h < H ∧ 0 ≤ w ∧ w < W
  · obtain ⟨v, hv, hr⟩ := read4_ok hw hs hn hc (h := h.toNat) (w := w.toNat) (by omega) (by omega)
    rw [if_pos hin, if_pos (by omega), hv]
    congr 1
    unfold read4 at hr
    rw [hs] at hr
    simp only [List.getD_cons_zero, List.getD_cons_succ] at hr
    rw [if_pos ⟨hn, hc, by omega, by omega⟩] at hr
    rw [← Except.ok.inj hr]
    congr 1; ring
  · rw [if_neg hin, if_neg (by omega)]

end windows

/-! ## All coordinates of a shape -/

theorem length_coordsOf : ∀ s : List Nat, (coordsOf s).length = s.prod
  | [] => rfl
  | d :: ds => by
    unfold coordsOf
    rw [length_flatMap_block _ ds.prod _ fun i _ => by rw [List.length_map, length_coordsOf], List.prod_cons]

theorem mem_coordsOf {s q : List Nat} : q ∈ coordsOf s ↔ InRange s q := by
  induction s generalizing q with
  | nil => simp [coordsOf, InRange]
  | cons d ds ih =>
    simp only [coordsOf, List.mem_flatMap, List.mem_range, List.mem_map, InRange]
    constructor
    · rintro ⟨i, hi, q, hq, rfl⟩
      exact List.Forall₂.cons hi (ih.1 hq)
    · intro h
      cases h with
      | cons h1 h2 => exact ⟨_, h1, _, ih.2 h2, rfl⟩

theorem range_flatMap_block (d S : Nat) :
    ((List.range d).flatMap fun i => (List.range S).map fun k => i * S + k) = List.range (d * S) := by
  induction d with
  | zero => simp
  | succ d ih =>
    rw [List.range_succ, List.flatMap_append, ih, Nat.succ_mul, List.range_add]
    simp

/-- The coordinates of a shape, in order, are the positions of the array. -/
theorem coordsOf_rowMajor : ∀ s : List Nat, (coordsOf s).map (rowMajor s) = List.range s.prod
  | [] => rfl
  | d :: ds => by
    rw [List.prod_cons, ← range_flatMap_block]
    unfold coordsOf
    rw [List.map_flatMap]
    congr 1; funext i
    rw [List.map_map, ← coordsOf_rowMajor ds, List.map_map]
    rfl

theorem filterMap_getElem?_range {α : Type} (l : List α) (off n : Nat) (h : off + n ≤ l.length) :
    ((List.range n).filterMap fun k => l[off + k]?) = (l.drop off).take n := by
  induction n with
  | zero => simp
  | succ n ih =>
    have h1 : off + n < l.length := by omega
    rw [List.range_succ, List.filterMap_append, ih (by omega), List.take_add_one]
    simp [h1]

/-- The part of an array under a fixed prefix of two coordinates is a slice. -/
theorem coords_slice {α : Type} {x : Arr α} (hw : x.WF) {N C : Nat} {sp : List Nat} (hs : x.shape = N :: C :: sp)
    {n c : Nat} (hn : n < N) (hc : c < C) :
    ((coordsOf sp).filterMap fun q => elem x (n :: c :: q)) =
      (x.data.drop (n * C * sp.prod + c * sp.prod)).take sp.prod := by
  have h1 : n * C + c < N * C := block_lt hn hc
  have h2 : (n * C + c + 1) * sp.prod ≤ N * C * sp.prod := Nat.mul_le_mul_right _ h1
  have hl : x.data.length = N * C * sp.prod := by rw [hw, hs]; simp [Nat.mul_assoc]
  rw [← filterMap_getElem?_range, ← coordsOf_rowMajor, List.filterMap_map]
  · congr 1; funext q
    simp only [elem, hs, rowMajor, Function.comp, List.prod_cons]
    congr 1; ring
  · rw [hl]; nlinarith

theorem length_idx2 (N C : Nat) : (idx2 N C).length = N * C :=
  length_flatMap_block _ _ _ fun _ _ => by simp

theorem mem_idx2 {N C : Nat} {a : Nat × Nat} : a ∈ idx2 N C ↔ a.1 < N ∧ a.2 < C := by
  simp only [idx2, List.mem_flatMap, List.mem_map, List.mem_range]
  constructor
  · rintro ⟨n, hn, c, hc, rfl⟩; exact ⟨hn, hc⟩
  · rintro ⟨hn, hc⟩; exact ⟨_, hn, _, hc, rfl⟩

theorem idx2_elems {β : Type} {Q : Nat × Nat → β → Prop} {N C : Nat} {o : List β}
    (h : List.Forall₂ Q (idx2 N C) o) (k : Nat) :
    o.length = N * C ∧ ∀ n c, n < N → c < C →
      ∃ v, elem ⟨N :: C :: List.replicate k 1, o⟩ (n :: c :: List.replicate k 0) = some v ∧ Q (n, c) v := by
  refine ⟨by rw [← h.length_eq, length_idx2], fun n c hn hc => forall₂_getElem? h ?_⟩
  have e : ∀ k, rowMajor (List.replicate k 1) (List.replicate k 0) = 0 := by
    intro k
    induction k with
    | zero => rfl
    | succ k ih => simp [List.replicate_succ, rowMajor, ih]
  have e2 : rowMajor (N :: C :: List.replicate k 1) (n :: c :: List.replicate k 0) = n * C + c := by
    simp [rowMajor, e]
  simp only [e2]
  unfold idx2
  rw [getElem?_flatMap_block _ C _ _ _ _ hn hc]
  · simp [hc]
  · intro i _; simp

end JST.Layers
