import Verif.Tensor.Conv
import Verif.Tensor.LayerLemmas
import Verif.Spec.Numeric

/-! # Convolution computes the specified sums -/

namespace JST.Layers

open JST.Shape JST.Spec

variable {F : Type} [CommRing F]

/-! ## Accumulating loops -/

/-- Add each value at its position. -/
def addAll (res : List F) (ops : List (Nat × F)) : List F :=
  ops.foldl (fun r o => r.set o.1 (o.2 + r.getD o.1 0)) res

theorem addAll_length (ops : List (Nat × F)) : ∀ res : List F, (addAll res ops).length = res.length := by
  induction ops with
  | nil => intro; rfl
  | cons o os ih => intro res; simp only [addAll, List.foldl_cons]; rw [← addAll, ih]; simp

theorem addAll_append (a b : List (Nat × F)) (res : List F) :
    addAll res (a ++ b) = addAll (addAll res a) b := by
  simp [addAll, List.foldl_append]

theorem addAll_getD (ops : List (Nat × F)) : ∀ (res : List F) (q : Nat), q < res.length →
    (addAll res ops).getD q 0 = res.getD q 0 + (ops.map fun o => if o.1 = q then o.2 else 0).sum := by
  induction ops with
  | nil => intro res q _; simp [addAll]
  | cons o os ih =>
    intro res q hq
    have e : addAll res (o :: os) = addAll (res.set o.1 (o.2 + res.getD o.1 0)) os := rfl
    rw [e, ih _ _ (by simpa using hq)]
    by_cases h : o.1 = q
    · subst h
      simp [List.getD_eq_getElem?_getD, hq]
      ring
    · simp [List.getD_eq_getElem?_getD, h, List.getElem?_set]

/-- A loop each of whose steps performs the additions `ops a` performs all of them. -/
theorem foldlM_addAll {α : Type} {f : List F → α → R (List F)} {ops : α → List (Nat × F)} (L : Nat) :
    ∀ (l : List α) (res : List F), res.length = L →
      (∀ a ∈ l, ∀ r : List F, r.length = L → f r a = .ok (addAll r (ops a))) →
      l.foldlM f res = .ok (addAll res (l.flatMap ops)) := by
  intro l
  induction l with
  | nil => intro res _ _; rfl
  | cons a as ih =>
    intro res hr h
    rw [List.foldlM_cons, h a (by simp) res hr, List.flatMap_cons, addAll_append]
    exact ih _ (by rw [addAll_length, hr]) fun b hb => h b (by simp [hb])

theorem sum_map_range {M : Type} [AddCommMonoid M] (f : Nat → M) (n : Nat) :
    ((List.range n).map f).sum = ∑ k ∈ Finset.range n, f k := by
  induction n with
  | zero => simp
  | succ n ih => rw [List.range_succ, Finset.sum_range_succ]; simp [ih]

theorem sum_map_flatMap {α β M : Type} [AddCommMonoid M] (g : α → List β) (f : β → M) (l : List α) :
    ((l.flatMap g).map f).sum = (l.map fun a => ((g a).map f).sum).sum := by
  induction l with
  | nil => rfl
  | cons a as ih => simp [List.flatMap_cons, ih]

/-! ## The dot product of a clipped window -/

theorem zip_rows {α β : Type} (f : Nat → Nat → α) (g : Nat → Nat → β) (wl hl : Nat) :
    ((List.range hl).flatMap fun r => (List.range wl).map (f r)).zip
      ((List.range hl).flatMap fun r => (List.range wl).map (g r)) =
    (List.range hl).flatMap fun r => (List.range wl).map fun t => (f r t, g r t) := by
  induction hl with
  | zero => rfl
  | succ n ih =>
    rw [List.range_succ, List.flatMap_append, List.flatMap_append, List.flatMap_append,
      List.zip_append (by simp [List.length_flatMap]), ih]
    simp only [List.flatMap_cons, List.flatMap_nil, List.append_nil]
    rw [List.zip_map']

theorem flattenDot_eq (a b : List F) : flattenDot a b = ((a.zip b).map fun ab => ab.1 * ab.2).sum := by
  have : ∀ (l : List (F × F)) (z : F), l.foldl (fun s ab => s + ab.1 * ab.2) z =
      z + (l.map fun ab => ab.1 * ab.2).sum := by
    intro l
    induction l with
    | nil => simp
    | cons o os ih => intro z; rw [List.foldl_cons, ih]; simp [add_assoc]
  rw [flattenDot, this, zero_add]

/-- The entry of a four-dimensional array. -/
def at4 (a : Arr F) (n c h w : Nat) : F :=
  a.data.getD (((n * a.shape.getD 1 0 + c) * a.shape.getD 2 0 + h) * a.shape.getD 3 0 + w) 0

theorem flattenDot_window (x w : Arr F) (n m c h0 w0 g0 v0 hl wl : Nat) :
    flattenDot (window x n c h0 hl w0 wl) (window w m c g0 hl v0 wl) =
      ∑ r ∈ Finset.range hl, ∑ t ∈ Finset.range wl,
        at4 x n c (h0 + r) (w0 + t) * at4 w m c (g0 + r) (v0 + t) := by
  rw [flattenDot_eq, window, window, zip_rows, sum_map_flatMap, sum_map_range]
  refine Finset.sum_congr rfl fun r _ => ?_
  rw [List.map_map, sum_map_range]
  rfl

theorem at4_eq_elem (a : Arr F) {s0 s1 s2 s3 : Nat} (hs : a.shape = [s0, s1, s2, s3]) (n c h w : Nat) :
    at4 a n c h w = (elem a [n, c, h, w]).getD 0 := by
  have : rowMajor a.shape [n, c, h, w] =
      ((n * a.shape.getD 1 0 + c) * a.shape.getD 2 0 + h) * a.shape.getD 3 0 + w := by
    rw [hs]; simp [rowMajor]; ring
  rw [at4, elem, this, List.getD_eq_getElem?_getD]

/-- One axis: summing over the kernel positions that fall on the data is summing over the clipped
window. -/
theorem sum_clip (f : Nat → F) (k s : Nat) (io : Int) (h1 : 0 ≤ io + k) (h2 : io ≤ s) :
    ∑ a ∈ Finset.range k, (if 0 ≤ io + a ∧ io + a < s then f a else 0) =
      ∑ r ∈ Finset.range ((min (io + k) s).toNat - (max 0 io).toNat), f ((max (-io) 0).toNat + r) := by
  rw [← Finset.sum_filter]
  have : (Finset.range k).filter (fun a : Nat => 0 ≤ io + a ∧ io + a < s) =
      Finset.Ico (max (-io) 0).toNat
        ((max (-io) 0).toNat + ((min (io + k) s).toNat - (max 0 io).toNat)) := by
    ext a
    simp only [Finset.mem_filter, Finset.mem_range, Finset.mem_Ico]
    omega
  rw [this, Finset.sum_Ico_eq_sum_range]
  simp

theorem i32ToUsize_ok {x : Int} (h : 0 ≤ x) : i32ToUsize x = .ok x.toNat := by
  rw [i32ToUsize, if_neg (by omega)]

theorem sliceAxis_ok {dim lo hi : Nat} (h1 : lo ≤ hi) (h2 : hi ≤ dim) :
    sliceAxis dim lo hi = .ok (lo, hi - lo) := by
  rw [sliceAxis, Nat.max_eq_right h1, if_pos ⟨by omega, h2⟩]

/-- The value `convDot` should have. -/
def dotSpec (x w : Arr F) (kh kw : Nat) (n nw c : Nat) (io jo : Int) : F :=
  ∑ a ∈ Finset.range kh, ∑ b ∈ Finset.range kw,
    padded x n c (io + a) (jo + b) * (elem w [nw, c, a, b]).getD 0

theorem dotSpec_clip (x w : Arr F) {N C H W M C' wh ww : Nat} (hx : x.shape = [N, C, H, W])
    (hw : w.shape = [M, C', wh, ww]) (kh kw n nw c : Nat) (io jo : Int)
    (h1 : 0 ≤ io + kh) (h2 : io ≤ H) (h3 : 0 ≤ jo + kw) (h4 : jo ≤ W) :
    dotSpec x w kh kw n nw c io jo =
      ∑ r ∈ Finset.range ((min (io + kh) H).toNat - (max 0 io).toNat),
      ∑ t ∈ Finset.range ((min (jo + kw) W).toNat - (max 0 jo).toNat),
        at4 x n c ((max 0 io).toNat + r) ((max 0 jo).toNat + t) *
        at4 w nw c ((max (-io) 0).toNat + r) ((max (-jo) 0).toNat + t) := by
  have e : ∀ a : Nat, (∑ b ∈ Finset.range kw,
      padded x n c (io + a) (jo + b) * (elem w [nw, c, a, b]).getD 0) =
      if 0 ≤ io + a ∧ io + a < H then
        ∑ t ∈ Finset.range ((min (jo + kw) W).toNat - (max 0 jo).toNat),
          at4 x n c (io + a).toNat (jo + ((max (-jo) 0).toNat + t : Nat)).toNat *
          at4 w nw c a ((max (-jo) 0).toNat + t)
      else 0 := by
    intro a
    split_ifs with ha
    · rw [← sum_clip (fun b => at4 x n c (io + a).toNat (jo + (b : Nat)).toNat * at4 w nw c a b) kw W jo
        h3 h4]
      refine Finset.sum_congr rfl fun b _ => ?_
      rw [padded, hx]
      simp only [List.getD_cons_succ, List.getD_cons_zero]
      by_cases hb : 0 ≤ jo + b ∧ jo + b < W
      · rw [if_pos ⟨ha.1, ha.2, hb.1, hb.2⟩, if_pos hb, at4_eq_elem x hx, at4_eq_elem w hw]
      · rw [if_neg (fun h => hb ⟨h.2.2.1, h.2.2.2⟩), if_neg hb, zero_mul]
    · refine Finset.sum_eq_zero fun b _ => ?_
      rw [padded, hx]
      simp only [List.getD_cons_succ, List.getD_cons_zero]
      rw [if_neg (fun h => ha ⟨h.1, h.2.1⟩), zero_mul]
  rw [dotSpec, Finset.sum_congr rfl fun a _ => e a,
    sum_clip (fun a => ∑ t ∈ Finset.range ((min (jo + kw) W).toNat - (max 0 jo).toNat),
      at4 x n c (io + (a : Nat)).toNat (jo + ((max (-jo) 0).toNat + t : Nat)).toNat *
        at4 w nw c a ((max (-jo) 0).toNat + t)) kh H io h1 h2]
  refine Finset.sum_congr rfl fun r _ => Finset.sum_congr rfl fun t _ => ?_
  have e1 : (io + ((max (-io) 0).toNat + r : Nat)).toNat = (max 0 io).toNat + r := by omega
  have e2 : (jo + ((max (-jo) 0).toNat + t : Nat)).toNat = (max 0 jo).toNat + t := by omega
  rw [e1, e2]

/-- A window that meets or touches the data is multiplied with the matching part of the kernel. -/
theorem convDot_ok (x w : Arr F) (d : ConvDims) {N C M C' : Nat} (hx : x.shape = [N, C, d.sH, d.sW])
    (hw : w.shape = [M, C', d.wh, d.ww]) (hkh : d.kh ≤ d.wh) (hkw : d.kw ≤ d.ww) {n nw c : Nat}
    (hn : n < N) (hc : c < C) {io jo : Int}
    (h1 : 0 ≤ io + d.kh) (h2 : io ≤ d.sH) (h3 : 0 ≤ jo + d.kw) (h4 : jo ≤ d.sW) :
    convDot x w d n nw c io jo = .ok (dotSpec x w d.kh d.kw n nw c io jo) := by
  have a1 : io + (d.kh : Int) % 2 + -((d.kh : Int) % 2) = io := by ring
  have a2 : jo + (d.kw : Int) % 2 + -((d.kw : Int) % 2) = jo := by ring
  have a3 : - -((d.kh : Int) % 2) - (io + (d.kh : Int) % 2) = -io := by ring
  have a4 : - -((d.kw : Int) % 2) - (jo + (d.kw : Int) % 2) = -jo := by ring
  have a5 : (d.kh : Int) + d.sH - (io + d.kh) = d.sH - io := by ring
  have a6 : (d.kw : Int) + d.sW - (jo + d.kw) = d.sW - jo := by ring
  rw [convDot]
  simp only [a1, a2, a3, a4, a5, a6]
  rw [i32ToUsize_ok (by omega), i32ToUsize_ok (by omega), i32ToUsize_ok (by omega),
    i32ToUsize_ok (by omega)]
  simp only [Except.bind, bind, hx, List.getD_cons_succ, List.getD_cons_zero]
  rw [sliceAxis_ok (by omega) (by omega), sliceAxis_ok (by omega) (by omega),
    sliceAxis_ok (by omega) (by omega), sliceAxis_ok (by omega) (by omega)]
  dsimp only
  rw [dotSpec_clip x w hx hw d.kh d.kw n nw c io jo h1 h2 h3 h4]
  by_cases hf : (min (io + d.kh) d.sH).toNat - (max 0 io).toNat = d.wh ∧
      (min (jo + d.kw) d.sW).toNat - (max 0 jo).toNat = d.ww
  · rw [if_pos hf, hf.1, hf.2, flattenDot_window]
    have e1 : (max (-io) 0).toNat = 0 := by omega
    have e2 : (max (-jo) 0).toNat = 0 := by omega
    rw [e1, e2]
  · rw [if_neg hf, i32ToUsize_ok (by omega), i32ToUsize_ok (by omega), i32ToUsize_ok (by omega),
      i32ToUsize_ok (by omega)]
    dsimp only
    rw [sliceAxis_ok (by omega) (by omega), sliceAxis_ok (by omega) (by omega)]
    dsimp only
    have e1 : (min (d.kh : Int) (d.sH - io)).toNat - (max (-io) 0).toNat =
      (min (io + d.kh) d.sH).toNat - (max 0 io).toNat := by omega
    have e2 : (min (d.kw : Int) (d.sW - jo)).toNat - (max (-jo) 0).toNat =
      (min (jo + d.kw) d.sW).toNat - (max 0 jo).toNat := by omega
    rw [e1, e2, if_neg (by simp), flattenDot_window]

/-! ## The loops -/

theorem getElem?_flatMap_block {α : Type} (g : Nat → List α) (L : Nat) :
    ∀ (N n r : Nat), (∀ i < N, (g i).length = L) → n < N → r < L →
      ((List.range N).flatMap g)[n * L + r]? = (g n)[r]? := by
  intro N
  induction N with
  | zero => intro n r _ h; omega
  | succ N ih =>
    intro n r hg hn hr
    have hlen : ((List.range N).flatMap g).length = N * L := by
      rw [List.length_flatMap]
      have : (List.range N).map (fun a => (g a).length) = (List.range N).map fun _ => L :=
        List.map_congr_left fun i hi => hg i (by have := List.mem_range.mp hi; omega)
      rw [this]; simp
    rw [List.range_succ, List.flatMap_append]
    by_cases h : n < N
    · rw [List.getElem?_append_left]
      · exact ih n r (fun i hi => hg i (by omega)) h hr
      · rw [hlen]
        calc n * L + r < n * L + L := by omega
          _ = (n + 1) * L := by ring
          _ ≤ N * L := Nat.mul_le_mul_right _ h
    · obtain rfl : n = N := by omega
      rw [List.getElem?_append_right (by rw [hlen]; omega), hlen]
      simp

theorem length_flatMap_block {α : Type} (g : Nat → List α) (L N : Nat) (hg : ∀ i < N, (g i).length = L) :
    ((List.range N).flatMap g).length = N * L := by
  rw [List.length_flatMap]
  have : (List.range N).map (fun a => (g a).length) = (List.range N).map fun _ => L :=
    List.map_congr_left fun i hi => hg i (List.mem_range.mp hi)
  rw [this]; simp

/-- The bias of an output channel; a missing bias is zero. -/
def biasAt (bias : Arr F) (m : Nat) : F := (elem bias [m]).getD 0

theorem convSetupRes_ok (bias : Arr F) (hb : bias.WF) (N M H W : Nat)
    (hs : bias.shape = [0] ∨ bias.shape = [M]) :
    ∃ res, convSetupRes bias N M H W = .ok res ∧ res.length = N * (M * (H * W)) ∧
      ∀ n m r, n < N → m < M → r < H * W → res.getD ((n * M + m) * (H * W) + r) 0 = biasAt bias m := by
  have hd : bias.data.length = bias.shape.prod := hb
  have idx : ∀ n m r, n < N → m < M → r < H * W → (n * M + m) * (H * W) + r < N * (M * (H * W)) := by
    intro n m r hn hm hr
    calc (n * M + m) * (H * W) + r < (n * M + m) * (H * W) + H * W := by omega
      _ = (n * M + m + 1) * (H * W) := by ring
      _ ≤ (N * M) * (H * W) := Nat.mul_le_mul_right _ (by
          calc n * M + m + 1 ≤ n * M + M := by omega
            _ = (n + 1) * M := by ring
            _ ≤ N * M := Nat.mul_le_mul_right _ hn)
      _ = N * (M * (H * W)) := by ring
  by_cases h0 : bias.shape.prod = 0
  · refine ⟨_, by rw [convSetupRes, if_pos h0], by simp, ?_⟩
    intro n m r hn hm hr
    have hnil : bias.data = [] := List.length_eq_zero_iff.mp (by rw [hd, h0])
    rw [biasAt, elem, hnil]
    simp [List.getD_eq_getElem?_getD, idx n m r hn hm hr]
  · have hs' : bias.shape = [M] := by
      rcases hs with h | h
      · rw [h] at h0; simp at h0
      · exact h
    refine ⟨(List.range N).flatMap fun _ => (List.range M).flatMap fun j =>
        List.replicate (H * W) (bias.data.getD j 0), ?_, ?_, ?_⟩
    · rw [convSetupRes, if_neg h0, hs']; simp
    · rw [length_flatMap_block _ (M * (H * W)) N]
      intro i _
      rw [length_flatMap_block _ (H * W) M (by simp)]
    · intro n m r hn hm hr
      have e : (n * M + m) * (H * W) + r = n * (M * (H * W)) + (m * (H * W) + r) := by ring
      have hlt : m * (H * W) + r < M * (H * W) := by
        calc m * (H * W) + r < m * (H * W) + H * W := by omega
          _ = (m + 1) * (H * W) := by ring
          _ ≤ M * (H * W) := Nat.mul_le_mul_right _ hm
      rw [List.getD_eq_getElem?_getD, e, getElem?_flatMap_block _ (M * (H * W)) N n _ ?_ hn hlt,
        getElem?_flatMap_block _ (H * W) M m r (by simp) hm hr, biasAt, elem, hs']
      · have e2 : rowMajor [M] [m] = m := by simp [rowMajor]
        simp only [hr, List.getElem?_replicate, if_true, Option.getD_some, e2]
        rw [List.getD_eq_getElem?_getD]
      · intro i _
        rw [length_flatMap_block _ (H * W) M (by simp)]

theorem stepRange_eq (p H s : Nat) (hs : 0 < s) : ∃ K, H ≤ K ∧
    stepRange (-(p : Int)) (H * s : Nat) s = (List.range K).map fun k : Nat => -(p : Int) + k * s := by
  refine ⟨((((H * s : Nat) : Int) - -(p : Int) + s - 1) / s).toNat, ?_, by rw [stepRange]⟩
  have : (H : Int) ≤ (((H * s : Nat) : Int) - -(p : Int) + s - 1) / s := by
    rw [Int.le_ediv_iff_mul_le (by omega)]
    push_cast
    omega
  omega

theorem step_index (p k s : Nat) (hs : 0 < s) :
    i32ToUsize ((-(p : Int) + k * s - -(p : Int)) / s) = .ok k := by
  have : (-(p : Int) + k * s - -(p : Int)) / s = k := by
    have e : -(p : Int) + k * s - -(p : Int) = k * s := by ring
    rw [e, Int.mul_ediv_cancel _ (by omega)]
  rw [this, i32ToUsize_ok (by omega)]
  simp

theorem addAt_eq (res : List F) (i : Nat) (v : F) (h : i < res.length) :
    addAt res i v = .ok (addAll res [(i, v)]) := by
  rw [addAt, if_pos h]; rfl

/-- Position of an output entry. -/
def pos4 (M H W n m i j : Nat) : Nat := ((n * M + m) * H + i) * W + j

theorem pos4_eq (N M H W n m i j : Nat) : pos4 M H W n m i j = rowMajor [N, M, H, W] [n, m, i, j] := by
  simp [pos4, rowMajor]; ring

theorem pos4_lt {N M H W n m i j : Nat} (hn : n < N) (hm : m < M) (hi : i < H) (hj : j < W) :
    pos4 M H W n m i j < N * (M * (H * W)) := by
  rw [pos4_eq N]
  have := rowMajor_lt (shape := [N, M, H, W]) (coords := [n, m, i, j])
    (by simp [InRange, hn, hm, hi, hj])
  simpa using this

theorem pos4_inj {N M H W n m i j n' m' i' j' : Nat} (hn : n < N) (hm : m < M) (hi : i < H) (hj : j < W)
    (hn' : n' < N) (hm' : m' < M) (hi' : i' < H) (hj' : j' < W)
    (h : pos4 M H W n m i j = pos4 M H W n' m' i' j') : n = n' ∧ m = m' ∧ i = i' ∧ j = j' := by
  rw [pos4_eq N, pos4_eq N] at h
  have := rowMajor_inj (shape := [N, M, H, W]) (c := [n, m, i, j]) (d := [n', m', i', j'])
    (by simp [InRange, hn, hm, hi, hj]) (by simp [InRange, hn', hm', hi', hj']) h
  simpa using this

/-- What the loops need from the sizes: every window meets or touches the data. -/
structure ConvOk (d : ConvDims) (p0 p1 : Nat) : Prop where
  kh : d.kh ≤ d.wh
  kw : d.kw ≤ d.ww
  sh : 0 < d.strideH
  sw : 0 < d.strideW
  bh : d.bh = -(p0 : Int)
  bw : d.bw = -(p1 : Int)
  h1 : p0 ≤ d.kh
  h2 : ∀ k < d.hOut, k * d.strideH ≤ d.sH + p0
  w1 : p1 ≤ d.kw
  w2 : ∀ k < d.wOut, k * d.strideW ≤ d.sW + p1

/-- The contribution of channel `c` to output `(n, m, k, l)`. -/
def contrib (x w : Arr F) (d : ConvDims) (n m c k l : Nat) : F :=
  dotSpec x w d.kh d.kw n m c (d.bh + k * d.strideH) (d.bw + l * d.strideW)

/-- The additions of one channel. -/
def chanOps (x w : Arr F) (d : ConvDims) (K L n m c : Nat) : List (Nat × F) :=
  (List.range K).flatMap fun k => if k < d.hOut then (List.range L).flatMap fun l =>
    if l < d.wOut then [(pos4 d.m d.hOut d.wOut n m k l, contrib x w d n m c k l)] else [] else []

theorem convLoops_ok (x w : Arr F) (d : ConvDims) (p0 p1 : Nat) (ok : ConvOk d p0 p1) {N C C' : Nat}
    (hx : x.shape = [N, C, d.sH, d.sW]) (hw : w.shape = [d.m, C', d.wh, d.ww]) (hC : C ≤ C') :
    ∃ K L, d.hOut ≤ K ∧ d.wOut ≤ L ∧ ∀ res : List F, res.length = N * (d.m * (d.hOut * d.wOut)) →
      (List.range N).foldlM (fun res n => (List.range d.m).foldlM (fun res nw =>
        (List.range C).foldlM (convChan x w d n nw) res) res) res =
      .ok (addAll res ((List.range N).flatMap fun n => (List.range d.m).flatMap fun m =>
        (List.range C).flatMap fun c => chanOps x w d K L n m c)) := by
  obtain ⟨K, hK, eK⟩ := stepRange_eq p0 d.hOut d.strideH ok.sh
  obtain ⟨L, hL, eL⟩ := stepRange_eq p1 d.wOut d.strideW ok.sw
  refine ⟨K, L, hK, hL, fun res hres => ?_⟩
  refine foldlM_addAll _ _ _ hres fun n hn res hres => ?_
  refine foldlM_addAll _ _ _ hres fun m hm res hres => ?_
  refine foldlM_addAll _ _ _ hres fun c hc res hres => ?_
  rw [List.mem_range] at hn hm hc
  rw [convChan, if_neg (by simp [hw])]
  simp only [hw, List.getD_cons_succ, List.getD_cons_zero]
  rw [sliceAxis_ok (by omega) (by omega), sliceAxis_ok (by omega) (by omega)]
  simp only [bind, Except.bind]
  rw [ok.bh, eK, List.foldlM_map]
  refine foldlM_addAll _ _ _ hres fun k hk res hres => ?_
  rw [convRow, ok.bh, step_index _ _ _ ok.sh]
  simp only [bind, Except.bind]
  by_cases hkH : k < d.hOut
  · rw [if_neg (by omega), if_pos hkH, ok.bw, eL, List.foldlM_map]
    refine foldlM_addAll _ _ _ hres fun l hl res hres => ?_
    rw [convInner, ok.bw, step_index _ _ _ ok.sw]
    simp only [bind, Except.bind]
    by_cases hlW : l < d.wOut
    · rw [if_neg (by omega), if_pos hlW]
      have b1 : (k : Int) * d.strideH ≤ d.sH + p0 := by exact_mod_cast ok.h2 k hkH
      have b2 : (l : Int) * d.strideW ≤ d.sW + p1 := by exact_mod_cast ok.w2 l hlW
      have b5 : 0 ≤ (k : Int) * d.strideH := by positivity
      have b6 : 0 ≤ (l : Int) * d.strideW := by positivity
      have b3 := ok.h1
      have b4 := ok.w1
      rw [convDot_ok x w d hx hw ok.kh ok.kw hn hc (by omega) (by omega) (by omega)
        (by omega)]
      dsimp only
      rw [addAt_eq _ _ _ (by rw [hres]; exact pos4_lt hn hm hkH hlW), contrib, ok.bh, ok.bw]
      rfl
    · rw [if_pos (by omega), if_neg hlW]
      rfl
  · rw [if_pos (by omega), if_neg hkH]
    rfl

theorem sum_map_ite {α M : Type} [AddCommMonoid M] (c : Prop) [Decidable c] (l : List α) (f : α → M) :
    ((if c then l else []).map f).sum = if c then (l.map f).sum else 0 := by
  split_ifs <;> simp

theorem allOps_sum (x w : Arr F) (d : ConvDims) {N C K L : Nat} (hK : d.hOut ≤ K) (hL : d.wOut ≤ L)
    {n m i j : Nat} (hn : n < N) (hm : m < d.m) (hi : i < d.hOut) (hj : j < d.wOut) :
    ((((List.range N).flatMap fun n => (List.range d.m).flatMap fun m =>
        (List.range C).flatMap fun c => chanOps x w d K L n m c)).map
        fun o => if o.1 = pos4 d.m d.hOut d.wOut n m i j then o.2 else 0).sum =
      ∑ c ∈ Finset.range C, contrib x w d n m c i j := by
  simp only [chanOps, sum_map_flatMap, sum_map_range, sum_map_ite, List.map_cons, List.map_nil,
    List.sum_cons, List.sum_nil, add_zero]
  rw [Finset.sum_eq_single_of_mem n (Finset.mem_range.mpr hn)]
  · rw [Finset.sum_eq_single_of_mem m (Finset.mem_range.mpr hm)]
    · refine Finset.sum_congr rfl fun c _ => ?_
      rw [Finset.sum_eq_single_of_mem i (Finset.mem_range.mpr (by omega))]
      · rw [if_pos hi, Finset.sum_eq_single_of_mem j (Finset.mem_range.mpr (by omega))]
        · rw [if_pos hj, if_pos rfl]
        · intro l _ hl
          split_ifs with h1 h2
          · exact absurd (pos4_inj hn hm hi h1 hn hm hi hj h2).2.2.2 hl
          · rfl
          · rfl
      · intro k _ hk
        split_ifs with h0
        · refine Finset.sum_eq_zero fun l _ => ?_
          split_ifs with h1 h2
          · exact absurd (pos4_inj hn hm h0 h1 hn hm hi hj h2).2.2.1 hk
          · rfl
          · rfl
        · rfl
    · intro m' hm' hne
      refine Finset.sum_eq_zero fun c _ => Finset.sum_eq_zero fun k _ => ?_
      split_ifs with h0
      · refine Finset.sum_eq_zero fun l _ => ?_
        split_ifs with h1 h2
        · exact absurd (pos4_inj hn (Finset.mem_range.mp hm') h0 h1 hn hm hi hj h2).2.1 hne
        · rfl
        · rfl
      · rfl
  · intro n' hn' hne
    refine Finset.sum_eq_zero fun m' hm' => Finset.sum_eq_zero fun c _ => Finset.sum_eq_zero fun k _ => ?_
    split_ifs with h0
    · refine Finset.sum_eq_zero fun l _ => ?_
      split_ifs with h1 h2
      · exact absurd (pos4_inj (Finset.mem_range.mp hn') (Finset.mem_range.mp hm') h0 h1 hn hm hi hj h2).1 hne
      · rfl
      · rfl
    · rfl

end JST.Layers
