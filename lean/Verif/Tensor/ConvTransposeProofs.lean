import Verif.Tensor.ConvTranspose
import Verif.Tensor.ConvProofs
import Verif.Tensor.PoolProofs
import Verif.Spec.ConvTranspose

/-!
# The transposed convolution computes the scatter sums
-/

set_option linter.unusedSectionVars false

namespace JST.Layers

open JST.Shape JST.Spec

variable {F : Type} [CommRing F]

theorem ctSource_iff {o pad k dil stride size i : Nat} (hs : 0 < stride) :
    ctSource o pad k dil stride size = some i ↔
      i < size ∧ (i * stride + k * dil - pad : Int) = o := by
  unfold ctSource
  dsimp only
  by_cases h0 : ((o : Int) + pad - (k * dil : Nat)) < 0
  · rw [if_pos (.inl h0)]
    constructor
    · intro h; simp at h
    · rintro ⟨_, h⟩
      exfalso
      push_cast at h0
      have : (0 : Int) ≤ i * stride := by positivity
      omega
  obtain ⟨n, hn⟩ := Int.eq_ofNat_of_zero_le (not_lt.mp h0)
  rw [hn, Int.toNat_natCast]
  have key : ((i * stride + k * dil - pad : Int) = o) ↔ n = i * stride := by
    push_cast at hn
    constructor
    · intro h; zify; linarith
    · intro h; zify at h; linarith
  rw [key]
  by_cases hm : n % stride = 0
  · rw [if_neg (by push Not; exact ⟨by omega, hm⟩)]
    have hd : n = n / stride * stride := by
      have := Nat.div_add_mod n stride
      rw [hm, add_zero, mul_comm] at this
      exact this.symm
    by_cases hsz : n / stride ≥ size
    · rw [if_pos hsz]
      constructor
      · intro h; simp at h
      · rintro ⟨h1, rfl⟩
        rw [Nat.mul_div_cancel _ hs] at hsz
        omega
    · rw [if_neg hsz, Option.some.injEq]
      constructor
      · rintro rfl; exact ⟨by omega, hd⟩
      · rintro ⟨h1, rfl⟩; rw [Nat.mul_div_cancel _ hs]
  · rw [if_pos (.inr hm)]
    constructor
    · intro h; simp at h
    · rintro ⟨_, rfl⟩
      exact absurd (Nat.mul_mod_left _ _) hm

/-- Summing over the input rows sent to an output row picks the source row. -/
theorem sum_ctSource {o pad k dil stride size : Nat} (hs : 0 < stride) (f : Nat → F) :
    (∑ h ∈ Finset.range size, if (h * stride + k * dil - pad : Int) = o then f h else 0) =
      ((ctSource o pad k dil stride size).map f).getD 0 := by
  cases e : ctSource o pad k dil stride size with
  | none =>
    refine Finset.sum_eq_zero fun h hh => if_neg fun hc => ?_
    have := (ctSource_iff (o := o) (pad := pad) (k := k) (dil := dil) (size := size) hs).mpr
      ⟨Finset.mem_range.mp hh, hc⟩
    rw [e] at this; simp at this
  | some i =>
    have hi := (ctSource_iff hs).mp e
    rw [Finset.sum_eq_single i]
    · rw [if_pos hi.2]; rfl
    · intro b hb hne
      refine if_neg fun hc => hne ?_
      have := (ctSource_iff (o := o) (pad := pad) (k := k) (dil := dil) (size := size) hs).mpr
        ⟨Finset.mem_range.mp hb, hc⟩
      rw [e] at this
      exact (Option.some.inj this).symm
    · intro h; exact absurd (Finset.mem_range.mpr hi.1) h

theorem foldl_option_sum {σ : Nat → Option Nat} (f : Nat → Nat → F) (n : Nat) (z : F) :
    (List.range n).foldl (fun r k => match σ k with
      | none => r
      | some i => r + f k i) z = z + ∑ k ∈ Finset.range n, ((σ k).map (f k)).getD 0 := by
  rw [← foldl_add_eq_sum]
  congr 1
  funext r k
  cases σ k <;> simp

theorem ctCell_eq (L : CTLayer) (x w : Arr F) (init : F) (cIn kh kw hIn wIn n oc oh ow : Nat)
    (h0 : 0 < L.strides.getD 0 0) (h1 : 0 < L.strides.getD 1 0) :
    ctCell L x w init cIn kh kw hIn wIn n oc oh ow =
      init + ∑ c ∈ Finset.range cIn, ∑ h ∈ Finset.range hIn, ∑ v ∈ Finset.range wIn,
        ∑ a ∈ Finset.range kh, ∑ b ∈ Finset.range kw,
        if (h * L.strides.getD 0 0 + a * L.dilation.getD 0 0 - L.pads.getD 0 0 : Int) = oh ∧
            (v * L.strides.getD 1 0 + b * L.dilation.getD 1 0 - L.pads.getD 1 0 : Int) = ow then
          get4 x n c h v * get4 w c oc a b
        else 0 := by
  unfold ctCell
  generalize L.strides.getD 0 0 = sh at *
  generalize L.strides.getD 1 0 = sw at *
  generalize L.dilation.getD 0 0 = dh
  generalize L.dilation.getD 1 0 = dw
  generalize L.pads.getD 0 0 = ph
  generalize L.pads.getD 1 0 = pw
  have inner : ∀ (c a ih : Nat) (r : F), (List.range kw).foldl (fun r kiw =>
      match ctSource ow pw kiw dw sw wIn with
      | none => r
      | some iw => r + get4 x n c ih iw * get4 w c oc a kiw) r =
      r + ∑ b ∈ Finset.range kw, ∑ v ∈ Finset.range wIn,
        if (v * sw + b * dw - pw : Int) = ow then get4 x n c ih v * get4 w c oc a b else 0 := by
    intro c a ih r
    rw [foldl_option_sum (σ := fun kiw => ctSource ow pw kiw dw sw wIn)
      (fun kiw iw => get4 x n c ih iw * get4 w c oc a kiw)]
    congr 1
    refine Finset.sum_congr rfl fun b _ => ?_
    rw [← sum_ctSource h1]
  have mid : ∀ (c : Nat) (r : F), (List.range kh).foldl (fun r kih =>
      match ctSource oh ph kih dh sh hIn with
      | none => r
      | some ih => (List.range kw).foldl (fun r kiw =>
        match ctSource ow pw kiw dw sw wIn with
        | none => r
        | some iw => r + get4 x n c ih iw * get4 w c oc kih kiw) r) r =
      r + ∑ a ∈ Finset.range kh, ∑ h ∈ Finset.range hIn,
        if (h * sh + a * dh - ph : Int) = oh then
          ∑ b ∈ Finset.range kw, ∑ v ∈ Finset.range wIn,
            if (v * sw + b * dw - pw : Int) = ow then get4 x n c h v * get4 w c oc a b else 0
        else 0 := by
    intro c r
    simp only [inner]
    rw [foldl_option_sum (σ := fun kih => ctSource oh ph kih dh sh hIn)
      (fun kih ih => ∑ b ∈ Finset.range kw, ∑ v ∈ Finset.range wIn,
        if (v * sw + b * dw - pw : Int) = ow then get4 x n c ih v * get4 w c oc kih b else 0)]
    congr 1
    refine Finset.sum_congr rfl fun a _ => ?_
    rw [← sum_ctSource h0]
  refine Eq.trans (b := (List.range cIn).foldl (fun r c => r + ∑ a ∈ Finset.range kh, ∑ h ∈ Finset.range hIn,
        if (h * sh + a * dh - ph : Int) = oh then
          ∑ b ∈ Finset.range kw, ∑ v ∈ Finset.range wIn,
            if (v * sw + b * dw - pw : Int) = ow then get4 x n c h v * get4 w c oc a b else 0
        else 0) init) ?_ ?_
  · congr 1
    funext r c
    exact mid c r
  rw [foldl_add_eq_sum]
  congr 1
  refine Finset.sum_congr rfl fun c _ => ?_
  rw [Finset.sum_comm]
  refine Finset.sum_congr rfl fun h _ => ?_
  rw [Finset.sum_comm]
  refine Finset.sum_congr rfl fun a _ => ?_
  rw [Finset.sum_comm (s := Finset.range wIn)]
  by_cases e : (h * sh + a * dh - ph : Int) = oh
  · simp [e]
  · simp [e]

theorem get4_eq_elem (a : Arr F) {s0 s1 s2 s3 : Nat} (hs : a.shape = [s0, s1, s2, s3]) (n c h w : Nat) :
    get4 a n c h w = (elem a [n, c, h, w]).getD 0 := at4_eq_elem a hs n c h w

/-- The attributes `build` accepts. -/
theorem ctBuild_ok {a : CTAttrs} {L : CTLayer} (h : ctBuild a = .ok L) :
    ∃ kh kw sh sw p0 p1 p2 p3 o0 o1, L = ⟨[kh, kw], 1, [1, 1], [sh, sw], [p0, p1, p2, p3], [o0, o1]⟩ ∧
      0 < kh ∧ 0 < kw ∧ 0 < sh ∧ 0 < sw ∧ a.kernel = some [kh, kw] ∧ a.group.getD 1 = 1 ∧
      a.dilations.getD [1, 1] = [1, 1] ∧ a.strides.getD [1, 1] = [sh, sw] ∧
      a.pads.getD [0, 0, 0, 0] = [p0, p1, p2, p3] ∧ a.outPad.getD [0, 0] = [o0, o1] := by
  unfold ctBuild at h
  cases hk : a.kernel with
  | none => rw [hk] at h; simp at h
  | some k =>
    rw [hk] at h
    dsimp only at h
    split_ifs at h with h1 h2 h3 h4 h5 h6
    push Not at h1 h3 h5
    simp only [Except.ok.injEq] at h
    generalize a.strides.getD [1, 1] = st at *
    generalize a.dilations.getD [1, 1] = dl at *
    generalize a.pads.getD [0, 0, 0, 0] = pd at *
    generalize a.outPad.getD [0, 0] = op at *
    obtain ⟨g1, g2, g3, g4⟩ := h5
    match k, st, dl, pd, op, h1, g1, g2, g3, g4 with
    | [kh, kw], [sh, sw], [d0, d1], [p0, p1, p2, p3], [o0, o1], _, _, _, _, _ =>
      simp only [List.any_cons, List.any_nil, Bool.or_false, Bool.or_eq_true, decide_eq_true_eq, not_or,
        not_not] at h4
      obtain ⟨rfl, rfl⟩ := h4
      simp only [List.mem_cons, List.not_mem_nil, or_false, not_or] at h2 h6
      refine ⟨kh, kw, sh, sw, p0, p1, p2, p3, o0, o1, ?_, by omega, by omega, by omega, by omega, rfl, h3, rfl,
        rfl, rfl, rfl⟩
      rw [← h, h3]

theorem ctOut_eq (s H k d o p q : Nat) : ctOut s H k d o p q = convTSize H k d s o p q := by
  unfold ctOut convTSize; ring

theorem ctApply_rank {L : CTLayer} {x w bias out : Arr F} (h : ctApply L x w bias = .ok out) :
    ∃ N C H W w0 w1 w2 w3, x.shape = [N, C, H, W] ∧ w.shape = [w0, w1, w2, w3] := by
  unfold ctApply at h
  split at h
  · rename_i N C H W hx
    split at h
    · rename_i w0 w1 w2 w3 hw
      exact ⟨N, C, H, W, w0, w1, w2, w3, hx, hw⟩
    · simp at h
  · simp at h

/-- `apply` with explicit attributes and shapes. -/
theorem ctApply_explicit (x w bias : Arr F) {kh kw sh sw p0 p1 p2 p3 o0 o1 N cIn hIn wIn w0 w1 w2 w3 : Nat}
    (hx : x.shape = [N, cIn, hIn, wIn]) (hw : w.shape = [w0, w1, w2, w3]) :
    ctApply ⟨[kh, kw], 1, [1, 1], [sh, sw], [p0, p1, p2, p3], [o0, o1]⟩ x w bias =
      if w0 ≠ cIn then .error .invalid
      else if w2 ≠ kh ∨ w3 ≠ kw then .error .invalid
      else if convTSize hIn kh 1 sh o0 p0 p2 ≤ 0 ∨ convTSize wIn kw 1 sw o1 p1 p3 ≤ 0 then .error .invalid
      else if bias.shape.prod ≠ 0 ∧ bias.shape.length ≠ 1 then .error .invalid
      else if bias.shape.prod ≠ 0 ∧ bias.shape.getD 0 0 ≠ w1 then .error .invalid
      else .ok ⟨[N, w1, (convTSize hIn kh 1 sh o0 p0 p2).toNat, (convTSize wIn kw 1 sw o1 p1 p3).toNat],
        (idx4 N w1 (convTSize hIn kh 1 sh o0 p0 p2).toNat (convTSize wIn kw 1 sw o1 p1 p3).toNat).map fun q =>
          ctCell ⟨[kh, kw], 1, [1, 1], [sh, sw], [p0, p1, p2, p3], [o0, o1]⟩ x w (ctInit bias q.2.1) cIn kh kw
            hIn wIn q.1 q.2.1 q.2.2.1 q.2.2.2⟩ := by
  unfold ctApply
  rw [hx, hw]
  simp only [List.getD_cons_zero, List.getD_cons_succ, ctOut_eq, mul_one]

end JST.Layers
