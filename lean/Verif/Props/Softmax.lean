import Verif.Tensor.Softmax
import Verif.Props.Lanes
import Verif.Gadgets.ArithProofs

/-!
# C61: the Softmax layer

Scale `α = 2^κ`. `P X = expVal f κ X` stands for `α² e^{X/α}`. For a lane `x₁ … xₙ` and an entry `M` of it, Softmax should
return `α · P (xᵢ - M) / ∑ⱼ P (xⱼ - M)`.
-/

set_option linter.unusedSectionVars false

namespace JST.Props

open JST.Shape JST.Layers JST.Spec

variable {p : Nat} [Fact p.Prime] {T : Tables (ZMod p)}

/-- The sum of the exponentials of a lane, shifted by `M`. -/
def expSum (f : Int → Int) (κ : Nat) (M : Int) (l : List Int) : Int := (l.map fun u : Int => expVal f κ (u - M)).sum

/-- `Y` lists quantised softmax values of the lane `l`: each within `err` of the exact quotient. -/
def IsSoftmax (f : Int → Int) (κ : Nat) (M : Int) (err : Int → Int) (l Y : List Int) : Prop :=
  List.Forall₂ (fun u y => IsQuotient (2 ^ κ * expVal f κ (u - M)) (expSum f κ M l) (err y) y) l Y

theorem sound_maxLoopInt {rc : RangeCtx} (hT : IsRangeTable T rc) (hc : 0 < rc.chunk) {n : Nat}
    (m : ZMod p) (xs : List (ZMod p)) (prod : ZMod p) :
    Sound T (maxLoop rc n m xs prod) (fun r =>
      (∀ x ∈ xs, ∃ k : Int, AcceptedInt rc.chunk n k ∧ m - x = (k : ZMod p)) ∧
      (r = 0 → prod = 0 ∨ m ∈ xs)) := by
  induction xs generalizing prod with
  | nil => exact Sound.pure ⟨by simp, fun h => .inl h⟩
  | cons x xs ih =>
    unfold maxLoop
    refine (sound_rangeCheckInt hT hc _ _).bind fun _ hk => (ih _).conseq ?_
    rintro r ⟨h1, h2⟩
    refine ⟨?_, ?_⟩
    · intro y hy
      rcases List.mem_cons.mp hy with rfl | hy
      · exact hk
      · exact h1 y hy
    · intro hr
      rcases h2 hr with h | h
      · rcases mul_eq_zero.mp h with h | h
        · exact .inl h
        · right; rw [sub_eq_zero.mp h]; simp
      · right; simp [h]

theorem sound_softmaxMax {rc : RangeCtx} (hT : IsRangeTable T rc) (hc : 0 < rc.chunk) {n : Nat}
    (m : ZMod p) (xs : List (ZMod p)) :
    Sound T (softmaxMax rc n m xs) (fun _ => m ∈ xs ∧
      ∀ x ∈ xs, ∃ k : Int, AcceptedInt rc.chunk n k ∧ m - x = (k : ZMod p)) := by
  cases xs with
  | nil => intro h o e; cases e
  | cons x xs =>
    unfold softmaxMax
    refine (sound_rangeCheckInt hT hc _ _).bind fun _ hk => ?_
    refine (sound_maxLoopInt hT hc _ _ _).bind ?_
    rintro r ⟨h1, h2⟩
    refine Sound.assertZero.conseq ?_
    rintro _ hr
    refine ⟨?_, ?_⟩
    · rcases h2 hr with h | h
      · rw [sub_eq_zero.1 h]; simp
      · simp [h]
    · intro y hy
      rcases List.mem_cons.mp hy with rfl | hy
      · exact hk
      · exact h1 y hy

/-- The field is large enough for the equations the Softmax layer checks, when the inputs are at most `B` in magnitude
and the exponentials at most `E`. -/
structure SoftmaxFits (p c nb κ n : Nat) (B E : Int) : Prop where
  spread : 2 * B + reach c (lookupBits κ - 1) < p
  domain : 2 * B + 2 ^ lookupBits κ ≤ p
  range : 2 * reach c nb + 2 ^ κ < p
  cross : reach c nb * (n * E + n * reach c (κ + 1)) + 2 ^ κ * (E + reach c (κ + 1)) + n * (2 ^ κ) ^ 2 +
    2 ^ κ * reach c (Nat.clog 2 (2 * (n * 2 ^ κ))) < p
  sum : n * reach c nb + 2 ^ κ + n + reach c (Nat.clog 2 (2 * n + 1)) < p

theorem sound_softmaxMaxInt {rc : RangeCtx} (hT : IsRangeTable T rc) (hc : 0 < rc.chunk) {n : Nat} {B : Int}
    (m : ZMod p) (l : List Int) (hB : ∀ u ∈ l, |u| ≤ B) (hf : 2 * B + reach rc.chunk n < p) :
    Sound T (softmaxMax rc n m (l.map fun z : Int => (z : ZMod p))) (fun _ => ∃ M ∈ l, m = (M : ZMod p) ∧
      ∀ u ∈ l, AcceptedInt rc.chunk n (M - u)) := by
  refine (sound_softmaxMax hT hc m _).conseq ?_
  rintro _ ⟨h1, h2⟩
  obtain ⟨M, hM, rfl⟩ := List.mem_map.1 h1
  refine ⟨M, hM, rfl, fun u hu => ?_⟩
  obtain ⟨k, hk, e⟩ := h2 _ (List.mem_map.2 ⟨u, hu, rfl⟩)
  have : M - u = k := int_eq_of_cast_eq (p := p) (by push_cast; exact e) (by
    have h1 := abs_sub (M - u) k
    have h2 := abs_sub M u
    have := accepted_abs hk
    linarith [hB M hM, hB u hu])
  rwa [this]

theorem sum_forall₂ {α R : Int} (hR : 0 ≤ R) (P : Int → Int) :
    ∀ {l : List Int} {es : List (ZMod p)},
      List.Forall₂ (fun u e => ∃ r : Int, |r| < R ∧ e * (α : ZMod p) + (r : ZMod p) = (P u : ZMod p)) l es →
      ∃ r : Int, |r| ≤ l.length * R ∧ es.sum * (α : ZMod p) + (r : ZMod p) = ((l.map P).sum : ZMod p)
  | [], [], _ => ⟨0, by simp, by simp⟩
  | u :: l, e :: es, h => by
    obtain ⟨⟨r, h1, h2⟩, h'⟩ := List.forall₂_cons.1 h
    obtain ⟨s, s1, s2⟩ := sum_forall₂ hR P h'
    refine ⟨r + s, ?_, ?_⟩
    · have := abs_add_le r s
      simp only [List.length_cons]
      push_cast
      linarith
    · simp only [List.map_cons, List.sum_cons]
      push_cast
      push_cast at s2
      linear_combination h2 + s2

theorem zip_forall₂ {α β γ : Type} {A : α → β → Prop} {B : γ × β → Prop} {C : α → Int → Prop} {c : Int → γ}
    (hC : ∀ u e y, A u e → B (y, e) → ∃ Y : Int, y = c Y ∧ C u Y) :
    ∀ {l : List α} {es : List β} {ys : List γ}, List.Forall₂ A l es → ys.length = es.length →
      (∀ q ∈ ys.zip es, B q) → ∃ Y : List Int, ys = Y.map c ∧ List.Forall₂ C l Y
  | [], [], [], _, _, _ => ⟨[], rfl, .nil⟩
  | u :: l, e :: es, y :: ys, h, hl, hB => by
    obtain ⟨h1, h'⟩ := List.forall₂_cons.1 h
    obtain ⟨Y, h2, h3⟩ := zip_forall₂ hC h' (by simpa using hl) fun q hq => hB q (by simp [hq])
    obtain ⟨v, h4, h5⟩ := hC u e y h1 (hB (y, e) (by simp))
    exact ⟨v :: Y, by simp [h2, h4], .cons h5 h3⟩
  | [], [], _ :: _, _, hl, _ => by simp at hl
  | _ :: _, _ :: _, [], _, hl, _ => by simp at hl

theorem forall₂_unit {α β : Type} {B : α → Prop} : ∀ {l : List α} {us : List β},
    List.Forall₂ (fun a _ => B a) l us → ∀ a ∈ l, B a
  | [], [], _ => by simp
  | a :: l, b :: us, h => by
    obtain ⟨h1, h'⟩ := List.forall₂_cons.1 h
    intro x hx
    rcases List.mem_cons.1 hx with rfl | hx
    · exact h1
    · exact forall₂_unit h' x hx

theorem sum_abs_le {W : Int} : ∀ {Y : List Int}, (∀ y ∈ Y, |y| ≤ W) → |Y.sum| ≤ Y.length * W
  | [], _ => by simp
  | y :: Y, h => by
    have h1 := sum_abs_le (Y := Y) fun z hz => h z (List.mem_cons_of_mem _ hz)
    have h2 := h y (by simp)
    have := abs_add_le y Y.sum
    simp only [List.sum_cons, List.length_cons]
    push_cast
    linarith

theorem sum_cast (Y : List Int) : (Y.map fun z : Int => (z : ZMod p)).sum = ((Y.sum : Int) : ZMod p) := by
  induction Y with
  | nil => simp
  | cons y Y ih => rw [List.map_cons, List.sum_cons, ih, List.sum_cons, Int.cast_add]

theorem expSum_le {f : Int → Int} {κ : Nat} {M E : Int} : ∀ {l : List Int}, (∀ u ∈ l, expVal f κ (u - M) ≤ E) →
    expSum f κ M l ≤ l.length * E
  | [], _ => by simp [expSum]
  | u :: l, h => by
    have h1 := expSum_le (l := l) fun v hv => h v (List.mem_cons_of_mem _ hv)
    have h2 := h u (by simp)
    simp only [expSum, List.map_cons, List.sum_cons, List.length_cons] at h1 ⊢
    push_cast
    linarith

theorem expSum_nonneg {f : Int → Int} (hf : ∀ x, 0 ≤ f x) {κ : Nat} {M : Int} (l : List Int) : 0 ≤ expSum f κ M l := by
  unfold expSum
  refine List.sum_nonneg ?_
  intro x hx
  obtain ⟨u, -, rfl⟩ := List.mem_map.1 hx
  exact mul_nonneg (hf _) (hf _)

theorem expVal_zero (f : Int → Int) (κ : Nat) : expVal f κ 0 = f 0 * f 0 := by simp [expVal]

theorem expSum_pos {f : Int → Int} (hf : ∀ x, 0 ≤ f x) (h0 : 0 < f 0) {κ : Nat} {M : Int} {l : List Int} (hM : M ∈ l) :
    0 < expSum f κ M l := by
  have : expVal f κ (M - M) ≤ expSum f κ M l := by
    unfold expSum
    refine List.single_le_sum ?_ _ (List.mem_map.2 ⟨M, hM, rfl⟩)
    intro x hx
    obtain ⟨u, -, rfl⟩ := List.mem_map.1 hx
    exact mul_nonneg (hf _) (hf _)
  rw [sub_self, expVal_zero] at this
  nlinarith

section
variable {hint : List (ZMod p) → Except Err (List (ZMod p))} {f : Int → Int} {rc : RangeCtx} {th tl κ nb : Nat}

/-- What an accepted lane of the Softmax layer guarantees. -/
def SoftmaxLane (p c nb κ : Nat) (f : Int → Int) (l : List Int) (ys : List (ZMod p)) : Prop :=
  ∃ M ∈ l, ∃ Y : List Int, ys = Y.map (fun z : Int => (z : ZMod p)) ∧
    (∀ u ∈ l, InSigned (lookupBits κ) (u - M) ∧ AcceptedInt c (lookupBits κ - 1) (M - u)) ∧
    (∀ y ∈ Y, -(reach c nb - 2 ^ nb) ≤ y ∧ y ≤ 2 ^ κ + (reach c nb - 2 ^ nb)) ∧
    IsSoftmax f κ M (fun y => 2 ^ κ * reach c (Nat.clog 2 (2 * (l.length * 2 ^ κ))) +
      |y| * (l.length * reach c (κ + 1)) + 2 ^ κ * reach c (κ + 1)) l Y ∧
    AcceptedInt c (Nat.clog 2 (2 * l.length + 1)) (Y.sum - 2 ^ κ + l.length)

theorem SoftmaxLane.length {p c nb κ : Nat} {f : Int → Int} {l : List Int} {ys : List (ZMod p)}
    (h : SoftmaxLane p c nb κ f l ys) : ys.length = l.length := by
  obtain ⟨M, -, Y, rfl, -, -, h, -⟩ := h
  simpa using h.length_eq.symm

/-- The checked equation, over the integers. -/
theorem softmax_cross {c κ n tb : Nat} {W E Y P S r s d : Int} {α : Int} (hα : 0 < α)
    (hfit : W * (n * E + n * reach c (κ + 1)) + α * (E + reach c (κ + 1)) + n * α ^ 2 + α * reach c tb < p)
    (hY : |Y| < W) (hP0 : 0 ≤ P) (hP : P ≤ E) (hS0 : 0 ≤ S) (hS : S ≤ n * E) (hr : |r| < reach c (κ + 1))
    (hs : |s| ≤ n * reach c (κ + 1)) (hd : |d| < reach c tb) {Se e : ZMod p}
    (eS : Se * (α : ZMod p) + (s : ZMod p) = (S : ZMod p)) (ee : e * (α : ZMod p) + (r : ZMod p) = (P : ZMod p))
    (ed : (Y : ZMod p) * Se - e * (α : ZMod p) + ((n * α : Int) : ZMod p) = (d : ZMod p)) :
    Y * (S - s) - α * (P - r) + n * α ^ 2 = α * d := by
  refine int_eq_of_cast_eq (p := p) ?_ ?_
  · push_cast at ed ⊢
    linear_combination (-(Y : ZMod p)) * eS + (α : ZMod p) * ee + (α : ZMod p) * ed
  · have h1 : |S - s| ≤ n * E + n * reach c (κ + 1) := by
      have := abs_sub S s
      rw [abs_of_nonneg hS0] at this
      linarith
    have h2 : |P - r| ≤ E + reach c (κ + 1) := by
      have := abs_sub P r
      rw [abs_of_nonneg hP0] at this
      linarith
    have h3 := abs_mul_le hY.le h1
    have h4 := abs_mul_le (a := α) (by rw [abs_of_pos hα]) h2
    have h5 := abs_mul_le (a := α) (by rw [abs_of_pos hα]) hd.le
    have h6 : |(n : Int) * α ^ 2| = n * α ^ 2 := abs_of_nonneg (by positivity)
    have h7 := abs_sub (Y * (S - s) - α * (P - r) + n * α ^ 2) (α * d)
    have h8 := abs_add_le (Y * (S - s) - α * (P - r)) (n * α ^ 2)
    have h9 := abs_sub (Y * (S - s)) (α * (P - r))
    linarith

theorem sound_softmaxLane (h : ExpSetting p T (expCtx f rc th tl κ)) (h0 : 0 < f 0) {l : List Int} {B E : Int}
    (hB : ∀ u ∈ l, |u| ≤ B)
    (hE : ∀ u ∈ l, ∀ v ∈ l, InSigned (lookupBits κ) (u - v) → AcceptedInt rc.chunk (lookupBits κ - 1) (v - u) →
      expVal f κ (u - v) ≤ E)
    (hf : SoftmaxFits p rc.chunk nb κ l.length B E) :
    Sound T (softmaxLane hint (expCtx f rc th tl κ) nb (l.length * 2 ^ κ) (Nat.clog 2 (2 * (l.length * 2 ^ κ)))
      (l.map fun z : Int => (z : ZMod p))) (SoftmaxLane p rc.chunk nb κ f l) := by
  have hα : (0 : Int) < 2 ^ κ := by positivity
  have hcast : (((2 ^ κ : Nat)) : ZMod p) = (((2 ^ κ : Int)) : ZMod p) := by push_cast; rfl
  have hnn := h.nonneg
  unfold softmaxLane
  refine Sound.bind Sound.newHint fun out hout => ?_
  rw [List.length_map] at hout ⊢
  have hys : (out.take l.length).length = l.length := by simp; omega
  generalize out.take l.length = ys at hys ⊢
  generalize out.getD l.length 0 = m
  dsimp only
  refine Sound.bind (sound_softmaxMaxInt (T := T) (rc := rc) (n := lookupBits κ - 1) h.range h.chunk_pos m l hB hf.spread) ?_
  rintro _ ⟨M, hM, rfl, hacc⟩
  rw [collectG_map]
  refine Sound.bind (sound_collectG (Q := fun u e => u ∈ l ∧ InSigned (lookupBits κ) (u - M) ∧ ∃ r : Int,
      |r| < reach rc.chunk (κ + 1) ∧ e * ((2 ^ κ : Int) : ZMod p) + (r : ZMod p) = (expVal f κ (u - M) : ZMod p)) _ ?_) ?_
  · intro u hu
    have e : (u : ZMod p) - (M : ZMod p) = ((u - M : Int) : ZMod p) := by push_cast; rfl
    rw [e]
    have k := sound_expInt h (u := u - M) (by
      have := abs_sub u M
      have h1 := hf.domain
      have h2 : (2 : Int) ^ (expCtx f rc th tl κ).totalBits = 2 ^ lookupBits κ := rfl
      rw [h2]
      linarith [hB u hu, hB M hM])
    refine k.conseq ?_
    rintro y ⟨k1, r, k2, k3⟩
    rw [scaleBits_pow] at k2
    rw [expVal_eq] at k3
    refine ⟨hu, k1, r, k2, ?_⟩
    rw [← hcast]; exact k3
  intro es hes
  have hPE : ∀ u ∈ l, InSigned (lookupBits κ) (u - M) → expVal f κ (u - M) ≤ E := fun u hu hi => hE u hu M hM hi (hacc u hu)
  obtain ⟨s, hs, eS⟩ := sum_forall₂ (α := 2 ^ κ) (reach_pos rc.chunk (κ + 1)).le (fun u => expVal f κ (u - M))
    (hes.imp fun u e h => h.2.2)
  have hall : ∀ u ∈ l, InSigned (lookupBits κ) (u - M) := by
    intro u hu
    obtain ⟨i, hi, rfl⟩ := List.getElem_of_mem hu
    have := (List.forall₂_iff_get.1 hes).2 i hi (by rw [← hes.length_eq]; exact hi)
    exact this.2.1
  refine Sound.bind (sound_collectG (Q := fun (q : ZMod p × ZMod p) (_ : Unit) => ∃ Y d : Int, q.1 = (Y : ZMod p) ∧
    -(reach rc.chunk nb - 2 ^ nb) ≤ Y ∧ Y ≤ 2 ^ κ + (reach rc.chunk nb - 2 ^ nb) ∧ |Y| < reach rc.chunk nb ∧
    AcceptedInt rc.chunk (Nat.clog 2 (2 * (l.length * 2 ^ κ))) d ∧
    (Y : ZMod p) * es.sum - q.2 * ((2 ^ κ : Int) : ZMod p) + ((l.length * 2 ^ κ : Int) : ZMod p) = (d : ZMod p)) _ ?_) ?_
  · rintro ⟨y, e⟩ -
    unfold softmaxElem
    refine Sound.bind (sound_rangeCheckInt h.range h.chunk_pos _ _) ?_
    rintro _ ⟨Y, hY, rfl⟩
    refine Sound.bind (sound_rangeCheckInt h.range h.chunk_pos _ _) ?_
    rintro _ ⟨Z, hZ, eZ⟩
    refine (sound_rangeCheckInt h.range h.chunk_pos _ _).conseq ?_
    rintro _ ⟨d, hd, ed⟩
    have hYa := accepted_abs hY
    have hZa := accepted_abs hZ
    have hYZ : (2 ^ κ : Int) - Y = Z := int_eq_of_cast_eq (p := p) (by
        simp only [expCtx] at eZ
        push_cast at eZ ⊢; exact eZ) (by
      have h1 := abs_sub ((2 ^ κ : Int) - Y) Z
      have h2 := abs_sub ((2 : Int) ^ κ) Y
      rw [abs_of_pos hα] at h2
      have h3 := hf.range
      simp only [expCtx] at hYa hZa
      linarith)
    refine ⟨Y, d, rfl, hY.1, ?_, hYa, hd, ?_⟩
    · have := hZ.1
      rw [← hYZ] at this
      change -(reach rc.chunk nb - 2 ^ nb) ≤ _ at this
      linarith
    · simp only [expCtx] at ed
      push_cast at ed ⊢
      exact ed
  intro us hus
  have hus' := forall₂_unit hus
  refine Sound.bind (sound_rangeCheckInt h.range h.chunk_pos _ _) ?_
  rintro _ ⟨t, ht, et⟩
  refine Sound.pure ?_
  have htb : 2 * ((l.length : Int) * 2 ^ κ) ≤ 2 ^ Nat.clog 2 (2 * (l.length * 2 ^ κ)) := by
    have := Nat.le_pow_clog (b := 2) (by norm_num) (2 * (l.length * 2 ^ κ))
    exact_mod_cast this
  obtain ⟨Y, eY, hY⟩ : ∃ Y : List Int, ys = Y.map (fun z : Int => (z : ZMod p)) ∧ List.Forall₂ (fun u Y => (-(reach rc.chunk nb - 2 ^ nb) ≤ Y ∧
      Y ≤ 2 ^ κ + (reach rc.chunk nb - 2 ^ nb) ∧ |Y| < reach rc.chunk nb) ∧
      IsQuotient (2 ^ κ * expVal f κ (u - M)) (expSum f κ M l)
        (2 ^ κ * reach rc.chunk (Nat.clog 2 (2 * (l.length * 2 ^ κ))) +
      |Y| * (l.length * reach rc.chunk (κ + 1)) + 2 ^ κ * reach rc.chunk (κ + 1)) Y) l Y := by
    refine zip_forall₂ (c := fun z : Int => (z : ZMod p)) ?_ hes (by rw [hys, hes.length_eq]) hus'
    rintro u e y ⟨hu, hi, r, hr, ee⟩ ⟨Y, d, rfl, b1, b2, b3, hd, ed⟩
    refine ⟨Y, rfl, ⟨b1, b2, b3⟩, expSum_pos hnn h0 hM, ?_⟩
    have hda := accepted_abs hd
    have key := softmax_cross (p := p) (c := rc.chunk) (κ := κ) (n := l.length) (W := reach rc.chunk nb) (E := E)
      (tb := Nat.clog 2 (2 * (l.length * 2 ^ κ))) hα hf.cross b3 (mul_nonneg (hnn _) (hnn _)) (hPE u hu hi)
      (expSum_nonneg hnn l) (expSum_le fun v hv => hPE v hv (hall v hv)) hr hs hda (S := expSum f κ M l) (P := expVal f κ (u - M)) eS ee ed
    have e1 : Y * expSum f κ M l - 2 ^ κ * expVal f κ (u - M) = 2 ^ κ * (d - l.length * 2 ^ κ) + Y * s - 2 ^ κ * r := by
      linear_combination key
    rw [e1]
    have h8 : -(reach rc.chunk (Nat.clog 2 (2 * (l.length * 2 ^ κ))) - 2 ^ (Nat.clog 2 (2 * (l.length * 2 ^ κ)))) ≤ d ∧
      d < 2 ^ (Nat.clog 2 (2 * (l.length * 2 ^ κ))) := hd
    have h9 := reach_ge rc.chunk (Nat.clog 2 (2 * (l.length * 2 ^ κ)))
    have hn0 : (0 : Int) ≤ l.length * 2 ^ κ := by positivity
    have hdd : |d - l.length * 2 ^ κ| ≤ reach rc.chunk (Nat.clog 2 (2 * (l.length * 2 ^ κ))) := by
      rw [abs_le]; constructor <;> linarith [h8.1, h8.2]
    have a1 := abs_mul_le (a := (2 : Int) ^ κ) (by rw [abs_of_pos hα]) hdd
    have a2 := abs_mul_le (a := Y) le_rfl hs
    have a3 := abs_mul_le (a := (2 : Int) ^ κ) (by rw [abs_of_pos hα]) hr.le
    have a4 := abs_sub (2 ^ κ * (d - l.length * 2 ^ κ) + Y * s) (2 ^ κ * r)
    have a5 := abs_add_le (2 ^ κ * (d - l.length * 2 ^ κ)) (Y * s)
    linarith
  have hYl : Y.length = l.length := hY.length_eq.symm
  have hb : ∀ y ∈ Y, -(reach rc.chunk nb - 2 ^ nb) ≤ y ∧
    y ≤ 2 ^ κ + (reach rc.chunk nb - 2 ^ nb) ∧ |y| < reach rc.chunk nb := by
    intro y hy
    obtain ⟨i, hi, rfl⟩ := List.getElem_of_mem hy
    exact ((List.forall₂_iff_get.1 hY).2 i (by omega) hi).1
  refine ⟨M, hM, Y, eY, fun u hu => ⟨hall u hu, hacc u hu⟩, fun y hy => ⟨(hb y hy).1, (hb y hy).2.1⟩,
    hY.imp fun _ _ h => h.2, ?_⟩
  have hsum := sum_abs_le fun y hy => (hb y hy).2.2.le
  rw [hYl] at hsum
  have : Y.sum - 2 ^ κ + l.length = t := int_eq_of_cast_eq (p := p) (by
      rw [eY, sum_cast] at et
      simp only [expCtx] at et
      push_cast at et ⊢; exact et) (by
    have h1 := abs_sub (Y.sum - 2 ^ κ + l.length) t
    have h2 := abs_add_le (Y.sum - 2 ^ κ) (l.length : Int)
    have h3 := abs_sub Y.sum (2 ^ κ)
    rw [abs_of_pos hα] at h3
    rw [abs_of_nonneg (by positivity : (0 : Int) ≤ l.length)] at h2
    have h4 := accepted_abs ht
    have h5 := hf.sum
    simp only [expCtx] at h4
    linarith)
  rw [this]; exact ht

theorem softmax_consts {n κ : Nat} (h : n * 2 ^ κ < 2 ^ 63) : n * 2 ^ κ % 2 ^ 64 = n * 2 ^ κ ∧
    2 * (n * 2 ^ κ) % 2 ^ 64 = 2 * (n * 2 ^ κ) := by
  generalize n * 2 ^ κ = a at *
  constructor <;> omega

theorem isLanewise_empty {α β : Type} {ax : Nat} {x : Arr α} (h0 : x.shape.getD ax 0 = 0) (hax : ax < x.shape.length)
    (R : List α → List β → Prop) (d : β) : IsLanewise ax x R ⟨x.shape, List.replicate x.shape.prod d⟩ := by
  refine ⟨rfl, by simp [Arr.WF], fun c hc => ?_⟩
  have := getD_inRange hc hax
  omega

/-- **C61, soundness.** Every accepted output has the shape of the input, and every lane of it consists of integers `Y`
that are the quantised softmax of the input lane, `α P(xᵢ-M) / ∑ⱼ P(xⱼ-M)` for an entry `M` of the lane, up to
`(α·reach(tb) + |Y|·n·reach(κ+1) + α·reach(κ+1)) / ∑ⱼ P(xⱼ-M)`, where `tb` is the bit length of the tolerance `2nα`. The
outputs of a lane add up to the scale up to the accepted range, and each is in the accepted range around `[0, α]`. -/
theorem C61_softmax_sound (h : ExpSetting p T (expCtx f rc th tl κ)) (h0 : 0 < f 0) (x : Arr Int) (hx : x.WF)
    {axis : Int} {ax : Nat} (hax : AxisOf x.shape.length axis ax) {B E : Int} (hB : ∀ u ∈ x.data, |u| ≤ B)
    (hE : ∀ u ∈ x.data, ∀ v ∈ x.data, InSigned (lookupBits κ) (u - v) →
      AcceptedInt rc.chunk (lookupBits κ - 1) (v - u) → expVal f κ (u - v) ≤ E)
    (hn : x.shape.getD ax 0 * 2 ^ κ < 2 ^ 63) (hf : SoftmaxFits p rc.chunk nb κ (x.shape.getD ax 0) B E) {opset : Nat} :
    Sound T (softmaxLayer hint f rc th tl κ nb opset axis (castArr p x))
      (IsLanewise ax x (SoftmaxLane p rc.chunk nb κ f)) := by
  obtain ⟨c1, c2⟩ := softmax_consts hn
  have hlt := ((normAxis_ok _ _ _).1 (normAxis_ok' _ _ _ |>.2 hax)).1
  unfold softmaxLayer
  by_cases k1 : κ ≥ 64
  · rw [if_pos k1]; intro h o e; cases e
  rw [if_neg k1]
  by_cases k2 : opset < 13
  · rw [if_pos k2]; intro h o e; cases e
  rw [if_neg k2]
  refine Sound.bind sound_liftR ?_
  intro a ha
  have e : a = ax := AxisOf_unique ((normAxis_ok' _ _ _).1 ha) hax
  subst e
  dsimp only
  rw [show (castArr p x).shape = x.shape from rfl]
  by_cases hz : x.shape.getD a 0 = 0
  · rw [if_pos hz]
    exact Sound.pure (isLanewise_empty hz hlt _ _)
  rw [if_neg hz]
  by_cases h63 : κ = 63
  · rw [if_pos h63]; intro h o e; cases e
  rw [if_neg h63, c1, c2]
  refine sound_laneMap hx hlt (fun l l' h => h.length) ?_
  intro l hl hm
  rw [← hl]
  rw [← hl] at hf
  exact sound_softmaxLane h h0 (fun u hu => hB u (hm u hu)) (fun u hu v hv => hE u (hm u hu) v (hm v hv)) hf

/-- **Findings on C61: no proof exists for a lane whose entries are spread out.** If two entries of a lane differ by
`2^L` or more, where `L = min (κ + 6) 24` is the width of the look-up — or by what the `(L-1)`-bit range check accepts —
no assignment of the hints satisfies the circuit. With the scale `2^18`, a difference of 64 (32 if the range check's
digits divide 23) is too much, so attention scores masked with a large negative number cannot be proved. -/
theorem C61_softmax_unprovable (h : ExpSetting p T (expCtx f rc th tl κ)) (h0 : 0 < f 0) (x : Arr Int) (hx : x.WF)
    {axis : Int} {ax : Nat} (hax : AxisOf x.shape.length axis ax) {B E : Int} (hB : ∀ u ∈ x.data, |u| ≤ B)
    (hE : ∀ u ∈ x.data, ∀ v ∈ x.data, InSigned (lookupBits κ) (u - v) →
      AcceptedInt rc.chunk (lookupBits κ - 1) (v - u) → expVal f κ (u - v) ≤ E)
    (hn : x.shape.getD ax 0 * 2 ^ κ < 2 ^ 63) (hf : SoftmaxFits p rc.chunk nb κ (x.shape.getD ax 0) B E) {opset : Nat}
    {c : List Nat} (hc : InRange x.shape c) {i j : Nat} {u v : Int} (hi : i < x.shape.getD ax 0)
    (hj : j < x.shape.getD ax 0) (hu : elem x (c.set ax i) = some u) (hv : elem x (c.set ax j) = some v)
    (hbad : reach rc.chunk (lookupBits κ - 1) ≤ u - v ∨ 2 ^ lookupBits κ ≤ u - v) :
    Sound T (softmaxLayer hint f rc th tl κ nb opset axis (castArr p x)) (fun _ => False) := by
  refine (C61_softmax_sound (hint := hint) h h0 x hx hax hB hE hn hf (opset := opset)).conseq ?_
  rintro y ⟨-, -, hl⟩
  obtain ⟨l, l', h1, -, M, -, Y, -, hacc, -⟩ := hl c hc
  have mem : ∀ k w, k < x.shape.getD ax 0 → elem x (c.set ax k) = some w → w ∈ l := by
    intro k w hk hw
    have : some w ∈ l.map some := by
      rw [h1]; exact List.mem_map.2 ⟨k, List.mem_range.2 hk, hw⟩
    simpa using this
  obtain ⟨a1, a2⟩ := hacc u (mem i u hi hu)
  obtain ⟨b1, b2⟩ := hacc v (mem j v hj hv)
  rw [accepted_iff] at a2 b2
  have hb : 2 ≤ lookupBits κ := h.bits
  have et : (2 : Int) ^ lookupBits κ = 2 * 2 ^ (lookupBits κ - 1) := by
    rw [← pow_succ']; congr 1; omega
  rcases hbad with hb | hb
  · linarith [a2.1, b2.2]
  · linarith [a1.2, b1.1]

/-- The quantised exponential the honest prover uses. -/
def expQ (f : Int → Int) (κ : Nat) (X : Int) : Int := expVal f κ X / 2 ^ κ

/-- The quantised values the honest prover's hint returns for a lane: `Y` within less than one unit of the exact
quotients of the quantised exponentials, shifted by the maximum `M`. -/
structure HonestLane (f : Int → Int) (κ : Nat) (M : Int) (l Y : List Int) : Prop where
  mem : M ∈ l
  spread : ∀ u ∈ l, u ≤ M ∧ M - u < 2 ^ (lookupBits κ - 1)
  small : ∀ u ∈ l, expQ f κ (u - M) ≤ 2 ^ κ
  near : List.Forall₂ (fun u y => 0 ≤ y ∧ y ≤ 2 ^ κ ∧
    |y * (l.map fun v : Int => expQ f κ (v - M)).sum - 2 ^ κ * expQ f κ (u - M)| <
      (l.map fun v : Int => expQ f κ (v - M)).sum) l Y

theorem sum_near {S α : Int} {g : Int → Int} : ∀ {l Y : List Int},
    List.Forall₂ (fun u y => |y * S - α * g u| < S) l Y → |Y.sum * S - α * (l.map g).sum| ≤ l.length * S
  | [], [], _ => by simp
  | u :: l, y :: Y, h => by
    obtain ⟨h1, h'⟩ := List.forall₂_cons.1 h
    have h2 := sum_near h'
    simp only [List.map_cons, List.sum_cons, List.length_cons]
    have h3 := abs_add_le (y * S - α * g u) (Y.sum * S - α * (l.map g).sum)
    have e : (y + Y.sum) * S - α * (g u + (l.map g).sum) = (y * S - α * g u) + (Y.sum * S - α * (l.map g).sum) := by ring
    rw [e]
    push_cast
    linarith

theorem sum_le_mul {α : Int} {g : Int → Int} : ∀ {l : List Int}, (∀ u ∈ l, g u ≤ α) → (l.map g).sum ≤ l.length * α
  | [], _ => by simp
  | u :: l, h => by
    have h1 := sum_le_mul (l := l) fun v hv => h v (List.mem_cons_of_mem _ hv)
    have h2 := h u (by simp)
    simp only [List.map_cons, List.sum_cons, List.length_cons]
    push_cast
    linarith

theorem zip_of_forall₂ {A : Int → Int → Prop} {g : Int → ZMod p} {c : Int → ZMod p} : ∀ {l Y : List Int},
    List.Forall₂ A l Y → ∀ q ∈ (Y.map c).zip (l.map g), ∃ u y, A u y ∧ q = (c y, g u)
  | [], [], _ => by simp
  | u :: l, y :: Y, h => by
    obtain ⟨h1, h'⟩ := List.forall₂_cons.1 h
    intro q hq
    simp only [List.map_cons, List.zip_cons_cons, List.mem_cons] at hq
    rcases hq with rfl | hq
    · exact ⟨u, y, h1, rfl⟩
    · exact zip_of_forall₂ h' q hq

theorem complete_softmaxMax {rc : RangeCtx} (hT : IsRangeTable T rc) {n : Nat} (hu : RangeUsable p rc n) (M : Int)
    (l : List Int) (hM : M ∈ l) (h : ∀ x ∈ l, 0 ≤ M - x ∧ M - x < 2 ^ n) :
    Complete T (softmaxMax rc n (M : ZMod p) (l.map fun x : Int => (x : ZMod p))) (fun _ => True) := by
  cases l with
  | nil => simp at hM
  | cons x l =>
    simp only [List.map_cons, softmaxMax]
    obtain ⟨h1, h2⟩ := h x (by simp)
    refine Complete.bind (hu.completeInt hT (k := M - x) h1 h2 (by push_cast; rfl)) fun _ _ => ?_
    refine Complete.bind (complete_maxLoop hT hu M l (fun y hy => h y (List.mem_cons_of_mem _ hy)) _) ?_
    intro r hr
    have : r = 0 := hr (by
      rcases List.mem_cons.1 hM with rfl | hM
      · left; ring
      · right; exact hM)
    exact ((Det.assertZero this).complete).conseq fun _ _ => trivial

theorem complete_softmaxLane (h : ExpSetting p T (expCtx f rc th tl κ)) (hκ : κ < 63) (hκp : 2 ^ κ < p)
    (h1 : RangeUsable p rc (lookupBits κ / 2)) (h2 : RangeUsable p rc (κ + 1)) (h3 : RangeUsable p rc nb)
    (h4 : RangeUsable p rc (lookupBits κ - 1)) (hnb : κ < nb) {l Y : List Int} {M : Int}
    (h5 : RangeUsable p rc (Nat.clog 2 (2 * (l.length * 2 ^ κ)))) (h6 : RangeUsable p rc (Nat.clog 2 (2 * l.length + 1)))
    (hP : ∀ u ∈ l, expVal f κ (u - M) < p) (hl : HonestLane f κ M l Y) {rest : List (ZMod p)}
    (hr : rest.length = l.length)
    (hh : hint ((l.map fun z : Int => (z : ZMod p)) ++ [((2 ^ κ : Nat) : ZMod p)]) =
      .ok ((Y.map fun z : Int => (z : ZMod p)) ++ (M : ZMod p) :: rest)) :
    Complete T (softmaxLane hint (expCtx f rc th tl κ) nb (l.length * 2 ^ κ) (Nat.clog 2 (2 * (l.length * 2 ^ κ)))
      (l.map fun z : Int => (z : ZMod p))) (fun ys => ys = Y.map fun z : Int => (z : ZMod p)) := by
  have hα : (0 : Int) < 2 ^ κ := by positivity
  have hYl : Y.length = l.length := hl.near.length_eq.symm
  have hT : IsRangeTable T rc := h.range
  have hanb : (2 : Int) ^ κ < 2 ^ nb := pow_lt_pow_right₀ (by norm_num) hnb
  unfold softmaxLane
  refine Complete.bind (Complete.newHint hh (by simp [hYl, hr]; omega)) ?_
  rintro _ rfl
  have e1 : ((Y.map fun z : Int => (z : ZMod p)) ++ (M : ZMod p) :: rest).take
      (l.map fun z : Int => (z : ZMod p)).length = Y.map fun z : Int => (z : ZMod p) := by
    rw [List.take_left' (by simp [hYl])]
  have e2 : ((Y.map fun z : Int => (z : ZMod p)) ++ (M : ZMod p) :: rest).getD
      (l.map fun z : Int => (z : ZMod p)).length 0 = (M : ZMod p) := by
    rw [List.getD_append_right _ _ _ _ (by simp [hYl])]
    simp [hYl]
  rw [e1, e2, List.length_map]
  dsimp only
  refine Complete.bind (complete_softmaxMax (rc := rc) (n := lookupBits κ - 1) hT h4 M l hl.mem
    fun u hu => ⟨by linarith [(hl.spread u hu).1], (hl.spread u hu).2⟩) fun _ _ => ?_
  rw [collectG_map]
  refine Complete.bind (complete_collectG (Q := fun u e => e = ((expQ f κ (u - M) : Int) : ZMod p)) _ ?_) ?_
  · intro u hu
    have e : (u : ZMod p) - (M : ZMod p) = ((u - M : Int) : ZMod p) := by push_cast; rfl
    rw [e]
    have hpos : (0 : Int) < 2 ^ (lookupBits κ - 1) := by positivity
    have := hl.spread u hu
    exact complete_expInt h (by omega) hκp h1 h2 ⟨by linarith, by linarith⟩ (hP u hu)
  intro es hes
  have ees : es = l.map fun u : Int => ((expQ f κ (u - M) : Int) : ZMod p) := by
    clear hh h5 h6 hr e1 e2 hP hl hYl
    induction hes with
    | nil => rfl
    | cons h _ ih => simp [h, ih]
  subst ees
  set S := (l.map fun v : Int => expQ f κ (v - M)).sum with hS
  have eS : (l.map fun u : Int => ((expQ f κ (u - M) : Int) : ZMod p)).sum = (S : ZMod p) := by
    rw [hS, ← sum_cast, List.map_map]; rfl
  rw [eS]
  have hSle : S ≤ l.length * 2 ^ κ := sum_le_mul hl.small
  have hS0 : 0 < S := by
    obtain ⟨i, hi, -⟩ := List.getElem_of_mem hl.mem
    have := ((List.forall₂_iff_get.1 hl.near).2 i hi (by omega)).2.2
    exact lt_of_le_of_lt (abs_nonneg _) this
  have htb : 2 * ((l.length : Int) * 2 ^ κ) ≤ 2 ^ Nat.clog 2 (2 * (l.length * 2 ^ κ)) := by
    have := Nat.le_pow_clog (b := 2) (by norm_num) (2 * (l.length * 2 ^ κ))
    exact_mod_cast this
  refine Complete.bind (complete_collectG (Q := fun _ _ => True) _ ?_) fun _ _ => ?_
  · intro q hq
    obtain ⟨u, y, ⟨y0, y1, hy⟩, rfl⟩ := zip_of_forall₂ (c := fun z : Int => (z : ZMod p))
      (g := fun u : Int => ((expQ f κ (u - M) : Int) : ZMod p)) hl.near q hq
    rw [← hS, abs_lt] at hy
    unfold softmaxElem
    refine Complete.bind (h3.completeInt hT (k := y) y0 (by linarith) rfl) fun _ _ => ?_
    refine Complete.bind (h3.completeInt hT (k := 2 ^ κ - y) (by linarith) (by linarith) (by simp [expCtx])) fun _ _ => ?_
    refine h5.completeInt hT (k := y * S - expQ f κ (u - M) * 2 ^ κ + l.length * 2 ^ κ) (by linarith) (by linarith) ?_
    simp only [expCtx]
    push_cast
    ring
  have hsum := sum_near (hl.near.imp fun _ _ h => h.2.2)
  rw [← hS] at hsum
  have e3 : Y.sum * S - 2 ^ κ * S = (Y.sum - 2 ^ κ) * S := by ring
  rw [e3, abs_mul, abs_of_pos hS0] at hsum
  have h7 := abs_le.1 (le_of_mul_le_mul_right hsum hS0)
  have htc : (2 * (l.length : Int) + 1) ≤ 2 ^ Nat.clog 2 (2 * l.length + 1) := by
    have := Nat.le_pow_clog (b := 2) (by norm_num) (2 * l.length + 1)
    exact_mod_cast this
  refine Complete.bind (h6.completeInt hT (k := Y.sum - 2 ^ κ + l.length) (by linarith [h7.1]) (by linarith [h7.2]) ?_)
    fun _ _ => Complete.pure rfl
  rw [sum_cast]
  simp only [expCtx]
  push_cast
  ring

/-- **C61, completeness.** The honest prover succeeds on every lane whose entries differ by less than `2^(L-1)`, when
its hint returns the maximum and values within one unit of the exact quotients; it then gets these values. -/
theorem C61_softmax_complete (h : ExpSetting p T (expCtx f rc th tl κ)) (hκ : κ < 63) (hκp : 2 ^ κ < p) {opset : Nat}
    (ho : 13 ≤ opset) (x : Arr Int) (hx : x.WF) {axis : Int} {ax : Nat} (hax : AxisOf x.shape.length axis ax)
    (h1 : RangeUsable p rc (lookupBits κ / 2)) (h2 : RangeUsable p rc (κ + 1)) (h3 : RangeUsable p rc nb)
    (h4 : RangeUsable p rc (lookupBits κ - 1)) (hnb : κ < nb)
    (h5 : RangeUsable p rc (Nat.clog 2 (2 * (x.shape.getD ax 0 * 2 ^ κ))))
    (h6 : RangeUsable p rc (Nat.clog 2 (2 * x.shape.getD ax 0 + 1))) (hn : x.shape.getD ax 0 * 2 ^ κ < 2 ^ 63)
    (Y : List Int → List Int) (M : List Int → Int) (rest : List Int → List (ZMod p))
    (hP : ∀ u ∈ x.data, ∀ v ∈ x.data, u ≤ v → expVal f κ (u - v) < p)
    (hl : ∀ c l, InRange x.shape c → IsLane ax x c l → HonestLane f κ (M l) l (Y l) ∧ (rest l).length = l.length ∧
      hint ((l.map fun z : Int => (z : ZMod p)) ++ [((2 ^ κ : Nat) : ZMod p)]) =
        .ok (((Y l).map fun z : Int => (z : ZMod p)) ++ (M l : ZMod p) :: rest l)) :
    Complete T (softmaxLayer hint f rc th tl κ nb opset axis (castArr p x))
      (IsLanewise ax x fun l ys => ys = (Y l).map (fun z : Int => (z : ZMod p)) ∧ ys.length = l.length) := by
  obtain ⟨c1, c2⟩ := softmax_consts hn
  have hlt := ((normAxis_ok _ _ _).1 (normAxis_ok' _ _ _ |>.2 hax)).1
  unfold softmaxLayer
  rw [if_neg (by omega), if_neg (by omega)]
  refine Complete.bind (complete_liftR ((normAxis_ok' _ _ _).2 hax)) ?_
  intro b hb
  rw [hb]
  dsimp only
  rw [show (castArr p x).shape = x.shape from rfl]
  by_cases hz : x.shape.getD ax 0 = 0
  · rw [if_pos hz]
    exact Complete.pure (isLanewise_empty hz hlt _ _)
  rw [if_neg hz, if_neg (by omega), c1, c2]
  refine complete_laneMap hx hlt (fun l l' h => h.2) ?_
  rintro l ⟨c, hr, hc⟩
  have hll := isLane_length hc
  have hm := isLane_mem hc
  obtain ⟨k1, k2, k3⟩ := hl (c.set ax 0) l (inRange_unset hr (by omega)) (by
    unfold IsLane at hc ⊢; simpa only [List.set_set] using hc)
  rw [← hll] at h5 h6 ⊢
  refine (complete_softmaxLane h hκ hκp h1 h2 h3 h4 hnb h5 h6
    (fun u hu => hP u (hm u hu) _ (hm _ k1.mem) (k1.spread u hu).1) k1 k2 k3).conseq ?_
  rintro _ rfl
  exact ⟨rfl, by simpa using k1.near.length_eq.symm⟩

/-- **C61, refused parameters**: a scale of `2^64` or more, an opset below 13, an axis out of range, and, unless the
lanes are empty, a scale of `2^63`. -/
theorem C61_softmax_refuses (x : Arr (ZMod p)) {opset : Nat} {axis : Int}
    (hbad : 64 ≤ κ ∨ opset < 13 ∨ axis < -x.shape.length ∨ (x.shape.length : Int) ≤ axis ∨
      (κ = 63 ∧ ∀ d ∈ x.shape, d ≠ 0)) (hs : Hints (ZMod p)) :
    ∃ msg, softmaxLayer hint f rc th tl κ nb opset axis x hs = .error (.err msg) := by
  unfold softmaxLayer
  by_cases k1 : κ ≥ 64
  · rw [if_pos k1]; exact ⟨_, rfl⟩
  rw [if_neg k1]
  by_cases k2 : opset < 13
  · rw [if_pos k2]; exact ⟨_, rfl⟩
  rw [if_neg k2]
  have hc := normAxis_cases x.shape.length axis
  refine liftR_bind_refuses hc.1 fun a ha => ?_
  have hlt := ((normAxis_ok _ _ _).1 ha).1
  have hno : ¬ (axis < -x.shape.length ∨ (x.shape.length : Int) ≤ axis) := fun hb => by
    rw [hc.2 hb] at ha; cases ha
  have hb : κ = 63 ∧ ∀ d ∈ x.shape, d ≠ 0 := by
    rcases hbad with h | h | h | h | h
    · exact absurd h k1
    · exact absurd h k2
    · exact absurd (.inl h) hno
    · exact absurd (.inr h) hno
    · exact h
  rw [if_neg, if_pos hb.1]
  · exact ⟨_, rfl⟩
  · rw [List.getD_eq_getElem _ _ hlt]
    exact hb.2 _ (List.getElem_mem _)

end

/-! ## The hypotheses are met -/

/-- Two lanes of two entries each; scale `2^18`. -/
def softIn : Arr Int := ⟨[2, 2], [0, -262144, 262144, 0]⟩

example : Sound stairTables (softmaxLayer (fun _ => .ok []) stairs ⟨0, 12⟩ 1 2 18 40 13 (-1) (castArr bn254P softIn))
    (IsLanewise 1 softIn (SoftmaxLane bn254P 12 40 18 stairs)) :=
  C61_softmax_sound (B := 2 ^ 18) (E := 2 ^ 40) stair_setting (by decide +kernel) softIn rfl (ax := 1)
    ((normAxis_ok' _ _ _).1 rfl) (by decide +kernel)
    (by
      have : ∀ u ∈ softIn.data, ∀ v ∈ softIn.data, expVal stairs 18 (u - v) ≤ 2 ^ 40 := by decide +kernel
      exact fun u hu v hv _ _ => this u hu v hv)
    (by decide) ⟨by decide +kernel, by decide +kernel, by decide +kernel, by decide +kernel, by decide +kernel⟩

/-- A masked lane: the second entry is 64 below the first. -/
example : Sound stairTables (softmaxLayer (fun _ => .ok []) stairs ⟨0, 12⟩ 1 2 18 40 13 (-1)
    (castArr bn254P ⟨[1, 2], [0, -16777216]⟩)) (fun _ => False) :=
  C61_softmax_unprovable (B := 2 ^ 24) (E := 2 ^ 100) stair_setting (by decide +kernel) ⟨[1, 2], [0, -16777216]⟩ rfl (ax := 1)
    ((normAxis_ok' _ _ _).1 rfl) (by decide +kernel)
    (by
      have : ∀ u ∈ ([0, -16777216] : List Int), ∀ v ∈ ([0, -16777216] : List Int),
        expVal stairs 18 (u - v) ≤ 2 ^ 100 := by decide +kernel
      exact fun u hu v hv _ _ => this u hu v hv)
    (by decide) ⟨by decide +kernel, by decide +kernel, by decide +kernel, by decide +kernel, by decide +kernel⟩
    (c := [0, 0]) (.cons (by decide) (.cons (by decide) .nil)) (i := 0) (j := 1) (by decide) (by decide)
    rfl rfl (.inr (by decide +kernel))

example : Complete stairTables (softmaxLayer
      (fun _ => .ok [((174763 : Int) : ZMod bn254P), ((87381 : Int) : ZMod bn254P), ((0 : Int) : ZMod bn254P), 0, 0])
      stairs ⟨0, 12⟩ 1 2 18 40 13 (-1) (castArr bn254P ⟨[1, 2], [0, -262144]⟩))
    (IsLanewise 1 ⟨[1, 2], [0, -262144]⟩ fun l ys =>
      ys = ([174763, 87381] : List Int).map (fun z : Int => (z : ZMod bn254P)) ∧ ys.length = l.length) :=
  C61_softmax_complete stair_setting (by norm_num) (by norm_num [bn254P]) le_rfl ⟨[1, 2], [0, -262144]⟩ rfl (ax := 1)
    ((normAxis_ok' _ _ _).1 rfl)
    (⟨by decide, by decide, by decide, by decide +kernel, by decide +kernel, by decide +kernel⟩)
    (⟨by decide, by decide, by decide, by decide +kernel, by decide +kernel, by decide +kernel⟩)
    (⟨by decide, by decide, by decide, by decide +kernel, by decide +kernel, by decide +kernel⟩)
    (⟨by decide, by decide, by decide, by decide +kernel, by decide +kernel, by decide +kernel⟩) (by norm_num)
    (⟨by decide, by decide, by decide +kernel, by decide +kernel, by decide +kernel, by decide +kernel⟩)
    (⟨by decide, by decide, by decide +kernel, by decide +kernel, by decide +kernel, by decide +kernel⟩)
    (by decide) (fun _ => [174763, 87381]) (fun _ => 0) (fun _ => [0, 0])
    (by
      have : ∀ u ∈ ([0, -262144] : List Int), ∀ v ∈ ([0, -262144] : List Int),
        expVal stairs 18 (u - v) < bn254P := by decide +kernel
      exact fun u hu v hv _ => this u hu v hv)
    (by
      intro c l hc hl
      have e : l = [0, -262144] := by
        refine isLane_unique hl ?_
        match c, hc with
        | _ :: _ :: _, .cons h (.cons _ .nil) =>
          have h0 := Nat.lt_one_iff.1 h
          subst h0
          rfl
      subst e
      exact ⟨⟨by decide, by decide +kernel, by decide +kernel,
        .cons (by decide +kernel) (.cons (by decide +kernel) .nil)⟩, rfl, rfl⟩)

example : ∃ msg, softmaxLayer (p := bn254P) (fun _ => .ok []) stairs ⟨0, 12⟩ 1 2 18 40 11 (-1) ⟨[2, 2], [1, 2, 3, 4]⟩ .honest =
    .error (.err msg) :=
  C61_softmax_refuses _ (.inr (.inl (by norm_num))) _

end JST.Props
