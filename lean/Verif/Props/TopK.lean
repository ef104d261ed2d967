import Verif.Gadgets.TopK
import Verif.Props.Exp
import Mathlib.Data.List.Forall2
import Mathlib.Data.List.Nodup
import Mathlib.Data.List.NodupEquivFin

/-!
# Property C13: TopK

`IsTopK` is the ONNX specification of one lane. The circuit only enforces the weaker `Accepted`
relation; it is characterised exactly below.
-/

set_option linter.unusedSectionVars false

namespace JST.Props

open JST

/-- The specification: `k` distinct positions with their values, in descending order, and nothing that
was left out exceeds a returned value. -/
structure IsTopK (lane : List Int) (k : Nat) (vals : List Int) (idx : List Nat) : Prop where
  len : vals.length = k
  picks : List.Forall₂ (fun v i => lane[i]? = some v) vals idx
  distinct : idx.Nodup
  sorted : vals.Pairwise (· ≥ ·)
  top : ∀ i x, lane[i]? = some x → i ∉ idx → ∀ v ∈ vals, x ≤ v

/-- What the circuit enforces: every returned pair is an element of the lane with its position, and
every lane value is either returned or at most the last returned value. -/
structure Accepted (lane : List Int) (k : Nat) (vals : List Int) (idx : List Nat) : Prop where
  len : vals.length = k
  picks : List.Forall₂ (fun v i => lane[i]? = some v) vals idx
  dominated : ∀ x ∈ lane, x ∈ vals ∨ ∀ l, vals.getLast? = some l → x ≤ l

section
variable {p : Nat} [Fact p.Prime] {T : Tables (ZMod p)}

/-- Integers as field elements. -/
def castL (p : Nat) (xs : List Int) : List (ZMod p) := xs.map fun x : Int => (x : ZMod p)
/-- Positions as field elements. -/
def castN (p : Nat) (xs : List Nat) : List (ZMod p) := xs.map fun x : Nat => (x : ZMod p)

theorem foldl_prod_zero (values : List (ZMod p)) (e q : ZMod p) :
    values.foldl (fun q v => q * (v - e)) q = 0 ↔ q = 0 ∨ e ∈ values := by
  induction values generalizing q with
  | nil => simp
  | cons v vs ih =>
    rw [List.foldl_cons, ih, mul_eq_zero, sub_eq_zero, List.mem_cons, or_assoc, eq_comm (a := v)]

theorem foldl_prod_zero' (es : List (ZMod p)) (v q : ZMod p) :
    es.foldl (fun q e => q * (v - e)) q = 0 ↔ q = 0 ∨ v ∈ es := by
  induction es generalizing q with
  | nil => simp
  | cons e es ih =>
    rw [List.foldl_cons, ih, mul_eq_zero, sub_eq_zero, List.mem_cons, or_assoc]

theorem zipWith_map_self (values : List (ZMod p)) (f : ZMod p → ZMod p) (e : ZMod p) :
    List.zipWith (fun pr v => pr * (v - e)) (values.map f) values =
      values.map fun v => f v * (v - e) := by
  induction values with
  | nil => rfl
  | cons v vs ih => simp [ih]

theorem sound_topkElems {rc : RangeCtx} (hT : IsRangeTable T rc) (hc : 0 < rc.chunk) {n : Nat}
    (hd : rc.chunk ∣ n) (values : List (ZMod p)) (m : ZMod p) (es prods : List (ZMod p)) :
    Sound T (topkElems rc values m n es prods) (fun _ =>
      ∀ e ∈ es, e ∈ values ∨ ∃ k : Nat, k < 2 ^ n ∧ m - e = (k : ZMod p)) := by
  induction es generalizing prods with
  | nil => exact Sound.pure (by simp)
  | cons e es ih =>
    refine (sound_isZero _).bind fun s hs => (sound_rangeCheck_dvd hT hc hd).bind fun _ hk =>
      (ih _).conseq fun _ h => ?_
    intro x hx
    rcases List.mem_cons.mp hx with rfl | hx
    · by_cases hv : x ∈ values
      · exact .inl hv
      · right
        rw [if_neg (by rw [foldl_prod_zero]; simpa using hv)] at hs
        rw [hs, sub_zero, one_mul] at hk
        exact hk
    · exact h x hx

theorem complete_topkElems {rc : RangeCtx} (hT : IsRangeTable T rc) {n : Nat}
    (hu : RangeUsable p rc n) (values : List (ZMod p)) (m : ZMod p) (es : List (ZMod p))
    (f : ZMod p → ZMod p)
    (h : ∀ e ∈ es, e ∈ values ∨ ∃ k : Int, 0 ≤ k ∧ k < 2 ^ n ∧ m - e = (k : ZMod p)) :
    Complete T (topkElems rc values m n es (values.map f)) (fun r =>
      r = values.map fun v => es.foldl (fun q e => q * (v - e)) (f v)) := by
  induction es generalizing f with
  | nil => exact Complete.pure rfl
  | cons e es ih =>
    refine (complete_isZero _).bind fun s hs => ?_
    have hr : Complete T (rangeCheck rc ((1 - s) * (m - e)) n) (fun _ => True) := by
      by_cases hv : e ∈ values
      · rw [if_pos (by rw [foldl_prod_zero]; exact .inr hv)] at hs
        exact hu.completeInt hT (k := 0) (le_refl _) (by positivity) (by rw [hs]; simp)
      · rw [if_neg (by rw [foldl_prod_zero]; simpa using hv)] at hs
        obtain ⟨k, h0, h1, h2⟩ := (h e (by simp)).resolve_left hv
        exact hu.completeInt hT h0 h1 (by rw [hs, ← h2]; ring)
    refine hr.bind fun _ _ => ?_
    rw [zipWith_map_self]
    exact ih _ fun x hx => h x (List.mem_cons_of_mem _ hx)

theorem det_assertZeros (zs : List (ZMod p)) (h : ∀ z ∈ zs, z = 0) :
    Det T (assertZeros zs) (fun _ => True) := by
  induction zs with
  | nil => exact Det.pure trivial
  | cons z zs ih =>
    exact (Det.assertZero (h z (by simp))).bind fun _ _ => ih fun x hx => h x (by simp [hx])

theorem complete_topkOrder {rc : RangeCtx} (hT : IsRangeTable T rc) {n : Nat}
    (hu : RangeUsable p rc (n + 1)) (vals : List Int)
    (h : ∀ x ∈ vals, ∀ y ∈ vals, -2 ^ n ≤ x - y ∧ x - y < 2 ^ n) :
    Complete T (topkOrder rc ((2 ^ n : Nat) : ZMod p) (n + 1) (castL p vals)) (fun _ => True) := by
  induction vals with
  | nil => exact Complete.pure trivial
  | cons a t ih =>
    cases t with
    | nil => exact Complete.pure trivial
    | cons b t =>
      have h1 := h a (by simp) b (by simp)
      refine (hu.completeInt hT (k := a - b + 2 ^ n) (by linarith) ?_ ?_).bind fun _ _ =>
        ih fun x hx y hy => h x (List.mem_cons_of_mem _ hx) y (List.mem_cons_of_mem _ hy)
      · rw [pow_succ]; linarith
      · push_cast; ring

/-- The selected value, as a sum. -/
def matchSel (idx : ZMod p) : Nat → List (ZMod p) → ZMod p
  | _, [] => 0
  | a, e :: es => (if idx - ((a % 2 ^ 32 : Nat) : ZMod p) = 0 then e else 0) + matchSel idx (a + 1) es
/-- The number of matches. -/
def matchCnt (idx : ZMod p) : Nat → List (ZMod p) → ZMod p
  | _, [] => 0
  | a, _ :: es => (if idx - ((a % 2 ^ 32 : Nat) : ZMod p) = 0 then 1 else 0) + matchCnt idx (a + 1) es

theorem sound_topkMatch (idx : ZMod p) (a : Nat) (es : List (ZMod p)) (s m : ZMod p) :
    Sound T (topkMatch idx a es s m)
      (fun r => r = (s + matchSel idx a es, m + matchCnt idx a es)) := by
  induction es generalizing a s m with
  | nil => exact Sound.pure (by simp [matchSel, matchCnt])
  | cons e es ih =>
    refine (sound_isZero _).bind fun i hi => (ih _ _ _).conseq ?_
    rintro r rfl
    simp only [matchSel, matchCnt, hi]
    split_ifs <;> simp [add_assoc]

theorem complete_topkMatch (idx : ZMod p) (a : Nat) (es : List (ZMod p)) (s m : ZMod p) :
    Complete T (topkMatch idx a es s m)
      (fun r => r = (s + matchSel idx a es, m + matchCnt idx a es)) := by
  induction es generalizing a s m with
  | nil => exact Complete.pure (by simp [matchSel, matchCnt])
  | cons e es ih =>
    refine (complete_isZero _).bind fun i hi => (ih _ _ _).conseq ?_
    rintro r rfl
    simp only [matchSel, matchCnt, hi]
    split_ifs <;> simp [add_assoc]

theorem match_none (idx : ZMod p) (a : Nat) (es : List (ZMod p)) (hl : a + es.length ≤ 2 ^ 32)
    (h : ∀ i < es.length, idx ≠ ((a + i : Nat) : ZMod p)) :
    matchSel idx a es = 0 ∧ matchCnt idx a es = 0 := by
  induction es generalizing a with
  | nil => exact ⟨rfl, rfl⟩
  | cons e es ih =>
    simp only [List.length_cons] at hl h
    have h1 := ih (a + 1) (by omega) fun i hi => by
      have := h (i + 1) (by omega)
      rwa [show a + 1 + i = a + (i + 1) by omega]
    have h0 := h 0 (by omega)
    simp only [matchSel, matchCnt]
    rw [Nat.mod_eq_of_lt (by omega), if_neg (by rw [sub_eq_zero]; simpa using h0),
      if_neg (by rw [sub_eq_zero]; simpa using h0), h1.1, h1.2]
    simp

theorem natCast_inj_small {i j : Nat} (hi : i < p) (hj : j < p)
    (h : (i : ZMod p) = (j : ZMod p)) : i = j := by
  have := congrArg ZMod.val h
  rwa [ZMod.val_natCast, ZMod.val_natCast, Nat.mod_eq_of_lt hi, Nat.mod_eq_of_lt hj] at this

theorem match_some (a i : Nat) (es : List (ZMod p)) (hl : a + es.length ≤ 2 ^ 32)
    (hp : a + es.length ≤ p) (e : ZMod p) (he : es[i]? = some e) :
    matchSel ((a + i : Nat) : ZMod p) a es = e ∧ matchCnt ((a + i : Nat) : ZMod p) a es = 1 := by
  induction es generalizing a i with
  | nil => simp at he
  | cons x es ih =>
    simp only [List.length_cons] at hl hp
    simp only [matchSel, matchCnt]
    cases i with
    | zero =>
      have h1 := match_none (p := p) ((a + 0 : Nat) : ZMod p) (a + 1) es (by omega) (by
        intro j hj h
        have := natCast_inj_small (by omega) (by omega) h
        omega)
      rw [Nat.mod_eq_of_lt (by omega), h1.1, h1.2]
      simp at he
      simp [he]
    | succ i =>
      have hi : i < es.length := by
        by_contra hh
        rw [List.getElem?_cons_succ, List.getElem?_eq_none (by omega)] at he
        cases he
      have h1 := ih (a + 1) i (by omega) (by omega) (by simpa using he)
      rw [show a + 1 + i = a + (i + 1) by omega] at h1
      have hne : ((a + (i + 1) : Nat) : ZMod p) - ((a : Nat) : ZMod p) ≠ 0 := by
        rw [sub_ne_zero]
        intro h
        have := natCast_inj_small (p := p) (by omega) (by omega) h
        omega
      rw [Nat.mod_eq_of_lt (by omega), if_neg hne, if_neg hne, h1.1, h1.2]
      simp

theorem sound_topkIndices {rc : RangeCtx} (lane : List (ZMod p)) (b : Nat)
    (hl : lane.length ≤ 2 ^ 32) (hp : lane.length ≤ p) (l : List (ZMod p × ZMod p)) :
    Sound T (topkIndices rc lane b l) (fun _ => ∀ q ∈ l, ∃ i : Nat, q.2 = (i : ZMod p) ∧
      lane[i]? = some q.1) := by
  induction l with
  | nil => exact Sound.pure (by simp)
  | cons q l ih =>
    obtain ⟨v, idx⟩ := q
    refine Sound.bind (P := fun _ => True) (fun _ _ _ _ => trivial) fun _ _ => ?_
    refine Sound.bind (P := fun _ => True) (fun _ _ _ _ => trivial) fun _ _ => ?_
    refine (sound_topkMatch idx 0 lane 0 0).bind ?_
    rintro r rfl
    refine Sound.assertEq.bind fun _ h1 => Sound.assertEq.bind fun _ h2 => ih.conseq fun _ h => ?_
    intro q hq
    rcases List.mem_cons.mp hq with rfl | hq
    · simp only [zero_add] at h1 h2
      have : ∃ i < lane.length, idx = ((i : Nat) : ZMod p) := by
        by_contra hcon
        push Not at hcon
        have := (match_none idx 0 lane (by omega) (by simpa using hcon)).2
        rw [this] at h1
        exact zero_ne_one h1
      obtain ⟨i, hi, rfl⟩ := this
      refine ⟨i, rfl, ?_⟩
      have := (match_some (p := p) 0 i lane (by omega) (by omega) lane[i]
        (List.getElem?_eq_getElem hi)).1
      rw [zero_add] at this
      rw [this] at h2
      rw [List.getElem?_eq_getElem hi, h2]
    · exact h q hq

theorem bitLen_bound (n : Nat) : n < 2 ^ bitLen n := by
  unfold bitLen
  split_ifs with h
  · simp [h]
  · exact Nat.lt_log2_self

theorem complete_topkIndices {rc : RangeCtx} (hT : IsRangeTable T rc) (lane : List (ZMod p))
    (hu : RangeUsable p rc (topkIdxBits lane.length))
    (hl : lane.length ≤ 2 ^ 32) (hp : lane.length ≤ p) (l : List (ZMod p × ZMod p))
    (h : ∀ q ∈ l, ∃ i : Nat, q.2 = (i : ZMod p) ∧ lane[i]? = some q.1) :
    Complete T (topkIndices rc lane (topkIdxBits lane.length) l) (fun _ => True) := by
  induction l with
  | nil => exact Complete.pure trivial
  | cons q l ih =>
    obtain ⟨v, idx⟩ := q
    obtain ⟨i, rfl, hi⟩ : ∃ i : Nat, idx = (i : ZMod p) ∧ lane[i]? = some v :=
      h (v, idx) (by simp)
    have hlt : i < lane.length := by
      by_contra hh
      rw [List.getElem?_eq_none (by omega)] at hi
      cases hi
    have hb : lane.length - 1 < 2 ^ topkIdxBits lane.length :=
      lt_of_lt_of_le (bitLen_bound _) (Nat.pow_le_pow_right (by norm_num) (le_max_left _ _))
    refine (hu.complete hT (k := i) (by omega) rfl).bind fun _ _ => ?_
    refine (hu.complete hT (k := lane.length - 1 - i) (by omega) ?_).bind fun _ _ => ?_
    · rw [← Nat.cast_sub (by omega)]
    · refine (complete_topkMatch _ 0 lane 0 0).bind ?_
      rintro r rfl
      have hm := match_some (p := p) 0 i lane (by omega) (by omega) v hi
      rw [zero_add] at hm
      refine (Det.assertEq ?_).complete.bind fun _ _ => (Det.assertEq ?_).complete.bind fun _ _ =>
        ih fun q hq => h q (List.mem_cons_of_mem _ hq)
      · simp only [hm.2, zero_add]
      · simp only [hm.1, zero_add]

/-- Pair up accepted values and indices. -/
theorem picks_of_zip (lane : List Int) (vs is : List (ZMod p)) (hlen : vs.length = is.length)
    (h : ∀ q ∈ vs.zip is, ∃ i : Nat, q.2 = (i : ZMod p) ∧ (castL p lane)[i]? = some q.1) :
    ∃ vals idx, vs = castL p vals ∧ is = castN p idx ∧
      List.Forall₂ (fun v i => lane[i]? = some v) vals idx := by
  induction vs generalizing is with
  | nil =>
    have : is = [] := by simpa using hlen.symm
    exact ⟨[], [], rfl, by simp [this, castN], .nil⟩
  | cons v vs ih =>
    cases is with
    | nil => simp at hlen
    | cons i is =>
      obtain ⟨vals, idx, rfl, rfl, hf⟩ := ih is (by simpa using hlen) fun q hq => h q (by simp [hq])
      obtain ⟨j, hj, hv⟩ := h (v, i) (by simp)
      simp only [castL, List.getElem?_map] at hv
      cases hx : lane[j]? with
      | none => rw [hx] at hv; cases hv
      | some x =>
        rw [hx] at hv
        simp only [Option.map_some, Option.some.injEq] at hv
        exact ⟨x :: vals, j :: idx, by simp [castL, hv], by
          simp only at hj
          simp [castN, hj], .cons hx hf⟩

theorem forall₂_mem {lane vals : List Int} {idx : List Nat}
    (h : List.Forall₂ (fun v i => lane[i]? = some v) vals idx) : ∀ v ∈ vals, v ∈ lane := by
  induction h with
  | nil => simp
  | cons h1 _ ih =>
    intro v hv
    rcases List.mem_cons.mp hv with rfl | hv
    · exact List.mem_of_getElem? h1
    · exact ih v hv

theorem getLast_getD (vals : List Int) (k : Nat) (hk : vals.length = k) (hk0 : k ≠ 0) :
    ∃ l, vals.getLast? = some l ∧ (castL p vals).getD (k - 1) 0 = ((l : Int) : ZMod p) ∧ l ∈ vals := by
  have hne : vals ≠ [] := by rintro rfl; simp at hk; omega
  refine ⟨vals.getLast hne, List.getLast?_eq_some_getLast hne, ?_, List.getLast_mem hne⟩
  rw [List.getLast_eq_getElem, List.getD_eq_getElem?_getD, castL, List.getElem?_map,
    List.getElem?_eq_getElem (by omega)]
  simp [hk]

/-- **C13, what is enforced.** On integer lanes that fit the declared width, every accepted run, with
hints chosen by an arbitrary prover, returns lane elements at the returned positions, and every lane
value is returned or bounded by the *last* returned value. Missing with respect to `IsTopK`: the order
of the returned values and the distinctness of the positions (see `C13_topk_accepts_weak`), and widths
`n_bits + 1` that are not a multiple of the table's digit width (see C01). -/
theorem C13_topk_sound_partial {rc : RangeCtx} (hT : IsRangeTable T rc) (hc : 0 < rc.chunk)
    (n k : Nat) (hd : rc.chunk ∣ n + 1) (hp : 2 ^ (n + 2) ≤ p) (scale : ZMod p) (lane : List Int)
    (hb : ∀ x ∈ lane, -2 ^ n ≤ x ∧ x < 2 ^ n) (hl : lane.length ≤ 2 ^ 32) (hlp : lane.length ≤ p) :
    Sound T (topkLane rc n k scale (castL p lane)) (fun r => ∃ vals idx,
      r = (castL p vals, castN p idx) ∧ Accepted lane k vals idx) := by
  unfold topkLane
  split_ifs with h64 hk
  · exact Sound.throwErr
  · exact Sound.panicWith
  refine Sound.newHint.bind fun out hout => ?_
  refine Sound.bind (P := fun _ => ∃ vals idx, (out.take k, out.drop k) = (castL p vals, castN p idx) ∧
    Accepted lane k vals idx) ?_ fun _ h => Sound.pure h
  unfold topkCheck
  refine (sound_topkElems hT hc hd _ _ _ _).bind fun _ h1 => ?_
  refine Sound.bind (P := fun _ => True) (fun _ _ _ _ => trivial) fun _ _ => ?_
  refine Sound.bind (P := fun _ => True) (fun _ _ _ _ => trivial) fun _ _ => ?_
  have hlen : (castL p lane).length = lane.length := by simp [castL]
  refine (sound_topkIndices _ _ (by omega) (by omega) _).conseq fun _ h2 => ?_
  have hlt : (out.take k).length = k := by rw [List.length_take]; omega
  have hld : (out.drop k).length = k := by rw [List.length_drop]; omega
  obtain ⟨vals, idx, hv, hi, hf⟩ := picks_of_zip lane _ _ (by rw [hlt, hld]) h2
  have hvk : vals.length = k := by
    have := congrArg List.length hv
    rw [hlt] at this
    simpa [castL] using this.symm
  refine ⟨vals, idx, by rw [hv, hi], hvk, hf, ?_⟩
  intro x hx
  obtain ⟨l, hgl, hlast, hlm⟩ := getLast_getD (p := p) vals k hvk hk
  have hpp : (2 : Int) ^ n * 4 ≤ p := by
    have : (2 : Int) ^ (n + 2) ≤ p := by exact_mod_cast hp
    rw [pow_add] at this; linarith
  have h2n : (0 : Int) < 2 ^ n := by positivity
  rcases h1 ((x : Int) : ZMod p) (List.mem_map.mpr ⟨x, hx, rfl⟩) with hin | ⟨K, hK, he⟩
  · left
    rw [hv] at hin
    obtain ⟨y, hy, hxy⟩ := List.mem_map.mp hin
    have bx := hb x hx
    have bY := hb y (forall₂_mem hf y hy)
    have : y = x := int_eq_of_cast_eq hxy (by rw [abs_lt]; constructor <;> linarith)
    rwa [← this]
  · right
    intro l' hl'
    rw [hgl] at hl'
    cases hl'
    rw [hv, hlast] at he
    have bx := hb x hx
    have bl := hb l (forall₂_mem hf l hlm)
    have hK' : (K : Int) < 2 ^ n * 2 := by rw [← pow_succ]; exact_mod_cast hK
    have he' : ((l - x : Int) : ZMod p) = ((K : Int) : ZMod p) := by push_cast; exact he
    have := int_eq_of_cast_eq he' (by rw [abs_lt]; constructor <;> linarith)
    linarith [Int.natCast_nonneg K]

/-- **C13 for `k = 1`.** TopK with `k = 1` returns the maximum of the lane and one of its positions. -/
theorem C13_top1_sound {rc : RangeCtx} (hT : IsRangeTable T rc) (hc : 0 < rc.chunk)
    (n : Nat) (hd : rc.chunk ∣ n + 1) (hp : 2 ^ (n + 2) ≤ p) (scale : ZMod p) (lane : List Int)
    (hb : ∀ x ∈ lane, -2 ^ n ≤ x ∧ x < 2 ^ n) (hl : lane.length ≤ 2 ^ 32) (hlp : lane.length ≤ p) :
    Sound T (topkLane rc n 1 scale (castL p lane)) (fun r => ∃ vals idx,
      r = (castL p vals, castN p idx) ∧ IsTopK lane 1 vals idx) := by
  refine (C13_topk_sound_partial hT hc n 1 hd hp scale lane hb hl hlp).conseq ?_
  rintro r ⟨vals, idx, hr, hlen, hpk, hdom⟩
  refine ⟨vals, idx, hr, hlen, hpk, ?_, ?_, ?_⟩
  · cases hpk with
    | nil => simp
    | cons _ h => cases h with
      | nil => simp
      | cons _ _ => simp at hlen
  · cases hpk with
    | nil => simp
    | cons _ h => cases h with
      | nil => simp
      | cons _ _ => simp at hlen
  · intro i x hx _ v hv
    cases hpk with
    | nil => simp at hv
    | cons _ h => cases h with
      | cons _ _ => simp at hlen
      | nil =>
        simp only [List.mem_singleton] at hv
        subst hv
        rcases hdom x (List.mem_of_getElem? hx) with h | h
        · simp only [List.mem_singleton] at h; omega
        · exact h v rfl

/-- Completeness of everything after the hint, for any accepted pair of lists. -/
theorem complete_topkCheck {rc : RangeCtx} (hT : IsRangeTable T rc) (n k : Nat) (hn : 1 ≤ n)
    (hk : k ≠ 0) (hu : RangeUsable p rc (n + 1)) (lane : List Int)
    (hui : RangeUsable p rc (topkIdxBits lane.length))
    (hb : ∀ x ∈ lane, -2 ^ (n - 1) ≤ x ∧ x < 2 ^ (n - 1)) (hl : lane.length ≤ 2 ^ 32)
    (hlp : lane.length ≤ p) (vals : List Int) (idx : List Nat) (ha : Accepted lane k vals idx) :
    Complete T (topkCheck rc n k (castL p lane) (castL p vals) (castN p idx)) (fun _ => True) := by
  have h2 : (2 : Int) ^ n = 2 ^ (n - 1) * 2 := by rw [← pow_succ]; congr 1; omega
  have h2n : (0 : Int) < 2 ^ (n - 1) := by positivity
  have hmem := forall₂_mem ha.picks
  obtain ⟨l, hgl, hlast, hlm⟩ := getLast_getD (p := p) vals k ha.len hk
  unfold topkCheck
  have hrep : List.replicate k (1 : ZMod p) = (castL p vals).map fun _ => 1 := by
    rw [List.map_const']; simp [castL, ha.len]
  rw [hrep, hlast]
  refine (complete_topkElems hT hu _ _ _ _ ?_).bind ?_
  · intro e he
    obtain ⟨x, hx, rfl⟩ := List.mem_map.mp he
    rcases ha.dominated x hx with h | h
    · exact .inl (List.mem_map.mpr ⟨x, h, rfl⟩)
    · right
      have := h l hgl
      have bl := hb l (hmem l hlm)
      have bx := hb x hx
      refine ⟨l - x, by linarith, ?_, by push_cast; ring⟩
      rw [pow_succ]; linarith
  · rintro prods rfl
    refine (det_assertZeros _ ?_).complete.bind fun _ _ => ?_
    · intro z hz
      obtain ⟨v, hv, rfl⟩ := List.mem_map.mp hz
      obtain ⟨y, hy, rfl⟩ := List.mem_map.mp hv
      rw [foldl_prod_zero']
      exact .inr (List.mem_map.mpr ⟨y, hmem y hy, rfl⟩)
    · refine (complete_topkOrder hT hu vals ?_).bind fun _ _ => ?_
      · intro x hx y hy
        have bx := hb x (hmem x hx)
        have bY := hb y (hmem y hy)
        constructor <;> linarith
      · have hlen : (castL p lane).length = lane.length := by simp [castL]
        rw [hlen]
        have hpk := ha.picks
        have := complete_topkIndices (T := T) hT (castL p lane) (by rw [hlen]; exact hui) (by omega)
          (by omega) ((castL p vals).zip (castN p idx)) ?_
        · rwa [hlen] at this
        · clear hlast hgl hrep ha hmem hlm
          induction hpk with
          | nil => simp [castL, castN]
          | cons h1 _ ih =>
            intro q hq
            simp only [castL, castN, List.map_cons, List.zip_cons_cons, List.mem_cons] at hq
            rcases hq with rfl | hq
            · exact ⟨_, rfl, by simp [castL, h1]⟩
            · exact ih q hq

theorem replay_topkElems (rc : RangeCtx) (values : List (ZMod p)) (m : ZMod p) (n : Nat)
    (es prods : List (ZMod p)) : Replay (topkElems rc values m n es prods) := by
  induction es generalizing prods with
  | nil => exact Replay.pure
  | cons e es ih =>
    exact (Replay.isZero _).bind fun _ => (Replay.rangeCheck _ _ _).bind fun _ => ih _

theorem replay_assertZeros (zs : List (ZMod p)) : Replay (assertZeros zs) := by
  induction zs with
  | nil => exact Replay.pure
  | cons z zs ih => exact Replay.assertZero.bind fun _ => ih

theorem replay_topkOrder (rc : RangeCtx) (o : ZMod p) (n : Nat) (vs : List (ZMod p)) :
    Replay (topkOrder rc o n vs) := by
  induction vs with
  | nil => exact Replay.pure
  | cons a t ih =>
    cases t with
    | nil => exact Replay.pure
    | cons b t => exact (Replay.rangeCheck _ _ _).bind fun _ => ih

theorem replay_topkMatch (idx : ZMod p) (a : Nat) (es : List (ZMod p)) (s m : ZMod p) :
    Replay (topkMatch idx a es s m) := by
  induction es generalizing a s m with
  | nil => exact Replay.pure
  | cons e es ih => exact (Replay.isZero _).bind fun _ => ih _ _ _

theorem replay_topkIndices (rc : RangeCtx) (lane : List (ZMod p)) (b : Nat)
    (l : List (ZMod p × ZMod p)) : Replay (topkIndices rc lane b l) := by
  induction l with
  | nil => exact Replay.pure
  | cons q l ih =>
    exact (Replay.rangeCheck _ _ _).bind fun _ => (Replay.rangeCheck _ _ _).bind fun _ =>
      (replay_topkMatch _ _ _ _ _).bind fun _ => Replay.assertEq.bind fun _ =>
      Replay.assertEq.bind fun _ => ih

theorem replay_topkCheck (rc : RangeCtx) (n k : Nat) (lane vs is : List (ZMod p)) :
    Replay (topkCheck rc n k lane vs is) :=
  (replay_topkElems _ _ _ _ _ _).bind fun _ => (replay_assertZeros _).bind fun _ =>
    (replay_topkOrder _ _ _ _).bind fun _ => replay_topkIndices _ _ _ _

/-- **C13, the accepted outputs are exactly the weak ones.** For every lane of `n_bits`-bit signed
integers, every pair of lists satisfying `Accepted` is accepted from a suitable prover. With
`C13_topk_sound_partial` this characterises the circuit. -/
theorem C13_topk_accepts_weak {rc : RangeCtx} (hT : IsRangeTable T rc) (n k : Nat) (hn : 1 ≤ n)
    (hn64 : n < 64) (hk : k ≠ 0) (hu : RangeUsable p rc (n + 1)) (scale : ZMod p) (lane : List Int)
    (hui : RangeUsable p rc (topkIdxBits lane.length))
    (hb : ∀ x ∈ lane, -2 ^ (n - 1) ≤ x ∧ x < 2 ^ (n - 1)) (hl : lane.length ≤ 2 ^ 32)
    (hlp : lane.length ≤ p) (vals : List Int) (idx : List Nat) (ha : Accepted lane k vals idx) :
    Forge T (topkLane rc n k scale (castL p lane)) (fun r => r = (castL p vals, castN p idx)) := by
  unfold topkLane
  rw [if_neg (by omega), if_neg hk]
  have hvk : (castL p vals).length = k := by simp [castL, ha.len]
  have hik : (castN p idx).length = k := by
    have := ha.picks.length_eq
    simp [castN, ← this, ha.len]
  refine (Forge.newHint _ _ (castL p vals ++ castN p idx) (by simp [hvk, hik]; omega)).bind
    (fun _ h => h) ?_
  have ht : (castL p vals ++ castN p idx).take k = castL p vals := by
    rw [← hvk, List.take_left]
  have hd : (castL p vals ++ castN p idx).drop k = castN p idx := by
    rw [← hvk, List.drop_left]
  simp only [ht, hd]
  exact Forge.seq ((complete_topkCheck hT n k hn hk hu lane hui hb hl hlp vals idx ha).forge
    (replay_topkCheck _ _ _ _ _ _)) (Forge.pure rfl)

/-- **C13 is violated for every `k ≥ 2`.** On every lane with a maximum `m` at position `i`, a prover
can return `k` copies of `m` and of `i`. This is not a top-`k` selection. -/
theorem C13_topk_unsound {rc : RangeCtx} (hT : IsRangeTable T rc) (n k : Nat) (hn : 1 ≤ n)
    (hn64 : n < 64) (hk : 2 ≤ k) (hu : RangeUsable p rc (n + 1)) (scale : ZMod p) (lane : List Int)
    (hui : RangeUsable p rc (topkIdxBits lane.length))
    (hb : ∀ x ∈ lane, -2 ^ (n - 1) ≤ x ∧ x < 2 ^ (n - 1)) (hl : lane.length ≤ 2 ^ 32)
    (hlp : lane.length ≤ p) (i : Nat) (m : Int) (hi : lane[i]? = some m) (hm : ∀ x ∈ lane, x ≤ m) :
    Forge T (topkLane rc n k scale (castL p lane))
      (fun r => r = (castL p (List.replicate k m), castN p (List.replicate k i))) ∧
    ¬ IsTopK lane k (List.replicate k m) (List.replicate k i) := by
  have hpk : ∀ k, List.Forall₂ (fun v i => lane[i]? = some v) (List.replicate k m)
      (List.replicate k i) := by
    intro k
    induction k with
    | zero => exact .nil
    | succ k ih => exact .cons hi ih
  refine ⟨C13_topk_accepts_weak hT n k hn hn64 (by omega) hu scale lane hui hb hl hlp _ _
    ⟨by simp, hpk k, fun x hx => .inr fun l hl => ?_⟩, fun h => ?_⟩
  · have := List.mem_of_getLast? hl
    rw [List.eq_of_mem_replicate this]
    exact hm x hx
  · have := List.nodup_replicate.mp h.distinct
    omega

/-! ### Completeness -/

theorem topkLe_trans : ∀ a b c : Int × Nat, topkLe a b → topkLe b c → topkLe a c := by
  intro a b c h1 h2
  simp only [topkLe, Bool.or_eq_true, decide_eq_true_eq, Bool.and_eq_true, beq_iff_eq] at *
  omega

theorem topkLe_total : ∀ a b : Int × Nat, topkLe a b || topkLe b a := by
  intro a b
  simp only [topkLe, Bool.or_eq_true, decide_eq_true_eq, Bool.and_eq_true, beq_iff_eq]
  omega

/-- The hint's selection is a top-`k` selection. -/
theorem sorted_isTopK (lane : List Int) (k : Nat) (hk : k ≤ lane.length) :
    IsTopK lane k (((lane.zipIdx.mergeSort topkLe).take k).map Prod.fst)
      (((lane.zipIdx.mergeSort topkLe).take k).map Prod.snd) := by
  set S := lane.zipIdx.mergeSort topkLe with hS
  have hperm : S.Perm lane.zipIdx := List.mergeSort_perm _ _
  have hsort : S.Pairwise fun a b => topkLe a b = true :=
    List.pairwise_mergeSort topkLe_trans topkLe_total _
  have hlen : S.length = lane.length := by rw [hperm.length_eq]; simp
  have hmem : ∀ q ∈ S, lane[q.2]? = some q.1 := by
    intro q hq
    have := hperm.mem_iff.mp hq
    obtain ⟨v, i⟩ := q
    simpa [List.mem_zipIdx_iff_getElem?] using this
  have hnd : (S.map Prod.snd).Nodup := by
    rw [(hperm.map Prod.snd).nodup_iff, List.zipIdx_map_snd]
    exact List.nodup_range'
  refine ⟨by simp [hlen, hk], ?_, ?_, ?_, ?_⟩
  · rw [List.forall₂_map_left_iff, List.forall₂_map_right_iff, List.forall₂_same]
    exact fun q hq => hmem q (List.mem_of_mem_take hq)
  · rw [List.map_take]
    exact hnd.sublist (List.take_sublist _ _)
  · rw [List.pairwise_map]
    refine ((hsort.sublist (List.take_sublist _ _))).imp ?_
    intro a b h
    simp only [topkLe, Bool.or_eq_true, decide_eq_true_eq, Bool.and_eq_true, beq_iff_eq] at h
    omega
  · intro i x hx hi v hv
    obtain ⟨q, hq, rfl⟩ := List.mem_map.mp hv
    have hin : (x, i) ∈ S := hperm.mem_iff.mpr (by simpa [List.mem_zipIdx_iff_getElem?] using hx)
    rw [← List.take_append_drop k S] at hin hsort
    rcases List.mem_append.mp hin with h | h
    · exact absurd (List.mem_map.mpr ⟨_, h, rfl⟩) hi
    · have := (List.pairwise_append.mp hsort).2.2 q hq (x, i) h
      simp only [topkLe, Bool.or_eq_true, decide_eq_true_eq, Bool.and_eq_true, beq_iff_eq] at this
      omega

theorem IsTopK.accepted {lane : List Int} {k : Nat} {vals : List Int} {idx : List Nat}
    (h : IsTopK lane k vals idx) : Accepted lane k vals idx := by
  refine ⟨h.len, h.picks, fun x hx => ?_⟩
  obtain ⟨i, hi⟩ := List.getElem?_of_mem hx
  by_cases hin : i ∈ idx
  · left
    have := h.picks
    clear h
    induction this with
    | nil => simp at hin
    | cons h1 _ ih =>
      rcases List.mem_cons.mp hin with rfl | hin
      · rw [hi] at h1; cases h1; simp
      · exact List.mem_cons_of_mem _ (ih hin)
  · exact .inr fun l hl => h.top i x hi hin l (List.mem_of_getLast? hl)

/-- **C13, completeness.** With honest hints, every lane of `n_bits`-bit signed integers (of length at
least `k`) is accepted and the outputs are a top-`k` selection in descending order. -/
theorem C13_topk_complete {rc : RangeCtx} (hT : IsRangeTable T rc) (n k : Nat) (hn : 1 ≤ n)
    (hn64 : n < 64) (hk : k ≠ 0) (hu : RangeUsable p rc (n + 1)) (scale : ZMod p) (lane : List Int)
    (hkl : k ≤ lane.length) (hui : RangeUsable p rc (topkIdxBits lane.length))
    (hb : ∀ x ∈ lane, -2 ^ (n - 1) ≤ x ∧ x < 2 ^ (n - 1)) (hl : lane.length ≤ 2 ^ 32)
    (hlp : lane.length ≤ p) :
    Complete T (topkLane rc n k scale (castL p lane)) (fun r => ∃ vals idx,
      r = (castL p vals, castN p idx) ∧ IsTopK lane k vals idx) := by
  have h2 : (2 : Nat) ^ (n + 1) = 2 ^ (n - 1) * 4 := by
    rw [show n + 1 = n - 1 + 2 by omega, pow_add]; rfl
  have hpl : 2 ^ (n - 1) * 4 ≤ p := by rw [← h2]; exact hu.pow_le
  have hn63 : (2 : Nat) ^ (n - 1) < 2 ^ 63 := Nat.pow_lt_pow_right (by norm_num) (by omega)
  have habs : ∀ x ∈ lane, x.natAbs ≤ 2 ^ (n - 1) := by
    intro x hx
    have := hb x hx
    zify
    rw [abs_le]
    exact ⟨by linarith, by linarith⟩
  have htop := sorted_isTopK lane k hkl
  set S := lane.zipIdx.mergeSort topkLe with hS
  set vals := (S.take k).map Prod.fst with hvals
  set idx := (S.take k).map Prod.snd with hidx
  have hdec : (castL p lane).map fieldToI64 = lane := by
    rw [castL, List.map_map]
    conv_rhs => rw [← List.map_id lane]
    apply List.map_congr_left
    intro x hx
    have := habs x hx
    exact fieldToI64_cast x (by omega) (by have : 0 < 2 ^ (n-1) := by positivity
                                           omega)
  unfold topkLane
  rw [if_neg (by omega), if_neg hk]
  have hvk : (castL p vals).length = k := by simp [castL, htop.len]
  have hik : (castN p idx).length = k := by
    have := htop.picks.length_eq
    simp [castN, ← this, htop.len]
  have hf : topkHint (2 * k) (castL p lane ++ [scale]) = .ok (castL p vals ++ castN p idx) := by
    unfold topkHint
    rw [if_neg (by omega)]
    simp only [List.length_append, List.length_singleton]
    rw [if_neg (by simp [castL]; omega), List.dropLast_concat, topkIndexed, hdec,
      show 2 * k / 2 = k by omega, ← hS]
    congr 2
    · rw [castL, hvals, List.map_map]
      apply List.map_congr_left
      intro q hq
      have : q.1 ∈ lane := by
        have := forall₂_mem htop.picks q.1 (List.mem_map.mpr ⟨q, hq, rfl⟩)
        exact this
      rw [i64ToField_eq _ _ (by have := habs _ this; omega)]
      rfl
    · rw [castN, hidx, List.map_map]; rfl
  refine (Complete.newHint hf (by simp [hvk, hik]; omega)).bind ?_
  rintro out rfl
  have ht : (castL p vals ++ castN p idx).take k = castL p vals := by
    rw [← hvk, List.take_left]
  have hd : (castL p vals ++ castN p idx).drop k = castN p idx := by
    rw [← hvk, List.drop_left]
  simp only [ht, hd]
  exact (complete_topkCheck hT n k hn hk hu lane hui hb hl hlp vals idx htop.accepted).bind
    fun _ _ => Complete.pure ⟨vals, idx, rfl, htop⟩

/-! ### Non-vacuity -/

/-- A top-2 selection, and an accepted pair that is none: `[5, 5]` from the lane `[5, 3, 1]`. -/
example : IsTopK [3, 5, 1] 2 [5, 3] [1, 0] ∧ Accepted [5, 3, 1] 2 [5, 5] [0, 0] ∧
    Accepted [5, 3, 1] 2 [3, 5] [1, 0] := by
  refine ⟨⟨rfl, ?_, by decide, by decide, ?_⟩, ⟨rfl, ?_, by simp⟩, ⟨rfl, ?_, by simp⟩⟩
  · exact .cons rfl (.cons rfl .nil)
  · intro i x hx hi
    match i with
    | 0 => simp at hi
    | 1 => simp at hi
    | 2 => simp at hx; subst hx; simp
    | i + 3 => simp at hx
  · exact .cons rfl (.cons rfl .nil)
  · exact .cons rfl (.cons rfl .nil)

end

end JST.Props
