import Verif.Gadgets.Mean
import Verif.Spec.Numeric
import Mathlib.Data.Nat.Log

/-!
# What the constraints of a mean enforce
-/

namespace JST

open JST.Spec

variable {p : Nat} [Fact p.Prime] {T : Tables (ZMod p)}

theorem roundedMean_eq (s : Int) {n : Nat} : roundedMean s n = (s + (n / 2 : Nat)) / n := by
  unfold roundedMean
  rw [mul_comm (2 : Int) (n : Int), mul_comm (n : Int) 2, ← Int.ediv_ediv_of_nonneg (by norm_num)]
  congr 1
  omega

theorem le_ceilLog2 (n : Nat) : n ≤ 2 ^ ceilLog2 n := by
  unfold ceilLog2
  split_ifs with h
  · omega
  · have := Nat.lt_log2_self (n := n - 1); omega

theorem ceilLog2_eq_clog {n : Nat} (h : 2 ≤ n) : ceilLog2 n = Nat.clog 2 n := by
  unfold ceilLog2
  rw [if_neg (by omega)]
  symm
  have h1 := Nat.lt_log2_self (n := n - 1)
  have h2 := Nat.log2_self_le (n := n - 1) (by omega)
  apply le_antisymm
  · exact Nat.clog_le_of_le_pow (by omega)
  · rw [Nat.succ_le_iff]
    exact (Nat.lt_clog_iff_pow_lt (by norm_num)).2 (by omega)

theorem ceilLog2_pos (n : Nat) : 0 < ceilLog2 n := by
  unfold ceilLog2; split_ifs <;> omega

theorem slack_zero {chunk n : Nat} (h : chunk ∣ n) : slackBits chunk n = 0 := by
  unfold slackBits
  obtain ⟨d, rfl⟩ := h
  simp

/-- The two residual checks pin the residual to `[0, n)`. -/
theorem residual_bounds {chunk n k : Nat} (hn : 0 < n) (hnk : n ≤ 2 ^ k) (hk : chunk ∣ k ∨ n = 2 ^ k)
    (hp : 2 ^ (k + slackBits chunk k + 2) ≤ p) {s : ZMod p} {a b : Int}
    (ha : AcceptedInt chunk k a) (hb : AcceptedInt chunk k b) (es : s = (a : ZMod p))
    (et : ((n - 1 : Nat) : ZMod p) - s = (b : ZMod p)) : 0 ≤ a ∧ a < n := by
  have hp' : (2 : Int) ^ (k + slackBits chunk k) * 4 ≤ p := by
    have : (2 : Int) ^ (k + slackBits chunk k + 2) ≤ p := by exact_mod_cast hp
    rw [pow_add] at this; linarith
  have hle : (2 : Int) ^ k ≤ 2 ^ (k + slackBits chunk k) := pow_le_pow_right₀ (by norm_num) (by omega)
  have hnk' : (n : Int) ≤ 2 ^ k := by exact_mod_cast hnk
  have h1 : (1 : Int) ≤ 2 ^ k := by exact_mod_cast Nat.one_le_two_pow
  obtain ⟨ha1, ha2⟩ := ha
  obtain ⟨hb1, hb2⟩ := hb
  have e : ((n - 1 : Nat) : Int) - a = b := by
    refine int_eq_of_cast_eq (p := p) ?_ ?_
    · rw [es] at et; push_cast at et ⊢; exact et
    · rw [abs_lt]; constructor <;> omega
  rcases hk with hk | hk
  · rw [slack_zero hk, Nat.add_zero] at ha1 hb1
    omega
  · have hk' : (n : Int) = 2 ^ k := by exact_mod_cast hk
    omega

theorem sound_rangeCheckInt {rc : RangeCtx} (hT : IsRangeTable T rc) (hc : 0 < rc.chunk)
    (a : ZMod p) (n : Nat) :
    Sound T (rangeCheck rc a n) (fun _ => ∃ k : Int, AcceptedInt rc.chunk n k ∧ a = (k : ZMod p)) :=
  (sound_rangeCheck_exact hT hc a n).conseq fun _ ⟨k, h1, h2, h3⟩ => ⟨k, ⟨h1, h2⟩, h3⟩

theorem sound_rangeCheckAll {rc : RangeCtx} (hT : IsRangeTable T rc) (hc : 0 < rc.chunk) (n : Nat) :
    ∀ vs : List (ZMod p), Sound T (rangeCheckAll rc n vs)
      (fun _ => ∀ v ∈ vs, ∃ k : Int, AcceptedInt rc.chunk n k ∧ v = (k : ZMod p))
  | [] => Sound.pure (by simp)
  | v :: vs => by
    unfold rangeCheckAll
    refine (sound_rangeCheckInt hT hc v n).bind fun _ h => (sound_rangeCheckAll hT hc n vs).conseq fun _ h' => ?_
    intro w hw
    rcases List.mem_cons.1 hw with rfl | hw
    · exact h
    · exact h' w hw

theorem complete_rangeCheckAll {rc : RangeCtx} (hT : IsRangeTable T rc) {n : Nat} (hu : RangeUsable p rc n) :
    ∀ xs : List Int, (∀ x ∈ xs, 0 ≤ x ∧ x < 2 ^ n) →
      Complete T (rangeCheckAll rc n (xs.map fun x : Int => (x : ZMod p))) (fun _ => True)
  | [], _ => Complete.pure trivial
  | x :: xs, h => by
    simp only [List.map_cons, rangeCheckAll]
    exact (hu.completeInt hT (h x (by simp)).1 (h x (by simp)).2 rfl).bind fun _ _ =>
      complete_rangeCheckAll hT hu xs fun y hy => h y (List.mem_cons_of_mem _ hy)

theorem forge_rangeCheckAll {rc : RangeCtx} (hT : IsRangeTable T rc) {n : Nat} (hu : RangeCallable rc n) :
    ∀ xs : List Int, (∀ x ∈ xs, AcceptedInt rc.chunk n x) →
      Forge T (rangeCheckAll rc n (xs.map fun x : Int => (x : ZMod p))) (fun _ => True)
  | [], _ => Forge.pure trivial
  | x :: xs, h => by
    simp only [List.map_cons, rangeCheckAll]
    exact (hu.forge hT (h x (by simp)) rfl).bind (a := ()) (fun _ _ => rfl)
      (forge_rangeCheckAll hT hu xs fun y hy => h y (List.mem_cons_of_mem _ hy))

theorem foldl_add_cast (xs : List Int) : ∀ a : Int,
    (xs.map fun x : Int => (x : ZMod p)).foldl (fun acc x => acc + x) (a : ZMod p) = ((a + xs.sum : Int) : ZMod p) := by
  induction xs with
  | nil => intro a; simp
  | cons x xs ih =>
    intro a
    simp only [List.map_cons, List.foldl_cons, List.sum_cons]
    rw [← Int.cast_add, ih]
    congr 1; ring

/-- The division `sum = n * y + r - half` with small `y` and `r ∈ [0, n)` determines `y`. -/
theorem mean_forced {n : Nat} (hn : 0 < n) {X Y S B : Int} (hS : 0 ≤ S) (hSn : S < n)
    (hY : |Y| ≤ B) (hp : |X| + n * B + n ≤ p)
    (e : (S : ZMod p) = (X : ZMod p) - (n : ZMod p) * (Y : ZMod p) + ((n / 2 : Nat) : ZMod p)) :
    Y = (X + (n / 2 : Nat)) / n := by
  have hn' : (0 : Int) < n := by exact_mod_cast hn
  have hnY : |(n : Int) * Y| ≤ n * B := by
    rw [abs_mul, abs_of_pos hn']; exact mul_le_mul_of_nonneg_left hY hn'.le
  have h1 := abs_le.1 hnY
  have h2 := abs_le.1 (le_refl |X|)
  have e' : S = X - n * Y + (n / 2 : Nat) := by
    refine int_eq_of_cast_eq (p := p) (by simp only [Int.cast_add, Int.cast_sub, Int.cast_mul, Int.cast_natCast, Int.cast_one]; exact e) ?_
    rw [abs_lt]; constructor <;> omega
  symm
  rw [Int.ediv_eq_iff_of_pos hn']
  constructor <;> nlinarith

/-- **AveragePool window, soundness.** -/
theorem sound_windowMean {rc : RangeCtx} (hT : IsRangeTable T rc) (hc : 0 < rc.chunk)
    {hint : List (ZMod p) → Except Err (List (ZMod p))} {nb : Nat} {xs : List Int} (hne : xs ≠ [])
    (hk : xs.length = 1 ∨ rc.chunk ∣ ceilLog2 xs.length ∨ xs.length = 2 ^ ceilLog2 xs.length)
    (hpk : 2 ≤ xs.length → 2 ^ (ceilLog2 xs.length + slackBits rc.chunk (ceilLog2 xs.length) + 2) ≤ p)
    (hp : |xs.sum| + xs.length * 2 ^ (nb + slackBits rc.chunk nb) + xs.length ≤ p) :
    Sound T (windowMean hint rc nb (xs.map fun x : Int => (x : ZMod p)))
      (fun out => out = ((roundedMean xs.sum xs.length : Int) : ZMod p)) := by
  match xs, hne with
  | [x], _ =>
    simp only [List.map_cons, List.map_nil, windowMean]
    refine (sound_rangeCheckInt hT hc _ nb).bind fun _ _ => Sound.pure ?_
    simp [roundedMean_eq]
  | x :: x' :: rest, _ =>
    simp only [List.map_cons, windowMean]
    have hpk := hpk (by simp)
    have hk : rc.chunk ∣ ceilLog2 (x :: x' :: rest).length ∨
        (x :: x' :: rest).length = 2 ^ ceilLog2 (x :: x' :: rest).length := by
      rcases hk with h | h
      · simp at h
      · exact h
    have hlen : ((x : ZMod p) :: (x' : ZMod p) :: rest.map fun x : Int => (x : ZMod p)).length = (x :: x' :: rest).length := by
      simp
    rw [hlen]
    have hsum : ((x' : ZMod p) :: rest.map fun x : Int => (x : ZMod p)).foldl (fun acc x => acc + x) (x : ZMod p)
        = (((x :: x' :: rest).sum : Int) : ZMod p) := by
      have := foldl_add_cast (p := p) (x' :: rest) x
      simp only [List.map_cons] at this
      rw [this]; simp
    rw [hsum]
    generalize hN : (x :: x' :: rest).length = n at *
    generalize hX : (x :: x' :: rest).sum = X at *
    have hn : 0 < n := by rw [← hN]; simp
    refine (sound_rangeCheckAll hT hc nb _).bind fun _ _ => Sound.newHint.bind fun o _ => ?_
    generalize o.headD 0 = y
    refine (sound_rangeCheckInt hT hc _ _).bind fun _ hs => (sound_rangeCheckInt hT hc _ _).bind fun _ ht =>
      (sound_rangeCheckInt hT hc _ _).bind fun _ hy => Sound.pure ?_
    obtain ⟨S, hS, eS⟩ := hs
    obtain ⟨t, ht, et⟩ := ht
    obtain ⟨Y, hY, rfl⟩ := hy
    obtain ⟨h0, h1⟩ := residual_bounds hn (le_ceilLog2 n) hk hpk hS ht eS et
    rw [roundedMean_eq]
    congr 1
    have h2 : (0 : Int) < 2 ^ nb := by positivity
    have hle : (2 : Int) ^ nb ≤ 2 ^ (nb + slackBits rc.chunk nb) :=
      pow_le_pow_right₀ (by norm_num) (by omega)
    refine mean_forced hn h0 h1 (B := 2 ^ (nb + slackBits rc.chunk nb)) ?_ hp eS.symm
    obtain ⟨hy1, hy2⟩ := hY
    rw [abs_le]; constructor <;> linarith

/-- The hint of AveragePool returns the rounded mean of small non-negative inputs. -/
def MeanHint (hint : List (ZMod p) → Except Err (List (ZMod p))) (nb : Nat) : Prop :=
  ∀ xs : List Int, xs ≠ [] → (∀ x ∈ xs, 0 ≤ x ∧ x < 2 ^ nb) →
    hint (xs.map fun x : Int => (x : ZMod p)) = .ok [((roundedMean xs.sum xs.length : Int) : ZMod p)]

theorem sum_bounds {B : Int} : ∀ (xs : List Int), (∀ x ∈ xs, 0 ≤ x ∧ x < B) →
    0 ≤ xs.sum ∧ xs.sum ≤ xs.length * (B - 1)
  | [], _ => by simp
  | x :: xs, h => by
    have h1 := h x (by simp)
    have h2 := sum_bounds xs fun y hy => h y (List.mem_cons_of_mem _ hy)
    simp only [List.sum_cons, List.length_cons]
    push_cast
    constructor
    · linarith [h2.1]
    · nlinarith [h2.2]

theorem roundedMean_range {xs : List Int} (hne : xs ≠ []) {B : Int} (h : ∀ x ∈ xs, 0 ≤ x ∧ x < B) :
    0 ≤ roundedMean xs.sum xs.length ∧ roundedMean xs.sum xs.length < B := by
  have hn : (0 : Int) < xs.length := by exact_mod_cast List.length_pos_iff.2 hne
  obtain ⟨h1, h2⟩ := sum_bounds xs h
  rw [roundedMean_eq]
  constructor
  · exact Int.ediv_nonneg (by positivity) hn.le
  · rw [Int.ediv_lt_iff_lt_mul hn]
    have : ((xs.length / 2 : Nat) : Int) < xs.length := by omega
    nlinarith

/-- **AveragePool window, completeness.** -/
theorem complete_windowMean {rc : RangeCtx} (hT : IsRangeTable T rc)
    {hint : List (ZMod p) → Except Err (List (ZMod p))} {nb : Nat} (hh : MeanHint hint nb)
    {xs : List Int} (hne : xs ≠ []) (hx : ∀ x ∈ xs, 0 ≤ x ∧ x < 2 ^ nb)
    (hun : RangeUsable p rc nb) (huk : 2 ≤ xs.length → RangeUsable p rc (ceilLog2 xs.length)) :
    Complete T (windowMean hint rc nb (xs.map fun x : Int => (x : ZMod p)))
      (fun out => out = ((roundedMean xs.sum xs.length : Int) : ZMod p)) := by
  match xs, hne with
  | [x], _ =>
    simp only [List.map_cons, List.map_nil, windowMean]
    refine (hun.completeInt hT (hx x (by simp)).1 (hx x (by simp)).2 rfl).bind fun _ _ => Complete.pure ?_
    simp [roundedMean_eq]
  | x :: x' :: rest, hne =>
    have huk := huk (by simp)
    have hall := complete_rangeCheckAll (T := T) hT hun (x :: x' :: rest) hx
    have hhint := hh (x :: x' :: rest) hne hx
    have hm := roundedMean_range hne hx
    simp only [List.map_cons] at hall hhint
    simp only [List.map_cons, windowMean]
    have hlen : ((x : ZMod p) :: (x' : ZMod p) :: rest.map fun x : Int => (x : ZMod p)).length = (x :: x' :: rest).length := by
      simp
    rw [hlen]
    have hsum : ((x' : ZMod p) :: rest.map fun x : Int => (x : ZMod p)).foldl (fun acc x => acc + x) (x : ZMod p)
        = (((x :: x' :: rest).sum : Int) : ZMod p) := by
      have := foldl_add_cast (p := p) (x' :: rest) x
      simp only [List.map_cons] at this
      rw [this]; simp
    rw [hsum]
    have hn : 0 < (x :: x' :: rest).length := by simp
    generalize (x :: x' :: rest).length = n at *
    generalize (x :: x' :: rest).sum = X at *
    refine hall.bind fun _ _ => (Complete.newHint hhint rfl).bind ?_
    rintro _ rfl
    simp only [List.headD_cons]
    rw [roundedMean_eq] at hm ⊢
    have hn' : (0 : Int) < n := by exact_mod_cast hn
    have hd := Int.mul_ediv_add_emod (X + (n / 2 : Nat)) n
    have hr0 := Int.emod_nonneg (X + (n / 2 : Nat)) hn'.ne'
    have hr1 := Int.emod_lt_of_pos (X + (n / 2 : Nat)) hn'
    have hnk : (n : Int) ≤ 2 ^ ceilLog2 n := by exact_mod_cast le_ceilLog2 n
    have hs : (X : ZMod p) - (n : ZMod p) * (((X + (n / 2 : Nat)) / n : Int) : ZMod p) + ((n / 2 : Nat) : ZMod p)
        = (((X + (n / 2 : Nat)) % n : Int) : ZMod p) := by
      have : X - n * ((X + (n / 2 : Nat)) / n) + (n / 2 : Nat) = (X + (n / 2 : Nat)) % n := by omega
      rw [← this]; simp only [Int.cast_add, Int.cast_sub, Int.cast_mul, Int.cast_natCast, Int.cast_one]
    rw [hs]
    refine (huk.completeInt hT hr0 (by omega) rfl).bind fun _ _ => ?_
    refine (huk.completeInt hT (k := n - 1 - (X + (n / 2 : Nat)) % n) (by omega) (by omega) ?_).bind fun _ _ => ?_
    · rw [Nat.cast_sub hn]; push_cast; rfl
    exact (hun.completeInt hT hm.1 hm.2 rfl).bind fun _ _ => Complete.pure rfl

/-- **AveragePool window, forgery**: any value whose residual passes both checks can be proved. -/
theorem forge_windowMean {rc : RangeCtx} (hT : IsRangeTable T rc)
    {hint : List (ZMod p) → Except Err (List (ZMod p))} {nb : Nat} {xs : List Int} (h2 : 2 ≤ xs.length)
    (hx : ∀ x ∈ xs, AcceptedInt rc.chunk nb x)
    (hun : RangeCallable rc nb) (huk : RangeCallable rc (ceilLog2 xs.length)) {Y : Int}
    (hY : AcceptedInt rc.chunk nb Y)
    (hs : AcceptedInt rc.chunk (ceilLog2 xs.length) (xs.sum - xs.length * Y + (xs.length / 2 : Nat)))
    (ht : AcceptedInt rc.chunk (ceilLog2 xs.length)
      (xs.length - 1 - (xs.sum - xs.length * Y + (xs.length / 2 : Nat)))) :
    Forge T (windowMean hint rc nb (xs.map fun x : Int => (x : ZMod p))) (fun out => out = (Y : ZMod p)) := by
  match xs, h2 with
  | x :: x' :: rest, _ =>
    have hall := forge_rangeCheckAll (T := T) hT hun (x :: x' :: rest) hx
    simp only [List.map_cons] at hall
    simp only [List.map_cons, windowMean]
    have hlen : ((x : ZMod p) :: (x' : ZMod p) :: rest.map fun x : Int => (x : ZMod p)).length = (x :: x' :: rest).length := by
      simp
    rw [hlen]
    have hsum : ((x' : ZMod p) :: rest.map fun x : Int => (x : ZMod p)).foldl (fun acc x => acc + x) (x : ZMod p)
        = (((x :: x' :: rest).sum : Int) : ZMod p) := by
      have := foldl_add_cast (p := p) (x' :: rest) x
      simp only [List.map_cons] at this
      rw [this]; simp
    rw [hsum]
    have hn : 1 ≤ (x :: x' :: rest).length := by simp
    generalize (x :: x' :: rest).length = n at *
    generalize (x :: x' :: rest).sum = X at *
    refine hall.bind (a := ()) (fun _ _ => rfl) ((Forge.newHint hint _ [(Y : ZMod p)] rfl).bind (fun _ h => h) ?_)
    simp only [List.headD_cons]
    refine (huk.forge hT hs (by simp only [Int.cast_add, Int.cast_sub, Int.cast_mul, Int.cast_natCast, Int.cast_one])).bind (a := ()) (fun _ _ => rfl) ?_
    refine (huk.forge hT ht (by rw [Nat.cast_sub hn]; simp only [Int.cast_add, Int.cast_sub, Int.cast_mul, Int.cast_natCast, Int.cast_one, Nat.cast_one])).bind (a := ()) (fun _ _ => rfl) ?_
    exact (hun.forge hT hY rfl).bind (a := ()) (fun _ _ => rfl) (Forge.pure rfl)

/-- **AveragePool window, negative data**: no proof exists when the checks are exact. -/
theorem windowMean_negative {rc : RangeCtx} (hT : IsRangeTable T rc) (hc : 0 < rc.chunk)
    {hint : List (ZMod p) → Except Err (List (ZMod p))} {nb : Nat} (hd : rc.chunk ∣ nb) {xs : List Int}
    {x : Int} (hx : x ∈ xs) (h0 : x < 0) (hp : 2 ^ nb - x ≤ p) :
    Sound T (windowMean hint rc nb (xs.map fun x : Int => (x : ZMod p))) (fun _ => False) := by
  have key : ∀ k : Int, AcceptedInt rc.chunk nb k → (x : ZMod p) = (k : ZMod p) → False := by
    intro k hk e
    rw [acceptedInt_of_dvd hd] at hk
    have := int_eq_of_cast_eq (p := p) e (by rw [abs_lt]; constructor <;> omega)
    omega
  match xs with
  | [] => simp at hx
  | [y] =>
    obtain rfl : x = y := by simpa using hx
    simp only [List.map_cons, List.map_nil, windowMean]
    refine (sound_rangeCheckInt hT hc _ nb).bind fun _ h => ?_
    obtain ⟨k, hk, e⟩ := h
    exact (key k hk e).elim
  | y :: y' :: rest =>
    simp only [List.map_cons, windowMean]
    refine (sound_rangeCheckAll hT hc nb _).bind fun _ h => ?_
    obtain ⟨k, hk, e⟩ := h (x : ZMod p) (by
      have := List.mem_map_of_mem (f := fun x : Int => (x : ZMod p)) hx
      simpa using this)
    exact (key k hk e).elim

end JST
