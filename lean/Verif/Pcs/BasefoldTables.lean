import Verif.Pcs.BasefoldEnc
import Verif.Spec.Mle
import Verif.Gkr.MleProofs

/-! # Proofs: the tables and the sumcheck of BaseFold -/

namespace JST.Pcs

open JST.Spec JST.Gkr

variable {L : Type} [Field L]

/-! ### The table of weights -/

theorem chi_mod (us : List L) (i : Nat) : chi us (i % 2 ^ us.length) = chi us i := by
  induction us generalizing i with
  | nil => rfl
  | cons u us ih =>
    rw [chi, chi, List.length_cons]
    have h1 : (i % 2 ^ (us.length + 1)).testBit 0 = i.testBit 0 := by
      rw [Nat.testBit_zero, Nat.testBit_zero, Nat.mod_mod_of_dvd _ ⟨2 ^ us.length, by ring⟩]
    have h2 : i % 2 ^ (us.length + 1) / 2 = i / 2 % 2 ^ us.length := by
      rw [pow_succ', Nat.mod_mul_right_div_self]
    rw [h1, h2, ih]

theorem chi_snoc (us : List L) (u : L) (i : Nat) :
    chi (us ++ [u]) i = chi us i * (if i / 2 ^ us.length % 2 = 1 then u else 1 - u) := by
  induction us generalizing i with
  | nil => simp [chi]
  | cons v us ih =>
    rw [List.cons_append, chi, ih, chi, List.length_cons, Nat.div_div_eq_div_mul, pow_succ' 2 us.length]
    ring

/-- A loop going down that sets position `i` to a function of positions up to `i` sets all from the old list. -/
theorem down_loop (g : List L → Nat → L) (n : Nat) (a : List L) (ha : a.length = n)
    (hg : ∀ (b : List L) (i : Nat), b.length = n → i < n → (∀ j ≤ i, b.getD j 0 = a.getD j 0) → g b i = g a i) :
    ((List.range n).reverse.foldl (fun e i => e.set i (g e i)) a).length = n ∧
      ∀ i < n, ((List.range n).reverse.foldl (fun e i => e.set i (g e i)) a).getD i 0 = g a i := by
  have key : ∀ m ≤ n, ∀ b : List L, b.length = n → (∀ j < m, b.getD j 0 = a.getD j 0) →
      (∀ j, m ≤ j → j < n → b.getD j 0 = g a j) →
      ((List.range m).reverse.foldl (fun e i => e.set i (g e i)) b).length = n ∧
        ∀ i < n, ((List.range m).reverse.foldl (fun e i => e.set i (g e i)) b).getD i 0 = g a i := by
    intro m
    induction m with
    | zero => exact fun _ b hb _ h2 => ⟨hb, fun i hi => h2 i (by omega) hi⟩
    | succ m ih =>
      intro hm b hb h1 h2
      rw [List.range_succ, List.reverse_append, List.reverse_singleton, List.singleton_append, List.foldl_cons]
      refine ih (by omega) _ (by simpa using hb) (fun j hj => ?_) fun j hj1 hj2 => ?_
      · rw [List.getD_eq_getElem?_getD, List.getElem?_set_ne (by omega), ← List.getD_eq_getElem?_getD,
          h1 j (by omega)]
      · by_cases h : j = m
        · subst h
          rw [List.getD_eq_getElem?_getD, List.getElem?_set_self (by omega), Option.getD_some]
          exact hg b j hb hj2 fun i hi => h1 i (by omega)
        · rw [List.getD_eq_getElem?_getD, List.getElem?_set_ne (by omega), ← List.getD_eq_getElem?_getD,
            h2 j (by omega) hj2]
  exact key n le_rfl a ha (fun _ _ => rfl) fun j h1 h2 => by omega

theorem eqPass_spec (k : Nat) (u : L) (size : Nat) (eq : List L) (h : eq.length = size) :
    (eqPass k u size eq).length = size ∧ ∀ i < size, (eqPass k u size eq).getD i 0 =
      if i / 2 ^ k % 2 = 1 then eq.getD (i - 2 ^ k) 0 * u else eq.getD i 0 * (1 - u) := by
  have hf : (fun (eq : List L) (i : Nat) => if i / 2 ^ k % 2 = 1 then eq.set i (eq.getD (i - 2 ^ k) 0 * u)
      else eq.set i (eq.getD i 0 * (1 - u))) = fun e i => e.set i ((fun (e : List L) (i : Nat) =>
        if i / 2 ^ k % 2 = 1 then e.getD (i - 2 ^ k) 0 * u else e.getD i 0 * (1 - u)) e i) := by
    funext e i; dsimp only; split_ifs <;> rfl
  unfold eqPass
  rw [hf]
  refine down_loop _ size eq h fun b i _ _ hb => ?_
  rw [hb _ (Nat.sub_le _ _), hb i le_rfl]

theorem buildEqTable_spec (u : List L) : buildEqTable u = (List.range (2 ^ u.length)).map (chi u) := by
  have key : ∀ (us pre t : List L), pre ++ us = u → t.length = 2 ^ u.length →
      (∀ i < 2 ^ u.length, t.getD i 0 = chi pre i) →
      ((us.zipIdx pre.length).foldl (fun eq p => eqPass p.2 p.1 (2 ^ u.length) eq) t).length = 2 ^ u.length ∧
        ∀ i < 2 ^ u.length,
          ((us.zipIdx pre.length).foldl (fun eq p => eqPass p.2 p.1 (2 ^ u.length) eq) t).getD i 0 = chi u i := by
    intro us
    induction us with
    | nil =>
      intro pre t hp ht h
      rw [List.append_nil] at hp; subst hp
      exact ⟨ht, h⟩
    | cons v us ih =>
      intro pre t hp ht h
      obtain ⟨e1, e2⟩ := eqPass_spec pre.length v (2 ^ u.length) t ht
      rw [List.zipIdx_cons, List.foldl_cons]
      have hl : pre.length + 1 = (pre ++ [v]).length := by simp
      rw [hl]
      refine ih (pre ++ [v]) _ (by simpa using hp) e1 fun i hi => ?_
      rw [e2 i hi, chi_snoc]
      split_ifs with hb
      · have hge : 2 ^ pre.length ≤ i := by
          by_contra hc
          rw [Nat.div_eq_of_lt (by omega)] at hb
          omega
        rw [h (i - 2 ^ pre.length) (lt_of_le_of_lt (Nat.sub_le _ _) hi), ← chi_mod pre (i - _), ← Nat.mod_eq_sub_mod hge, chi_mod]
      · rw [h _ hi]
  obtain ⟨h1, h2⟩ := key u [] (List.replicate (2 ^ u.length) 1) rfl (by simp) fun i hi => by
    rw [List.getD_eq_getElem _ _ (by simpa using hi)]; simp [chi]
  exact list_eq_of_getD (0 : L) h1 (by simp) fun i hi =>
    (h2 i hi).trans (getD_map_range _ _ _ _ hi).symm

/-- Folding the table of weights fixes its first coordinate. -/
theorem foldTable_chi (c u : L) (us : List L) (r : L) :
    foldTable ((List.range (2 ^ (us.length + 1))).map fun i => c * chi (u :: us) i) r =
      (List.range (2 ^ us.length)).map fun i => c * ((1 - r) * (1 - u) + r * u) * chi us i := by
  unfold foldTable
  have h2 : 2 ^ (us.length + 1) = 2 * 2 ^ us.length := by ring
  rw [List.length_map, List.length_range, h2, Nat.mul_div_cancel_left _ (by norm_num)]
  refine List.map_congr_left fun i hi => ?_
  rw [List.mem_range] at hi
  rw [getD_map_range _ _ _ _ (by omega), getD_map_range _ _ _ _ (by omega), chi_even, chi_odd]
  ring

/-! ### The messages -/

theorem sumcheckMsg_spec (f eq : List L) :
    (sumcheckMsg f eq).at1 = ∑ i ∈ Finset.range (f.length / 2), f.getD (2 * i + 1) 0 * eq.getD (2 * i + 1) 0 ∧
    (sumcheckMsg f eq).at2 = ∑ i ∈ Finset.range (f.length / 2),
      (2 * f.getD (2 * i + 1) 0 - f.getD (2 * i) 0) * (2 * eq.getD (2 * i + 1) 0 - eq.getD (2 * i) 0) := by
  unfold sumcheckMsg
  generalize f.length / 2 = n
  induction n with
  | zero => simp
  | succ n ih =>
    rw [List.range_succ, List.foldl_append, List.foldl_cons, List.foldl_nil, Finset.sum_range_succ,
      Finset.sum_range_succ, ← ih.1, ← ih.2]
    refine ⟨rfl, ?_⟩
    dsimp only
    ring

/-- The claim about a pair of tables. -/
def dotTables (f eq : List L) : L := ∑ i ∈ Finset.range f.length, f.getD i 0 * eq.getD i 0

/-- One round of the sumcheck: the verifier's next claim is the claim about the folded tables. -/
theorem sumcheck_round (h2 : (2 : L) ≠ 0) (f eq : List L) (n : Nat) (hf : f.length = 2 * n) (he : eq.length = 2 * n)
    (r : L) :
    extrapolate2 (dotTables f eq - (sumcheckMsg f eq).at1) (sumcheckMsg f eq).at1 (sumcheckMsg f eq).at2 r =
      dotTables (foldTable f r) (foldTable eq r) := by
  obtain ⟨m1, m2⟩ := sumcheckMsg_spec f eq
  have hn : f.length / 2 = n := by omega
  rw [hn] at m1 m2
  have hn' : eq.length / 2 = n := by omega
  have hd : dotTables f eq - (sumcheckMsg f eq).at1 =
      ∑ i ∈ Finset.range n, f.getD (2 * i) 0 * eq.getD (2 * i) 0 := by
    rw [m1, dotTables, hf, sum_even_odd]; ring
  have hfold : dotTables (foldTable f r) (foldTable eq r) = ∑ i ∈ Finset.range n,
      (f.getD (2 * i) 0 * (1 - r) + f.getD (2 * i + 1) 0 * r) *
        (eq.getD (2 * i) 0 * (1 - r) + eq.getD (2 * i + 1) 0 * r) := by
    unfold dotTables
    rw [length_foldTable, hn]
    refine Finset.sum_congr rfl fun i hi => ?_
    rw [Finset.mem_range] at hi
    unfold foldTable
    rw [hn, hn', getD_map_range _ _ _ _ hi, getD_map_range _ _ _ _ hi]
  rw [hd, hfold, m1, m2]
  unfold extrapolate2
  dsimp only
  generalize (fun i => f.getD i 0) = F at *
  have e : ∀ i, (f.getD (2 * i) 0 * (1 - r) + f.getD (2 * i + 1) 0 * r) *
        (eq.getD (2 * i) 0 * (1 - r) + eq.getD (2 * i + 1) 0 * r) =
      f.getD (2 * i) 0 * eq.getD (2 * i) 0 * (1 - r) + f.getD (2 * i + 1) 0 * eq.getD (2 * i + 1) 0 * r -
        (f.getD (2 * i) 0 * eq.getD (2 * i) 0 + f.getD (2 * i + 1) 0 * eq.getD (2 * i + 1) 0 -
          f.getD (2 * i) 0 * eq.getD (2 * i + 1) 0 - f.getD (2 * i + 1) 0 * eq.getD (2 * i) 0) * (r * (1 - r)) := by
    intro i; ring
  have e2 : ∀ i, (2 * f.getD (2 * i + 1) 0 - f.getD (2 * i) 0) * (2 * eq.getD (2 * i + 1) 0 - eq.getD (2 * i) 0) =
      f.getD (2 * i) 0 * eq.getD (2 * i) 0 * (-1) + f.getD (2 * i + 1) 0 * eq.getD (2 * i + 1) 0 * 2 +
        (f.getD (2 * i) 0 * eq.getD (2 * i) 0 + f.getD (2 * i + 1) 0 * eq.getD (2 * i + 1) 0 -
          f.getD (2 * i) 0 * eq.getD (2 * i + 1) 0 - f.getD (2 * i + 1) 0 * eq.getD (2 * i) 0) * 2 := by
    intro i; ring
  simp only [e, e2]
  rw [Finset.sum_sub_distrib, Finset.sum_add_distrib, Finset.sum_add_distrib, Finset.sum_add_distrib,
    ← Finset.sum_mul, ← Finset.sum_mul, ← Finset.sum_mul, ← Finset.sum_mul, ← Finset.sum_mul, ← Finset.sum_mul]
  field_simp
  ring

theorem dot_chi (f u : List L) (hf : f.length = 2 ^ u.length) :
    dotTables f ((List.range (2 ^ u.length)).map (chi u)) = mle (fun i => f.getD i 0) u := by
  unfold dotTables mle
  rw [hf]
  refine Finset.sum_congr rfl fun i hi => ?_
  rw [getD_map_range _ _ _ _ (Finset.mem_range.mp hi), smul_eq_mul, mul_comm]

theorem mle_foldTable (f : List L) (r : L) (rs : List L) (hf : f.length = 2 ^ (rs.length + 1)) :
    mle (fun i => (foldTable f r).getD i 0) rs = mle (fun i => f.getD i 0) (r :: rs) := by
  rw [mle_cons]
  refine mle_congr _ _ _ fun i hi => ?_
  have h2 : f.length / 2 = 2 ^ rs.length := by rw [hf, pow_succ, Nat.mul_div_cancel _ (by norm_num)]
  unfold foldTable
  rw [h2, getD_map_range _ _ _ _ hi, smul_eq_mul]; ring

theorem eqEval_cons (r u : L) (rs us : List L) :
    eqEval (r :: rs) (u :: us) = ((1 - r) * (1 - u) + r * u) * eqEval rs us := by
  unfold eqEval
  rw [List.zip_cons_cons, List.foldl_cons]
  have key : ∀ (l : List (L × L)) (c : L),
      l.foldl (fun acc p => acc * ((1 - p.1) * (1 - p.2) + p.1 * p.2)) c =
        c * l.foldl (fun acc p => acc * ((1 - p.1) * (1 - p.2) + p.1 * p.2)) 1 := by
    intro l
    induction l with
    | nil => simp
    | cons p l ih => intro c; rw [List.foldl_cons, List.foldl_cons, ih, ih (1 * _)]; ring
  rw [key]; ring

end JST.Pcs
