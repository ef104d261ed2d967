import Verif.LogUp.Proofs
import Mathlib.Data.Fintype.Pi
import Mathlib.Data.Fintype.Card
import Mathlib.Data.List.OfFn
import Mathlib.Data.Fintype.BigOperators

/-! # Helper lemmas for the LogUp final checks -/

namespace JST

open Polynomial

section
variable {K : Type} [Field K]

/-- Coefficients of the queries at a point. -/
theorem filter_queries_sum [DecidableEq K] (qs : List K) (v : K) :
    ((((qs.zip (List.replicate qs.length (1 : K))).map fun u => (u.1, -u.2)).filter
      fun u => decide (u.1 = v)).map Prod.snd).sum = -((qs.count v : Nat) : K) := by
  induction qs with
  | nil => simp
  | cons q qs ih =>
    simp only [List.length_cons, List.replicate_succ, List.zip_cons_cons, List.map_cons,
      List.filter_cons, List.count_cons]
    by_cases h : q = v
    · subst h; simp [ih]
    · simp [h, ih]

theorem filter_zip_none [DecidableEq K] (ts cs : List K) (v : K) (h : v ∉ ts) :
    ((ts.zip cs).filter fun u => decide (u.1 = v)) = [] := by
  rw [List.filter_eq_nil_iff]
  intro u hu
  have := (List.of_mem_zip hu).1
  simp only [decide_eq_true_eq]
  rintro rfl
  exact h this

/-- What a passing final check says about the counts, which do not depend on the challenge. -/
theorem rangeFinal_eq {T : Tables K} (toNat : K → Nat) (table queries : List K) (h : Hints K)
    (hne : queries ≠ []) :
    ∃ counts : List K, counts.length = table.length ∧
      ∀ α o, rangeFinalCheck toNat table queries α h = .ok o → Sat T o.cons →
        listNum α (table.zip counts ++
          (queries.zip (List.replicate queries.length (1 : K))).map fun u => (u.1, -u.2)) = 0 := by
  have hsound := Sound.newHint (T := T) (f := queryCountHint toNat table.length) (inputs := queries)
    (n := table.length)
  cases hh : newHint (queryCountHint toNat table.length) queries table.length h with
  | error e =>
    refine ⟨List.replicate table.length 0, by simp, fun α o ho _ => ?_⟩
    unfold rangeFinalCheck at ho
    rw [if_neg (by simpa using hne)] at ho
    obtain ⟨o1, o2, h1, -, -⟩ := bind_eq_ok ho
    rw [hh] at h1; cases h1
  | ok oc =>
    have hlen : ∀ hs : Hints K, newHint (queryCountHint toNat table.length) queries table.length hs
        = .ok oc → oc.val.length = table.length := by
      intro hs e
      have := Sound.newHint (T := fun _ _ => True) (f := queryCountHint toNat table.length)
        (inputs := queries) (n := table.length) hs oc e
      unfold newHint at e
      split at e
      · split at e
        · split at e
          · cases e; assumption
          · cases e
        · cases e
      · split at e
        · cases e
        · cases e; simp; omega
    refine ⟨oc.val, hlen h hh, fun α o ho hs => ?_⟩
    unfold rangeFinalCheck at ho
    rw [if_neg (by simpa using hne)] at ho
    obtain ⟨o1, o2, h1, h2, rfl⟩ := bind_eq_ok ho
    rw [hh] at h1; cases h1
    have hs2 := (Sat.app.mp hs).2
    have := Sound.assertEq (T := T) _ _ h2 hs2
    rw [logupPolyVal_eq, logupPolyVal_eq] at this
    exact (eq_iff_listNum _ _ _).mp this

/-! ### Completeness -/

theorem count_step {R ι : Type} [CommRing R] [DecidableEq ι] (x : R) (v : ι → R) (t : ι)
    (ts : List ι) (hnd : ts.Nodup) (ht : t ∈ ts) :
    ∃ W, (x - v t) * W = (ts.map fun i => x - v i).prod ∧ ∀ c : ι → R,
      listNum x (ts.map fun i => (v i, c i + if i = t then 1 else 0)) =
        listNum x (ts.map fun i => (v i, c i)) + W := by
  induction ts with
  | nil => simp at ht
  | cons a ts ih =>
    obtain ⟨hna, hnd⟩ := List.nodup_cons.mp hnd
    by_cases ha : a = t
    · subst ha
      refine ⟨(ts.map fun i => x - v i).prod, by simp, fun c => ?_⟩
      have e : (ts.map fun i => (v i, c i + if i = a then 1 else 0)) = ts.map fun i => (v i, c i) := by
        refine List.map_congr_left fun i hi => ?_
        have : i ≠ a := fun h => hna (h ▸ hi)
        simp [this]
      simp only [List.map_cons, listNum, e, if_true, List.map_map]
      have e2 : (List.map ((fun u : R × R => x - u.1) ∘ fun i => (v i, c i)) ts)
        = ts.map fun i => x - v i := rfl
      rw [e2]; ring
    · have ht' : t ∈ ts := by
        rcases List.mem_cons.mp ht with h | h
        · exact absurd h.symm ha
        · exact h
      obtain ⟨W, hW, hc⟩ := ih hnd ht'
      refine ⟨(x - v a) * W, ?_, fun c => ?_⟩
      · rw [List.map_cons, List.prod_cons, ← hW]; ring
      · simp only [List.map_cons, listNum, hc, ha, if_false, add_zero, List.map_map]
        have e2 : ∀ c : ι → R, (List.map ((fun u : R × R => x - u.1) ∘ fun i => (v i, c i)) ts)
          = ts.map fun i => x - v i := fun c => rfl
        rw [e2, e2]; ring

/-- With honest multiplicities the cross-multiplied identity holds at every challenge. -/
theorem logup_identity {R ι : Type} [CommRing R] [BEq ι] [LawfulBEq ι] (x : R) (v : ι → R)
    (ts qs : List ι) (hnd : ts.Nodup) (hq : ∀ q ∈ qs, q ∈ ts) :
    listNum x (ts.map fun i => (v i, ((qs.count i : Nat) : R))) * (qs.map fun q => x - v q).prod =
      (ts.map fun i => x - v i).prod * listNum x (qs.map fun q => (v q, 1)) := by
  classical
  induction qs with
  | nil =>
    have : ∀ ts : List ι, listNum x (ts.map fun i => (v i, ((([] : List ι).count i : Nat) : R))) = 0 := by
      intro ts
      induction ts with
      | nil => rfl
      | cons a ts ih => simp only [List.map_cons, listNum, ih]; simp
    rw [this]; simp [listNum]
  | cons q qs ih =>
    have ih := ih fun q' h => hq q' (by simp [h])
    obtain ⟨W, hW, hc⟩ := count_step x v q ts hnd (hq q (by simp))
    have e : (ts.map fun i => (v i, (((q :: qs).count i : Nat) : R))) =
        ts.map fun i => (v i, ((qs.count i : Nat) : R) + if i = q then 1 else 0) := by
      refine List.map_congr_left fun i _ => ?_
      rw [List.count_cons]
      by_cases h : i = q
      · subst h; simp
      · simp [h, Ne.symm h]
    rw [e, hc, List.map_cons, List.prod_cons, List.map_cons, listNum, List.map_map]
    have e2 : (List.map ((fun u : R × R => x - u.1) ∘ fun q => (v q, (1 : R))) qs)
        = qs.map fun q => x - v q := rfl
    rw [e2]
    linear_combination (x - v q) * ih + (qs.map fun q => x - v q).prod * hW

/-! ### Several columns -/

theorem combineRow_eq (chal : List K) (a : K) (row : List K) :
    combineRow (columnRandomness chal) (a :: row) = a + ((row.zip chal).map fun u => u.1 * u.2).sum := by
  have key : ∀ (l : List (K × K)) (s : K), l.foldl (fun acc vr => acc + vr.1 * vr.2) s
      = s + (l.map fun u => u.1 * u.2).sum := by
    intro l
    induction l with
    | nil => simp
    | cons u l ih => intro s; simp [ih, add_assoc]
  unfold combineRow columnRandomness
  rw [List.zip_cons_cons, List.foldl_cons, key]
  simp

theorem zip_ofFn_sum (m : Nat) (c : Fin m → K) (row : List K) (hr : row.length = m) :
    ((row.zip (List.ofFn c)).map fun u => u.1 * u.2).sum = ∑ i : Fin m, row[i.val]'(by omega) * c i := by
  induction m generalizing row with
  | zero => simp
  | succ m ih =>
    cases row with
    | nil => simp at hr
    | cons a row =>
      rw [List.ofFn_succ, List.zip_cons_cons, List.map_cons, List.sum_cons, Fin.sum_univ_succ,
        ih _ row (by simpa using hr)]
      simp

/-- Two distinct rows are mapped to the same combined value by few column challenges. -/
theorem separate_rows [Fintype K] [DecidableEq K] {m : Nat} (a b : List K) (ha : a.length = m + 1)
    (hb : b.length = m + 1) (hne : a ≠ b) :
    (Finset.univ.filter fun c : Fin m → K => combineRow (columnRandomness (List.ofFn c)) a =
      combineRow (columnRandomness (List.ofFn c)) b).card * Fintype.card K ≤ Fintype.card K ^ m := by
  obtain ⟨a0, a, rfl⟩ : ∃ a0 a', a = a0 :: a' := by
    cases a with
    | nil => simp at ha
    | cons x y => exact ⟨x, y, rfl⟩
  obtain ⟨b0, b, rfl⟩ : ∃ a0 a', b = a0 :: a' := by
    cases b with
    | nil => simp at hb
    | cons x y => exact ⟨x, y, rfl⟩
  have ha : a.length = m := by simpa using ha
  have hb : b.length = m := by simpa using hb
  by_cases hab : a = b
  · subst hab
    have h0 : a0 ≠ b0 := fun h => hne (by rw [h])
    rw [Finset.filter_false_of_mem]
    · simp
    · intro c _ e
      rw [combineRow_eq, combineRow_eq] at e
      exact h0 (add_right_cancel e)
  · obtain ⟨i, hi⟩ : ∃ i : Fin m, a[i.val]'(by omega) ≠ b[i.val]'(by omega) := by
      by_contra hcon
      push Not at hcon
      refine hab (List.ext_getElem (by omega) fun j h1 h2 => hcon ⟨j, by omega⟩)
    have hle : (Finset.univ.filter fun c : Fin m → K =>
        combineRow (columnRandomness (List.ofFn c)) (a0 :: a) =
        combineRow (columnRandomness (List.ofFn c)) (b0 :: b)).card ≤ Fintype.card K ^ (m - 1) := by
      have : Fintype.card ({j : Fin m // j ≠ i} → K) = Fintype.card K ^ (m - 1) := by
        rw [Fintype.card_fun, Fintype.card_subtype_compl]
        simp
      rw [← this, ← Finset.card_univ]
      refine Finset.card_le_card_of_injOn (fun c j => c j.val) (fun _ _ => Finset.mem_univ _) ?_
      intro c hc d hd hcd
      have hc := (Finset.mem_filter.mp hc).2
      have hd := (Finset.mem_filter.mp hd).2
      rw [combineRow_eq, combineRow_eq, zip_ofFn_sum _ _ _ ha, zip_ofFn_sum _ _ _ hb] at hc hd
      have hj : ∀ j, j ≠ i → c j = d j := fun j hj => congrFun hcd ⟨j, hj⟩
      have split : ∀ (w : Fin m → K) (e : Fin m → K), ∑ j, w j * e j = w i * e i +
          ∑ j ∈ Finset.univ.erase i, w j * e j := fun w e =>
        (Finset.add_sum_erase _ _ (Finset.mem_univ i)).symm
      rw [split, split] at hc hd
      have er : ∀ w : Fin m → K, ∑ j ∈ Finset.univ.erase i, w j * c j =
          ∑ j ∈ Finset.univ.erase i, w j * d j := fun w =>
        Finset.sum_congr rfl fun j hj' => by rw [hj j (Finset.ne_of_mem_erase hj')]
      rw [er, er] at hc
      have hci : c i = d i := by
        have h3 : (a[i.val]'(by omega) - b[i.val]'(by omega)) * (c i - d i) = 0 := by
          linear_combination hc - hd
        rcases mul_eq_zero.mp h3 with h | h
        · exact absurd (sub_eq_zero.mp h) hi
        · exact sub_eq_zero.mp h
      funext j
      by_cases hji : j = i
      · rw [hji]; exact hci
      · exact hj j hji
    have hm : m = m - 1 + 1 := by have := i.isLt; omega
    calc _ ≤ Fintype.card K ^ (m - 1) * Fintype.card K := Nat.mul_le_mul_right _ hle
      _ = Fintype.card K ^ m := by rw [← pow_succ, ← hm]

/-- The equation checked by the single-key final check for given multiplicities. -/
def singleKeyEq (table queries : List (List K)) (counts : List K) (α : K) (chal : List K) : Prop :=
  listNum α ((table.map (combineRow (columnRandomness chal))).zip counts ++
    ((queries.map (combineRow (columnRandomness chal))).zip
      (List.replicate queries.length (1 : K))).map fun u => (u.1, -u.2)) = 0

/-- If the multiplicities are wrong for some row, few challenges satisfy the equation. -/
theorem singleKey_bad [Fintype K] [DecidableEq K] {m : Nat} (table queries : List (List K))
    (counts : List K) (ht : ∀ r ∈ table, r.length = m + 1) (hq : ∀ r ∈ queries, r.length = m + 1)
    (row : List K) (hrow : row.length = m + 1)
    (hmis : (((table.zip counts).filter fun u => decide (u.1 = row)).map Prod.snd).sum ≠
      ((queries.count row : Nat) : K)) :
    ∃ bad : Finset (K × (Fin m → K)),
      bad.card ≤ 2 * (table.length + queries.length) * Fintype.card K ^ m ∧
      ∀ α c, singleKeyEq table queries counts α (List.ofFn c) → (α, c) ∈ bad := by
  classical
  let comb : (Fin m → K) → List K → K := fun c r => combineRow (columnRandomness (List.ofFn c)) r
  let A : Finset (K × (Fin m → K)) := Finset.univ.filter fun x =>
    ∃ r ∈ table ++ queries, r ≠ row ∧ comb x.2 r = comb x.2 row
  let B : Finset (K × (Fin m → K)) := Finset.univ.filter fun x =>
    (¬ ∃ r ∈ table ++ queries, r ≠ row ∧ comb x.2 r = comb x.2 row) ∧
      singleKeyEq table queries counts x.1 (List.ofFn x.2)
  refine ⟨A ∪ B, ?_, fun α c h => ?_⟩
  · have hA : A.card ≤ (table.length + queries.length) * Fintype.card K ^ m := by
      have hsub : A ⊆ ((table ++ queries).toFinset.filter fun r => r ≠ row).biUnion fun r =>
          (Finset.univ : Finset K) ×ˢ (Finset.univ.filter fun c : Fin m → K => comb c r = comb c row) := by
        intro x hx
        obtain ⟨r, hr, hne, he⟩ := (Finset.mem_filter.mp hx).2
        rw [Finset.mem_biUnion]
        refine ⟨r, ?_, ?_⟩
        · simp only [Finset.mem_filter, List.mem_toFinset]; exact ⟨hr, hne⟩
        · simp only [Finset.mem_product, Finset.mem_univ, Finset.mem_filter, true_and]; exact he
      refine le_trans (Finset.card_le_card hsub) (le_trans Finset.card_biUnion_le ?_)
      refine le_trans (Finset.sum_le_card_nsmul _ _ (Fintype.card K ^ m) fun r hr => ?_) ?_
      · simp only [Finset.mem_filter, List.mem_toFinset, List.mem_append] at hr
        rw [Finset.card_product, Finset.card_univ, Nat.mul_comm]
        exact separate_rows r row (hr.1.elim (ht r) (hq r)) hrow hr.2
      · rw [smul_eq_mul]
        refine Nat.mul_le_mul_right _ (le_trans (Finset.card_filter_le _ _) ?_)
        refine le_trans (List.toFinset_card_le _) (by simp)
    have hB : B.card ≤ (table.length + queries.length) * Fintype.card K ^ m := by
      have := Finset.card_le_mul_card_image_of_maps_to (s := B) (t := Finset.univ) (f := Prod.snd)
        (fun _ _ => Finset.mem_univ _) (table.length + queries.length) (fun c _ => ?_)
      · rwa [Finset.card_univ, Fintype.card_fun, Fintype.card_fin] at this
      · by_cases hsep : ∃ r ∈ table ++ queries, r ≠ row ∧ comb c r = comb c row
        · rw [Finset.filter_false_of_mem]
          · simp
          · rintro x hx rfl
            exact (Finset.mem_filter.mp hx).2.1 hsep
        · set L := (table.map (combineRow (columnRandomness (List.ofFn c)))).zip counts ++
            ((queries.map (combineRow (columnRandomness (List.ofFn c)))).zip
            (List.replicate queries.length (1 : K))).map fun u => (u.1, -u.2) with hL
          have hinj : ∀ r, r ∈ table ++ queries → comb c r = comb c row → r = row := by
            intro r hr he
            by_contra hne
            exact hsep ⟨r, hr, hne, he⟩
          have hpoly : numPoly L ≠ 0 := by
            intro h0
            have hz := coeffs_zero_of_numPoly L h0 (comb c row)
            rw [hL, List.filter_append, List.map_append, List.sum_append] at hz
            have e1 : ∀ (ts : List (List K)) (cs : List K), (∀ r ∈ ts, r ∈ table ++ queries) →
                ((((ts.map (combineRow (columnRandomness (List.ofFn c)))).zip cs).filter
                  fun u => decide (u.1 = comb c row)).map Prod.snd).sum =
                (((ts.zip cs).filter fun u => decide (u.1 = row)).map Prod.snd).sum := by
              intro ts
              induction ts with
              | nil => intros; simp
              | cons r ts ih =>
                intro cs hmem
                cases cs with
                | nil => simp
                | cons k cs =>
                  have := ih cs fun r' h' => hmem r' (by simp [h'])
                  simp only [List.map_cons, List.zip_cons_cons, List.filter_cons]
                  by_cases hr : r = row
                  · subst hr
                    simp only [comb, decide_true, if_true, List.map_cons, List.sum_cons]
                    simp only [comb] at this
                    rw [this]
                  · have : ¬ combineRow (columnRandomness (List.ofFn c)) r = comb c row :=
                      fun h => hr (hinj r (hmem r (by simp)) h)
                    simp only [this, hr, decide_false, Bool.false_eq_true, if_false]
                    assumption
            have e2 : (queries.map (combineRow (columnRandomness (List.ofFn c)))).count (comb c row)
                = queries.count row := by
              have : ∀ qs : List (List K), (∀ r ∈ qs, r ∈ table ++ queries) →
                  (qs.map (combineRow (columnRandomness (List.ofFn c)))).count (comb c row)
                    = qs.count row := by
                intro qs
                induction qs with
                | nil => intros; simp
                | cons r qs ih =>
                  intro hmem
                  rw [List.map_cons, List.count_cons, List.count_cons, ih fun r' h' => hmem r' (by simp [h'])]
                  congr 1
                  by_cases hr : r = row
                  · subst hr; simp [comb]
                  · have : ¬ combineRow (columnRandomness (List.ofFn c)) r = comb c row :=
                      fun h => hr (hinj r (hmem r (by simp)) h)
                    simp [hr, this]
              exact this queries fun r hr => by simp [hr]
            rw [e1 table counts fun r hr => by simp [hr]] at hz
            have hfq := filter_queries_sum (queries.map (combineRow (columnRandomness (List.ofFn c))))
              (comb c row)
            rw [List.length_map] at hfq
            rw [hfq, e2] at hz
            exact hmis (by linear_combination hz)
          obtain ⟨badα, hcard, hbad⟩ := bad_challenges L hpoly
          have hLlen : L.length ≤ table.length + queries.length := by
            rw [hL]; simp
          refine le_trans ?_ (le_trans hcard (by omega))
          refine Finset.card_le_card_of_injOn Prod.fst ?_ ?_
          · intro x hx
            obtain ⟨hxB, rfl⟩ := Finset.mem_filter.mp hx
            exact hbad _ (Finset.mem_filter.mp hxB).2.2
          · intro x hx y hy hxy
            have h1 := (Finset.mem_filter.mp hx).2
            have h2 := (Finset.mem_filter.mp hy).2
            exact Prod.ext hxy (h1.trans h2.symm)
    calc _ ≤ A.card + B.card := Finset.card_union_le _ _
      _ ≤ _ := by rw [two_mul, Nat.add_mul]; exact Nat.add_le_add hA hB
  · by_cases hsep : ∃ r ∈ table ++ queries, r ≠ row ∧ comb c r = comb c row
    · exact Finset.mem_union_left _ (Finset.mem_filter.mpr ⟨Finset.mem_univ _, hsep⟩)
    · exact Finset.mem_union_right _ (Finset.mem_filter.mpr ⟨Finset.mem_univ _, hsep, h⟩)

/-- The hint inputs of the single-key final check. -/
def singleKeyInputs (table queries : List (List K)) : List K :=
  ((table.length : Nat) : K) :: (table.map fun r => r.headD 0) ++ queries.map fun r => r.headD 0

theorem combineColumns_ok {rows : List (List K)} {rnd : List K} {h : Hints K} {o : Out K (List K)}
    (e : combineColumns rows rnd h = .ok o) : o.val = rows.map (combineRow rnd) ∧ o.rest = h := by
  unfold combineColumns at e
  split at e
  · cases e; exact ⟨rfl, rfl⟩
  · split at e
    · cases e; exact ⟨rfl, rfl⟩
    · cases e

/-- What a passing single-key final check says; the multiplicities depend on the hints only. -/
theorem singleKeyFinal_eq {T : Tables K} (toNat : K → Nat) (table queries : List (List K))
    (h : Hints K) :
    ∃ counts : List K, (∀ oc, newHint (queryCountByKeyHint toNat table.length)
        (singleKeyInputs table queries) table.length h = .ok oc → counts = oc.val) ∧
      ∀ α chal o, singleKeyFinalCheck toNat table queries α chal h = .ok o → Sat T o.cons →
        singleKeyEq table queries counts α chal := by
  cases hh : newHint (queryCountByKeyHint toNat table.length) (singleKeyInputs table queries)
      table.length h with
  | error e =>
    refine ⟨[], fun oc hoc => by simp at hoc, fun α chal o ho _ => ?_⟩
    unfold singleKeyFinalCheck at ho
    split_ifs at ho with hemp
    · cases ho
    obtain ⟨o1, o2, h1, h2, -⟩ := bind_eq_ok ho
    obtain ⟨-, hr⟩ := combineColumns_ok h1
    obtain ⟨o3, o4, h3, -, -⟩ := bind_eq_ok h2
    rw [hr] at h3
    change newHint _ (singleKeyInputs table queries) _ h = _ at h3
    rw [hh] at h3; cases h3
  | ok oc =>
    refine ⟨oc.val, fun oc' h' => by cases h'; rfl, fun α chal o ho hs => ?_⟩
    unfold singleKeyFinalCheck at ho
    split_ifs at ho with hemp
    · cases ho
    obtain ⟨o1, o2, h1, h2, rfl⟩ := bind_eq_ok ho
    obtain ⟨hv, hr⟩ := combineColumns_ok h1
    obtain ⟨o3, o4, h3, h4, rfl⟩ := bind_eq_ok h2
    rw [hr] at h3
    change newHint _ (singleKeyInputs table queries) _ h = _ at h3
    rw [hh] at h3; cases h3
    obtain ⟨o5, o6, h5, h6, rfl⟩ := bind_eq_ok h4
    obtain ⟨hv5, -⟩ := combineColumns_ok h5
    have hs2 := (Sat.app.mp (Sat.app.mp (Sat.app.mp hs).2).2).2
    have := Sound.assertEq (T := T) _ _ h6 hs2
    rw [logupPolyVal_eq, logupPolyVal_eq, hv, hv5] at this
    have := (eq_iff_listNum _ _ _).mp this
    rw [List.length_map] at this
    exact this

end

end JST
