import Mathlib.Data.Fintype.CardEmbedding
import Verif.Pcs.BasefoldSoundLink

/-! # Soundness of BaseFold: the whole run -/

namespace JST.Pcs

open JST.Spec JST.Gkr JST.Merkle

variable {K L N : Type} [Field K] [Field L] [Algebra K L] [DecidableEq L] [DecidableEq N] [Inhabited N]

/-- How many commitments an accepted shape has. -/
theorem shape_commitments {τ : Type} {S : Setup K L N τ} {kb ke : Nat} (hS : SetupOk S kb ke) {root : N} {n : Nat} {point : List L} {op : Opening L N}
    (h : shapeOk S ⟨root, n⟩ point op = true) :
    op.commitments.length = n + 1 - ke ∧ op.commitments.length < n ∧
      op.finalPoly.length = 2 ^ (n + 1 - op.commitments.length) ∧ op.messages.length = n := by
  unfold shapeOk at h
  simp only [Bool.and_eq_true, Bool.or_eq_true, decide_eq_true_eq, minTreeElems_spec hS, rateLog] at h
  obtain ⟨⟨⟨⟨⟨⟨⟨_, h1⟩, _⟩, h3⟩, h4⟩, h5⟩, h6⟩, h7⟩ := h
  have h6 := (Nat.pow_lt_pow_iff_right (by norm_num)).mp h6
  have h7 : op.finalPoly.length = 2 ^ (n + 2 - 1 - op.commitments.length) := of_decide_eq_true h7
  refine ⟨?_, h4, by rw [h7]; congr 1, h3⟩
  rcases h5 with h5 | h5
  · omega
  · have h5 := (Nat.pow_le_pow_iff_right (by norm_num)).mp h5
    omega

/-- The state of the game after the challenges, in reverse order. -/
def DoomedR (F : FftField K) (n c : Nat) (P : Prover L N) (v : L) (point rs : List L) : Prop :=
  Doomed F (2 ^ (n + 2)) (n - rs.length) rs.length (goodR F n c P rs) (wordR F n c P rs) (claimR P v rs) (eqR point rs) (point.drop rs.length)

open Classical in
theorem doomedR_step [Fintype L] {F : FftField K} (hF : F.Valid) (n c : Nat) (hl : n + 2 ≤ F.adicity) (hl' : n + 2 ≤ 64) (P : Prover L N) (v : L)
    (point : List L) (hp : point.length = n) (rs : List L) (hrs : rs.length < n) (h : DoomedR F n c P v point rs) :
    (Finset.univ.filter fun r => ¬ DoomedR F n c P v point (r :: rs)).card ≤ 2 ^ (n + 2) := by
  obtain ⟨m, hm⟩ : ∃ m, n = m + 1 + rs.length := ⟨n - 1 - rs.length, by omega⟩
  have e1 : n + 2 = m + 3 + rs.length := by omega
  have e2 : n - rs.length = m + 1 := by omega
  have e3 : n - (rs.length + 1) = m := by omega
  have e4 : n + 1 - rs.length = m + 2 := by omega
  have hd : point.drop rs.length = point.getD rs.length 0 :: point.drop (rs.length + 1) := by
    rw [List.drop_eq_getElem_cons (by omega), List.getD_eq_getElem _ _ (by omega)]
  unfold DoomedR at h
  rw [e2, hd, e1] at h
  have hgood := goodR_lt F n c P rs
  rw [e1] at hgood
  have key := doomed_step hF m rs.length (by omega) (by omega) (goodR F n c P rs) hgood (wordR F n c P rs) (claimR P v rs) (eqR point rs)
    (point.getD rs.length 0) (point.drop (rs.length + 1)) (by rw [List.length_drop]; omega) (by convert h) (P.msg rs.reverse).at1 (P.msg rs.reverse).at2
    (fun r => wordR F n c P (r :: rs))
  rw [e1]
  refine le_trans (Finset.card_le_card ?_) key
  intro r hr
  rw [Finset.mem_filter] at hr ⊢
  refine ⟨hr.1, fun hn => hr.2 ?_⟩
  unfold DoomedR
  rw [List.length_cons, e3, e1]
  unfold goodR claimR eqR
  rw [e4]
  convert hn

/-- At the end: a doomed claim whose final check passes is consistent at fewer than three quarters of the indices. -/
theorem doomedR_end (F : FftField K) (n c : Nat) (P : Prover L N) (v : L) (point rs : List L) (hp : point.length = n) (hrs : rs.length = n)
    (h : DoomedR F n c P v point rs) (k : L) (hk : ∀ y < 4, wordR F n c P rs y = k) (hc : k * eqR point rs = claimR P v rs) :
    4 * (goodR F n c P rs).card < 3 * 2 ^ (n + 2) := by
  by_contra hcon
  push Not at hcon
  unfold DoomedR at h
  rw [hrs, Nat.sub_self] at h
  refine h (fun _ => k) ?_ ?_
  · rw [Finset.filter_true_of_mem]
    · exact hcon
    · intro q hq
      have := goodR_lt F n c P rs q hq
      rw [hk _ (by rw [Nat.div_lt_iff_lt_mul (by positivity)]; rw [pow_add] at this; omega)]
      unfold cwF
      simp
  · rw [List.drop_of_length_le (by omega), mle_nil, ← hc, mul_comm]

/-- An accepted opening: the final check holds of the words and every query index is consistent. -/
theorem accept_link {S : Setup K L N (List L × List Nat)} {kb ke : Nat} (hS : SetupOk S kb ke) (hT : S.T = coins) (root : N) (n : Nat)
    (P : Prover L N) (hP : Keeps S root n P) (point : List L) (v : L) (fuel : Nat) (all : List L) (hall : all.length = n) (qs : List Nat)
    (hq : ∀ q ∈ qs, q < 2 ^ (n + 2)) (hgen : genQueries S.T fuel ([], qs) (2 ^ (n + 2)) = some (qs, ([], [])))
    (h : verifyBf S fuel ⟨root, n⟩ point v (P.opening all qs) (all, qs) = some true) :
    (∃ k, (∀ y < 4, wordR S.F n (n + 1 - ke) P all.reverse y = k) ∧ k * eqR point all.reverse = claimR P v all.reverse) ∧
      ∀ q ∈ qs, q ∈ goodR S.F n (n + 1 - ke) P all.reverse := by
  unfold verifyBf at h
  by_cases hs : (!shapeOk S ⟨root, n⟩ point (P.opening all qs)) = true
  · rw [if_pos hs] at h; cases h
  rw [if_neg hs] at h
  simp only [Bool.not_eq_true', Bool.not_eq_false] at hs
  obtain ⟨s1, s2, s3, s4⟩ := shape_commitments hS hs
  have hpl : point.length = n := by
    unfold shapeOk at hs
    simp only [Bool.and_eq_true, decide_eq_true_eq] at hs
    exact hs.1.1.1.1.1.1.1
  dsimp only at h
  rw [Option.bind_eq_bind, Option.bind_eq_some_iff] at h
  obtain ⟨⟨chs, cl, tr⟩, hv, h⟩ := h
  have hv' := verifyRounds_coins hT (n + rateLog) (P.opening all qs) P v qs all (fun i hi => hP.msgs all qs hall i (by omega)) all []
    (by simp) (chs, cl, tr) (by rw [hall]; exact hv)
  simp only [Prod.mk.injEq] at hv'
  obtain ⟨rfl, rfl, rfl⟩ := hv'
  dsimp only at h
  generalize hc : (P.opening chs qs).commitments.length = c at *
  have hfin : ∀ y < (P.opening chs qs).finalPoly.length, (P.opening chs qs).finalPoly.getD y 0 =
      wordR S.F n c P (chs.take (c + 1)).reverse y := by
    intro y hy
    rw [List.getD_eq_getElem?_getD, hP.final chs qs hall y hy, hc]
    have ht : (chs.take (c + 1)).reverse = chs.getD c 0 :: (chs.take c).reverse := by
      rw [List.take_succ_eq_append_getElem (by omega), List.reverse_append, List.getD_eq_getElem _ _ (by omega)]; rfl
    rw [ht, wordR_cons, if_pos (by rw [List.length_reverse, List.length_take]; omega), ← ht, List.reverse_reverse]
    rfl
  obtain ⟨r1, r2⟩ := foldRest_word S.F n c P chs (n - (c + 1)) (c + 1) (P.opening chs qs).finalPoly (by omega) (by omega) hall
    (by rw [s3]; congr 1; omega) hfin
  have hlog : n + rateLog = n + 2 := rfl
  rw [hlog] at h
  rcases hfr : foldRest S.F (n + 2) chs (List.range' (c + 1) (n - (c + 1))) (P.opening chs qs).finalPoly with _ | ⟨k, rest⟩
  · rw [hfr] at r1; simp at r1
  rw [hfr] at h r1 r2
  dsimp only at h
  by_cases c1 : (rest.any fun v => decide (v ≠ k)) = true
  · rw [if_pos c1] at h; cases h
  rw [if_neg c1] at h
  by_cases c2 : k * eqEval chs point ≠ claimR P v chs.reverse
  · rw [if_pos c2] at h; cases h
  rw [if_neg c2, hgen] at h
  push Not at c2
  simp only [Option.bind_eq_bind, Option.bind_some] at h
  by_cases c3 : (P.opening chs qs).queries.length ≠ qs.length
  · rw [if_pos c3] at h; cases h
  rw [if_neg c3] at h
  push Not at c3
  refine ⟨⟨k, ?_, by rw [eqR_spec _ _ (by omega)]; exact c2⟩, ?_⟩
  · intro y hy
    rw [← s1, ← r2 y hy]
    rcases y with _ | y
    · rfl
    · rw [List.getD_cons_succ]
      simp only [List.length_cons] at r1
      rw [List.getD_eq_getElem _ _ (by omega)]
      by_contra hne
      apply c1
      rw [List.any_eq_true]
      exact ⟨_, List.getElem_mem (show y < rest.length by omega), by simpa using hne⟩
  · have hall' : ∀ qp q, (qp, q) ∈ (P.opening chs qs).queries.zip qs → verifyQuery S root (n + 2) (P.opening chs qs) chs qp q = some true := by
      generalize hz : (P.opening chs qs).queries.zip qs = z at h
      clear hz c3
      induction z with
      | nil => intro qp q hm; cases hm
      | cons x z ih =>
        obtain ⟨qp', q'⟩ := x
        rw [verifyQueries, Option.bind_eq_bind, Option.bind_eq_some_iff] at h
        obtain ⟨ok, hok, h⟩ := h
        rcases ok with _ | _
        · simp at h
        · simp only [if_true] at h
          intro qp q hm
          rcases List.mem_cons.mp hm with he | hm
          · obtain ⟨rfl, rfl⟩ := Prod.mk.inj he; exact hok
          · exact ih h qp q hm
    intro q hqm
    obtain ⟨i, hi, rfl⟩ := List.getElem_of_mem hqm
    have hi' : i < (P.opening chs qs).queries.length := by omega
    have hacc := hall' ((P.opening chs qs).queries[i]) qs[i] (by
      have hz : i < ((P.opening chs qs).queries.zip qs).length := by rw [List.length_zip]; omega
      have := List.getElem_mem hz
      rwa [List.getElem_zip] at this)
    refine mem_goodR _ _ _ _ _ _ (hq _ hqm) ?_
    intro t ht
    have htl : t.length ≤ n := by
      have := ht.length_le; rw [List.length_reverse] at this; omega
    have hts := suffix_reverse _ _ ht
    rcases t with _ | ⟨r, rs⟩
    · trivial
    simp only [List.length_cons] at htl hts
    have ht' : (chs.take (rs.length + 1)).reverse = chs.getD rs.length 0 :: (chs.take rs.length).reverse := by
      rw [List.take_succ_eq_append_getElem (by omega), List.reverse_append, List.getD_eq_getElem _ _ (by omega)]; rfl
    have hh := hts
    rw [ht'] at hh
    obtain ⟨hr1, hr2⟩ := List.cons.inj hh
    rw [← s1]
    by_cases hle : rs.length ≤ c
    · have key := query_link hS root n chs hall P hP qs _ (List.getElem_mem hi') qs[i] (by omega) hacc rs.length (by omega)
      show wordR S.F n c P (r :: rs) (qs[i] / 2 ^ (rs.length + 1)) =
        foldW S.F (n + 1 - rs.length) (wordR S.F n c P rs) r (qs[i] / 2 ^ (rs.length + 1))
      rw [wordR_cons, if_pos hle]
      have hw : wordR S.F n c P rs = P.word (chs.take rs.length) := by
        have hgen : ∀ l : List L, l.length ≤ c + 1 → wordR S.F n c P l = P.word l.reverse := by
          intro l hl
          rcases l with _ | ⟨a, l⟩
          · rfl
          · rw [wordR_cons, if_pos (by simpa using hl)]
        rw [hgen rs (by omega)]
        conv_lhs => rw [hr2, List.reverse_reverse]
      rw [hw, hts, List.reverse_reverse, hr1]
      exact key
    · show wordR S.F n c P (r :: rs) (qs[i] / 2 ^ (rs.length + 1)) =
        foldW S.F (n + 1 - rs.length) (wordR S.F n c P rs) r (qs[i] / 2 ^ (rs.length + 1))
      rw [wordR_cons, if_neg hle]

theorem addBatch_coins (len target : Nat) (qs : List Nat) : ∀ pre : List Nat, (pre ++ qs).Nodup → (∀ q ∈ qs, q < len) →
    pre.length + qs.length ≤ target → addBatch len target pre qs = pre ++ qs := by
  induction qs with
  | nil => intro pre _ _ _; simp [addBatch]
  | cons q qs ih =>
    intro pre hn hl ht
    simp only [List.length_cons] at ht
    have hq : q % len = q := Nat.mod_eq_of_lt (hl q (by simp))
    have hnot : q ∉ pre := by
      intro hm
      exact (List.nodup_append.mp hn).2.2 q hm q (by simp) rfl
    have key := ih (pre ++ [q]) (by simpa using hn) (fun x hx => hl x (by simp [hx])) (by simp; omega)
    unfold addBatch at key ⊢
    rw [List.foldl_cons, hq, if_neg (by omega), if_neg hnot, key]
    simp

omit [DecidableEq L] [DecidableEq N] [Inhabited N] in
theorem genQueries_coins (fuel len : Nat) (hlen : 0 < len) (qs : List Nat) (hn : qs.Nodup) (hl : ∀ q ∈ qs, q < len)
    (hk : qs.length = min numQueries len) :
    genQueries (coins (L := L) (N := N)) (fuel + 1) ([], qs) len = some (qs, ([], [])) := by
  have hpos : 0 < qs.length := by
    rw [hk]; exact lt_min (by decide) hlen
  unfold genQueries
  rw [← hk, queryLoop.eq_def]
  dsimp only
  rw [if_neg (by simp; exact List.ne_nil_of_length_pos hpos)]
  have hu : (coins (L := L) (N := N)).usizes ([], qs) (qs.length - ([] : List Nat).length) = (qs, [], []) := by
    simp [coins]
  show queryLoop coins len qs.length fuel ((coins (L := L) (N := N)).usizes ([], qs) (qs.length - ([] : List Nat).length)).2
    (addBatch len qs.length [] ((coins (L := L) (N := N)).usizes ([], qs) (qs.length - ([] : List Nat).length)).1) = _
  rw [hu]
  dsimp only
  rw [addBatch_coins len qs.length qs [] (by simpa using hn) hl (by simp), List.nil_append, queryLoop.eq_def]
  dsimp only
  rw [if_pos (le_refl _)]

theorem descFactorial_quarter (a n : Nat) (h : 4 * a ≤ 3 * n) (k : Nat) : 4 ^ k * a.descFactorial k ≤ 3 ^ k * n.descFactorial k := by
  induction k with
  | zero => simp
  | succ k ih =>
    rw [Nat.descFactorial_succ, Nat.descFactorial_succ, pow_succ, pow_succ]
    calc 4 ^ k * 4 * ((a - k) * a.descFactorial k) = (4 * (a - k)) * (4 ^ k * a.descFactorial k) := by ring
      _ ≤ (3 * (n - k)) * (3 ^ k * n.descFactorial k) := Nat.mul_le_mul (by omega) ih
      _ = _ := by ring

open Classical in
theorem card_embeddings (k n : Nat) (A : Finset Nat) :
    (Finset.univ.filter fun e : Fin k ↪ Fin n => ∀ i, (e i : Nat) ∈ A).card ≤ A.card.descFactorial k := by
  have h := Fintype.card_embedding_eq (α := Fin k) (β := {x // x ∈ A})
  rw [Fintype.card_fin, Fintype.card_coe] at h
  rw [← h, ← Fintype.card_subtype]
  refine Fintype.card_le_of_injective (fun e : {e : Fin k ↪ Fin n // ∀ i, (e i : Nat) ∈ A} =>
    (⟨fun i => ⟨(e.1 i : Nat), e.2 i⟩, fun i j hij => e.1.injective (Fin.ext (Subtype.mk.inj hij))⟩ : Fin k ↪ {x // x ∈ A})) ?_
  intro e e' he
  apply Subtype.ext
  ext i
  have := congrArg (fun g : Fin k ↪ {x // x ∈ A} => (g i).1) he
  exact this

omit [DecidableEq L] in
theorem enc_cwF (F : FftField K) (n : Nat) (f : Nat → L) (q : Nat) (hq : q < 2 ^ (n + 2)) :
    (enc F (n + 2) ((List.range (2 ^ n)).map f)).getD q 0 = cwF F n f q := by
  unfold enc
  rw [getD_map_range _ _ _ _ hq]
  unfold polyAt cwF
  rw [List.length_map, List.length_range]
  refine Finset.sum_congr rfl fun t ht => ?_
  rw [getD_map_range _ _ _ _ (Finset.mem_range.mp ht)]

open Classical in
/-- Soundness. -/
theorem basefold_sound [Fintype L] {S : Setup K L N (List L × List Nat)} {kb ke : Nat} (hS : SetupOk S kb ke) (hT : S.T = coins) (root : N) (n : Nat)
    (hn : n + 2 ≤ S.F.adicity) (hn' : n + 2 ≤ 64) (P : Prover L N) (hP : Keeps S root n P) (point : List L) (hp : point.length = n) (v : L) (fuel : Nat)
    (hfar : ∀ f : List L, f.length = 2 ^ n → 3 * 2 ^ (n + 2) ≤ 4 * (agreement S.F n (P.word []) f).card → v ≠ mle (fun i => f.getD i 0) point)
    (k : Nat) (hk : k = min numQueries (2 ^ (n + 2))) :
    Fintype.card L * (Finset.univ.filter fun x : (Fin n → L) × (Fin k ↪ Fin (2 ^ (n + 2))) =>
        verifyBf S (fuel + 1) ⟨root, n⟩ point v (P.opening (List.ofFn x.1) (List.ofFn fun i => (x.2 i : Nat)))
          (List.ofFn x.1, List.ofFn fun i => (x.2 i : Nat)) = some true).card ≤
      Fintype.card L ^ n * (n * 2 ^ (n + 2) * (2 ^ (n + 2)).descFactorial k + Fintype.card L * (3 * 2 ^ (n + 2) / 4).descFactorial k) := by
  obtain ⟨D, hD⟩ : ∃ D, D = (2 ^ (n + 2)).descFactorial k := ⟨_, rfl⟩
  obtain ⟨E, hE⟩ : ∃ E, E = (3 * 2 ^ (n + 2) / 4).descFactorial k := ⟨_, rfl⟩
  obtain ⟨Bad, hBad⟩ : ∃ Bad : Finset (Fin n → L), Bad = Finset.univ.filter fun u => ¬ DoomedR S.F n (n + 1 - ke) P v point (List.ofFn u).reverse := ⟨_, rfl⟩
  have h0 : DoomedR S.F n (n + 1 - ke) P v point [] := by
    intro f hf
    show v ≠ 1 * mle f point
    rw [one_mul]
    have := hfar ((List.range (2 ^ n)).map f) (by simp) (by
      refine hf.trans (Nat.mul_le_mul_left _ (Finset.card_le_card ?_))
      intro q hq
      unfold goodR at hq
      rw [Finset.mem_filter] at hq
      unfold agreement
      rw [Finset.mem_filter]
      refine ⟨hq.1, ?_⟩
      rw [enc_cwF _ _ _ _ (Finset.mem_range.mp hq.1)]
      have h2 := hq.2
      simp only [List.length_nil, pow_zero, Nat.div_one, Nat.sub_zero] at h2
      exact h2)
    rwa [mle_congr _ f point (fun i hi => by rw [hp] at hi; exact getD_map_range _ _ _ _ hi)] at this
  have hcount : Bad.card * Fintype.card L ≤ n * 2 ^ (n + 2) * Fintype.card L ^ n := by
    rw [hBad]
    refine count_lost (fun rs => DoomedR S.F n (n + 1 - ke) P v point rs.reverse) (2 ^ (n + 2)) h0 n ?_
    intro rs hrs hd
    have key := doomedR_step hS.valid n (n + 1 - ke) hn hn' P v point hp rs.reverse (by rwa [List.length_reverse]) hd
    refine le_trans (Finset.card_le_card ?_) key
    intro r hr
    rw [Finset.mem_filter] at hr ⊢
    simpa using hr
  have hfib : ∀ u : Fin n → L, (Finset.univ.filter fun e : Fin k ↪ Fin (2 ^ (n + 2)) =>
      verifyBf S (fuel + 1) ⟨root, n⟩ point v (P.opening (List.ofFn u) (List.ofFn fun i => (e i : Nat)))
          (List.ofFn u, List.ofFn fun i => (e i : Nat)) = some true).card ≤ (if u ∈ Bad then D else 0) + E := by
    intro u
    by_cases hu : u ∈ Bad
    · rw [if_pos hu]
      refine le_trans ((Finset.card_filter_le _ _).trans ?_) (Nat.le_add_right _ _)
      rw [Finset.card_univ, Fintype.card_embedding_eq, Fintype.card_fin, Fintype.card_fin, hD]
    · rw [if_neg hu, zero_add]
      rw [hBad, Finset.mem_filter] at hu
      push Not at hu
      have hdoom := hu (Finset.mem_univ _)
      have hl : ∀ e : Fin k ↪ Fin (2 ^ (n + 2)), verifyBf S (fuel + 1) ⟨root, n⟩ point v (P.opening (List.ofFn u) (List.ofFn fun i => (e i : Nat)))
          (List.ofFn u, List.ofFn fun i => (e i : Nat)) = some true →
          4 * (goodR S.F n (n + 1 - ke) P (List.ofFn u).reverse).card < 3 * 2 ^ (n + 2) ∧
            ∀ i, (e i : Nat) ∈ goodR S.F n (n + 1 - ke) P (List.ofFn u).reverse := by
        intro e he
        have hqs : ∀ q ∈ List.ofFn fun i => (e i : Nat), q < 2 ^ (n + 2) := by
          intro q hq
          obtain ⟨i, rfl⟩ := (List.mem_ofFn' _ _).mp hq
          exact (e i).2
        obtain ⟨⟨c, hc1, hc2⟩, hg⟩ := accept_link hS hT root n P hP point v (fuel + 1) (List.ofFn u) (by simp) _ hqs (by
          rw [hT]
          exact genQueries_coins fuel _ (by positivity) _ (List.nodup_ofFn.mpr fun i j hij => e.injective (Fin.ext hij)) hqs
            (by rw [List.length_ofFn, hk])) he
        refine ⟨doomedR_end S.F n (n + 1 - ke) P v point _ hp (by simp) hdoom c hc1 hc2, fun i => hg _ ?_⟩
        exact (List.mem_ofFn' _ _).mpr ⟨i, rfl⟩
      by_cases hA : 4 * (goodR S.F n (n + 1 - ke) P (List.ofFn u).reverse).card < 3 * 2 ^ (n + 2)
      · refine le_trans ((Finset.card_le_card ?_).trans (card_embeddings k (2 ^ (n + 2)) (goodR S.F n (n + 1 - ke) P (List.ofFn u).reverse))) ?_
        · intro e he
          rw [Finset.mem_filter] at he ⊢
          exact ⟨he.1, (hl e he.2).2⟩
        · rw [hE]
          exact Nat.descFactorial_le k (by omega)
      · rw [Finset.filter_false_of_mem (fun e _ he => hA (hl e he).1)]
        simp
  have hsum : (Finset.univ.filter fun x : (Fin n → L) × (Fin k ↪ Fin (2 ^ (n + 2))) =>
        verifyBf S (fuel + 1) ⟨root, n⟩ point v (P.opening (List.ofFn x.1) (List.ofFn fun i => (x.2 i : Nat)))
          (List.ofFn x.1, List.ofFn fun i => (x.2 i : Nat)) = some true).card =
      ∑ u : Fin n → L, (Finset.univ.filter fun e : Fin k ↪ Fin (2 ^ (n + 2)) =>
        verifyBf S (fuel + 1) ⟨root, n⟩ point v (P.opening (List.ofFn u) (List.ofFn fun i => (e i : Nat)))
          (List.ofFn u, List.ofFn fun i => (e i : Nat)) = some true).card := by
    simp only [Finset.card_filter]
    rw [Fintype.sum_prod_type]
  rw [hsum, ← hD, ← hE]
  have htot : ∑ u : Fin n → L, (Finset.univ.filter fun e : Fin k ↪ Fin (2 ^ (n + 2)) =>
        verifyBf S (fuel + 1) ⟨root, n⟩ point v (P.opening (List.ofFn u) (List.ofFn fun i => (e i : Nat)))
          (List.ofFn u, List.ofFn fun i => (e i : Nat)) = some true).card ≤ Bad.card * D + Fintype.card L ^ n * E := by
    refine (Finset.sum_le_sum fun u _ => hfib u).trans ?_
    rw [Finset.sum_add_distrib, Finset.sum_ite_mem, Finset.univ_inter, Finset.sum_const, Finset.sum_const, Finset.card_univ]
    simp
  generalize (∑ u : Fin n → L, (Finset.univ.filter fun e : Fin k ↪ Fin (2 ^ (n + 2)) =>
        verifyBf S (fuel + 1) ⟨root, n⟩ point v (P.opening (List.ofFn u) (List.ofFn fun i => (e i : Nat)))
          (List.ofFn u, List.ofFn fun i => (e i : Nat)) = some true).card) = T at *
  calc Fintype.card L * T ≤ Fintype.card L * (Bad.card * D + Fintype.card L ^ n * E) := Nat.mul_le_mul_left _ htot
    _ = (Bad.card * Fintype.card L) * D + Fintype.card L ^ n * (Fintype.card L * E) := by ring
    _ ≤ (n * 2 ^ (n + 2) * Fintype.card L ^ n) * D + Fintype.card L ^ n * (Fintype.card L * E) :=
        Nat.add_le_add_right (Nat.mul_le_mul_right _ hcount) _
    _ = _ := by ring

end JST.Pcs
