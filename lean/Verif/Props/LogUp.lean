import Verif.LogUp.Close
import Verif.Primes
import Verif.Props.Gadgets

/-!
# Properties C07–C10: the LogUp lookup argument and function lookups

The hints (which include the multiplicities) are fixed before the challenges are drawn, so soundness is
stated as: for all hints there is a set `bad` of challenges, of stated size, outside of which a
satisfied check implies the claim.
-/

set_option linter.unusedSectionVars false

namespace JST.Props

open JST

/-! ## C07 -/

/-- **C07, single column (range table).** Whatever multiplicities the prover supplies, if some query is
not a table key then at most `|table| + |queries| - 1` challenges satisfy the final check. -/
theorem C07_range_table_sound {K : Type} [Field K] {T : Tables K} (toNat : K → Nat)
    (table queries : List K) (h : Hints K)
    (hchar : ∀ k : Nat, 0 < k → k ≤ queries.length → ((k : Nat) : K) ≠ 0)
    (hbad : ∃ q ∈ queries, q ∉ table) :
    ∃ bad : Finset K, bad.card ≤ table.length + queries.length - 1 ∧
      ∀ α o, rangeFinalCheck toNat table queries α h = .ok o → Sat T o.cons → α ∈ bad :=
  rangeFinal_sound toNat table queries h hchar hbad

/-- **C07, several columns.** Whatever multiplicities the prover supplies, if some queried row is not a
table row then at most a `2 (|table| + |queries|) / |K|` fraction of the challenges (`α` together with
the `m` column challenges) satisfies the final check. -/
theorem C07_single_key_table_sound {K : Type} [Field K] [Fintype K] {T : Tables K}
    (toNat : K → Nat) (m : Nat) (table queries : List (List K)) (h : Hints K)
    (ht : ∀ r ∈ table, r.length = m + 1) (hq : ∀ r ∈ queries, r.length = m + 1)
    (hchar : ∀ k : Nat, 0 < k → k ≤ queries.length → ((k : Nat) : K) ≠ 0)
    (hbad : ∃ q ∈ queries, q ∉ table) :
    ∃ bad : Finset (K × (Fin m → K)),
      bad.card ≤ 2 * (table.length + queries.length) * Fintype.card K ^ m ∧
      ∀ (α : K) (c : Fin m → K) o,
        singleKeyFinalCheck toNat table queries α (List.ofFn c) h = .ok o → Sat T o.cons →
        (α, c) ∈ bad := by
  classical
  obtain ⟨q, hqm, hqt⟩ := hbad
  obtain ⟨counts, -, hc⟩ := singleKeyFinal_eq (T := T) toNat table queries h
  obtain ⟨bad, hcard, hb⟩ := singleKey_bad table queries counts ht hq q (hq q hqm) (by
    have : ((table.zip counts).filter fun u => decide (u.1 = q)) = [] := by
      rw [List.filter_eq_nil_iff]
      intro u hu
      have := (List.of_mem_zip hu).1
      simp only [decide_eq_true_eq]
      rintro rfl
      exact hqt this
    rw [this]
    have h1 : 0 < queries.count q := List.count_pos_iff.mpr hqm
    simpa using (hchar _ h1 List.count_le_length).symm)
  exact ⟨bad, hcard, fun α c o ho hs => hb α c (hc α _ o ho hs)⟩

/-- **C07, end to end for range-checked gadgets.** A gadget that is sound when range lookups are table
membership stays sound when they are enforced by the final check, except for at most
`2^chunk + #lookups` challenges. -/
theorem C07_closed_circuit_sound {p : Nat} [Fact p.Prime] {K β : Type} [Field K] (φ : ZMod p →+* K)
    (toNat : K → Nat) (rc : RangeCtx) (g : G (ZMod p) β) (Q : β → Prop)
    (hg : ∀ T : Tables (ZMod p), IsRangeTable T rc → Sound T g Q) (honly : OnlyRange rc.tid g)
    (h : Hints (ZMod p)) (hK : Hints K) (hsmall : ∀ o, g h = .ok o → o.cons.lookups.length < p) :
    ∃ bad : Finset K, (∀ o, g h = .ok o → bad.card ≤ 2 ^ rc.chunk + o.cons.lookups.length) ∧
      ∀ α v, Accepts φ toNat rc g h hK α v → α ∉ bad → Q v := by
  classical
  cases hrun : g h with
  | error e =>
    refine ⟨∅, by simp, fun α v ha => ?_⟩
    obtain ⟨o, o', h1, -⟩ := ha
    rw [hrun] at h1; cases h1
  | ok o =>
    have hinj : Function.Injective φ := φ.injective
    by_cases hall : ∀ q ∈ rangeQueries o.cons, ∃ k : Nat, k < 2 ^ rc.chunk ∧ q = (k : ZMod p)
    · refine ⟨∅, by simp, fun α v ha _ => ?_⟩
      obtain ⟨o1, o', h1, -, hz, -, rfl⟩ := ha
      rw [hrun] at h1; cases h1
      refine hg (rangeTables p rc) (rangeTables_spec rc) h o hrun ⟨hz, fun l hl => ?_⟩
      obtain ⟨q, rfl⟩ := honly h o hrun l hl
      obtain ⟨k, hk, e⟩ := hall q (by
        unfold rangeQueries; exact List.mem_map.mpr ⟨_, hl, rfl⟩)
      exact ⟨k, hk, by rw [e]⟩
    · push Not at hall
      obtain ⟨q, hq, hqn⟩ := hall
      obtain ⟨bad, hcard, hb⟩ := rangeFinal_sound (T := fun _ _ => True) toNat
        (rangeTableKeys rc.chunk) ((rangeQueries o.cons).map φ) hK (by
          intro k hk hle e
          rw [List.length_map] at hle
          have hlt : k < p := lt_of_le_of_lt (by simpa [rangeQueries] using hle) (hsmall o hrun)
          have : φ ((k : Nat) : ZMod p) = φ 0 := by rw [map_natCast, map_zero, e]
          have := hinj this
          rw [ZMod.natCast_eq_zero_iff] at this
          exact absurd (Nat.le_of_dvd hk this) (by omega))
        ⟨φ q, List.mem_map_of_mem hq, by
          intro hmem
          obtain ⟨k, hk, e⟩ := List.mem_map.mp hmem
          refine hqn k (List.mem_range.mp hk) (hinj ?_)
          rw [map_natCast, e]⟩
      refine ⟨bad, fun o1 h1 => ?_, fun α v ha hn => ?_⟩
      · cases h1
        refine le_trans hcard ?_
        simp [rangeTableKeys, rangeQueries]
      · obtain ⟨o1, o', h1, h2, -, hz', -⟩ := ha
        rw [hrun] at h1; cases h1
        refine absurd (hb α o' h2 ⟨hz', fun _ _ => trivial⟩) hn

/-- Hypotheses met, and the claim is not vacuous: queries 1, 5 against the table 0..3 over
Goldilocks. -/
example (h : Hints (ZMod goldP)) : ∃ bad : Finset (ZMod goldP), bad.card ≤ 5 ∧
    ∀ α o, rangeFinalCheck ZMod.val [0, 1, 2, 3] [1, 5] α h = .ok o →
      Sat (fun _ _ => True) o.cons → α ∈ bad := by
  refine C07_range_table_sound ZMod.val [0, 1, 2, 3] [1, 5] h ?_ ⟨5, by simp, by decide +kernel⟩
  intro k hk hk' e
  have : k = 1 ∨ k = 2 := by simp at hk'; omega
  rcases this with rfl | rfl
  · revert e; decide +kernel
  · revert e; decide +kernel

/-- Hypotheses met: the 32-bit check with chunk width 8 over Goldilocks, closed. -/
example (h hK : Hints (ZMod goldP)) (x : ZMod goldP)
    (hsmall : ∀ o, rangeCheck ⟨0, 8⟩ x 32 h = .ok o → o.cons.lookups.length < goldP) :
    ∃ bad : Finset (ZMod goldP),
    (∀ o, rangeCheck ⟨0, 8⟩ x 32 h = .ok o → bad.card ≤ 2 ^ 8 + o.cons.lookups.length) ∧
    ∀ α v, Accepts (RingHom.id _) ZMod.val ⟨0, 8⟩ (rangeCheck ⟨0, 8⟩ x 32) h hK α v → α ∉ bad →
      x.val < 2 ^ 32 :=
  C07_closed_circuit_sound (RingHom.id _) ZMod.val ⟨0, 8⟩ (rangeCheck ⟨0, 8⟩ x 32)
    (fun _ => x.val < 2 ^ 32)
    (fun _ hT => C01_range_check_sound_partial hT (by norm_num) x 32 (by norm_num))
    (OnlyRange.rangeCheck _ _ _) h hK hsmall

/-! ## C08 -/

/-- The honest multiplicity hint succeeds on in-range queries and counts them. -/
theorem queryCountHint_ok {K : Type} [Field K] (toNat : K → Nat) (n : Nat) (ks : List Nat)
    (hks : ∀ k ∈ ks, k < n) (hn : n ≤ 2 ^ 64)
    (hlen : ks.length < 2 ^ 32) (hto : ∀ k < n, toNat ((k : Nat) : K) = k) :
    queryCountHint toNat n (ks.map fun k : Nat => ((k : Nat) : K)) =
      .ok ((List.range n).map fun i => ((ks.count i : Nat) : K)) := by
  have h1 : ∀ k ∈ ks, toNat ((k : Nat) : K) % 2 ^ 64 = k := fun k hk => by
    have := hks k hk
    rw [hto k this, Nat.mod_eq_of_lt (by omega)]
  unfold queryCountHint
  rw [if_pos]
  · congr 1
    refine List.map_congr_left fun i _ => ?_
    congr 1
    rw [List.countP_map]
    have e : List.countP ((fun q => toNat q % 2 ^ 64 == i) ∘ fun k : Nat => ((k : Nat) : K)) ks
        = ks.count i := by
      rw [List.count]
      refine List.countP_congr fun k hk => ?_
      simp only [Function.comp_apply]
      rw [h1 k hk]
    rw [e, Nat.mod_eq_of_lt]
    exact lt_of_le_of_lt List.count_le_length hlen
  · rw [List.all_eq_true]
    intro q hq
    obtain ⟨k, hk, rfl⟩ := List.mem_map.mp hq
    rw [h1 k hk]
    simpa using hks k hk

/-- **C08, range table.** For every list of fewer than `2^32` queries that are table keys, the honest
prover passes the final check at every challenge, poles included. -/
theorem C08_range_table_complete {K : Type} [Field K] {T : Tables K} (toNat : K → Nat) (chunk : Nat)
    (hchunk : chunk ≤ 64) (hto : ∀ k < 2 ^ chunk, toNat ((k : Nat) : K) = k)
    (queries : List K) (hq : ∀ q ∈ queries, ∃ k : Nat, k < 2 ^ chunk ∧ q = ((k : Nat) : K))
    (hlen : queries.length < 2 ^ 32) (α : K) :
    Complete T (rangeFinalCheck toNat (rangeTableKeys chunk) queries α) (fun _ => True) := by
  obtain ⟨ks, rfl, hks⟩ : ∃ ks : List Nat, queries = ks.map (fun k : Nat => ((k : Nat) : K)) ∧
      ∀ k ∈ ks, k < 2 ^ chunk := by
    clear hlen
    induction queries with
    | nil => exact ⟨[], rfl, by simp⟩
    | cons q qs ih =>
      obtain ⟨ks, rfl, h⟩ := ih fun q' h' => hq q' (by simp [h'])
      obtain ⟨k, hk, rfl⟩ := hq q (by simp)
      exact ⟨k :: ks, rfl, by
        intro k' hk'
        rcases List.mem_cons.mp hk' with rfl | hk'
        · exact hk
        · exact h k' hk'⟩
  unfold rangeFinalCheck
  by_cases hemp : (ks.map (fun k : Nat => ((k : Nat) : K))).isEmpty
  · rw [if_pos hemp]; exact Complete.pure trivial
  rw [if_neg hemp]
  have hn : (rangeTableKeys chunk : List K).length = 2 ^ chunk := by simp [rangeTableKeys]
  rw [hn]
  have hh := queryCountHint_ok toNat (2 ^ chunk) ks hks (Nat.pow_le_pow_right (by norm_num) hchunk)
    (by simpa using hlen) hto
  refine Complete.bind (Complete.newHint hh (by simp)) ?_
  rintro c rfl
  refine (Det.assertEq ?_).complete
  rw [logupPolyVal_eq, logupPolyVal_eq]
  have e1 : (rangeTableKeys chunk : List K).zip ((List.range (2 ^ chunk)).map fun i => ((ks.count i : Nat) : K))
      = (List.range (2 ^ chunk)).map fun i => (((i : Nat) : K), ((ks.count i : Nat) : K)) := by
    unfold rangeTableKeys; rw [List.zip_map', ]
  have e2 : (ks.map (fun k : Nat => ((k : Nat) : K))).zip
      (List.replicate (ks.map (fun k : Nat => ((k : Nat) : K))).length (1 : K))
      = ks.map fun k => (((k : Nat) : K), (1 : K)) := by
    rw [List.length_map]
    clear hh hemp hlen hks hq e1
    induction ks with
    | nil => rfl
    | cons k ks ih => simp [List.replicate_succ, ih]
  rw [e1, e2]
  have := logup_identity α (fun k : Nat => ((k : Nat) : K)) (List.range (2 ^ chunk)) ks
    List.nodup_range (fun q hq => List.mem_range.mpr (hks q hq))
  simp only [List.map_map]
  exact this

/-- Hypotheses met: the default 12-bit table over BN254, queries 0, 7, 7, 4095. -/
example (α : ZMod bn254P) : Complete (fun _ _ => True)
    (rangeFinalCheck ZMod.val (rangeTableKeys 12) [0, 7, 7, 4095] α) (fun _ => True) := by
  refine C08_range_table_complete _ 12 (by norm_num) (fun k hk => ?_) _ ?_ (by simp) α
  · rw [ZMod.val_natCast, Nat.mod_eq_of_lt]
    exact lt_trans hk (by norm_num [bn254P])
  · intro q hq
    simp only [List.mem_cons, List.not_mem_nil, or_false] at hq
    rcases hq with rfl | rfl | rfl | rfl
    · exact ⟨0, by norm_num, by simp⟩
    · exact ⟨7, by norm_num, by simp⟩
    · exact ⟨7, by norm_num, by simp⟩
    · exact ⟨4095, by norm_num, by simp⟩

/-- **C08, end to end for range-checked gadgets.** A gadget whose honest run satisfies its constraints
with range lookups read as table membership also satisfies the closed circuit, at every challenge. -/
theorem C08_closed_circuit_complete {p : Nat} [Fact p.Prime] {K β : Type} [Field K]
    (φ : ZMod p →+* K) (toNat : K → Nat) (rc : RangeCtx) (hchunk : rc.chunk ≤ 64)
    (hto : ∀ k < 2 ^ rc.chunk, toNat ((k : Nat) : K) = k) (g : G (ZMod p) β) (Q : β → Prop)
    (hg : ∀ T : Tables (ZMod p), IsRangeTable T rc → Complete T g Q) (honly : OnlyRange rc.tid g)
    (hsmall : ∀ o, g .honest = .ok o → o.cons.lookups.length < 2 ^ 32) (α : K) :
    ∃ v, Q v ∧ Accepts φ toNat rc g .honest .honest α v := by
  obtain ⟨o, ho, -, hsat, hQ⟩ := hg (rangeTables p rc) (rangeTables_spec rc)
  obtain ⟨o', ho', -, hsat', -⟩ := C08_range_table_complete (T := fun _ _ => True) toNat rc.chunk hchunk hto
    ((rangeQueries o.cons).map φ) (by
      intro q hq
      obtain ⟨q', hq', rfl⟩ := List.mem_map.mp hq
      obtain ⟨l, hl, rfl⟩ := List.mem_map.mp hq'
      obtain ⟨a, rfl⟩ := honly _ o ho l hl
      obtain ⟨k, hk, e⟩ := hsat.2 _ hl
      refine ⟨k, hk, ?_⟩
      have : a = (k : ZMod p) := by simpa using e
      simp [this])
    (by simpa [rangeQueries] using hsmall o ho) α
  exact ⟨o.val, hQ, o, o', ho, ho', hsat.1, hsat'.1, rfl⟩

/-- The honest multiplicities of the keyed table. -/
theorem queryCountByKey_ok {K : Type} [Field K] (toNat : K → Nat) (table queries : List (List K))
    (hn : toNat ((table.length : Nat) : K) = table.length) (hn' : table.length < 2 ^ 64) :
    queryCountByKeyHint toNat table.length (singleKeyInputs table queries) =
      .ok (table.map fun t => (((queries.countP fun q =>
        toNat (q.headD 0) % 2 ^ 32 == toNat (t.headD 0) % 2 ^ 32) % 2 ^ 32 : Nat) : K)) := by
  unfold queryCountByKeyHint singleKeyInputs
  have e : toNat ((table.length : Nat) : K) % 2 ^ 64 = table.length := by
    rw [hn, Nat.mod_eq_of_lt hn']
  dsimp only [List.cons_append]
  rw [e, if_neg (by simp), if_neg (by omega)]
  congr 1
  rw [List.take_left' (by simp), List.drop_left' (by simp), List.map_map, Nat.sub_self]
  simp only [List.replicate_zero, List.append_nil]
  refine List.map_congr_left fun t _ => ?_
  simp only [Function.comp_apply]
  rw [List.countP_map]
  rfl

/-- **C08, keyed table (partial).** If every queried row is a table row, the table has no duplicate
rows, and distinct table rows have keys with distinct low 32 bits, then the honest prover passes the
final check for all challenges. The last hypothesis is what is missing: it fails for signed tables over
Goldilocks, see `C08_goldilocks_signed_incomplete`. -/
theorem C08_single_key_table_complete_partial {K : Type} [Field K] [DecidableEq K] {T : Tables K}
    (toNat : K → Nat) (m : Nat) (table queries : List (List K))
    (hne : queries ≠ []) (ht : ∀ r ∈ table, r.length = m + 1)
    (hn : toNat ((table.length : Nat) : K) = table.length) (hn' : table.length < 2 ^ 64)
    (hq : ∀ q ∈ queries, q ∈ table) (hlen : queries.length < 2 ^ 32) (hnd : table.Nodup)
    (hkeys : ∀ r ∈ table, ∀ s ∈ table,
      toNat (r.headD 0) % 2 ^ 32 = toNat (s.headD 0) % 2 ^ 32 → r = s)
    (α : K) (chal : List K) (hchal : chal.length = m) :
    Complete T (singleKeyFinalCheck toNat table queries α chal) (fun _ => True) := by
  have hcomb : ∀ rows : List (List K), (∀ r ∈ rows, r.length = m + 1) →
      Complete T (combineColumns rows (columnRandomness chal))
        (fun v => v = rows.map (combineRow (columnRandomness chal))) := by
    intro rows hr
    unfold combineColumns
    cases rows with
    | nil => exact Complete.pure rfl
    | cons r rows =>
      have hl := hr r (by simp)
      simp only
      rw [if_pos (by rw [hl]; simp [columnRandomness, hchal])]
      exact Complete.pure rfl
  unfold singleKeyFinalCheck
  have htne : table ≠ [] := by
    rintro rfl
    cases queries with
    | nil => exact hne rfl
    | cons q qs => exact absurd (hq q (by simp)) (by simp)
  rw [if_neg (by simp [htne, hne])]
  refine Complete.bind (hcomb table ht) ?_
  rintro _ rfl
  have hh := queryCountByKey_ok toNat table queries hn hn'
  refine Complete.bind (P := fun c => c = table.map fun t => (((queries.count t : Nat)) : K))
    ((Complete.newHint hh (by simp)).conseq ?_) ?_
  · rintro _ rfl
    refine List.map_congr_left fun t htm => ?_
    congr 1
    have e : (queries.countP fun q => toNat (q.headD 0) % 2 ^ 32 == toNat (t.headD 0) % 2 ^ 32)
        = queries.count t := by
      rw [List.count]
      refine List.countP_congr fun q hqm => ?_
      simp only [beq_iff_eq]
      exact ⟨fun h => hkeys q (hq q hqm) t htm h, fun h => by rw [h]⟩
    rw [e, Nat.mod_eq_of_lt]
    exact lt_of_le_of_lt List.count_le_length hlen
  rintro _ rfl
  refine Complete.bind (hcomb queries fun r hr => ht r (hq r hr)) ?_
  rintro _ rfl
  refine (Det.assertEq ?_).complete
  rw [logupPolyVal_eq, logupPolyVal_eq]
  have e1 : ((table.map (combineRow (columnRandomness chal))).zip
      (table.map fun t => ((queries.count t : Nat) : K)))
      = table.map fun t => (combineRow (columnRandomness chal) t, ((queries.count t : Nat) : K)) := by
    rw [List.zip_map']
  have e2 : ∀ qs : List (List K), (qs.map (combineRow (columnRandomness chal))).zip
      (List.replicate (qs.map (combineRow (columnRandomness chal))).length (1 : K))
      = qs.map fun q => (combineRow (columnRandomness chal) q, (1 : K)) := by
    intro qs
    rw [List.length_map]
    induction qs with
    | nil => rfl
    | cons k ks ih => simp [List.replicate_succ, ih]
  rw [e1, e2]
  have := logup_identity α (combineRow (columnRandomness chal)) table queries hnd hq
  simp only [List.map_map]
  exact this

/-- Encoding of a signed 64-bit integer as a field element is the residue. -/
theorem i64ToField_eq (p : Nat) (x : Int) (hx : x.natAbs ≤ p) : i64ToField p x = (x : ZMod p) := by
  unfold i64ToField
  split
  · next h =>
    obtain ⟨n, rfl⟩ := Int.eq_ofNat_of_zero_le h
    simp
  · next h =>
    have hx0 : x = -(x.natAbs : Int) := by omega
    rw [Nat.cast_sub hx, ZMod.natCast_self, zero_sub]
    conv_rhs => rw [hx0]
    rw [Int.cast_neg, Int.cast_natCast]

/-- In a table without duplicate rows the multiplicity recorded for a row is its own. -/
theorem filter_zip_map_sum {K : Type} [Field K] [DecidableEq K] (table : List (List K))
    (g : List K → K) (r : List K) (hnd : table.Nodup) (hr : r ∈ table) :
    (((table.zip (table.map g)).filter fun u => decide (u.1 = r)).map Prod.snd).sum = g r := by
  induction table with
  | nil => simp at hr
  | cons a ts ih =>
    obtain ⟨hna, hnd⟩ := List.nodup_cons.mp hnd
    simp only [List.map_cons, List.zip_cons_cons, List.filter_cons]
    by_cases ha : a = r
    · subst ha
      have : ((ts.zip (ts.map g)).filter fun u => decide (u.1 = a)) = [] := by
        rw [List.filter_eq_nil_iff]
        intro u hu
        have := (List.of_mem_zip hu).1
        simp only [decide_eq_true_eq]
        rintro rfl
        exact hna this
      simp [this]
    · simp only [ha, decide_false, Bool.false_eq_true, if_false]
      exact ih hnd (by
        rcases List.mem_cons.mp hr with h | h
        · exact absurd h.symm ha
        · exact h)

theorem countP_ge_two {α : Type} [BEq α] [LawfulBEq α] (P : α → Bool) (a b : α) (hab : a ≠ b) (ha : P a)
    (hb : P b) (l : List α) : l.count a + l.count b ≤ l.countP P := by
  induction l with
  | nil => simp
  | cons x l ih =>
    rw [List.count_cons, List.count_cons, List.countP_cons]
    by_cases h1 : x = a
    · subst h1
      have : (x == b) = false := by simpa using hab
      simp [ha, this]; omega
    · by_cases h2 : x = b
      · subst h2
        have : (x == a) = false := by simpa using h1
        simp [hb, this]; omega
      · have e1 : (x == a) = false := by simpa using h1
        have e2 : (x == b) = false := by simpa using h2
        simp [e1, e2]; omega

/-- The rows of a signed table are distinct. -/
theorem signedRows_nodup {p : Nat} [Fact p.Prime] (f : Int → Int) (n : Nat) (hn : 0 < n)
    (hp : 2 ^ n ≤ p) : (signedRows p f n).Nodup := by
  have hpow : (2 : Int) ^ n = 2 * 2 ^ (n - 1) := by
    obtain ⟨k, rfl⟩ := Nat.exists_eq_succ_of_ne_zero (Nat.pos_iff_ne_zero.mp hn)
    simp [pow_succ]; ring
  have hp' : (2 : Int) ^ n ≤ p := by exact_mod_cast hp
  have hpos : (0 : Int) < 2 ^ (n - 1) := by positivity
  unfold signedRows
  refine List.Nodup.map_on ?_ List.nodup_range
  intro i hi j hj e
  have hi : (i : Int) < 2 ^ n := by exact_mod_cast List.mem_range.mp hi
  have hj : (j : Int) < 2 ^ n := by exact_mod_cast List.mem_range.mp hj
  simp only [List.cons.injEq, and_true] at e
  have e := e.1
  rw [i64ToField_eq _ _ (by omega), i64ToField_eq _ _ (by omega)] at e
  have := int_eq_of_cast_eq e (by rw [abs_lt]; constructor <;> omega)
  omega

/-- **C08 is false for signed tables over Goldilocks.** The multiplicity hint compares keys by their
low 32 bits, and `-1 = 2^64 - 2^32` has the same low 32 bits as `0`. So for every tabulated function,
every width up to 32 and every query list in which the key `0` or `-1` occurs, the honest prover's
multiplicities fail the final check except at a `2 (2^n + #queries) / p` fraction of the
challenges. -/
theorem C08_goldilocks_signed_incomplete {T : Tables (ZMod goldP)} (f : Int → Int) (n : Nat)
    (hn : 0 < n) (hn' : n ≤ 32) (queries : List (List (ZMod goldP)))
    (hrows : ∀ r ∈ queries, r.length = 2) (hlen : queries.length < 2 ^ 32)
    (hq : [0, i64ToField goldP (f 0)] ∈ queries ∨ [-1, i64ToField goldP (f (-1))] ∈ queries) :
    ∃ bad : Finset (ZMod goldP × (Fin 1 → ZMod goldP)),
      bad.card ≤ 2 * (2 ^ n + queries.length) * goldP ∧
      ∀ (α : ZMod goldP) (c : Fin 1 → ZMod goldP) o,
        singleKeyFinalCheck ZMod.val (signedRows goldP f n) queries α (List.ofFn c) .honest = .ok o →
        Sat T o.cons → (α, c) ∈ bad := by
  set table := signedRows goldP f n with htab
  set r0 : List (ZMod goldP) := [0, i64ToField goldP (f 0)] with hr0
  set r1 : List (ZMod goldP) := [-1, i64ToField goldP (f (-1))] with hr1
  have hpn : 2 ^ n ≤ 2 ^ 32 := Nat.pow_le_pow_right (by norm_num) hn'
  have hp32 : (2 : Nat) ^ 32 < goldP := by norm_num [goldP]
  have hpow : (2 : Int) ^ n = 2 * 2 ^ (n - 1) := by
    obtain ⟨k, rfl⟩ := Nat.exists_eq_succ_of_ne_zero (Nat.pos_iff_ne_zero.mp hn)
    simp [pow_succ]; ring
  have hpowN : 2 ^ n = 2 * 2 ^ (n - 1) := by exact_mod_cast hpow
  have hposN : 0 < 2 ^ (n - 1) := by positivity
  have hlenT : table.length = 2 ^ n := by simp [htab, signedRows]
  have hnd : table.Nodup := signedRows_nodup f n hn (by omega)
  have hm0 : r0 ∈ table := by
    refine List.mem_map.mpr ⟨2 ^ (n - 1), List.mem_range.mpr (by omega), ?_⟩
    have : (((2 ^ (n - 1) : Nat) : Int) - 2 ^ (n - 1)) = 0 := by push_cast; ring
    simp only [this, hr0]
    rw [i64ToField_eq _ 0 (by simp)]; simp
  have hm1 : r1 ∈ table := by
    refine List.mem_map.mpr ⟨2 ^ (n - 1) - 1, List.mem_range.mpr (by omega), ?_⟩
    have : (((2 ^ (n - 1) - 1 : Nat) : Int) - 2 ^ (n - 1)) = -1 := by
      rw [Nat.cast_sub hposN]; push_cast; ring
    simp only [this, hr1]
    rw [i64ToField_eq _ (-1) (by simp [goldP])]; simp
  have hne : r0 ≠ r1 := by
    intro h
    have := (List.cons.inj h).1
    revert this; decide +kernel
  have hto : ZMod.val ((table.length : Nat) : ZMod goldP) = table.length := by
    rw [ZMod.val_natCast, Nat.mod_eq_of_lt (by omega)]
  obtain ⟨counts, hcnt, hc⟩ := singleKeyFinal_eq (T := T) ZMod.val table queries .honest
  have hk := queryCountByKey_ok ZMod.val table queries hto (by omega)
  have hcounts := hcnt ⟨_, .nil, .honest⟩ (by
    unfold newHint
    simp only [hk]
    rw [if_pos (by simp)])
  simp only at hcounts
  set g : List (ZMod goldP) → ZMod goldP := fun t => (((queries.countP fun q =>
        ZMod.val (q.headD 0) % 2 ^ 32 == ZMod.val (t.headD 0) % 2 ^ 32) % 2 ^ 32 : Nat) : ZMod goldP)
    with hg
  set P : List (ZMod goldP) → Bool := fun q => ZMod.val (q.headD 0) % 2 ^ 32 == 0 with hP
  have g0 : g r0 = ((queries.countP P : Nat) : ZMod goldP) := by
    simp only [hg, hr0, List.headD_cons, ZMod.val_zero, Nat.zero_mod]
    rw [Nat.mod_eq_of_lt (lt_of_le_of_lt List.countP_le_length hlen)]
  have hv1 : ZMod.val (-1 : ZMod goldP) % 2 ^ 32 = 0 := by decide +kernel
  have g1 : g r1 = ((queries.countP P : Nat) : ZMod goldP) := by
    simp only [hg, hr1, List.headD_cons, hv1]
    rw [Nat.mod_eq_of_lt (lt_of_le_of_lt List.countP_le_length hlen)]
  have hge := countP_ge_two P r0 r1 hne (by simp [hP, hr0]) (beq_iff_eq.mpr hv1) queries
  have hcast : ∀ a b : Nat, a ≤ queries.length → b ≤ queries.length →
      (a : ZMod goldP) = (b : ZMod goldP) → a = b := by
    intro a b ha hb e
    have := congrArg ZMod.val e
    rwa [ZMod.val_natCast, ZMod.val_natCast, Nat.mod_eq_of_lt (by omega),
      Nat.mod_eq_of_lt (by omega)] at this
  have hmis : ∃ r ∈ table, g r ≠ ((queries.count r : Nat) : ZMod goldP) := by
    by_contra hcon
    push Not at hcon
    have e0 := hcon r0 hm0
    have e1 := hcon r1 hm1
    rw [g0] at e0; rw [g1] at e1
    have e0 := hcast _ _ List.countP_le_length List.count_le_length e0
    have e1 := hcast _ _ List.countP_le_length List.count_le_length e1
    rcases hq with hq | hq
    · have := List.count_pos_iff.mpr hq; omega
    · have := List.count_pos_iff.mpr hq; omega
  obtain ⟨r, hr, hmis⟩ := hmis
  have hlen2 : ∀ r ∈ table, r.length = 2 := by
    intro r hr; obtain ⟨i, _, rfl⟩ := List.mem_map.mp hr; rfl
  obtain ⟨bad, hcard, hb⟩ := singleKey_bad (m := 1) table queries counts hlen2 hrows r (hlen2 r hr)
    (by rw [hcounts, filter_zip_map_sum table g r hnd hr]; exact hmis)
  refine ⟨bad, ?_, fun α c o ho hs => hb α c (hc α _ o ho hs)⟩
  rw [hlenT, ZMod.card, pow_one] at hcard
  exact hcard

/-- Hypotheses met: a 13-bit table and the single query `(0, f 0)`. -/
example : ∃ bad : Finset (ZMod goldP × (Fin 1 → ZMod goldP)),
      bad.card ≤ 2 * (2 ^ 13 + 1) * goldP ∧
      ∀ (α : ZMod goldP) (c : Fin 1 → ZMod goldP) o,
        singleKeyFinalCheck ZMod.val (signedRows goldP (fun x => x * x) 13) [[0, 0]] α (List.ofFn c)
          .honest = .ok o → Sat (fun _ _ => True) o.cons → (α, c) ∈ bad :=
  C08_goldilocks_signed_incomplete (fun x => x * x) 13 (by norm_num) (by norm_num) [[0, 0]] (by simp)
    (by simp) (.inl (by simp [i64ToField]))

/-- Hypotheses of the completeness theorem met: signed 8-bit table over BN254. -/
example (α : ZMod bn254P) (c : ZMod bn254P) : Complete (fun _ _ => True)
    (singleKeyFinalCheck ZMod.val (signedRows bn254P (fun x => x * x) 3) [[0, 0], [-1, 1], [0, 0]] α
      [c]) (fun _ => True) := by
  refine C08_single_key_table_complete_partial ZMod.val 1 (signedRows bn254P (fun x => x * x) 3)
    [[0, 0], [-1, 1], [0, 0]] (by simp) ?_ (by decide +kernel) (by decide +kernel)
    (by decide +kernel) (by simp) (by decide +kernel) (by decide +kernel) α [c] rfl
  intro r hr; obtain ⟨i, _, rfl⟩ := List.mem_map.mp hr; rfl

/-! ## C09 -/

/-- **C09.** If no denominator is zero, the summation tree returns a fraction with nonzero denominator
equal to the sum of all the fractions, for lists of every length. -/
theorem C09_sum_tree {K : Type} [Field K] (vs : List (Rat2 K)) (hden : ∀ v ∈ vs, v.den ≠ 0) :
    (sumRationalVec vs).den ≠ 0 ∧
      (sumRationalVec vs).num / (sumRationalVec vs).den = (vs.map fun v => v.num / v.den).sum := by
  rw [sumRationalVec_eq]
  induction vs with
  | nil => simp [rat2_zero]
  | cons v vs ih =>
    obtain ⟨h1, h2⟩ := ih fun w hw => hden w (by simp [hw])
    have hv := hden v (by simp)
    simp only [List.sum_cons, rat2_add, addRational, List.map_cons]
    refine ⟨mul_ne_zero hv h1, ?_⟩
    rw [← h2]
    field_simp

example : (sumRationalVec [⟨1, 2⟩, ⟨1, 3⟩, ⟨1, 6⟩, ⟨5, 1⟩, ⟨1, 4⟩] : Rat2 ℚ).num /
    (sumRationalVec [⟨1, 2⟩, ⟨1, 3⟩, ⟨1, 6⟩, ⟨5, 1⟩, ⟨1, 4⟩] : Rat2 ℚ).den = 25 / 4 := by
  rw [(C09_sum_tree _ (by simp)).2]; norm_num

/-! ## C10 -/

/-- **C10, signed tables.** Except for a `2 (2^n + #queries) / p` fraction of the challenges, if the
final check of the table of `f` on the signed `n`-bit domain passes, then every queried pair is
`(x, f x)` for an integer `x` of the domain; in particular no out-of-domain `x` passes. -/
theorem C10_signed_lookup_sound {p : Nat} [Fact p.Prime] {T : Tables (ZMod p)} (f : Int → Int)
    (n : Nat) (hn : 0 < n) (hp : 2 ^ n ≤ p)
    (hf : ∀ x : Int, -2 ^ (n - 1) ≤ x → x < 2 ^ (n - 1) → (f x).natAbs ≤ p)
    (queries : List (ZMod p × ZMod p)) (hlen : queries.length < p) (h : Hints (ZMod p)) :
    ∃ bad : Finset (ZMod p × (Fin 1 → ZMod p)),
      bad.card ≤ 2 * (2 ^ n + queries.length) * p ∧
      ∀ (α : ZMod p) (c : Fin 1 → ZMod p) o,
        singleKeyFinalCheck ZMod.val (signedRows p f n) (queries.map fun q => [q.1, q.2]) α
          (List.ofFn c) h = .ok o → Sat T o.cons → (α, c) ∉ bad →
        ∀ q ∈ queries, ∃ x : Int, -2 ^ (n - 1) ≤ x ∧ x < 2 ^ (n - 1) ∧
          q.1 = (x : ZMod p) ∧ q.2 = (f x : ZMod p) := by
  classical
  have hpow : (2 : Int) ^ n = 2 * 2 ^ (n - 1) := by
    obtain ⟨k, rfl⟩ := Nat.exists_eq_succ_of_ne_zero (Nat.pos_iff_ne_zero.mp hn)
    simp [pow_succ]; ring
  have hmem : ∀ a b : ZMod p, [a, b] ∈ signedRows p f n →
      ∃ x : Int, -2 ^ (n - 1) ≤ x ∧ x < 2 ^ (n - 1) ∧ a = (x : ZMod p) ∧ b = (f x : ZMod p) := by
    intro a b hab
    obtain ⟨i, hi, e⟩ := List.mem_map.mp hab
    have hi := List.mem_range.mp hi
    have hi' : (i : Int) < 2 ^ n := by exact_mod_cast hi
    have hpos : (0 : Int) < 2 ^ (n - 1) := by positivity
    have hx1 : -(2 : Int) ^ (n - 1) ≤ (i : Int) - 2 ^ (n - 1) := by linarith [Int.natCast_nonneg i]
    have hx2 : (i : Int) - 2 ^ (n - 1) < 2 ^ (n - 1) := by linarith
    simp only [List.cons.injEq, and_true] at e
    refine ⟨_, hx1, hx2, ?_, ?_⟩
    · rw [← e.1, i64ToField_eq]
      have : (p : Int) ≥ 2 ^ n := by exact_mod_cast hp
      omega
    · rw [← e.2, i64ToField_eq _ _ (hf _ hx1 hx2)]
  by_cases hall : ∀ q ∈ queries, [q.1, q.2] ∈ signedRows p f n
  · exact ⟨∅, by simp, fun α c o _ _ _ q hq => hmem _ _ (hall q hq)⟩
  · push Not at hall
    obtain ⟨q, hq, hqn⟩ := hall
    obtain ⟨bad, hcard, hb⟩ := C07_single_key_table_sound (T := T) ZMod.val 1 (signedRows p f n)
      (queries.map fun q => [q.1, q.2]) h
      (by intro r hr; obtain ⟨i, _, rfl⟩ := List.mem_map.mp hr; rfl)
      (by intro r hr; obtain ⟨i, _, rfl⟩ := List.mem_map.mp hr; rfl)
      (by
        intro k hk hle e
        rw [List.length_map] at hle
        rw [ZMod.natCast_eq_zero_iff] at e
        exact absurd (Nat.le_of_dvd hk e) (by omega))
      ⟨[q.1, q.2], List.mem_map.mpr ⟨q, hq, rfl⟩, hqn⟩
    refine ⟨bad, ?_, fun α c o ho hs hn' => absurd (hb α c o ho hs) hn'⟩
    refine le_trans hcard ?_
    rw [ZMod.card, pow_one]
    simp [signedRows]

/-- **C10, unsigned tables.** The same for `build_unsigned`. -/
theorem C10_unsigned_lookup_sound {p : Nat} [Fact p.Prime] {T : Tables (ZMod p)} (f : Int → Int)
    (n : Nat) (hf : ∀ x : Int, 0 ≤ x → x < 2 ^ n → (f x).natAbs ≤ p)
    (queries : List (ZMod p × ZMod p)) (hlen : queries.length < p) (h : Hints (ZMod p)) :
    ∃ bad : Finset (ZMod p × (Fin 1 → ZMod p)),
      bad.card ≤ 2 * (2 ^ n + queries.length) * p ∧
      ∀ (α : ZMod p) (c : Fin 1 → ZMod p) o,
        singleKeyFinalCheck ZMod.val (unsignedRows p f n) (queries.map fun q => [q.1, q.2]) α
          (List.ofFn c) h = .ok o → Sat T o.cons → (α, c) ∉ bad →
        ∀ q ∈ queries, ∃ x : Int, 0 ≤ x ∧ x < 2 ^ n ∧
          q.1 = (x : ZMod p) ∧ q.2 = (f x : ZMod p) := by
  classical
  have hmem : ∀ a b : ZMod p, [a, b] ∈ unsignedRows p f n →
      ∃ x : Int, 0 ≤ x ∧ x < 2 ^ n ∧ a = (x : ZMod p) ∧ b = (f x : ZMod p) := by
    intro a b hab
    obtain ⟨i, hi, e⟩ := List.mem_map.mp hab
    have hi := List.mem_range.mp hi
    have hi' : (i : Int) < 2 ^ n := by exact_mod_cast hi
    simp only [List.cons.injEq, and_true] at e
    refine ⟨i, by positivity, hi', ?_, ?_⟩
    · rw [← e.1]; simp
    · rw [← e.2, i64ToField_eq _ _ (hf _ (by positivity) hi')]
  by_cases hall : ∀ q ∈ queries, [q.1, q.2] ∈ unsignedRows p f n
  · exact ⟨∅, by simp, fun α c o _ _ _ q hq => hmem _ _ (hall q hq)⟩
  · push Not at hall
    obtain ⟨q, hq, hqn⟩ := hall
    obtain ⟨bad, hcard, hb⟩ := C07_single_key_table_sound (T := T) ZMod.val 1 (unsignedRows p f n)
      (queries.map fun q => [q.1, q.2]) h
      (by intro r hr; obtain ⟨i, _, rfl⟩ := List.mem_map.mp hr; rfl)
      (by intro r hr; obtain ⟨i, _, rfl⟩ := List.mem_map.mp hr; rfl)
      (by
        intro k hk hle e
        rw [List.length_map] at hle
        rw [ZMod.natCast_eq_zero_iff] at e
        exact absurd (Nat.le_of_dvd hk e) (by omega))
      ⟨[q.1, q.2], List.mem_map.mpr ⟨q, hq, rfl⟩, hqn⟩
    refine ⟨bad, ?_, fun α c o ho hs hn' => absurd (hb α c o ho hs) hn'⟩
    refine le_trans hcard ?_
    rw [ZMod.card, pow_one]
    simp [unsignedRows]

/-- The pair is pinned: within the domain, `x` determines `y`. -/
theorem C10_signed_lookup_functional {p : Nat} [Fact p.Prime] (f : Int → Int) (n : Nat) (hn : 0 < n)
    (hp : 2 ^ n ≤ p) (x x' : Int) (hx : -2 ^ (n - 1) ≤ x) (hx1 : x < 2 ^ (n - 1))
    (hx' : -2 ^ (n - 1) ≤ x') (hx1' : x' < 2 ^ (n - 1)) (h : (x : ZMod p) = (x' : ZMod p)) :
    f x = f x' := by
  have hpow : (2 : Int) ^ n = 2 * 2 ^ (n - 1) := by
    obtain ⟨k, rfl⟩ := Nat.exists_eq_succ_of_ne_zero (Nat.pos_iff_ne_zero.mp hn)
    simp [pow_succ]; ring
  have hp' : (2 : Int) ^ n ≤ p := by exact_mod_cast hp
  congr 1
  exact int_eq_of_cast_eq h (by rw [abs_lt]; constructor <;> linarith)

/-- Hypotheses met: ReLU tabulated on 8-bit signed integers over Goldilocks, three queries. -/
example (h : Hints (ZMod goldP)) : ∃ bad : Finset (ZMod goldP × (Fin 1 → ZMod goldP)),
    bad.card ≤ 2 * (2 ^ 8 + 3) * goldP ∧
      ∀ (α : ZMod goldP) (c : Fin 1 → ZMod goldP) o,
        singleKeyFinalCheck ZMod.val (signedRows goldP (fun x => max x 0) 8)
          ([((5 : ZMod goldP), (5 : ZMod goldP)), (-3, 0), (7, 7)].map fun q => [q.1, q.2]) α
          (List.ofFn c) h = .ok o → Sat (fun _ _ => True) o.cons → (α, c) ∉ bad →
        ∀ q ∈ [((5 : ZMod goldP), (5 : ZMod goldP)), (-3, 0), (7, 7)],
          ∃ x : Int, -2 ^ (8 - 1) ≤ x ∧ x < 2 ^ (8 - 1) ∧
          q.1 = (x : ZMod goldP) ∧ q.2 = ((max x 0 : Int) : ZMod goldP) := by
  refine C10_signed_lookup_sound (fun x => max x 0) 8 (by norm_num) (by norm_num [goldP]) ?_
    [((5 : ZMod goldP), (5 : ZMod goldP)), (-3, 0), (7, 7)] (by norm_num [goldP]) h
  intro x hx hx'
  norm_num at hx hx'
  have : (max x 0).natAbs ≤ 128 := by omega
  exact le_trans this (by norm_num [goldP])

end JST.Props
