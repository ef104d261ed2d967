import Verif.Gkr.Sumcheck

/-!
# The rounds as a protocol
-/

namespace JST.Gkr

open JST.Spec

variable {K : Type} [Field K] [DecidableEq K]

/-! ### The verifier's tree -/

omit [DecidableEq K] in
theorem readField_eq : (readField : VM K (K × Bool)) = .read fun m => .ret (m.getD 0, m.isSome) := by
  show VM.read _ = _
  congr 1; funext m; cases m <;> rfl

omit [DecidableEq K] in
theorem readAbsorb_succ (n : Nat) : (readAbsorb (n + 1) : VM K (List K × Bool)) =
    .read fun m => .absorb (m.getD 0) ((readAbsorb n).bind fun vs =>
      .ret (m.getD 0 :: vs.1, m.isSome && vs.2)) := by
  show VM.bind readField _ = _
  rw [readField_eq]; rfl

theorem verifyStep_two (claim : K) : verifyStep 2 claim =
    .read fun a => .absorb (a.getD 0) <| .read fun b => .absorb (b.getD 0) <|
      .read fun c => .absorb (c.getD 0) <| .squeeze fun r =>
        .ret ((a.isSome && (b.isSome && (c.isSome && true))) && decide (a.getD 0 + b.getD 0 = claim), r,
          deg2Eval (a.getD 0) (b.getD 0) (c.getD 0) r) := by
  show VM.bind (readAbsorb 3) _ = _
  rw [readAbsorb_succ, readAbsorb_succ, readAbsorb_succ]
  rfl

theorem verifyStep_three (claim : K) : verifyStep 3 claim =
    .read fun a => .absorb (a.getD 0) <| .read fun b => .absorb (b.getD 0) <|
      .read fun c => .absorb (c.getD 0) <| .read fun d => .absorb (d.getD 0) <| .squeeze fun r =>
        .ret ((a.isSome && (b.isSome && (c.isSome && (d.isSome && true)))) &&
          decide (a.getD 0 + b.getD 0 = claim), r,
          lagEval [a.getD 0, b.getD 0, c.getD 0, d.getD 0] r) := by
  show VM.bind (readAbsorb 4) _ = _
  rw [readAbsorb_succ, readAbsorb_succ, readAbsorb_succ, readAbsorb_succ]
  rfl

theorem verifyRounds_succ (deg n : Nat) (sum : K) : verifyRounds deg (n + 1) sum =
    (verifyStep deg sum).bind fun a => (verifyRounds deg n a.2.2).bind fun b =>
      .ret (a.1 && b.1, a.2.1 :: b.2.1, b.2.2) := rfl

/-! ### Completeness of the rounds -/

omit [DecidableEq K] in
theorem proveRounds_succ (s : Nat) (c : Nat → K) (post : K → K) (init : Nat → Pack K) (m : Nat)
    (first : Bool) (b : Bufs K) :
    proveRounds s c post init (m + 1) first b =
      let src := if first then init else b.v
      let p := prodPolyEval (2 ^ m) src b.hg b.ge
      .absorb (post (combine s p.1 c)) <| .absorb (post (combine s p.2.1 c)) <|
        .absorb (post (combine s p.2.2 c)) <| .squeeze fun r =>
          (proveRounds s c post init m false (prodReceive (2 ^ m) r src b)).bind fun rest =>
            .ret (r :: rest.1, rest.2) := rfl

omit [DecidableEq K] in
theorem proveSimd_succ (m : Nat) (e f h : Nat → K) :
    proveSimd (m + 1) e f h =
      let p := simdPolyEval (2 ^ m) e f h
      .absorb p.1 <| .absorb p.2.1 <| .absorb p.2.2.1 <| .absorb p.2.2.2 <| .squeeze fun r =>
        (proveSimd m (foldTo (2 ^ m) r e) (foldTo (2 ^ m) r f) (foldTo (2 ^ m) r h)).bind fun rest =>
          .ret (r :: rest.1, rest.2) := rfl

/-- The product rounds are accepted and reduce the claim to the tables' values at the challenges. -/
theorem sim_prodRounds (h2 : (2 : K) ≠ 0) (s : Nat) (c c' : Nat → K) (post : K → K)
    (hpost : ∀ p, post (combine s p c) = combine s p c') (init : Nat → Pack K) (m : Nat) :
    ∀ (first : Bool) (b : Bufs K) (src : Nat → Pack K) (sum : K), GeOk (2 ^ m) b →
      src = (if first then init else b.v) → sum = combine s (dotSum m b.hg src) c' →
      Sim (fun (p : List K × Bufs K) (v : Bool × List K × K) =>
          v.1 = true ∧ v.2.1 = p.1 ∧ p.1.length = m ∧ p.2.hg 0 = mle b.hg p.1 ∧
            ((0 < m ∨ first = false) → p.2.v 0 = mle src p.1) ∧
            v.2.2 = combine s (mle b.hg p.1 * mle src p.1) c')
        (proveRounds s c post init m first b) (verifyRounds 2 m sum) := by
  induction m with
  | zero =>
    intro first b src sum hg hs hsum
    refine Sim.ret ⟨rfl, rfl, rfl, (mle_nil _).symm, ?_, ?_⟩
    · intro h
      have : first = false := by simpa using h
      subst this
      simp [hs, mle_nil]
    · rw [mle_nil, mle_nil, hsum, dotSum_zero]
  | succ m ih =>
    intro first b src sum hg hs hsum
    have hg' : GeOk (2 * 2 ^ m) b := by rwa [pow_succ, mul_comm] at hg
    rw [proveRounds_succ, verifyRounds_succ, verifyStep_two]
    simp only [← hs, prodPolyEval_spec m src b hg', hpost]
    refine Sim.msg rfl (Sim.msg rfl (Sim.msg rfl (Sim.squeeze fun r => ?_)))
    simp only [VM.ret_bind, Option.getD_some]
    have hok : combine s (evenSum m b.hg src) c' + combine s (oddSum m b.hg src) c' = sum := by
      rw [hsum, dotSum_succ, combine_add]
    have hnext : deg2Eval (combine s (evenSum m b.hg src) c') (combine s (oddSum m b.hg src) c')
        (combine s (dotSum m (foldv (2 : K) b.hg) (foldv (2 : K) src)) c') r =
        combine s (dotSum m (foldv r b.hg) (foldv r src)) c' := by
      have := deg2Eval_quad h2 (combine s (evenSum m b.hg src) c')
        (combine s (oddSum m b.hg src) c' - combine s (evenSum m b.hg src) c' -
          combine s (diffSum m b.hg src) c') (combine s (diffSum m b.hg src) c') r
      rw [dotSum_foldv, dotSum_foldv]
      simp only [combine_add, combine_smul, combine_sub]
      rw [← sub_eq_zero] at this ⊢
      rw [← this]
      congr 1
      · congr 1 <;> ring
      · ring
    have hsim := ih false (prodReceive (2 ^ m) r src b) (prodReceive (2 ^ m) r src b).v
      (combine s (dotSum m (foldv r b.hg) (foldv r src)) c') (prodReceive_ge m r src b) rfl (by
        congr 1
        exact dotSum_congr m _ _ _ _ (fun i hi => (prodReceive_hg m r src b hg' i hi).symm)
          fun i hi => (prodReceive_v m r src b i hi).symm)
    rw [hnext]
    refine Sim.bind hsim ?_
    rintro ⟨rs, b'⟩ ⟨ok, rs', sum'⟩ ⟨q1, q2, q3, q4, q5, q6⟩
    simp only at q1 q2 q3 q4 q5 q6
    have e1 : mle (prodReceive (2 ^ m) r src b).hg rs = mle b.hg (r :: rs) := by
      rw [← mle_foldv]
      exact mle_congr _ _ _ fun i hi => prodReceive_hg m r src b hg' i (by rwa [q3] at hi)
    have e2 : mle (prodReceive (2 ^ m) r src b).v rs = mle src (r :: rs) := by
      rw [← mle_foldv]
      exact mle_congr _ _ _ fun i hi => prodReceive_v m r src b i (by rwa [q3] at hi)
    refine Sim.ret ⟨?_, ?_, ?_, ?_, ?_, ?_⟩
    · simp [q1, hok]
    · simp [q2]
    · simp [q3]
    · simp only [q4, e1]
    · intro _
      simp only [q5 (Or.inr trivial), e2]
    · simp only [q6, e1, e2]

/-- The SIMD rounds are accepted and reduce the claim to the tables' values at the challenges. -/
theorem sim_simdRounds (h6 : (6 : K) ≠ 0) (m : Nat) :
    ∀ (e f h : Nat → K) (sum : K), sum = triSum m e f h →
      Sim (fun (p : List K × (Nat → K) × (Nat → K) × (Nat → K)) (v : Bool × List K × K) =>
          v.1 = true ∧ v.2.1 = p.1 ∧ p.1.length = m ∧ p.2.1 0 = mle e p.1 ∧ p.2.2.1 0 = mle f p.1 ∧
            p.2.2.2 0 = mle h p.1 ∧ v.2.2 = mle e p.1 * mle f p.1 * mle h p.1)
        (proveSimd m e f h) (verifyRounds 3 m sum) := by
  induction m with
  | zero =>
    intro e f h sum hsum
    refine Sim.ret ⟨rfl, rfl, rfl, (mle_nil _).symm, (mle_nil _).symm, (mle_nil _).symm, ?_⟩
    rw [mle_nil, mle_nil, mle_nil, hsum, triSum_zero]
  | succ m ih =>
    intro e f h sum hsum
    rw [proveSimd_succ, verifyRounds_succ, verifyStep_three]
    simp only [simdPolyEval_spec]
    refine Sim.msg rfl (Sim.msg rfl (Sim.msg rfl (Sim.msg rfl (Sim.squeeze fun r => ?_))))
    simp only [VM.ret_bind, Option.getD_some]
    have hok := (triSum_succ m e f h).symm.trans hsum.symm
    obtain ⟨a, b, c, d, hc⟩ := triSum_foldv m e f h
    have hnext : lagEval [triSum m (foldv (0 : K) e) (foldv (0 : K) f) (foldv (0 : K) h),
        triSum m (foldv (1 : K) e) (foldv (1 : K) f) (foldv (1 : K) h),
        triSum m (foldv (2 : K) e) (foldv (2 : K) f) (foldv (2 : K) h),
        triSum m (foldv (3 : K) e) (foldv (3 : K) f) (foldv (3 : K) h)] r =
        triSum m (foldv r e) (foldv r f) (foldv r h) := by
      simp only [hc]
      rw [← lagEval_cubic h6 a b c d r]
      congr 2
      · ring
      · congr 1; ring
    have fe : ∀ (g : Nat → K), ∀ i < 2 ^ m, foldTo (2 ^ m) r g i = foldv r g i := by
      intro g i hi
      rw [foldTo, if_pos hi]; rfl
    have hsim := ih (foldTo (2 ^ m) r e) (foldTo (2 ^ m) r f) (foldTo (2 ^ m) r h)
      (triSum m (foldv r e) (foldv r f) (foldv r h)) 
      (triSum_congr m _ _ _ _ _ _ (fun i hi => (fe e i hi).symm) (fun i hi => (fe f i hi).symm)
        fun i hi => (fe h i hi).symm)
    rw [hnext]
    refine Sim.bind hsim ?_
    rintro ⟨rs, p⟩ ⟨ok, rs', sum'⟩ ⟨q1, q2, q3, q4, q5, q6, q7⟩
    simp only at q1 q2 q3 q4 q5 q6 q7
    have me : ∀ g : Nat → K, mle (foldTo (2 ^ m) r g) rs = mle g (r :: rs) := fun g =>
      mle_foldTo g r rs _ (by rw [q3])
    rw [me] at q4 q5 q6
    rw [me, me, me] at q7
    refine Sim.ret ⟨?_, ?_, ?_, q4, q5, q6, q7⟩
    · simp [q1, hok]
    · simp [q2]
    · simp [q3]

/-! ### Soundness of the rounds -/

theorem err_step2 {α : Type} {P : α → Prop} {e : Nat} {claim : K} {T : K → K} (hT : IsPoly 2 T)
    (hne : claim ≠ T 0 + T 1) (k : Bool × K × K → VM K α) (hfalse : ∀ r c, Err P e (k (false, r, c)))
    (htrue : ∀ r c, c ≠ T r → Err P e (k (true, r, c))) :
    Err P (2 + e) ((verifyStep 2 claim).bind k) := by
  rw [verifyStep_two]
  refine .read fun a => .absorb (.read fun b => .absorb (.read fun c => .absorb ?_))
  by_cases hok : a.getD 0 + b.getD 0 = claim
  · obtain ⟨B, hB, hb⟩ := (deg2Eval_poly (a.getD 0) (b.getD 0) (c.getD 0)).bad01 hT
      (by rw [deg2Eval_zero, deg2Eval_one, hok]; exact hne)
    refine .squeeze B hB fun r hr => ?_
    simp only [VM.ret_bind]
    cases (a.isSome && (b.isSome && (c.isSome && true))) && decide (a.getD 0 + b.getD 0 = claim)
    · exact hfalse _ _
    · exact htrue _ _ (hb r hr)
  · refine .squeeze ∅ (by simp) fun r _ => ?_
    simp only [VM.ret_bind, hok, decide_false, Bool.and_false]
    exact hfalse _ _

theorem err_step3 (h6 : (6 : K) ≠ 0) {α : Type} {P : α → Prop} {e : Nat} {claim : K} {T : K → K}
    (hT : IsPoly 3 T)
    (hne : claim ≠ T 0 + T 1) (k : Bool × K × K → VM K α) (hfalse : ∀ r c, Err P e (k (false, r, c)))
    (htrue : ∀ r c, c ≠ T r → Err P e (k (true, r, c))) :
    Err P (3 + e) ((verifyStep 3 claim).bind k) := by
  rw [verifyStep_three]
  refine .read fun a => .absorb (.read fun b => .absorb (.read fun c => .absorb (.read fun d => .absorb ?_)))
  by_cases hok : a.getD 0 + b.getD 0 = claim
  · obtain ⟨B, hB, hb⟩ := (lagEval_poly (a.getD 0) (b.getD 0) (c.getD 0) (d.getD 0)).bad01 hT
      (by rw [lagEval_zero h6, lagEval_one h6, hok]; exact hne)
    refine .squeeze B hB fun r hr => ?_
    simp only [VM.ret_bind]
    cases (a.isSome && (b.isSome && (c.isSome && (d.isSome && true)))) &&
      decide (a.getD 0 + b.getD 0 = claim)
    · exact hfalse _ _
    · exact htrue _ _ (hb r hr)
  · refine .squeeze ∅ (by simp) fun r _ => ?_
    simp only [VM.ret_bind, hok, decide_false, Bool.and_false]
    exact hfalse _ _

theorem post_step (deg : Nat) (claim : K) : Post (fun _ => True) (verifyStep deg claim) := Post.true _

/-- The rounds give as many challenges as there are variables. -/
theorem post_rounds (deg n : Nat) (sum : K) :
    Post (fun v : Bool × List K × K => v.2.1.length = n) (verifyRounds deg n sum) := by
  induction n generalizing sum with
  | zero => exact .ret rfl
  | succ n ih =>
    rw [verifyRounds_succ]
    refine Post.bind (Post.true _) fun a _ => Post.bind (ih _) fun b hb => .ret ?_
    simp [hb]

omit [DecidableEq K] in
theorem dotSum_isPoly (s n : Nat) (c : Nat → K) (h v : Nat → Pack K) :
    IsPoly 2 fun t => combine s (dotSum n (foldv t h) (foldv t v)) c := by
  refine (isPoly_quad (combine s (evenSum n h v) c)
    (combine s (oddSum n h v) c - combine s (evenSum n h v) c - combine s (diffSum n h v) c)
    (combine s (diffSum n h v) c)).congr fun t => ?_
  rw [dotSum_foldv]
  simp only [combine_add, combine_smul, combine_sub]
  ring

omit [DecidableEq K] in
theorem triSum_isPoly (n : Nat) (e f h : Nat → K) :
    IsPoly 3 fun t => triSum n (foldv t e) (foldv t f) (foldv t h) := by
  obtain ⟨a, b, c, d, hc⟩ := triSum_foldv n e f h
  exact (isPoly_cubic a b c d).congr fun t => (hc t).symm

/-- A wrong claim at the start of the product rounds stays wrong, except for two bad values per round. -/
theorem err_rounds2 {α : Type} {P : α → Prop} {e : Nat} (s : Nat) (c : Nat → K) (n : Nat) :
    ∀ (sum : K) (v h : Nat → Pack K) (k : Bool × List K × K → VM K α),
      sum ≠ combine s (dotSum n h v) c →
      (∀ rs sum', rs.length = n → Err P e (k (false, rs, sum'))) →
      (∀ rs sum', rs.length = n → sum' ≠ combine s (mle h rs * mle v rs) c → Err P e (k (true, rs, sum'))) →
      Err P (2 * n + e) ((verifyRounds 2 n sum).bind k) := by
  induction n with
  | zero =>
    intro sum v h k hne hfalse htrue
    rw [Nat.mul_zero, Nat.zero_add]
    refine htrue [] sum rfl ?_
    rwa [mle_nil, mle_nil, ← dotSum_zero]
  | succ n ih =>
    intro sum v h k hne hfalse htrue
    rw [verifyRounds_succ, VM.bind_assoc, show 2 * (n + 1) + e = 2 + (2 * n + e) by ring]
    refine err_step2 (dotSum_isPoly s n c h v) ?_ _ (fun r sum' => ?_) fun r sum' hs => ?_
    · intro he
      refine hne (he.trans ?_)
      rw [dotSum_succ', combine_add]
    · rw [VM.bind_assoc]
      refine Err.bind_post (post_rounds 2 n sum') fun b hb => ?_
      exact (hfalse _ _ (by simp [hb])).mono (by omega)
    · rw [VM.bind_assoc]
      refine ih sum' (foldv r v) (foldv r h) _ hs (fun rs s' hl => ?_) fun rs s' hl hs' => ?_
      · exact hfalse _ _ (by simp [hl])
      · rw [mle_foldv, mle_foldv] at hs'
        exact htrue _ _ (by simp [hl]) hs'

/-- A wrong claim at the start of the SIMD rounds stays wrong, except for three bad values per round. -/
theorem err_rounds3 (h6 : (6 : K) ≠ 0) {α : Type} {P : α → Prop} {e : Nat} (n : Nat) :
    ∀ (sum : K) (x y z : Nat → K) (k : Bool × List K × K → VM K α),
      sum ≠ triSum n x y z →
      (∀ rs sum', rs.length = n → Err P e (k (false, rs, sum'))) →
      (∀ rs sum', rs.length = n → sum' ≠ mle x rs * mle y rs * mle z rs → Err P e (k (true, rs, sum'))) →
      Err P (3 * n + e) ((verifyRounds 3 n sum).bind k) := by
  induction n with
  | zero =>
    intro sum x y z k hne hfalse htrue
    rw [Nat.mul_zero, Nat.zero_add]
    refine htrue [] sum rfl ?_
    rwa [mle_nil, mle_nil, mle_nil, ← triSum_zero]
  | succ n ih =>
    intro sum x y z k hne hfalse htrue
    rw [verifyRounds_succ, VM.bind_assoc, show 3 * (n + 1) + e = 3 + (3 * n + e) by ring]
    refine err_step3 h6 (triSum_isPoly n x y z) ?_ _ (fun r sum' => ?_) fun r sum' hs => ?_
    · intro he
      exact hne (he.trans (triSum_succ n x y z).symm)
    · rw [VM.bind_assoc]
      refine Err.bind_post (post_rounds 3 n sum') fun b hb => ?_
      exact (hfalse _ _ (by simp [hb])).mono (by omega)
    · rw [VM.bind_assoc]
      refine ih sum' (foldv r x) (foldv r y) (foldv r z) _ hs (fun rs s' hl => ?_) fun rs s' hl hs' => ?_
      · exact hfalse _ _ (by simp [hl])
      · rw [mle_foldv, mle_foldv, mle_foldv] at hs'
        exact htrue _ _ (by simp [hl]) hs'

end JST.Gkr
