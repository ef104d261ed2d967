import Verif.Gkr.LayerAlg

/-!
# One layer of the protocol: completeness and soundness
-/

namespace JST.Gkr

open JST.Spec

variable {K : Type} [Field K] [DecidableEq K]

/-- The multilinear extension of a table of packed values, in the wire and lane variables. -/
def mle2 (w : Nat → Pack K) (rz rs : List K) : K := mle (mle w rz) rs

omit [DecidableEq K] in
theorem evalAtChallenge_eq (w : Nat → Pack K) (rz rs : List K) : evalAtChallenge w rz rs = mle2 w rz rs := by
  rw [evalAtChallenge, evalFold_spec, evalFold_spec, mle2]

/-! ### Invariants -/

/-- The verifier's state between two layers: lengths, and the tables carried over from the previous
layer. -/
structure VInv (n s : Nat) (isOut : Bool) (st : VState K) : Prop where
  l0 : st.chal.rz0.length = n
  l1 : ∀ rz1, st.chal.rz1 = some rz1 → rz1.length = n
  ls : st.chal.rSimd.length = s
  v1 : st.v1.isSome = st.chal.rz1.isSome
  out : isOut = true → st.chal.rz1 = none
  rx : isOut = false → ∀ i < 2 ^ n, st.eqRx i = chi st.chal.rz0 i
  ry : isOut = false → ∀ rz1, st.chal.rz1 = some rz1 → ∀ i < 2 ^ n, st.eqRy i = chi rz1 i

/-- `alpha` is drawn exactly when there are two points. -/
def AlphaOk (st : VState K) : Prop := st.alpha.isSome = st.chal.rz1.isSome

/-- The combined claim the verifier starts a layer with. -/
def claim0 (st : VState K) : K :=
  match st.v1, st.alpha with
  | some v1, some a => st.v0 + v1 * a
  | _, _ => st.v0

/-- The value the combined claim should have for the layer outputs `out`. -/
def target (st : VState K) (out : Nat → Pack K) : K :=
  match st.chal.rz1, st.alpha with
  | some rz1, some a => mle2 out st.chal.rz0 st.chal.rSimd + a * mle2 out rz1 st.chal.rSimd
  | _, _ => mle2 out st.chal.rz0 st.chal.rSimd

/-- The claims in the state are the values of the table at the points in the state. -/
def ClaimTrue (st : VState K) (w : Nat → Pack K) : Prop :=
  st.v0 = mle2 w st.chal.rz0 st.chal.rSimd ∧
    ∀ rz1 v1, st.chal.rz1 = some rz1 → st.v1 = some v1 → v1 = mle2 w rz1 st.chal.rSimd

theorem prepare_target (l : Layer K) (s : Nat) (isOut : Bool) (st : VState K) (h : VInv l.outVars s isOut st)
    (ha : AlphaOk st) (out : Nat → Pack K) :
    mle (weighted l.outVars (prepareRz0 l isOut st) out) st.chal.rSimd = target st out := by
  rcases h1 : st.chal.rz1 with _ | rz1
  · have e1 : ∀ o < 2 ^ l.outVars, prepareRz0 l isOut st o = chi st.chal.rz0 o := by
      intro o ho
      unfold prepareRz0
      cases isOut with
      | true => rw [if_pos rfl, eqEvalAt_spec, if_pos (by rwa [h.l0]), one_mul]
      | false =>
        rw [if_neg (by simp)]
        simp only [h1]
        cases st.alpha <;> simp only <;> rw [if_pos (by rwa [h.l0]), h.rx rfl o ho]
    rw [weighted_congr _ _ _ _ e1, weighted_chi _ _ h.l0]
    simp only [target, h1]
    rfl
  · have hf : isOut = false := by
      cases isOut with
      | false => rfl
      | true => exact absurd (h.out rfl) (by simp [h1])
    rcases h2 : st.alpha with _ | a
    · simp [AlphaOk, h1, h2] at ha
    have e1 : ∀ o < 2 ^ l.outVars, prepareRz0 l isOut st o = chi st.chal.rz0 o + a * chi rz1 o := by
      intro o ho
      unfold prepareRz0
      rw [hf, if_neg (by simp)]
      simp only [h1, h2]
      rw [if_pos ho, if_pos (by rwa [h.l0]), h.rx hf o ho, h.ry hf rz1 h1 o ho]
    rw [weighted_congr _ _ _ _ e1, weighted_add, weighted_chi _ _ h.l0, weighted_chi _ _ (h.l1 rz1 h1),
      mle_add, mle_smul]
    simp only [target, h1, h2]
    rfl

/-! ### The verifier's tree -/

/-- The state after a layer without multiplications. -/
def skipState (st : VState K) (l : Layer K) (E : Nat → K) (x y : Bool × List K × K) (vx : K × Bool) : VState K :=
  { st with
      chal := ⟨x.2.1, none, y.2.1⟩, v0 := vx.1, v1 := none,
      verified := st.verified && (x.1 && y.1 && vx.2 && decide
        (y.2.2 - vx.1 * evalAdd l.add E (eqEvalAt x.2.1 1 st.eqRx) (eqVec st.chal.rSimd y.2.1) = 0)),
      eqRz0 := E, eqRx := eqEvalAt x.2.1 1 st.eqRx }

/-- The state after a layer with multiplications. -/
def mulState (st : VState K) (l : Layer K) (E : Nat → K) (x y z : Bool × List K × K) (vx vy : K × Bool) :
    VState K :=
  { st with
      chal := ⟨x.2.1, some z.2.1, y.2.1⟩, v0 := vx.1, v1 := some vy.1,
      verified := st.verified && (x.1 && y.1 && vx.2 && z.1 && vy.2 &&
        decide (z.2.2 = vx.1 * vy.1 * evalMul l.mul E (eqEvalAt x.2.1 1 st.eqRx) (eqEvalAt z.2.1 1 st.eqRy)
          (eqVec st.chal.rSimd y.2.1))),
      eqRz0 := E, eqRx := eqEvalAt x.2.1 1 st.eqRx, eqRy := eqEvalAt z.2.1 1 st.eqRy }

/-- The part of `verifyLayer` after the rounds of phase one. -/
def layerTail (l : Layer K) (st : VState K) (E : Nat → K) (x y : Bool × List K × K) : VM K (VState K) :=
  readField.bind fun vx => .absorb vx.1 <|
    if l.skip then .ret (skipState st l E x y vx)
    else (verifyRounds 2 l.inVars
        (y.2.2 - vx.1 * evalAdd l.add E (eqEvalAt x.2.1 1 st.eqRx) (eqVec st.chal.rSimd y.2.1))).bind fun z =>
      readField.bind fun vy => .absorb vy.1 <| .ret (mulState st l E x y z vx vy)

theorem verifyLayer_eq (s : Nat) (l : Layer K) (pub : Nat → Pack K) (isOut : Bool) (st : VState K) :
    verifyLayer s l pub isOut st =
      (verifyRounds 2 l.inVars (claim0 st - evalCst s l.cst pub (prepareRz0 l isOut st)
        (eqEvalAt st.chal.rSimd 1 fun _ => 0))).bind fun x =>
      (verifyRounds 3 s x.2.2).bind fun y => layerTail l st (prepareRz0 l isOut st) x y := rfl

omit [DecidableEq K] in
theorem readField_bind {α : Type} (f : K × Bool → VM K α) :
    readField.bind f = .read fun m => f (m.getD 0, m.isSome) := by
  rw [readField_eq]; rfl

/-- What holds after any run of a layer. -/
theorem post_tail (l : Layer K) (st : VState K) (E : Nat → K) (s : Nat) (x y : Bool × List K × K)
    (hx : x.2.1.length = l.inVars) (hy : y.2.1.length = s) :
    Post (fun st' => VInv l.inVars s false st' ∧ ((st.verified && (x.1 && y.1)) = false → st'.verified = false))
      (layerTail l st E x y) := by
  rw [layerTail, readField_bind]
  refine .read fun m => .absorb ?_
  have tab : ∀ (r : List K) (buf : Nat → K), r.length = l.inVars → ∀ i < 2 ^ l.inVars,
      eqEvalAt r 1 buf i = chi r i := by
    intro r buf hr i hi
    rw [eqEvalAt_spec, if_pos (by rwa [hr]), one_mul]
  split_ifs with hs
  · refine .ret ⟨⟨hx, ?_, hy, rfl, ?_, ?_, ?_⟩, ?_⟩
    · intro rz1 h; simp [skipState] at h
    · intro h; simp at h
    · intro _ i hi; exact tab _ _ hx i hi
    · intro _ rz1 h; simp [skipState] at h
    · intro h
      simp only [skipState]
      revert h
      cases st.verified <;> cases x.1 <;> cases y.1 <;> simp
  · refine Post.bind (post_rounds 2 l.inVars _) fun z hz => ?_
    rw [readField_bind]
    refine .read fun m' => .absorb (.ret ⟨⟨hx, ?_, hy, rfl, ?_, ?_, ?_⟩, ?_⟩)
    · intro rz1 h
      simp only [mulState, Option.some.injEq] at h
      rw [← h, hz]
    · intro h; simp at h
    · intro _ i hi; exact tab _ _ hx i hi
    · intro _ rz1 h i hi
      simp only [mulState, Option.some.injEq] at h
      rw [← h]
      exact tab _ _ hz i hi
    · intro h
      simp only [mulState]
      revert h
      cases st.verified <;> cases x.1 <;> cases y.1 <;> simp

/-! ### Values at the end of the phases -/

theorem evalAdd_spec (l : Layer K) (hl : l.WF) (E X : Nat → K) (rx : List K)
    (hX : ∀ i < 2 ^ l.inVars, X i = chi rx i) (q : K) :
    evalAdd l.add E X q = (l.add.map fun g => E g.o * chi rx g.i * g.coef).sum * q := by
  rw [evalAdd]
  congr 1
  exact congrArg List.sum (List.map_congr_left fun g hg => by rw [hX _ (hl.add g hg).2])

theorem evalMul_spec (l : Layer K) (hl : l.WF) (E X Y : Nat → K) (ry : List K)
    (hY : ∀ i < 2 ^ l.inVars, Y i = chi ry i) (q : K) :
    evalMul l.mul E X Y q = (l.mul.map fun g => E g.o * (X g.i0 * chi ry g.i1 * g.coef)).sum * q := by
  rw [evalMul]
  congr 1
  exact congrArg List.sum (List.map_congr_left fun g hg => by rw [hY _ (hl.mul g hg).2.2])

/-- The claim after phase one, split into the part of the additions and the claim of phase two. -/
theorem phase_one_end (l : Layer K) (hl : l.WF) (w : Nat → Pack K) (E X : Nat → K) (rs rx rs' : List K)
    (s : Nat) (hs' : rs'.length = s) (hrs : rs.length = s) (hx : rx.length = l.inVars)
    (hX : ∀ i < 2 ^ l.inVars, X i = chi rx i) :
    mle (chi rs) rs' * mle (mle w rx) rs' * mle (mle (hgX l w E) rx) rs' -
        mle2 w rx rs' * evalAdd l.add E X (eqVec rs rs') =
      combine s (dotSum l.inVars (hgY l E X) w) (fun k => (eqVec rs rs' * mle2 w rx rs') * chi rs' k) := by
  rw [combine_scale, combine_chi s _ _ hs', mle_dotSum_hgY l hl, mle_mle_hgX l hl w E rx rs' hx,
    evalAdd_spec l hl E X rx hX, ← eqVec_spec rs rs' (by rw [hrs, hs'])]
  have : (l.mul.map fun g => E g.o * chi rx g.i0 * g.coef * mle (w g.i1) rs').sum =
      (l.mul.map fun g => E g.o * X g.i0 * g.coef * mle (w g.i1) rs').sum :=
    congrArg List.sum (List.map_congr_left fun g hg => by rw [hX _ (hl.mul g hg).2.1])
  rw [this, mle2]
  ring

/-- The claim after phase two. -/
theorem phase_two_end (l : Layer K) (hl : l.WF) (w : Nat → Pack K) (E X Y : Nat → K) (rs' ry : List K)
    (s : Nat) (hs' : rs'.length = s) (hy : ry.length = l.inVars)
    (hY : ∀ i < 2 ^ l.inVars, Y i = chi ry i) (q vx : K) :
    combine s (mle (hgY l E X) ry * mle w ry) (fun k => (q * vx) * chi rs' k) =
      vx * mle2 w ry rs' * evalMul l.mul E X Y q := by
  rw [combine_scale, combine_chi s _ _ hs', mle_hgY l hl E X ry hy, evalMul_spec l hl E X Y ry hY]
  have : ((fun _ => (l.mul.map fun g => E g.o * (X g.i0 * chi ry g.i1 * g.coef)).sum : Pack K) * mle w ry) =
      (l.mul.map fun g => E g.o * (X g.i0 * chi ry g.i1 * g.coef)).sum • mle w ry := by
    funext k; simp
  rw [this, mle_smul, mle2]
  ring

theorem tri_of_combine (s : Nat) (p q : Pack K) (c : Nat → K) :
    combine s (p * q) c = triSum s c q p := by
  simp only [combine, triSum, Pi.mul_apply]
  exact Finset.sum_congr rfl fun i _ => by ring

theorem skip_iff (l : Layer K) : l.skip = true ↔ l.mul = [] := by simp [Layer.skip]

/-! ### Soundness of a layer -/

/-- The number of bad challenge values of a layer. -/
def layerErr (s : Nat) (l : Layer K) : Nat :=
  2 * l.inVars + 3 * s + if l.skip then 0 else 2 * l.inVars

/-- A wrong claim about the outputs of a layer leads to rejection or to a wrong claim about its inputs. -/
theorem err_layer (h6 : (6 : K) ≠ 0) {α : Type} {P : α → Prop} {e : Nat} (s : Nat) (l : Layer K) (hl : l.WF)
    (pub w : Nat → Pack K) (isOut : Bool) (st : VState K) (hinv : VInv l.outVars s isOut st)
    (ha : AlphaOk st) (hne : claim0 st ≠ target st (l.evaluate pub w)) (k : VState K → VM K α)
    (hfalse : ∀ st', st'.verified = false → Err P e (k st'))
    (htrue : ∀ st', VInv l.inVars s false st' → st'.chal.rz1.isSome = !l.skip → ¬ ClaimTrue st' w →
      Err P e (k st')) :
    Err P (layerErr s l + e) ((verifyLayer s l pub isOut st).bind k) := by
  have hrs := hinv.ls
  have hsimd : ∀ j < 2 ^ s, eqEvalAt st.chal.rSimd 1 (fun _ => 0) j = chi st.chal.rSimd j := by
    intro j hj
    rw [eqEvalAt_spec, if_pos (by rwa [hrs]), one_mul]
  rw [← prepare_target l s isOut st hinv ha] at hne
  rw [verifyLayer_eq]
  generalize prepareRz0 l isOut st = E at hne ⊢
  have hsum := layer_sum s l hl pub w E _ st.chal.rSimd hrs hsimd
  have tailFalse : ∀ (x y : Bool × List K × K) (e' : Nat), e ≤ e' → x.2.1.length = l.inVars → y.2.1.length = s →
      (x.1 && y.1) = false → Err P e' ((layerTail l st E x y).bind k) := by
    intro x y e' he' hx hy h
    refine Err.bind_post (post_tail l st E s x y hx hy) fun st' hst' => (hfalse st' (hst'.2 ?_)).mono he'
    rw [h, Bool.and_false]
  rw [VM.bind_assoc, show layerErr s l + e = 2 * l.inVars + (3 * s + ((if l.skip then 0 else 2 * l.inVars) + e))
    by unfold layerErr; ring]
  refine err_rounds2 s (chi st.chal.rSimd) l.inVars _ w (hgX l w E) _ ?_ ?_ ?_
  · rw [← hsum]
    intro h
    exact hne (sub_left_inj.mp h)
  · intro rx sum' hx
    rw [VM.bind_assoc]
    refine Err.bind_post (post_rounds 3 s _) fun y hy => ?_
    exact tailFalse _ y _ (by omega) hx hy rfl
  · intro rx sum1 hx hsum1
    rw [VM.bind_assoc]
    rw [tri_of_combine] at hsum1
    refine err_rounds3 h6 s sum1 _ _ _ _ hsum1 ?_ ?_
    · intro rs' sum' hy
      exact tailFalse _ _ _ (by omega) hx hy rfl
    · intro rs' sum2 hy hsum2
      have hX : ∀ i < 2 ^ l.inVars, eqEvalAt rx 1 st.eqRx i = chi rx i := by
        intro i hi
        rw [eqEvalAt_spec, if_pos (by rwa [hx]), one_mul]
      have hpe := phase_one_end l hl w E _ st.chal.rSimd rx rs' s hy hrs hx hX
      have badVx : ∀ (m : Option K) (e' : Nat), e ≤ e' → m.getD 0 ≠ mle2 w rx rs' → ∀ (st' : VState K),
          VInv l.inVars s false st' → st'.chal.rz1.isSome = (!l.skip) → st'.v0 = m.getD 0 → st'.chal.rz0 = rx → st'.chal.rSimd = rs' →
          Err P e' (k st') := by
        intro m e' he hm st' hi hz h0 h1 h2
        refine (htrue st' hi hz fun hc => hm ?_).mono he
        rw [← h0, hc.1, h1, h2]
      have hpost := post_tail l st E s (true, rx, sum1) (true, rs', sum2) hx hy
      rw [layerTail, readField_bind] at hpost ⊢
      cases hpost with
      | read hpost =>
      refine .read fun m => ?_
      have hpm := hpost m
      cases hpm with
      | absorb hpm =>
      refine .absorb ?_
      dsimp only at hpm ⊢
      by_cases hsk : l.skip = true
      · rw [if_pos hsk] at hpm ⊢
        rw [if_pos hsk, Nat.zero_add]
        cases hpm with
        | ret hpm =>
        by_cases hvx : m.getD 0 = mle2 w rx rs'
        · refine hfalse _ ?_
          have hmul := (skip_iff l).mp hsk
          have hz : combine s (dotSum l.inVars (hgY l E (eqEvalAt rx 1 st.eqRx)) w)
              (fun k => (eqVec st.chal.rSimd rs' * mle2 w rx rs') * chi rs' k) = 0 := by
            rw [combine_scale, combine_chi s _ _ hy, mle_dotSum_hgY l hl, hmul]
            simp
          rw [hz] at hpe
          simp only [skipState]
          rw [hvx]
          have : ¬ (sum2 - mle2 w rx rs' * evalAdd l.add E (eqEvalAt rx 1 st.eqRx)
              (eqVec st.chal.rSimd rs') = 0) := by
            rw [← hpe]
            exact fun h => hsum2 (sub_left_inj.mp h)
          simp [this]
        · exact badVx m e le_rfl hvx _ hpm.1 (by simp [skipState, hsk]) rfl rfl rfl
      · rw [if_neg hsk] at hpm ⊢
        rw [if_neg hsk]
        by_cases hvx : m.getD 0 = mle2 w rx rs'
        · rw [VM.bind_assoc]
          refine err_rounds2 s (fun k => (eqVec st.chal.rSimd rs' * mle2 w rx rs') * chi rs' k) l.inVars _ w
            (hgY l E (eqEvalAt rx 1 st.eqRx)) _ ?_ ?_ ?_
          · rw [← hpe, hvx]
            exact fun h => hsum2 (sub_left_inj.mp h)
          · intro ry sum' hry
            rw [readField_bind]
            refine .read fun m' => .absorb (hfalse _ ?_)
            simp [mulState]
          · intro ry sum3 hry hsum3
            have hY : ∀ i < 2 ^ l.inVars, eqEvalAt ry 1 st.eqRy i = chi ry i := by
              intro i hi
              rw [eqEvalAt_spec, if_pos (by rwa [hry]), one_mul]
            rw [phase_two_end l hl w E _ _ rs' ry s hy hry hY] at hsum3
            rw [readField_bind]
            refine .read fun m' => .absorb ?_
            by_cases hvy : m'.getD 0 = mle2 w ry rs'
            · refine hfalse _ ?_
              simp only [mulState]
              rw [hvx, hvy]
              simp [hsum3]
            · refine htrue _ ⟨hx, ?_, hy, rfl, ?_, ?_, ?_⟩ (by simp [mulState, hsk]) ?_
              · intro rz1 h
                simp only [mulState, Option.some.injEq] at h
                rw [← h, hry]
              · intro h; simp at h
              · intro _ i hi; exact hX i hi
              · intro _ rz1 h i hi
                simp only [mulState, Option.some.injEq] at h
                rw [← h]
                exact hY i hi
              · intro hc
                exact hvy (hc.2 ry (m'.getD 0) rfl rfl)
        · refine Err.bind_post (Q := fun st' => VInv l.inVars s false st' ∧
            st'.chal.rz1.isSome = (!l.skip) ∧ st'.v0 = m.getD 0 ∧
            st'.chal.rz0 = rx ∧ st'.chal.rSimd = rs') ?_ fun st' h =>
              badVx m _ (by omega) hvx st' h.1 h.2.1 h.2.2.1 h.2.2.2.1 h.2.2.2.2
          refine Post.bind (post_rounds 2 l.inVars _) fun z hz => ?_
          rw [readField_bind]
          refine .read fun m' => .absorb (.ret ⟨⟨hx, ?_, hy, rfl, ?_, ?_, ?_⟩, by simp [mulState, hsk], rfl, rfl, rfl⟩)
          · intro rz1 h
            simp only [mulState, Option.some.injEq] at h
            rw [← h, hz]
          · intro h; simp at h
          · intro _ i hi; exact hX i hi
          · intro _ rz1 h i hi
            simp only [mulState, Option.some.injEq] at h
            rw [← h]
            show eqEvalAt z.2.1 1 st.eqRy i = chi z.2.1 i
            rw [eqEvalAt_spec, if_pos (by rwa [hz]), one_mul]

/-! ### Completeness of a layer -/

/-- The prover's and the verifier's state agree, and the verifier's claims are true of `out`. -/
structure Agree (n s : Nat) (isOut : Bool) (p : PState K) (v : VState K) (out : Nat → Pack K) : Prop where
  chal : v.chal = p.chal
  alpha : v.alpha = p.alpha
  ok : v.verified = true
  inv : VInv n s isOut v
  claim : ClaimTrue v out
  rx : isOut = false → p.chal.rz1.isSome → ∀ i < 2 ^ n, p.eqRx i = chi p.chal.rz0 i
  simd : isOut = false → p.chal.rz1.isSome → ∀ i < 2 ^ s, p.eqSimd0 i = chi p.chal.rSimd i

theorem claim0_target (n s : Nat) (isOut : Bool) (v : VState K) (out : Nat → Pack K) (h : VInv n s isOut v)
    (hc : ClaimTrue v out) : claim0 v = target v out := by
  have hv := h.v1
  rcases h1 : v.chal.rz1 with _ | rz1 <;> rcases h2 : v.v1 with _ | v1 <;> simp [h1, h2] at hv
  · simp only [claim0, target, h1, h2, hc.1]
  · have := hc.2 rz1 v1 h1 h2
    rcases h3 : v.alpha with _ | a <;> simp only [claim0, target, h1, h2, h3, hc.1]
    rw [this]; ring

theorem proverRz0_spec (l : Layer K) (s : Nat) (isOut : Bool) (p : PState K) (v : VState K)
    (out : Nat → Pack K) (h : Agree l.outVars s isOut p v out) (ha : AlphaOk v) :
    ∀ i < 2 ^ l.outVars, proverRz0 isOut p i = prepareRz0 l isOut v i := by
  intro i hi
  have hchal := h.chal
  have hal := h.alpha
  have l0 := h.inv.l0
  rcases h1 : v.chal.rz1 with _ | rz1
  · have e1 : proverRz0 isOut p i = chi v.chal.rz0 i := by
      unfold proverRz0
      rw [← hchal, h1]
      cases isOut <;> simp only <;> rw [eqEvalAt_spec, if_pos (by rwa [l0]), one_mul]
    rw [e1]
    unfold prepareRz0
    cases isOut with
    | true => rw [if_pos rfl, eqEvalAt_spec, if_pos (by rwa [l0]), one_mul]
    | false =>
      rw [if_neg (by simp)]
      simp only [h1]
      cases v.alpha <;> simp only <;> rw [if_pos (by rwa [l0]), h.inv.rx rfl i hi]
  · have hf : isOut = false := by
      cases isOut with
      | false => rfl
      | true => exact absurd (h.inv.out rfl) (by simp [h1])
    rcases h2 : v.alpha with _ | a
    · simp [AlphaOk, h1, h2] at ha
    subst hf
    have hrx := h.rx rfl (by rw [← hchal, h1]; rfl) i hi
    unfold prepareRz0 proverRz0
    rw [← hchal, ← hal, if_neg (by simp)]
    simp only [h1, h2]
    rw [if_pos (by rwa [l0]), if_pos hi, if_pos (by rwa [l0]), eqEvalAt_spec,
      if_pos (by rwa [h.inv.l1 rz1 h1]), h.inv.rx rfl i hi, h.inv.ry rfl rz1 h1 i hi, hrx, hchal]
    ring

omit [DecidableEq K] in
theorem hgX_congr (l : Layer K) (hl : l.WF) (w : Nat → Pack K) (E E' : Nat → K)
    (h : ∀ i < 2 ^ l.outVars, E i = E' i) : hgX l w E = hgX l w E' := by
  funext i
  simp only [hgX]
  congr 1
  · exact congrArg List.sum (List.map_congr_left fun g hg => by rw [h _ (hl.mul g hg).1])
  · exact congrArg List.sum (List.map_congr_left fun g hg => by rw [h _ (hl.add g hg).1])

omit [DecidableEq K] in
theorem hgY_congr (l : Layer K) (hl : l.WF) (E E' X X' : Nat → K)
    (h : ∀ i < 2 ^ l.outVars, E i = E' i) (hX : ∀ i < 2 ^ l.inVars, X i = X' i) :
    hgY l E X = hgY l E' X' := by
  funext i
  simp only [hgY]
  exact congrArg List.sum (List.map_congr_left fun g hg => by
    rw [h _ (hl.mul g hg).1, hX _ (hl.mul g hg).2.1])

/-- The prover's table at `r_simd`, sumcheck_gkr_vanilla.rs:204-220. -/
def proverSimd (isOut : Bool) (st : PState K) : Nat → K :=
  if isOut || st.alpha.isNone then eqEvalAt st.chal.rSimd 1 st.eqSimd0 else st.eqSimd0

omit [DecidableEq K] in
theorem proveLayer_eq (s : Nat) (l : Layer K) (w : Nat → Pack K) (isOut : Bool) (st : PState K) :
    proveLayer s l w isOut st =
      (proveRounds s (proverSimd isOut st) id w l.inVars true
        (prepareX l w (proverRz0 isOut st) st.bufs)).bind fun x =>
      (proveSimd s (proverSimd isOut st) (x.2.v 0) (x.2.hg 0)).bind fun y =>
      .absorb (y.2.2.1 0) <|
        if l.skip then
          .ret { st with
            chal := ⟨x.1, none, y.1⟩, bufs := x.2, eqRz0 := proverRz0 isOut st, eqSimd0 := y.2.1 }
        else
          (proveRounds s (eqEvalAt y.1 1 y.2.1)
            (fun p => p * (eqVec ([] : List K) [] * y.2.1 0 * y.2.2.1 0)) w l.inVars true
            (prepareY l (proverRz0 isOut st) (eqEvalAt x.1 1 st.eqRx) x.2)).bind fun z =>
          .absorb (combine s (z.2.v 0) (eqEvalAt y.1 1 y.2.1)) <|
          .ret { st with
            chal := ⟨x.1, some z.1, y.1⟩, bufs := z.2, eqRz0 := proverRz0 isOut st,
            eqRx := eqEvalAt x.1 1 st.eqRx, eqSimd0 := eqEvalAt y.1 1 y.2.1 } := rfl

theorem proverSimd_spec (n s : Nat) (isOut : Bool) (p : PState K) (v : VState K)
    (out : Nat → Pack K) (h : Agree n s isOut p v out) (ha : AlphaOk v) :
    ∀ i < 2 ^ s, proverSimd isOut p i = chi v.chal.rSimd i := by
  intro i hi
  unfold proverSimd
  rw [← h.chal]
  split_ifs with hc
  · rw [eqEvalAt_spec, if_pos (by rwa [h.inv.ls]), one_mul]
  · simp only [Bool.or_eq_true, not_or, Bool.not_eq_true] at hc
    rw [h.simd hc.1 ?_ i hi, h.chal]
    rw [← h.chal, ← show v.alpha.isSome = v.chal.rz1.isSome from ha, h.alpha]
    simpa using hc.2

/-- On the honest prover's messages the verifier accepts the layer, and both continue with the same
challenges and true claims about the layer's input. -/
theorem sim_layer (h6 : (6 : K) ≠ 0) (s : Nat) (l : Layer K) (hl : l.WF) (hn : 0 < l.inVars)
    (pub w : Nat → Pack K) (isOut : Bool) (p : PState K) (v : VState K)
    (h : Agree l.outVars s isOut p v (l.evaluate pub w)) (ha : AlphaOk v) :
    Sim (fun p' v' => Agree l.inVars s false p' v' w) (proveLayer s l w isOut p)
      (verifyLayer s l pub isOut v) := by
  have h2 := two_ne_of_six h6
  have hrs := h.inv.ls
  have hE := proverRz0_spec l s isOut p v _ h ha
  have hS := proverSimd_spec _ s isOut p v _ h ha
  have hsimd : ∀ j < 2 ^ s, eqEvalAt v.chal.rSimd 1 (fun _ => 0) j = chi v.chal.rSimd j := by
    intro j hj
    rw [eqEvalAt_spec, if_pos (by rwa [hrs]), one_mul]
  have hclaim : claim0 v = mle (weighted l.outVars (prepareRz0 l isOut v) (l.evaluate pub w)) v.chal.rSimd := by
    rw [prepare_target l s isOut v h.inv ha, claim0_target _ _ _ _ _ h.inv h.claim]
  rw [proveLayer_eq, verifyLayer_eq]
  generalize prepareRz0 l isOut v = E at hE hclaim ⊢
  generalize proverRz0 isOut p = E' at hE ⊢
  generalize proverSimd isOut p = S at hS ⊢
  have hgx : hgX l w E' = hgX l w E := hgX_congr l hl w E' E hE
  rw [hclaim, layer_sum s l hl pub w E _ v.chal.rSimd hrs hsimd]
  refine Sim.bind (sim_prodRounds h2 s S (chi v.chal.rSimd) id (fun q => combine_congr s q _ _ hS) w l.inVars
    true _ w _ (prepareX_ge l w E' p.bufs) (by simp) ?_) ?_
  · congr 1
    exact dotSum_congr _ _ _ _ _ (fun i hi => by rw [prepareX_hg l w E' p.bufs i hi, hgx]) fun _ _ => rfl
  rintro ⟨rx, b⟩ ⟨ok1, rx', sum1⟩ ⟨h1, h3, hx, hhg, hv, hsum1⟩
  simp only at h1 h3 hx hhg hv hsum1 ⊢
  subst h1 h3
  have hv := hv (Or.inl hn)
  have hm : mle (prepareX l w E' p.bufs).hg rx' = mle (hgX l w E) rx' := by
    refine mle_congr _ _ _ fun i hi => ?_
    rw [prepareX_hg l w E' p.bufs i (by rwa [← hx]), hgx]
  rw [hm] at hhg hsum1
  have hsum1 : sum1 = triSum s S (b.v 0) (b.hg 0) := by
    rw [hsum1, tri_of_combine, hv, hhg]
    exact triSum_congr _ _ _ _ _ _ _ (fun i hi => (hS i hi).symm) (fun _ _ => rfl) fun _ _ => rfl
  refine Sim.bind (sim_simdRounds h6 s S (b.v 0) (b.hg 0) sum1 hsum1) ?_
  rintro ⟨rs', e, f, g⟩ ⟨ok2, rs'', sum2⟩ ⟨h4, h5, hy, he, hf, hg, hsum2⟩
  simp only at h4 h5 hy he hf hg hsum2 ⊢
  subst h4 h5
  have hS' : mle S rs'' = mle (chi v.chal.rSimd) rs'' :=
    mle_congr _ _ _ fun i hi => hS i (by rwa [← hy])
  have hX : ∀ (buf : Nat → K), ∀ i < 2 ^ l.inVars, eqEvalAt rx' 1 buf i = chi rx' i := by
    intro buf i hi
    rw [eqEvalAt_spec, if_pos (by rwa [hx]), one_mul]
  have hf2 : f 0 = mle2 w rx' rs'' := by rw [hf, hv, mle2]
  have he2 : e 0 = eqVec v.chal.rSimd rs'' := by
    rw [he, hS', ← eqVec_spec _ _ (by rw [hrs, hy])]
  have hpe := phase_one_end l hl w E _ v.chal.rSimd rx' rs'' s hy hrs hx (hX v.eqRx)
  rw [← hS', ← hv, ← hhg, ← hsum2] at hpe
  rw [layerTail, readField_bind, hf2]
  refine Sim.msg rfl ?_
  simp only [Option.getD_some, Option.isSome_some]
  by_cases hsk : l.skip = true
  · rw [if_pos hsk, if_pos hsk]
    have hmul := (skip_iff l).mp hsk
    have hz : combine s (dotSum l.inVars (hgY l E (eqEvalAt rx' 1 v.eqRx)) w)
        (fun k => (eqVec v.chal.rSimd rs'' * mle2 w rx' rs'') * chi rs'' k) = 0 := by
      rw [combine_scale, combine_chi s _ _ hy, mle_dotSum_hgY l hl, hmul]
      simp
    rw [hz] at hpe
    refine Sim.ret ⟨rfl, h.alpha, ?_, ⟨hx, ?_, hy, rfl, ?_, ?_, ?_⟩, ⟨rfl, ?_⟩, ?_, ?_⟩
    · simp only [skipState, h.ok, Bool.true_and, Bool.and_true]
      exact decide_eq_true hpe
    · intro rz1 h'; simp [skipState] at h'
    · intro h'; simp at h'
    · intro _ i hi; exact hX _ i hi
    · intro _ rz1 h'; simp [skipState] at h'
    · intro rz1 v1 h'; simp [skipState] at h'
    · intro _ h'; simp at h'
    · intro _ h'; simp at h'
  · rw [if_neg hsk, if_neg hsk]
    have hgy : hgY l E' (eqEvalAt rx' 1 p.eqRx) = hgY l E (eqEvalAt rx' 1 v.eqRx) :=
      hgY_congr l hl E' E _ _ hE fun i hi => by rw [hX _ i hi, hX _ i hi]
    have hS2 : ∀ i < 2 ^ s, eqEvalAt rs'' 1 e i = chi rs'' i := by
      intro i hi
      rw [eqEvalAt_spec, if_pos (by rwa [hy]), one_mul]
    have hpost : ∀ q : Pack K, (fun q : K => q * (eqVec ([] : List K) [] * e 0 * mle2 w rx' rs''))
        (combine s q (eqEvalAt rs'' 1 e)) =
        combine s q (fun k => (eqVec v.chal.rSimd rs'' * mle2 w rx' rs'') * chi rs'' k) := by
      intro q
      rw [combine_scale, combine_congr s q _ _ hS2, he2]
      simp [eqVec]
    rw [hpe]
    refine Sim.bind (sim_prodRounds h2 s _ _ _ hpost w l.inVars true _ w _
      (prepareY_ge l E' (eqEvalAt rx' 1 p.eqRx) b) (by simp) ?_) ?_
    · congr 1
      exact dotSum_congr _ _ _ _ _ (fun i hi => by rw [prepareY_hg l E' _ b i hi, hgy]) fun _ _ => rfl
    rintro ⟨ry, b'⟩ ⟨ok3, ry', sum3⟩ ⟨h7, h8, hry, hhg', hv', hsum3⟩
    simp only at h7 h8 hry hhg' hv' hsum3 ⊢
    subst h7 h8
    have hv' := hv' (Or.inl hn)
    have hY : ∀ i < 2 ^ l.inVars, eqEvalAt ry' 1 v.eqRy i = chi ry' i := by
      intro i hi
      rw [eqEvalAt_spec, if_pos (by rwa [hry]), one_mul]
    have hm' : mle (prepareY l E' (eqEvalAt rx' 1 p.eqRx) b).hg ry' =
        mle (hgY l E (eqEvalAt rx' 1 v.eqRx)) ry' := by
      refine mle_congr _ _ _ fun i hi => ?_
      rw [prepareY_hg l E' _ b i (by rwa [← hry]), hgy]
    rw [hm', phase_two_end l hl w E _ _ rs'' ry' s hy hry hY] at hsum3
    have hvy : combine s (b'.v 0) (eqEvalAt rs'' 1 e) = mle2 w ry' rs'' := by
      rw [combine_congr s _ _ _ hS2, combine_chi s _ _ hy, hv', mle2]
    rw [readField_bind, hvy]
    refine Sim.msg rfl (Sim.ret ⟨rfl, h.alpha, ?_, ⟨hx, ?_, hy, rfl, ?_, ?_, ?_⟩, ⟨rfl, ?_⟩, ?_, ?_⟩)
    · simp only [mulState, h.ok, Bool.true_and, Option.getD_some, Option.isSome_some]
      exact decide_eq_true hsum3
    · intro rz1 h'
      simp only [mulState, Option.some.injEq] at h'
      rw [← h', hry]
    · intro h'; simp at h'
    · intro _ i hi; exact hX _ i hi
    · intro _ rz1 h' i hi
      simp only [mulState, Option.some.injEq] at h'
      rw [← h']
      exact hY i hi
    · intro rz1 v1 h' h''
      simp only [mulState, Option.some.injEq, Option.getD_some] at h' h''
      rw [← h', ← h'']
      rfl
    · intro _ _ i hi; exact hX _ i hi
    · intro _ _ i hi; exact hS2 i hi

end JST.Gkr
