import Verif.Pcs.WhirSound
import Verif.Pcs.WhirGold
import Verif.Props.Basefold

/-!
# C69, C70: the WHIR commitment

C69: what an accepted opening says about the committed polynomial. C70: an honest opening is accepted, and the verifier does
not panic. `perLeaf size = some epl` says that an element fits a leaf; the hypothesis on `genQueries` says that the loops
drawing distinct query indices end within `fuel` batches.
-/

namespace JST.Props

open JST.Pcs JST.Pcs.Whir JST.Spec JST.Merkle JST.Gkr Polynomial

variable {K L N τ : Type} [Field K] [Field L] [Algebra K L] [DecidableEq L] [DecidableEq N]

/-- C69 fails: for every hash, every transcript, every commitment, every point and every value `v` there is an opening that
the verifier accepts. It neither depends on the committed polynomial nor needs luck with the challenges, and all its Merkle paths
have whatever length and leaf one likes: the verifier never opens the commitment, and does not compare the leaves of the
round trees, or the values at the points it draws, with anything. -/
theorem C69_any_value (S : Whir.Setup K L N τ) (fuel : Nat) (hsize : ∃ epl, 0 < epl ∧ perLeaf S.size = some epl)
    (hq : ∀ tr len count, 0 < len → ∃ r, Whir.genQueries S.T fuel tr len count = some r) (root : N) (n : Nat) (hn : 1 ≤ n)
    (hn' : n ≤ 62) (point : List L) (hp : point.length = n) (v : L) (leaf : Mem) (depth : Nat → Nat) (tr : τ) :
    ∃ op, Whir.verify S fuel ⟨root, n⟩ point v op tr = some true ∧
      (∀ cr ps, op.queries[cr]? = some ps → ∀ p ∈ ps, p.leaf = leaf ∧ p.pathNodes.length = depth cr) ∧
      op.finalPoly = List.replicate (finalLen n) v :=
  forge S fuel hsize hq leaf depth ⟨root, n⟩ point v hn hn' hp tr

/-- C69 fails for both shipped configurations (`d = 3` and `d = 4`): any value is accepted for any commitment. -/
theorem C69_goldilocks_any_value {d w : Nat} [Fact (Irreducible (X ^ d - C ((w : Nat) : ZMod goldP)))] (hs : Shipped d w)
    (ser : ExtRing goldP d w → Mem) (h : Hash Mem N) (T : Transcript τ (ExtRing goldP d w) N) (queries : Nat → Nat) (fuel : Nat)
    (hq : ∀ tr len count, 0 < len → ∃ r, Whir.genQueries T fuel tr len count = some r) (root : N) (n : Nat) (hn : 1 ≤ n)
    (hn' : n ≤ 62) (point : List (ExtRing goldP d w)) (hp : point.length = n) (v : ExtRing goldP d w) (tr : τ) :
    ∃ op, Whir.verify (goldWhir d w ser h T queries) fuel ⟨root, n⟩ point v op tr = some true := by
  obtain ⟨kl, _, hk⟩ := shipped_perLeaf hs
  obtain ⟨op, h1, _⟩ := C69_any_value (goldWhir d w ser h T queries) fuel ⟨2 ^ kl, Nat.two_pow_pos _, hk⟩ hq root n hn hn' point hp v []
    (fun _ => 0) tr
  exact ⟨op, h1⟩

/-- A transcript for the examples: its challenges are all five, its query words `0, 1, 2, …`. -/
noncomputable def whirTranscript (d w : Nat) [Fact (Irreducible (X ^ d - C ((w : Nat) : ZMod goldP)))] :
    Transcript Unit (ExtRing goldP d w) Nat :=
  ⟨fun _ _ => (), fun _ _ => (), fun _ => (5, ()), fun _ k => (List.range k, ())⟩

/-- The same commitment, with a committed round, opens to 1 and to 2 at the same point. -/
example : ∃ op op', Whir.verify (goldWhir 3 2 (fun _ => []) toyHash (whirTranscript 3 2) fun _ => 67) 1 ⟨17, 6⟩ [1, 2, 3, 4, 5, 6] 1 op () =
      some true ∧ Whir.verify (goldWhir 3 2 (fun _ => []) toyHash (whirTranscript 3 2) fun _ => 67) 1 ⟨17, 6⟩ [1, 2, 3, 4, 5, 6] 2 op' () =
      some true := by
  have h := fun v => C69_goldilocks_any_value Shipped.three (fun _ => []) toyHash (whirTranscript 3 2) (fun _ => 67) 1
    (range_queries _ fun _ _ => rfl) 17 6 (by norm_num) (by norm_num) [1, 2, 3, 4, 5, 6] rfl v ()
  obtain ⟨op, h1⟩ := h 1
  obtain ⟨op', h2⟩ := h 2
  exact ⟨op, op', h1, h2⟩

/-- C69, the part that holds: suppose the constant the prover sends last is the value of the polynomial `f` at the challenges
it was given. Then the claimed value is that of `f` at the point, unless some challenge lies in a set of at most two elements
that was fixed before that challenge was drawn: it depends on `f`, the point, the value, and the messages and challenges up to
then. *Missing*: nothing the verifier checks forces the constant to be the value of the committed polynomial, see
`C69_any_value`. -/
theorem C69_sumcheck_partial (f : Nat → L) (point : List L) (v : L) (hv : v ≠ mle f point) :
    ∃ lucky : List (RoundMsg L) → List L → Set L,
      (∀ ms cs, ms.length = cs.length + 1 → cs.length < point.length → (lucky ms cs).Finite ∧ (lucky ms cs).ncard ≤ 2) ∧
      ∀ (S : Whir.Setup K L N τ) (fuel : Nat) (com : Commitment N) (op : Whir.Opening L N) (tr tr' : τ) (chs : List L) (claim : L),
        Whir.verify S fuel com point v op tr = some true →
        Whir.verifyRounds S.T op com.numVars (committedRounds com.numVars) 0 0 v (S.T.node tr com.root) =
          some (some (chs, claim, tr')) →
        op.finalPoly.head? = some (mle f chs) →
        ∃ i, ∃ hi : i < chs.length, chs[i] ∈ lucky (op.messages.take (i + 1)) (chs.take i) := by
  refine ⟨Whir.lucky v f point, fun ms cs hm hc => ?_, fun S fuel com op tr tr' chs claim h hr hk =>
    sound_sumcheck h hr f hk hv⟩
  obtain ⟨ms, m, rfl⟩ : ∃ ms' m, ms = ms' ++ [m] := by
    rcases List.eq_nil_or_concat ms with rfl | ⟨l, a, rfl⟩
    · simp at hm
    · exact ⟨l, a, by simp⟩
  have hm' : ms.length = cs.length := by simpa using hm
  have hfin : (Whir.lucky v f point (ms ++ [m]) cs).Finite := by
    by_contra hinf
    obtain ⟨R, hR, hcard⟩ := Set.Infinite.exists_subset_card_eq hinf 3
    have := lucky_card v f point ms m cs hm' hc R fun r hr => hR hr
    omega
  refine ⟨hfin, ?_⟩
  rw [Set.ncard_eq_toFinset_card _ hfin]
  exact lucky_card v f point ms m cs hm' hc _ fun r hr => by simpa using hr

/-- The hypotheses can be met, by luck: the polynomial `x - 3` has the value 2 at the challenges `(5, 5)` and the value 0 at the
point `(3, 4)`, where the forged opening with the constant 2 is accepted for the value 2. -/
example : ∃ op tr' chs claim, Whir.verify (goldWhir 4 7 (fun _ => []) toyHash (whirTranscript 4 7) fun _ => 67) 1 ⟨17, 2⟩ [3, 4] 2 op () =
      some true ∧
    Whir.verifyRounds (whirTranscript 4 7) op 2 (committedRounds 2) 0 0 2 () = some (some (chs, claim, tr')) ∧
    op.finalPoly.head? = some (mle (fun i => if i % 2 = 0 then -3 else -2) chs) ∧
    (2 : ExtRing goldP 4 7) ≠ mle (fun i => if i % 2 = 0 then -3 else -2) ([3, 4] : List (ExtRing goldP 4 7)) := by
  obtain ⟨op, h1, _, h3⟩ := C69_any_value (goldWhir 4 7 (fun _ => []) toyHash (whirTranscript 4 7) fun _ => 67) 1 ⟨2, by norm_num, rfl⟩
    (range_queries _ fun _ _ => rfl) 17 2 (by norm_num) (by norm_num) [3, 4] rfl 2 [] (fun _ => 0) ()
  obtain ⟨_, _, _, s4, _⟩ := shape_spec (verify_shape h1)
  obtain ⟨a, b, hab⟩ := List.length_eq_two.mp s4
  have hmle : ∀ x y : ExtRing goldP 4 7, mle (fun i => if i % 2 = 0 then -3 else -2) ([x, y] : List (ExtRing goldP 4 7)) = x - 3 := by
    intro x y
    rw [mle_cons, mle_cons, mle_nil]
    norm_num
    ring
  have hr : ∃ claim, Whir.verifyRounds (whirTranscript 4 7) op 2 (committedRounds 2) 0 0 2 () = some (some ([5, 5], claim, ())) := by
    rw [show committedRounds 2 = 0 from rfl, Whir.verifyRounds, hab]
    exact ⟨_, rfl⟩
  obtain ⟨claim, hr⟩ := hr
  refine ⟨op, (), [5, 5], claim, h1, hr, ?_, ?_⟩
  · rw [h3, hmle]
    show some (2 : ExtRing goldP 4 7) = _
    norm_num
  · rw [hmle]
    have h2 : (2 : ExtRing goldP 4 7) ≠ 0 := by
      have h0 : (2 : ZMod goldP) ≠ 0 := by decide +kernel
      have := (map_ne_zero_iff (algebraMap (ZMod goldP) (ExtRing goldP 4 7))
        (FaithfulSMul.algebraMap_injective (ZMod goldP) (ExtRing goldP 4 7))).mpr h0
      rwa [map_ofNat] at this
    simpa using h2

/-! ### C70 -/

/-- C70. The verifier ends with a verdict, and does not panic, on every commitment, point, value and opening. -/
theorem C70_verifier_total (S : Whir.Setup K L N τ) (fuel : Nat) (hsize : ∃ epl, 0 < epl ∧ perLeaf S.size = some epl)
    (hq : ∀ tr len count, 0 < len → ∃ r, Whir.genQueries S.T fuel tr len count = some r) (com : Commitment N) (point : List L) (v : L)
    (op : Whir.Opening L N) (tr : τ) : ∃ b, Whir.verify S fuel com point v op tr = some b :=
  verify_total S fuel hsize hq com point v op tr

example : Whir.verify (goldWhir 4 7 (fun _ => []) toyHash (whirTranscript 4 7) fun _ => 67) 1 ⟨17, 6⟩ [3, 4] 2 ⟨[], [], [], [], [], []⟩ () =
    some false := by
  unfold Whir.verify
  rw [if_pos (by simp [Whir.shapeOk])]

variable [Inhabited N]

/-- C70. Completeness for both shipped configurations: for every `2^n` values, `1 ≤ n ≤ 31`, the code has a codeword, the prover
does not panic, and its opening is accepted with the value of the multilinear extension at the point. *Missing*: from 29
variables on the accepted opening cannot be read back, see `C70_unreadable`. -/
theorem C70_goldilocks_complete_partial {d w : Nat} [Fact (Irreducible (X ^ d - C ((w : Nat) : ZMod goldP)))] (hs : Shipped d w)
    (ser : ExtRing goldP d w → Mem) (h : Hash Mem N) (T : Transcript τ (ExtRing goldP d w) N) (queries : Nat → Nat) (fuel : Nat)
    (hq : ∀ tr len count, 0 < len → ∃ r, Whir.genQueries T fuel tr len count = some r)
    (mem : Nat → List (ExtRing goldP d w) → List Mem)
    (hmem : ∀ round cw, (mem round cw).length = cw.length ∧ ∀ b ∈ mem round cw, b.length = 8 * d)
    (n : Nat) (hn : 1 ≤ n) (hn' : n ≤ 31) (evals : List (ZMod goldP)) (he : evals.length = 2 ^ n) :
    ∃ cw, rsEncodeWithRate (fieldOps (ZMod goldP)) goldFft evals Whir.rateLog = some cw ∧
      ∀ (root : N) (point : List (ExtRing goldP d w)) (tr : τ), point.length = n →
        ∃ op, openWhir (goldWhir d w ser h T queries) fuel mem (evals.map (algebraMap _ _)) (cw.map (algebraMap _ _)) root n point tr =
            some op ∧
          Whir.verify (goldWhir d w ser h T queries) fuel ⟨root, n⟩ point (mle (fun i => algebraMap _ _ (evals.getD i 0)) point) op tr =
            some true := by
  have hcw := rsEncode_spec (F := goldFft) goldFft_valid Whir.rateLog n (by unfold Whir.rateLog; omega)
    (by show n + 1 ≤ 32; omega) evals he
  refine ⟨_, hcw, fun root point tr hp => ?_⟩
  obtain ⟨kl, hS⟩ := goldWhir_ok hs ser h T queries
  have h2 : (2 : ExtRing goldP d w) ≠ 0 := by
    have h0 : (2 : ZMod goldP) ≠ 0 := by decide +kernel
    have := (map_ne_zero_iff (algebraMap (ZMod goldP) (ExtRing goldP d w))
      (FaithfulSMul.algebraMap_injective (ZMod goldP) (ExtRing goldP d w))).mpr h0
    rwa [map_ofNat] at this
  obtain ⟨op, o1, o2⟩ := Whir.complete hS h2 fuel n hn (by omega) (by show n + 1 ≤ 32; omega) hq mem hmem (evals.map (algebraMap _ _))
    (by simpa using he) point hp root tr
  refine ⟨op, ?_, ?_⟩
  · rw [← o1]
    congr 1
    rw [List.map_map]
    show _ = enc goldFft (n + 1) (evals.map (algebraMap _ _))
    unfold enc
    refine List.map_congr_left fun i _ => ?_
    exact algebraMap_polyAt evals _
  · rw [← o2]
    congr 1
    refine mle_congr _ _ _ fun i hi => ?_
    rw [hp, ← he] at hi
    rw [List.getD_eq_getElem _ _ hi, List.getD_eq_getElem _ _ (by simpa using hi), List.getElem_map]

example : ∃ cw, rsEncodeWithRate (fieldOps (ZMod goldP)) goldFft ((List.range 64).map fun i => ((i * i : Nat) : ZMod goldP)) Whir.rateLog = some cw ∧
    ∃ op, openWhir (goldWhir 3 2 (fun _ => []) toyHash (whirTranscript 3 2) fun _ => 67) 1 (fun _ w => w.map fun _ => List.replicate 24 0)
      (((List.range 64).map fun i => ((i * i : Nat) : ZMod goldP)).map (algebraMap _ _)) (cw.map (algebraMap _ _)) 17 6 [1, 2, 3, 4, 5, 6] () = some op := by
  obtain ⟨cw, h1, h2⟩ := C70_goldilocks_complete_partial Shipped.three (fun _ => []) toyHash (whirTranscript 3 2) (fun _ => 67) 1
    (range_queries _ fun _ _ => rfl) (fun _ w => w.map fun _ => List.replicate 24 0) (fun _ cw => ⟨by simp, by simp⟩) 6 (by norm_num) (by norm_num)
    ((List.range 64).map fun i => ((i * i : Nat) : ZMod goldP)) (by simp)
  obtain ⟨op, h3, _⟩ := h2 17 [1, 2, 3, 4, 5, 6] () rfl
  exact ⟨cw, h1, op, h3⟩

omit [Inhabited N] in
/-- C70 fails for large polynomials: from 29 variables on, every accepted opening, the honest one included, is beyond the
limits of `WhirOpening::deserialize_from`: the proof that contains it cannot be read. -/
theorem C70_unreadable (S : Whir.Setup K L N τ) (fuel : Nat) (com : Commitment N) (point : List L) (v : L) (op : Whir.Opening L N)
    (tr : τ) (h : Whir.verify S fuel com point v op tr = some true) (hn : 29 ≤ com.numVars) : readable op = false :=
  accepted_unreadable h hn

example : ∃ op, Whir.verify (goldWhir 3 2 (fun _ => []) toyHash (whirTranscript 3 2) fun _ => 67) 1 ⟨17, 29⟩ (List.replicate 29 3) 1 op () =
    some true ∧ readable op = false := by
  obtain ⟨op, h⟩ := C69_goldilocks_any_value Shipped.three (fun _ => []) toyHash (whirTranscript 3 2) (fun _ => 67) 1
    (range_queries _ fun _ _ => rfl) 17 29 (by norm_num) (by norm_num) (List.replicate 29 3) (by simp) 1 ()
  exact ⟨op, h, C70_unreadable _ _ _ _ _ _ _ h (by norm_num)⟩

end JST.Props
