import Verif.Pcs.BasefoldBinding
import Verif.Pcs.BasefoldGold
import Verif.Props.Basefold

/-!
# C67: what a BaseFold commitment binds the prover to

A commitment that binds has, at every point, one value for which an opening is accepted. `Path::verify` does not look
at the length of the path, and `basefold_verify` does not either.
-/

namespace JST.Props

open JST.Pcs JST.Spec JST.Merkle JST.Gkr

/-- C67 fails for the trees: for any two vectors of `2^k` leaves and any hash there is a root that opens at every index but
the first to the leaf of either vector, and at the first to that of the second. -/
theorem C67_tree_not_binding {X N : Type} [Inhabited N] [DecidableEq N] (h : Hash X N) (k : Nat) (hk : 1 ≤ k) (hk' : k ≤ 32)
    (xs ys : List X) (hx : xs.length = 2 ^ k) (hy : ys.length = 2 ^ k) :
    ∃ root, (∀ i x, 0 < i → xs[i]? = some x → ∃ p : Path X N, p.leaf = x ∧ p.index = i ∧ p.verify h root = true) ∧
      ∀ i y, ys[i]? = some y → ∃ p : Path X N, p.leaf = y ∧ p.index = i ∧ p.verify h root = true := by
  obtain ⟨root, top, ⟨nodes, g1⟩, g2⟩ := graft h k hk (by omega) xs hx (treeRoot h k (ys.map h.leaf))
  refine ⟨root, fun i x hi hxi => ⟨⟨x, nodes i, i⟩, rfl, rfl, g1 i x hi hxi⟩, fun i y hyi => ?_⟩
  have hil := (List.getElem?_eq_some_iff.mp hyi).1
  obtain ⟨t, p, _, _, q1, q2, q3, q4⟩ := C24_opening h k hk (by omega) ys hy i hil
  have hl : p.leaf = y := Option.some.inj (q1.symm.trans hyi)
  refine ⟨⟨y, top ++ p.pathNodes, i⟩, rfl, rfl, g2 i y p.pathNodes (by omega) q3 ?_⟩
  rw [← hl, ← q2]
  exact q4

example : ∃ root, ∃ p q : Path Nat Nat, p.leaf = 6 ∧ q.leaf = 16 ∧ p.index = 1 ∧ q.index = 1 ∧
    p.verify ⟨fun x => 10 + x, fun a b => 2 * a + 3 * b⟩ root = true ∧
    q.verify ⟨fun x => 10 + x, fun a b => 2 * a + 3 * b⟩ root = true := by
  obtain ⟨root, h1, h2⟩ := C67_tree_not_binding (⟨fun x => 10 + x, fun a b => 2 * a + 3 * b⟩ : Hash Nat Nat) 2 (by norm_num) (by norm_num)
    [5, 6, 7, 8] [15, 16, 17, 18] rfl rfl
  obtain ⟨p, a1, a2, a3⟩ := h1 1 6 (by norm_num) rfl
  obtain ⟨q, b1, b2, b3⟩ := h2 1 16 rfl
  exact ⟨root, p, q, a1, b1, a2, b2, a3, b3⟩

variable {N τ : Type} [Inhabited N] [DecidableEq N]

/-- C67 fails for the shipped Goldilocks configuration: for any two vectors of `2^n` values, any hash and any transcript
there is one commitment for which, at every point, an opening is accepted for the value of the second polynomial
whatever the queries, and an opening is accepted for the value of the first polynomial whenever none of the at most 128
query indices is below 8. -/
theorem C67_not_binding (h : Hash Mem N) (T : Transcript τ (ExtRing goldP 2 7) N) (n : Nat) (hn : 2 ≤ n) (hn' : n ≤ 30)
    (a b : List (ZMod goldP)) (ha : a.length = 2 ^ n) (hb : b.length = 2 ^ n) :
    ∃ root, ∀ (fuel : Nat) (point : List (ExtRing goldP 2 7)) (tr : τ), point.length = n →
      (∃ trq, ∀ qs tr', genQueries T fuel trq (2 ^ (n + 2)) = some (qs, tr') →
        ∃ op, verifyBf (goldSetup h T) fuel ⟨root, n⟩ point (mle (fun i => algebraMap _ _ (b.getD i 0)) point) op tr =
          some true) ∧
      (∃ trq, ∀ qs tr', genQueries T fuel trq (2 ^ (n + 2)) = some (qs, tr') → (∀ q ∈ qs, 8 ≤ q) →
        ∃ op, verifyBf (goldSetup h T) fuel ⟨root, n⟩ point (mle (fun i => algebraMap _ _ (a.getD i 0)) point) op tr =
          some true) := by
  have had : n + 2 ≤ (goldSetup h T).F.adicity := by show n + 2 ≤ 32; omega
  have canon : ∀ cw : List (ZMod goldP), List.Forall₂ (Canon goldCodec) cw (cw.map fun z => goldMem z.val) := by
    intro cw
    rw [List.forall₂_map_right_iff, List.forall₂_same]
    intro z _
    have := goldMem_canon z.val (ZMod.val_lt z)
    rwa [ZMod.natCast_zmod_val] at this
  obtain ⟨root, hr⟩ := basefold_equivocate (goldSetup_ok h T) n (by omega) (by omega) (by omega) (by omega) had a b ha hb _ _
    (rsEncode_spec goldFft_valid 2 n (by omega) had a ha) (rsEncode_spec goldFft_valid 2 n (by omega) had b hb) _ _ (canon _) (canon _)
    (fun _ => canonMem) (fun _ => canonMem_canon)
  refine ⟨root, fun fuel point tr hp => ?_⟩
  obtain ⟨⟨t1, h1⟩, ⟨t2, h2⟩⟩ := hr fuel point tr hp
  exact ⟨⟨t1, fun qs tr' hq => h1 (qs, tr') hq⟩, ⟨t2, fun qs tr' hq hlow => h2 (qs, tr') hq hlow⟩⟩

/-- C67. So two vectors that differ give a commitment with two values at one point. -/
theorem C67_two_values (h : Hash Mem N) (T : Transcript τ (ExtRing goldP 2 7) N) (n : Nat) (hn : 2 ≤ n) (hn' : n ≤ 30)
    (a b : List (ZMod goldP)) (ha : a.length = 2 ^ n) (hb : b.length = 2 ^ n) (hne : a ≠ b) :
    ∃ (root : N) (point : List (ExtRing goldP 2 7)) (v w : ExtRing goldP 2 7), v ≠ w ∧ point.length = n ∧
      ∀ (fuel : Nat) (tr : τ), (∀ trq, ∃ qs tr', genQueries T fuel trq (2 ^ (n + 2)) = some (qs, tr') ∧ ∀ q ∈ qs, 8 ≤ q) →
        (∃ op, verifyBf (goldSetup h T) fuel ⟨root, n⟩ point v op tr = some true) ∧
        ∃ op, verifyBf (goldSetup h T) fuel ⟨root, n⟩ point w op tr = some true := by
  obtain ⟨i, hi, hdiff⟩ : ∃ i < 2 ^ n, a.getD i 0 ≠ b.getD i 0 := by
    by_contra hc
    push Not at hc
    apply hne
    apply List.ext_getElem (by omega)
    intro i h1 h2
    have := hc i (by omega)
    rwa [List.getD_eq_getElem _ _ h1, List.getD_eq_getElem _ _ h2] at this
  obtain ⟨root, hr⟩ := C67_not_binding h T n hn hn' a b ha hb
  have hv : ∀ c : List (ZMod goldP), mle (fun j => algebraMap (ZMod goldP) (ExtRing goldP 2 7) (c.getD j 0)) (boolPoint (K := ExtRing goldP 2 7) n i) =
      algebraMap _ _ (c.getD i 0) := fun c => mle_boolPoint _ n i hi
  refine ⟨root, boolPoint n i, algebraMap _ _ (a.getD i 0), algebraMap _ _ (b.getD i 0),
    fun h => hdiff ((algebraMap (ZMod goldP) (ExtRing goldP 2 7)).injective h), by simp [boolPoint], fun fuel tr hq => ?_⟩
  obtain ⟨⟨t1, h1⟩, ⟨t2, h2⟩⟩ := hr fuel (boolPoint n i) tr (by simp [boolPoint])
  rw [hv] at h1 h2
  obtain ⟨qs1, tr1, g1, _⟩ := hq t1
  obtain ⟨qs2, tr2, g2, g3⟩ := hq t2
  exact ⟨h2 qs2 tr2 g2 g3, h1 qs1 tr1 g1⟩

/-- A transcript whose queries start at 8. -/
noncomputable def toyTranscript8 : Transcript Unit (ExtRing goldP 2 7) Nat :=
  ⟨fun _ _ => (), fun _ _ => (), fun _ => (5, ()), fun _ k => (List.range' 8 k, ())⟩

theorem toy8_queries : genQueries toyTranscript8 1 () (2 ^ (6 + 2)) = some (List.range' 8 128, ()) := by
  decide +kernel

example : ∃ (root : Nat) (point : List (ExtRing goldP 2 7)) (v w : ExtRing goldP 2 7), v ≠ w ∧
    (∃ op, verifyBf (goldSetup toyHash toyTranscript8) 1 ⟨root, 6⟩ point v op () = some true) ∧
    ∃ op, verifyBf (goldSetup toyHash toyTranscript8) 1 ⟨root, 6⟩ point w op () = some true := by
  obtain ⟨root, point, v, w, h1, _, h3⟩ := C67_two_values toyHash toyTranscript8 6 (by norm_num) (by norm_num)
    (List.replicate 64 0) (List.replicate 64 1) rfl rfl (by
      intro h
      have := congrArg (fun l : List (ZMod goldP) => l.getD 0 0) h
      simp [List.replicate] at this)
  obtain ⟨a, b⟩ := h3 1 () (fun _ => ⟨_, _, toy8_queries, by simp; omega⟩)
  exact ⟨root, point, v, w, h1, a, b⟩

end JST.Props
