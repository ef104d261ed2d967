import Verif.Compiler.LiveProofs

/-!
# The optimizer's rounds on the compiler's target language
-/

namespace JST.Comp

open JST.Circ JST.Flat

variable {F R : Type} [Field F] [DecidableEq F]

theorem VarSpec.eval_ren (a : Nat → F) (f : Nat → Nat) (s : VarSpec) :
    (s.ren f).eval a = s.eval fun x => a (f x) := by
  cases s <;> rfl

theorem DInsn.val_ren (E : Env F R) (a : Nat → F) (f : Nat → Nat) (i : DInsn F R) :
    (DInsn.ren f i).val E a = i.val E fun x => a (f x) := by
  cases i with
  | iv e rl =>
      simp only [DInsn.ren, DInsn.val, fromTerms_eval, List.map_map]
      congr 1
      simp only [Expr.eval, List.map_map]
      congr 1
      refine List.map_congr_left fun t _ => ?_
      simp [Term.eval, VarSpec.eval_ren]
  | random r => rfl
  | publicInput i => rfl

theorem DInsn.val_congr' (E : Env F R) (a b : Nat → F) (i : DInsn F R)
    (h : ∀ x ∈ DInsn.vars i, a x = b x) : i.val E a = i.val E b := by
  cases i with
  | iv e rl =>
      simp only [DInsn.vars, List.mem_append, List.mem_flatMap, List.mem_map] at h
      simp only [DInsn.val, Expr.eval]
      congr 1
      · congr 1
        refine List.map_congr_left fun t ht => ?_
        simp only [Term.eval]
        congr 1
        have h' : ∀ x ∈ t.vars.vars, a x = b x := fun x hx => h x (Or.inl ⟨t, ht, hx⟩)
        revert h'
        cases t.vars with
        | const => intro _; rfl
        | lin x => intro h'; exact h' x (by simp [VarSpec.vars])
        | quad x y =>
            intro h'
            simp only [VarSpec.eval]
            rw [h' x (by simp [VarSpec.vars]), h' y (by simp [VarSpec.vars])]
      · congr 1
        refine List.map_congr_left fun p hp => ?_
        rw [h p.2 (Or.inr ⟨p, hp, rfl⟩)]
  | random r => rfl
  | publicInput i => rfl

theorem VarSpec.below_iff (n : Nat) (s : VarSpec) : s.Below n ↔ ∀ x ∈ s.vars, 1 ≤ x ∧ x < n := by
  cases s <;> simp [VarSpec.Below, VarSpec.vars]

theorem validAt_iff {F R : Type} (n : Nat) (i : DInsn F R) :
    DInsn.ValidAt n i ↔ ∀ x ∈ DInsn.vars i, 1 ≤ x ∧ x < n := by
  cases i with
  | iv e rl =>
      simp only [DInsn.ValidAt, DInsn.vars, List.mem_append, List.mem_flatMap, List.mem_map]
      constructor
      · rintro h x (⟨t, ht, hx⟩ | ⟨p, hp, rfl⟩)
        · exact (VarSpec.below_iff _ _).1 ((h e rl rfl).1 t ht) x hx
        · exact (h e rl rfl).2 p hp
      · rintro h e' rl' he
        cases he
        exact ⟨fun t ht => (VarSpec.below_iff _ _).2 fun x hx => h x (Or.inl ⟨t, ht, hx⟩),
          fun p hp => h p.2 (Or.inr ⟨p, hp, rfl⟩)⟩
  | random r => simp [DInsn.ValidAt, DInsn.vars]
  | publicInput j => simp [DInsn.ValidAt, DInsn.vars]

theorem readsBelow_of_valid {F R : Type} {n : Nat} {is : List (DInsn F R)} (h : DInsn.ValidAll n is) :
    ReadsBelow DInsn.vars n is := fun _ _ hk => (validAt_iff _ _).1 (validAll_get h hk)

theorem ren_validAt {n : Nat} {f : Nat → Nat} {i : DInsn F R} (h : ∀ x ∈ DInsn.vars i, 1 ≤ f x ∧ f x < n) :
    DInsn.ValidAt n (DInsn.ren f i) := by
  cases i with
  | iv e rl =>
      intro e' rl' he
      simp only [DInsn.ren] at he
      cases he
      simp only [DInsn.vars, List.mem_append, List.mem_flatMap, List.mem_map] at h
      refine ⟨(fromTerms_wf (L := n) ?_).below, ?_⟩
      · intro t ht
        obtain ⟨s, hs, rfl⟩ := List.mem_map.1 ht
        rw [VarSpec.below_iff]
        intro x hx
        have hx' : ∃ y ∈ s.vars.vars, x = f y := by
          revert hx
          cases s.vars <;> simp [VarSpec.ren, VarSpec.vars]
        obtain ⟨y, hy, rfl⟩ := hx'
        exact h y (Or.inl ⟨s, hs, hy⟩)
      · intro p hp
        obtain ⟨q, hq, rfl⟩ := List.mem_map.1 hp
        exact h q.2 (Or.inr ⟨q, hq, rfl⟩)
  | random r => intro _ _ he; cases he
  | publicInput j => intro _ _ he; cases he

theorem keep_valid {L : List Nat} {n : Nat} (hn : 1 ≤ n) {is : List (DInsn F R)} (h : DInsn.ValidAll n is)
    (hcl : ∀ k i, is[k]? = some i → n + k ∈ L → DInsn.vars i ⊆ L) :
    DInsn.ValidAll (rank L n + 1) (keepInsns DInsn.ren L n is) := by
  induction is generalizing n with
  | nil => trivial
  | cons i r ih =>
      have hcl' : ∀ k j, r[k]? = some j → n + 1 + k ∈ L → DInsn.vars j ⊆ L := by
        intro k j hk hm
        exact hcl (k + 1) j (by simpa using hk) (by rwa [show n + (k + 1) = n + 1 + k by omega])
      have := ih (by omega) h.2 hcl'
      simp only [keepInsns]
      rw [rank_succ L n hn] at this
      by_cases hl : n ∈ L
      · rw [if_pos hl] at this ⊢
        refine ⟨?_, this⟩
        have : DInsn.ValidAt (rank L n + 1) (DInsn.ren (newId L) i) := by
          refine ren_validAt fun x hx => ?_
          have h1 := (validAt_iff _ _).1 (validAll_get h (k := 0) (i := i) (by simp)) x hx
          have h2 := hcl 0 i (by simp) (by simpa using hl) hx
          have h3 := rank_lt h2 h1.1 (show x < n by omega)
          unfold newId
          omega
        exact this
      · rw [if_neg hl] at this ⊢
        exact this

theorem removeUnreachable_valid {c : DCircuit F R} (hv : c.Valid) :
    DCircuit.Valid (removeUnreachable DInsn.vars DInsn.ren c) := by
  have hrange : ∀ x ∈ c.cons ++ c.outputs, 1 ≤ x ∧ x < c.numInputs + 1 + c.insns.length := by
    intro x hx
    rcases List.mem_append.1 hx with h | h
    · exact hv.cons x h
    · exact hv.outputs x h
  have hsz := removeUnreachable_size (vars := DInsn.vars) (ren := DInsn.ren) c
  have hroot : ∀ x ∈ c.cons ++ c.outputs, 1 ≤ newId (liveOf DInsn.vars c) x ∧
      newId (liveOf DInsn.vars c) x < (removeUnreachable DInsn.vars DInsn.ren c).numInputs + 1 +
        (removeUnreachable DInsn.vars DInsn.ren c).insns.length := by
    intro x hx
    have h1 := rank_lt (live_roots (vars := DInsn.vars) c x hx) (hrange x hx).1 (hrange x hx).2
    unfold newId
    omega
  refine ⟨?_, ?_, ?_⟩
  · show DInsn.ValidAll (_ + 1) (keepInsns _ _ _ _)
    have := keep_valid (L := liveOf DInsn.vars c) (by omega) hv.insns fun k i hk hm =>
      live_closed (readsBelow_of_valid hv.insns) hk hm
    rw [← kept_inputs] at this
    exact this
  · intro v h
    obtain ⟨x, hx, rfl⟩ := List.mem_map.1 h
    exact hroot x (List.mem_append_left _ hx)
  · intro v h
    obtain ⟨x, hx, rfl⟩ := List.mem_map.1 h
    exact hroot x (List.mem_append_right _ hx)

theorem keep_coins (L : List Nat) (n : Nat) (is : List (DInsn F R)) :
    List.Sublist ((keepInsns DInsn.ren L n is).flatMap DInsn.coins) (is.flatMap DInsn.coins) := by
  induction is generalizing n with
  | nil => exact List.Sublist.refl _
  | cons i r ih =>
      simp only [keepInsns, List.flatMap_cons]
      split_ifs
      · simp only [List.flatMap_cons]
        have : (DInsn.ren (newId L) i).coins = i.coins := by
          cases i <;> simp [DInsn.ren, DInsn.coins]
        rw [this]
        exact (List.Sublist.refl _).append (ih _)
      · exact (ih _).trans (List.sublist_append_right _ _)

/-! ## Repeated outputs -/

theorem copy_val (E : Env F R) (a : Nat → F) (x : Nat) : (DInsn.copy x : DInsn F R).val E a = a x := by
  simp only [DInsn.copy, DInsn.val, fromTerms_eval]
  simp [Expr.eval, Term.eval, VarSpec.eval]

theorem splitOuts_ok (E : Env F R) (seen os : List Nat) (vs : List F) (hos : ∀ o ∈ os, o < vs.length) :
    let p := splitOuts (DInsn.copy : Nat → DInsn F R) seen os vs.length
    p.2.map (look (run (DInsn.val E) p.1 vs)) = os.map (look vs) := by
  induction os generalizing seen vs with
  | nil => rfl
  | cons o r ih =>
      have ho := hos o (by simp)
      simp only [splitOuts]
      split_ifs with h
      · have h1 := ih seen (vs ++ [look vs o]) (by intro o' ho'; have := hos o' (by simp [ho']); simp; omega)
        rw [List.length_append, List.length_singleton] at h1
        simp only [List.map_cons, run, copy_val]
        congr 1
        · rw [look_prefix (run_prefix _ _ _) (by simp), look_last]
        · rw [h1]
          exact List.map_congr_left fun o' ho' => look_prefix (List.prefix_append _ _) (hos o' (by simp [ho']))
      · simp only [List.map_cons]
        congr 1
        · exact look_prefix (run_prefix _ _ _) ho
        · exact ih (o :: seen) vs fun o' ho' => hos o' (by simp [ho'])

theorem splitOuts_shape (seen os : List Nat) (n : Nat) (hs : ∀ o ∈ seen ++ os, 1 ≤ o ∧ o < n) :
    let p := splitOuts (DInsn.copy : Nat → DInsn F R) seen os n
    DInsn.ValidAll n p.1 ∧ (∀ o ∈ p.2, 1 ≤ o ∧ o < n + p.1.length) ∧ p.2.Nodup ∧
    (∀ o ∈ p.2, o ∉ seen) ∧ (∀ o ∈ p.2, o < n → o ∈ os) ∧ p.1.flatMap DInsn.coins = [] ∧
    p.2.length = os.length := by
  induction os generalizing seen n with
  | nil => exact ⟨trivial, by simp [splitOuts], by simp [splitOuts], by simp [splitOuts], by simp [splitOuts], rfl, rfl⟩
  | cons o r ih =>
      have ho := hs o (by simp)
      simp only [splitOuts]
      split_ifs with h
      · obtain ⟨h1, h2, h3, h4, h5, h6, h7⟩ := ih seen (n + 1) (by
          intro o' ho'
          have := hs o' (by
            rcases List.mem_append.1 ho' with h | h
            · simp [h]
            · simp [h])
          omega)
        refine ⟨⟨?_, h1⟩, ?_, ?_, ?_, ?_, ?_, ?_⟩
        · have : DInsn.ValidAt n (DInsn.copy o : DInsn F R) := by
            intro e rl he
            simp only [DInsn.copy] at he
            cases he
            refine ⟨(fromTerms_wf ?_).below, by simp⟩
            simpa [VarSpec.Below] using ho
          exact this
        · intro o' ho'
          simp only [List.mem_cons] at ho'
          rcases ho' with rfl | ho'
          · simp only [List.length_cons]; omega
          · have := h2 o' ho'
            simp only [List.length_cons]; omega
        · refine List.nodup_cons.2 ⟨fun hn => ?_, h3⟩
          have := h5 n hn (by omega)
          have := hs n (by simp [this])
          omega
        · intro o' ho'
          simp only [List.mem_cons] at ho'
          rcases ho' with rfl | ho'
          · intro hseen
            have := hs o' (by simp [hseen])
            omega
          · exact h4 o' ho'
        · intro o' ho' hlt
          simp only [List.mem_cons] at ho'
          rcases ho' with rfl | ho'
          · omega
          · exact List.mem_cons_of_mem _ (h5 o' ho' (by omega))
        · rw [List.flatMap_cons, h6]; simp [DInsn.copy, DInsn.coins]
        · simp [h7]
      · obtain ⟨h1, h2, h3, h4, h5, h6, h7⟩ := ih (o :: seen) n (by
          intro o' ho'
          refine hs o' ?_
          simp only [List.cons_append, List.mem_cons, List.mem_append] at ho' ⊢
          tauto)
        refine ⟨h1, ?_, ?_, ?_, ?_, h6, by simp [h7]⟩
        · intro o' ho'
          simp only [List.mem_cons] at ho'
          rcases ho' with rfl | ho'
          · omega
          · exact h2 o' ho'
        · exact List.nodup_cons.2 ⟨fun hn => h4 o hn (by simp), h3⟩
        · intro o' ho'
          simp only [List.mem_cons] at ho'
          rcases ho' with rfl | ho'
          · exact h
          · exact fun hh => h4 o' ho' (by simp [hh])
        · intro o' ho' hlt
          simp only [List.mem_cons] at ho'
          rcases ho' with rfl | ho'
          · simp
          · exact List.mem_cons_of_mem _ (h5 o' ho' hlt)

theorem run_map_ren (E : Env F R) (is : List (DInsn F R)) (vs : List F) :
    run (DInsn.val E) (is.map (DInsn.ren id)) vs = run (DInsn.val E) is vs := by
  induction is generalizing vs with
  | nil => rfl
  | cons i r ih => simp only [List.map_cons, run, DInsn.val_ren, id, ih]

theorem ren_id_valid {n : Nat} {is : List (DInsn F R)} (h : DInsn.ValidAll n is) :
    DInsn.ValidAll n (is.map (DInsn.ren id)) := by
  induction is generalizing n with
  | nil => trivial
  | cons i r ih =>
      refine ⟨?_, ih h.2⟩
      have : DInsn.ValidAt n (DInsn.ren id i) :=
        ren_validAt fun x hx => (validAt_iff _ _).1 (validAll_get h (k := 0) (i := i) (by simp)) x hx
      exact this

theorem reassign_ok {c : DCircuit F R} (hv : c.Valid) :
    let d : DCircuit F R := reassignOuts DInsn.ren DInsn.copy c
    d.Valid ∧ d.outputs.Nodup ∧ d.numInputs = c.numInputs ∧ d.cons = c.cons ∧
    d.coins = c.coins ∧ d.outputs.length = c.outputs.length ∧ (c.outputs.Nodup → d = c) ∧
    ∀ E (ins : List F), ins.length = c.numInputs →
      (∀ x, x < c.numInputs + 1 + c.insns.length →
        look (DCircuit.values E d ins) x = look (DCircuit.values E c ins) x) ∧
      DCircuit.outs E d ins = DCircuit.outs E c ins := by
  intro d
  by_cases hn : c.outputs.Nodup
  · have hd : d = c := by show reassignOuts _ _ _ = _; unfold reassignOuts; rw [if_pos hn]
    rw [hd]
    exact ⟨hv, hn, rfl, rfl, rfl, rfl, fun _ => rfl, fun E ins _ => ⟨fun _ _ => rfl, rfl⟩⟩
  · obtain ⟨h1, h2, h3, h4, h5, h6, h7⟩ := splitOuts_shape (F := F) (R := R) [] c.outputs
      (c.numInputs + 1 + c.insns.length) (by simpa using hv.outputs)
    have hd : d = ⟨c.insns.map (DInsn.ren id) ++ (splitOuts (DInsn.copy : Nat → DInsn F R) [] c.outputs
        (c.numInputs + 1 + c.insns.length)).1, c.cons, (splitOuts (DInsn.copy : Nat → DInsn F R) [] c.outputs
        (c.numInputs + 1 + c.insns.length)).2, c.numInputs⟩ := by
      show reassignOuts _ _ _ = _; unfold reassignOuts; rw [if_neg hn]
    have hlen : ∀ E (ins : List F), ins.length = c.numInputs →
        (DCircuit.values E c ins).length = c.numInputs + 1 + c.insns.length := by
      intro E ins hins
      unfold DCircuit.values; rw [run_length]; simp [hins]
    have hval : ∀ E (ins : List F), DCircuit.values E d ins = run (DInsn.val E) (splitOuts (DInsn.copy : Nat → DInsn F R) []
        c.outputs (c.numInputs + 1 + c.insns.length)).1 (DCircuit.values E c ins) := by
      intro E ins
      rw [hd]
      unfold DCircuit.values
      rw [run_append, run_map_ren]
    refine ⟨?_, by rw [hd]; exact h3, by rw [hd], by rw [hd], ?_, by rw [hd]; exact h7, fun h => absurd h hn, ?_⟩
    · rw [hd]
      refine ⟨?_, ?_, ?_⟩
      · rw [dvalidAll_append]
        exact ⟨ren_id_valid hv.insns, by rw [List.length_map]; exact h1⟩
      · intro v h
        have := hv.cons v h
        simp only [List.length_append, List.length_map]
        omega
      · intro o ho
        have := h2 o ho
        simp only [List.length_append, List.length_map]
        omega
    · rw [hd]
      unfold DCircuit.coins
      rw [List.flatMap_append, h6, List.append_nil, List.flatMap_map]
      congr 1
      funext i
      cases i <;> simp [DInsn.ren, DInsn.coins]
    · intro E ins hins
      refine ⟨fun x hx => ?_, ?_⟩
      · rw [hval, look_prefix (run_prefix _ _ _) (by rw [hlen E ins hins]; exact hx)]
      · unfold DCircuit.outs
        rw [hval]
        have := splitOuts_ok E [] c.outputs (DCircuit.values E c ins) (by
          intro o ho; rw [hlen E ins hins]; exact (hv.outputs o ho).2)
        rw [hlen E ins hins] at this
        rw [hd]
        exact this

/-- One round of the optimizer. -/
theorem pruneD_ok {c : DCircuit F R} (hv : c.Valid) :
    (pruneD c).Valid ∧ (pruneD c).outputs.Nodup ∧ (pruneD c).coins.Sublist c.coins ∧
    (pruneD c).outputs.length = c.outputs.length ∧ ((pruneD c).cons = [] ↔ c.cons = []) ∧
    ∀ E (ins : List F), ins.length = c.numInputs → (pruneIns c ins).length = (pruneD c).numInputs ∧
      (DCircuit.Accepts E (pruneD c) (pruneIns c ins) ↔ DCircuit.Accepts E c ins) ∧
      DCircuit.outs E (pruneD c) (pruneIns c ins) = DCircuit.outs E c ins := by
  have hv1 := removeUnreachable_valid hv
  obtain ⟨h1, h2, h3, h4, h5, h6, h7, h8⟩ := reassign_ok hv1
  have hrange : ∀ x ∈ c.cons ++ c.outputs, 1 ≤ x ∧ x < c.numInputs + 1 + c.insns.length := by
    intro x hx
    rcases List.mem_append.1 hx with h | h
    · exact hv.cons x h
    · exact hv.outputs x h
  have hlen' : ∀ ins : List F, (pruneIns c ins).length = (removeUnreachable DInsn.vars DInsn.ren c).numInputs := by
    intro ins; simp [pruneIns, mapInputs]
  have hval : ∀ E (ins : List F), ins.length = c.numInputs → ∀ x ∈ c.cons ++ c.outputs,
      look (DCircuit.values E (removeUnreachable DInsn.vars DInsn.ren c) (pruneIns c ins)) (newId (liveOf DInsn.vars c) x) =
        look (DCircuit.values E c ins) x := by
    intro E ins hins x hx
    have := removeUnreachable_corr (vars := DInsn.vars) (ren := DInsn.ren) (val := DInsn.val E)
      (fun a f i => DInsn.val_ren E a f i) (fun a b i h => DInsn.val_congr' E a b i h)
      (readsBelow_of_valid hv.insns) hins
    refine this.val x (hrange x hx).1 ?_ (live_roots c x hx)
    rw [run_length]
    simp only [List.length_cons, hins]
    exact (hrange x hx).2
  refine ⟨h1, h2, ?_, ?_, ?_, ?_⟩
  · show (DCircuit.coins (reassignOuts DInsn.ren DInsn.copy _)).Sublist _
    rw [h5]
    exact keep_coins _ _ _
  · show (reassignOuts DInsn.ren DInsn.copy _).outputs.length = _
    rw [h6]; simp [removeUnreachable]
  · show (reassignOuts DInsn.ren DInsn.copy _).cons = [] ↔ _
    rw [h4]; simp [removeUnreachable]
  · intro E ins hins
    obtain ⟨h9, h10⟩ := h8 E (pruneIns c ins) (hlen' ins)
    refine ⟨by rw [hlen']; exact h3.symm, ?_, ?_⟩
    · show (∀ v ∈ (reassignOuts DInsn.ren DInsn.copy _).cons, _) ↔ _
      rw [h4]
      show (∀ v ∈ c.cons.map _, _) ↔ ∀ v ∈ c.cons, _
      simp only [List.forall_mem_map]
      refine forall₂_congr fun v hvm => ?_
      have hm : v ∈ c.cons ++ c.outputs := List.mem_append_left _ hvm
      have h11 := hv1.cons (newId (liveOf DInsn.vars c) v) (List.mem_map_of_mem hvm)
      show look (DCircuit.values E (reassignOuts DInsn.ren DInsn.copy _) _) _ = 0 ↔ _
      rw [h9 _ h11.2, hval E ins hins v hm]
    · show DCircuit.outs E (reassignOuts DInsn.ren DInsn.copy _) _ = _
      rw [h10]
      unfold DCircuit.outs
      show (c.outputs.map _).map _ = _
      rw [List.map_map]
      exact List.map_congr_left fun o ho => hval E ins hins o (List.mem_append_right _ ho)

/-- Any number of rounds. -/
theorem prunes_ok (k : Nat) {c : DCircuit F R} (hv : c.Valid) :
    (prunes k c).Valid ∧ (0 < k → (prunes k c).outputs.Nodup) ∧ (prunes k c).coins.Sublist c.coins ∧
    (prunes k c).outputs.length = c.outputs.length ∧ ((prunes k c).cons = [] ↔ c.cons = []) ∧
    ∀ E (ins : List F), ins.length = c.numInputs → (prunesIns k c ins).length = (prunes k c).numInputs ∧
      (DCircuit.Accepts E (prunes k c) (prunesIns k c ins) ↔ DCircuit.Accepts E c ins) ∧
      DCircuit.outs E (prunes k c) (prunesIns k c ins) = DCircuit.outs E c ins := by
  induction k generalizing c with
  | zero => exact ⟨hv, by simp, List.Sublist.refl _, rfl, Iff.rfl, fun E ins h => ⟨h, Iff.rfl, rfl⟩⟩
  | succ k ih =>
      obtain ⟨h1, h2, h3, h4, h5, h6⟩ := pruneD_ok hv
      obtain ⟨g1, g2, g3, g4, g5, g6⟩ := ih h1
      refine ⟨g1, fun _ => ?_, g3.trans h3, g4.trans h4, g5.trans h5, fun E ins hins => ?_⟩
      · cases k with
        | zero => exact h2
        | succ k => exact g2 (by omega)
      · obtain ⟨a1, a2, a3⟩ := h6 E ins hins
        obtain ⟨b1, b2, b3⟩ := g6 E (pruneIns c ins) a1
        exact ⟨b1, b2.trans a2, b3.trans a3⟩

end JST.Comp
