import Verif.Compiler.LayeringProofs

/-!
# The values on the wires of the layers
-/

namespace JST.Comp

open JST.Circ JST.Flat

variable {F R : Type} [Field F]

/-! ## Sums of gates -/

theorem gateSum_append (E : Env F R) (w : Nat → F) (g h : List (Gate F R)) (p : Nat) :
    gateSum E w (g ++ h) p = gateSum E w g p + gateSum E w h p := by
  simp [gateSum, List.filter_append]

theorem gateSum_cons (E : Env F R) (w : Nat → F) (g : Gate F R) (gs : List (Gate F R)) (p : Nat) :
    gateSum E w (g :: gs) p = (if g.o = p then g.val E w else 0) + gateSum E w gs p := by
  unfold gateSum
  by_cases h : g.o = p
  · rw [List.filter_cons_of_pos (by simpa using h), if_pos h]; simp
  · rw [List.filter_cons_of_neg (by simpa using h), if_neg h]; simp

theorem gateSum_nil (E : Env F R) (w : Nat → F) (p : Nat) : gateSum E w ([] : List (Gate F R)) p = 0 := rfl

theorem gateSum_flatMap {α : Type} (E : Env F R) (w : Nat → F) (l : List α) (f : α → List (Gate F R)) (p : Nat) :
    gateSum E w (l.flatMap f) p = (l.map fun x => gateSum E w (f x) p).sum := by
  induction l with
  | nil => rfl
  | cons a l ih => simp [List.flatMap_cons, gateSum_append, ih]

/-- The three kinds of gates together. -/
theorem gateSum_kinds (E : Env F R) (w : Nat → F) (g : List (Gate F R)) (p : Nat)
    (h : ∀ x ∈ g, x.ins.length ≤ 2) :
    gateSum E w (g.filter fun g => g.ins.length = 2) p + gateSum E w (g.filter fun g => g.ins.length = 1) p +
      gateSum E w (g.filter fun g => g.ins.length = 0) p = gateSum E w g p := by
  induction g with
  | nil => simp [gateSum]
  | cons a g ih =>
      have ih' := ih fun x hx => h x (by simp [hx])
      have ha := h a (by simp)
      rw [gateSum_cons, ← ih']
      have : a.ins.length = 2 ∨ a.ins.length = 1 ∨ a.ins.length = 0 := by omega
      rcases this with h2 | h2 | h2 <;>
        simp only [List.filter_cons, h2, decide_true, decide_false, Nat.reduceEqDiff, OfNat.ofNat_ne_zero,
          zero_ne_one, one_ne_zero, Ne.symm, OfNat.zero_ne_ofNat, if_true, Bool.false_eq_true, if_false,
          gateSum_cons, OfNat.one_ne_ofNat] <;> ring

/-- Gates which all end in the same wire. -/
theorem gateSum_same (E : Env F R) (w : Nat → F) (g : List (Gate F R)) (o p : Nat) (h : ∀ x ∈ g, x.o = o) :
    gateSum E w g p = if o = p then (g.map (Gate.val E w)).sum else 0 := by
  unfold gateSum
  split_ifs with hp
  · rw [List.filter_eq_self.2 fun x hx => by simpa [h x hx] using hp]
  · rw [List.filter_eq_nil_iff.2 fun x hx => by simpa [h x hx] using hp]; rfl

/-! ## The gates of one variable -/

/-- The value on wire `p`: that of the variable which is there. -/
def wires (pool : List Nat) (v : Nat → F) (p : Nat) : F :=
  match pool[p]? with
  | some x => v x
  | none => 0

theorem wires_pos {pool : List Nat} {x : Nat} (h : x ∈ pool) (v : Nat → F) : wires pool v (pool.idxOf x) = v x := by
  unfold wires; rw [idxOf_get h]

/-- Good gates: they end in `pos`, read wires of a layer of size `n`, and have at most two inputs. -/
structure GoodGate (n pos : Nat) (g : Gate F R) : Prop where
  o : g.o = pos
  len : g.ins.length ≤ 2
  read : ∀ i ∈ g.ins, i < n

theorem posIn_mem {a : List Nat} {x : Nat} (h : x ∈ a) : posIn a x = some (a.idxOf x) := by
  unfold posIn; rw [if_pos h]

theorem termGate_ok (E : Env F R) (v : Nat → F) {a : List Nat} (pos : Nat) (t : Term F)
    (h : ∀ x ∈ t.vars.vars, x ∈ a) :
    ∃ g : Gate F R, termGate a pos t = some [g] ∧ GoodGate a.length pos g ∧ g.coef.coins = [] ∧
      g.val E (wires a v) = t.coef * t.vars.eval v := by
  unfold termGate
  revert h
  cases t.vars with
  | const =>
      intro _
      exact ⟨_, rfl, ⟨rfl, by simp, by simp⟩, rfl, by simp [Gate.val, Coef.val, VarSpec.eval]⟩
  | lin x =>
      intro h
      have hx := h x (by simp [VarSpec.vars])
      simp only [posIn_mem hx]
      refine ⟨_, rfl, ⟨rfl, by simp, ?_⟩, rfl, ?_⟩
      · simpa using List.idxOf_lt_length_of_mem hx
      · simp [Gate.val, Coef.val, VarSpec.eval, wires_pos hx]
  | quad x y =>
      intro h
      have hx := h x (by simp [VarSpec.vars])
      have hy := h y (by simp [VarSpec.vars])
      simp only [posIn_mem hx, posIn_mem hy]
      refine ⟨_, rfl, ⟨rfl, ?_, ?_⟩, rfl, ?_⟩
      · dsimp only; split_ifs <;> simp
      · have h1 := List.idxOf_lt_length_of_mem hx
        have h2 := List.idxOf_lt_length_of_mem hy
        dsimp only
        split_ifs <;> simp <;> tauto
      · simp only [Gate.val, Coef.val, VarSpec.eval]
        split_ifs <;>
          simp only [List.map_cons, List.map_nil, List.prod_cons, List.prod_nil, wires_pos hx, wires_pos hy] <;> ring

theorem rndGate_ok (E : Env F R) (v : Nat → F) {a : List Nat} (pos : Nat) (t : R × Nat) (h : t.2 ∈ a) :
    ∃ g : Gate F R, rndGate a pos t = some [g] ∧ GoodGate a.length pos g ∧ g.coef.coins = [t.1] ∧
      g.val E (wires a v) = E.rnd t.1 * v t.2 := by
  unfold rndGate
  rw [posIn_mem h]
  refine ⟨_, rfl, ⟨rfl, by simp, ?_⟩, rfl, ?_⟩
  · simpa using List.idxOf_lt_length_of_mem h
  · simp [Gate.val, Coef.val, wires_pos h]

/-- A list of gates for a list of terms. -/
theorem gather_gates {α : Type} {f : α → Option (List (Gate F R))} {n pos : Nat} (val : Env F R → (Nat → F) → α → F)
    (a : List Nat) (coins : α → List R) {l : List α}
    (h : ∀ x ∈ l, ∃ g, f x = some [g] ∧ GoodGate n pos g ∧ g.coef.coins = coins x ∧
      ∀ E v, g.val E (wires a v) = val E v x) :
    ∃ gs, gather f l = some gs ∧ (∀ g ∈ gs, GoodGate n pos g) ∧
      (gs.flatMap fun g => g.coef.coins) = l.flatMap coins ∧
      ∀ E v, (gs.map (Gate.val E (wires a v))).sum = (l.map (val E v)).sum := by
  induction l with
  | nil => exact ⟨[], rfl, by simp, rfl, fun _ _ => rfl⟩
  | cons x l ih =>
      obtain ⟨g, h1, h2, h3, h4⟩ := h x (by simp)
      obtain ⟨gs, k1, k2, k3, k4⟩ := ih fun y hy => h y (by simp [hy])
      refine ⟨g :: gs, ?_, ?_, ?_, ?_⟩
      · simp only [gather, h1, k1]; rfl
      · intro y hy
        rcases List.mem_cons.1 hy with rfl | hy
        · exact h2
        · exact k2 y hy
      · simp [List.flatMap_cons, h3, k3]
      · intro E v; simp [h4, k4]

variable [DecidableEq F]

theorem insnGates_ok {a : List Nat} (pos : Nat) (i : DInsn F R) (h : ∀ x ∈ DInsn.vars i, x ∈ a) :
    ∃ gs : List (Gate F R), insnGates a pos i = some gs ∧ (∀ g ∈ gs, GoodGate a.length pos g) ∧
      (gs.flatMap fun g => g.coef.coins) = i.coins ∧
      ∀ (E : Env F R) v, (gs.map (Gate.val E (wires a v))).sum = i.val E v := by
  cases i with
  | iv e rl =>
      simp only [DInsn.vars, List.mem_append, List.mem_flatMap, List.mem_map] at h
      obtain ⟨gs, h1, h2, h3, h4⟩ := gather_gates (R := R) (f := termGate a pos) (n := a.length) (pos := pos)
        (fun _ v t => Term.eval v t) a (fun _ => []) (l := e) (by
          intro t ht
          have := fun E v => termGate_ok (R := R) E v pos t (a := a) fun x hx => h x (Or.inl ⟨t, ht, hx⟩)
          obtain ⟨g, g1, g2, g3, -⟩ := this ⟨fun _ => 0, fun _ => 0⟩ (fun _ => 0)
          refine ⟨g, g1, g2, g3, fun E v => ?_⟩
          obtain ⟨g', k1, -, -, k4⟩ := this E v
          rw [g1] at k1
          cases k1
          exact k4)
      obtain ⟨hs, k1, k2, k3, k4⟩ := gather_gates (F := F) (f := rndGate a pos) (n := a.length) (pos := pos)
        (fun E v t => E.rnd t.1 * v t.2) a (fun t => [t.1]) (l := rl) (by
          intro t ht
          have := fun (E : Env F R) v => rndGate_ok E v pos t (a := a) (h t.2 (Or.inr ⟨t, ht, rfl⟩))
          obtain ⟨g, g1, g2, g3, -⟩ := this ⟨fun _ => 0, fun _ => 0⟩ (fun _ => 0)
          refine ⟨g, g1, g2, g3, fun E v => ?_⟩
          obtain ⟨g', k1, -, -, k4⟩ := this E v
          rw [g1] at k1
          cases k1
          exact k4)
      refine ⟨gs ++ hs, ?_, ?_, ?_, ?_⟩
      · simp only [insnGates, h1, k1]; rfl
      · intro g hg
        rcases List.mem_append.1 hg with hg | hg
        · exact h2 g hg
        · exact k2 g hg
      · rw [List.flatMap_append, h3, k3]
        rw [List.flatMap_eq_nil_iff.2 (fun _ _ => rfl), List.nil_append, DInsn.coins, List.map_eq_flatMap]
      · intro E v
        rw [List.map_append, List.sum_append, h4, k4]
        rfl
  | random r =>
      exact ⟨_, rfl, by simpa using ⟨rfl, by simp, by simp⟩, rfl, by simp [Gate.val, Coef.val, DInsn.val]⟩
  | publicInput i =>
      exact ⟨_, rfl, by simpa using ⟨rfl, by simp, by simp⟩, rfl, by simp [Gate.val, Coef.val, DInsn.val]⟩

/-- The coins variable `x` draws between layers `l` and `l + 1`. -/
def coinsAt (c : DCircuit F R) (l x : Nat) : List R :=
  if minL c x = l + 1 then
    match insnOf c x with
    | some i => i.coins
    | none => []
  else []

theorem values_insn {c : DCircuit F R} (hv : c.Valid) (E : Env F R) {ins : List F} (hins : ins.length = c.numInputs)
    {x : Nat} {i : DInsn F R} (h : insnOf c x = some i) :
    look (DCircuit.values E c ins) x = i.val E (look (DCircuit.values E c ins)) := by
  have hr := insnOf_reads hv h
  obtain ⟨k, rfl, hk⟩ := insnOf_some h
  obtain ⟨hlt, rfl⟩ := List.getElem?_eq_some_iff.1 hk
  have := look_run (DInsn.val E) c.insns (0 :: ins) k hlt (by
    intro a b hab
    refine DInsn.val_congr' E a b _ fun x hx => hab x ?_
    have := hr x hx
    simp only [List.length_cons, hins]
    exact this.2)
  simp only [List.length_cons, hins] at this
  exact this

/-- The gates of variable `x` between two layers add up to its value on its wire. -/
theorem varGates_ok {c : DCircuit F R} (hv : c.Valid) (l x : Nat) (hx : 1 ≤ x ∧ x < numVar c) :
    ∃ gs, varGates c (poolAt c l) (poolAt c (l + 1)) l x = some gs ∧
      (∀ g ∈ gs, GoodGate (poolAt c l).length ((poolAt c (l + 1)).idxOf x) g) ∧
      (x ∉ poolAt c (l + 1) → gs = []) ∧
      (gs.flatMap fun g => g.coef.coins) = coinsAt c l x ∧
      ∀ E ins, ins.length = c.numInputs → x ∈ poolAt c (l + 1) →
        (gs.map (Gate.val E (wires (poolAt c l) (look (DCircuit.values E c ins))))).sum =
          look (DCircuit.values E c ins) x := by
  have hmm := minL_le_maxL c x
  by_cases hb : x ∈ poolAt c (l + 1)
  · obtain ⟨-, hb1, hb2⟩ := (mem_poolAt hv).1 hb
    by_cases hm : minL c x = l + 1
    · -- first occurrence
      have hin : c.numInputs < x := by
        by_contra hcon
        rw [minL_input (by omega)] at hm
        omega
      obtain ⟨i, hi⟩ := insnOf_exists hin hx.2
      obtain ⟨gs, h1, h2, h3, h4⟩ := insnGates_ok (a := poolAt c l) ((poolAt c (l + 1)).idxOf x) i (by
        intro y hy
        cases i with
        | iv e rl =>
            have hr := insnOf_reads hv hi y hy
            have hl := reads_live hv hi hy
            rw [mem_poolAt hv]
            exact ⟨⟨hr.1, by omega⟩, by omega, by omega⟩
        | random r => simp [DInsn.vars] at hy
        | publicInput i => simp [DInsn.vars] at hy)
      refine ⟨gs, ?_, h2, fun hn => absurd hb hn, ?_, ?_⟩
      · unfold varGates
        unfold firstGates relayGates
        rw [if_pos hm, if_neg (by omega)]
        simp only [target, posIn_mem hb, hi, h1]
        simp
      · rw [h3]; unfold coinsAt; rw [if_pos hm, hi]
      · intro E ins hins _
        rw [h4, ← values_insn hv E hins hi]
    · -- relay
      have ha : x ∈ poolAt c l := by
        rw [mem_poolAt hv]
        exact ⟨hx, by omega, by omega⟩
      refine ⟨[⟨[(poolAt c l).idxOf x], (poolAt c (l + 1)).idxOf x, .const 1⟩], ?_, ?_, fun hn => absurd hb hn, ?_, ?_⟩
      · unfold varGates firstGates relayGates
        rw [if_neg hm, if_pos (by omega)]
        simp [target, posIn_mem hb, posIn_mem ha]
      · simpa using ⟨rfl, by simp, by simpa using List.idxOf_lt_length_of_mem ha⟩
      · unfold coinsAt; rw [if_neg hm]; rfl
      · intro E ins hins _
        simp [Gate.val, Coef.val, wires_pos ha]
  · have hnot : ¬(minL c x ≤ l + 1 ∧ l + 1 ≤ maxL c x) := fun h => hb ((mem_poolAt hv).2 ⟨hx, h⟩)
    refine ⟨[], ?_, by simp, fun _ => rfl, ?_, fun E ins _ h => absurd h hb⟩
    · unfold varGates firstGates relayGates
      rw [if_neg (by omega), if_neg (by omega)]
      rfl
    · unfold coinsAt; rw [if_neg (by omega)]; rfl

theorem sum_single {α : Type} {l : List α} (hl : l.Nodup) {x : α} (hx : x ∈ l) {f : α → F}
    (h : ∀ y ∈ l, y ≠ x → f y = 0) : (l.map f).sum = f x := by
  induction l with
  | nil => cases hx
  | cons a l ih =>
      rw [List.nodup_cons] at hl
      simp only [List.map_cons, List.sum_cons]
      rcases List.mem_cons.1 hx with rfl | hx
      · have : (l.map f).sum = 0 := by
          refine List.sum_eq_zero fun y hy => ?_
          obtain ⟨z, hz, rfl⟩ := List.mem_map.1 hy
          exact h z (by simp [hz]) fun hzx => hl.1 (hzx ▸ hz)
        rw [this, add_zero]
      · rw [ih hl.2 hx fun y hy hne => h y (by simp [hy]) hne, h a (by simp) (fun hax => hl.1 (hax ▸ hx)), zero_add]

/-- One layer. -/
theorem segAt_ok {c : DCircuit F R} (hv : c.Valid) (l : Nat) :
    ∃ s : Seg F R, segAt c l = some s ∧ s.numIn = nextPowerOfTwo (poolAt c l).length ∧
      s.numOut = nextPowerOfTwo (poolAt c (l + 1)).length ∧ s.WF ∧
      s.coins.Perm ((List.range' 1 (numVar c - 1)).flatMap (coinsAt c l)) ∧
      ∀ E ins, ins.length = c.numInputs →
        s.eval E (wires (poolAt c l) (look (DCircuit.values E c ins))) =
          wires (poolAt c (l + 1)) (look (DCircuit.values E c ins)) := by
  have hn : 1 ≤ numVar c := by unfold numVar; omega
  have hex : ∀ x ∈ List.range' 1 (numVar c - 1), ∃ gs, varGates c (poolAt c l) (poolAt c (l + 1)) l x = some gs ∧
      (∀ g ∈ gs, GoodGate (poolAt c l).length ((poolAt c (l + 1)).idxOf x) g) ∧
      (x ∉ poolAt c (l + 1) → gs = []) ∧
      (gs.flatMap fun g => g.coef.coins) = coinsAt c l x ∧
      ∀ E ins, ins.length = c.numInputs → x ∈ poolAt c (l + 1) →
        (gs.map (Gate.val E (wires (poolAt c l) (look (DCircuit.values E c ins))))).sum =
          look (DCircuit.values E c ins) x := by
    intro x hx
    rw [List.mem_range'_1] at hx
    exact varGates_ok hv l x (by omega)
  classical
  let G : Nat → List (Gate F R) := fun x => if hx : x ∈ List.range' 1 (numVar c - 1) then (hex x hx).choose else []
  have hG : ∀ x (hx : x ∈ List.range' 1 (numVar c - 1)), G x = (hex x hx).choose := fun x hx => dif_pos hx
  have h1 : ∀ x ∈ List.range' 1 (numVar c - 1), varGates c (poolAt c l) (poolAt c (l + 1)) l x = some (G x) := by
    intro x hx; rw [hG x hx]; exact (hex x hx).choose_spec.1
  have h2 : ∀ x ∈ List.range' 1 (numVar c - 1), ∀ g ∈ G x,
      GoodGate (poolAt c l).length ((poolAt c (l + 1)).idxOf x) g := by
    intro x hx; rw [hG x hx]; exact (hex x hx).choose_spec.2.1
  have h3 : ∀ x ∈ List.range' 1 (numVar c - 1), x ∉ poolAt c (l + 1) → G x = [] := by
    intro x hx; rw [hG x hx]; exact (hex x hx).choose_spec.2.2.1
  have h4 : ∀ x ∈ List.range' 1 (numVar c - 1), ((G x).flatMap fun g => g.coef.coins) = coinsAt c l x := by
    intro x hx; rw [hG x hx]; exact (hex x hx).choose_spec.2.2.2.1
  have h5 : ∀ x ∈ List.range' 1 (numVar c - 1), ∀ E ins, ins.length = c.numInputs → x ∈ poolAt c (l + 1) →
        ((G x).map (Gate.val E (wires (poolAt c l) (look (DCircuit.values E c ins))))).sum =
          look (DCircuit.values E c ins) x := by
    intro x hx; rw [hG x hx]; exact (hex x hx).choose_spec.2.2.2.2
  have hg := gather_ok h1
  set g := (List.range' 1 (numVar c - 1)).flatMap G with hgdef
  have hlen : ∀ y ∈ g, y.ins.length ≤ 2 := by
    intro y hy
    obtain ⟨x, hx, hxy⟩ := List.mem_flatMap.1 hy
    exact (h2 x hx y hxy).len
  have hread : ∀ y ∈ g, ∀ i ∈ y.ins, i < nextPowerOfTwo (poolAt c l).length := by
    intro y hy i hi
    obtain ⟨x, hx, hxy⟩ := List.mem_flatMap.1 hy
    exact lt_of_lt_of_le ((h2 x hx y hxy).read i hi) (le_nextPowerOfTwo _)
  have hwrite : ∀ y ∈ g, y.o < nextPowerOfTwo (poolAt c (l + 1)).length := by
    intro y hy
    obtain ⟨x, hx, hxy⟩ := List.mem_flatMap.1 hy
    rw [(h2 x hx y hxy).o]
    have hb : x ∈ poolAt c (l + 1) := by
      by_contra hb
      rw [h3 x hx hb] at hxy
      cases hxy
    exact lt_of_lt_of_le (List.idxOf_lt_length_of_mem hb) (le_nextPowerOfTwo _)
  refine ⟨⟨nextPowerOfTwo (poolAt c l).length, nextPowerOfTwo (poolAt c (l + 1)).length,
    g.filter fun g => g.ins.length = 2, g.filter fun g => g.ins.length = 1, g.filter fun g => g.ins.length = 0⟩,
    ?_, rfl, rfl, ?_, ?_, ?_⟩
  · unfold segAt
    simp only [hg]
    rfl
  · have hmem : ∀ y ∈ (g.filter fun g => g.ins.length = 2) ++ (g.filter fun g => g.ins.length = 1) ++
        (g.filter fun g => g.ins.length = 0), y ∈ g := by
      intro y hy
      simp only [List.mem_append, List.mem_filter] at hy
      tauto
    exact ⟨fun y hy => by simpa using (List.mem_filter.1 hy).2, fun y hy => by simpa using (List.mem_filter.1 hy).2,
      fun y hy => by simpa using (List.mem_filter.1 hy).2, fun y hy => hread y (hmem y hy),
      fun y hy => hwrite y (hmem y hy), nextPowerOfTwo_pow _, nextPowerOfTwo_pow _⟩
  · have hperm : ((g.filter fun g => g.ins.length = 2) ++ (g.filter fun g => g.ins.length = 1) ++
        (g.filter fun g => g.ins.length = 0)).Perm g := by
      clear_value g
      clear hgdef hread hwrite hg
      induction g with
      | nil => exact List.Perm.refl _
      | cons a g ih =>
          have ih' := ih fun x hx => hlen x (by simp [hx])
          have ha := hlen a (by simp)
          have : a.ins.length = 2 ∨ a.ins.length = 1 ∨ a.ins.length = 0 := by omega
          rcases this with h | h | h
          · simp only [List.filter_cons, h]
            simp only [decide_eq_true_eq, show ¬(2 : Nat) = 1 by omega, show ¬(2 : Nat) = 0 by omega, if_true, if_false]
            exact ih'.cons a
          · simp only [List.filter_cons, h]
            simp only [decide_eq_true_eq, show ¬(1 : Nat) = 2 by omega, show ¬(1 : Nat) = 0 by omega, if_true, if_false]
            rw [List.append_assoc]
            refine List.perm_middle.trans (ih'.cons a |> fun h => ?_)
            simpa [List.append_assoc] using h
          · simp only [List.filter_cons, h]
            simp only [decide_eq_true_eq, show ¬(0 : Nat) = 2 by omega, show ¬(0 : Nat) = 1 by omega, if_true, if_false]
            exact List.perm_middle.trans (ih'.cons a)
    have h6 : (g.flatMap fun g => g.coef.coins) = (List.range' 1 (numVar c - 1)).flatMap (coinsAt c l) := by
      rw [hgdef, List.flatMap_assoc]
      exact List.flatMap_congr fun x hx => h4 x hx
    rw [← h6]
    exact hperm.flatMap_right _
  · intro E ins hins
    funext p
    unfold Seg.eval
    dsimp only
    rw [gateSum_kinds _ _ _ _ hlen, hgdef, gateSum_flatMap]
    have hcontr : ∀ x ∈ List.range' 1 (numVar c - 1),
        gateSum E (wires (poolAt c l) (look (DCircuit.values E c ins))) (G x) p =
          if (poolAt c (l + 1))[p]? = some x then look (DCircuit.values E c ins) x else 0 := by
      intro x hx
      rw [gateSum_same E _ (G x) ((poolAt c (l + 1)).idxOf x) p fun y hy => (h2 x hx y hy).o]
      by_cases hb : x ∈ poolAt c (l + 1)
      · rw [h5 x hx E ins hins hb]
        congr 1
        exact propext ⟨fun h => by rw [← h]; exact idxOf_get hb, fun h => idxOf_of_get (poolAt_nodup c _) h⟩
      · rw [h3 x hx hb, if_neg (fun h => hb (List.mem_of_getElem? h))]
        simp
    rw [List.map_congr_left hcontr]
    unfold wires
    cases hp : (poolAt c (l + 1))[p]? with
    | none => simp
    | some x0 =>
        have hx0 := ((mem_poolAt hv).1 (List.mem_of_getElem? hp)).1
        rw [sum_single (x := x0) List.nodup_range' (by rw [List.mem_range'_1]; omega)]
        · simp
        · intro y _ hne
          rw [if_neg]
          simpa using Ne.symm hne

/-- Some layers. -/
theorem segs_ok {c : DCircuit F R} (hv : c.Valid) (k s : Nat) :
    ∃ segs : List (Seg F R), gather (fun l => (segAt c l).map fun s => [s]) (List.range' s k) = some segs ∧
      segs.length = k ∧ Fit (nextPowerOfTwo (poolAt c s).length) segs ∧
      (segs.flatMap Seg.coins).Perm ((List.range' s k).flatMap fun l => (List.range' 1 (numVar c - 1)).flatMap (coinsAt c l)) ∧
      (∀ x ∈ segs.getLast?, x.numOut = nextPowerOfTwo (poolAt c (s + k)).length) ∧
      ∀ E ins, ins.length = c.numInputs →
        evalSegs E segs (wires (poolAt c s) (look (DCircuit.values E c ins))) =
          wires (poolAt c (s + k)) (look (DCircuit.values E c ins)) := by
  induction k generalizing s with
  | zero => exact ⟨[], rfl, rfl, trivial, List.Perm.refl _, by simp, fun _ _ _ => rfl⟩
  | succ k ih =>
      obtain ⟨t, h1, h2, h3, h4, h5, h6⟩ := segAt_ok hv s
      obtain ⟨segs, k1, k2, k3, k4, k5, k6⟩ := ih (s + 1)
      refine ⟨t :: segs, ?_, by simp [k2], ⟨h2, h4, h3 ▸ k3⟩, ?_, ?_, ?_⟩
      · rw [List.range'_succ]
        simp only [gather, h1, k1]
        rfl
      · rw [List.range'_succ, List.flatMap_cons, List.flatMap_cons]
        exact h5.append k4
      · intro x hx
        cases segs with
        | nil =>
            simp at hx
            subst hx
            simp at k2
            subst k2
            exact h3
        | cons b r =>
            rw [List.getLast?_cons_cons] at hx
            rw [k5 x hx, show s + (k + 1) = s + 1 + k by omega]
      · intro E ins hins
        rw [evalSegs, h6 E ins hins, k6 E ins hins, show s + (k + 1) = s + 1 + k by omega]

/-! ## The coins -/

theorem flatMap_swap {α β γ : Type} (l : List α) (m : List β) (f : α → β → List γ) :
    (l.flatMap fun a => m.flatMap (f a)).Perm (m.flatMap fun b => l.flatMap fun a => f a b) := by
  induction l with
  | nil => simp
  | cons a l ih =>
      simp only [List.flatMap_cons]
      exact (ih.append_left _).trans (List.flatMap_append_perm _ _ _)

theorem flatMap_single {α β : Type} {l : List α} (hl : l.Nodup) {a : α} (ha : a ∈ l) {f : α → List β}
    (h : ∀ b ∈ l, b ≠ a → f b = []) : l.flatMap f = f a := by
  induction l with
  | nil => cases ha
  | cons x l ih =>
      rw [List.nodup_cons] at hl
      rw [List.flatMap_cons]
      rcases List.mem_cons.1 ha with rfl | ha
      · rw [List.flatMap_eq_nil_iff.2 fun b hb => h b (by simp [hb]) fun e => hl.1 (e ▸ hb), List.append_nil]
      · rw [h x (by simp) fun e => hl.1 (e ▸ ha), ih hl.2 ha fun b hb => h b (by simp [hb]), List.nil_append]

theorem insns_coins (is : List (DInsn F R)) (n : Nat) :
    ((List.range' n is.length).flatMap fun x => match is[x - n]? with | some i => i.coins | none => []) =
      is.flatMap DInsn.coins := by
  induction is generalizing n with
  | nil => rfl
  | cons i r ih =>
      rw [List.length_cons, List.range'_succ, List.flatMap_cons, List.flatMap_cons, ← ih (n + 1)]
      congr 1
      · simp
      · refine List.flatMap_congr fun x hx => ?_
        rw [List.mem_range'_1] at hx
        obtain ⟨k, rfl⟩ : ∃ k, x = n + 1 + k := ⟨x - (n + 1), by omega⟩
        rw [show n + 1 + k - n = k + 1 by omega, show n + 1 + k - (n + 1) = k by omega]
        simp

/-- Every coin of the circuit is drawn in exactly one place of the layers. -/
theorem coinsAt_all {c : DCircuit F R} (hv : c.Valid) :
    ((List.range' 0 (outLayer c)).flatMap fun l => (List.range' 1 (numVar c - 1)).flatMap (coinsAt c l)).Perm c.coins := by
  refine (flatMap_swap _ _ _).trans (List.Perm.of_eq ?_)
  have h1 : numVar c - 1 = c.numInputs + c.insns.length := by unfold numVar; omega
  rw [h1, ← List.range'_append_1, List.flatMap_append]
  rw [List.flatMap_eq_nil_iff.2, List.nil_append]
  · unfold DCircuit.coins
    rw [← insns_coins c.insns (1 + c.numInputs)]
    refine List.flatMap_congr fun x hx => ?_
    rw [List.mem_range'_1] at hx
    obtain ⟨i, hi⟩ := insnOf_exists (c := c) (x := x) (by omega) (by unfold numVar; omega)
    have hget : c.insns[x - (1 + c.numInputs)]? = some i := by
      obtain ⟨k, rfl, hk⟩ := insnOf_some hi
      rwa [show c.numInputs + 1 + k - (1 + c.numInputs) = k by omega]
    rw [hget]
    have hpos := minL_pos hv hi
    have hle := (minL_le_maxL c x).trans (maxL_le c x)
    rw [flatMap_single (a := minL c x - 1) List.nodup_range' (by rw [List.mem_range'_1]; omega)]
    · unfold coinsAt
      rw [if_pos (by omega), hi]
    · intro l _ hne
      unfold coinsAt
      rw [if_neg (by omega)]
  · intro x hx
    rw [List.mem_range'_1] at hx
    rw [List.flatMap_eq_nil_iff]
    intro l _
    unfold coinsAt
    rw [minL_input (by omega), if_neg (by omega)]

/-- Layering of a whole circuit. -/
theorem layerize_ok {c : DCircuit F R} (hv : c.Valid) (hout : c.outputs.Nodup) :
    ∃ segs, layerize c = some segs ∧ segs ≠ [] ∧ Fit (nextPowerOfTwo c.numInputs) segs ∧
      (segs.flatMap Seg.coins).Perm c.coins ∧
      (∀ x ∈ segs.getLast?, c.outputs.length ≤ x.numOut) ∧
      ∀ E ins, ins.length = c.numInputs → ∀ k o, c.outputs[k]? = some o →
        evalSegs E segs (inputWires ins) k = look (DCircuit.values E c ins) o := by
  obtain ⟨segs, h1, h2, h3, h4, h5, h6⟩ := segs_ok hv (outLayer c) 0
  have hpre := poolAt_outputs (c := c) hout
  have hlen0 : (poolAt c 0).length = c.numInputs := by rw [poolAt_zero hv, List.length_range']
  refine ⟨segs, ?_, ?_, by rwa [hlen0] at h3, h4.trans (coinsAt_all hv), ?_, ?_⟩
  · unfold layerize; rw [List.range_eq_range']; exact h1
  · intro hn
    rw [hn] at h2
    have : 1 ≤ outLayer c := le_max_left _ _
    simp at h2
    omega
  · intro x hx
    rw [h5 x hx, Nat.zero_add]
    exact hpre.length_le.trans (le_nextPowerOfTwo _)
  · intro E ins hins k o ho
    have hw : wires (poolAt c 0) (look (DCircuit.values E c ins)) = inputWires ins := by
      funext p
      unfold wires inputWires
      rw [poolAt_zero hv]
      by_cases hp : p < c.numInputs
      · rw [List.getElem?_range' hp]
        simp only [Nat.one_mul]
        unfold DCircuit.values
        rw [look_prefix (run_prefix _ _ _) (by simp; omega), show 1 + p = p + 1 by omega]
        rfl
      · rw [List.getElem?_eq_none (by simp; omega), List.getD, List.getElem?_eq_none (by omega)]
        rfl
    have := h6 E ins hins
    rw [hw] at this
    rw [this, Nat.zero_add]
    unfold wires
    obtain ⟨q, hq⟩ := hpre
    have hk : k < c.outputs.length := (List.getElem?_eq_some_iff.1 ho).1
    rw [← hq, List.getElem?_append_left hk, ho]

end JST.Comp
