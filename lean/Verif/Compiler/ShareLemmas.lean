import Verif.Compiler.Share
import Verif.Compiler.DedupProofs
import Verif.Props.Export

/-!
# Shared parts of layers: lemmas
-/

namespace JST.Export

open JST.Flat JST.Comp

variable {F : Type} [Field F]

/-! ### Lists of gates which do the same -/

omit [Field F] in
theorem varying_append (l m : List (Gt F)) : varying (l ++ m) = varying l ++ varying m := List.filter_append ..

theorem SameGates.refl (l : List (Gt F)) : SameGates l l := ⟨fun _ _ => rfl, List.Perm.refl _⟩

theorem SameGates.symm {l m : List (Gt F)} (h : SameGates l m) : SameGates m l :=
  ⟨fun w p => (h.1 w p).symm, h.2.symm⟩

theorem SameGates.trans {l m n : List (Gt F)} (h : SameGates l m) (h' : SameGates m n) : SameGates l n :=
  ⟨fun w p => (h.1 w p).trans (h'.1 w p), h.2.trans h'.2⟩

theorem addsTo_perm (pub : Nat → F) {l m : List (Gt F)} (h : l.Perm m) (w : Nat → F) (p : Nat) :
    addsTo pub l w p = addsTo pub m w p := ((h.filter _).map _).sum_eq

theorem SameGates.of_perm {l m : List (Gt F)} (h : l.Perm m) : SameGates l m :=
  ⟨fun w p => addsTo_perm _ h w p, h.filter _⟩

theorem SameGates.append {l l' m m' : List (Gt F)} (h : SameGates l l') (h' : SameGates m m') :
    SameGates (l ++ m) (l' ++ m') := by
  refine ⟨fun w p => ?_, ?_⟩
  · rw [addsTo_append, addsTo_append, h.1, h'.1]
  · rw [varying_append, varying_append]; exact h.2.append h'.2

theorem SameGates.flatMap {A : Type} (l : List A) {f g : A → List (Gt F)} (h : ∀ a ∈ l, SameGates (f a) (g a)) :
    SameGates (l.flatMap f) (l.flatMap g) := by
  induction l with
  | nil => exact SameGates.refl _
  | cons a r ih =>
    rw [List.flatMap_cons, List.flatMap_cons]
    exact (h a (by simp)).append (ih fun b hb => h b (List.mem_cons_of_mem _ hb))

theorem addsTo_shift (pub : Nat → F) (a : Nat × Nat) (gs : List (Gt F)) (w : Nat → F) (p : Nat) :
    addsTo pub (gs.map (Gt.shift a)) w p =
      if a.2 ≤ p then addsTo pub gs (fun i => w (a.1 + i)) (p - a.2) else 0 := by
  have e : ∀ g : Gt F, (Gt.shift a g).export = PGate.shift a g.export := fun g => by
    cases h : g.coef <;> simp [Gt.shift, Gt.export, PGate.shift, h]
  rw [← sumAt_export, List.map_map]
  have e' : Gt.export ∘ Gt.shift a = PGate.shift a ∘ (Gt.export (F := F)) := funext e
  rw [e', ← List.map_map, sumAt_shift, sumAt_export]

omit [Field F] in
theorem shift_isConst (a : Nat × Nat) (g : Gt F) : (Gt.shift a g).isConst = g.isConst := rfl

omit [Field F] in
theorem varying_shift (a : Nat × Nat) (l : List (Gt F)) : varying (l.map (Gt.shift a)) = (varying l).map (Gt.shift a) := by
  unfold varying
  rw [List.filter_map]
  rfl

theorem SameGates.shift (a : Nat × Nat) {l m : List (Gt F)} (h : SameGates l m) :
    SameGates (l.map (Gt.shift a)) (m.map (Gt.shift a)) := by
  refine ⟨fun w p => ?_, ?_⟩
  · rw [addsTo_shift, addsTo_shift, h.1]
  · rw [varying_shift, varying_shift]; exact h.2.map _

theorem SameGates.place {f g : Nat → List (Gt F)} (kids : List (Nat × List (Nat × Nat)))
    (h : ∀ k ∈ kids, SameGates (f k.1) (g k.1)) : SameGates (place f kids) (place g kids) :=
  SameGates.flatMap _ fun k hk => SameGates.flatMap _ fun a _ => (h k hk).shift a

/-- Constant gates and the others. -/
theorem addsTo_split (pub : Nat → F) (l : List (Gt F)) (w : Nat → F) (p : Nat) :
    addsTo pub l w p = addsTo (fun _ => 0) l w p + addsTo pub (varying l) w p := by
  induction l with
  | nil => simp [addsTo, varying]
  | cons g r ih =>
    have e : ∀ q : Nat → F, addsTo q (g :: r) w p = addsTo q [g] w p + addsTo q r w p := fun q =>
      addsTo_append q [g] r w p
    have e' : varying (g :: r) = varying [g] ++ varying r := varying_append [g] r
    rw [e, e (fun _ => 0), ih, e', addsTo_append]
    have : addsTo pub [g] w p = addsTo (fun _ => 0) [g] w p + addsTo pub (varying [g]) w p := by
      cases h : g.coef <;> by_cases ho : g.o = p <;>
        simp [addsTo, varying, Gt.isConst, h, Cf.fixed, ho]
    rw [this]; ring

/-- The same gates add the same for all public inputs. -/
theorem SameGates.addsTo {l m : List (Gt F)} (h : SameGates l m) (pub : Nat → F) (w : Nat → F) (p : Nat) :
    addsTo pub l w p = addsTo pub m w p := by
  rw [addsTo_split pub l, addsTo_split pub m, h.1, addsTo_perm pub h.2]

theorem SameGates.nodup {l m : List (Gt F)} (h : SameGates l m) (hm : (varying m).Nodup) : (varying l).Nodup :=
  h.2.nodup_iff.2 hm

/-! ### Places -/

omit [Field F] in
theorem place_append (f : Nat → List (Gt F)) (a b) : place f (a ++ b) = place f a ++ place f b := List.flatMap_append

omit [Field F] in
theorem place_perm (f : Nat → List (Gt F)) {a b : List (Nat × List (Nat × Nat))} (h : a.Perm b) :
    (place f a).Perm (place f b) := h.flatMap_right _

omit [Field F] in
theorem place_push (f : Nat → List (Gt F)) (m : Leaves) (e : Nat × List (Nat × Nat)) :
    (place f (m.push e.1 e.2)).Perm (place f m ++ place f [e]) := by
  induction m with
  | nil => simp [Leaves.push, place]
  | cons q r ih =>
    rw [Leaves.push]
    split_ifs with h
    · simp only [place, List.flatMap_cons, List.flatMap_append, List.append_assoc, List.flatMap_nil,
        List.append_nil, h]
      exact (List.perm_append_comm).append_left _
    · have e1 : place f (q :: Leaves.push r e.1 e.2) = place f [q] ++ place f (Leaves.push r e.1 e.2) := place_append f [q] _
      have e2 : place f (q :: r) = place f [q] ++ place f r := place_append f [q] _
      rw [e1, e2, List.append_assoc]
      exact ih.append_left _

omit [Field F] in
theorem place_fold (f : Nat → List (Gt F)) (es m : Leaves) :
    (place f (es.foldl (fun m e => Leaves.push m e.1 e.2) m)).Perm (place f m ++ place f es) := by
  induction es generalizing m with
  | nil => simp [place]
  | cons e r ih =>
    rw [List.foldl_cons]
    refine (ih _).trans ?_
    have : place f (e :: r) = place f [e] ++ place f r := place_append f [e] _
    rw [this, ← List.append_assoc]
    exact (place_push f m e).append_right _

omit [Field F] in
theorem place_map (f : Nat → List (Gt F)) {es kids : Leaves} (h : FromMap es kids) :
    (place f kids).Perm (place f es) := by
  obtain ⟨m, h1, h2⟩ := h
  refine (place_perm f h2.symm).trans ?_
  have : (place f m).Perm (place f (es.foldl (fun m e => Leaves.push m e.1 e.2) [])) := by
    clear h2
    generalize es.foldl (fun m e => Leaves.push m e.1 e.2) [] = m0 at h1
    induction h1 with
    | nil => exact List.Perm.refl _
    | @cons a b r r' hab _ ih =>
      have e1 : place f (a :: r) = place f [a] ++ place f r := place_append f [a] _
      have e2 : place f (b :: r') = place f [b] ++ place f r' := place_append f [b] _
      rw [e1, e2]
      refine List.Perm.append ?_ ih
      simp only [place, List.flatMap_cons, List.flatMap_nil, List.append_nil, hab.1]
      exact hab.2.flatMap_right _
  simpa [place] using this.trans (place_fold f es [])

/-- The entries of the map come from the list. -/
theorem push_mem {m : Leaves} {e q : Nat × List (Nat × Nat)} (h : q ∈ m.push e.1 e.2) :
    (q.1 = e.1 ∨ ∃ x ∈ m, x.1 = q.1) ∧ (∀ a ∈ q.2, a ∈ e.2 ∧ q.1 = e.1 ∨ ∃ x ∈ m, x.1 = q.1 ∧ a ∈ x.2) ∧
    (e.2 ≠ [] → (∀ x ∈ m, x.2 ≠ []) → q.2 ≠ []) := by
  induction m with
  | nil =>
    simp only [Leaves.push, List.mem_singleton] at h
    subst h
    exact ⟨Or.inl rfl, fun a ha => Or.inl ⟨ha, rfl⟩, fun h _ => h⟩
  | cons x r ih =>
    rw [Leaves.push] at h
    split_ifs at h with hx
    · rcases List.mem_cons.1 h with rfl | h
      · refine ⟨Or.inl hx, fun a ha => ?_, fun he _ => by simp [he]⟩
        rcases List.mem_append.1 ha with ha | ha
        · exact Or.inr ⟨x, by simp, rfl, ha⟩
        · exact Or.inl ⟨ha, hx⟩
      · exact ⟨Or.inr ⟨q, List.mem_cons_of_mem _ h, rfl⟩,
          fun a ha => Or.inr ⟨q, List.mem_cons_of_mem _ h, rfl, ha⟩, fun _ hm => hm q (List.mem_cons_of_mem _ h)⟩
    · rcases List.mem_cons.1 h with rfl | h
      · exact ⟨Or.inr ⟨q, by simp, rfl⟩, fun a ha => Or.inr ⟨q, by simp, rfl, ha⟩, fun _ hm => hm q (by simp)⟩
      · obtain ⟨h1, h2, h3⟩ := ih h
        refine ⟨h1.imp_right fun ⟨y, hy, e⟩ => ⟨y, List.mem_cons_of_mem _ hy, e⟩, fun a ha => ?_,
          fun he hm => h3 he fun y hy => hm y (List.mem_cons_of_mem _ hy)⟩
        exact (h2 a ha).imp_right fun ⟨y, hy, e⟩ => ⟨y, List.mem_cons_of_mem _ hy, e⟩

theorem fold_mem (P : Nat → Nat × Nat → Prop) (Q : Nat → Prop) (es : Leaves) :
    ∀ m : Leaves, (∀ e ∈ es ++ m, Q e.1 ∧ e.2 ≠ [] ∧ ∀ a ∈ e.2, P e.1 a) →
      ∀ e ∈ es.foldl (fun m e => Leaves.push m e.1 e.2) m, Q e.1 ∧ e.2 ≠ [] ∧ ∀ a ∈ e.2, P e.1 a := by
  induction es with
  | nil => intro m h; exact h
  | cons e r ih =>
    intro m h
    refine ih _ fun q hq => ?_
    rcases List.mem_append.1 hq with hq | hq
    · exact h q (by simp [hq])
    · obtain ⟨h1, h2, h3⟩ := push_mem hq
      obtain ⟨he1, he2, he3⟩ := h e (by simp)
      refine ⟨?_, h3 he2 fun x hx => (h x (by simp [hx])).2.1, fun a ha => ?_⟩
      · rcases h1 with h1 | ⟨x, hx, h1⟩
        · rw [h1]; exact he1
        · rw [← h1]; exact (h x (by simp [hx])).1
      · rcases h2 a ha with ⟨h2, h1⟩ | ⟨x, hx, h1, h2⟩
        · rw [h1]; exact he3 a h2
        · rw [← h1]; exact (h x (by simp [hx])).2.2 a h2

theorem fromMap_mem {es kids : Leaves} (h : FromMap es kids) (P : Nat → Nat × Nat → Prop) (Q : Nat → Prop)
    (hes : ∀ e ∈ es, Q e.1 ∧ e.2 ≠ [] ∧ ∀ a ∈ e.2, P e.1 a) :
    ∀ e ∈ kids, Q e.1 ∧ e.2 ≠ [] ∧ ∀ a ∈ e.2, P e.1 a := by
  obtain ⟨m, h1, h2⟩ := h
  intro e he
  obtain ⟨q, hq, e1, e2⟩ := forall₂_mem h1 e (h2.mem_iff.2 he)
  obtain ⟨a, b, c⟩ := fold_mem P Q es [] (by simpa using hes) q hq
  refine ⟨by rw [e1]; exact a, fun h => b ?_, fun x hx => by rw [e1]; exact c x (e2.mem_iff.1 hx)⟩
  rw [h] at e2
  exact e2.symm.eq_nil

/-! ### Gates a segment stands for -/

/-- Children are earlier segments. -/
def Nested.Down (c : Nested F) : Prop := ∀ (i : Nat) (s : Sg F), c.segs[i]? = some s → ∀ k ∈ s.kids, k.1 < i

omit [Field F] in
theorem all_depth (c : Nested F) (h : c.Down) : ∀ (i d d' : Nat), i < d → i < d' → c.all d i = c.all d' i := by
  intro i
  induction i using Nat.strong_induction_on with
  | _ i ih =>
    intro d d' hd hd'
    cases d with
    | zero => omega
    | succ d => cases d' with
      | zero => omega
      | succ d' =>
        rw [Nested.all, Nested.all]
        cases hs : c.segs[i]? with
        | none => rfl
        | some s =>
          simp only [place]
          congr 1
          refine List.flatMap_congr fun k hk => ?_
          have := h i s hs k hk
          rw [ih k.1 this d d' (by omega) (by omega)]

omit [Field F] in
theorem gates_eq (c : Nested F) (h : c.Down) {i : Nat} {s : Sg F} (hs : c.segs[i]? = some s) :
    c.gates i = s.own ++ place c.gates s.kids := by
  rw [Nested.gates, Nested.all, hs]
  simp only [place]
  congr 1
  refine List.flatMap_congr fun k hk => ?_
  have := h i s hs k hk
  rw [all_depth c h k.1 i (k.1 + 1) this (by omega), Nested.gates]

/-- Segments in place of segments: `t` is a form of segment `i` with the old numbers, `s'` the new segment. -/
theorem same_sim (c c' : Nested F) (hc' : c'.Down) (S : Nat → Prop) (ν : Nat → Nat)
    (h : ∀ i, S i → ∃ (t s' : Sg F) (extra : Leaves), SameGates (t.own ++ place c.gates t.kids) (c.gates i) ∧
      (∀ k ∈ t.kids, S k.1 ∧ k.1 < i) ∧ c'.segs[ν i]? = some s' ∧
      s'.kids = t.kids.map (fun k => (ν k.1, k.2)) ++ extra ∧
      SameGates (s'.own ++ place c'.gates extra) t.own) :
    ∀ i, S i → SameGates (c'.gates (ν i)) (c.gates i) := by
  intro i
  induction i using Nat.strong_induction_on with
  | _ i ih =>
    intro hi
    obtain ⟨t, s', extra, h1, h2, h3, h4, h5⟩ := h i hi
    refine SameGates.trans ?_ h1
    rw [gates_eq c' hc' h3, h4, place_append]
    have p1 : (s'.own ++ (place c'.gates (t.kids.map fun k => (ν k.1, k.2)) ++ place c'.gates extra)).Perm
        ((s'.own ++ place c'.gates extra) ++ place c'.gates (t.kids.map fun k => (ν k.1, k.2))) := by
      rw [List.append_assoc]
      exact List.perm_append_comm.append_left _
    refine (SameGates.of_perm p1).trans (h5.append ?_)
    have e : place c'.gates (t.kids.map fun k => (ν k.1, k.2)) = place (fun k => c'.gates (ν k)) t.kids := by
      simp [place, List.flatMap_map]
    rw [e]
    exact SameGates.place _ fun k hk => ih k.1 (h2 k hk).2 (h2 k hk).1

/-! ### Merging gates -/

omit [Field F] in
theorem ungate_gate (g : Gt F) : ungate g.gate = g := by
  obtain ⟨a, b, c⟩ := g
  cases c <;> rfl

omit [Field F] in
theorem gate_ungate (g : Gate F Unit) : (ungate g).gate = g := by
  obtain ⟨a, b, c⟩ := g
  cases c <;> rfl

/-- No coins and no public inputs. -/
def zeroEnv : Env F Unit := ⟨fun _ => 0, fun _ => 0⟩

theorem addsTo_gate (l : List (Gt F)) (w : Nat → F) (p : Nat) :
    addsTo (fun _ => 0) l w p = gateSum zeroEnv w (l.map Gt.gate) p := by
  unfold addsTo gateSum
  rw [List.filter_map, List.map_map]
  refine congrArg List.sum (List.map_congr_left fun g _ => ?_)
  cases h : g.coef <;> simp [Gt.gate, Gate.val, Coef.val, Cf.fixed, h, zeroEnv]

theorem addsTo_ungate (l : List (Gate F Unit)) (w : Nat → F) (p : Nat) :
    addsTo (fun _ => 0) (l.map ungate) w p = gateSum zeroEnv w l p := by
  rw [addsTo_gate, List.map_map]
  congr 1
  rw [show Gt.gate ∘ ungate = (id : Gate F Unit → Gate F Unit) from funext gate_ungate, List.map_id]

omit [Field F] in
theorem varying_ungate (l : List (Gate F Unit)) : varying (l.map ungate) = (l.filter fun g => !constGate g).map ungate := by
  unfold varying
  rw [List.filter_map]
  congr 2
  funext g
  obtain ⟨a, b, c⟩ := g
  cases c <;> rfl

omit [Field F] in
theorem varying_gate (l : List (Gt F)) : ((l.map Gt.gate).filter fun g => !constGate g).map ungate = varying l := by
  rw [← varying_ungate, List.map_map, show ungate ∘ Gt.gate = (id : Gt F → Gt F) from funext ungate_gate, List.map_id]

variable [DecidableEq F] [Ord F]

theorem mergeFrom_varying (l : List (Gate F Unit)) (g : Gate F Unit) :
    (mergeFrom g l).filter (fun g => !constGate g) = (g :: l).filter fun g => !constGate g := by
  induction l generalizing g with
  | nil => rfl
  | cons h r ih =>
    unfold mergeFrom
    split
    · rename_i m hm
      obtain ⟨-, -, -, -, a, b, ha, hb, hc⟩ := mergeTwo_some hm
      rw [ih m]
      simp [constGate, ha, hb, hc]
    · rw [List.filter_cons, ih h, List.filter_cons (x := g)]

theorem dedupGates_varying (l : List (Gate F Unit)) (t : Bool) :
    ((dedupGates l t).filter fun g => !constGate g).Perm (l.filter fun g => !constGate g) := by
  have h : ((mergeAll (sortGates l)).filter fun g => !constGate g).Perm (l.filter fun g => !constGate g) := by
    refine List.Perm.trans (List.Perm.of_eq ?_) ((sortGates_perm l).filter _)
    cases sortGates l with
    | nil => rfl
    | cons g r => exact mergeFrom_varying r g
  unfold dedupGates
  cases t
  · simpa using h
  · simp only [if_true]
    rw [List.filter_filter]
    refine List.Perm.trans (List.Perm.of_eq (List.filter_congr fun g _ => ?_)) h
    cases hc : g.coef <;> simp [constGate, isZeroGate, hc]

theorem sortGt_perm (l : List (Gt F)) : (sortGt l).Perm l := by
  refine ((sortGates_perm (l.map Gt.gate)).map ungate).trans (List.Perm.of_eq ?_)
  rw [List.map_map, show ungate ∘ Gt.gate = (id : Gt F → Gt F) from funext ungate_gate, List.map_id]

/-- Merging keeps what the gates do. -/
theorem dedup_same (s : Sg F) : SameGates s.dedup.own s.own := by
  refine ⟨fun w p => ?_, ?_⟩
  · have := dedupSeg_eval zeroEnv s.toSeg w p
    simp only [Seg.eval, Sg.toSeg] at this
    simp only [Sg.own, Sg.dedup, addsTo_append, addsTo_ungate, Sg.toSeg]
    rw [this, addsTo_gate, addsTo_gate, addsTo_gate]
  · simp only [Sg.own, Sg.dedup, varying_append, varying_ungate, ← varying_gate s.muls, ← varying_gate s.adds,
      ← varying_gate s.csts]
    refine List.Perm.append (List.Perm.append ?_ ?_) ?_
    · exact (dedupGates_varying (s.muls.map Gt.gate) true).map _
    · exact (dedupGates_varying (s.adds.map Gt.gate) true).map _
    · refine List.Perm.map _ ?_
      unfold dedupSeg
      dsimp only
      refine ((sortGates_perm _).filter _).trans ?_
      rw [List.filter_append]
      have : ∀ l : List Nat, (l.map fun p => (⟨[], p, .const 0⟩ : Gate F Unit)).filter (fun g => !constGate g) = [] := by
        intro l; induction l <;> simp_all [constGate]
      rw [this, List.append_nil]
      exact dedupGates_varying _ _

end JST.Export
