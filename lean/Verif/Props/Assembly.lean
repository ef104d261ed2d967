import Mathlib.Data.List.Nodup
import Verif.Graph.Assembly
import Verif.Props.Fusion
import Verif.Props.Almost
import Verif.Props.Conv

/-!
# C64: the circuit of a model computes the model

Composition of the layers, with operator fusion.
-/

namespace JST.Props

open JST.Spec JST.Graph JST.Layers

section
variable {F : Type} [CommRing F] {T : Tables F} {X : Type} [Fintype X] {α β : Type}

/-- The result and the hints left do not depend on the challenges: they are drawn after the hints are fixed, and only
used in assertions. -/
def Oblivious (g : X → G F α) : Prop :=
  ∀ x x' h o o', g x h = .ok o → g x' h = .ok o' → o.val = o'.val ∧ o.rest = o'.rest

theorem AlmostSound.mono {g : X → G F α} {Q : α → Prop} {n m den : Nat} (h : AlmostSound T g n den Q) (hnm : n ≤ m) :
    AlmostSound T g m den Q := fun s => by
  obtain ⟨bad, h1, h2⟩ := h s
  exact ⟨bad, le_trans h1 (Nat.mul_le_mul_right _ hnm), h2⟩

/-- Two steps with challenges: the union bound. -/
theorem AlmostSound.seq {g : X → G F α} {f : X → α → G F β} {P : α → Prop} {Q : β → Prop} {n m den : Nat}
    (hob : Oblivious g) (hg : AlmostSound T g n den P) (hf : ∀ a, P a → AlmostSound T (fun x => f x a) m den Q) :
    AlmostSound T (fun x => g x >>= f x) (n + m) den Q := fun s => by
  classical
  obtain ⟨bad, h1, h2⟩ := hg s
  by_cases hex : ∃ x o, g x s = .ok o ∧ P o.val
  · obtain ⟨x0, o0, e0, hP⟩ := hex
    obtain ⟨bad', k1, k2⟩ := hf _ hP o0.rest
    refine ⟨bad ∪ bad', ?_, fun x hx o ho hs => ?_⟩
    · calc (bad ∪ bad').card * den ≤ (bad.card + bad'.card) * den :=
            Nat.mul_le_mul_right _ (Finset.card_union_le _ _)
        _ = bad.card * den + bad'.card * den := Nat.add_mul _ _ _
        _ ≤ n * Fintype.card X + m * Fintype.card X := Nat.add_le_add h1 k1
        _ = (n + m) * Fintype.card X := (Nat.add_mul _ _ _).symm
    · rw [Finset.mem_union, not_or] at hx
      obtain ⟨o1, o2, e1, e2, rfl⟩ := JST.bind_eq_ok ho
      obtain ⟨q1, q2⟩ := hob x x0 s o1 o0 e1 e0
      rw [q1, q2] at e2
      exact k2 x hx.2 o2 e2 (Sat.app.mp hs).2
  · refine ⟨bad, le_trans h1 (Nat.mul_le_mul_right _ (Nat.le_add_right _ _)), fun x hx o ho hs => ?_⟩
    obtain ⟨o1, o2, e1, e2, rfl⟩ := JST.bind_eq_ok ho
    exact absurd ⟨x, o1, e1, h2 x hx o1 e1 (Sat.app.mp hs).1⟩ hex

end

variable {p : Nat} {X : Type} [Fintype X]

/-- The tensors of the circuit are those of `ν`, as field elements. Names may be missing in the circuit. -/
def Agrees (p : Nat) (env : Vals (ZMod p)) (ν : Vals Int) : Prop :=
  ∀ n v, env n = some v → ∃ u, ν n = some u ∧ v = castArr p u

/-- What is required of the layer built for a node: if its inputs are the field images of integer tensors that satisfy
`pre`, then but for a fraction `num / den` of the challenges its outputs are the field images of correct outputs. -/
def Implements (T : Tables (ZMod p)) (given : Vals Int) (sem : Meaning)
    (pre : Node → List (Option (Arr Int)) → Prop) (num : Node → Nat) (den : Nat) (nd : Node)
    (l : Layer (ZMod p) X) : Prop :=
  ∀ env ν, Agrees p env ν → Extends given ν → pre nd (nd.inputs.map ν) →
    Oblivious (fun x => l x env) ∧ AlmostSound T (fun x => l x env) (num nd) den fun o =>
      ∃ ys, ys.length = nd.outputs.length ∧ sem nd (nd.inputs.map ν) ys ∧ o = nd.outputs.zip (ys.map (castArr p))

/-- The same of a layer fused with a `Relu`: it returns the `Relu` of a correct output, under the names `outs`. -/
def ImplementsRelu (T : Tables (ZMod p)) (given : Vals Int) (sem : Meaning)
    (pre : Node → List (Option (Arr Int)) → Prop) (num : Node → Nat) (den : Nat) (nd : Node) (outs : List String)
    (l : Layer (ZMod p) X) : Prop :=
  ∀ env ν, Agrees p env ν → Extends given ν → pre nd (nd.inputs.map ν) →
    Oblivious (fun x => l x env) ∧ AlmostSound T (fun x => l x env) (num nd) den fun o =>
      ∃ y, sem nd (nd.inputs.map ν) [y] ∧ o = outs.map fun n => (n, castArr p (reluArr y))

/-- What is required of the layers: the layer of every node implements it, alone and fused; `Relu` has one input and one
output and its usual meaning; the operators that can be fused have one output. -/
structure BuilderSound (T : Tables (ZMod p)) (given : Vals Int) (sem : Meaning)
    (pre : Node → List (Option (Arr Int)) → Prop) (num : Node → Nat) (den : Nat) (m : Model (ZMod p) X) : Prop where
  plain : ∀ nd ∈ m.nodes, ∀ i l, m.builder nd .none i = some l → Implements T given sem pre num den nd l
  fused : ∀ nd ∈ m.nodes, ∀ outs pat i l, pat.ops = [nd.op, "Relu"] →
    m.builder { nd with outputs := outs } pat i = some l → ImplementsRelu T given sem pre num den nd outs l
  relu : ∀ nd ∈ m.nodes, nd.op = "Relu" →
    (∃ i o, nd.inputs = [i] ∧ nd.outputs = [o]) ∧ ∀ y, sem nd [some y] [reluArr y]
  head : ∀ nd ∈ m.nodes, nd.op ∈ ["Conv", "Gemm", "BatchNormalization", "Mul"] → ∃ o, nd.outputs = [o]

/-! ## Graph lemmas -/

section graph
variable {given : Vals Int} {nodes : List Node}

theorem wf_producer (wf : WellFormed given nodes) {a b : Node} (ha : a ∈ nodes) (hb : b ∈ nodes) {o : String}
    (h1 : o ∈ a.outputs) (h2 : o ∈ b.outputs) : a = b := by
  by_contra hne
  have h := (List.nodup_flatMap.1 wf.ssa).2
  haveI : Std.Symm (Function.onFun List.Disjoint fun nd : Node => nd.outputs) := ⟨fun _ _ h => h.symm⟩
  exact h.forall ha hb hne h1 h2

theorem wf_before (wf : WellFormed given nodes) {done rest : List Node} {nd k : Node}
    (e : nodes = done ++ nd :: rest) {i : String} (hi : i ∈ nd.inputs) (hk : k ∈ nodes) (ho : i ∈ k.outputs) :
    k ∈ done := by
  have hnd : nd ∈ nodes := by rw [e]; simp
  rw [e] at hk
  rcases List.mem_append.1 hk with h | h
  · exact h
  · exfalso
    rcases List.mem_cons.1 h with rfl | h
    · exact wf.loop _ hnd i hi ho
    · have := wf.order
      rw [e, List.pairwise_append] at this
      exact (List.pairwise_cons.1 this.2.1).1 k h i hi ho

/-- The invariant: `P` are the nodes computed so far. -/
structure Inv (given : Vals Int) (sem : Meaning) (nodes : List Node) (P : Node → Prop) (env : Vals (ZMod p))
    (ν : Vals Int) : Prop where
  agrees : Agrees p env ν
  ext : Extends given ν
  run : ∀ nd ∈ nodes, P nd → ∃ ys, nd.outputs.map ν = ys.map some ∧ sem nd (nd.inputs.map ν) ys
  dom : ∀ o u, ν o = some u → (∃ u, given o = some u) ∨ ∃ k ∈ nodes, P k ∧ o ∈ k.outputs
  closed : ∀ k ∈ nodes, P k → ∀ i ∈ k.inputs, ∀ q ∈ nodes, i ∈ q.outputs → P q

theorem Inv.congr {sem : Meaning} {P Q : Node → Prop} {env : Vals (ZMod p)} {ν : Vals Int}
    (h : Inv given sem nodes P env ν) (hpq : ∀ nd ∈ nodes, P nd ↔ Q nd) : Inv given sem nodes Q env ν where
  agrees := h.agrees
  ext := h.ext
  run := fun nd hnd hq => h.run nd hnd ((hpq nd hnd).2 hq)
  dom := fun o u ho => by
    rcases h.dom o u ho with h1 | ⟨k, k1, k2, k3⟩
    · exact .inl h1
    · exact .inr ⟨k, k1, (hpq k k1).1 k2, k3⟩
  closed := fun k hk hq i hi q hq' ho => (hpq q hq').1 (h.closed k hk ((hpq k hk).2 hq) i hi q hq' ho)

/-- New tensors for nodes not computed before. -/
def overlay (δ ν : Vals Int) : Vals Int := fun n => (δ n).or (ν n)

theorem overlay_none {δ ν : Vals Int} {n : String} (h : δ n = none) : overlay δ ν n = ν n := by simp [overlay, h]

theorem overlay_some {δ ν : Vals Int} {n : String} {u : Arr Int} (h : δ n = some u) : overlay δ ν n = some u := by
  simp [overlay, h]

/-- Extending the invariant by nodes `N` with new tensors `δ`. -/
theorem Inv.extend (wf : WellFormed given nodes) {sem : Meaning} {P N : Node → Prop} {env env' : Vals (ZMod p)}
    {ν δ : Vals Int} (h : Inv given sem nodes P env ν) (hN : ∀ k ∈ nodes, N k → ¬ P k)
    (hδ : ∀ o u, δ o = some u → ∃ k ∈ nodes, N k ∧ o ∈ k.outputs)
    (hin : ∀ k ∈ nodes, N k → ∀ i ∈ k.inputs, ∀ q ∈ nodes, i ∈ q.outputs → P q ∨ N q)
    (hrun : ∀ k ∈ nodes, N k → ∃ ys, k.outputs.map (overlay δ ν) = ys.map some ∧
      sem k (k.inputs.map (overlay δ ν)) ys)
    (henv : ∀ n v, env' n = some v → env n = some v ∧ δ n = none ∨ ∃ u, δ n = some u ∧ v = castArr p u) :
    Inv given sem nodes (fun k => P k ∨ N k) env' (overlay δ ν) := by
  have hnew : ∀ k ∈ nodes, P k → ∀ o ∈ k.outputs, δ o = none := fun k hk hP o ho => by
    rcases hd : δ o with _ | u
    · rfl
    · obtain ⟨q, q1, q2, q3⟩ := hδ o u hd
      exact absurd (wf_producer wf hk q1 ho q3 ▸ hP) (hN q q1 q2)
  have hold : ∀ k ∈ nodes, P k → ∀ i ∈ k.inputs, δ i = none := fun k hk hP i hi => by
    rcases hd : δ i with _ | u
    · rfl
    · obtain ⟨q, q1, q2, q3⟩ := hδ i u hd
      exact absurd (h.closed k hk hP i hi q q1 q3) (hN q q1 q2)
  refine ⟨?_, ?_, ?_, ?_, ?_⟩
  · intro n v hv
    rcases henv n v hv with ⟨h1, h2⟩ | ⟨u, h1, h2⟩
    · obtain ⟨u, u1, u2⟩ := h.agrees n v h1
      exact ⟨u, by rw [overlay_none h2, u1], u2⟩
    · exact ⟨u, overlay_some h1, h2⟩
  · intro n u hu
    rcases hd : δ n with _ | w
    · rw [overlay_none hd]; exact h.ext n u hu
    · obtain ⟨q, q1, -, q3⟩ := hδ n w hd
      rw [wf.fresh q q1 n q3] at hu
      cases hu
  · rintro k hk (hP | hNk)
    · obtain ⟨ys, y1, y2⟩ := h.run k hk hP
      refine ⟨ys, ?_, ?_⟩
      · rw [← y1]
        exact List.map_congr_left fun o ho => overlay_none (hnew k hk hP o ho)
      · rw [show k.inputs.map (overlay δ ν) = k.inputs.map ν from
          List.map_congr_left fun i hi => overlay_none (hold k hk hP i hi)]
        exact y2
    · exact hrun k hk hNk
  · intro o u ho
    rcases hd : δ o with _ | w
    · rw [overlay_none hd] at ho
      rcases h.dom o u ho with h1 | ⟨k, k1, k2, k3⟩
      · exact .inl h1
      · exact .inr ⟨k, k1, .inl k2, k3⟩
    · obtain ⟨q, q1, q2, q3⟩ := hδ o w hd
      exact .inr ⟨q, q1, .inr q2, q3⟩
  · rintro k hk (hP | hNk) i hi q hq ho
    · exact .inl (h.closed k hk hP i hi q hq ho)
    · exact hin k hk hNk i hi q hq ho

end graph

/-! ## The layers -/

theorem insert_list {β : Type} (l : List (String × Arr β)) : ∀ (env : Vals β) (n : String) (v : Arr β),
    (l.foldl (fun (e : Vals β) kv => Function.update e kv.1 (some kv.2)) env) n = some v →
    (env n = some v ∧ n ∉ l.map (·.1)) ∨ (n, v) ∈ l := by
  induction l with
  | nil => intro env n v h; exact .inl ⟨h, by simp⟩
  | cons kv t ih =>
    intro env n v h
    rw [List.foldl_cons] at h
    rcases ih _ n v h with ⟨h1, h2⟩ | h1
    · by_cases hn : n = kv.1
      · subst hn
        rw [Function.update_self] at h1
        exact .inr (by rw [← Option.some.inj h1]; simp)
      · rw [Function.update_of_ne hn] at h1
        refine .inl ⟨h1, ?_⟩
        rw [List.map_cons, List.mem_cons, not_or]
        exact ⟨hn, h2⟩
    · exact .inr (List.mem_cons_of_mem _ h1)

theorem zip_lookup {names : List String} (hn : names.Nodup) : ∀ {ys : List (Arr Int)}, ys.length = names.length →
    names.map (fun n => ((names.zip ys).find? (·.1 = n)).map (·.2)) = ys.map some := by
  induction names with
  | nil =>
    intro ys h
    rw [List.length_eq_zero_iff.1 h]
    rfl
  | cons a t ih =>
    intro ys h
    rcases ys with _ | ⟨y, ys⟩
    · simp at h
    · rw [List.nodup_cons] at hn
      simp only [List.zip_cons_cons, List.map_cons]
      congr 1
      · simp
      · rw [← ih hn.2 (by simpa using h)]
        refine List.map_congr_left fun n hnt => ?_
        rw [List.find?_cons_of_neg]
        intro hc
        have : a = n := by simpa using hc
        exact hn.1 (this ▸ hnt)

theorem find_zip_mem {names : List String} {ys : List (Arr Int)} {n : String} {u : Arr Int}
    (h : ((names.zip ys).find? (·.1 = n)).map (·.2) = some u) : (n, u) ∈ names.zip ys := by
  rcases hf : (names.zip ys).find? (·.1 = n) with _ | ⟨k, w⟩
  · rw [hf] at h; cases h
  · rw [hf] at h
    have h1 := List.mem_of_find?_eq_some hf
    have h2 := List.find?_some hf
    have : k = n := by simpa using h2
    have hw : w = u := Option.some.inj h
    rw [← this, ← hw]
    exact h1

theorem mem_zip_find {names : List String} (hn : names.Nodup) {ys : List (Arr Int)} {n : String} {u : Arr Int}
    (h : (n, u) ∈ names.zip ys) : ((names.zip ys).find? (·.1 = n)).map (·.2) = some u := by
  induction names generalizing ys with
  | nil => simp at h
  | cons a t ih =>
    rcases ys with _ | ⟨y, ys⟩
    · simp at h
    · rw [List.nodup_cons] at hn
      rw [List.zip_cons_cons, List.mem_cons] at h
      rw [List.zip_cons_cons]
      rcases h with h | h
      · obtain ⟨rfl, rfl⟩ := Prod.mk.inj h
        simp
      · rw [List.find?_cons_of_neg]
        · exact ih hn.2 h
        · intro hc
          have : a = n := by simpa using hc
          exact hn.1 (this ▸ (List.of_mem_zip h).1)

section main
variable {T : Tables (ZMod p)} {given : Vals Int} {sem : Meaning} {pre : Node → List (Option (Arr Int)) → Prop}
  {num : Node → Nat} {den : Nat} {m : Model (ZMod p) X}

omit [Fintype X] in
/-- A layer built alone. -/
theorem Inv.plain (wf : WellFormed given m.nodes) {P : Node → Prop} {env : Vals (ZMod p)} {ν : Vals Int}
    (h : Inv given sem m.nodes P env ν) {done rest : List Node} {nd : Node} (e : m.nodes = done ++ nd :: rest)
    (hdone : ∀ k ∈ done, P k) (hnd : ¬ P nd) {ys : List (Arr Int)} (hl : ys.length = nd.outputs.length)
    (hs : sem nd (nd.inputs.map ν) ys) :
    ∃ ν', Inv given sem m.nodes (fun k => P k ∨ k = nd)
      ((nd.outputs.zip (ys.map (castArr p))).foldl
        (fun (e : Vals (ZMod p)) kv => Function.update e kv.1 (some kv.2)) env) ν' := by
  have hmem : nd ∈ m.nodes := by rw [e]; simp
  have hnodup : nd.outputs.Nodup := (List.nodup_flatMap.1 wf.ssa).1 nd hmem
  obtain ⟨δ, hδ⟩ : ∃ δ : Vals Int, ∀ n, δ n = ((nd.outputs.zip ys).find? (·.1 = n)).map (·.2) := ⟨_, fun _ => rfl⟩
  refine ⟨overlay δ ν, Inv.extend wf h ?_ ?_ ?_ ?_ ?_⟩
  · rintro k - rfl
    exact hnd
  · intro o u ho
    exact ⟨nd, hmem, rfl, (List.of_mem_zip (find_zip_mem (hδ o ▸ ho))).1⟩
  · rintro k - rfl i hi q hq ho
    exact .inl (hdone q (wf_before wf e hi hq ho))
  · rintro k - rfl
    refine ⟨ys, ?_, ?_⟩
    · rw [← zip_lookup hnodup hl]
      refine List.map_congr_left fun o ho => ?_
      have hz := zip_lookup hnodup hl
      rw [← hδ o]
      rcases hf : δ o with _ | u
      · exfalso
        rw [hδ] at hf
        have : (none : Option (Arr Int)) ∈ k.outputs.map (fun n => ((k.outputs.zip ys).find? (·.1 = n)).map (·.2)) :=
          List.mem_map.2 ⟨o, ho, hf⟩
        rw [hz] at this
        simp at this
      · exact overlay_some hf
    · have : k.inputs.map (overlay δ ν) = k.inputs.map ν := by
        refine List.map_congr_left fun i hi => overlay_none ?_
        rcases hf : δ i with _ | u
        · rfl
        · rw [hδ] at hf
          exact absurd (List.of_mem_zip (find_zip_mem hf)).1 (wf.loop k hmem i hi)
      rw [this]
      exact hs
  · intro n v hv
    have key := insert_list _ _ _ _ hv
    rw [List.zip_map_right] at key
    rcases key with ⟨h1, h2⟩ | h1
    · refine .inl ⟨h1, ?_⟩
      rcases hf : δ n with _ | u
      · rfl
      · exfalso
        rw [hδ] at hf
        refine h2 ?_
        rw [List.map_map]
        exact List.mem_map.2 ⟨_, find_zip_mem hf, rfl⟩
    · obtain ⟨⟨k, u⟩, k1, k2⟩ := List.mem_map.1 h1
      obtain ⟨rfl, rfl⟩ := Prod.mk.inj k2
      exact .inr ⟨u, (hδ _).trans (mem_zip_find hnodup k1), rfl⟩

omit [Fintype X] in
/-- A layer fused with the `Relu` nodes after it. -/
theorem Inv.fused (wf : WellFormed given m.nodes) (hrelu : ∀ nd ∈ m.nodes, nd.op = "Relu" →
      (∃ i o, nd.inputs = [i] ∧ nd.outputs = [o]) ∧ ∀ y, sem nd [some y] [reluArr y])
    {P : Node → Prop} {env : Vals (ZMod p)} {ν : Vals Int}
    (h : Inv given sem m.nodes P env ν) {done rest : List Node} {nd : Node} (e : m.nodes = done ++ nd :: rest)
    (hdone : ∀ k ∈ done, P k) (hnd : ¬ P nd) {o : String} (ho : nd.outputs = [o]) {outs : List String}
    (houts : ∀ n, n ∈ outs ↔ n ∈ (relusOf m.nodes nd).flatMap (·.outputs)) {y : Arr Int}
    (hs : sem nd (nd.inputs.map ν) [y]) :
    ∃ ν', Inv given sem m.nodes (fun k => P k ∨ (k = nd ∨ k ∈ relusOf m.nodes nd))
      ((outs.map fun n => (n, castArr p (reluArr y))).foldl
        (fun (e : Vals (ZMod p)) kv => Function.update e kv.1 (some kv.2)) env) ν' := by
  have hmem : nd ∈ m.nodes := by rw [e]; simp
  have hr : ∀ r ∈ relusOf m.nodes nd, r ∈ m.nodes ∧ r.inputs = [o] ∧ (∃ q, r.outputs = [q] ∧ q ≠ o) ∧
      (∀ y, sem r [some y] [reluArr y]) := fun r hr => by
    obtain ⟨h1, h2⟩ := List.mem_filter.1 hr
    obtain ⟨h3, i, h4, h5⟩ : UsesRelu nd r := by simpa using h2
    obtain ⟨⟨i', q, k1, k2⟩, k3⟩ := hrelu r h1 h3
    rw [k1, List.mem_singleton] at h4
    rw [ho, List.mem_singleton] at h5
    rw [← h4, h5] at k1
    refine ⟨h1, k1, ⟨q, k2, ?_⟩, k3⟩
    rintro rfl
    exact wf.loop r h1 q (by rw [k1]; simp) (by rw [k2]; simp)
  have hrP : ∀ r ∈ relusOf m.nodes nd, ¬ P r := fun r hr' hP =>
    hnd (h.closed r (hr r hr').1 hP o (by rw [(hr r hr').2.1]; simp) nd hmem (by rw [ho]; simp))
  obtain ⟨δ, hδo, hδr, hδn⟩ : ∃ δ : Vals Int, δ o = some y ∧ (∀ n, n ≠ o → n ∈ outs → δ n = some (reluArr y)) ∧
      (∀ n, n ≠ o → n ∉ outs → δ n = none) :=
    ⟨fun n => if n = o then some y else if n ∈ outs then some (reluArr y) else none, by simp,
      fun n h1 h2 => by simp [h1, h2], fun n h1 h2 => by simp [h1, h2]⟩
  have hδs : ∀ n u, δ n = some u → n = o ∨ n ∈ outs := fun n u hu => by
    by_contra hc
    rw [not_or] at hc
    rw [hδn n hc.1 hc.2] at hu
    cases hu
  have houtr : ∀ n ∈ outs, ∃ r ∈ relusOf m.nodes nd, n ∈ r.outputs := fun n hn => by
    simpa using List.mem_flatMap.1 ((houts n).1 hn)
  refine ⟨overlay δ ν, Inv.extend wf h ?_ ?_ ?_ ?_ ?_⟩
  · rintro k - (rfl | hk)
    · exact hnd
    · exact hrP k hk
  · intro n u hu
    rcases hδs n u hu with rfl | hn
    · exact ⟨nd, hmem, .inl rfl, by rw [ho]; simp⟩
    · obtain ⟨r, r1, r2⟩ := houtr n hn
      exact ⟨r, (hr r r1).1, .inr r1, r2⟩
  · rintro k - (rfl | hk) i hi q hq hiq
    · exact .inl (hdone q (wf_before wf e hi hq hiq))
    · rw [(hr k hk).2.1, List.mem_singleton] at hi
      subst hi
      exact .inr (.inl (wf_producer wf hq hmem hiq (by rw [ho]; simp)))
  · rintro k - (rfl | hk)
    · refine ⟨[y], by rw [ho, List.map_singleton, overlay_some hδo]; rfl, ?_⟩
      have : k.inputs.map (overlay δ ν) = k.inputs.map ν := by
        refine List.map_congr_left fun i hi => overlay_none (hδn i ?_ ?_)
        · rintro rfl
          exact wf.loop k hmem i hi (by rw [ho]; simp)
        · intro hc
          obtain ⟨r, r1, r2⟩ := houtr i hc
          exact hrP r r1 (hdone r (wf_before wf e hi (hr r r1).1 r2))
      rw [this]
      exact hs
    · obtain ⟨h1, h2, ⟨q, h3, h4⟩, h5⟩ := hr k hk
      refine ⟨[reluArr y], ?_, ?_⟩
      · rw [h3, List.map_singleton, overlay_some (hδr q h4 ((houts q).2 (List.mem_flatMap.2 ⟨k, hk, by rw [h3]; simp⟩)))]
        rfl
      · rw [h2, List.map_singleton, overlay_some hδo]
        exact h5 y
  · intro n v hv
    rcases insert_list _ _ _ _ hv with ⟨h1, h2⟩ | h1
    · refine .inl ⟨h1, hδn n ?_ ?_⟩
      · rintro rfl
        obtain ⟨u, u1, -⟩ := h.agrees n v h1
        rcases h.dom n u u1 with ⟨w, hw⟩ | ⟨k, k1, k2, k3⟩
        · rw [wf.fresh nd hmem n (by rw [ho]; simp)] at hw
          cases hw
        · exact hnd (wf_producer wf k1 hmem k3 (by rw [ho]; simp) ▸ k2)
      · rw [List.map_map] at h2
        intro hc
        exact h2 (List.mem_map.2 ⟨n, hc, rfl⟩)
    · obtain ⟨n', k1, k2⟩ := List.mem_map.1 h1
      obtain ⟨rfl, rfl⟩ := Prod.mk.inj k2
      obtain ⟨r, r1, r2⟩ := houtr n' k1
      refine .inr ⟨reluArr y, hδr n' ?_ k1, rfl⟩
      obtain ⟨-, -, ⟨q, h3, h4⟩, -⟩ := hr r r1
      rw [h3, List.mem_singleton] at r2
      rw [r2]
      exact h4

theorem patternFor_ops {op : String} {pat : Pattern} (h : patternFor op = some pat) :
    pat.ops = [op, "Relu"] ∧ op ∈ ["Conv", "Gemm", "BatchNormalization", "Mul"] := by
  unfold patternFor at h
  by_cases c1 : op = "Conv"
  · subst c1; cases h; simp [Pattern.ops]
  rw [if_neg c1] at h
  by_cases c2 : op = "Gemm"
  · subst c2; cases h; simp [Pattern.ops]
  rw [if_neg c2] at h
  by_cases c3 : op = "BatchNormalization"
  · subst c3; cases h; simp [Pattern.ops]
  rw [if_neg c3] at h
  by_cases c4 : op = "Mul"
  · subst c4; cases h; simp [Pattern.ops]
  rw [if_neg c4] at h
  cases h

theorem almost_layers (wf : WellFormed given m.nodes) (hb : BuilderSound T given sem pre num den m)
    {ord : List String → List String} (hord : ∀ l x, x ∈ ord l ↔ x ∈ l)
    (hpre : ∀ done nd rest, m.nodes = done ++ nd :: rest → ∀ ν, Extends given ν → IsModelRun sem done ν →
      pre nd (nd.inputs.map ν)) :
    ∀ (rest done : List Node) (i : Nat) (skip : List String) (layers : List (Layer (ZMod p) X)) (env : Vals (ZMod p))
      (ν : Vals Int), m.nodes = done ++ rest →
      ((plan ord m.nodes rest i skip).mapM fun b => m.builder b.1 b.2.1 b.2.2) = some layers →
      Inv given sem m.nodes (fun k => k ∈ done ∨ k.name ∈ skip) env ν →
      AlmostSound T (fun x => applyLayers x layers env) (rest.map num).sum den
        fun env' => ∃ ν', Inv given sem m.nodes (fun _ => True) env' ν'
  | [], done, i, skip, layers, env, ν, e, hl, hi => by
    rw [plan, List.mapM_nil] at hl
    obtain rfl := (Option.some.inj hl).symm
    rw [List.append_nil] at e
    intro s
    refine ⟨∅, by simp, fun x _ o ho hs => ⟨ν, ?_⟩⟩
    cases ho
    exact hi.congr fun nd hnd => ⟨fun _ => trivial, fun _ => .inl (e ▸ hnd)⟩
  | nd :: rest, done, i, skip, layers, env, ν, e, hl, hi => by
    have hmem : nd ∈ m.nodes := by rw [e]; simp
    have e' : m.nodes = (done ++ [nd]) ++ rest := by rw [e]; simp
    have hsame : ∀ k ∈ m.nodes, k.name = nd.name → k = nd := fun k hk hkn =>
      List.inj_on_of_nodup_map wf.names hk hmem hkn
    have hnot : nd ∉ done := fun hc => by
      have := wf.names
      rw [e, List.map_append, List.map_cons] at this
      exact (List.nodup_append.1 this).2.2 nd.name (List.mem_map.2 ⟨nd, hc, rfl⟩) nd.name (by simp) rfl
    rw [List.map_cons, List.sum_cons]
    rw [plan] at hl
    by_cases hskip : nd.name ∈ skip
    · rw [if_pos hskip] at hl
      refine AlmostSound.mono (n := (rest.map num).sum) ?_ (Nat.le_add_left _ _)
      refine almost_layers wf hb hord hpre rest (done ++ [nd]) (i + 1) skip layers env ν e' hl (hi.congr fun k hk => ?_)
      simp only [List.mem_append, List.mem_singleton]
      refine ⟨fun h => h.elim (fun h => .inl (.inl h)) .inr, fun h => ?_⟩
      rcases h with (h | rfl) | h
      · exact .inl h
      · exact .inr hskip
      · exact .inr h
    · rw [if_neg hskip] at hl
      have hnd : ¬ (nd ∈ done ∨ nd.name ∈ skip) := fun h => h.elim hnot hskip
      have hrun : IsModelRun sem done ν := fun k hk => hi.run k (by rw [e]; exact List.mem_append_left _ hk) (.inl hk)
      have hp := hpre done nd rest e ν hi.ext hrun
      have hsk := skipLayers_node wf.names hmem ord
      rcases hq : skipLayers ord (matchesOf m.nodes nd.name) nd.outputs with _ | ⟨pat, outs, names⟩
      · simp only [hq] at hl
        rw [List.mapM_cons] at hl
        obtain ⟨l, hl1, hl⟩ := Option.bind_eq_some_iff.1 hl
        obtain ⟨ls, hl2, hl⟩ := Option.bind_eq_some_iff.1 hl
        obtain rfl := (Option.some.inj hl).symm
        obtain ⟨k1, k2⟩ := hb.plain nd hmem i l hl1 env ν hi.agrees hi.ext hp
        refine AlmostSound.seq k1 k2 fun o ho => ?_
        obtain ⟨ys, y1, y2, rfl⟩ := ho
        obtain ⟨ν', hν'⟩ := hi.plain wf e (fun k hk => .inl hk) hnd y1 y2
        refine almost_layers wf hb hord hpre rest (done ++ [nd]) (i + 1) skip ls _ ν' e' hl2 (hν'.congr fun k hk => ?_)
        simp only [List.mem_append, List.mem_singleton]
        tauto
      · obtain ⟨hps, hne, rfl, rfl⟩ : patternFor nd.op = some pat ∧ relusOf m.nodes nd ≠ [] ∧
            outs = ord ((relusOf m.nodes nd).flatMap (·.outputs)) ∧
            names = (relusOf m.nodes nd).flatMap fun r => [nd.name, r.name] := by
          rw [hq] at hsk
          rcases hps : patternFor nd.op with _ | pat'
          · rw [hps] at hsk; cases hsk
          · rw [hps] at hsk
            dsimp only at hsk
            by_cases hr : relusOf m.nodes nd = []
            · rw [if_pos hr] at hsk; cases hsk
            · rw [if_neg hr] at hsk
              have := Option.some.inj hsk
              simp only [Prod.mk.injEq] at this
              exact ⟨by rw [this.1], hr, this.2.1, this.2.2⟩
        simp only [hq] at hl
        rw [List.mapM_cons] at hl
        obtain ⟨l, hl1, hl⟩ := Option.bind_eq_some_iff.1 hl
        obtain ⟨ls, hl2, hl⟩ := Option.bind_eq_some_iff.1 hl
        obtain rfl := (Option.some.inj hl).symm
        obtain ⟨hops, hop⟩ := patternFor_ops hps
        obtain ⟨o, ho⟩ := hb.head nd hmem hop
        obtain ⟨k1, k2⟩ := hb.fused nd hmem _ pat i l hops hl1 env ν hi.agrees hi.ext hp
        refine AlmostSound.seq k1 k2 fun r hr => ?_
        obtain ⟨y, y1, rfl⟩ := hr
        obtain ⟨ν', hν'⟩ := hi.fused wf hb.relu e (fun k hk => .inl hk) hnd ho (fun n => hord _ n) y1
        refine almost_layers wf hb hord hpre rest (done ++ [nd]) (i + 1) _ ls _ ν' e' hl2 (hν'.congr fun k hk => ?_)
        have hk' : k.name ∈ (relusOf m.nodes nd).flatMap (fun r => [nd.name, r.name]) ↔
            k = nd ∨ k ∈ relusOf m.nodes nd := by
          rw [List.mem_flatMap]
          constructor
          · rintro ⟨r, r1, r2⟩
            rw [List.mem_cons, List.mem_singleton] at r2
            rcases r2 with h | h
            · exact .inl (hsame k hk h)
            · refine .inr ?_
              rw [List.inj_on_of_nodup_map wf.names hk (List.mem_filter.1 r1).1 h]
              exact r1
          · rintro (rfl | h)
            · obtain ⟨r, hr⟩ := List.exists_mem_of_ne_nil _ hne
              exact ⟨r, hr, by simp⟩
            · exact ⟨k, h, by simp⟩
        simp only [List.mem_append, List.mem_singleton, hk']
        tauto

end main

/-! ## Inputs and outputs -/

/-- The input wires are the entries of the input tensors `xs`, one tensor after the other; the tensors have the declared
shapes and are those of `given`. -/
def InputsAre (p : Nat) (given : Vals Int) (inputs : List IO) (xs : List (Arr Int)) (wires : List (ZMod p)) : Prop :=
  List.Forall₂ (fun io u => given io.name = some u ∧ u.shape = io.shape ∧ u.WF) inputs xs ∧
    wires = (xs.flatMap (·.data)).map fun z : Int => (z : ZMod p)

theorem splitInputs_spec {given : Vals Int} : ∀ {inputs : List IO} {xs : List (Arr Int)} (env : Vals (ZMod p)),
    List.Forall₂ (fun io u => given io.name = some u ∧ u.shape = io.shape ∧ u.WF) inputs xs → Agrees p env given →
    ∃ env', splitInputs inputs ((xs.flatMap (·.data)).map fun z : Int => (z : ZMod p)) env = .ok env' ∧
      Agrees p env' given ∧ (∀ n v, env n = some v → (env' n).isSome) ∧ (∀ io ∈ inputs, (env' io.name).isSome) ∧
      ∀ n v, env' n = some v → env n = some v ∨ n ∈ inputs.map (·.name)
  | [], _, env, .nil, h => ⟨env, rfl, h, fun n v hv => by simp [hv], by simp, fun n v h => .inl h⟩
  | io :: t, u :: xs, env, .cons ⟨h1, h2, h3⟩ ht, h => by
    have hl : (u.data.map fun z : Int => (z : ZMod p)).length = io.shape.prod := by
      rw [List.length_map, ← h2]; exact h3
    have hsp : ((u :: xs).flatMap (·.data)).map (fun z : Int => (z : ZMod p)) =
        (u.data.map fun z : Int => (z : ZMod p)) ++ (xs.flatMap (·.data)).map fun z : Int => (z : ZMod p) := by
      rw [List.flatMap_cons, List.map_append]
    have hag : Agrees p (Function.update env io.name (some ⟨io.shape, u.data.map fun z : Int => (z : ZMod p)⟩)) given := by
      intro n v hv
      by_cases hn : n = io.name
      · subst hn
        rw [Function.update_self] at hv
        refine ⟨u, h1, ?_⟩
        rw [← Option.some.inj hv, castArr, h2]
      · rw [Function.update_of_ne hn] at hv
        exact h n v hv
    obtain ⟨env', k1, k2, k3, k4, k5⟩ := splitInputs_spec _ ht hag
    refine ⟨env', ?_, k2, ?_, ?_, ?_⟩
    · rw [splitInputs, hsp, ← hl, List.take_left, List.drop_left, fromShapeVec, if_pos hl]
      exact k1
    · intro n v hv
      by_cases hn : n = io.name
      · subst hn
        exact k3 _ _ (Function.update_self ..)
      · exact k3 n v (by rw [Function.update_of_ne hn, hv])
    · intro io' hio
      rcases List.mem_cons.1 hio with rfl | hio
      · exact k3 _ _ (Function.update_self ..)
      · exact k4 io' hio
    · intro n v hv
      rcases k5 n v hv with h | h
      · by_cases hn : n = io.name
        · exact .inr (by simp [hn])
        · rw [Function.update_of_ne hn] at h
          exact .inl h
      · exact .inr (List.mem_cons_of_mem _ h)

theorem getInputs_spec {given : Vals Int} {inputs : List IO} {xs : List (Arr Int)} {wires : List (ZMod p)}
    (h : InputsAre p given inputs xs wires) :
    ∃ env, getInputs wires inputs = .ok env ∧ Agrees p env given ∧ (∀ io ∈ inputs, (env io.name).isSome) ∧
      ∀ n v, env n = some v → n ∈ inputs.map (·.name) := by
  obtain ⟨h1, rfl⟩ := h
  have hl : ((xs.flatMap (·.data)).map fun z : Int => (z : ZMod p)).length =
      (inputs.map fun io => io.shape.prod).sum := by
    rw [List.length_map]
    induction h1 with
    | nil => rfl
    | cons a _ ih =>
      rw [List.flatMap_cons, List.length_append, ih, List.map_cons, List.sum_cons, ← a.2.1]
      congr 1
      exact a.2.2
  obtain ⟨env, k1, k2, -, k4, k5⟩ := splitInputs_spec (p := p) (fun _ => none) h1 (fun n v hv => by cases hv)
  refine ⟨env, ?_, k2, k4, fun n v hv => ?_⟩
  · rw [getInputs, if_neg (by rw [hl]; simp)]
    exact k1
  · rcases k5 n v hv with h | h
    · cases h
    · exact h

theorem sound_assertOutputs {F : Type} [CommRing F] {T : Tables F} : ∀ l : List (F × F),
    Sound T (assertOutputs l) fun _ => ∀ q ∈ l, q.1 = q.2
  | [] => Sound.pure (by simp)
  | (a, b) :: t => by
    rw [assertOutputs]
    refine Sound.bind Sound.assertEq fun _ h => (sound_assertOutputs t).conseq fun _ k q hq => ?_
    rcases List.mem_cons.1 hq with rfl | hq
    · exact h
    · exact k q hq

theorem det_assertOutputs {F : Type} [CommRing F] {T : Tables F} : ∀ l : List (F × F), (∀ q ∈ l, q.1 = q.2) →
    Det T (assertOutputs l) fun _ => True
  | [], _ => Det.pure trivial
  | (a, b) :: t, h => by
    rw [assertOutputs]
    exact Det.bind (Det.assertEq (h (a, b) (by simp))) fun _ _ =>
      det_assertOutputs t fun q hq => h q (List.mem_cons_of_mem _ hq)

theorem zip_eq {α : Type} : ∀ {a b : List α}, a.length = b.length → (∀ q ∈ a.zip b, q.1 = q.2) → a = b
  | [], [], _, _ => rfl
  | x :: a, y :: b, h, hq => by
    have h1 : x = y := hq (x, y) (by simp)
    rw [h1, zip_eq (a := a) (b := b) (by simpa using h) fun q h => hq q (by simp [h])]

theorem mapM_agrees {env : Vals (ZMod p)} {ν : Vals Int} (h : Agrees p env ν) : ∀ {names : List String}
    {ys : List (Arr (ZMod p))}, names.mapM env = some ys →
    ∃ us : List (Arr Int), names.map ν = us.map some ∧ ys = us.map (castArr p)
  | [], ys, e => by
    rw [List.mapM_nil] at e
    exact ⟨[], rfl, (Option.some.inj e).symm⟩
  | n :: t, ys, e => by
    rw [List.mapM_cons] at e
    obtain ⟨y, e1, e⟩ := Option.bind_eq_some_iff.1 e
    obtain ⟨ys', e2, e⟩ := Option.bind_eq_some_iff.1 e
    obtain rfl := (Option.some.inj e).symm
    obtain ⟨u, u1, rfl⟩ := h n y e1
    obtain ⟨us, k1, rfl⟩ := mapM_agrees h e2
    exact ⟨u :: us, by rw [List.map_cons, u1, k1]; rfl, rfl⟩

theorem flat_cast (us : List (Arr Int)) :
    (us.map (castArr p)).flatMap (·.data) = (us.flatMap (·.data)).map fun z : Int => (z : ZMod p) := by
  induction us with
  | nil => rfl
  | cons a t ih => rw [List.map_cons, List.flatMap_cons, ih, List.flatMap_cons, List.map_append]; rfl

/-- The public constants of the circuit. -/
def ConstantsOk (m : Model (ZMod p) X) (w : Wires (ZMod p)) : Prop :=
  w.dummy = (1, 1) ∧ w.scaleBase = (m.scaleBase : ZMod p) ∧ w.scaleExponent = (m.scaleExponent : ZMod p)

omit [Fintype X] in
theorem sound_finish {T : Tables (ZMod p)} {m : Model (ZMod p) X} {w : Wires (ZMod p)} {env : Vals (ZMod p)}
    {ν : Vals Int} (h : Agrees p env ν) : Sound T (finish m w env) fun _ =>
      IsFlat ν (m.outputs.map (·.name)) (fun z : Int => (z : ZMod p)) w.outputs ∧ ConstantsOk m w := by
  unfold finish
  by_cases h0 : m.outputs = []
  · rw [if_pos h0]; exact Sound.throwErr
  rw [if_neg h0]
  obtain ⟨oys, hy⟩ : ∃ oys, (m.outputs.mapM fun io => env io.name) = oys := ⟨_, rfl⟩
  rw [hy]
  rcases oys with _ | ys
  · exact Sound.throwErr
  dsimp only
  by_cases h1 : (ys.flatMap (·.data)).length ≠ effectiveDims m.outputs
  · rw [if_pos h1]; exact Sound.throwErr
  rw [if_neg h1]
  by_cases h2 : (ys.flatMap (·.data)).length ≠ w.outputs.length
  · rw [if_pos h2]; exact Sound.throwErr
  rw [if_neg h2]
  push Not at h2
  have hy' : (m.outputs.map (·.name)).mapM env = some ys := by rw [List.mapM_map]; exact hy
  obtain ⟨us, u1, rfl⟩ := mapM_agrees h hy'
  refine Sound.bind (sound_assertOutputs _) fun _ k1 => Sound.bind Sound.assertEq fun _ k2 =>
    Sound.bind Sound.assertEq fun _ k3 => Sound.bind Sound.assertEq fun _ k4 => Sound.assertEq.conseq fun _ k5 =>
    ⟨⟨us, u1, ?_⟩, Prod.ext k2 k3, k4, k5⟩
  rw [← flat_cast]
  exact zip_eq h2.symm k1

section main
variable {T : Tables (ZMod p)} {given : Vals Int} {sem : Meaning} {pre : Node → List (Option (Arr Int)) → Prop}
  {num : Node → Nat} {den : Nat} {m : Model (ZMod p) X}

/-- **C64, the circuit of a model is sound.** If the layer built for every node implements the node but for a fraction of
the challenges, the circuit accepts only outputs of the model on its inputs, but for the sum of these fractions. The
order `ord` in which the outputs of fused layers are listed does not matter. -/
theorem C64_model_sound (wf : WellFormed given m.nodes) (hb : BuilderSound T given sem pre num den m)
    {ord : List String → List String} (hord : ∀ l x, x ∈ ord l ↔ x ∈ l)
    (hpre : ∀ done nd rest, m.nodes = done ++ nd :: rest → ∀ ν, Extends given ν → IsModelRun sem done ν →
      pre nd (nd.inputs.map ν))
    {w : Wires (ZMod p)} {xs : List (Arr Int)}
    (hx : InputsAre p given m.inputs xs w.inputArr) :
    AlmostSound T (fun x => tryDefine ord m w x) (m.nodes.map num).sum den fun _ =>
      ∃ ν, Extends given ν ∧ IsModelRun sem m.nodes ν ∧
        IsFlat ν (m.outputs.map (·.name)) (fun z : Int => (z : ZMod p)) w.outputs ∧ ConstantsOk m w := by
  by_cases h0 : m.nodes = []
  · refine almost_of_sound fun x => ?_
    rw [tryDefine, if_pos h0]
    exact Sound.throwErr
  obtain ⟨env, e1, e2, -, -⟩ := getInputs_spec hx
  rcases hl : buildLayers ord m with _ | layers
  · refine almost_of_sound fun x => ?_
    rw [tryDefine, if_neg h0, e1]
    simp only [hl]
    exact Sound.throwErr
  have hinv : Inv given sem m.nodes (fun k => k ∈ ([] : List Node) ∨ k.name ∈ ([] : List String)) env given :=
    ⟨e2, fun n u h => h, fun nd _ h => by simp at h, fun o u h => .inl ⟨u, h⟩, fun k _ h => by simp at h⟩
  have key := almost_layers wf hb hord hpre m.nodes [] 0 [] layers env given rfl hl hinv
  have key2 := AlmostSound.bind (f := fun _ env => finish m w env)
    (Q := fun _ => ∃ ν, Extends given ν ∧ IsModelRun sem m.nodes ν ∧
        IsFlat ν (m.outputs.map (·.name)) (fun z : Int => (z : ZMod p)) w.outputs ∧ ConstantsOk m w) key
    fun x env' ⟨ν, hν⟩ => (sound_finish hν.agrees).conseq fun _ h =>
      ⟨ν, hν.ext, fun nd hnd => hν.run nd hnd trivial, h⟩
  have : (fun x => tryDefine ord m w x) = fun x => applyLayers x layers env >>= fun env => finish m w env := by
    funext x
    rw [tryDefine, if_neg h0, e1]
    simp only [hl]
  rw [this]
  exact key2

end main

end JST.Props
