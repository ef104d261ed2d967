import Verif.Props.Assembly

/-!
# C64: the circuit of a model, completeness, refusals, and when nothing is fused
-/

namespace JST.Props

open JST.Spec JST.Graph JST.Layers

variable {p : Nat} {X : Type}

/-- A node that is fused with the `Relu` nodes after it. -/
def IsFused (nodes : List Node) (nd : Node) : Prop :=
  nd.op ∈ ["Conv", "Gemm", "BatchNormalization", "Mul"] ∧ ∃ r ∈ nodes, UsesRelu nd r

theorem isFused_iff {nodes : List Node} {nd : Node} :
    IsFused nodes nd ↔ (∃ pat, patternFor nd.op = some pat) ∧ relusOf nodes nd ≠ [] := by
  refine and_congr ?_ ?_
  · constructor
    · intro h
      simp only [List.mem_cons, List.not_mem_nil, or_false] at h
      rcases h with h | h | h | h <;> rw [h]
      exacts [⟨_, rfl⟩, ⟨_, rfl⟩, ⟨_, rfl⟩, ⟨_, rfl⟩]
    · rintro ⟨pat, h⟩
      exact (patternFor_ops h).2
  · constructor
    · rintro ⟨r, h1, h2⟩ hc
      have : r ∈ relusOf nodes nd := List.mem_filter.2 ⟨h1, by simpa using h2⟩
      rw [hc] at this
      cases this
    · intro h
      obtain ⟨r, hr⟩ := List.exists_mem_of_ne_nil _ h
      obtain ⟨h1, h2⟩ := List.mem_filter.1 hr
      exact ⟨r, h1, by simpa using h2⟩

/-- What the two outcomes of the search mean. -/
theorem skipLayers_cases {nodes : List Node} (hn : (nodes.map (·.name)).Nodup) {nd : Node} (hnd : nd ∈ nodes)
    (ord : List String → List String) :
    (¬ IsFused nodes nd ∧ skipLayers ord (matchesOf nodes nd.name) nd.outputs = none) ∨
    (IsFused nodes nd ∧ ∃ pat, pat.ops = [nd.op, "Relu"] ∧
      skipLayers ord (matchesOf nodes nd.name) nd.outputs =
        some (pat, ord ((relusOf nodes nd).flatMap (·.outputs)),
          (relusOf nodes nd).flatMap fun r => [nd.name, r.name])) := by
  have hsk := skipLayers_node hn hnd ord
  rw [isFused_iff]
  rcases hps : patternFor nd.op with _ | pat
  · rw [hps] at hsk
    exact .inl ⟨fun h => (by obtain ⟨⟨q, hq⟩, -⟩ := h; cases hq), hsk⟩
  · rw [hps] at hsk
    dsimp only at hsk
    by_cases hr : relusOf nodes nd = []
    · rw [if_pos hr] at hsk
      exact .inl ⟨fun h => h.2 hr, hsk⟩
    · rw [if_neg hr] at hsk
      exact .inr ⟨⟨⟨pat, rfl⟩, hr⟩, pat, (patternFor_ops hps).1, hsk⟩

/-! ## Completeness -/

/-- The layer has its inputs: every input that an input of the model or a node provides is there. -/
def HasInputs (m : Model (ZMod p) X) (nd : Node) (env : Vals (ZMod p)) : Prop :=
  ∀ i ∈ nd.inputs, (i ∈ m.inputs.map (·.name) ∨ ∃ k ∈ m.nodes, i ∈ k.outputs) → (env i).isSome

/-- What is required of the layers: they are built, and run honestly on inputs satisfying `pre` they succeed with correct
outputs. -/
structure BuilderComplete (T : Tables (ZMod p)) (given : Vals Int) (sem : Meaning)
    (pre : Node → List (Option (Arr Int)) → Prop) (m : Model (ZMod p) X) : Prop where
  plain : ∀ nd ∈ m.nodes, ∀ i, ∃ l, m.builder nd .none i = some l ∧
    ∀ x env ν, Agrees p env ν → Extends given ν → HasInputs m nd env → pre nd (nd.inputs.map ν) →
      Complete T (l x env) fun o => ∃ ys, ys.length = nd.outputs.length ∧ sem nd (nd.inputs.map ν) ys ∧
        o = nd.outputs.zip (ys.map (castArr p))
  fused : ∀ nd ∈ m.nodes, ∀ outs pat i, pat.ops = [nd.op, "Relu"] →
    ∃ l, m.builder { nd with outputs := outs } pat i = some l ∧
    ∀ x env ν, Agrees p env ν → Extends given ν → HasInputs m nd env → pre nd (nd.inputs.map ν) →
      Complete T (l x env) fun o => ∃ y, sem nd (nd.inputs.map ν) [y] ∧
        o = outs.map fun n => (n, castArr p (reluArr y))
  relu : ∀ nd ∈ m.nodes, nd.op = "Relu" →
    (∃ i o, nd.inputs = [i] ∧ nd.outputs = [o]) ∧ ∀ y, sem nd [some y] [reluArr y]
  head : ∀ nd ∈ m.nodes, nd.op ∈ ["Conv", "Gemm", "BatchNormalization", "Mul"] → ∃ o, nd.outputs = [o]

/-- The output of a fused node is used by `Relu` nodes only, and is not an output of the model. -/
def FusionsPrivate (m : Model (ZMod p) X) : Prop :=
  ∀ nd ∈ m.nodes, IsFused m.nodes nd → ∀ o ∈ nd.outputs,
    (∀ k ∈ m.nodes, o ∈ k.inputs → k.op = "Relu") ∧ o ∉ m.outputs.map (·.name)

theorem insert_isSome {β : Type} (l : List (String × Arr β)) : ∀ (env : Vals β) (n : String),
    (env n).isSome ∨ n ∈ l.map (·.1) →
    ((l.foldl (fun (e : Vals β) kv => Function.update e kv.1 (some kv.2)) env) n).isSome := by
  induction l with
  | nil => intro env n h; exact h.elim id (by simp)
  | cons kv t ih =>
    intro env n h
    rw [List.foldl_cons]
    refine ih _ n ?_
    by_cases hn : n = kv.1
    · subst hn; exact .inl (by rw [Function.update_self]; rfl)
    · rw [Function.update_of_ne hn]
      rcases h with h | h
      · exact .inl h
      · rw [List.map_cons, List.mem_cons] at h
        exact .inr (h.resolve_left hn)

section complete
variable {T : Tables (ZMod p)} {given : Vals Int} {sem : Meaning} {pre : Node → List (Option (Arr Int)) → Prop}
  {m : Model (ZMod p) X}

/-- What is in the environment. -/
def HasAll (m : Model (ZMod p) X) (P : Node → Prop) (env : Vals (ZMod p)) : Prop :=
  (∀ io ∈ m.inputs, (env io.name).isSome) ∧
    ∀ k ∈ m.nodes, P k → ¬ IsFused m.nodes k → ∀ o ∈ k.outputs, (env o).isSome

theorem complete_layers (wf : WellFormed given m.nodes) (hb : BuilderComplete T given sem pre m)
    (hf : FusionsPrivate m) {ord : List String → List String} (hord : ∀ l x, x ∈ ord l ↔ x ∈ l)
    (hpre : ∀ done nd rest, m.nodes = done ++ nd :: rest → ∀ ν, Extends given ν → IsModelRun sem done ν →
      pre nd (nd.inputs.map ν)) (x : X) :
    ∀ (rest done : List Node) (i : Nat) (skip : List String) (env : Vals (ZMod p)) (ν : Vals Int),
      m.nodes = done ++ rest → Inv given sem m.nodes (fun k => k ∈ done ∨ k.name ∈ skip) env ν →
      HasAll m (fun k => k ∈ done ∨ k.name ∈ skip) env → (∀ k ∈ rest, k.name ∈ skip → k.op = "Relu") →
      (∀ q ∈ done, IsFused m.nodes q → ∀ r ∈ relusOf m.nodes q, r.name ∈ skip) →
      ∃ layers, ((plan ord m.nodes rest i skip).mapM fun b => m.builder b.1 b.2.1 b.2.2) = some layers ∧
        Complete T (applyLayers x layers env) fun env' =>
          ∃ ν', Inv given sem m.nodes (fun _ => True) env' ν' ∧ HasAll m (fun _ => True) env'
  | [], done, i, skip, env, ν, e, hi, hh, _, _ => by
    rw [List.append_nil] at e
    refine ⟨[], rfl, Complete.pure ⟨ν, hi.congr fun nd hnd => ⟨fun _ => trivial, fun _ => .inl (e ▸ hnd)⟩, hh.1, ?_⟩⟩
    exact fun k hk _ => hh.2 k hk (.inl (e ▸ hk))
  | nd :: rest, done, i, skip, env, ν, e, hi, hh, hsk, hfd => by
    have hmem : nd ∈ m.nodes := by rw [e]; simp
    have e' : m.nodes = (done ++ [nd]) ++ rest := by rw [e]; simp
    have hsame : ∀ k ∈ m.nodes, k.name = nd.name → k = nd := fun k hk hkn =>
      List.inj_on_of_nodup_map wf.names hk hmem hkn
    have hnodup : (done ++ nd :: rest).Nodup := e ▸ List.Nodup.of_map _ wf.names
    have hnot : nd ∉ done := fun hc => (List.nodup_append.1 hnodup).2.2 nd hc nd (by simp) rfl
    have hrest : nd ∉ rest := (List.nodup_cons.1 (List.nodup_append.1 hnodup).2.1).1
    have hresti : ∀ k ∈ rest, k ∈ m.nodes := fun k hk => by rw [e']; exact List.mem_append_right _ hk
    by_cases hskip : nd.name ∈ skip
    · obtain ⟨layers, k1, k2⟩ := complete_layers wf hb hf hord hpre x rest (done ++ [nd]) (i + 1) skip env ν e'
        (hi.congr fun k hk => by
          simp only [List.mem_append, List.mem_singleton]
          refine ⟨fun h => h.elim (fun h => .inl (.inl h)) .inr, fun h => ?_⟩
          rcases h with (h | rfl) | h
          · exact .inl h
          · exact .inr hskip
          · exact .inr h)
        ⟨hh.1, fun k hk hP => hh.2 k hk (by
          simp only [List.mem_append, List.mem_singleton] at hP
          rcases hP with (h | rfl) | h
          · exact .inl h
          · exact .inr hskip
          · exact .inr h)⟩
        (fun k hk => hsk k (List.mem_cons_of_mem _ hk))
        (fun q hq hfq => by
          rcases List.mem_append.1 hq with hq | hq
          · exact hfd q hq hfq
          · rw [List.mem_singleton] at hq
            subst hq
            have := hfq.1
            rw [hsk q (by simp) hskip] at this
            simp at this)
      refine ⟨layers, ?_, k2⟩
      rw [plan, if_pos hskip]
      exact k1
    · have hnd : ¬ (nd ∈ done ∨ nd.name ∈ skip) := fun h => h.elim hnot hskip
      have hrun : IsModelRun sem done ν := fun k hk => hi.run k (by rw [e]; exact List.mem_append_left _ hk) (.inl hk)
      have hp := hpre done nd rest e ν hi.ext hrun
      have hin : HasInputs m nd env := by
        intro i' hi' hor
        rcases hor with h | ⟨k, k1, k2⟩
        · obtain ⟨io, h1, rfl⟩ := List.mem_map.1 h
          exact hh.1 io h1
        · have hkd := wf_before wf e hi' k1 k2
          refine hh.2 k k1 (.inl hkd) (fun hfk => ?_) i' k2
          have hop := (hf k k1 hfk i' k2).1 nd hmem hi'
          exact hskip (hfd k hkd hfk nd (List.mem_filter.2 ⟨hmem, by
            have : UsesRelu k nd := ⟨hop, i', hi', k2⟩
            simpa using this⟩))
      rcases skipLayers_cases wf.names hmem ord with ⟨hnf, hq⟩ | ⟨hfu, pat, hops, hq⟩
      · obtain ⟨l, hl1, hl2⟩ := hb.plain nd hmem i
        have key : ∀ o : List (String × Arr (ZMod p)), (∃ ys : List (Arr Int), ys.length = nd.outputs.length ∧
            sem nd (nd.inputs.map ν) ys ∧ o = nd.outputs.zip (ys.map (castArr p))) →
            ∃ layers, ((plan ord m.nodes rest (i + 1) skip).mapM fun b => m.builder b.1 b.2.1 b.2.2) = some layers ∧
              Complete T (applyLayers x layers
                (o.foldl (fun (e : Vals (ZMod p)) kv => Function.update e kv.1 (some kv.2)) env)) fun env' =>
                  ∃ ν', Inv given sem m.nodes (fun _ => True) env' ν' ∧ HasAll m (fun _ => True) env' := by
          rintro o ⟨ys, y1, y2, rfl⟩
          obtain ⟨ν', hν'⟩ := hi.plain wf e (fun k hk => .inl hk) hnd y1 y2
          have hP : ∀ k ∈ m.nodes, ((k ∈ done ∨ k.name ∈ skip) ∨ k = nd) ↔ (k ∈ done ++ [nd] ∨ k.name ∈ skip) := by
            intro k hk
            simp only [List.mem_append, List.mem_singleton]
            tauto
          refine complete_layers wf hb hf hord hpre x rest (done ++ [nd]) (i + 1) skip _ ν' e' (hν'.congr hP) ⟨?_, ?_⟩
            (fun k hk => hsk k (List.mem_cons_of_mem _ hk)) ?_
          · exact fun io hio => insert_isSome _ _ _ (.inl (hh.1 io hio))
          · intro k hk hPk hfk o ho
            rcases (hP k hk).2 hPk with h | rfl
            · exact insert_isSome _ _ _ (.inl (hh.2 k hk h hfk o ho))
            · refine insert_isSome _ _ _ (.inr ?_)
              rw [List.map_fst_zip (by rw [List.length_map, y1])]
              exact ho
          · intro q hq' hfq
            rcases List.mem_append.1 hq' with hq' | hq'
            · exact hfd q hq' hfq
            · rw [List.mem_singleton] at hq'
              subst hq'
              exact absurd hfq hnf
        obtain ⟨o, c1, c2, c3, c4⟩ := hl2 x env ν hi.agrees hi.ext hin hp
        obtain ⟨layers, k1, k2⟩ := key _ c4
        refine ⟨l :: layers, ?_, ?_⟩
        · rw [plan, if_neg hskip]
          simp only [hq]
          rw [List.mapM_cons, hl1, k1]
          rfl
        · rw [applyLayers]
          refine Complete.bind (P := fun a => a = o.val) ⟨o, c1, c2, c3, rfl⟩ ?_
          rintro _ rfl
          exact k2
      · obtain ⟨o, ho⟩ := hb.head nd hmem hfu.1
        obtain ⟨l, hl1, hl2⟩ := hb.fused nd hmem (ord ((relusOf m.nodes nd).flatMap (·.outputs))) pat i hops
        have key : ∀ o' : List (String × Arr (ZMod p)), (∃ y, sem nd (nd.inputs.map ν) [y] ∧
            o' = (ord ((relusOf m.nodes nd).flatMap (·.outputs))).map fun n => (n, castArr p (reluArr y))) →
            ∃ layers, ((plan ord m.nodes rest (i + 1)
                (skip ++ (relusOf m.nodes nd).flatMap fun r => [nd.name, r.name])).mapM
                  fun b => m.builder b.1 b.2.1 b.2.2) = some layers ∧
              Complete T (applyLayers x layers
                (o'.foldl (fun (e : Vals (ZMod p)) kv => Function.update e kv.1 (some kv.2)) env)) fun env' =>
                  ∃ ν', Inv given sem m.nodes (fun _ => True) env' ν' ∧ HasAll m (fun _ => True) env' := by
          rintro o' ⟨y, y1, rfl⟩
          obtain ⟨ν', hν'⟩ := hi.fused wf hb.relu e (fun k hk => .inl hk) hnd ho (fun n => hord _ n) y1
          have hk' : ∀ k ∈ m.nodes, k.name ∈ (relusOf m.nodes nd).flatMap (fun r => [nd.name, r.name]) ↔
              k = nd ∨ k ∈ relusOf m.nodes nd := by
            intro k hk
            rw [List.mem_flatMap]
            constructor
            · rintro ⟨r, r1, r2⟩
              rw [List.mem_cons, List.mem_singleton] at r2
              rcases r2 with h | h
              · exact .inl (hsame k hk h)
              · refine .inr ?_
                rw [List.inj_on_of_nodup_map wf.names hk (List.mem_filter.1 r1).1 h]
                exact r1
            · rintro (rfl | h)
              · obtain ⟨r, hr⟩ := List.exists_mem_of_ne_nil _ (isFused_iff.1 hfu).2
                exact ⟨r, hr, by simp⟩
              · exact ⟨k, h, by simp⟩
          have hP : ∀ k ∈ m.nodes, ((k ∈ done ∨ k.name ∈ skip) ∨ (k = nd ∨ k ∈ relusOf m.nodes nd)) ↔
              (k ∈ done ++ [nd] ∨ k.name ∈ skip ++ (relusOf m.nodes nd).flatMap fun r => [nd.name, r.name]) := by
            intro k hk
            simp only [List.mem_append, List.mem_singleton, hk' k hk]
            tauto
          refine complete_layers wf hb hf hord hpre x rest (done ++ [nd]) (i + 1) _ _ ν' e' (hν'.congr hP) ⟨?_, ?_⟩ ?_ ?_
          · exact fun io hio => insert_isSome _ _ _ (.inl (hh.1 io hio))
          · intro k hk hPk hfk o ho
            rcases (hP k hk).2 hPk with h | rfl | h
            · exact insert_isSome _ _ _ (.inl (hh.2 k hk h hfk o ho))
            · exact absurd hfu hfk
            · refine insert_isSome _ _ _ (.inr ?_)
              rw [List.map_map]
              exact List.mem_map.2 ⟨o, (hord _ o).2 (List.mem_flatMap.2 ⟨k, h, ho⟩), rfl⟩
          · intro k hk hks
            rcases List.mem_append.1 hks with h | h
            · exact hsk k (List.mem_cons_of_mem _ hk) h
            · rcases (hk' k (hresti k hk)).1 h with rfl | h
              · exact absurd hk hrest
              · have := (List.mem_filter.1 h).2
                have h2 : UsesRelu nd k := by simpa using this
                exact h2.1
          · intro q hq' hfq r hr
            rcases List.mem_append.1 hq' with hq' | hq'
            · exact List.mem_append_left _ (hfd q hq' hfq r hr)
            · rw [List.mem_singleton] at hq'
              subst hq'
              exact List.mem_append_right _ ((hk' r (List.mem_filter.1 hr).1).2 (.inr hr))
        obtain ⟨o', c1, c2, c3, c4⟩ := hl2 x env ν hi.agrees hi.ext hin hp
        obtain ⟨layers, k1, k2⟩ := key _ c4
        refine ⟨l :: layers, ?_, ?_⟩
        · rw [plan, if_neg hskip]
          simp only [hq]
          rw [List.mapM_cons, hl1, k1]
          rfl
        · rw [applyLayers]
          refine Complete.bind (P := fun a => a = o'.val) ⟨o', c1, c2, c3, rfl⟩ ?_
          rintro _ rfl
          exact k2

theorem zip_self_eq {α : Type} : ∀ (l : List α), ∀ q ∈ l.zip l, q.1 = q.2
  | [], _, hq => by simp at hq
  | a :: t, q, hq => by
    rw [List.zip_cons_cons, List.mem_cons] at hq
    rcases hq with rfl | hq
    · rfl
    · exact zip_self_eq t q hq

theorem complete_finish {w : Wires (ZMod p)} {env : Vals (ZMod p)} {ν : Vals Int} (h : Agrees p env ν)
    (h0 : m.outputs ≠ []) (hs : ∀ io ∈ m.outputs, (env io.name).isSome)
    (hl : w.outputs.length = effectiveDims m.outputs)
    (hw : IsFlat ν (m.outputs.map (·.name)) (fun z : Int => (z : ZMod p)) w.outputs) (hc : ConstantsOk m w) :
    Complete T (finish m w env) fun _ => True := by
  unfold finish
  rw [if_neg h0]
  have hy : ∃ ys, (m.outputs.map (·.name)).mapM env = some ys := by
    generalize m.outputs = l at hs
    induction l with
    | nil => exact ⟨[], rfl⟩
    | cons a t ih =>
      obtain ⟨ys, hy⟩ := ih fun io hio => hs io (List.mem_cons_of_mem _ hio)
      obtain ⟨v, hv⟩ := Option.isSome_iff_exists.1 (hs a (by simp))
      exact ⟨v :: ys, by rw [List.map_cons, List.mapM_cons, hv, hy]; rfl⟩
  obtain ⟨ys, hy⟩ := hy
  obtain ⟨us, u1, rfl⟩ := mapM_agrees h hy
  rw [List.mapM_map] at hy
  have hy' : (m.outputs.mapM fun io => env io.name) = some (us.map (castArr p)) := hy
  rw [hy']
  dsimp only
  obtain ⟨us', v1, v2⟩ := hw
  have : us' = us := by
    rw [u1] at v1
    exact (List.map_injective_iff.2 (Option.some_injective _) v1).symm
  subst this
  rw [← flat_cast] at v2
  rw [← v2, if_neg (by rw [hl]; simp), if_neg (by simp)]
  refine Det.complete (Det.bind (det_assertOutputs _ ?_) fun _ _ => Det.bind (Det.assertEq (by rw [hc.1])) fun _ _ =>
    Det.bind (Det.assertEq (by rw [hc.1])) fun _ _ => Det.bind (Det.assertEq hc.2.1) fun _ _ => Det.assertEq hc.2.2)
  exact zip_self_eq _

/-- **C64, the circuit of a model is complete** when the outputs of fused nodes are private: on inputs that satisfy the
preconditions of the layers there is a run of the model such that the circuit, run honestly, accepts the outputs of that
run. Missing: models in which a fused intermediate is used elsewhere (`C64_fused_intermediate_refused`). -/
theorem C64_model_complete_partial (wf : WellFormed given m.nodes) (hb : BuilderComplete T given sem pre m)
    (hf : FusionsPrivate m) {ord : List String → List String} (hord : ∀ l x, x ∈ ord l ↔ x ∈ l)
    (hpre : ∀ done nd rest, m.nodes = done ++ nd :: rest → ∀ ν, Extends given ν → IsModelRun sem done ν →
      pre nd (nd.inputs.map ν)) (h0 : m.nodes ≠ []) (ho : m.outputs ≠ [])
    (hout : ∀ io ∈ m.outputs, io.name ∈ m.inputs.map (·.name) ∨ ∃ k ∈ m.nodes, io.name ∈ k.outputs)
    (inputArr : List (ZMod p)) {xs : List (Arr Int)} (hx : InputsAre p given m.inputs xs inputArr) (x : X) :
    ∃ ν, Extends given ν ∧ IsModelRun sem m.nodes ν ∧ (∀ io ∈ m.outputs, (ν io.name).isSome) ∧
      ∀ w : Wires (ZMod p), w.inputArr = inputArr →
        IsFlat ν (m.outputs.map (·.name)) (fun z : Int => (z : ZMod p)) w.outputs →
        w.outputs.length = effectiveDims m.outputs → ConstantsOk m w →
        Complete T (tryDefine ord m w x) fun _ => True := by
  obtain ⟨env, e1, e2, e3, -⟩ := getInputs_spec hx
  have hinv : Inv given sem m.nodes (fun k => k ∈ ([] : List Node) ∨ k.name ∈ ([] : List String)) env given :=
    ⟨e2, fun n u h => h, fun nd _ h => by simp at h, fun o u h => .inl ⟨u, h⟩, fun k _ h => by simp at h⟩
  obtain ⟨layers, k1, o, c1, c2, c3, ν, hν, hh⟩ := complete_layers wf hb hf hord hpre x m.nodes [] 0 [] env given rfl hinv
    ⟨e3, fun k _ h => by simp at h⟩ (by simp) (by simp)
  have hs : ∀ io ∈ m.outputs, (o.val io.name).isSome := fun io hio => by
    rcases hout io hio with h | ⟨k, q1, q2⟩
    · obtain ⟨io', h1, h2⟩ := List.mem_map.1 h
      rw [← h2]
      exact hh.1 io' h1
    · exact hh.2 k q1 trivial (fun hfk => (hf k q1 hfk _ q2).2 (List.mem_map.2 ⟨io, hio, rfl⟩)) _ q2
  refine ⟨ν, hν.ext, fun nd hnd => hν.run nd hnd trivial, fun io hio => ?_, fun w w1 w2 w3 w4 => ?_⟩
  · obtain ⟨v, hv⟩ := Option.isSome_iff_exists.1 (hs io hio)
    obtain ⟨u, u1, -⟩ := hν.agrees _ _ hv
    rw [u1]; rfl
  · have hl : buildLayers ord m = some layers := k1
    rw [tryDefine, if_neg h0, w1, e1]
    simp only [hl]
    refine Complete.bind (P := fun a => a = o.val) ⟨o, c1, c2, c3, rfl⟩ ?_
    rintro _ rfl
    exact complete_finish hν.agrees ho hs w3 w2 w4

end complete

/-! ## Refusals -/

/-- What layers do with their inputs and outputs: a layer refuses when an input that no initializer provides is missing,
and returns its outputs under its output names. -/
structure BuilderWired (given : Vals Int) (m : Model (ZMod p) X) : Prop where
  missing : ∀ nd pat i l, (∃ k ∈ m.nodes, k.op = nd.op ∧ k.inputs = nd.inputs) → m.builder nd pat i = some l →
    ∀ x env h n, n ∈ nd.inputs → given n = none → env n = none → ∃ e, l x env h = .error e
  names : ∀ nd pat i l, m.builder nd pat i = some l → ∀ x env h o, l x env h = .ok o → ∀ n ∈ o.val.map (·.1),
    n ∈ nd.outputs

section refuse
variable {given : Vals Int} {m : Model (ZMod p) X}

theorem plan_node (ord : List String → List String) (nodes : List Node) : ∀ (rest : List Node) (i : Nat) (skip : List String),
    ∀ b ∈ plan ord nodes rest i skip, ∃ k ∈ rest, k.op = b.1.op ∧ k.inputs = b.1.inputs
  | [], i, skip, b, hb => by simp [plan] at hb
  | q :: rest, i, skip, b, hb => by
    have up : (∃ k ∈ rest, k.op = b.1.op ∧ k.inputs = b.1.inputs) →
        ∃ k ∈ q :: rest, k.op = b.1.op ∧ k.inputs = b.1.inputs :=
      fun ⟨k, k1, k2⟩ => ⟨k, List.mem_cons_of_mem _ k1, k2⟩
    rw [plan] at hb
    by_cases hs : q.name ∈ skip
    · rw [if_pos hs] at hb
      exact up (plan_node ord nodes rest _ _ b hb)
    · rw [if_neg hs] at hb
      rcases hm : skipLayers ord (matchesOf nodes q.name) q.outputs with _ | ⟨pat, outs, sk⟩
      all_goals
        simp only [hm] at hb
        rcases List.mem_cons.1 hb with rfl | hb
        · exact ⟨q, by simp, rfl, rfl⟩
        · exact up (plan_node ord nodes rest _ _ b hb)

theorem applyLayers_missing (hw : BuilderWired given m) {n : String} (hg : given n = none) (x : X) :
    ∀ (pl : List (Node × Pattern × Nat)) (layers : List (Layer (ZMod p) X)) (env : Vals (ZMod p)),
      (pl.mapM fun b => m.builder b.1 b.2.1 b.2.2) = some layers → env n = none → (∀ b ∈ pl, n ∉ b.1.outputs) →
      (∀ b ∈ pl, ∃ k ∈ m.nodes, k.op = b.1.op ∧ k.inputs = b.1.inputs) →
      ∀ h o, applyLayers x layers env h = .ok o → o.val n = none ∧ ∀ b ∈ pl, n ∉ b.1.inputs
  | [], layers, env, hl, he, _, _, h, o, ho => by
    rw [List.mapM_nil] at hl
    obtain rfl := (Option.some.inj hl).symm
    cases ho
    exact ⟨he, by simp⟩
  | b :: pl, layers, env, hl, he, hb, hk, h, o, ho => by
    rw [List.mapM_cons] at hl
    obtain ⟨l, hl1, hl⟩ := Option.bind_eq_some_iff.1 hl
    obtain ⟨ls, hl2, hl⟩ := Option.bind_eq_some_iff.1 hl
    obtain rfl := (Option.some.inj hl).symm
    rw [applyLayers] at ho
    obtain ⟨o1, o2, e1, e2, rfl⟩ := JST.bind_eq_ok ho
    have hnot : n ∉ o1.val.map (·.1) := fun hc => hb b (by simp) (hw.names _ _ _ l hl1 x env h o1 e1 n hc)
    have he' : (o1.val.foldl (fun (e : Vals (ZMod p)) kv => Function.update e kv.1 (some kv.2)) env) n = none := by
      rcases hr : (o1.val.foldl (fun (e : Vals (ZMod p)) kv => Function.update e kv.1 (some kv.2)) env) n with _ | v
      · exact hr
      · rcases insert_list _ _ _ _ hr with ⟨h1, -⟩ | h1
        · rw [he] at h1; cases h1
        · exact absurd (List.mem_map.2 ⟨_, h1, rfl⟩) hnot
    obtain ⟨k1, k2⟩ := applyLayers_missing hw hg x pl ls _ hl2 he' (fun b' hb' => hb b' (List.mem_cons_of_mem _ hb'))
      (fun b' hb' => hk b' (List.mem_cons_of_mem _ hb')) o1.rest o2 e2
    refine ⟨k1, fun b' hb' hn => ?_⟩
    rcases List.mem_cons.1 hb' with rfl | hb'
    · obtain ⟨e, hee⟩ := hw.missing _ _ _ l (hk _ (by simp)) hl1 x env h n hn hg he
      rw [hee] at e1
      cases e1
    · exact k2 b' hb' hn

theorem plan_fused {ord : List String → List String} (hord : ∀ l x, x ∈ ord l ↔ x ∈ l) (wf : WellFormed given m.nodes)
    {nd : Node} (hnd : nd ∈ m.nodes) (hfu : IsFused m.nodes nd) {n : String} (hn : n ∈ nd.outputs) {k : Node}
    (hrel : ∀ r ∈ m.nodes, r.op = "Relu" → n ∉ r.outputs) (hop : k.op ≠ "Relu") :
    ∀ (rest done : List Node) (i : Nat) (skip : List String), m.nodes = done ++ rest →
      (∀ q ∈ rest, q.name ∈ skip → q.op = "Relu") →
      (∀ b ∈ plan ord m.nodes rest i skip, n ∉ b.1.outputs) ∧
      (k ∈ rest → ∃ b ∈ plan ord m.nodes rest i skip, b.1.inputs = k.inputs)
  | [], _, _, _, _, _ => ⟨by simp [plan], by simp⟩
  | q :: rest, done, i, skip, e, hsk => by
    have hq : q ∈ m.nodes := by rw [e]; simp
    have e' : m.nodes = (done ++ [q]) ++ rest := by rw [e]; simp
    have hnodup : (done ++ q :: rest).Nodup := e ▸ List.Nodup.of_map _ wf.names
    have hrest : q ∉ rest := (List.nodup_cons.1 (List.nodup_append.1 hnodup).2.1).1
    by_cases hskip : q.name ∈ skip
    · obtain ⟨h1, h2⟩ := plan_fused hord wf hnd hfu hn hrel hop rest (done ++ [q]) (i + 1) skip e'
        fun r hr => hsk r (List.mem_cons_of_mem _ hr)
      rw [plan, if_pos hskip]
      refine ⟨h1, fun hk => h2 ?_⟩
      rcases List.mem_cons.1 hk with rfl | hk
      · exact absurd (hsk k (by simp) hskip) hop
      · exact hk
    · rw [plan, if_neg hskip]
      rcases skipLayers_cases wf.names hq ord with ⟨hnf, hs⟩ | ⟨hfq, pat, hops, hs⟩
      · obtain ⟨h1, h2⟩ := plan_fused hord wf hnd hfu hn hrel hop rest (done ++ [q]) (i + 1) skip e'
          fun r hr => hsk r (List.mem_cons_of_mem _ hr)
        simp only [hs]
        refine ⟨fun b hb => ?_, fun hk => ?_⟩
        · rcases List.mem_cons.1 hb with rfl | hb
          · exact fun hc => hnf (wf_producer wf hq hnd hc hn ▸ hfu)
          · exact h1 b hb
        · rcases List.mem_cons.1 hk with rfl | hk
          · exact ⟨_, List.mem_cons_self .., rfl⟩
          · obtain ⟨b, b1, b2⟩ := h2 hk
            exact ⟨b, List.mem_cons_of_mem _ b1, b2⟩
      · obtain ⟨h1, h2⟩ := plan_fused hord wf hnd hfu hn hrel hop rest (done ++ [q]) (i + 1)
          (skip ++ (relusOf m.nodes q).flatMap fun r => [q.name, r.name]) e' fun r hr hrs => by
            rcases List.mem_append.1 hrs with h | h
            · exact hsk r (List.mem_cons_of_mem _ hr) h
            · obtain ⟨r', r1, r2⟩ := List.mem_flatMap.1 h
              have hrm : r ∈ m.nodes := by rw [e']; exact List.mem_append_right _ hr
              rw [List.mem_cons, List.mem_singleton] at r2
              rcases r2 with h | h
              · exact absurd (List.inj_on_of_nodup_map wf.names hrm hq h ▸ hr) hrest
              · rw [List.inj_on_of_nodup_map wf.names hrm (List.mem_filter.1 r1).1 h]
                have h3 : UsesRelu q r' := by simpa using (List.mem_filter.1 r1).2
                exact h3.1
        simp only [hs]
        refine ⟨fun b hb => ?_, fun hk => ?_⟩
        · rcases List.mem_cons.1 hb with rfl | hb
          · intro hc
            obtain ⟨r, r1, r2⟩ := List.mem_flatMap.1 ((hord _ n).1 hc)
            have h3 : UsesRelu q r := by simpa using (List.mem_filter.1 r1).2
            exact hrel r (List.mem_filter.1 r1).1 h3.1 r2
          · exact h1 b hb
        · rcases List.mem_cons.1 hk with rfl | hk
          · exact ⟨_, List.mem_cons_self .., rfl⟩
          · obtain ⟨b, b1, b2⟩ := h2 hk
            exact ⟨b, List.mem_cons_of_mem _ b1, b2⟩

/-- **C64, a model whose fused intermediate is used elsewhere is refused.** A node that is fused with a `Relu` does not
provide its own output any more: if another operator uses it, or if it is an output of the model, no witness and no
challenge satisfies the circuit, its definition fails. Such models are valid. -/
theorem C64_fused_intermediate_refused {ord : List String → List String} (hord : ∀ l x, x ∈ ord l ↔ x ∈ l)
    (wf : WellFormed given m.nodes) (hw : BuilderWired given m)
    (hin : ∀ nd ∈ m.nodes, ∀ o ∈ nd.outputs, o ∉ m.inputs.map (·.name))
    {nd : Node} (hnd : nd ∈ m.nodes) (hfu : IsFused m.nodes nd) {n : String} (hn : n ∈ nd.outputs)
    (huse : n ∈ m.outputs.map (·.name) ∨ ∃ k ∈ m.nodes, k.op ≠ "Relu" ∧ n ∈ k.inputs)
    (w : Wires (ZMod p)) (x : X) (h : Hints (ZMod p)) : ∃ e, tryDefine ord m w x h = .error e := by
  have hrel : ∀ r ∈ m.nodes, r.op = "Relu" → n ∉ r.outputs := fun r hr hop hc => by
    have : r = nd := wf_producer wf hr hnd hc hn
    have h1 := hfu.1
    rw [← this, hop] at h1
    simp at h1
  have hne : m.nodes ≠ [] := fun hc => by rw [hc] at hnd; cases hnd
  rcases hr : tryDefine ord m w x h with e | o
  · exact ⟨e, rfl⟩
  exfalso
  rw [tryDefine, if_neg hne] at hr
  rcases hg : getInputs w.inputArr m.inputs with e | env
  · rw [hg] at hr; cases hr
  rw [hg] at hr
  rcases hl : buildLayers ord m with _ | layers
  · simp only [hl] at hr; cases hr
  simp only [hl] at hr
  obtain ⟨o1, o2, e1, e2, rfl⟩ := JST.bind_eq_ok hr
  have henv : env n = none := by
    have hsplit : ∀ (ios : List IO) (v : List (ZMod p)) (a b : Vals (ZMod p)), splitInputs ios v a = .ok b →
        n ∉ ios.map (·.name) → a n = none → b n = none := by
      intro ios
      induction ios with
      | nil => intro v a b hab _ ha; cases hab; exact ha
      | cons io t ih =>
        intro v a b hab hnot ha
        rw [splitInputs] at hab
        obtain ⟨arr, -, hab⟩ := Layers.bind_eq_ok hab
        rw [List.map_cons, List.mem_cons, not_or] at hnot
        exact ih _ _ _ hab hnot.2 (by rw [Function.update_of_ne hnot.1]; exact ha)
    rw [getInputs] at hg
    by_cases hc : w.inputArr.length ≠ (m.inputs.map fun io => io.shape.prod).sum
    · rw [if_pos hc] at hg; cases hg
    · rw [if_neg hc] at hg
      exact hsplit _ _ _ _ hg (hin nd hnd n hn) rfl
  have hgn := wf.fresh nd hnd n hn
  have hpl : ∀ k : Node, k.op ≠ "Relu" → _ := fun k hop => plan_fused (k := k) hord wf hnd hfu hn hrel hop m.nodes [] 0 [] rfl
    (by simp)
  obtain ⟨k1, k2⟩ := applyLayers_missing hw hgn x _ layers env hl henv
    (hpl nd (fun hc => by have h1 := hfu.1; rw [hc] at h1; simp at h1)).1 (plan_node ord m.nodes m.nodes 0 []) h o1 e1
  rcases huse with hu | ⟨k, q1, q2, q3⟩
  · rw [finish] at e2
    by_cases h0 : m.outputs = []
    · rw [if_pos h0] at e2; cases e2
    rw [if_neg h0] at e2
    have : (m.outputs.mapM fun io => o1.val io.name) = none := by
      generalize m.outputs = l at hu
      induction l with
      | nil => simp at hu
      | cons a t ih =>
        rw [List.mapM_cons]
        rw [List.map_cons, List.mem_cons] at hu
        rcases hu with hu | hu
        · rw [← hu, k1]; rfl
        · rw [ih hu]
          cases o1.val a.name <;> rfl
    rw [this] at e2
    cases e2
  · obtain ⟨b, b1, b2⟩ := (hpl k q2).2 q1
    exact k2 b b1 (b2 ▸ q3)

end refuse

/-! ## When nothing is fused -/

theorem findMatches_noRelu {layers : List Node} (h : ∀ nd ∈ layers, nd.op ≠ "Relu") (op : String) :
    findMatches layers [op, "Relu"] = [] := by
  rw [findMatches_two, List.flatMap_eq_nil_iff]
  intro l _
  have : relusOf layers l = [] := by
    unfold relusOf
    rw [List.filter_eq_nil_iff]
    intro r hr hc
    have : UsesRelu l r := by simpa using hc
    exact h r hr this.1
  rw [this]
  rfl

/-- **C64, without a node of type `Relu` nothing is fused**: every node gets its own layer, in order, whatever the names
of the nodes are. The converter from ONNX writes `ReLU` for this operator (`op_type_to_string`), so this is what happens
to every converted model. -/
theorem C64_no_relu_no_fusion (ord : List String → List String) (layers : List Node) (h : ∀ nd ∈ layers, nd.op ≠ "Relu") :
    plan ord layers layers 0 [] = layers.zipIdx.map fun b => (b.1, .none, b.2) := by
  have hm : ∀ name, matchesOf layers name = none := fun name => by
    unfold matchesOf
    have : found layers name = [] := by
      unfold found
      rw [List.flatMap_eq_nil_iff]
      intro pat _
      have : findMatches layers pat.ops = [] := by
        cases pat
        · rfl
        all_goals exact findMatches_noRelu h _
      rw [this]
      rfl
    rw [if_pos this]
  have key : ∀ (l : List Node) (i : Nat), plan ord layers l i [] = (l.zipIdx i).map fun b => (b.1, .none, b.2) := by
    intro l
    induction l with
    | nil => intro i; rfl
    | cons a t ih =>
      intro i
      rw [plan, if_neg (by simp), hm]
      simp only [skipLayers, List.zipIdx_cons, List.map_cons]
      rw [ih]
  exact key layers 0

/-- **C64, the two modes of the pattern search find the same matches.** -/
theorem C64_branch_modes_agree (layers : List Node) (cur : Node) (ops : List String) (path : List Node) :
    dfsAll layers cur ops path = dfsAny layers cur ops path := dfsAll_eq layers ops cur path

end JST.Props
