import Verif.Spec.LayerOrder

/-!
# C78: the order of the layers
-/

namespace JST.Props
open JST.Graph.Topo JST.Spec.LayerOrder

namespace LayerOrder

theorem producer_writes {ls : List Layer} {name : String} {d : Nat} (h : producer ls name = some d) :
    ∃ ld, ls[d]? = some ld ∧ name ∈ ld.outputs := by
  have hm := List.mem_of_getLast? h
  obtain ⟨h1, h2⟩ := List.mem_filter.1 hm
  have hd := List.mem_range.1 h1
  refine ⟨ls[d], List.getElem?_eq_getElem hd, ?_⟩
  simpa [List.getElem?_eq_getElem hd] using h2

theorem producer_isSome {ls : List Layer} {name : String} {d : Nat} {ld : Layer} (h : ls[d]? = some ld)
    (hn : name ∈ ld.outputs) : ∃ e, producer ls name = some e := by
  have hd : d < ls.length := by
    by_contra hc
    rw [List.getElem?_eq_none (by omega)] at h
    simp at h
  have hm : d ∈ (List.range ls.length).filter fun i => ((ls[i]?).map (·.outputs)).getD [] |>.contains name := by
    rw [List.mem_filter]
    exact ⟨List.mem_range.2 hd, by simp [h, hn]⟩
  unfold producer
  cases e : ((List.range ls.length).filter fun i => ((ls[i]?).map (·.outputs)).getD [] |>.contains name).getLast? with
  | none => rw [List.getLast?_eq_none_iff] at e; rw [e] at hm; simp at hm
  | some x => exact ⟨x, rfl⟩

theorem mem_deps {ls : List Layer} {i d : Nat} : d ∈ deps ls i ↔
    d ≠ i ∧ ∃ l, ls[i]? = some l ∧ ∃ name ∈ l.inputs, producer ls name = some d := by
  unfold deps
  rw [List.mem_filterMap]
  constructor
  · rintro ⟨name, h1, h2⟩
    cases hl : ls[i]? with
    | none => rw [hl] at h1; simp at h1
    | some l =>
      rw [hl] at h1
      cases hp : producer ls name with
      | none => rw [hp] at h2; simp at h2
      | some e =>
        rw [hp, Option.filter_eq_some_iff] at h2
        obtain ⟨h3, h4⟩ := h2
        exact ⟨by simpa using h4, l, rfl, name, h1, by rw [hp, h3]⟩
  · rintro ⟨h1, l, hl, name, hn, hp⟩
    refine ⟨name, by rw [hl]; exact hn, ?_⟩
    rw [hp, Option.filter_eq_some_iff]
    exact ⟨rfl, by simpa using h1⟩

theorem deps_uses {ls : List Layer} {i d : Nat} (h : d ∈ deps ls i) : Uses ls i d ∧ d ≠ i := by
  obtain ⟨h1, l, hl, name, hn, hp⟩ := mem_deps.1 h
  obtain ⟨ld, h2, h3⟩ := producer_writes hp
  exact ⟨⟨l, ld, name, hl, h2, hn, h3⟩, h1⟩

theorem uses_deps {ls : List Layer} (sw : SingleWriter ls) {i d : Nat} (h : Uses ls i d) (hne : d ≠ i) :
    d ∈ deps ls i := by
  obtain ⟨l, ld, name, h1, h2, h3, h4⟩ := h
  obtain ⟨e, he⟩ := producer_isSome h2 h4
  obtain ⟨le, h5, h6⟩ := producer_writes he
  obtain rfl := sw e d le ld name h5 h2 h6 h4
  exact mem_deps.2 ⟨hne, l, h1, name, h3, he⟩

/-- What the sort returns, in terms of `deps`. -/
theorem sort_spec (ls : List Layer) :
    (∃ o, sort ls = .order o ∧ o.Perm (List.range ls.length) ∧
      ∀ k i, o[k]? = some i → ∀ d ∈ deps ls i, d ∈ o.take k) ∨
    (sort ls = .cycle ∧ ∃ S : List Nat, S ≠ [] ∧ ∀ v ∈ S, v < ls.length ∧ ∃ d ∈ S, d ∈ deps ls v) := by
  obtain ⟨s, h1, g, h3⟩ := run_queue ls
  unfold sort
  rw [h1]
  have hm : ∀ v, v ∈ s.order ↔ v < ls.length ∧ s.indeg v = 0 := by
    intro v
    have := g.mem v
    rwa [h3, List.append_nil] at this
  have hnd : s.order.Nodup := by
    have := g.nodup
    rwa [h3, List.append_nil] at this
  have hsub : s.order.Subperm (List.range ls.length) :=
    List.subperm_of_subset hnd fun v hv => List.mem_range.2 ((hm v).1 hv).1
  by_cases hl : s.order.length = ls.length
  · left
    refine ⟨s.order, by simp [hl], ?_, g.before⟩
    exact hsub.perm_of_length_le (by simp [hl])
  · right
    refine ⟨by simp [hl], (List.range ls.length).filter fun v => v ∉ s.order, ?_, ?_⟩
    · intro he
      have hall : ∀ v, v < ls.length → v ∈ s.order := by
        intro v hv
        by_contra hc
        have : v ∈ (List.range ls.length).filter fun v => v ∉ s.order :=
          List.mem_filter.2 ⟨List.mem_range.2 hv, by simpa using hc⟩
        rw [he] at this
        simp at this
      have := (List.subperm_of_subset List.nodup_range fun v hv => hall v (List.mem_range.1 hv)).length_le
      have h4 := hsub.length_le
      simp at this h4
      omega
    · intro v hv
      obtain ⟨hv1, hv2⟩ := List.mem_filter.1 hv
      have hvl := List.mem_range.1 hv1
      have hvo : v ∉ s.order := by simpa using hv2
      have hdeg : s.indeg v ≠ 0 := fun h => hvo ((hm v).2 ⟨hvl, h⟩)
      rw [g.deg v hvl] at hdeg
      obtain ⟨d, hd⟩ := List.exists_mem_of_length_pos (Nat.pos_of_ne_zero hdeg)
      obtain ⟨hd1, hd2⟩ := List.mem_filter.1 hd
      exact ⟨hvl, d, List.mem_filter.2 ⟨List.mem_range.2 (deps_lt hd1), hd2⟩, hd1⟩

/-- A set of layers each of which waits for another of the set has no first element in any order. -/
theorem no_order {ls : List Layer} {S : List Nat} (hne : S ≠ [])
    (hS : ∀ v ∈ S, v < ls.length ∧ ∃ d ∈ S, d ∈ deps ls v) {o : List Nat} (hv : Valid ls o) : False := by
  have key : ∀ k, ∀ v ∈ S, v ∈ o.take k → False := by
    intro k
    induction k with
    | zero => intro v _ h; simp at h
    | succ k ih =>
      intro v hvS h
      rw [List.take_add_one, List.mem_append] at h
      rcases h with h | h
      · exact ih v hvS h
      · rw [Option.mem_toList] at h
        obtain ⟨-, d, hdS, hd⟩ := hS v hvS
        obtain ⟨hu, hdv⟩ := deps_uses hd
        exact ih d hdS (hv.2 k v h d hu hdv)
  obtain ⟨v, hvS⟩ := List.exists_mem_of_ne_nil S hne
  have : v ∈ o := hv.1.mem_iff.2 (List.mem_range.2 (hS v hvS).1)
  exact key o.length v hvS (by rwa [List.take_length])

section eval
variable {V : Type} {ls : List Layer} (f : Nat → List V → Nat → V) (init : String → V)

theorem step_other {env : String → V} {i : Nat} {name : String}
    (h : ∀ l, ls[i]? = some l → name ∉ l.outputs) : stepLayer ls f env i name = env name := by
  unfold stepLayer
  cases hl : ls[i]? with
  | none => rfl
  | some l => simp only; rw [if_neg (h l hl)]

theorem eval_other {o : List Nat} {env : String → V} {name : String}
    (h : ∀ i ∈ o, ∀ l, ls[i]? = some l → name ∉ l.outputs) : (o.foldl (stepLayer ls f) env) name = env name := by
  induction o generalizing env with
  | nil => rfl
  | cons i o ih =>
    rw [List.foldl_cons, ih fun j hj => h j (List.mem_cons_of_mem _ hj), step_other f (h i List.mem_cons_self)]

theorem eval_solves (sw : SingleWriter ls) (ns : NoSelf ls) {o : List Nat} (hv : Valid ls o) :
    Solves ls f init (evalLayers ls f init o) := by
  have hnd : o.Nodup := hv.1.nodup_iff.2 List.nodup_range
  refine ⟨?_, ?_⟩
  · intro i l hl name hn
    have hi : i < ls.length := by
      by_contra hc
      rw [List.getElem?_eq_none (by omega)] at hl
      simp at hl
    have hio : i ∈ o := hv.1.mem_iff.2 (List.mem_range.2 hi)
    obtain ⟨k, hk, hki⟩ := List.mem_iff_getElem.1 hio
    have hk? : o[k]? = some i := by rw [List.getElem?_eq_getElem hk, hki]
    have hsplit : o = o.take k ++ i :: o.drop (k + 1) := by
      rw [← hki, List.getElem_cons_drop, List.take_append_drop]
    have hnd' := hnd
    rw [hsplit] at hnd'
    obtain ⟨-, hnd2, hnd3⟩ := List.nodup_append.1 hnd'
    have hlater : ∀ j ∈ o.drop (k + 1), j ≠ i ∧ j ∉ o.take k := by
      intro j hj
      refine ⟨?_, ?_⟩
      · rintro rfl
        exact (List.nodup_cons.1 hnd2).1 hj
      · intro hc
        exact hnd3 j hc j (List.mem_cons_of_mem _ hj) rfl
    unfold evalLayers
    rw [hsplit, List.foldl_append, List.foldl_cons]
    generalize he : (o.take k).foldl (stepLayer ls f) init = env
    have hin : ∀ x ∈ l.inputs,
        (o.drop (k + 1)).foldl (stepLayer ls f) (stepLayer ls f env i) x = env x := by
      intro x hx
      rw [eval_other f, step_other f]
      · intro l' hl' hxo
        exact ns i ⟨l, l', x, hl, hl', hx, hxo⟩
      · intro j hj l' hl' hxo
        have h1 : Uses ls i j := ⟨l, l', x, hl, hl', hx, hxo⟩
        exact (hlater j hj).2 (hv.2 k i hk? j h1 (hlater j hj).1)
    rw [List.map_congr_left hin, eval_other f]
    · unfold stepLayer
      rw [hl]
      simp only
      rw [if_pos hn]
    · intro j hj l' hl' hxo
      exact (hlater j hj).1 (sw j i l' l name hl' hl hxo hn)
  · intro name hname
    exact eval_other f fun i _ l hl => hname l (List.mem_of_getElem? hl)

theorem solves_unique (ns : NoSelf ls) {o : List Nat} (hv : Valid ls o) {e₁ e₂ : String → V}
    (h₁ : Solves ls f init e₁) (h₂ : Solves ls f init e₂) : e₁ = e₂ := by
  have key : ∀ k, ∀ i ∈ o.take k, ∀ l, ls[i]? = some l → ∀ name ∈ l.outputs, e₁ name = e₂ name := by
    intro k
    induction k with
    | zero => intro i h; simp at h
    | succ k ih =>
      intro i h l hl name hn
      rw [List.take_add_one, List.mem_append] at h
      rcases h with h | h
      · exact ih i h l hl name hn
      · rw [Option.mem_toList] at h
        rw [h₁.1 i l hl name hn, h₂.1 i l hl name hn]
        congr 1
        apply List.map_congr_left
        intro x hx
        by_cases hw : ∃ (d : Nat) (ld : Layer), ls[d]? = some ld ∧ x ∈ ld.outputs
        · obtain ⟨d, ld, hd, hxo⟩ := hw
          have hu : Uses ls i d := ⟨l, ld, x, hl, hd, hx, hxo⟩
          have hdi : d ≠ i := by
            rintro rfl
            exact ns d hu
          exact ih d (hv.2 k i h d hu hdi) ld hd x hxo
        · have hno : ∀ l' ∈ ls, x ∉ l'.outputs := by
            intro l' hl' hxo
            obtain ⟨d, hd⟩ := List.getElem?_of_mem hl'
            exact hw ⟨d, l', hd, hxo⟩
          rw [h₁.2 x hno, h₂.2 x hno]
  funext name
  by_cases hw : ∃ (d : Nat) (ld : Layer), ls[d]? = some ld ∧ name ∈ ld.outputs
  · obtain ⟨d, ld, hd, hxo⟩ := hw
    have hdl : d < ls.length := by
      by_contra hc
      rw [List.getElem?_eq_none (by omega)] at hd
      simp at hd
    have hdo : d ∈ o := hv.1.mem_iff.2 (List.mem_range.2 hdl)
    exact key o.length d (by rwa [List.take_length]) ld hd name hxo
  · have hno : ∀ l' ∈ ls, name ∉ l'.outputs := by
      intro l' hl' hxo
      obtain ⟨d, hd⟩ := List.getElem?_of_mem hl'
      exact hw ⟨d, l', hd, hxo⟩
    rw [h₁.2 name hno, h₂.2 name hno]

end eval

end LayerOrder

open LayerOrder

/-- The sort never panics and always ends: it gives an order or the error. -/
theorem C78_total (ls : List Layer) : (∃ o, sort ls = .order o) ∨ sort ls = .cycle := by
  rcases sort_spec ls with ⟨o, h, -⟩ | ⟨h, -⟩
  · exact Or.inl ⟨o, h⟩
  · exact Or.inr h

/-- With one writer for each name, the order returned has every layer once and after all it reads. -/
theorem C78_order (ls : List Layer) (sw : SingleWriter ls) (o : List Nat) (h : sort ls = .order o) : Valid ls o := by
  rcases sort_spec ls with ⟨o', h', hp, hb⟩ | ⟨h', -⟩
  · rw [h] at h'
    obtain rfl := Outcome.order.inj h'
    exact ⟨hp, fun k i hk d hu hd => hb k i hk d (uses_deps sw hu hd)⟩
  · rw [h] at h'
    cases h'

/-- A model is refused exactly when no order exists in which each layer comes after all it reads of others. -/
theorem C78_refused (ls : List Layer) (sw : SingleWriter ls) : sort ls = .cycle ↔ ¬ ∃ o, Valid ls o := by
  constructor
  · rintro h ⟨o, hv⟩
    rcases sort_spec ls with ⟨o', h', -⟩ | ⟨-, S, hne, hS⟩
    · rw [h] at h'
      cases h'
    · exact no_order hne hS hv
  · intro h
    rcases C78_total ls with ⟨o, ho⟩ | hc
    · exact (h ⟨o, C78_order ls sw o ho⟩).elim
    · exact hc

/-- If there is an order, one is found, even when names have several writers. -/
theorem C78_found (ls : List Layer) (o : List Nat) (hv : Valid ls o) : ∃ o', sort ls = .order o' := by
  rcases sort_spec ls with ⟨o', h', -⟩ | ⟨-, S, hne, hS⟩
  · exact ⟨o', h'⟩
  · exact (no_order hne hS hv).elim

/-- Evaluating the layers in the order returned gives the one solution of the equations of the model. -/
theorem C78_eval_partial {V : Type} (ls : List Layer) (sw : SingleWriter ls) (ns : NoSelf ls) (o : List Nat)
    (h : sort ls = .order o) (f : Nat → List V → Nat → V) (init env : String → V) :
    Solves ls f init env ↔ env = evalLayers ls f init o := by
  have hv := C78_order ls sw o h
  constructor
  · intro he
    exact solves_unique f init ns hv he (eval_solves f init sw ns hv)
  · rintro rfl
    exact eval_solves f init sw ns hv

/-- A layer that reads its own output is accepted, and what is computed then does not solve the equations. -/
theorem C78_self_accepted : ∃ (ls : List Layer) (o : List Nat), SingleWriter ls ∧ sort ls = .order o ∧
    ∃ (f : Nat → List Nat → Nat → Nat), ¬ Solves ls f (fun _ => 0) (evalLayers ls f (fun _ => 0) o) := by
  refine ⟨[⟨["x"], ["x"]⟩], [0], ?_, by decide +kernel, fun _ a _ => a.sum + 1, ?_⟩
  · intro i j li lj name hi hj _ _
    have h1 : i < 1 := by
      by_contra hc
      rw [List.getElem?_eq_none (by simp; omega)] at hi
      simp at hi
    have h2 : j < 1 := by
      by_contra hc
      rw [List.getElem?_eq_none (by simp; omega)] at hj
      simp at hj
    omega
  · intro h
    have := h.1 0 _ rfl "x" (by simp)
    revert this
    decide +kernel

/-- With two writers of a name only the last counts: a layer that reads the name between them is put after both, and
a model whose layers stand in a valid order of single assignment steps may be refused. -/
theorem C78_last_writer : sort [⟨["a"], ["t"]⟩, ⟨["t"], ["u"]⟩, ⟨["u"], ["t"]⟩] = .cycle ∧
    sort [⟨["a"], ["t"]⟩, ⟨["t"], ["u"]⟩, ⟨["b"], ["t"]⟩] = .order [0, 2, 1] := by
  constructor <;> decide +kernel

/-- An output left out, whose name is empty, is taken for the producer of every input left out. -/
theorem C78_empty_name : sort [⟨["a", "", "s"], ["r"]⟩, ⟨["r"], ["y", ""]⟩] = .cycle ∧
    sort [⟨["a", "", "s"], ["r"]⟩, ⟨["r"], ["y"]⟩] = .order [0, 1] := by
  constructor <;> decide +kernel

/-- Non-vacuity: a diamond given out of order, and a cycle. -/
example : sort [⟨["b", "c"], ["d"]⟩, ⟨["a"], ["c"]⟩, ⟨["a"], ["b"]⟩, ⟨["x"], ["a"]⟩] = .order [3, 1, 2, 0] := by
  decide +kernel
example : sort [⟨["b"], ["a"]⟩, ⟨["a"], ["b"]⟩] = .cycle := by decide +kernel

end JST.Props
