import Verif.Zkvm.Canonical
import Verif.Props.Serde

/-!
# C40: the canonical model encoding
-/

namespace JST.Props

open JST JST.Zkvm

/-! ## Values that fit the Rust types -/

def FitsI64 (v : Int) : Prop := -2 ^ 63 ≤ v ∧ v < 2 ^ 63

/-- Lengths below `2^32`, dimensions in `u32`, data in `i64`. -/
structure FitsLayer (l : Layer) : Prop where
  nInputs : l.nInputs < 2 ^ 32
  wd : l.weightDims.length < 2 ^ 32 ∧ ∀ d ∈ l.weightDims, d < 2 ^ 32
  w : l.weightData.length < 2 ^ 32 ∧ ∀ v ∈ l.weightData, FitsI64 v
  bd : l.biasDims.length < 2 ^ 32 ∧ ∀ d ∈ l.biasDims, d < 2 ^ 32
  b : l.biasData.length < 2 ^ 32 ∧ ∀ v ∈ l.biasData, FitsI64 v
  a : l.intAttrs.length < 2 ^ 32 ∧ ∀ v ∈ l.intAttrs, FitsI64 v
  e : l.extra.length < 2 ^ 32 ∧ ∀ v ∈ l.extra, FitsI64 v

structure FitsModel (m : Model) : Prop where
  base : m.base < 2 ^ 64
  exponent : m.exponent < 2 ^ 32
  alpha : m.alpha < 2 ^ 64
  dims : m.inputDims.length < 2 ^ 32 ∧ ∀ d ∈ m.inputDims, d < 2 ^ 32
  layers : m.layers.length < 2 ^ 32 ∧ ∀ l ∈ m.layers, FitsLayer l

theorem i64Dec_i64Enc {v : Int} (h : FitsI64 v) : i64Dec (i64Enc v) = v := by
  obtain ⟨h1, h2⟩ := h
  unfold i64Dec i64Enc
  have hlt : (v % 2 ^ 64).toNat < 256 ^ 8 := by
    have := Int.emod_lt_of_pos v (show (0 : Int) < 2 ^ 64 by norm_num)
    have h0 := Int.emod_nonneg v (show (2 ^ 64 : Int) ≠ 0 by norm_num)
    norm_num at this h0 ⊢
    omega
  simp only [leDec_leEnc 8 _ hlt]
  norm_num at h1 h2 ⊢
  split_ifs <;> omega

theorem decodes_u32 {n : Nat} (h : n < 2 ^ 32) : Decodes readU32 n (leEnc 4 n) :=
  (decodes_le 4 n).map (by rw [leDec_leEnc 4 n (by simpa using h)])

theorem decodes_u64 {n : Nat} (h : n < 2 ^ 64) : Decodes readU64 n (leEnc 8 n) :=
  (decodes_le 8 n).map (by rw [leDec_leEnc 8 n (by simpa using h)])

theorem decodes_i64 {v : Int} (h : FitsI64 v) : Decodes readI64 v (i64Enc v) :=
  (decodes_le 8 _).map (by
    have := i64Dec_i64Enc h
    unfold i64Enc at this
    rw [this])

theorem decodes_u8 (b : UInt8) : Decodes readU8 b [b] :=
  (decodes_readExact (b := [b]) rfl).map rfl

theorem decodes_dims {l : List Nat} (h : l.length < 2 ^ 32 ∧ ∀ d ∈ l, d < 2 ^ 32) :
    Decodes readDims l (encDims l) :=
  (decodes_u32 h.1).bind (decodes_deN l fun d hd => decodes_u32 (h.2 d hd))

theorem decodes_data {l : List Int} (h : l.length < 2 ^ 32 ∧ ∀ d ∈ l, FitsI64 d) :
    Decodes readData l (encData l) :=
  (decodes_u32 h.1).bind (decodes_deN l fun d hd => decodes_i64 (h.2 d hd))

theorem decodes_layer {l : Layer} (h : FitsLayer l) : Decodes readLayer l (encLayer l) := by
  unfold encLayer
  simp only [List.append_assoc]
  refine (decodes_u8 _).bind ((decodes_u8 _).bind ((decodes_u32 h.nInputs).bind ((decodes_dims h.wd).bind
    ((decodes_data h.w).bind ((decodes_dims h.bd).bind ((decodes_data h.b).bind
    ((decodes_data h.a).bind ((decodes_data h.e).map ?_))))))))
  congr 1
  cases hb : l.needsRescale <;> cases l <;> simp_all

/-- **C40 (round trip and truncation)**: the guest decodes the host's encoding of every model to the same
model, leaving any bytes that follow unread; every proper prefix makes it panic. -/
theorem C40_round_trip (m : Model) (h : FitsModel m) : Decodes decode m (encode m) := by
  unfold encode
  simp only [List.append_assoc]
  refine (decodes_u64 h.base).bind ((decodes_u32 h.exponent).bind ((decodes_u64 h.alpha).bind
    ((decodes_dims h.dims).bind ?_)))
  have hl : Decodes readLayers m.layers (leEnc 4 m.layers.length ++ m.layers.flatMap encLayer) :=
    (decodes_u32 h.layers.1).bind (decodes_deN m.layers fun l hl => decodes_layer (h.layers.2 l hl))
  exact hl.map rfl

/-- **C40 (unambiguous)**: different models have different encodings, and no encoding is a prefix of
another. -/
theorem C40_encode_injective (m n : Model) (hm : FitsModel m) (hn : FitsModel n)
    (h : encode m <+: encode n) : m = n := by
  obtain ⟨t, ht⟩ := h
  have h1 := (C40_round_trip m hm).roundTrip t
  have h2 := (C40_round_trip n hn).roundTrip []
  rw [List.append_nil, ← ht, h1] at h2
  exact congrArg Prod.fst (Except.ok.inj h2)

/-- A reader of the guest's output: the layers interleaved with their bit widths. -/
def readOut : De (Model × List Nat) := do
  let _ ← readExact 8
  let base ← readU64
  let exponent ← readU32
  let alpha ← readU64
  let dims ← readDims
  let n ← readU32
  let ls ← deN (do
    let l ← readLayer
    let b ← readU32
    return (l, b)) n
  return (⟨base, exponent, alpha, dims, ls.map Prod.fst⟩, ls.map Prod.snd)

theorem decodes_out (m : Model) (h : FitsModel m) (nb : List Nat) (hnb : nb.length = m.layers.length)
    (hb : ∀ b ∈ nb, b < 2 ^ 32) : Decodes readOut (m, nb) (canonicalOutput m nb) := by
  unfold canonicalOutput
  simp only [List.append_assoc]
  have hz : (m.layers.zip nb).length = m.layers.length := by simp [hnb]
  refine (decodes_readExact (b := canMagic) rfl).bind ((decodes_u64 h.base).bind
    ((decodes_u32 h.exponent).bind ((decodes_u64 h.alpha).bind
    ((decodes_dims h.dims).bind ((decodes_u32 h.layers.1).bind ?_)))))
  refine Decodes.map (a := m.layers.zip nb) ?_ ?_
  · rw [← hz]
    refine decodes_deN (m.layers.zip nb) fun e he => ?_
    obtain ⟨l, b⟩ := e
    have hm := List.of_mem_zip he
    exact (decodes_layer (h.layers.2 l hm.1)).bind ((decodes_u32 (hb b hm.2)).map rfl)
  · have e1 : (m.layers.zip nb).map Prod.fst = m.layers := by
      rw [List.map_fst_zip]; omega
    have e2 : (m.layers.zip nb).map Prod.snd = nb := by
      rw [List.map_snd_zip]; omega
    rw [e1, e2]

theorem nbitsLoop_length (alpha : Nat) (prev : Nat) (ls : List Layer) (r : List Nat)
    (h : nbitsLoop alpha prev ls = .ok r) : r.length = ls.length := by
  induction ls generalizing prev r with
  | nil => simp [nbitsLoop] at h; subst h; rfl
  | cons l ls ih =>
    unfold nbitsLoop at h
    simp only at h
    have key : ∀ p x, (match nbitsLoop alpha p ls with
        | .error e => Except.error e
        | .ok r => Except.ok (x :: r)) = Except.ok r → r.length = (l :: ls).length := by
      intro p x hx
      rcases hr : nbitsLoop alpha p ls with e | r' <;> rw [hr] at hx
      · simp at hx
      · simp only [Except.ok.injEq] at hx
        subst hx
        simp [ih p r' hr]
    split at h
    · split at h
      · simp at h
      · split at h
        · simp at h
        · exact key _ _ h
    · split at h
      · split at h
        · simp at h
        · exact key _ _ h
      · split at h
        · exact key _ _ h
        · split at h
          · exact key _ _ h
          · exact key _ _ h

theorem log2Ceil_le (v : Nat) (h : v < 2 ^ 64) : integerLog2Ceil v ≤ 64 := by
  unfold integerLog2Ceil
  split_ifs with h1
  · omega
  · have : (v - 1).log2 < 64 := by
      rw [Nat.log2_lt (by omega)]; omega
    omega

theorem computeNBits_le (v : Nat) (h : v < 2 ^ 64) : computeNBits v ≤ 65 := by
  unfold computeNBits
  have := log2Ceil_le v h
  split_ifs <;> omega

theorem sat_lt (n : Nat) : sat n < 2 ^ 64 := by unfold sat; omega

/-- The bit widths the guest computes are at most 65. -/
theorem nbitsLoop_bound (alpha : Nat) (ha : alpha < 2 ^ 64) (prev : Nat) (hp : prev < 2 ^ 64)
    (ls : List Layer) (r : List Nat) (h : nbitsLoop alpha prev ls = .ok r) : ∀ b ∈ r, b ≤ 65 := by
  induction ls generalizing prev r with
  | nil => simp [nbitsLoop] at h; subst h; simp
  | cons l ls ih =>
    unfold nbitsLoop at h
    simp only at h
    have key : ∀ p x, p < 2 ^ 64 → x ≤ 65 → (match nbitsLoop alpha p ls with
        | .error e => Except.error e
        | .ok r => Except.ok (x :: r)) = Except.ok r → ∀ b ∈ r, b ≤ 65 := by
      intro p x hp hxb hx
      rcases hr : nbitsLoop alpha p ls with e | r' <;> rw [hr] at hx
      · simp at hx
      · simp only [Except.ok.injEq] at hx
        subst hx
        intro b hb
        rcases List.mem_cons.mp hb with rfl | hb
        · exact hxb
        · exact ih p hp r' hr b hb
    split at h
    · split at h
      · simp at h
      · split at h
        · simp at h
        · exact key _ _ ha (computeNBits_le _ (sat_lt _)) h
    · split at h
      · split at h
        · simp at h
        · exact key _ _ ha (computeNBits_le _ (sat_lt _)) h
      · split at h
        · exact key _ _ ha (by omega) h
        · split at h
          · exact key _ _ hp (computeNBits_le _ hp) h
          · exact key _ _ hp (by omega) h

/-- **C40 (the guest's output binds the model)**: two models whose guest digests agree are the same model,
or their outputs are an explicit collision of the hash function. -/
theorem C40_digest_binding {D : Type} (H : Bytes → D) (m n : Model) (hm : FitsModel m)
    (hn : FitsModel n) (d : D) (h1 : verifyCompilation H (encode m) = .ok d)
    (h2 : verifyCompilation H (encode n) = .ok d) :
    m = n ∨ ∃ x y : Bytes, x ≠ y ∧ H x = H y := by
  have e1 := (C40_round_trip m hm).roundTrip []
  have e2 := (C40_round_trip n hn).roundTrip []
  rw [List.append_nil] at e1 e2
  unfold verifyCompilation at h1 h2
  rw [e1] at h1
  rw [e2] at h2
  simp only at h1 h2
  rcases hb1 : computeNbits m.layers m.alpha with e | b1 <;> rw [hb1] at h1
  · simp at h1
  rcases hb2 : computeNbits n.layers n.alpha with e | b2 <;> rw [hb2] at h2
  · simp at h2
  simp only [Except.ok.injEq] at h1 h2
  by_cases heq : canonicalOutput m b1 = canonicalOutput n b2
  · left
    have l1 := nbitsLoop_length _ _ _ _ hb1
    have l2 := nbitsLoop_length _ _ _ _ hb2
    have f1 := nbitsLoop_bound _ hm.alpha _ hm.alpha _ _ hb1
    have f2 := nbitsLoop_bound _ hn.alpha _ hn.alpha _ _ hb2
    have o1 := (decodes_out m hm b1 l1 fun b hb => by have := f1 b hb; omega).roundTrip []
    have o2 := (decodes_out n hn b2 l2 fun b hb => by have := f2 b hb; omega).roundTrip []
    rw [heq, o2] at o1
    exact (congrArg (fun r => r.1.1) (Except.ok.inj o1)).symm
  · exact .inr ⟨_, _, heq, h1.trans h2.symm⟩

/-- **C40 fails (byte strings)**: bytes after the model are ignored, so different inputs to the guest give
the same digest. -/
theorem C40_trailing_ignored {D : Type} (H : Bytes → D) (m : Model) (hm : FitsModel m) (t : Bytes) :
    verifyCompilation H (encode m ++ t) = verifyCompilation H (encode m) := by
  have e1 := (C40_round_trip m hm).roundTrip t
  have e2 := (C40_round_trip m hm).roundTrip []
  rw [List.append_nil] at e2
  unfold verifyCompilation
  rw [e1, e2]

/-- **C40 (zero scale)**: a model claiming scaling factor zero makes the guest panic at its first
convolution, matrix product or normalisation; the guest does not otherwise compare the factor with
`base ^ exponent`. -/
theorem C40_zero_alpha_panics {D : Type} (H : Bytes → D) (m : Model) (hm : FitsModel m)
    (h0 : m.alpha = 0) (l : Layer) (ls : List Layer) (hl : m.layers = l :: ls)
    (hop : l.opType = 4 ∨ l.opType = 5 ∨ l.opType = 8) :
    verifyCompilation H (encode m) = .error .panic := by
  have e2 := (C40_round_trip m hm).roundTrip []
  rw [List.append_nil] at e2
  unfold verifyCompilation
  rw [e2]
  simp only [computeNbits, h0, hl]
  unfold nbitsLoop
  rcases hop with h | h | h <;> simp [h]

/-! ## The conversion from a quantised model -/

theorem checkTopo_ok (n : Nat) (seen topo : List Nat) (h : checkTopo n seen topo = .ok ()) :
    (∀ i ∈ topo, i < n) ∧ topo.Nodup ∧ ∀ i ∈ topo, i ∉ seen := by
  induction topo generalizing seen with
  | nil => simp
  | cons i is ih =>
    unfold checkTopo at h
    split_ifs at h with h1 h2
    obtain ⟨a, b, c⟩ := ih _ h
    have hi : i ∉ is := fun hmem => c i hmem (by simp)
    refine ⟨?_, List.nodup_cons.mpr ⟨hi, b⟩, ?_⟩
    · intro j hj
      rcases List.mem_cons.mp hj with rfl | hj
      · omega
      · exact a j hj
    · intro j hj
      rcases List.mem_cons.mp hj with rfl | hj
      · exact h2
      · exact fun hs => c j hj (by simp [hs])

theorem asU32_small {dims : List Int} (hd : ∀ d ∈ dims, 0 ≤ d ∧ d < 2 ^ 32) :
    (dims.map asU32).map Int.ofNat = dims := by
  rw [List.map_map]
  conv_rhs => rw [← List.map_id dims]
  refine List.map_congr_left fun d h => ?_
  have := hd d h
  simp only [Function.comp, asU32, id, Int.ofNat_eq_natCast]
  omega

/-- **C40 (layer conversion)**: the canonical layer carries the operator code and the rescale flag; the
weight tensor at input 1 and the bias tensor at input 2 with their shapes and values; every other constant
input and every integer attribute. -/
theorem C40_layer_content (l : QLayer) :
    (convLayer l).opType = l.opType ∧ (convLayer l).needsRescale = l.needsRescale ∧
    (l.inputs.length < 2 ^ 32 → (convLayer l).nInputs = l.inputs.length) ∧
    (∀ name t, l.inputs[1]? = some name → lookupW l.weights name = some t → t.intData ≠ [] →
      (∀ d ∈ t.dims, 0 ≤ d ∧ d < 2 ^ 32) →
      (convLayer l).weightDims.map Int.ofNat = t.dims ∧ (convLayer l).weightData = t.intData) ∧
    (∀ name t, l.inputs[2]? = some name → lookupW l.weights name = some t → t.intData ≠ [] →
      (∀ d ∈ t.dims, 0 ≤ d ∧ d < 2 ^ 32) →
      (convLayer l).biasDims.map Int.ofNat = t.dims ∧ (convLayer l).biasData = t.intData) ∧
    (∀ (i : Nat) name t, i ≠ 1 → i ≠ 2 → l.inputs[i]? = some name → lookupW l.weights name = some t →
      t.intData ≠ [] → t.intData <:+: (convLayer l).extra) ∧
    (∀ key v, (key, Attr.int v) ∈ l.attributes → v ∈ (convLayer l).intAttrs) ∧
    (∀ key vs, (key, Attr.ints vs) ∈ l.attributes → vs <:+: (convLayer l).intAttrs) := by
  have infix_flatMap : ∀ {α : Type} {xs : List α} {f : α → List Int} {x : α}, x ∈ xs →
      f x <:+: xs.flatMap f := by
    intro α xs f x hx
    obtain ⟨a, b, rfl⟩ := List.append_of_mem hx
    exact ⟨a.flatMap f, b.flatMap f, by simp⟩
  have at_pos : ∀ (pos : Nat) name t, l.inputs[pos]? = some name → lookupW l.weights name = some t →
      t.intData ≠ [] → (∀ d ∈ t.dims, 0 ≤ d ∧ d < 2 ^ 32) →
      (extractAt l pos).1.map Int.ofNat = t.dims ∧ (extractAt l pos).2 = t.intData := by
    intro pos name t hi hw hne hd
    unfold extractAt
    simp only [hi, Option.bind_some, hw, tensorInts, if_neg hne]
    exact ⟨asU32_small hd, trivial⟩
  refine ⟨rfl, rfl, fun h => Nat.mod_eq_of_lt h, at_pos 1, at_pos 2, ?_, ?_, ?_⟩
  · intro i name t h1 h2 hi hw hne
    have hm : (name, i) ∈ l.inputs.zipIdx.filter (fun e => e.2 ≠ 1 ∧ e.2 ≠ 2) := by
      rw [List.mem_filter]
      refine ⟨List.mem_zipIdx_iff_getElem?.mpr hi, by simp [h1, h2]⟩
    have := infix_flatMap (f := fun e : String × Nat => match lookupW l.weights e.1 with
      | some t => tensorInts t
      | none => []) hm
    simp only [hw, tensorInts, if_neg hne] at this
    exact this.trans ⟨[], _, by rw [List.nil_append]; rfl⟩
  · intro key v h
    have := infix_flatMap (f := fun a : String × Attr => match a.2 with
      | .int v => [v] | .ints v => v | _ => []) h
    exact this.subset (by simp)
  · intro key vs h
    exact infix_flatMap (f := fun a : String × Attr => match a.2 with
      | .int v => [v] | .ints v => v | _ => []) h

/-- A layer meeting the hypotheses: a `2 × 2` weight, a bias, an extra constant and an attribute. -/
example : (convLayer ⟨"fc", 5, ["x", "w", "b", "c"], ["y"],
    [("w", ⟨[2, 2], [1, 2, 3, 4], []⟩), ("b", ⟨[2], [5, 6], []⟩), ("c", ⟨[1], [7], []⟩)],
    [("transB", .int 1)], true⟩) = ⟨5, true, 4, [2, 2], [1, 2, 3, 4], [2], [5, 6], [1], [7]⟩ := by
  decide +kernel

/-- **C40 (conversion)**: on success the scaling factor is exactly `base ^ exponent` and fits, and the
layers of the canonical model are the converted layers of the quantised model in its topological order,
which visits every layer exactly once. -/
theorem C40_from_quantized (q : QModel) (m : Model) (h : fromQuantized q = .ok m) :
    m.base = q.base ∧ m.exponent = q.exponent ∧ m.alpha = q.base ^ q.exponent ∧ m.alpha < 2 ^ 64 ∧
    q.topo.Perm (List.range q.layers.length) ∧
    m.layers.length = q.layers.length ∧
    (∀ i < q.topo.length, m.layers[i]? = (q.topo[i]?.bind (q.layers[·]?)).map convLayer) ∧
    m.layers.Perm (q.layers.map convLayer) := by
  unfold fromQuantized at h
  split_ifs at h with h1 h2
  rcases hc : checkTopo q.layers.length [] q.topo with e | u <;> rw [hc] at h
  · simp at h
  simp only [Except.ok.injEq] at h
  subst h
  have h2 : q.topo.length = q.layers.length := not_not.mp h2
  obtain ⟨hlt, hnd, -⟩ := checkTopo_ok _ _ _ hc
  have hperm : q.topo.Perm (List.range q.layers.length) := by
    refine List.Subperm.perm_of_length_le (List.subperm_of_subset hnd ?_) (by simp [h2])
    intro i hi
    exact List.mem_range.mpr (hlt i hi)
  have hmap : ∀ (l : List Nat), (∀ i ∈ l, i < q.layers.length) → ∀ k : Nat,
      (l.filterMap (fun i => (q.layers.map convLayer)[i]?))[k]?
        = (l[k]?.bind (q.layers[·]?)).map convLayer := by
    intro l
    induction l with
    | nil => intro _ k; simp
    | cons i is ih =>
      intro hl k
      have hi : i < q.layers.length := hl i (by simp)
      have hs : (q.layers.map convLayer)[i]? = some (convLayer q.layers[i]) := by
        rw [List.getElem?_map, List.getElem?_eq_getElem hi]; rfl
      rw [List.filterMap_cons, hs]
      cases k with
      | zero => simp [List.getElem?_eq_getElem hi]
      | succ k =>
        simp only [List.getElem?_cons_succ]
        exact ih (fun j hj => hl j (by simp [hj])) k
  have hrange : ∀ (L : List Layer), (List.range L.length).filterMap (fun i => L[i]?) = L := by
    intro L
    induction L with
    | nil => rfl
    | cons x L ih =>
      rw [List.length_cons, List.range_succ_eq_map, List.filterMap_cons, List.getElem?_cons_zero,
        List.filterMap_map]
      simpa [Function.comp_def] using ih
  have hp := hperm.filterMap (fun i => (q.layers.map convLayer)[i]?)
  have hr := hrange (q.layers.map convLayer)
  rw [List.length_map] at hr
  rw [hr] at hp
  refine ⟨rfl, rfl, rfl, by simpa using h1, hperm, ?_, fun i _ => hmap q.topo hlt i, hp⟩
  simpa using hp.length_eq

/-- The same layer under other names: its own name, its inputs, outputs and attributes. -/
def renameLayer (f : String → String) (l : QLayer) : QLayer :=
  { l with
    name := f l.name
    inputs := l.inputs.map f
    outputs := l.outputs.map f
    attributes := l.attributes.map (fun a => (f a.1, a.2)) }

/-- **C40 fails (quantised models)**: the canonical model forgets how layers are wired and what integer
attributes are called. Renaming every input and output of the layers that carry no weights, or renaming
attributes without changing their order, gives the same canonical model. -/
theorem C40_quantized_collision (q : QModel) (f : String → String) (l : QLayer)
    (hl : l.weights = []) (hq : q.layers = [l]) :
    fromQuantized { q with layers := [renameLayer f l] }
      = fromQuantized q := by
  have hlook : ∀ n, lookupW [] n = none := fun _ => rfl
  have hw : ∀ pos (ins : List String) (l' : QLayer), l'.weights = [] → extractAt l' pos = ([], []) := by
    intro pos ins l' h'
    unfold extractAt
    rw [h']
    rcases l'.inputs[pos]? with _ | n <;> rfl
  have hext : ∀ l' : QLayer, l'.weights = [] → extractExtra l'
      = l'.attributes.flatMap (fun a => match a.2 with | .tensor t => tensorInts t | _ => []) := by
    intro l' h'
    unfold extractExtra
    have hnil : ∀ xs : List (String × Nat), xs.flatMap (fun _ => ([] : List Int)) = [] := by
      intro xs; induction xs <;> simp_all
    rw [h']
    simp only [hlook, hnil, List.nil_append]
    rfl
  have hc : convLayer (renameLayer f l) = convLayer l := by
    have hl' : (renameLayer f l).weights = [] := hl
    unfold convLayer
    rw [hext _ hl, hext _ hl']
    simp only [hw 1 [] _ hl, hw 2 [] _ hl, hw 1 [] _ hl', hw 2 [] _ hl']
    simp only [extractIntAttrs, renameLayer, List.flatMap_map, List.length_map]
  unfold fromQuantized
  simp only [hq, List.map_cons, List.map_nil, hc, List.length_singleton]

/-! ## The hypotheses are met -/

/-- A one-layer model with weights. -/
def exModel : Model :=
  ⟨2, 4, 16, [1, 3], [⟨4, true, 3, [3, 2], [5, -7, 0, 2 ^ 62, -2 ^ 63, 1], [2], [-1, 1], [0, -2], []⟩]⟩

theorem exModel_fits : FitsModel exModel := by
  refine ⟨by simp [exModel], by simp [exModel], by simp [exModel], by simp [exModel], by simp [exModel], ?_⟩
  intro l hl
  simp only [exModel, List.mem_singleton] at hl
  subst hl
  constructor <;> simp [FitsI64]

example : decode (encode exModel ++ [1, 2, 3]) = .ok (exModel, [1, 2, 3]) :=
  (C40_round_trip exModel exModel_fits).roundTrip _

example : (verifyCompilation (fun b => b.length) (encode exModel)).toOption = some 170 := by
  decide +kernel

/-- Two different one-layer models (`Flatten` along another attribute, reading another tensor). -/
example : fromQuantized ⟨2, 4, ["x"], [("x", [1, 3])],
      [⟨"f2", 15, ["y2"], ["z2"], [], [("axis2", .int 1)], false⟩], [0]⟩
    = fromQuantized ⟨2, 4, ["x"], [("x", [1, 3])],
      [⟨"f", 15, ["y"], ["z"], [], [("axis", .int 1)], false⟩], [0]⟩ :=
  C40_quantized_collision ⟨2, 4, ["x"], [("x", [1, 3])],
      [⟨"f", 15, ["y"], ["z"], [], [("axis", .int 1)], false⟩], [0]⟩ (· ++ "2")
    ⟨"f", 15, ["y"], ["z"], [], [("axis", .int 1)], false⟩ rfl rfl

example : (fromQuantized ⟨2, 4, ["x"], [("x", [1, 3])],
    [⟨"a", 6, ["x"], ["y"], [], [], false⟩, ⟨"b", 4, ["x", "w"], ["z"], [("w", ⟨[1], [5], []⟩)], [], true⟩],
    [1, 0]⟩).toOption.map (fun m => m.layers.map (·.opType)) = some [4, 6] := by decide +kernel

end JST.Props
