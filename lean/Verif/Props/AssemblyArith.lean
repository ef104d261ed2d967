import Verif.Graph.Arith
import Verif.Spec.Arith
import Verif.Props.AssemblyComplete
import Verif.Props.Gemm
import Verif.Props.Elementwise

/-!
# C64 for models of Add, Sub, Mul, Max, Min, Neg and ReLU

The composition theorem applied to real layers.
-/

namespace JST.Props

open JST.Spec JST.Graph JST.Layers JST.Shape

variable {p : Nat} {X : Type}

/-! ## From field tensors back to integers -/

theorem arr_ext {α : Type} {a b : Arr α} (ha : a.WF) (hb : b.WF) (hs : a.shape = b.shape)
    (he : ∀ c, InRange a.shape c → elem a c = elem b c) : a = b := by
  obtain ⟨s, d⟩ := a
  obtain ⟨s', d'⟩ := b
  simp only at hs
  subst hs
  congr 1
  have h1 : d.length = s.prod := ha
  have h2 : d'.length = s.prod := hb
  refine List.ext_getElem? fun i => ?_
  by_cases hi : i < s.prod
  · have := he _ (unravel_inRange hi)
    simpa only [elem, rowMajor_unravel hi] using this
  · rw [List.getElem?_eq_none (by omega), List.getElem?_eq_none (by omega)]

/-- A tensor given by its entries. -/
def tabArr (s : List Nat) (g : List Nat → Int) : Arr Int :=
  ⟨s, (List.range s.prod).map fun i => g (Shape.unravel i s)⟩

theorem tabArr_WF (s : List Nat) (g : List Nat → Int) : (tabArr s g).WF := by simp [tabArr, Arr.WF]

theorem elem_tabArr {s : List Nat} {g : List Nat → Int} {c : List Nat} (hc : InRange s c) :
    elem (tabArr s g) c = some (g c) := by
  rw [tabArr, elem_tabulate _ _ _ hc, unravel_rowMajor hc]

theorem elem_cast (x : Arr Int) (c : List Nat) :
    elem (castArr p x) c = (elem x c).map fun z : Int => (z : ZMod p) := by
  simp only [elem, castArr, List.getElem?_map]

theorem cast_WF {x : Arr Int} (h : x.WF) : (castArr p x).WF := by simpa [Arr.WF, castArr] using h

theorem elem_relu (x : Arr Int) (c : List Nat) : elem (reluArr x) c = (elem x c).map (max 0) := by
  simp only [elem, reluArr, List.getElem?_map]

theorem relu_WF {x : Arr Int} (h : x.WF) : (reluArr x).WF := by simpa [Arr.WF, reluArr] using h

/-- A field tensor whose entries are casts is the cast of an integer tensor. -/
theorem cast_of_elems {z : Arr (ZMod p)} (hz : z.WF) {y : Arr Int} (hy : y.WF) (hs : y.shape = z.shape)
    (h : ∀ c, InRange z.shape c → ∃ w : Int, elem y c = some w ∧ elem z c = some (w : ZMod p)) : z = castArr p y := by
  refine arr_ext hz (cast_WF hy) hs.symm fun c hc => ?_
  obtain ⟨w, w1, w2⟩ := h c hc
  rw [elem_cast, w1, w2]
  rfl

theorem lift_binary {a b : Arr Int} {φ : Int → Int → Int} {z : Arr (ZMod p)}
    (h : IsBinary a b (fun u v w => w = ((φ u v : Int) : ZMod p)) z) :
    ∃ y, IsBinary a b (fun u v w => w = φ u v) y ∧ z = castArr p y := by
  obtain ⟨h1, -, h3, h4⟩ := h
  refine ⟨tabArr z.shape fun c => φ ((elem a (srcCoords a.shape c)).getD 0) ((elem b (srcCoords b.shape c)).getD 0),
    ⟨h1, rfl, tabArr_WF _ _, fun c hc => ?_⟩, cast_of_elems h3 (tabArr_WF _ _) rfl fun c hc => ?_⟩
  · obtain ⟨u, v, w, k1, k2, -, -⟩ := h4 c hc
    exact ⟨u, v, _, k1, k2, elem_tabArr hc, by rw [k1, k2]; rfl⟩
  · obtain ⟨u, v, w, k1, k2, k3, rfl⟩ := h4 c hc
    exact ⟨_, elem_tabArr hc, by rw [k1, k2]; exact k3⟩

theorem lift_binary_relu {a b : Arr Int} {φ : Int → Int → Int} {z : Arr (ZMod p)}
    (h : IsBinary a b (fun u v w => w = ((max 0 (φ u v) : Int) : ZMod p)) z) :
    ∃ y, IsBinary a b (fun u v w => w = φ u v) y ∧ z = castArr p (reluArr y) := by
  obtain ⟨h1, -, h3, h4⟩ := h
  refine ⟨tabArr z.shape fun c => φ ((elem a (srcCoords a.shape c)).getD 0) ((elem b (srcCoords b.shape c)).getD 0),
    ⟨h1, rfl, tabArr_WF _ _, fun c hc => ?_⟩, cast_of_elems h3 (relu_WF (tabArr_WF _ _)) rfl fun c hc => ?_⟩
  · obtain ⟨u, v, w, k1, k2, -, -⟩ := h4 c hc
    exact ⟨u, v, _, k1, k2, elem_tabArr hc, by rw [k1, k2]; rfl⟩
  · obtain ⟨u, v, w, k1, k2, k3, rfl⟩ := h4 c hc
    exact ⟨_, by rw [elem_relu, elem_tabArr hc]; rfl, by rw [k1, k2]; exact k3⟩

theorem lift_unary {a : Arr Int} {φ : Int → Int} {z : Arr (ZMod p)}
    (h : IsUnary a (fun u w => w = ((φ u : Int) : ZMod p)) z) :
    ∃ y, IsUnary a (fun u w => w = φ u) y ∧ z = castArr p y := by
  obtain ⟨h1, h3, h4⟩ := h
  refine ⟨tabArr a.shape fun c => φ ((elem a c).getD 0), ⟨rfl, tabArr_WF _ _, fun c hc => ?_⟩,
    cast_of_elems h3 (tabArr_WF _ _) h1.symm fun c hc => ?_⟩
  · obtain ⟨u, w, k1, -, -⟩ := h4 c hc
    exact ⟨u, _, k1, elem_tabArr hc, by rw [k1]; rfl⟩
  · rw [h1] at hc
    obtain ⟨u, w, k1, k3, rfl⟩ := h4 c hc
    exact ⟨_, elem_tabArr hc, by rw [k1]; exact k3⟩

theorem lift_relu {a : Arr Int} (ha : a.WF) {z : Arr (ZMod p)}
    (h : IsUnary a (fun u w => w = ((max 0 u : Int) : ZMod p)) z) : z = castArr p (reluArr a) := by
  obtain ⟨h1, h3, h4⟩ := h
  refine cast_of_elems h3 (relu_WF ha) h1.symm fun c hc => ?_
  rw [h1] at hc
  obtain ⟨u, w, k1, k3, rfl⟩ := h4 c hc
  exact ⟨_, by rw [elem_relu, k1]; rfl, k3⟩

/-! ## The layers -/

section
variable {T : Tables (ZMod p)} {given init : Vals Int} {env : Vals (ZMod p)} {ν : Vals Int}

theorem sound_operand (hi : ∀ n u, init n = some u → given n = some u) (hag : Agrees p env ν) (hex : Extends given ν)
    {n : String} {a : Arr Int} (hn : ν n = some a) : Sound T (operand init env n) fun v => v = castArr p a := by
  unfold operand
  rcases h : init n with _ | u
  · rcases h2 : env n with _ | v
    · exact Sound.throwErr
    · refine Sound.pure ?_
      obtain ⟨u, u1, u2⟩ := hag n v h2
      rw [hn] at u1
      rw [u2, Option.some.inj u1]
  · refine Sound.pure ?_
    have := hex n u (hi n u h)
    rw [hn] at this
    rw [Option.some.inj this]
    rfl

theorem complete_operand (hi : ∀ n u, init n = some u → given n = some u) (hag : Agrees p env ν)
    (hex : Extends given ν) {n : String} {a : Arr Int} (hn : ν n = some a) (hs : (init n).isSome ∨ (env n).isSome) :
    Complete T (operand init env n) fun v => v = castArr p a := by
  unfold operand
  rcases h : init n with _ | u
  · rcases h2 : env n with _ | v
    · rw [h, h2] at hs; simp at hs
    · refine Complete.pure ?_
      obtain ⟨u, u1, u2⟩ := hag n v h2
      rw [hn] at u1
      rw [u2, Option.some.inj u1]
  · refine Complete.pure ?_
    have := hex n u (hi n u h)
    rw [hn] at this
    rw [Option.some.inj this]
    rfl

end

/-- The preconditions of the layers: well-formed operands in the range of the layer. -/
def ArithPre (cfg : ArithCfg) (nd : Node) (xs : List (Option (Arr Int))) : Prop :=
  (nd.op = "Add" ∨ nd.op = "Sub" → ∃ a b, xs = [some a, some b] ∧ a.WF ∧ b.WF) ∧
  (nd.op = "Mul" → ∃ a b, xs = [some a, some b] ∧ a.WF ∧ b.WF ∧ ∀ relu, ∀ u ∈ a.data, ∀ v ∈ b.data,
    postRange (cfg.rescale nd.name) cfg.kappa (cfg.nBits nd.name) relu (u * v)) ∧
  (nd.op = "Max" ∨ nd.op = "Min" → ∃ a b, xs = [some a, some b] ∧ a.WF ∧ b.WF ∧
    Signed (cfg.nBits nd.name) a ∧ Signed (cfg.nBits nd.name) b) ∧
  (nd.op = "Neg" → ∃ a, xs = [some a] ∧ a.WF) ∧
  (nd.op = "ReLU" ∨ nd.op = "Relu" → ∃ a, xs = [some a] ∧ a.WF ∧ Signed (cfg.nBits nd.name) a)

/-- The digit width of the range checks divides the bit widths, which fit the field. -/
structure ArithCfgOk (p : Nat) (T : Tables (ZMod p)) (cfg : ArithCfg) (nodes : List Node) : Prop where
  table : IsRangeTable T cfg.rc
  chunk : 0 < cfg.rc.chunk
  kappa : cfg.rc.chunk ∣ cfg.kappa
  bits : ∀ nd ∈ nodes, 1 ≤ cfg.nBits nd.name ∧ cfg.rc.chunk ∣ cfg.nBits nd.name ∧
    2 ^ cfg.kappa * 2 ^ (cfg.nBits nd.name + 1) ≤ p

theorem map_two {ν : Vals Int} {l : List String} {a b : Arr Int} (h : l.map ν = [some a, some b]) :
    ∃ i j, l = [i, j] ∧ ν i = some a ∧ ν j = some b := by
  rcases l with _ | ⟨i, _ | ⟨j, _ | ⟨k, t⟩⟩⟩
  · simp at h
  · simp at h
  · simp only [List.map_cons, List.map_nil, List.cons.injEq, and_true] at h
    exact ⟨i, j, rfl, h.1, h.2⟩
  · simp at h

theorem map_one {ν : Vals Int} {l : List String} {a : Arr Int} (h : l.map ν = [some a]) :
    ∃ i, l = [i] ∧ ν i = some a := by
  rcases l with _ | ⟨i, _ | ⟨k, t⟩⟩
  · simp at h
  · simp only [List.map_cons, List.map_nil, List.cons.injEq, and_true] at h
    exact ⟨i, rfl, h⟩
  · simp at h

section sound
variable [Fact p.Prime] {T : Tables (ZMod p)} {given : Vals Int} {env : Vals (ZMod p)} {ν : Vals Int}

theorem oblivious_const {F α : Type} [CommRing F] (g : G F α) : Oblivious (X := X) fun _ => g := fun _ _ h o o' e e' => by
  rw [e] at e'
  cases e'
  exact ⟨rfl, rfl⟩

theorem binary_oblivious {init : Vals Int} {f : Arr (ZMod p) → Arr (ZMod p) → G (ZMod p) (Arr (ZMod p))} {nd : Node}
    {l : Layer (ZMod p) X} (h : binaryLayer init f nd = some l) (env : Vals (ZMod p)) : Oblivious fun x => l x env := by
  unfold binaryLayer at h
  split at h
  · cases h; exact oblivious_const _
  · cases h

theorem unary_oblivious {f : Arr (ZMod p) → G (ZMod p) (Arr (ZMod p))} {nd : Node}
    {l : Layer (ZMod p) X} (h : unaryLayer f nd = some l) (env : Vals (ZMod p)) : Oblivious fun x => l x env := by
  unfold unaryLayer at h
  cases h
  exact oblivious_const _

theorem sound_binary {init : Vals Int} (hi : ∀ n u, init n = some u → given n = some u) (hag : Agrees p env ν)
    (hex : Extends given ν) {f : Arr (ZMod p) → Arr (ZMod p) → G (ZMod p) (Arr (ZMod p))} {nd : Node}
    {l : Layer (ZMod p) X} (h : binaryLayer init f nd = some l) {a b : Arr Int}
    (hab : nd.inputs.map ν = [some a, some b]) {Q : Arr (ZMod p) → Prop}
    (hf : Sound T (f (castArr p a) (castArr p b)) Q) (x : X) :
    Sound T (l x env) fun o => ∃ z, Q z ∧ o = nd.outputs.map fun n => (n, z) := by
  obtain ⟨i, j, e, h1, h2⟩ := map_two hab
  unfold binaryLayer at h
  rw [e] at h
  cases h
  refine Sound.bind (sound_operand hi hag hex h1) ?_
  rintro _ rfl
  refine Sound.bind (sound_operand hi hag hex h2) ?_
  rintro _ rfl
  exact Sound.bind hf fun z hz => Sound.pure ⟨z, hz, rfl⟩

theorem complete_binary {init : Vals Int} (hi : ∀ n u, init n = some u → given n = some u) (hag : Agrees p env ν)
    (hex : Extends given ν) {f : Arr (ZMod p) → Arr (ZMod p) → G (ZMod p) (Arr (ZMod p))} {nd : Node}
    {l : Layer (ZMod p) X} (h : binaryLayer init f nd = some l) {a b : Arr Int}
    (hab : nd.inputs.map ν = [some a, some b]) (hs : ∀ i ∈ nd.inputs, (init i).isSome ∨ (env i).isSome)
    {Q : Arr (ZMod p) → Prop} (hf : Complete T (f (castArr p a) (castArr p b)) Q) (x : X) :
    Complete T (l x env) fun o => ∃ z, Q z ∧ o = nd.outputs.map fun n => (n, z) := by
  obtain ⟨i, j, e, h1, h2⟩ := map_two hab
  unfold binaryLayer at h
  rw [e] at h hs
  cases h
  refine Complete.bind (complete_operand hi hag hex h1 (hs i (by simp))) ?_
  rintro _ rfl
  refine Complete.bind (complete_operand hi hag hex h2 (hs j (by simp))) ?_
  rintro _ rfl
  exact Complete.bind hf fun z hz => Complete.pure ⟨z, hz, rfl⟩

theorem sound_unary {f : Arr (ZMod p) → G (ZMod p) (Arr (ZMod p))} {nd : Node} (hag : Agrees p env ν)
    {l : Layer (ZMod p) X} (h : unaryLayer f nd = some l) {a : Arr Int} (ha : nd.inputs.map ν = [some a])
    {Q : Arr (ZMod p) → Prop} (hf : Sound T (f (castArr p a)) Q) (x : X) :
    Sound T (l x env) fun o => ∃ z, Q z ∧ o = nd.outputs.map fun n => (n, z) := by
  obtain ⟨i, e, h1⟩ := map_one ha
  unfold unaryLayer at h
  cases h
  simp only [e]
  rcases h2 : env i with _ | v
  · exact Sound.throwErr
  · obtain ⟨u, u1, rfl⟩ := hag i v h2
    rw [h1] at u1
    obtain rfl := Option.some.inj u1
    exact Sound.bind hf fun z hz => Sound.pure ⟨z, hz, rfl⟩

theorem complete_unary {f : Arr (ZMod p) → G (ZMod p) (Arr (ZMod p))} {nd : Node} (hag : Agrees p env ν)
    {l : Layer (ZMod p) X} (h : unaryLayer f nd = some l) {a : Arr Int} (ha : nd.inputs.map ν = [some a])
    (hs : ∀ i ∈ nd.inputs, (env i).isSome) {Q : Arr (ZMod p) → Prop} (hf : Complete T (f (castArr p a)) Q) (x : X) :
    Complete T (l x env) fun o => ∃ z, Q z ∧ o = nd.outputs.map fun n => (n, z) := by
  obtain ⟨i, e, h1⟩ := map_one ha
  unfold unaryLayer at h
  cases h
  simp only [e]
  obtain ⟨v, h2⟩ := Option.isSome_iff_exists.1 (hs i (by rw [e]; simp))
  rw [h2]
  obtain ⟨u, u1, rfl⟩ := hag i v h2
  rw [h1] at u1
  obtain rfl := Option.some.inj u1
  exact Complete.bind hf fun z hz => Complete.pure ⟨z, hz, rfl⟩

theorem postSpec_mul (r : Bool) (κ : Nat) (relu : Bool) (u v : Int) :
    postSpec r κ relu (u * v) = if relu then max 0 (fixedMul r κ u v) else fixedMul r κ u v := by
  unfold postSpec rescaleSpec fixedMul
  cases r <;> cases relu <;> simp

/-- A builder that does what is required, for one node. -/
theorem arith_plain {cfg : ArithCfg} (hi : ∀ n u, cfg.init n = some u → given n = some u) {nodes : List Node}
    (hc : ArithCfgOk p T cfg nodes) [Fintype X] {nd : Node} (hnd : nd ∈ nodes) (ho : ∃ o, nd.outputs = [o]) {i : Nat}
    {l : Layer (ZMod p) X} (h : arithBuilder cfg nd .none i = some l) :
    Implements T given (arithMeaning cfg.kappa cfg.rescale) (ArithPre cfg) (fun _ => 0) 1 nd l := by
  intro env ν hag hex hp
  obtain ⟨o, ho⟩ := ho
  obtain ⟨b1, b2, b3⟩ := hc.bits nd hnd
  have b4 : 2 ^ (cfg.nBits nd.name + 1) ≤ p := le_trans (Nat.le_mul_of_pos_left _ (Nat.two_pow_pos _)) b3
  -- from a result to the named outputs
  have fin : ∀ {z : Arr (ZMod p)} {y : Arr Int} {out : List (String × Arr (ZMod p))},
      arithMeaning cfg.kappa cfg.rescale nd (nd.inputs.map ν) [y] → z = castArr p y →
      (out = nd.outputs.map fun n => (n, z)) →
      ∃ ys : List (Arr Int), ys.length = nd.outputs.length ∧
        arithMeaning cfg.kappa cfg.rescale nd (nd.inputs.map ν) ys ∧ out = nd.outputs.zip (ys.map (castArr p)) := by
    rintro z y out h1 rfl rfl
    exact ⟨[y], by rw [ho]; rfl, h1, by rw [ho]; rfl⟩
  unfold arithBuilder at h
  by_cases c1 : nd.op = "Add"
  · rw [if_pos c1] at h
    obtain ⟨a, b, e, wa, wb⟩ := hp.1 (.inl c1)
    refine ⟨binary_oblivious h env, almost_of_sound fun x => ?_⟩
    refine (sound_binary hi hag hex h e (C56_add_sub_sound a b wa wb).1 x).conseq ?_
    rintro out ⟨z, hz, ho'⟩
    obtain ⟨y, y1, y2⟩ := lift_binary (φ := fun u v => u + v) hz
    exact fin (.inl ⟨c1, a, b, y, e, rfl, y1⟩) y2 ho'
  rw [if_neg c1] at h
  by_cases c2 : nd.op = "Sub"
  · rw [if_pos c2] at h
    obtain ⟨a, b, e, wa, wb⟩ := hp.1 (.inr c2)
    refine ⟨binary_oblivious h env, almost_of_sound fun x => ?_⟩
    refine (sound_binary hi hag hex h e (C56_add_sub_sound a b wa wb).2 x).conseq ?_
    rintro out ⟨z, hz, ho'⟩
    obtain ⟨y, y1, y2⟩ := lift_binary (φ := fun u v => u - v) hz
    exact fin (.inr (.inl ⟨c2, a, b, y, e, rfl, y1⟩)) y2 ho'
  rw [if_neg c2] at h
  by_cases c3 : nd.op = "Mul"
  · rw [if_pos c3] at h
    obtain ⟨a, b, e, wa, wb, hr⟩ := hp.2.1 c3
    refine ⟨binary_oblivious h env, almost_of_sound fun x => ?_⟩
    refine (sound_binary hi hag hex h e
      (C56_mul_sound_partial hc.table hc.chunk b1 hc.kappa b2 b3 _ _ a b wa wb (hr _)) x).conseq ?_
    rintro out ⟨z, hz, ho'⟩
    have hz' : IsBinary a b (fun u v w => w = ((fixedMul (cfg.rescale nd.name) cfg.kappa u v : Int) : ZMod p)) z := by
      simpa only [postSpec_mul, reduceCtorEq, decide_false, Bool.false_eq_true, if_false] using hz
    obtain ⟨y, y1, y2⟩ := lift_binary hz'
    exact fin (.inr (.inr (.inl ⟨c3, a, b, y, e, rfl, y1⟩))) y2 ho'
  rw [if_neg c3] at h
  by_cases c4 : nd.op = "Max"
  · rw [if_pos c4] at h
    obtain ⟨a, b, e, wa, wb, ra, rb⟩ := hp.2.2.1 (.inl c4)
    refine ⟨binary_oblivious h env, almost_of_sound fun x => ?_⟩
    refine (sound_binary hi hag hex h e
      (C56_max_min_sound_partial hc.table hc.chunk b2 b4 a b wa wb ra rb).1 x).conseq ?_
    rintro out ⟨z, hz, ho'⟩
    obtain ⟨y, y1, y2⟩ := lift_binary (φ := fun u v => max u v) hz
    exact fin (.inr (.inr (.inr (.inl ⟨c4, a, b, y, e, rfl, y1⟩)))) y2 ho'
  rw [if_neg c4] at h
  by_cases c5 : nd.op = "Min"
  · rw [if_pos c5] at h
    obtain ⟨a, b, e, wa, wb, ra, rb⟩ := hp.2.2.1 (.inr c5)
    refine ⟨binary_oblivious h env, almost_of_sound fun x => ?_⟩
    refine (sound_binary hi hag hex h e
      (C56_max_min_sound_partial hc.table hc.chunk b2 b4 a b wa wb ra rb).2 x).conseq ?_
    rintro out ⟨z, hz, ho'⟩
    obtain ⟨y, y1, y2⟩ := lift_binary (φ := fun u v => min u v) hz
    exact fin (.inr (.inr (.inr (.inr (.inl ⟨c5, a, b, y, e, rfl, y1⟩))))) y2 ho'
  rw [if_neg c5] at h
  by_cases c6 : nd.op = "Neg"
  · rw [if_pos c6] at h
    obtain ⟨a, e, wa⟩ := hp.2.2.2.1 c6
    refine ⟨unary_oblivious h env, almost_of_sound fun x => ?_⟩
    refine (sound_unary hag h e (C56_neg a wa).1 x).conseq ?_
    rintro out ⟨z, hz, ho'⟩
    obtain ⟨y, y1, y2⟩ := lift_unary (φ := fun u => -u) hz
    exact fin (.inr (.inr (.inr (.inr (.inr (.inl ⟨c6, a, y, e, rfl, y1⟩)))))) y2 ho'
  rw [if_neg c6] at h
  by_cases c7 : nd.op = "ReLU" ∨ nd.op = "Relu"
  · rw [if_pos c7] at h
    obtain ⟨a, e, wa, ra⟩ := hp.2.2.2.2 c7
    refine ⟨unary_oblivious h env, almost_of_sound fun x => ?_⟩
    refine (sound_unary hag h e (C56_relu_sound_partial hc.table hc.chunk b2 b4 a wa ra) x).conseq ?_
    rintro out ⟨z, hz, ho'⟩
    exact fin (.inr (.inr (.inr (.inr (.inr (.inr ⟨c7, a, e, rfl⟩)))))) (lift_relu wa hz) ho'
  rw [if_neg c7] at h
  cases h

/-- The same for a fused node. -/
theorem arith_fused {cfg : ArithCfg} (hi : ∀ n u, cfg.init n = some u → given n = some u) {nodes : List Node}
    (hc : ArithCfgOk p T cfg nodes) [Fintype X] {nd : Node} (hnd : nd ∈ nodes) {outs : List String}
    {pat : Pattern} (hpat : pat.ops = [nd.op, "Relu"]) {i : Nat}
    {l : Layer (ZMod p) X} (h : arithBuilder cfg { nd with outputs := outs } pat i = some l) :
    ImplementsRelu T given (arithMeaning cfg.kappa cfg.rescale) (ArithPre cfg) (fun _ => 0) 1 nd outs l := by
  intro env ν hag hex hp
  obtain ⟨b1, b2, b3⟩ := hc.bits nd hnd
  unfold arithBuilder at h
  have hop : nd.op = "Mul" ∧ pat = .mulRelu ∨ nd.op = "Conv" ∨ nd.op = "Gemm" ∨ nd.op = "BatchNormalization" := by
    cases pat <;> simp [Pattern.ops] at hpat <;> simp [← hpat]
  rcases hop with ⟨c3, rfl⟩ | hop | hop | hop
  · simp only [c3] at h
    rw [if_neg (by decide), if_neg (by decide), if_pos trivial] at h
    obtain ⟨a, b, e, wa, wb, hr⟩ := hp.2.1 c3
    refine ⟨binary_oblivious h env, almost_of_sound fun x => ?_⟩
    refine (sound_binary hi hag hex h e
      (C56_mul_sound_partial hc.table hc.chunk b1 hc.kappa b2 b3 _ _ a b wa wb (hr _)) x).conseq ?_
    rintro out ⟨z, hz, ho'⟩
    have hz' : IsBinary a b
        (fun u v w => w = ((max 0 (fixedMul (cfg.rescale nd.name) cfg.kappa u v) : Int) : ZMod p)) z := by
      simpa only [postSpec_mul, decide_true, if_true] using hz
    obtain ⟨y, y1, y2⟩ := lift_binary_relu hz'
    exact ⟨y, .inr (.inr (.inl ⟨c3, a, b, y, e, rfl, y1⟩)), by rw [ho', y2]⟩
  all_goals
    simp only [hop] at h
    rw [if_neg (by decide), if_neg (by decide), if_neg (by decide), if_neg (by decide), if_neg (by decide),
      if_neg (by decide), if_neg (by decide)] at h
    cases h

/-- **C64, models of Add, Sub, Mul, Max, Min, Neg and ReLU are sound**, with `Mul` and `Relu` fused or not: for every
challenge, every witness the circuit accepts has as outputs the outputs of the model on its inputs. The values must stay
in the ranges of the layers. Missing: digit widths that do not divide the bit widths (`C05_rescale_unsound`). -/
theorem C64_arith_sound_partial {m : Model (ZMod p) X} {cfg : ArithCfg} (hm : m.builder = arithBuilder cfg)
    (wf : WellFormed given m.nodes) (hi : ∀ n u, cfg.init n = some u → given n = some u)
    (hc : ArithCfgOk p T cfg m.nodes) (hone : ∀ nd ∈ m.nodes, ∃ o, nd.outputs = [o])
    (hrelu : ∀ nd ∈ m.nodes, nd.op = "Relu" → ∃ i, nd.inputs = [i])
    {ord : List String → List String} (hord : ∀ l x, x ∈ ord l ↔ x ∈ l)
    (hpre : ∀ done nd rest, m.nodes = done ++ nd :: rest → ∀ ν, Extends given ν →
      IsModelRun (arithMeaning cfg.kappa cfg.rescale) done ν → ArithPre cfg nd (nd.inputs.map ν))
    {w : Wires (ZMod p)} {xs : List (Arr Int)} (hx : InputsAre p given m.inputs xs w.inputArr) (x : X) :
    Sound T (tryDefine ord m w x) fun _ => ∃ ν, Extends given ν ∧
      IsModelRun (arithMeaning cfg.kappa cfg.rescale) m.nodes ν ∧
      IsFlat ν (m.outputs.map (·.name)) (fun z : Int => (z : ZMod p)) w.outputs ∧ ConstantsOk m w := by
  -- the circuit for this challenge only
  let m' : Model (ZMod p) Unit :=
    ⟨m.nodes, m.inputs, m.outputs, m.scaleBase, m.scaleExponent,
      fun nd pat i => (m.builder nd pat i).map fun l _ env => l x env⟩
  have hb : ∀ nd pat i, m'.builder nd pat i = arithBuilder (X := Unit) cfg nd pat i := fun nd pat i => by
    change (m.builder nd pat i).map _ = _
    rw [hm]
    have k1 : ∀ (f : Arr (ZMod p) → Arr (ZMod p) → G (ZMod p) (Arr (ZMod p))),
        (binaryLayer (X := X) cfg.init f nd).map (fun l (_ : Unit) env => l x env) = binaryLayer cfg.init f nd := by
      intro f
      unfold binaryLayer
      split <;> rfl
    have k2 : ∀ (f : Arr (ZMod p) → G (ZMod p) (Arr (ZMod p))),
        (unaryLayer (X := X) f nd).map (fun l (_ : Unit) env => l x env) = unaryLayer f nd := fun f => rfl
    unfold arithBuilder
    simp only [apply_ite (Option.map fun (l : Layer (ZMod p) X) (_ : Unit) env => l x env), k1, k2, Option.map_none]
  have hbs : BuilderSound T given (arithMeaning cfg.kappa cfg.rescale) (ArithPre cfg) (fun _ => 0) 1 m' :=
    { plain := fun nd hnd i l hl => arith_plain hi hc hnd (hone nd hnd) ((hb _ _ _).symm.trans hl)
      fused := fun nd hnd outs pat i l hpat hl => arith_fused hi hc hnd hpat ((hb _ _ _).symm.trans hl)
      relu := fun nd hnd hop => by
        obtain ⟨o, ho⟩ := hone nd hnd
        obtain ⟨i, hi'⟩ := hrelu nd hnd hop
        exact ⟨⟨i, o, hi', ho⟩, fun y => .inr (.inr (.inr (.inr (.inr (.inr ⟨.inr hop, y, rfl, rfl⟩)))))⟩
      head := fun nd hnd _ => hone nd hnd }
  have key := C64_model_sound (m := m') (w := w) wf hbs hord hpre hx
  have hsame : tryDefine ord m' w () = tryDefine ord m w x := by
    have hl : buildLayers ord m' = (buildLayers ord m).map fun ls => ls.map fun l _ env => l x env := by
      unfold buildLayers
      change (plan ord m.nodes m.nodes 0 []).mapM (fun b => (m.builder b.1 b.2.1 b.2.2).map fun l _ env => l x env) = _
      generalize plan ord m.nodes m.nodes 0 [] = pl
      induction pl with
      | nil => rfl
      | cons b t ih =>
        rw [List.mapM_cons, List.mapM_cons, ih]
        rcases m.builder b.1 b.2.1 b.2.2 with _ | l
        · rfl
        · generalize (t.mapM fun b => m.builder b.1 b.2.1 b.2.2) = r
          cases r <;> rfl
    have ha : ∀ (ls : List (Layer (ZMod p) X)) (env : Vals (ZMod p)),
        applyLayers () (ls.map fun l (_ : Unit) env => l x env) env = applyLayers x ls env := by
      intro ls
      induction ls with
      | nil => intro env; rfl
      | cons l t ih =>
        intro env
        rw [List.map_cons, applyLayers, applyLayers]
        simp only [ih]
    unfold tryDefine
    rw [hl]
    rcases buildLayers ord m with _ | ls
    · rfl
    · simp only [Option.map_some, ha]
      rfl
  intro h o ho hs
  obtain ⟨bad, hbad, hgood⟩ := key h
  refine hgood () (fun hc => ?_) o (by change tryDefine ord m' w () h = _; rw [hsame]; exact ho) hs
  have h0 : (m.nodes.map fun _ => 0).sum = 0 := by simp
  have hb0 : bad.card * 1 ≤ (m.nodes.map fun _ => 0).sum * Fintype.card Unit := hbad
  rw [h0, Nat.zero_mul, Nat.mul_one, Nat.le_zero, Finset.card_eq_zero] at hb0
  rw [hb0] at hc
  simp at hc

/-! ## Completeness -/

/-- The preconditions for completeness: also, the operands can be broadcast and have no empty dimension. -/
def ArithPreC (cfg : ArithCfg) (nd : Node) (xs : List (Option (Arr Int))) : Prop :=
  ArithPre cfg nd xs ∧ ∀ a b, xs = [some a, some b] →
    (∀ d ∈ a.shape, d ≠ 0) ∧ (∀ d ∈ b.shape, d ≠ 0) ∧ ∃ s, IsBroadcast a.shape b.shape s

/-- The range checks can be built for the bit widths. -/
structure ArithCfgUsable (p : Nat) (T : Tables (ZMod p)) (cfg : ArithCfg) (nodes : List Node) : Prop where
  table : IsRangeTable T cfg.rc
  kappa : cfg.kappa < 32
  kappaUsable : RangeUsable p cfg.rc cfg.kappa
  bits : ∀ nd ∈ nodes, 1 ≤ cfg.nBits nd.name ∧ cfg.nBits nd.name ≤ 64 ∧ RangeUsable p cfg.rc (cfg.nBits nd.name) ∧
    2 ^ cfg.kappa * 2 ^ cfg.nBits nd.name ≤ p

/-- The operators and the sources of their inputs: an input is an initializer, an input of the model or the output of a
node; those of `Neg` and `ReLU` are not initializers. -/
def ArithNode (cfg : ArithCfg) (m : Model (ZMod p) X) (nd : Node) : Prop :=
  (nd.op ∈ ["Add", "Sub", "Mul", "Max", "Min"] ∧ ∀ i ∈ nd.inputs, (cfg.init i).isSome ∨
    (i ∈ m.inputs.map (·.name) ∨ ∃ k ∈ m.nodes, i ∈ k.outputs)) ∧ 2 ≤ nd.inputs.length ∨
  nd.op ∈ ["Neg", "ReLU", "Relu"] ∧ ∀ i ∈ nd.inputs, i ∈ m.inputs.map (·.name) ∨ ∃ k ∈ m.nodes, i ∈ k.outputs

theorem binaryLayer_some {init : Vals Int} {nd : Node} (h : 2 ≤ nd.inputs.length)
    (f : Arr (ZMod p) → Arr (ZMod p) → G (ZMod p) (Arr (ZMod p))) :
    ∃ l : Layer (ZMod p) X, binaryLayer init f nd = some l := by
  unfold binaryLayer
  match nd.inputs, h with
  | a :: b :: t, _ => exact ⟨_, rfl⟩

theorem arith_plain_complete {m : Model (ZMod p) X} {cfg : ArithCfg}
    (hi : ∀ n u, cfg.init n = some u → given n = some u)
    (hc : ArithCfgUsable p T cfg m.nodes) {nd : Node} (hnd : nd ∈ m.nodes) (ho : ∃ o, nd.outputs = [o])
    (hn : ArithNode cfg m nd) (i : Nat) : ∃ l : Layer (ZMod p) X, arithBuilder cfg nd .none i = some l ∧
    ∀ x env ν, Agrees p env ν → Extends given ν → HasInputs m nd env → ArithPreC cfg nd (nd.inputs.map ν) →
      Complete T (l x env) fun o => ∃ ys, ys.length = nd.outputs.length ∧
        arithMeaning cfg.kappa cfg.rescale nd (nd.inputs.map ν) ys ∧ o = nd.outputs.zip (ys.map (castArr p)) := by
  obtain ⟨o, ho⟩ := ho
  obtain ⟨b1, b2, b3, b4⟩ := hc.bits nd hnd
  have fin : ∀ {ν : Vals Int} {z : Arr (ZMod p)} {y : Arr Int} {out : List (String × Arr (ZMod p))},
      arithMeaning cfg.kappa cfg.rescale nd (nd.inputs.map ν) [y] → z = castArr p y →
      (out = nd.outputs.map fun n => (n, z)) →
      ∃ ys : List (Arr Int), ys.length = nd.outputs.length ∧
        arithMeaning cfg.kappa cfg.rescale nd (nd.inputs.map ν) ys ∧ out = nd.outputs.zip (ys.map (castArr p)) := by
    rintro ν z y out h1 rfl rfl
    exact ⟨[y], by rw [ho]; rfl, h1, by rw [ho]; rfl⟩
  unfold arithBuilder
  rcases hn with ⟨⟨hop, hin⟩, h2⟩ | ⟨hop, hin⟩
  · have hs : ∀ env : Vals (ZMod p), HasInputs m nd env → ∀ i ∈ nd.inputs, (cfg.init i).isSome ∨ (env i).isSome :=
      fun env he i hi' => (hin i hi').imp id (he i hi')
    simp only [List.mem_cons, List.not_mem_nil, or_false] at hop
    rcases hop with c | c | c | c | c
    · obtain ⟨l, h⟩ := binaryLayer_some (X := X) (init := cfg.init) h2 (addLayer (F := ZMod p))
      refine ⟨l, by rw [if_pos c]; exact h, fun x env ν hag hex he hp => ?_⟩
      obtain ⟨a, b, e, wa, wb⟩ := hp.1.1 (.inl c)
      obtain ⟨za, zb, hb⟩ := hp.2 a b e
      refine (complete_binary hi hag hex h e (hs env he) (C56_add_sub_complete_partial a b wa wb za zb hb).1 x).conseq ?_
      rintro out ⟨z, hz, ho'⟩
      obtain ⟨y, y1, y2⟩ := lift_binary (φ := fun u v => u + v) hz
      exact fin (.inl ⟨c, a, b, y, e, rfl, y1⟩) y2 ho'
    · obtain ⟨l, h⟩ := binaryLayer_some (X := X) (init := cfg.init) h2 (subLayer (F := ZMod p))
      refine ⟨l, by rw [if_neg (by rw [c]; decide), if_pos c]; exact h, fun x env ν hag hex he hp => ?_⟩
      obtain ⟨a, b, e, wa, wb⟩ := hp.1.1 (.inr c)
      obtain ⟨za, zb, hb⟩ := hp.2 a b e
      refine (complete_binary hi hag hex h e (hs env he) (C56_add_sub_complete_partial a b wa wb za zb hb).2 x).conseq ?_
      rintro out ⟨z, hz, ho'⟩
      obtain ⟨y, y1, y2⟩ := lift_binary (φ := fun u v => u - v) hz
      exact fin (.inr (.inl ⟨c, a, b, y, e, rfl, y1⟩)) y2 ho'
    · obtain ⟨l, h⟩ := binaryLayer_some (p := p) (X := X) (init := cfg.init) h2 (mulLayer cfg.rc (cfg.rescale nd.name)
        cfg.kappa (cfg.nBits nd.name) (decide (Pattern.none = .mulRelu)))
      refine ⟨l, by rw [if_neg (by rw [c]; decide), if_neg (by rw [c]; decide), if_pos c]; exact h,
        fun x env ν hag hex he hp => ?_⟩
      obtain ⟨a, b, e, wa, wb, hr⟩ := hp.1.2.1 c
      obtain ⟨za, zb, hb⟩ := hp.2 a b e
      refine (complete_binary hi hag hex h e (hs env he) (C56_mul_complete_partial hc.table b1 b2 hc.kappa hc.kappaUsable
        b3 b4 _ _ a b wa wb za zb hb (hr _)) x).conseq ?_
      rintro out ⟨z, hz, ho'⟩
      have hz' : IsBinary a b (fun u v w => w = ((fixedMul (cfg.rescale nd.name) cfg.kappa u v : Int) : ZMod p)) z := by
        simpa only [postSpec_mul, reduceCtorEq, decide_false, Bool.false_eq_true, if_false] using hz
      obtain ⟨y, y1, y2⟩ := lift_binary hz'
      exact fin (.inr (.inr (.inl ⟨c, a, b, y, e, rfl, y1⟩))) y2 ho'
    · obtain ⟨l, h⟩ := binaryLayer_some (p := p) (X := X) (init := cfg.init) h2 (maxLayer cfg.rc (cfg.nBits nd.name))
      refine ⟨l, by rw [if_neg (by rw [c]; decide), if_neg (by rw [c]; decide), if_neg (by rw [c]; decide), if_pos c]; exact h,
        fun x env ν hag hex he hp => ?_⟩
      obtain ⟨a, b, e, wa, wb, ra, rb⟩ := hp.1.2.2.1 (.inl c)
      obtain ⟨za, zb, hb⟩ := hp.2 a b e
      refine (complete_binary hi hag hex h e (hs env he)
        (C56_max_min_complete_partial hc.table b1 b2 b3 a b wa wb ra rb za zb hb).1 x).conseq ?_
      rintro out ⟨z, hz, ho'⟩
      obtain ⟨y, y1, y2⟩ := lift_binary (φ := fun u v => max u v) hz
      exact fin (.inr (.inr (.inr (.inl ⟨c, a, b, y, e, rfl, y1⟩)))) y2 ho'
    · obtain ⟨l, h⟩ := binaryLayer_some (p := p) (X := X) (init := cfg.init) h2 (minLayer cfg.rc (cfg.nBits nd.name))
      refine ⟨l, by rw [if_neg (by rw [c]; decide), if_neg (by rw [c]; decide), if_neg (by rw [c]; decide),
        if_neg (by rw [c]; decide), if_pos c]; exact h, fun x env ν hag hex he hp => ?_⟩
      obtain ⟨a, b, e, wa, wb, ra, rb⟩ := hp.1.2.2.1 (.inr c)
      obtain ⟨za, zb, hb⟩ := hp.2 a b e
      refine (complete_binary hi hag hex h e (hs env he)
        (C56_max_min_complete_partial hc.table b1 b2 b3 a b wa wb ra rb za zb hb).2 x).conseq ?_
      rintro out ⟨z, hz, ho'⟩
      obtain ⟨y, y1, y2⟩ := lift_binary (φ := fun u v => min u v) hz
      exact fin (.inr (.inr (.inr (.inr (.inl ⟨c, a, b, y, e, rfl, y1⟩))))) y2 ho'
  · have hs : ∀ env : Vals (ZMod p), HasInputs m nd env → ∀ i ∈ nd.inputs, (env i).isSome :=
      fun env he i hi' => he i hi' (hin i hi')
    simp only [List.mem_cons, List.not_mem_nil, or_false] at hop
    rcases hop with c | c
    · refine ⟨_, by
        rw [if_neg (by rw [c]; decide), if_neg (by rw [c]; decide), if_neg (by rw [c]; decide),
          if_neg (by rw [c]; decide), if_neg (by rw [c]; decide), if_pos c]
        rfl, fun x env ν hag hex he hp => ?_⟩
      obtain ⟨a, e, wa⟩ := hp.1.2.2.2.1 c
      refine (complete_unary (f := negLayer) hag rfl e (hs env he) (C56_neg a wa).2 x).conseq ?_
      rintro out ⟨z, hz, ho'⟩
      obtain ⟨y, y1, y2⟩ := lift_unary (φ := fun u => -u) hz
      exact fin (.inr (.inr (.inr (.inr (.inr (.inl ⟨c, a, y, e, rfl, y1⟩)))))) y2 ho'
    · refine ⟨_, by
        rw [if_neg (by rcases c with c | c <;> rw [c] <;> decide), if_neg (by rcases c with c | c <;> rw [c] <;> decide),
          if_neg (by rcases c with c | c <;> rw [c] <;> decide), if_neg (by rcases c with c | c <;> rw [c] <;> decide),
          if_neg (by rcases c with c | c <;> rw [c] <;> decide), if_neg (by rcases c with c | c <;> rw [c] <;> decide),
          if_pos c]
        rfl, fun x env ν hag hex he hp => ?_⟩
      obtain ⟨a, e, wa, ra⟩ := hp.1.2.2.2.2 c
      refine (complete_unary (f := reluLayer cfg.rc (cfg.nBits nd.name)) hag rfl e (hs env he)
        (C56_relu_complete hc.table b1 b2 b3 a wa ra) x).conseq ?_
      rintro out ⟨z, hz, ho'⟩
      exact fin (.inr (.inr (.inr (.inr (.inr (.inr ⟨c, a, e, rfl⟩)))))) (lift_relu wa hz) ho'

theorem arith_fused_complete {m : Model (ZMod p) X} {cfg : ArithCfg}
    (hi : ∀ n u, cfg.init n = some u → given n = some u)
    (hc : ArithCfgUsable p T cfg m.nodes) {nd : Node} (hnd : nd ∈ m.nodes) (hn : ArithNode cfg m nd)
    (outs : List String) {pat : Pattern} (hpat : pat.ops = [nd.op, "Relu"]) (i : Nat) :
    ∃ l : Layer (ZMod p) X, arithBuilder cfg { nd with outputs := outs } pat i = some l ∧
    ∀ x env ν, Agrees p env ν → Extends given ν → HasInputs m nd env → ArithPreC cfg nd (nd.inputs.map ν) →
      Complete T (l x env) fun o => ∃ y, arithMeaning cfg.kappa cfg.rescale nd (nd.inputs.map ν) [y] ∧
        o = outs.map fun n => (n, castArr p (reluArr y)) := by
  obtain ⟨b1, b2, b3, b4⟩ := hc.bits nd hnd
  have hop : nd.op = "Mul" ∧ pat = .mulRelu ∨ nd.op = "Conv" ∨ nd.op = "Gemm" ∨ nd.op = "BatchNormalization" := by
    cases pat <;> simp [Pattern.ops] at hpat <;> simp [← hpat]
  rcases hn with ⟨⟨hop', hin⟩, h2⟩ | ⟨hop', -⟩
  swap
  · exfalso
    rcases hop with ⟨c, -⟩ | c | c | c <;> rw [c] at hop' <;> simp at hop'
  have hs : ∀ env : Vals (ZMod p), HasInputs m nd env → ∀ i ∈ nd.inputs, (cfg.init i).isSome ∨ (env i).isSome :=
    fun env he i hi' => (hin i hi').imp id (he i hi')
  rcases hop with ⟨c, rfl⟩ | c | c | c
  · obtain ⟨l, h⟩ := binaryLayer_some (p := p) (X := X) (init := cfg.init) (nd := { nd with outputs := outs }) h2
      (mulLayer cfg.rc (cfg.rescale nd.name) cfg.kappa (cfg.nBits nd.name) (decide (Pattern.mulRelu = .mulRelu)))
    refine ⟨l, ?_, fun x env ν hag hex he hp => ?_⟩
    · unfold arithBuilder
      simp only [c]
      rw [if_neg (by decide), if_neg (by decide), if_pos trivial]
      rw [c] at h
      exact h
    · obtain ⟨a, b, e, wa, wb, hr⟩ := hp.1.2.1 c
      obtain ⟨za, zb, hb⟩ := hp.2 a b e
      refine (complete_binary hi hag hex h e (hs env he) (C56_mul_complete_partial hc.table b1 b2 hc.kappa hc.kappaUsable
        b3 b4 _ _ a b wa wb za zb hb (hr _)) x).conseq ?_
      rintro out ⟨z, hz, ho'⟩
      have hz' : IsBinary a b
          (fun u v w => w = ((max 0 (fixedMul (cfg.rescale nd.name) cfg.kappa u v) : Int) : ZMod p)) z := by
        simpa only [postSpec_mul, decide_true, if_true] using hz
      obtain ⟨y, y1, y2⟩ := lift_binary_relu hz'
      exact ⟨y, .inr (.inr (.inl ⟨c, a, b, y, e, rfl, y1⟩)), by rw [ho', y2]⟩
  all_goals
    exfalso
    rw [c] at hop'
    simp at hop'

/-- **C64, models of Add, Sub, Mul, Max, Min, Neg and ReLU are complete** for every digit width: run honestly on inputs
that keep the values in range, the circuit accepts the outputs of the model. Missing: fused intermediates that are used
elsewhere (`C64_fused_intermediate_refused`), empty dimensions (`C37_empty_rejected`). -/
theorem C64_arith_complete_partial {m : Model (ZMod p) X} {cfg : ArithCfg} (hm : m.builder = arithBuilder cfg)
    (wf : WellFormed given m.nodes) (hi : ∀ n u, cfg.init n = some u → given n = some u)
    (hc : ArithCfgUsable p T cfg m.nodes) (hone : ∀ nd ∈ m.nodes, ∃ o, nd.outputs = [o])
    (hrelu : ∀ nd ∈ m.nodes, nd.op = "Relu" → ∃ i, nd.inputs = [i]) (hn : ∀ nd ∈ m.nodes, ArithNode cfg m nd)
    (hf : FusionsPrivate m) {ord : List String → List String} (hord : ∀ l x, x ∈ ord l ↔ x ∈ l)
    (hpre : ∀ done nd rest, m.nodes = done ++ nd :: rest → ∀ ν, Extends given ν →
      IsModelRun (arithMeaning cfg.kappa cfg.rescale) done ν → ArithPreC cfg nd (nd.inputs.map ν))
    (h0 : m.nodes ≠ []) (ho : m.outputs ≠ [])
    (hout : ∀ io ∈ m.outputs, io.name ∈ m.inputs.map (·.name) ∨ ∃ k ∈ m.nodes, io.name ∈ k.outputs)
    (inputArr : List (ZMod p)) {xs : List (Arr Int)} (hx : InputsAre p given m.inputs xs inputArr) (x : X) :
    ∃ ν, Extends given ν ∧ IsModelRun (arithMeaning cfg.kappa cfg.rescale) m.nodes ν ∧
      (∀ io ∈ m.outputs, (ν io.name).isSome) ∧
      ∀ w : Wires (ZMod p), w.inputArr = inputArr →
        IsFlat ν (m.outputs.map (·.name)) (fun z : Int => (z : ZMod p)) w.outputs →
        w.outputs.length = effectiveDims m.outputs → ConstantsOk m w →
        Complete T (tryDefine ord m w x) fun _ => True :=
  C64_model_complete_partial wf
    { plain := fun nd hnd i => by rw [hm]; exact arith_plain_complete hi hc hnd (hone nd hnd) (hn nd hnd) i
      fused := fun nd hnd outs pat i hpat => by
        rw [hm]; exact arith_fused_complete hi hc hnd (hn nd hnd) outs hpat i
      relu := fun nd hnd hop => by
        obtain ⟨o, ho⟩ := hone nd hnd
        obtain ⟨i, hi'⟩ := hrelu nd hnd hop
        exact ⟨⟨i, o, hi', ho⟩, fun y => .inr (.inr (.inr (.inr (.inr (.inr ⟨.inr hop, y, rfl, rfl⟩)))))⟩
      head := fun nd hnd _ => hone nd hnd }
    hf hord hpre h0 ho hout inputArr hx x

/-! ## Inputs that are ignored -/

/-- **C64, inputs beyond the second are ignored.** ONNX allows `Max` and `Min` any number of inputs; the layer of a node
with more inputs is the layer of the node with only the first two. No part of the converter refuses such a node. -/
theorem C64_extra_inputs_ignored (cfg : ArithCfg) (nd : Node) (a b : String) (t : List String) (pat : Pattern) (i : Nat)
    (hop : nd.op = "Max" ∨ nd.op = "Min") :
    (arithBuilder cfg { nd with inputs := a :: b :: t } pat i : Option (Layer (ZMod p) X)) =
      arithBuilder cfg { nd with inputs := [a, b] } pat i := by
  unfold arithBuilder
  rcases hop with h | h <;> simp only [h] <;> rfl

/-- **C64, what a circuit with `Max` of three inputs accepts.** Whatever the third input `c` is, the honest run of the layer
returns the maximum of the other two: if an entry of `c` is larger, the circuit accepts a wrong output, and rejects the
right one. -/
theorem C64_max_third_input {cfg : ArithCfg} (hi : ∀ n u, cfg.init n = some u → given n = some u) {nd : Node}
    {x y z o : String} (hop : nd.op = "Max") (hin : nd.inputs = [x, y, z]) (hout : nd.outputs = [o])
    (hc : ArithCfgUsable p T cfg [nd]) {env : Vals (ZMod p)} {ν : Vals Int} (hag : Agrees p env ν) (hex : Extends given ν)
    {a b : Arr Int} (hx : ν x = some a) (hy : ν y = some b) (hp : ∀ n ∈ [x, y], (env n).isSome)
    (wa : a.WF) (wb : b.WF) (ra : Signed (cfg.nBits nd.name) a) (rb : Signed (cfg.nBits nd.name) b)
    (za : ∀ d ∈ a.shape, d ≠ 0) (zb : ∀ d ∈ b.shape, d ≠ 0) (hb : ∃ s, IsBroadcast a.shape b.shape s) (pat : Pattern)
    (i : Nat) : ∃ l : Layer (ZMod p) X, arithBuilder cfg nd pat i = some l ∧ ∀ k, Complete T (l k env) fun r =>
      ∃ u : Arr Int, IsBinary a b (fun s t w => w = max s t) u ∧ r = [(o, castArr p u)] := by
  obtain ⟨b1, b2, b3, -⟩ := hc.bits nd (by simp)
  have e : arithBuilder cfg nd pat i = (arithBuilder cfg { nd with inputs := [x, y] } pat i : Option (Layer (ZMod p) X)) := by
    rw [← C64_extra_inputs_ignored cfg nd x y [z] pat i (.inl hop), ← hin]
  obtain ⟨l, h⟩ := binaryLayer_some (p := p) (X := X) (init := cfg.init) (nd := { nd with inputs := [x, y] }) (by simp)
    (maxLayer cfg.rc (cfg.nBits nd.name))
  refine ⟨l, ?_, fun k => ?_⟩
  · rw [e]
    unfold arithBuilder
    simp only [hop]
    rw [if_neg (by decide), if_neg (by decide), if_neg (by decide), if_pos trivial]
    rw [hop] at h
    exact h
  · refine (complete_binary hi hag hex h (by simp [hx, hy]) (fun n hn => .inr (hp n hn))
      (C56_max_min_complete_partial hc.table b1 b2 b3 a b wa wb ra rb za zb hb).1 k).conseq ?_
    rintro out ⟨w, hw, ho'⟩
    obtain ⟨u, y1, y2⟩ := lift_binary (φ := fun u v => max u v) hw
    exact ⟨u, y1, by rw [ho', y2, hout]; rfl⟩

/-! ## Refusals -/

omit [Fact p.Prime] in
theorem operand_missing {init : Vals Int} {env : Vals (ZMod p)} {n : String} (h1 : init n = none) (h2 : env n = none)
    (h : Hints (ZMod p)) : ∃ e, operand init env n h = .error e := by
  unfold operand
  rw [h1, h2]
  exact ⟨_, rfl⟩

omit [Fact p.Prime] in
theorem binary_wired {init : Vals Int} {f : Arr (ZMod p) → Arr (ZMod p) → G (ZMod p) (Arr (ZMod p))} {nd : Node}
    {l : Layer (ZMod p) X} (h : binaryLayer init f nd = some l) (x : X) (env : Vals (ZMod p)) (hs : Hints (ZMod p)) :
    (nd.inputs.length ≤ 2 → ∀ n ∈ nd.inputs, init n = none → env n = none → ∃ e, l x env hs = .error e) ∧
    ∀ o, l x env hs = .ok o → ∀ n ∈ o.val.map (·.1), n ∈ nd.outputs := by
  unfold binaryLayer at h
  match hin : nd.inputs with
  | [] => rw [hin] at h; cases h
  | [a] => rw [hin] at h; cases h
  | a :: b :: t =>
    rw [hin] at h
    obtain rfl := (Option.some.inj h).symm
    refine ⟨fun ht n hn hi he => ?_, fun o ho n hn => ?_⟩
    · obtain rfl : t = [] := by
        cases t
        · rfl
        · simp at ht
      rcases hr : ((do
        let u ← operand init env a
        let v ← operand init env b
        let z ← f u v
        pure (nd.outputs.map fun n => (n, z)) : G (ZMod p) _)) hs with e | o
      · exact ⟨e, hr⟩
      · exfalso
        obtain ⟨o1, o2, e1, e2, -⟩ := JST.bind_eq_ok hr
        obtain ⟨o3, o4, e3, e4, -⟩ := JST.bind_eq_ok e2
        rw [List.mem_cons, List.mem_singleton] at hn
        rcases hn with rfl | rfl
        · obtain ⟨e, he⟩ := operand_missing hi he hs
          rw [he] at e1; cases e1
        · obtain ⟨e, he⟩ := operand_missing hi he o1.rest
          rw [he] at e3; cases e3
    · obtain ⟨o1, o2, e1, e2, rfl⟩ := JST.bind_eq_ok ho
      obtain ⟨o3, o4, e3, e4, rfl⟩ := JST.bind_eq_ok e2
      obtain ⟨o5, o6, e5, e6, rfl⟩ := JST.bind_eq_ok e4
      cases e6
      simpa using hn

omit [Fact p.Prime] in
theorem unary_wired {f : Arr (ZMod p) → G (ZMod p) (Arr (ZMod p))} {nd : Node}
    {l : Layer (ZMod p) X} (h : unaryLayer f nd = some l) (x : X) (env : Vals (ZMod p)) (hs : Hints (ZMod p)) :
    (nd.inputs.length ≤ 1 → ∀ n ∈ nd.inputs, env n = none → ∃ e, l x env hs = .error e) ∧
    ∀ o, l x env hs = .ok o → ∀ n ∈ o.val.map (·.1), n ∈ nd.outputs := by
  unfold unaryLayer at h
  obtain rfl := (Option.some.inj h).symm
  clear h
  rcases hin : nd.inputs with _ | ⟨a, t⟩
  · constructor
    · intro _ n hn
      cases hn
    · intro o ho
      cases ho
  · rcases he : env a with _ | u
    · exact ⟨fun _ n hn _ => ⟨_, by simp only [he]; rfl⟩, fun o ho => by simp only [he] at ho; cases ho⟩
    · refine ⟨fun ht n hn hn' => ?_, fun o ho n hn => ?_⟩
      · obtain rfl : t = [] := by
          cases t
          · rfl
          · simp at ht
        rw [List.mem_singleton] at hn
        rw [hn, he] at hn'
        cases hn'
      · simp only [he] at ho
        obtain ⟨o1, o2, e1, e2, rfl⟩ := JST.bind_eq_ok ho
        cases e2
        simpa using hn

omit [Fact p.Prime] in
theorem arith_wired {m : Model (ZMod p) X} {cfg : ArithCfg} (hm : m.builder = arithBuilder cfg)
    (hi : ∀ n, cfg.init n ≠ none → given n ≠ none)
    (hlen : ∀ nd ∈ m.nodes, nd.inputs.length ≤ if nd.op ∈ ["Neg", "ReLU", "Relu"] then 1 else 2) :
    BuilderWired given m := by
  have hini : ∀ n, given n = none → cfg.init n = none := fun n hn => by
    by_contra hc
    exact hi n hc hn
  have key : ∀ nd pat i (l : Layer (ZMod p) X), arithBuilder cfg nd pat i = some l →
      ((∃ f, binaryLayer cfg.init f nd = some l) ∨ nd.op ∈ ["Neg", "ReLU", "Relu"] ∧ ∃ f, unaryLayer f nd = some l) := by
    intro nd pat i l h
    unfold arithBuilder at h
    split_ifs at h with c1 c2 c3 c4 c5 c6 c7
    · exact .inl ⟨_, h⟩
    · exact .inl ⟨_, h⟩
    · exact .inl ⟨_, h⟩
    · exact .inl ⟨_, h⟩
    · exact .inl ⟨_, h⟩
    · exact .inr ⟨by simp [c6], _, h⟩
    · exact .inr ⟨by simpa using Or.inr c7, _, h⟩
  constructor
  · rintro nd pat i l ⟨k, k1, k2, k3⟩ h x env hs n hn hg he
    rw [hm] at h
    have hl := hlen k k1
    rw [k2, k3] at hl
    rcases key nd pat i l h with ⟨f, hf⟩ | ⟨hu, f, hf⟩
    · exact (binary_wired hf x env hs).1 (hl.trans (by split_ifs <;> omega)) n hn (hini n hg) he
    · rw [if_pos hu] at hl
      exact (unary_wired hf x env hs).1 hl n hn he
  · intro nd pat i l h x env hs o ho n hn
    rw [hm] at h
    rcases key nd pat i l h with ⟨f, hf⟩ | ⟨hu, f, hf⟩
    · exact (binary_wired hf x env hs).2 o ho n hn
    · exact (unary_wired hf x env hs).2 o ho n hn

end sound

/-! ## A concrete model: `t = x * w`, `y = max 0 t`, with scale 2^4 -/

def arithMulX : Node := ⟨"mul", "Mul", ["x", "w"], ["t"]⟩
def arithReluX : Node := ⟨"relu", "Relu", ["t"], ["y"]⟩
def arithCfgX : ArithCfg := ⟨⟨0, 4⟩, 4, fun _ => 8, fun _ => true, fun n => if n = "w" then some ⟨[2], [16, -8]⟩ else none⟩
def arithModelX : Model (ZMod goldP) Unit := ⟨[arithMulX, arithReluX], [⟨"x", [2]⟩], [⟨"y", [2]⟩], 2, 4, arithBuilder arithCfgX⟩
def arithGivenX : Vals Int := fun n => if n = "w" then some ⟨[2], [16, -8]⟩ else if n = "x" then some ⟨[2], [5, 7]⟩ else none

theorem arithX_wf : WellFormed arithGivenX arithModelX.nodes where
  names := by decide
  ssa := by decide
  fresh := by decide
  order := by decide
  loop := by decide

theorem arithX_pre (done : List Node) (nd : Node) (rest : List Node) (h : arithModelX.nodes = done ++ nd :: rest) (ν : Vals Int)
    (hex : Extends arithGivenX ν) (hr : IsModelRun (arithMeaning arithCfgX.kappa arithCfgX.rescale) done ν) :
    ArithPreC arithCfgX nd (nd.inputs.map ν) := by
  have hx : ν "x" = some ⟨[2], [5, 7]⟩ := hex "x" _ rfl
  have hw : ν "w" = some ⟨[2], [16, -8]⟩ := hex "w" _ rfl
  rcases done with _ | ⟨q, _ | ⟨q', done⟩⟩
  · obtain rfl : nd = arithMulX := by
      have := (List.cons.inj h).1
      exact this.symm
    have hin : arithMulX.inputs.map ν = [some ⟨[2], [5, 7]⟩, some ⟨[2], [16, -8]⟩] := by
      simp [arithMulX, hx, hw]
    rw [hin]
    refine ⟨⟨fun hc => ?_, fun _ => ⟨_, _, rfl, rfl, rfl, fun relu => ?_⟩, fun hc => ?_, fun hc => ?_, fun hc => ?_⟩, ?_⟩
    · simp [arithMulX] at hc
    · simp [postRange, arithCfgX]
    · simp [arithMulX] at hc
    · simp [arithMulX] at hc
    · simp [arithMulX] at hc
    · intro a b hab
      simp only [List.cons.injEq, Option.some.injEq, and_true] at hab
      obtain ⟨rfl, rfl⟩ := hab
      refine ⟨by decide, by decide, [2], rfl, ?_⟩
      intro i hi
      exact .inl ⟨rfl, rfl⟩
  · have h' : [arithMulX, arithReluX] = q :: nd :: rest := h
    obtain ⟨rfl, h2⟩ := List.cons.inj h'
    obtain rfl : nd = arithReluX := ((List.cons.inj h2).1).symm
    obtain ⟨ys, y1, y2⟩ := hr arithMulX (by simp)
    have hin : arithMulX.inputs.map ν = [some ⟨[2], [5, 7]⟩, some ⟨[2], [16, -8]⟩] := by
      simp [arithMulX, hx, hw]
    rw [hin] at y2
    have y3 : ∃ c, ys = [c] ∧ IsBinary (⟨[2], [5, 7]⟩ : Arr Int) ⟨[2], [16, -8]⟩
        (fun u v w => w = fixedMul true 4 u v) c := by
      rcases y2 with ⟨hc, _⟩ | ⟨hc, _⟩ | ⟨_, a, b, c, e1, e2, e3⟩ | ⟨hc, _⟩ | ⟨hc, _⟩ | ⟨hc, _⟩ | ⟨hc, _⟩
      · simp [arithMulX] at hc
      · simp [arithMulX] at hc
      · simp only [List.cons.injEq, Option.some.injEq, and_true] at e1
        obtain ⟨rfl, rfl⟩ := e1
        exact ⟨c, e2, e3⟩
      all_goals simp [arithMulX] at hc
    obtain ⟨⟨s, d⟩, rfl, ⟨s1, s2⟩, s3⟩ := y3
    have hs : s = [2] := by
      rcases s with _ | ⟨k, _ | ⟨_, _⟩⟩
      · simp at s1
      · rcases s2 0 (by simp) with ⟨_, h2⟩ | ⟨h2, _⟩ | ⟨h2, _⟩
        · simpa [fromRight] using h2
        · simp [fromRight] at h2
        · simp [fromRight] at h2
      · simp at s1
    subst hs
    have hd : d = [5, -4] := by
      obtain ⟨-, w, e⟩ := s3
      have hl : d.length = 2 := w
      match d, hl with
      | [d0, d1], _ =>
        obtain ⟨u, v, z, e1, e2, e3, e4⟩ := e [0] (.cons (by decide) .nil)
        obtain ⟨u', v', z', f1, f2, f3, f4⟩ := e [1] (.cons (by decide) .nil)
        simp [elem, srcCoords, rowMajor] at e1 e2 e3 f1 f2 f3
        subst e1 e2 e3 f1 f2 f3
        rw [e4, f4]
        decide
    subst hd
    have ht : arithReluX.inputs.map ν = [some ⟨[2], [5, -4]⟩] := by
      have : ν "t" = some ⟨[2], [5, -4]⟩ := by simpa [arithMulX] using y1
      simp [arithReluX, this]
    rw [ht]
    refine ⟨⟨fun hc => ?_, fun hc => ?_, fun hc => ?_, fun hc => ?_, fun _ => ⟨_, rfl, rfl, ?_⟩⟩, fun a b hab => ?_⟩
    · simp [arithReluX] at hc
    · simp [arithReluX] at hc
    · simp [arithReluX] at hc
    · simp [arithReluX] at hc
    · simp [Signed, arithCfgX]
    · simp at hab
  · simp [arithModelX] at h

theorem arithX_ok (T : Tables (ZMod goldP)) (h : IsRangeTable T ⟨0, 4⟩) : ArithCfgOk goldP T arithCfgX arithModelX.nodes where
  table := h
  chunk := by decide
  kappa := by decide
  bits := fun nd _ => ⟨show 1 ≤ 8 by decide, show 4 ∣ 8 by decide, show 2 ^ 4 * 2 ^ 9 ≤ goldP by decide⟩

theorem arithX_usable (T : Tables (ZMod goldP)) (h : IsRangeTable T ⟨0, 4⟩) : ArithCfgUsable goldP T arithCfgX arithModelX.nodes where
  table := h
  kappa := by decide
  kappaUsable := mm_usable 4 (by decide) (by decide)
  bits := fun nd _ => ⟨show 1 ≤ 8 by decide, show 8 ≤ 64 by decide, mm_usable 8 (by decide) (by decide),
    show 2 ^ 4 * 2 ^ 8 ≤ goldP by decide⟩

/-- The nodes are fused, and the circuit accepts exactly the outputs 5, 0: both theorems apply. -/
example (T : Tables (ZMod goldP)) (h : IsRangeTable T ⟨0, 4⟩) : plan id arithModelX.nodes arithModelX.nodes 0 [] =
      [({ arithMulX with outputs := ["y"] }, .mulRelu, 0)] ∧
    (∀ w : Wires (ZMod goldP), w.inputArr = [5, 7] → Sound T (tryDefine id arithModelX w ()) fun _ =>
      ∃ ν, Extends arithGivenX ν ∧ IsModelRun (arithMeaning 4 fun _ => true) arithModelX.nodes ν ∧
        IsFlat ν ["y"] (fun z : Int => (z : ZMod goldP)) w.outputs ∧ ConstantsOk arithModelX w) ∧
    ∃ ν, Extends arithGivenX ν ∧ IsModelRun (arithMeaning 4 fun _ => true) arithModelX.nodes ν ∧ (ν "y").isSome := by
  have hi : ∀ n u, arithCfgX.init n = some u → arithGivenX n = some u := by
    intro n u hn
    by_cases hw : n = "w"
    · subst hw; exact hn
    · simp [arithCfgX, hw] at hn
  have hone : ∀ nd ∈ arithModelX.nodes, ∃ o, nd.outputs = [o] := by simp [arithModelX, arithMulX, arithReluX]
  have hrelu : ∀ nd ∈ arithModelX.nodes, nd.op = "Relu" → ∃ i, nd.inputs = [i] := by simp [arithModelX, arithMulX, arithReluX]
  have hx : InputsAre goldP arithGivenX arithModelX.inputs [⟨[2], [5, 7]⟩] [5, 7] := ⟨.cons ⟨rfl, rfl, rfl⟩ .nil, by simp⟩
  refine ⟨by decide, fun w hw => ?_, ?_⟩
  · exact C64_arith_sound_partial (cfg := arithCfgX) rfl arithX_wf hi (arithX_ok T h) hone hrelu (fun _ _ => Iff.rfl)
      (fun d nd r e ν h1 h2 => (arithX_pre d nd r e ν h1 h2).1) (hw ▸ hx) ()
  · obtain ⟨ν, h1, h2, h3, -⟩ := C64_arith_complete_partial (cfg := arithCfgX) (ord := id) rfl arithX_wf hi (arithX_usable T h) hone hrelu
      (by
        intro nd hnd
        simp only [arithModelX, List.mem_cons, List.not_mem_nil, or_false] at hnd
        rcases hnd with rfl | rfl
        · exact .inl ⟨⟨by decide, by decide⟩, by decide⟩
        · exact .inr ⟨by decide, by decide⟩)
      (by
        intro nd hnd hfu o ho
        simp only [arithModelX, List.mem_cons, List.not_mem_nil, or_false] at hnd
        rcases hnd with rfl | rfl
        · simp only [arithMulX, List.mem_singleton] at ho
          subst ho
          decide
        · exact absurd hfu.1 (by decide))
      (fun _ _ => Iff.rfl) arithX_pre (by decide) (by decide) (by decide) [5, 7] hx ()
    exact ⟨ν, h1, h2, h3 ⟨"y", [2]⟩ (by simp [arithModelX])⟩

def arithModel2X : Model (ZMod goldP) Unit := { arithModelX with outputs := [⟨"y", [2]⟩, ⟨"t", [2]⟩] }

/-- The same model, with the intermediate `t` as a second output, is refused. -/
example (w : Wires (ZMod goldP)) (h : Hints (ZMod goldP)) :
    ∃ e, tryDefine id arithModel2X w () h = .error e := by
  refine C64_fused_intermediate_refused (given := arithGivenX) (m := arithModel2X) (fun _ _ => Iff.rfl) arithX_wf
    (arith_wired (cfg := arithCfgX) rfl ?_ (by decide)) (by decide) (nd := arithMulX) (by decide) ?_ (n := "t") (by decide)
    (.inl (by decide)) w () h
  · intro n hn hc
    by_cases hw : n = "w"
    · subst hw; simp [arithGivenX] at hc
    · simp [arithCfgX, hw] at hn
  · exact ⟨by decide, arithReluX, by decide, by decide⟩

end JST.Props
