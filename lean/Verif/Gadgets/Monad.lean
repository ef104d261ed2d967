import Mathlib.Data.ZMod.Basic
import Mathlib.Tactic.Ring
import Mathlib.Tactic.Linarith

/-!
# The circuit-builder semantics used by all gadget models

A gadget is a Rust function that receives the circuit builder `api : &mut Builder` (trait `BasicAPI` /
`RootAPI`, /repo/compiler/expander_compiler/src/frontend/api.rs) and emits constraints over wires. The
model runs a gadget on concrete wire *values*: a `Variable` is the field element the wire carries in
the witness under consideration. A run records

* every value the circuit asserts to be zero (`zeros`), and
* every row queried in a lookup table (`lookups`, tagged with a table id).

A witness satisfies the circuit when all recorded values are zero and every looked-up row is in its
table (`Sat`). That the LogUp argument really enforces table membership is the subject of
`Verif/LogUp`; it is a hypothesis nowhere else.

Hints (`api.new_hint`, builder.rs:433) are values chosen by the prover. In honest mode the model runs the Rust hint function; in adversary mode the values come from an arbitrary stream.
-/

namespace JST

/-- The failure outcomes of the Rust code: a `panic!`/failed `assert!`, an `Err(..)` result, an
error of a hint function during witness generation, or (model only) an exhausted adversary stream. -/
inductive Err where
  | panic (msg : String)
  | err (msg : String)
  | hint (msg : String)
  | stream
deriving Repr, DecidableEq

/-- Where hint values come from: the Rust hint functions (`honest`), or an arbitrary stream chosen by an
adversarial prover. -/
inductive Hints (F : Type) where
  | honest
  | adversary (stream : List F)
deriving Repr, DecidableEq

/-- The constraints recorded by a run: `zeros` are values asserted to be zero, `lookups` are the rows
looked up, with the id of the table. Models the builder's instruction and constraint lists
(/repo/compiler/expander_compiler/src/frontend/builder.rs:100-156; simplification: wires are their values, so variable ids disappear). -/
structure Cons (F : Type) where
  zeros : List F
  lookups : List (Nat × List F)
deriving Repr, DecidableEq

/-- No constraints. -/
def Cons.nil {F : Type} : Cons F := ⟨[], []⟩
/-- Constraints of two consecutive runs. -/
def Cons.app {F : Type} (a b : Cons F) : Cons F := ⟨a.zeros ++ b.zeros, a.lookups ++ b.lookups⟩

/-- Outcome of a successful run: the result, the recorded constraints, the remaining hint source. -/
structure Out (F α : Type) where
  val : α
  cons : Cons F
  rest : Hints F

/-- Circuit-building computations. -/
def G (F : Type) (α : Type) := Hints F → Except Err (Out F α)

/-- Sequencing: the constraints of both parts are recorded, errors propagate. -/
def G.andThen {F α β : Type} (g : G F α) (f : α → G F β) : G F β := fun h =>
  match g h with
  | .error e => .error e
  | .ok o =>
    match f o.val o.rest with
    | .error e => .error e
    | .ok o' => .ok ⟨o'.val, o.cons.app o'.cons, o'.rest⟩

instance {F : Type} : Monad (G F) where
  pure a := fun h => .ok ⟨a, .nil, h⟩
  bind := G.andThen

/-- For each table id, the set of rows it contains. -/
abbrev Tables (F : Type) := Nat → List F → Prop

/-- The witness satisfies all recorded constraints. -/
def Sat {F : Type} [Zero F] (T : Tables F) (c : Cons F) : Prop :=
  (∀ z ∈ c.zeros, z = 0) ∧ (∀ q ∈ c.lookups, T q.1 q.2)

section prims
variable {F : Type} [CommRing F]

/-- `Err(..)`. -/
def throwErr {α : Type} (m : String) : G F α := fun _ => .error (.err m)
/-- `panic!`. -/
def panicWith {α : Type} (m : String) : G F α := fun _ => .error (.panic m)

/-- `api.assert_is_zero` (/repo/compiler/expander_compiler/src/frontend/builder.rs:385-397). -/
def assertZero (v : F) : G F Unit := fun h => .ok ⟨(), ⟨[v], []⟩, h⟩

/-- `api.assert_is_equal(x, y)`: asserts `x - y = 0`
(/repo/compiler/expander_compiler/src/frontend/api.rs, `assert_is_equal`). -/
def assertEq (x y : F) : G F Unit := assertZero (x - y)

/-- `api.assert_is_bool` lowered by `bool_cond` to `b*(b-1) = 0`
(/repo/compiler/expander_compiler/src/builder/hint_normalize.rs:74-82). -/
def assertBool (b : F) : G F Unit := assertZero (b * (b - 1))

/-- Push a row on the query list of lookup table `tid`
(/repo/compiler/circuit-std-rs/src/logup.rs:440-442 `query_range`, 300-303 `query`). -/
def lookup (tid : Nat) (row : List F) : G F Unit := fun h => .ok ⟨(), ⟨[], [(tid, row)]⟩, h⟩

/-- `api.new_hint(name, inputs, n_out)`
(/repo/compiler/expander_compiler/src/frontend/builder.rs:433-455). The hint function is the
argument `f`; it must return exactly `nOut` values. -/
def newHint (f : List F → Except Err (List F)) (inputs : List F) (nOut : Nat) : G F (List F) :=
  fun h =>
    match h with
    | .honest =>
      match f inputs with
      | .ok outs =>
        if outs.length = nOut then .ok ⟨outs, .nil, .honest⟩ else .error (.hint "output length")
      | .error e => .error e
    | .adversary s =>
      if s.length < nOut then .error .stream
      else .ok ⟨s.take nOut, .nil, .adversary (s.drop nOut)⟩

end prims

/-! ## Reasoning rules -/

set_option linter.unusedSectionVars false

section rules
variable {F : Type} [CommRing F] {T : Tables F} {α β : Type}

/-- `Sound T g Q`: in every run of `g`, honest or adversarial, if all constraints recorded by the run
are satisfied then the result satisfies `Q`. -/
def Sound (T : Tables F) (g : G F α) (Q : α → Prop) : Prop :=
  ∀ h o, g h = .ok o → Sat T o.cons → Q o.val

/-- `Complete T g Q`: run honestly, `g` succeeds, all recorded constraints are satisfied and the result
satisfies `Q`. -/
def Complete (T : Tables F) (g : G F α) (Q : α → Prop) : Prop :=
  ∃ o, g .honest = .ok o ∧ o.rest = .honest ∧ Sat T o.cons ∧ Q o.val

/-- `Forge T g Q`: some choice of hint values makes `g` succeed with all constraints satisfied and a
result satisfying `Q`. -/
def Forge (T : Tables F) (g : G F α) (Q : α → Prop) : Prop :=
  ∃ hs : List F, ∀ rest, ∃ o, g (.adversary (hs ++ rest)) = .ok o ∧ o.rest = .adversary rest ∧
    Sat T o.cons ∧ Q o.val

theorem Sat.app {a b : Cons F} : Sat T (a.app b) ↔ Sat T a ∧ Sat T b := by
  simp only [Sat, Cons.app, List.mem_append]
  constructor
  · rintro ⟨h1, h2⟩
    exact ⟨⟨fun z hz => h1 z (.inl hz), fun q hq => h2 q (.inl hq)⟩,
      ⟨fun z hz => h1 z (.inr hz), fun q hq => h2 q (.inr hq)⟩⟩
  · rintro ⟨⟨h1, h2⟩, ⟨h3, h4⟩⟩
    exact ⟨fun z hz => hz.elim (h1 z) (h3 z), fun q hq => hq.elim (h2 q) (h4 q)⟩

theorem Sat.nil : Sat T (Cons.nil : Cons F) := by simp [Sat, Cons.nil]

theorem bind_eq_ok {g : G F α} {f : α → G F β} {h : Hints F} {o : Out F β}
    (e : (g >>= f) h = .ok o) :
    ∃ o1 o2, g h = .ok o1 ∧ f o1.val o1.rest = .ok o2 ∧
      o = ⟨o2.val, o1.cons.app o2.cons, o2.rest⟩ := by
  change G.andThen g f h = _ at e
  unfold G.andThen at e
  split at e
  · cases e
  · next o1 h1 =>
    split at e
    · cases e
    · next o2 h2 => exact ⟨o1, o2, h1, h2, by cases e; rfl⟩

theorem bind_ok {g : G F α} {f : α → G F β} {h : Hints F} {o1 : Out F α} {o2 : Out F β}
    (h1 : g h = .ok o1) (h2 : f o1.val o1.rest = .ok o2) :
    (g >>= f) h = .ok ⟨o2.val, o1.cons.app o2.cons, o2.rest⟩ := by
  change G.andThen g f h = _
  unfold G.andThen
  simp only [h1, h2]

theorem Sound.bind {g : G F α} {f : α → G F β} {P : α → Prop} {Q : β → Prop}
    (hg : Sound T g P) (hf : ∀ a, P a → Sound T (f a) Q) : Sound T (g >>= f) Q := by
  intro h o e hs
  obtain ⟨o1, o2, h1, h2, rfl⟩ := bind_eq_ok e
  have hs' := Sat.app.mp hs
  exact hf _ (hg _ _ h1 hs'.1) _ o2 h2 hs'.2

theorem Sound.pure {a : α} {Q : α → Prop} (h : Q a) : Sound T (Pure.pure a : G F α) Q := by
  intro _ o e _
  cases e
  exact h

theorem Sound.conseq {g : G F α} {P Q : α → Prop} (hg : Sound T g P) (hPQ : ∀ a, P a → Q a) :
    Sound T g Q := fun h o e hs => hPQ _ (hg h o e hs)

theorem Sound.throwErr {m : String} {Q : α → Prop} : Sound T (throwErr m : G F α) Q := by
  intro _ o e _; cases e

theorem Sound.panicWith {m : String} {Q : α → Prop} : Sound T (panicWith m : G F α) Q := by
  intro _ o e _; cases e

theorem Sound.assertZero {v : F} : Sound T (assertZero v) (fun _ => v = 0) := by
  intro _ o e hs; cases e; exact hs.1 v (by simp)

theorem Sound.assertEq {x y : F} : Sound T (assertEq x y) (fun _ => x = y) :=
  Sound.assertZero.conseq fun _ h => sub_eq_zero.mp h

theorem Sound.assertBool [IsDomain F] {b : F} : Sound T (assertBool b) (fun _ => b = 0 ∨ b = 1) :=
  Sound.assertZero.conseq fun _ h => (mul_eq_zero.mp h).imp id sub_eq_zero.mp

theorem Sound.lookup {tid : Nat} {row : List F} : Sound T (lookup tid row) (fun _ => T tid row) := by
  intro _ o e hs; cases e; exact hs.2 (tid, row) (by simp)

theorem Sound.newHint {f : List F → Except Err (List F)} {inputs : List F} {n : Nat} :
    Sound T (newHint f inputs n) (fun outs => outs.length = n) := by
  intro h o e _
  unfold JST.newHint at e
  split at e
  · split at e
    · split at e
      · cases e; assumption
      · cases e
    · cases e
  · split at e
    · cases e
    · cases e; simp; omega

theorem Complete.bind {g : G F α} {f : α → G F β} {P : α → Prop} {Q : β → Prop}
    (hg : Complete T g P) (hf : ∀ a, P a → Complete T (f a) Q) : Complete T (g >>= f) Q := by
  obtain ⟨o1, h1, r1, s1, p1⟩ := hg
  obtain ⟨o2, h2, r2, s2, q2⟩ := hf _ p1
  exact ⟨_, bind_ok h1 (by rw [r1]; exact h2), r2, Sat.app.mpr ⟨s1, s2⟩, q2⟩

theorem Complete.pure {a : α} {Q : α → Prop} (h : Q a) : Complete T (Pure.pure a : G F α) Q :=
  ⟨_, rfl, rfl, Sat.nil, h⟩

theorem Complete.conseq {g : G F α} {P Q : α → Prop} (hg : Complete T g P)
    (hPQ : ∀ a, P a → Q a) : Complete T g Q := by
  obtain ⟨o, h1, h2, h3, h4⟩ := hg
  exact ⟨o, h1, h2, h3, hPQ _ h4⟩

/-- `Det T g Q`: `g` consumes no hints; from any hint source it succeeds, all recorded constraints
are satisfied and the result satisfies `Q`. -/
def Det (T : Tables F) (g : G F α) (Q : α → Prop) : Prop :=
  ∀ h, ∃ o, g h = .ok o ∧ o.rest = h ∧ Sat T o.cons ∧ Q o.val

theorem Det.complete {g : G F α} {Q : α → Prop} (hg : Det T g Q) : Complete T g Q := hg .honest

theorem Det.forge {g : G F α} {Q : α → Prop} (hg : Det T g Q) : Forge T g Q :=
  ⟨[], fun rest => hg (.adversary rest)⟩

theorem Det.bind {g : G F α} {f : α → G F β} {P : α → Prop} {Q : β → Prop}
    (hg : Det T g P) (hf : ∀ a, P a → Det T (f a) Q) : Det T (g >>= f) Q := by
  intro h
  obtain ⟨o1, h1, r1, s1, p1⟩ := hg h
  obtain ⟨o2, h2, r2, s2, q2⟩ := hf _ p1 h
  exact ⟨_, bind_ok h1 (by rw [r1]; exact h2), r2, Sat.app.mpr ⟨s1, s2⟩, q2⟩

theorem Det.conseq {g : G F α} {P Q : α → Prop} (hg : Det T g P)
    (hPQ : ∀ a, P a → Q a) : Det T g Q := by
  intro h
  obtain ⟨o, h1, h2, h3, h4⟩ := hg h
  exact ⟨o, h1, h2, h3, hPQ _ h4⟩

theorem Det.pure {a : α} {Q : α → Prop} (h : Q a) : Det T (Pure.pure a : G F α) Q :=
  fun _ => ⟨_, rfl, rfl, Sat.nil, h⟩

theorem Det.assertZero {v : F} (h : v = 0) : Det T (assertZero v) (fun _ => True) :=
  fun _ => ⟨_, rfl, rfl, by simp [Sat, h], trivial⟩

theorem Det.assertEq {x y : F} (h : x = y) : Det T (assertEq x y) (fun _ => True) :=
  Det.assertZero (sub_eq_zero.mpr h)

theorem Det.assertBool {b : F} (h : b = 0 ∨ b = 1) : Det T (assertBool b) (fun _ => True) :=
  Det.assertZero (by rcases h with rfl | rfl <;> ring)

theorem Det.lookup {tid : Nat} {row : List F} (h : T tid row) :
    Det T (lookup tid row) (fun _ => True) :=
  fun _ => ⟨_, rfl, rfl, by simp [Sat, h], trivial⟩

theorem Complete.newHint {f : List F → Except Err (List F)} {inputs outs : List F} {n : Nat}
    (hf : f inputs = .ok outs) (hn : outs.length = n) :
    Complete T (newHint f inputs n) (fun o => o = outs) :=
  ⟨⟨outs, .nil, .honest⟩, by simp [JST.newHint, hf, hn], rfl, Sat.nil, rfl⟩

theorem Forge.bind {g : G F α} {f : α → G F β} {P : α → Prop} {Q : β → Prop}
    (hg : Forge T g P) {a : α} (ha : ∀ b, P b → b = a) (hf : Forge T (f a) Q) :
    Forge T (g >>= f) Q := by
  obtain ⟨hs1, H1⟩ := hg
  obtain ⟨hs2, H2⟩ := hf
  refine ⟨hs1 ++ hs2, fun rest => ?_⟩
  obtain ⟨o1, h1, r1, s1, p1⟩ := H1 (hs2 ++ rest)
  obtain ⟨o2, h2, r2, s2, q2⟩ := H2 rest
  have := ha _ p1
  exact ⟨_, bind_ok (by rw [List.append_assoc]; exact h1) (by rw [r1, this]; exact h2), r2,
    Sat.app.mpr ⟨s1, s2⟩, q2⟩

theorem Forge.pure {a : α} {Q : α → Prop} (h : Q a) : Forge T (Pure.pure a : G F α) Q :=
  (Det.pure h).forge

theorem Forge.newHint (f : List F → Except Err (List F)) (inputs outs : List F) {n : Nat}
    (hn : outs.length = n) : Forge T (newHint f inputs n) (fun o => o = outs) :=
  ⟨outs, fun rest => ⟨⟨outs, .nil, .adversary rest⟩, by
    simp [JST.newHint, ← hn], rfl, Sat.nil, rfl⟩⟩

theorem Forge.conseq {g : G F α} {P Q : α → Prop} (hg : Forge T g P)
    (hPQ : ∀ a, P a → Q a) : Forge T g Q := by
  obtain ⟨hs, H⟩ := hg
  refine ⟨hs, fun rest => ?_⟩
  obtain ⟨o, h1, h2, h3, h4⟩ := H rest
  exact ⟨o, h1, h2, h3, hPQ _ h4⟩

end rules

end JST
