import Verif.Tensor.LayerLemmas

/-! # Computations that do not panic -/

namespace JST.Layers

open JST.Shape JST.Spec

/-- The computation returns a value or reports an error. -/
def NoPanic {α : Type} (r : R α) : Prop := r ≠ .error .panic

theorem NoPanic.ok {α : Type} (a : α) : NoPanic (.ok a : R α) := by simp [NoPanic]

theorem NoPanic.invalid {α : Type} : NoPanic (.error .invalid : R α) := by simp [NoPanic]

theorem NoPanic.bind {α β : Type} {r : R α} {f : α → R β} (h : NoPanic r)
    (hf : ∀ a, r = .ok a → NoPanic (f a)) : NoPanic (r >>= f) := by
  cases r with
  | error e => intro h'; cases e with
    | invalid => cases h'
    | panic => exact h rfl
  | ok a => exact hf a rfl

theorem NoPanic.ite {α : Type} {c : Prop} [Decidable c] {a b : R α} (ha : c → NoPanic a)
    (hb : ¬ c → NoPanic b) : NoPanic (if c then a else b) := by
  split_ifs with h
  · exact ha h
  · exact hb h

theorem NoPanic.mapM {α β : Type} {f : α → R β} {l : List α} (h : ∀ x ∈ l, NoPanic (f x)) :
    NoPanic (l.mapM f) := by
  intro hm
  obtain ⟨x, hx, hx'⟩ := mapM_err hm
  exact h x hx hx'

theorem NoPanic.readAt {α : Type} {v : List α} {i : Nat} (e : Shape.Err) (h : i < v.length) :
    NoPanic (readAt e v i) := by
  rw [readAt_ok (List.getElem?_eq_getElem h)]; exact .ok _

theorem NoPanic.writeAt {α : Type} {v : List α} {i : Nat} (x : α) (h : i < v.length) :
    NoPanic (writeAt v i x) := by
  rw [writeAt_ok h]; exact .ok _

theorem NoPanic.fromShapeVec {α : Type} (s : List Nat) (d : List α) : NoPanic (fromShapeVec s d) :=
  .ite (fun _ => .ok _) (fun _ => .invalid)

theorem NoPanic.ravelR {c s : List Nat} (h : c.length = s.length) : NoPanic (ravelR c s) := by
  rw [ravelR_ok h]; exact .ok _

theorem NoPanic.applyMap {α : Type} (e : Shape.Err) {map : List Nat} (out : List Nat) {x : Arr α}
    (h : ∀ i ∈ map, i < x.data.length) : NoPanic (applyMap e map out x) :=
  .bind (.mapM fun i hi => .readAt e (h i hi)) fun _ _ => .fromShapeVec _ _

theorem NoPanic.normAxis (rank : Nat) (a : Int) : NoPanic (normAxis rank a) := by
  intro h
  have := normAxis_error _ _ _ h
  cases this

theorem bind_eq_ok {α β : Type} {r : R α} {f : α → R β} {b : β} (h : (r >>= f) = .ok b) :
    ∃ a, r = .ok a ∧ f a = .ok b := by
  cases r with
  | error e => cases h
  | ok a => exact ⟨a, rfl, h⟩

theorem mapM_ok_length {α β : Type} {f : α → R β} {l : List α} {r : List β}
    (h : l.mapM f = .ok r) : r.length = l.length := (mapM_ok_iff.1 h).length_eq.symm

theorem mapM_ok_getElem {ε α β : Type} {f : α → Except ε β} {l : List α} {r : List β}
    (h : l.mapM f = .ok r) (i : Nat) (hl : i < l.length) (hr : i < r.length) : f l[i] = .ok r[i] := by
  have := (List.forall₂_iff_get.1 (mapM_ok_iff.1 h)).2 i hl hr
  simpa using this

theorem mapM_ok_mem {ε α β : Type} {f : α → Except ε β} {l : List α} {r : List β}
    (h : l.mapM f = .ok r) {y : β} (hy : y ∈ r) : ∃ x ∈ l, f x = .ok y := by
  obtain ⟨i, hi, rfl⟩ := List.mem_iff_getElem.1 hy
  have hl := (mapM_ok_iff.1 h).length_eq
  exact ⟨l[i]'(by omega), List.getElem_mem _, mapM_ok_getElem h i (by omega) hi⟩

theorem writeAt_ok_iff {α : Type} {v r : List α} {i : Nat} {x : α} :
    writeAt v i x = .ok r ↔ i < v.length ∧ r = v.set i x := by
  unfold writeAt
  split_ifs with h
  · simp [h, eq_comm]
  · simp [h]

theorem fromShapeVec_ok_iff {α : Type} {s : List Nat} {d : List α} {y : Arr α} :
    fromShapeVec s d = .ok y ↔ d.length = s.prod ∧ y = ⟨s, d⟩ := by
  unfold fromShapeVec
  split_ifs with h
  · simp [h, eq_comm]
  · simp [h]

theorem ravelR_ok_iff {c s : List Nat} {i : Nat} (h : c.length = s.length) :
    ravelR c s = .ok i ↔ i = rowMajor s c := by
  rw [ravelR_ok h]; simp [eq_comm]

end JST.Layers
