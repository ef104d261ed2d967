import Mathlib.Algebra.Field.Basic
import Mathlib.Logic.Function.Basic

/-!
# Offline memory checking of the sparse WHIR commitment

poly_commit/src/whir/sparse/memcheck.rs. Memory and counters are functions of the cell, of which the first `m`
values matter; operations are lists.
-/

namespace JST.MemCheck

variable {F : Type} [Field F]

/-- memcheck.rs:59-75 `memory_in_the_head`, from the counters `cnt` on: the read timestamps and the final
counters, or `none` for its two panics (an address beyond the memory, a counter beyond `u32::MAX`). -/
def memoryInTheHead (m : Nat) : (Nat → Nat) → List Nat → Option (List Nat × (Nat → Nat))
  | cnt, [] => some ([], cnt)
  | cnt, a :: as =>
    if a < m then
      if cnt a + 1 < 2 ^ 32 then
        match memoryInTheHead m (Function.update cnt a (cnt a + 1)) as with
        | some (ts, cnt') => some (cnt a :: ts, cnt')
        | none => none
      else none
    else none

/-- memcheck.rs:95-97 `hash_triple`. -/
def hashTriple (γ : F) (t : F × F × F) : F := t.1 * (γ * γ) + t.2.1 * γ + t.2.2

/-- memcheck.rs:108-113 `multiset_hash`. -/
def multisetHash (es : List F) (γ : F) : F := (es.map fun e => e - γ).foldl (· * ·) 1

/-- The triples of `Init`: every cell with its value and time 0. memcheck.rs:156-158. -/
def initSet (m : Nat) (mem : Nat → F) : List (F × F × F) :=
  (List.range m).map fun c : Nat => ((c : F), mem c, 0)

/-- The triples of `Audit`. memcheck.rs:159-161. -/
def auditSet (m : Nat) (mem : Nat → F) (audit : Nat → Nat) : List (F × F × F) :=
  (List.range m).map fun c : Nat => ((c : F), mem c, (audit c : F))

/-- One operation: address, claimed value, read timestamp. -/
structure Op (F : Type) where
  addr : Nat
  val : F
  ts : Nat

/-- The triples of `RS`. memcheck.rs:162-168. -/
def readSet (ops : List (Op F)) : List (F × F × F) := ops.map fun o => ((o.addr : F), o.val, (o.ts : F))

/-- The triples of `WS`: the write timestamp is the read timestamp plus one. memcheck.rs:169-175. -/
def writeSet (ops : List (Op F)) : List (F × F × F) := ops.map fun o => ((o.addr : F), o.val, (o.ts : F) + 1)

/-- memcheck.rs:202-208 `check_subset_equation` on the sets of `build_memcheck_sets`. -/
def Check (m : Nat) (mem : Nat → F) (audit : Nat → Nat) (ops : List (Op F)) (γ₁ γ₂ : F) : Prop :=
  multisetHash ((initSet m mem).map (hashTriple γ₁)) γ₂ * multisetHash ((writeSet ops).map (hashTriple γ₁)) γ₂ =
    multisetHash ((readSet ops).map (hashTriple γ₁)) γ₂ *
      multisetHash ((auditSet m mem audit).map (hashTriple γ₁)) γ₂

/-- The operations of `build_memcheck_sets` (memcheck.rs:139-182) from its three slices of equal length. -/
def mkOps (addrs : List Nat) (vals : List F) (ts : List Nat) : List (Op F) :=
  (addrs.zip (vals.zip ts)).map fun x => ⟨x.1, x.2.1, x.2.2⟩

end JST.MemCheck
