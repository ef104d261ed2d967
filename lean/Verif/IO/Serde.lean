import Verif.IO.Bytes

/-!
# `ExpSerde`: the binary format of proofs, keys and witnesses

Model of /repo/prover/serdes/src/serdes.rs, /repo/prover/serdes/src/macros.rs and of the code generated
by /repo/prover/serdes_derive/src/lib.rs. `Ty` describes the types that can be composed from the
implementations; `ser` and `de` are `serialize_into` and `deserialize_from` on an in-memory writer and
reader (whose only failure is running out of bytes).

Not modelled: the elliptic-curve points `G1Affine`, `G2Affine` (fixed-width encodings of an external
crate) and allocation failure for lengths below the panic thresholds.
-/

namespace JST

/-- The ways `deserialize_from` can fail: `SerdeError` (error.rs:3-13) or a panic. -/
inductive SErr
  | io
  | invalid
  | badVariant
  | panic
  deriving DecidableEq, Repr

/-- Descriptions of the supported types. -/
inductive Ty
  /-- `()`, serdes.rs:24-32; also the end of a struct's field list -/
  | unit
  /-- the numbers `u8`, `u32`, `u64`, `usize`, `u128`, `U256`, and `f64` as a bit pattern,
  serdes.rs:34-40 and macros.rs:1-21; the argument is the width in bytes -/
  | num (w : Nat)
  /-- `bool`, serdes.rs:51-59 -/
  | bool
  /-- a prime field with canonical `w`-byte encoding: `Fr` (serdes.rs:80-97), `M31` and `Goldilocks`
  (their own `ExpSerde`, /repo/prover/arith/mersenne31/src/m31.rs and goldilocks.rs) -/
  | field (p w : Nat)
  /-- `Vec<V>`, serdes.rs:61-78 -/
  | vec (t : Ty)
  /-- `[S; n]`, macros.rs:23-44 -/
  | arr (n : Nat) (t : Ty)
  /-- `(T1, T2)`, serdes.rs:139-151; a struct with fields `f₁ … fₙ` is
  `pair f₁ (pair f₂ (… unit))`, serdes_derive/src/lib.rs:30-47 -/
  | pair (a b : Ty)
  /-- `HashMap<K, V>`, serdes.rs:153-173 -/
  | map (k v : Ty)
  /-- `Option<T>`, serdes.rs:175-195 -/
  | opt (t : Ty)
  /-- `String`, serdes.rs:197-211 -/
  | str
  /-- an enum with `n` variants, each with its struct of fields, serdes_derive/src/lib.rs:57-138 -/
  | enum (n : Nat) (variants : Fin n → Ty)

/-- The values of a type. A `HashMap` is its list of entries in iteration order, with distinct keys. -/
def Ty.Val : Ty → Type
  | .unit => Unit
  | .num w => Fin (256 ^ w)
  | .bool => Bool
  | .field p _ => Fin p
  | .vec t => List t.Val
  | .arr n t => { l : List t.Val // l.length = n }
  | .pair a b => a.Val × b.Val
  | .map k v => { l : List (k.Val × v.Val) // (l.map Prod.fst).Nodup }
  | .opt t => Option t.Val
  | .str => String
  | .enum n f => (i : Fin n) × (f i).Val

/-- Equality of values is decidable (`K: Eq`). -/
def Ty.decEq : (t : Ty) → DecidableEq t.Val
  | .unit => inferInstanceAs (DecidableEq Unit)
  | .num w => inferInstanceAs (DecidableEq (Fin (256 ^ w)))
  | .bool => inferInstanceAs (DecidableEq Bool)
  | .field p _ => inferInstanceAs (DecidableEq (Fin p))
  | .vec t => have := t.decEq; inferInstanceAs (DecidableEq (List t.Val))
  | .arr n t => have := t.decEq; inferInstanceAs (DecidableEq { l : List t.Val // l.length = n })
  | .pair a b => have := a.decEq; have := b.decEq; inferInstanceAs (DecidableEq (a.Val × b.Val))
  | .map k v =>
    have := k.decEq; have := v.decEq
    inferInstanceAs (DecidableEq { l : List (k.Val × v.Val) // (l.map Prod.fst).Nodup })
  | .opt t => have := t.decEq; inferInstanceAs (DecidableEq (Option t.Val))
  | .str => inferInstanceAs (DecidableEq String)
  | .enum n f => have := fun i => (f i).decEq; inferInstanceAs (DecidableEq ((i : Fin n) × (f i).Val))

instance (t : Ty) : DecidableEq t.Val := t.decEq

/-- The UTF-8 bytes of a string, `String::as_bytes`. -/
def strBytes (s : String) : Bytes := s.toByteArray.data.toList

/-- `String::from_utf8`. -/
def fromUtf8 (l : Bytes) : Option String :=
  if h : ByteArray.IsValidUTF8 ⟨l.toArray⟩ then some ⟨⟨l.toArray⟩, h⟩ else none

/-- `serialize_into`. -/
def Ty.ser : (t : Ty) → t.Val → Bytes
  | .unit, _ => []
  | .num w, v => leEnc w (show Fin (256 ^ w) from v).val
  | .bool, v => leEnc 1 (show Bool from v).toNat
  | .field p w, v => leEnc w (show Fin p from v).val
  | .vec t, v =>
    have l : List t.Val := v
    leEnc 8 l.length ++ l.flatMap t.ser
  | .arr n t, v =>
    have l : { l : List t.Val // l.length = n } := v
    l.val.flatMap t.ser
  | .pair a b, v =>
    have q : a.Val × b.Val := v
    a.ser q.1 ++ b.ser q.2
  | .map k v, m =>
    have l : { l : List (k.Val × v.Val) // (l.map Prod.fst).Nodup } := m
    leEnc 8 l.val.length ++ l.val.flatMap fun e => k.ser e.1 ++ v.ser e.2
  | .opt t, v =>
    match (show Option t.Val from v) with
    | some x => leEnc 1 1 ++ t.ser x
    | none => leEnc 1 0
  | .str, v =>
    have s : String := v
    leEnc 8 (strBytes s).length ++ strBytes s
  | .enum n f, v =>
    have q : (i : Fin n) × (f i).Val := v
    leEnc 4 q.1.val ++ (f q.1).ser q.2

/-- A decoder: consumes bytes from the front of the reader and returns a value with the unread bytes, or
fails. -/
def De (α : Type) : Type := Bytes → Except SErr (α × Bytes)

instance : Monad De where
  pure a := fun s => .ok (a, s)
  bind d f := fun s =>
    match d s with
    | .ok (a, s') => f a s'
    | .error e => .error e

/-- Fail with the given error. -/
def De.fail {α : Type} (e : SErr) : De α := fun _ => .error e

/-- `read_exact` into a buffer of `n` bytes. -/
def readExact (n : Nat) : De Bytes := fun s =>
  if s.length < n then .error .io else .ok (s.take n, s.drop n)

/-- The `for _ in 0..len { v.push(V::deserialize_from(..)?) }` loops, serdes.rs:72-74,
macros.rs:34-37. -/
def deN {α : Type} (d : De α) : Nat → De (List α)
  | 0 => pure []
  | n + 1 => do
    let x ← d
    let xs ← deN d n
    return x :: xs

/-- `map.insert(k, v)` on the entries: replace the value of an existing key, append otherwise. -/
def insertEntry {κ ν : Type} [DecidableEq κ] (l : List (κ × ν)) (k : κ) (v : ν) : List (κ × ν) :=
  if k ∈ l.map Prod.fst then l.map fun e => if e.1 = k then (k, v) else e else l ++ [(k, v)]

theorem insertEntry_keys {κ ν : Type} [DecidableEq κ] (l : List (κ × ν)) (k : κ) (v : ν) :
    (insertEntry l k v).map Prod.fst =
      if k ∈ l.map Prod.fst then l.map Prod.fst else l.map Prod.fst ++ [k] := by
  unfold insertEntry
  split_ifs with h
  · rw [List.map_map]
    apply List.map_congr_left
    intro e _
    simp only [Function.comp]
    split_ifs with h2 <;> simp [h2]
  · simp

/-- The distinct-keys invariant is kept. -/
theorem insertEntry_nodup {κ ν : Type} [DecidableEq κ] (l : List (κ × ν)) (k : κ) (v : ν)
    (h : (l.map Prod.fst).Nodup) : ((insertEntry l k v).map Prod.fst).Nodup := by
  rw [insertEntry_keys]
  split_ifs with hk
  · exact h
  · rw [List.nodup_append]
    exact ⟨h, by simp, fun a ha b hb => by simp at hb; rintro rfl; exact hk (hb ▸ ha)⟩

/-- Inserting a list of decoded entries in order, serdes.rs:166-170. -/
def insertAll {κ ν : Type} [DecidableEq κ] (acc : { l : List (κ × ν) // (l.map Prod.fst).Nodup }) :
    List (κ × ν) → { l : List (κ × ν) // (l.map Prod.fst).Nodup }
  | [] => acc
  | e :: es => insertAll ⟨insertEntry acc.val e.1 e.2, insertEntry_nodup _ _ _ acc.2⟩ es

/-- `HashMap::with_capacity(len)` panics when `len * 8` overflows (hashbrown's bucket computation). -/
def mapCapLimit : Nat := 2 ^ 61
/-- `vec![0u8; len]` panics above `isize::MAX`. -/
def vecCapLimit : Nat := 2 ^ 63

/-- A little-endian number of `w` bytes, macros.rs:13-17. -/
def deNum (w : Nat) : De (Fin (256 ^ w)) := do
  let b ← readExact w
  if h : leDec b < 256 ^ w then pure ⟨leDec b, h⟩ else De.fail .invalid

/-- `deserialize_from`. -/
def Ty.de : (t : Ty) → De t.Val
  | .unit => (pure () : De Unit)
  | .num w => deNum w
  | .bool => (do
    let b ← readExact 1
    pure (leDec b != 0) : De Bool)
  | .field p w => (do
    let b ← readExact w
    if h : leDec b < p then pure ⟨leDec b, h⟩ else De.fail .invalid : De (Fin p))
  | .vec t => (do
    let b ← readExact 8
    deN t.de (leDec b) : De (List t.Val))
  | .arr n t => (do
    let l ← deN t.de n
    if h : l.length = n then pure ⟨l, h⟩ else De.fail .invalid :
      De { l : List t.Val // l.length = n })
  | .pair a b => (do
    let x ← a.de
    let y ← b.de
    pure (x, y) : De (a.Val × b.Val))
  | .map k v => (do
    let b ← readExact 8
    if mapCapLimit ≤ leDec b then De.fail .panic
    else do
      let l ← deN (do
        let x ← k.de
        let y ← v.de
        pure (x, y)) (leDec b)
      pure (insertAll ⟨[], List.nodup_nil⟩ l) :
      De { l : List (k.Val × v.Val) // (l.map Prod.fst).Nodup })
  | .opt t => (do
    let b ← readExact 1
    if leDec b != 0 then do
      let x ← t.de
      pure (some x)
    else pure none : De (Option t.Val))
  | .str => (do
    let b ← readExact 8
    if vecCapLimit ≤ leDec b then De.fail .panic
    else do
      let l ← readExact (leDec b)
      match fromUtf8 l with
      | some x => pure x
      | none => De.fail .invalid : De String)
  | .enum n f => (do
    let b ← readExact 4
    if h : leDec b < n then do
      let x ← (f ⟨leDec b, h⟩).de
      pure ⟨⟨leDec b, h⟩, x⟩
    else De.fail .badVariant : De ((i : Fin n) × (f i).Val))

/-- A value that a 64-bit machine can hold: collection lengths fit their length prefix, an enum has at
most `2^32` variants and a field's modulus fits its encoding. -/
def Ty.Fits : (t : Ty) → t.Val → Prop
  | .unit, _ => True
  | .num _, _ => True
  | .bool, _ => True
  | .field p w, _ => p ≤ 256 ^ w
  | .vec t, v =>
    have l : List t.Val := v
    l.length < 2 ^ 64 ∧ ∀ x ∈ l, t.Fits x
  | .arr n t, v =>
    have l : { l : List t.Val // l.length = n } := v
    ∀ x ∈ l.val, t.Fits x
  | .pair a b, v =>
    have q : a.Val × b.Val := v
    a.Fits q.1 ∧ b.Fits q.2
  | .map k v, m =>
    have l : { l : List (k.Val × v.Val) // (l.map Prod.fst).Nodup } := m
    l.val.length < mapCapLimit ∧ ∀ e ∈ l.val, k.Fits e.1 ∧ v.Fits e.2
  | .opt t, v =>
    have o : Option t.Val := v
    ∀ x ∈ o, t.Fits x
  | .str, v => (strBytes v).length < vecCapLimit
  | .enum n f, v =>
    have q : (i : Fin n) × (f i).Val := v
    n ≤ 2 ^ 32 ∧ (f q.1).Fits q.2

end JST
