import Verif.Field.Goldilocks
import Verif.Field.M31

/-!
# Extension fields of Goldilocks and Mersenne-31

Models `prover/arith/goldilocks/src/goldilocks_ext.rs`, `goldilocks_ext3.rs`, `goldilocks_ext4.rs` and
`prover/arith/mersenne31/src/m31_ext3.rs`, on the stored integers of the limbs. `none` is a panic, an overflow or a
failed `assume` of the base field.

Not modelled: the SIMD variants, random sampling, `Ord` (which panics for three of the four types) and `M31Ext6`.
-/

namespace JST.Ext

open JST

/-- The base field operations an extension is built from. -/
structure Base where
  add : Nat → Nat → Option Nat
  sub : Nat → Nat → Option Nat
  mul : Nat → Nat → Option Nat
  neg : Nat → Option Nat
  isZero : Nat → Bool
  eq : Nat → Nat → Bool

/-- `Goldilocks`, goldilocks.rs. -/
def gold : Base := ⟨Gold.add, Gold.sub, Gold.mul, Gold.neg, Gold.isZero, Gold.eq⟩

/-- `M31`, m31.rs. -/
def m31 : Base := ⟨M31.add, M31.sub, M31.mul, M31.neg, M31.isZero, M31.eq⟩

namespace Base
variable (B : Base)

/-- A sum of two computed values. -/
def plus (x y : Option Nat) : Option Nat := x.bind fun a => y.bind fun b => B.add a b

/-- A product of two computed values. -/
def times (x y : Option Nat) : Option Nat := x.bind fun a => y.bind fun b => B.mul a b

/-- `Field::square` of a base element, prover/arith/src/field.rs:131-133. -/
def sq (x : Option Nat) : Option Nat := x.bind fun a => B.mul a a

/-- `Field::double` of a base element, field.rs:137-139. -/
def dbl (x : Option Nat) : Option Nat := x.bind fun a => B.add a a

end Base

/-- Two limbs: `GoldilocksExt2`, goldilocks_ext.rs:17-19. -/
structure E2 where
  c0 : Nat
  c1 : Nat
  deriving DecidableEq

/-- Three limbs: `GoldilocksExt3`, goldilocks_ext3.rs:14-16; `M31Ext3`, m31_ext3.rs:19-21. -/
structure E3 where
  c0 : Nat
  c1 : Nat
  c2 : Nat
  deriving DecidableEq

/-- Four limbs: `GoldilocksExt4`, goldilocks_ext4.rs:14-16. -/
structure E4 where
  c0 : Nat
  c1 : Nat
  c2 : Nat
  c3 : Nat
  deriving DecidableEq

/-- Build a two-limb result. -/
def mk2 (x y : Option Nat) : Option E2 := x.bind fun a => y.bind fun b => some ⟨a, b⟩

/-- Build a three-limb result. -/
def mk3 (x y z : Option Nat) : Option E3 := x.bind fun a => y.bind fun b => z.bind fun c => some ⟨a, b, c⟩

/-- Build a four-limb result. -/
def mk4 (x y z t : Option Nat) : Option E4 :=
  x.bind fun a => y.bind fun b => z.bind fun c => t.bind fun d => some ⟨a, b, c, d⟩

/-! ## Degree 2, `X^2 = 7` -/

/-- `to_limbs`, goldilocks_ext.rs:156-158. -/
def E2.limbs (a : E2) : List Nat := [a.c0, a.c1]

/-- `from_limbs`, goldilocks_ext.rs:161-169. -/
def E2.ofLimbs (l : List Nat) : E2 := ⟨l.getD 0 0, l.getD 1 0⟩

/-- `is_zero`, goldilocks_ext.rs:52-54. -/
def E2.isZero (B : Base) (a : E2) : Bool := B.isZero a.c0 && B.isZero a.c1

/-- The derived `PartialEq`, goldilocks_ext.rs:16. -/
def E2.eq (B : Base) (a b : E2) : Bool := B.eq a.c0 b.c0 && B.eq a.c1 b.c1

/-- `add_internal`, goldilocks_ext.rs:267-272. -/
def E2.add (B : Base) (a b : E2) : Option E2 := mk2 (B.add a.c0 b.c0) (B.add a.c1 b.c1)

/-- `sub_internal`, goldilocks_ext.rs:275-280. -/
def E2.sub (B : Base) (a b : E2) : Option E2 := mk2 (B.sub a.c0 b.c0) (B.sub a.c1 b.c1)

/-- `Neg`, goldilocks_ext.rs:190-198. -/
def E2.neg (B : Base) (a : E2) : Option E2 := mk2 (B.neg a.c0) (B.neg a.c1)

/-- `mul_internal`, goldilocks_ext.rs:288-295. -/
def E2.mul (B : Base) (a b : E2) : Option E2 :=
  mk2 (B.plus (B.mul a.c0 b.c0) (B.times (some a.c1) (B.mul b.c1 7)))
    (B.plus (B.mul a.c0 b.c1) (B.mul a.c1 b.c0))

/-- `square_internal`, goldilocks_ext.rs:298-303. -/
def E2.square (B : Base) (a : E2) : Option E2 :=
  mk2 (B.plus (B.sq (some a.c0)) (B.times (B.sq (some a.c1)) (some 7)))
    (B.times (some a.c0) (B.dbl (some a.c1)))

/-- `mul_by_base_field`, goldilocks_ext.rs:134-139. -/
def E2.scale (B : Base) (a : E2) (b : Nat) : Option E2 := mk2 (B.mul a.c0 b) (B.mul a.c1 b)

/-- `add_by_base_field`, goldilocks_ext.rs:142-146. -/
def E2.addBase (B : Base) (a : E2) (b : Nat) : Option E2 := mk2 (B.add a.c0 b) (some a.c1)

/-- `mul_by_x`, goldilocks_ext.rs:149-153. -/
def E2.mulX (B : Base) (a : E2) : Option E2 := mk2 (B.mul a.c1 7) (some a.c0)

/-- `repeated_frobenius` with a count of one, goldilocks_ext.rs:373-400: the loop over `1..1` is empty. -/
def E2.frob (B : Base) (a : E2) : Option E2 :=
  mk2 (B.mul a.c0 18446744069414584320)
    (B.times (some a.c1) (B.mul 18446744069414584320 18446744069414584320))

/-- `inv`, goldilocks_ext.rs:78-94. The `debug_assert` is on. `ck` is the range of the counters of the base
inversion. The outer `Option` is a panic, the inner one the result. -/
def E2.inv (ck : Int → Bool) (a : E2) : Option (Option E2) :=
  if a.isZero gold then some none
  else
    (a.frob gold).bind fun f =>
    (f.mul gold a).bind fun n =>
    if gold.eq n.c1 0 then
      (Gold.tryInverse ck n.c0).bind fun
      | none => none
      | some i => (f.scale gold i).map some
    else none

/-! ## Degree 3, `X^3 = w` -/

/-- `to_limbs`, goldilocks_ext3.rs:167-169 and m31_ext3.rs:156-158. -/
def E3.limbs (a : E3) : List Nat := [a.c0, a.c1, a.c2]

/-- `from_limbs`, goldilocks_ext3.rs:172-180 and m31_ext3.rs:162-170. -/
def E3.ofLimbs (l : List Nat) : E3 := ⟨l.getD 0 0, l.getD 1 0, l.getD 2 0⟩

/-- `is_zero`, goldilocks_ext3.rs:49-51 and m31_ext3.rs:54-56. -/
def E3.isZero (B : Base) (a : E3) : Bool := B.isZero a.c0 && B.isZero a.c1 && B.isZero a.c2

/-- The derived `PartialEq`, goldilocks_ext3.rs:13 and m31_ext3.rs:18. -/
def E3.eq (B : Base) (a b : E3) : Bool := B.eq a.c0 b.c0 && B.eq a.c1 b.c1 && B.eq a.c2 b.c2

/-- `add_internal`, goldilocks_ext3.rs:248-254 and m31_ext3.rs:265-272. -/
def E3.add (B : Base) (a b : E3) : Option E3 := mk3 (B.add a.c0 b.c0) (B.add a.c1 b.c1) (B.add a.c2 b.c2)

/-- `sub_internal`, goldilocks_ext3.rs:257-263 and m31_ext3.rs:275-282. -/
def E3.sub (B : Base) (a b : E3) : Option E3 := mk3 (B.sub a.c0 b.c0) (B.sub a.c1 b.c1) (B.sub a.c2 b.c2)

/-- `Neg`, goldilocks_ext3.rs:201-209 and m31_ext3.rs:191-199. -/
def E3.neg (B : Base) (a : E3) : Option E3 := mk3 (B.neg a.c0) (B.neg a.c1) (B.neg a.c2)

/-- `mul_internal`, goldilocks_ext3.rs:266-275 (`w` = 2) and m31_ext3.rs:293-301 (`w` = 5). -/
def E3.mul (B : Base) (w : Nat) (a b : E3) : Option E3 :=
  mk3 (B.plus (B.mul a.c0 b.c0) (B.times (some w) (B.plus (B.mul a.c1 b.c2) (B.mul a.c2 b.c1))))
    (B.plus (B.plus (B.mul a.c0 b.c1) (B.mul a.c1 b.c0)) (B.times (B.mul w a.c2) (some b.c2)))
    (B.plus (B.plus (B.mul a.c0 b.c2) (B.mul a.c1 b.c1)) (B.mul a.c2 b.c0))

/-- `square_internal`, goldilocks_ext3.rs:278-286 (`w` = 2, `w2` = 4) and m31_ext3.rs:304-310 (`w` = 5, `w2` = 10). -/
def E3.square (B : Base) (w w2 : Nat) (a : E3) : Option E3 :=
  mk3 (B.plus (B.sq (some a.c0)) (B.times (some w2) (B.mul a.c1 a.c2)))
    (B.plus (B.times (some a.c0) (B.dbl (some a.c1))) (B.times (some w) (B.sq (some a.c2))))
    (B.plus (B.times (some a.c0) (B.dbl (some a.c2))) (B.sq (some a.c1)))

/-- `mul_by_base_field`, goldilocks_ext3.rs:144-150 and m31_ext3.rs:130-136. -/
def E3.scale (B : Base) (a : E3) (b : Nat) : Option E3 := mk3 (B.mul a.c0 b) (B.mul a.c1 b) (B.mul a.c2 b)

/-- `add_by_base_field`, goldilocks_ext3.rs:153-157 and m31_ext3.rs:140-144. -/
def E3.addBase (B : Base) (a : E3) (b : Nat) : Option E3 := mk3 (B.add a.c0 b) (some a.c1) (some a.c2)

/-- `mul_by_x`, goldilocks_ext3.rs:160-164 and m31_ext3.rs:148-152. -/
def E3.mulX (B : Base) (w : Nat) (a : E3) : Option E3 := mk3 (B.mul a.c2 w) (some a.c0) (some a.c1)

/-- `frobenius`, goldilocks_ext3.rs:353-368, with its constants 347-350. -/
def E3.frob (B : Base) (a : E3) (count : Nat) : Option E3 :=
  let count := count % 3
  if count = 0 then some a
  else if count = 1 then mk3 (some a.c0) (B.mul a.c1 Gold.EPS) (B.mul a.c2 18446744065119617025)
  else mk3 (some a.c0) (B.mul a.c1 18446744065119617025) (B.mul a.c2 Gold.EPS)

/-- `inv`, goldilocks_ext3.rs:80-99. The `debug_assert` is on. -/
def E3.inv (ck : Int → Bool) (a : E3) : Option (Option E3) :=
  if a.isZero gold then some none
  else
    (a.frob gold 1).bind fun f1 =>
    (a.frob gold 2).bind fun f2 =>
    (a.mul gold 2 f1).bind fun t =>
    (t.mul gold 2 f2).bind fun n =>
    if gold.eq n.c1 0 && gold.eq n.c2 0 then
      (Gold.tryInverse ck n.c0).bind fun
      | none => none
      | some i => (f1.mul gold 2 f2).bind fun q => (q.scale gold i).map some
    else none

/-- `Field::exp`, field.rs:142-155, over the multiplication of the type; `fuel` bounds the number of bits. -/
def expLoop {E : Type} (mul : E → E → Option E) : Nat → Nat → E → E → Option E
  | 0, _, res, _ => some res
  | fuel + 1, e, res, t =>
    if e = 0 then some res
    else
      (if e % 2 = 1 then mul res t else some res).bind fun res =>
      (mul t t).bind fun t =>
      expLoop mul fuel (e / 2) res t

/-- `inv`, m31_ext3.rs:81-88. -/
def E3.invM31 (a : E3) : Option (Option E3) :=
  if a.isZero m31 then some none
  else (expLoop (E3.mul m31 5) 128 (2147483647 * 2147483647 * 2147483647 - 2) ⟨1, 0, 0⟩ a).map some

/-! ## Degree 4, `X^4 = 7` -/

/-- `to_limbs`, goldilocks_ext4.rs:204-206. -/
def E4.limbs (a : E4) : List Nat := [a.c0, a.c1, a.c2, a.c3]

/-- `from_limbs`, goldilocks_ext4.rs:209-217. -/
def E4.ofLimbs (l : List Nat) : E4 := ⟨l.getD 0 0, l.getD 1 0, l.getD 2 0, l.getD 3 0⟩

/-- `is_zero`, goldilocks_ext4.rs:64-66. -/
def E4.isZero (B : Base) (a : E4) : Bool := B.isZero a.c0 && B.isZero a.c1 && B.isZero a.c2 && B.isZero a.c3

/-- The derived `PartialEq`, goldilocks_ext4.rs:13. -/
def E4.eq (B : Base) (a b : E4) : Bool := B.eq a.c0 b.c0 && B.eq a.c1 b.c1 && B.eq a.c2 b.c2 && B.eq a.c3 b.c3

/-- `add_internal`, goldilocks_ext4.rs:305-312. -/
def E4.add (B : Base) (a b : E4) : Option E4 :=
  mk4 (B.add a.c0 b.c0) (B.add a.c1 b.c1) (B.add a.c2 b.c2) (B.add a.c3 b.c3)

/-- `sub_internal`, goldilocks_ext4.rs:315-322. -/
def E4.sub (B : Base) (a b : E4) : Option E4 :=
  mk4 (B.sub a.c0 b.c0) (B.sub a.c1 b.c1) (B.sub a.c2 b.c2) (B.sub a.c3 b.c3)

/-- `Neg`, goldilocks_ext4.rs:238-246. -/
def E4.neg (B : Base) (a : E4) : Option E4 := mk4 (B.neg a.c0) (B.neg a.c1) (B.neg a.c2) (B.neg a.c3)

/-- `mul_internal`, goldilocks_ext4.rs:325-335. -/
def E4.mul (B : Base) (a b : E4) : Option E4 :=
  mk4 (B.plus (B.mul a.c0 b.c0)
      (B.times (some 7) (B.plus (B.plus (B.mul a.c1 b.c3) (B.mul a.c2 b.c2)) (B.mul a.c3 b.c1))))
    (B.plus (B.plus (B.mul a.c0 b.c1) (B.mul a.c1 b.c0))
      (B.times (some 7) (B.plus (B.mul a.c2 b.c3) (B.mul a.c3 b.c2))))
    (B.plus (B.plus (B.plus (B.mul a.c0 b.c2) (B.mul a.c1 b.c1)) (B.mul a.c2 b.c0))
      (B.times (B.mul 7 a.c3) (some b.c3)))
    (B.plus (B.plus (B.plus (B.mul a.c0 b.c3) (B.mul a.c1 b.c2)) (B.mul a.c2 b.c1)) (B.mul a.c3 b.c0))

/-- `square_internal`, goldilocks_ext4.rs:338-347. -/
def E4.square (B : Base) (a : E4) : Option E4 :=
  mk4 (B.plus (B.plus (B.sq (some a.c0)) (B.times (some 14) (B.mul a.c1 a.c3))) (B.times (some 7) (B.sq (some a.c2))))
    (B.plus (B.times (some a.c0) (B.dbl (some a.c1))) (B.times (some 7) (B.dbl (B.mul a.c2 a.c3))))
    (B.plus (B.plus (B.times (some a.c0) (B.dbl (some a.c2))) (B.sq (some a.c1))) (B.times (some 7) (B.sq (some a.c3))))
    (B.dbl (B.plus (B.mul a.c0 a.c3) (B.mul a.c1 a.c2)))

/-- `mul_by_base_field`, goldilocks_ext4.rs:180-187. -/
def E4.scale (B : Base) (a : E4) (b : Nat) : Option E4 :=
  mk4 (B.mul a.c0 b) (B.mul a.c1 b) (B.mul a.c2 b) (B.mul a.c3 b)

/-- `add_by_base_field`, goldilocks_ext4.rs:190-194. -/
def E4.addBase (B : Base) (a : E4) (b : Nat) : Option E4 :=
  mk4 (B.add a.c0 b) (some a.c1) (some a.c2) (some a.c3)

/-- `mul_by_x`, goldilocks_ext4.rs:197-201. -/
def E4.mulX (B : Base) (a : E4) : Option E4 := mk4 (B.mul a.c3 7) (some a.c0) (some a.c1) (some a.c2)

/-- `frobenius`, goldilocks_ext4.rs:419-435, with its constants 410-416. -/
def E4.frob (B : Base) (a : E4) (count : Nat) : Option E4 :=
  let w1 := 281474976710656
  let w2 := 18446744069414584320
  let w3 := 18446462594437873665
  let count := count % 4
  if count = 0 then some a
  else if count = 1 then mk4 (some a.c0) (B.mul a.c1 w1) (B.mul a.c2 w2) (B.mul a.c3 w3)
  else if count = 2 then mk4 (some a.c0) (B.mul a.c1 w2) (B.mul a.c2 1) (B.mul a.c3 w2)
  else mk4 (some a.c0) (B.mul a.c1 w3) (B.mul a.c2 w2) (B.mul a.c3 w1)

/-- `inv`, goldilocks_ext4.rs:102-127. The `debug_assert` is on. -/
def E4.inv (ck : Int → Bool) (a : E4) : Option (Option E4) :=
  if a.isZero gold then some none
  else
    (a.frob gold 1).bind fun f1 =>
    (a.frob gold 2).bind fun f2 =>
    (a.frob gold 3).bind fun f3 =>
    (a.mul gold f1).bind fun t =>
    (t.mul gold f2).bind fun t =>
    (t.mul gold f3).bind fun n =>
    if gold.eq n.c1 0 && gold.eq n.c2 0 && gold.eq n.c3 0 then
      (Gold.tryInverse ck n.c0).bind fun
      | none => none
      | some i =>
        (f1.mul gold f2).bind fun q => (q.mul gold f3).bind fun q => (q.scale gold i).map some
    else none

/-- `root_of_unity`, prover/arith/goldilocks/src/goldilocks_ext.rs:347-361. -/
def rootOfUnity2 : E2 := ⟨0, 0xd95051a31cf4a6ef⟩

/-! ## The types -/

/-- The operations of an extension field type. -/
structure Ops (E : Type) where
  limbs : E → List Nat
  ofLimbs : List Nat → E
  isZero : E → Bool
  eq : E → E → Bool
  add : E → E → Option E
  sub : E → E → Option E
  neg : E → Option E
  mul : E → E → Option E
  square : E → Option E
  scale : E → Nat → Option E
  addBase : E → Nat → Option E
  mulX : E → Option E
  inv : E → Option (Option E)

/-- `GoldilocksExt2`, goldilocks_ext.rs. -/
def goldExt2 (ck : Int → Bool) : Ops E2 :=
  ⟨E2.limbs, E2.ofLimbs, E2.isZero gold, E2.eq gold, E2.add gold, E2.sub gold, E2.neg gold, E2.mul gold,
    E2.square gold, E2.scale gold, E2.addBase gold, E2.mulX gold, E2.inv ck⟩

/-- `GoldilocksExt3`, goldilocks_ext3.rs. -/
def goldExt3 (ck : Int → Bool) : Ops E3 :=
  ⟨E3.limbs, E3.ofLimbs, E3.isZero gold, E3.eq gold, E3.add gold, E3.sub gold, E3.neg gold, E3.mul gold 2,
    E3.square gold 2 4, E3.scale gold, E3.addBase gold, E3.mulX gold 2, E3.inv ck⟩

/-- `GoldilocksExt4`, goldilocks_ext4.rs. -/
def goldExt4 (ck : Int → Bool) : Ops E4 :=
  ⟨E4.limbs, E4.ofLimbs, E4.isZero gold, E4.eq gold, E4.add gold, E4.sub gold, E4.neg gold, E4.mul gold,
    E4.square gold, E4.scale gold, E4.addBase gold, E4.mulX gold, E4.inv ck⟩

/-- `M31Ext3`, m31_ext3.rs. -/
def m31Ext3 : Ops E3 :=
  ⟨E3.limbs, E3.ofLimbs, E3.isZero m31, E3.eq m31, E3.add m31, E3.sub m31, E3.neg m31, E3.mul m31 5,
    E3.square m31 5 10, E3.scale m31, E3.addBase m31, E3.mulX m31 5, E3.invM31⟩

end JST.Ext
