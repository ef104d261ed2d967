import Verif.Gadgets.ArithProofs2

/-!
# Means of windows and lanes

The constraints of AveragePool and GlobalAveragePool for one window, and of ReduceMean for one lane.
-/

namespace JST

variable {p : Nat}

/-- `ceil_log2`, averagepool.rs:60-66 and global_averagepool.rs:16-22. -/
def ceilLog2 (n : Nat) : Nat := if n ≤ 1 then 1 else Nat.log2 (n - 1) + 1

/-- `for &var in &valid_vars { range_check(var, n_bits) }`, averagepool.rs:177-179. -/
def rangeCheckAll (rc : RangeCtx) (nBits : Nat) : List (ZMod p) → G (ZMod p) Unit
  | [] => pure ()
  | v :: vs => do
    rangeCheck rc v nBits
    rangeCheckAll rc nBits vs

/-- One window of AveragePool (averagepool.rs:155-236) or GlobalAveragePool
(global_averagepool.rs:93-141). `hint` is `averagepool_hint` (hints/averagepool.rs:41-69), which computes
with `f64` and is therefore a parameter. -/
def windowMean (hint : List (ZMod p) → Except Err (List (ZMod p))) (rc : RangeCtx) (nBits : Nat) :
    List (ZMod p) → G (ZMod p) (ZMod p)
  | [] => pure 0
  | [y] => do
    rangeCheck rc y nBits
    pure y
  | v :: v' :: rest => do
    rangeCheckAll rc nBits (v :: v' :: rest)
    let o ← newHint hint (v :: v' :: rest) 1
    let y := o.headD 0
    let n := (v :: v' :: rest).length
    let sum := (v' :: rest).foldl (fun acc x => acc + x) v
    let r := sum - (n : ZMod p) * y
    let s := r + ((n / 2 : Nat) : ZMod p)
    let k := ceilLog2 n
    rangeCheck rc s k
    let t := ((n - 1 : Nat) : ZMod p) - s
    rangeCheck rc t k
    rangeCheck rc y nBits
    pure y

/-- `n.next_power_of_two().trailing_zeros()`. -/
def nextPow2Log (n : Nat) : Nat := if n ≤ 1 then 0 else Nat.log2 (n - 1) + 1

/-- `n.is_power_of_two()`. -/
def isPow2 (n : Nat) : Bool := decide (0 < n) && decide (2 ^ Nat.log2 n = n)

/-- The upper bound of the remainder, checked unless `n` is a power of two, reduce_mean.rs:119-131. -/
def laneUpper (rc : RangeCtx) (n bits : Nat) (r : ZMod p) : G (ZMod p) Unit :=
  if isPow2 n then pure () else rangeCheck rc (((n - 1 : Nat) : ZMod p) - r) bits

/-- One lane of ReduceMean, reduce_mean.rs:73-146, for the sum of the lane. `unconstrained_int_div` and
`unconstrained_mod` work on canonical representatives. -/
def laneMean (rc : RangeCtx) (nBits n : Nat) (sum : ZMod p) : G (ZMod p) (ZMod p) := do
  let bits := max (nextPow2Log n) 1
  let b := sum + ((n / 2 : Nat) : ZMod p)
  let q ← uIntDiv b (n : ZMod p)
  let r ← uMod b (n : ZMod p)
  assertEq b ((n : ZMod p) * q + r)
  rangeCheck rc r bits
  laneUpper rc n bits r
  rangeCheck rc (q + ((2 ^ (nBits - 1) : Nat) : ZMod p)) nBits
  pure q

end JST
