import Mathlib.NumberTheory.LucasPrimality
import Mathlib.Tactic.NormNum.Prime

/-!
# Primality of the circuit field moduli

Pratt certificates, checked by the kernel through `norm_num`.
-/

namespace JST

/-- Modular exponentiation by squaring, at most `f` bits of exponent. -/
def powMod (a m : Nat) : Nat → Nat → Nat
  | 0, _ => 1 % m
  | f + 1, k =>
    if k % 2 = 1 then powMod a m f (k / 2) * powMod a m f (k / 2) % m * a % m
    else powMod a m f (k / 2) * powMod a m f (k / 2) % m

theorem powMod_eq (a m : Nat) : ∀ f k, k < 2 ^ f → powMod a m f k = a ^ k % m := by
  intro f
  induction f with
  | zero => intro k hk; simp at hk; simp [powMod, hk]
  | succ f ih =>
    intro k hk
    have h := ih (k / 2) (by rw [pow_succ] at hk; omega)
    unfold powMod
    rw [h, ← Nat.mul_mod, ← pow_add]
    split_ifs with h1
    · rw [Nat.mod_mul_mod, ← pow_succ]; congr 2; omega
    · congr 2; omega

theorem pratt {p a : Nat} (fs : List (Nat × Nat)) (hp : 1 < p)
    (hprod : (fs.map fun f => f.1 ^ f.2).prod = p - 1)
    (hprime : ∀ f ∈ fs, f.1.Prime) (hlt : p < 2 ^ 256) (h1 : powMod a p 256 (p - 1) = 1)
    (h2 : ∀ f ∈ fs, powMod a p 256 ((p - 1) / f.1) ≠ 1) : p.Prime := by
  have key : ∀ k : Nat, ((a : ZMod p) ^ k = 1 ↔ a ^ k % p = 1) := by
    intro k
    have : ((a : ZMod p) ^ k = 1) ↔ ((a ^ k : Nat) : ZMod p) = ((1 : Nat) : ZMod p) := by
      push_cast; rfl
    rw [this, ZMod.natCast_eq_natCast_iff', Nat.mod_eq_of_lt hp]
  rw [powMod_eq _ _ _ _ (by omega)] at h1
  refine lucas_primality p (a : ZMod p) ((key _).mpr h1) fun q hq hdvd => ?_
  rw [Ne, key]
  rw [← hprod] at hdvd
  obtain ⟨x, hx, hqx⟩ := (Prime.dvd_prod_iff hq.prime).mp hdvd
  obtain ⟨f, hf, rfl⟩ := List.mem_map.mp hx
  have : q = f.1 := (Nat.prime_dvd_prime_iff_eq hq (hprime f hf)).mp (hq.dvd_of_dvd_pow hqx)
  rw [this]
  have hle := Nat.div_le_self (p - 1) f.1
  rw [← powMod_eq _ _ 256 _ (by omega)]
  exact h2 f hf

theorem m31_prime : Nat.Prime 2147483647 := by
  refine pratt (a := 7) [(2, 1), (3, 2), (7, 1), (11, 1), (31, 1), (151, 1), (331, 1)] (by norm_num) (by norm_num) ?_ (by norm_num)
    (by decide +kernel) (by decide +kernel)
  · simp only [List.forall_mem_cons, List.not_mem_nil, false_imp_iff, implies_true, and_true]
    exact ⟨(by norm_num : Nat.Prime 2),
      (by norm_num : Nat.Prime 3),
      (by norm_num : Nat.Prime 7),
      (by norm_num : Nat.Prime 11),
      (by norm_num : Nat.Prime 31),
      (by norm_num : Nat.Prime 151),
      (by norm_num : Nat.Prime 331)⟩

theorem prime_65537 : Nat.Prime 65537 := by
  refine pratt (a := 3) [(2, 16)] (by norm_num) (by norm_num) ?_ (by norm_num)
    (by decide +kernel) (by decide +kernel)
  · simp only [List.forall_mem_cons, List.not_mem_nil, false_imp_iff, implies_true, and_true]
    exact (by norm_num : Nat.Prime 2)

theorem goldilocks_prime : Nat.Prime 18446744069414584321 := by
  refine pratt (a := 7) [(2, 32), (3, 1), (5, 1), (17, 1), (257, 1), (65537, 1)] (by norm_num) (by norm_num) ?_ (by norm_num)
    (by decide +kernel) (by decide +kernel)
  · simp only [List.forall_mem_cons, List.not_mem_nil, false_imp_iff, implies_true, and_true]
    exact ⟨(by norm_num : Nat.Prime 2),
      (by norm_num : Nat.Prime 3),
      (by norm_num : Nat.Prime 5),
      (by norm_num : Nat.Prime 17),
      (by norm_num : Nat.Prime 257),
      prime_65537⟩

theorem prime_5501 : Nat.Prime 5501 := by
  refine pratt (a := 2) [(2, 2), (5, 3), (11, 1)] (by norm_num) (by norm_num) ?_ (by norm_num)
    (by decide +kernel) (by decide +kernel)
  · simp only [List.forall_mem_cons, List.not_mem_nil, false_imp_iff, implies_true, and_true]
    exact ⟨(by norm_num : Nat.Prime 2),
      (by norm_num : Nat.Prime 5),
      (by norm_num : Nat.Prime 11)⟩

theorem prime_11003 : Nat.Prime 11003 := by
  refine pratt (a := 2) [(2, 1), (5501, 1)] (by norm_num) (by norm_num) ?_ (by norm_num)
    (by decide +kernel) (by decide +kernel)
  · simp only [List.forall_mem_cons, List.not_mem_nil, false_imp_iff, implies_true, and_true]
    exact ⟨(by norm_num : Nat.Prime 2),
      prime_5501⟩

theorem prime_237073 : Nat.Prime 237073 := by
  refine pratt (a := 15) [(2, 4), (3, 1), (11, 1), (449, 1)] (by norm_num) (by norm_num) ?_ (by norm_num)
    (by decide +kernel) (by decide +kernel)
  · simp only [List.forall_mem_cons, List.not_mem_nil, false_imp_iff, implies_true, and_true]
    exact ⟨(by norm_num : Nat.Prime 2),
      (by norm_num : Nat.Prime 3),
      (by norm_num : Nat.Prime 11),
      (by norm_num : Nat.Prime 449)⟩

theorem prime_4999 : Nat.Prime 4999 := by
  refine pratt (a := 3) [(2, 1), (3, 1), (7, 2), (17, 1)] (by norm_num) (by norm_num) ?_ (by norm_num)
    (by decide +kernel) (by decide +kernel)
  · simp only [List.forall_mem_cons, List.not_mem_nil, false_imp_iff, implies_true, and_true]
    exact ⟨(by norm_num : Nat.Prime 2),
      (by norm_num : Nat.Prime 3),
      (by norm_num : Nat.Prime 7),
      (by norm_num : Nat.Prime 17)⟩

theorem prime_3691 : Nat.Prime 3691 := by
  refine pratt (a := 2) [(2, 1), (3, 2), (5, 1), (41, 1)] (by norm_num) (by norm_num) ?_ (by norm_num)
    (by decide +kernel) (by decide +kernel)
  · simp only [List.forall_mem_cons, List.not_mem_nil, false_imp_iff, implies_true, and_true]
    exact ⟨(by norm_num : Nat.Prime 2),
      (by norm_num : Nat.Prime 3),
      (by norm_num : Nat.Prime 5),
      (by norm_num : Nat.Prime 41)⟩

theorem prime_405928799 : Nat.Prime 405928799 := by
  refine pratt (a := 22) [(2, 1), (11, 1), (3691, 1), (4999, 1)] (by norm_num) (by norm_num) ?_ (by norm_num)
    (by decide +kernel) (by decide +kernel)
  · simp only [List.forall_mem_cons, List.not_mem_nil, false_imp_iff, implies_true, and_true]
    exact ⟨(by norm_num : Nat.Prime 2),
      (by norm_num : Nat.Prime 11),
      prime_3691,
      prime_4999⟩

theorem prime_93001 : Nat.Prime 93001 := by
  refine pratt (a := 14) [(2, 3), (3, 1), (5, 3), (31, 1)] (by norm_num) (by norm_num) ?_ (by norm_num)
    (by decide +kernel) (by decide +kernel)
  · simp only [List.forall_mem_cons, List.not_mem_nil, false_imp_iff, implies_true, and_true]
    exact ⟨(by norm_num : Nat.Prime 2),
      (by norm_num : Nat.Prime 3),
      (by norm_num : Nat.Prime 5),
      (by norm_num : Nat.Prime 31)⟩

theorem prime_12048837557 : Nat.Prime 12048837557 := by
  refine pratt (a := 2) [(2, 2), (7, 2), (661, 1), (93001, 1)] (by norm_num) (by norm_num) ?_ (by norm_num)
    (by decide +kernel) (by decide +kernel)
  · simp only [List.forall_mem_cons, List.not_mem_nil, false_imp_iff, implies_true, and_true]
    exact ⟨(by norm_num : Nat.Prime 2),
      (by norm_num : Nat.Prime 7),
      (by norm_num : Nat.Prime 661),
      prime_93001⟩

theorem prime_5156902474397 : Nat.Prime 5156902474397 := by
  refine pratt (a := 2) [(2, 2), (107, 1), (12048837557, 1)] (by norm_num) (by norm_num) ?_ (by norm_num)
    (by decide +kernel) (by decide +kernel)
  · simp only [List.forall_mem_cons, List.not_mem_nil, false_imp_iff, implies_true, and_true]
    exact ⟨(by norm_num : Nat.Prime 2),
      (by norm_num : Nat.Prime 107),
      prime_12048837557⟩

theorem prime_1670836401704629 : Nat.Prime 1670836401704629 := by
  refine pratt (a := 2) [(2, 2), (3, 4), (5156902474397, 1)] (by norm_num) (by norm_num) ?_ (by norm_num)
    (by decide +kernel) (by decide +kernel)
  · simp only [List.forall_mem_cons, List.not_mem_nil, false_imp_iff, implies_true, and_true]
    exact ⟨(by norm_num : Nat.Prime 2),
      (by norm_num : Nat.Prime 3),
      prime_5156902474397⟩

theorem prime_20963 : Nat.Prime 20963 := by
  refine pratt (a := 2) [(2, 1), (47, 1), (223, 1)] (by norm_num) (by norm_num) ?_ (by norm_num)
    (by decide +kernel) (by decide +kernel)
  · simp only [List.forall_mem_cons, List.not_mem_nil, false_imp_iff, implies_true, and_true]
    exact ⟨(by norm_num : Nat.Prime 2),
      (by norm_num : Nat.Prime 47),
      (by norm_num : Nat.Prime 223)⟩

theorem prime_41927 : Nat.Prime 41927 := by
  refine pratt (a := 5) [(2, 1), (20963, 1)] (by norm_num) (by norm_num) ?_ (by norm_num)
    (by decide +kernel) (by decide +kernel)
  · simp only [List.forall_mem_cons, List.not_mem_nil, false_imp_iff, implies_true, and_true]
    exact ⟨(by norm_num : Nat.Prime 2),
      prime_20963⟩

theorem prime_1593227 : Nat.Prime 1593227 := by
  refine pratt (a := 2) [(2, 1), (19, 1), (41927, 1)] (by norm_num) (by norm_num) ?_ (by norm_num)
    (by decide +kernel) (by decide +kernel)
  · simp only [List.forall_mem_cons, List.not_mem_nil, false_imp_iff, implies_true, and_true]
    exact ⟨(by norm_num : Nat.Prime 2),
      (by norm_num : Nat.Prime 19),
      prime_41927⟩

theorem prime_1637 : Nat.Prime 1637 := by
  refine pratt (a := 2) [(2, 2), (409, 1)] (by norm_num) (by norm_num) ?_ (by norm_num)
    (by decide +kernel) (by decide +kernel)
  · simp only [List.forall_mem_cons, List.not_mem_nil, false_imp_iff, implies_true, and_true]
    exact ⟨(by norm_num : Nat.Prime 2),
      (by norm_num : Nat.Prime 409)⟩

theorem prime_639533339 : Nat.Prime 639533339 := by
  refine pratt (a := 2) [(2, 1), (229, 1), (853, 1), (1637, 1)] (by norm_num) (by norm_num) ?_ (by norm_num)
    (by decide +kernel) (by decide +kernel)
  · simp only [List.forall_mem_cons, List.not_mem_nil, false_imp_iff, implies_true, and_true]
    exact ⟨(by norm_num : Nat.Prime 2),
      (by norm_num : Nat.Prime 229),
      (by norm_num : Nat.Prime 853),
      prime_1637⟩

theorem prime_65865678001877903 : Nat.Prime 65865678001877903 := by
  refine pratt (a := 5) [(2, 1), (83, 1), (379, 1), (1637, 1), (639533339, 1)] (by norm_num) (by norm_num) ?_ (by norm_num)
    (by decide +kernel) (by decide +kernel)
  · simp only [List.forall_mem_cons, List.not_mem_nil, false_imp_iff, implies_true, and_true]
    exact ⟨(by norm_num : Nat.Prime 2),
      (by norm_num : Nat.Prime 83),
      (by norm_num : Nat.Prime 379),
      prime_1637,
      prime_639533339⟩

theorem prime_13818364434197438864469338081 : Nat.Prime 13818364434197438864469338081 := by
  refine pratt (a := 3) [(2, 5), (5, 1), (823, 1), (1593227, 1), (65865678001877903, 1)] (by norm_num) (by norm_num) ?_ (by norm_num)
    (by decide +kernel) (by decide +kernel)
  · simp only [List.forall_mem_cons, List.not_mem_nil, false_imp_iff, implies_true, and_true]
    exact ⟨(by norm_num : Nat.Prime 2),
      (by norm_num : Nat.Prime 5),
      (by norm_num : Nat.Prime 823),
      prime_1593227,
      prime_65865678001877903⟩

theorem bn254_prime : Nat.Prime 21888242871839275222246405745257275088548364400416034343698204186575808495617 := by
  refine pratt (a := 5) [(2, 28), (3, 2), (13, 1), (29, 1), (983, 1), (11003, 1), (237073, 1), (405928799, 1), (1670836401704629, 1), (13818364434197438864469338081, 1)] (by norm_num) (by norm_num) ?_ (by norm_num)
    (by decide +kernel) (by decide +kernel)
  · simp only [List.forall_mem_cons, List.not_mem_nil, false_imp_iff, implies_true, and_true]
    exact ⟨(by norm_num : Nat.Prime 2),
      (by norm_num : Nat.Prime 3),
      (by norm_num : Nat.Prime 13),
      (by norm_num : Nat.Prime 29),
      (by norm_num : Nat.Prime 983),
      prime_11003,
      prime_237073,
      prime_405928799,
      prime_1670836401704629,
      prime_13818364434197438864469338081⟩

/-- The Mersenne-31 modulus, /repo/prover/arith/mersenne31/src/m31.rs. -/
def m31P : Nat := 2147483647
/-- The Goldilocks modulus, /repo/prover/arith/goldilocks/src/goldilocks.rs. -/
def goldP : Nat := 18446744069414584321
/-- The BN254 scalar field modulus (`halo2curves::bn256::Fr`),
/repo/prover/arith/src/bn254.rs. -/
def bn254P : Nat := 21888242871839275222246405745257275088548364400416034343698204186575808495617

instance : Fact m31P.Prime := ⟨m31_prime⟩
instance : Fact goldP.Prime := ⟨goldilocks_prime⟩
instance : Fact bn254P.Prime := ⟨bn254_prime⟩

end JST
