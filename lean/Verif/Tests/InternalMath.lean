import Verif.Model.InternalMath
/-! The unit tests of `/repo/src/math/internal_math.rs:238-459`, run on the model. `test_is_prime_sieve` is cut
from `10^6` to `300`; the loop over divisors of `test_primitive_root` is left out. -/
namespace Verif.Tests
open Res Model

/-- `test_safe_mod`. -/
example : safeMod 0 3 = ok 0 ∧
    safeMod 1 3 = ok 1 ∧
    safeMod 2 3 = ok 2 ∧
    safeMod 3 3 = ok 0 ∧
    safeMod 4 3 = ok 1 ∧
    safeMod 5 3 = ok 2 ∧
    safeMod 73 11 = ok 7 ∧
    safeMod 2306249155046129918 6620319213327 = ok 1374210749525 ∧
    safeMod (-1) 3 = ok 2 ∧
    safeMod (-2) 3 = ok 1 ∧
    safeMod (-3) 3 = ok 0 ∧
    safeMod (-4) 3 = ok 2 ∧
    safeMod (-5) 3 = ok 1 ∧
    safeMod (-7170500492396019511) 777567337 = ok 333221848 := by
  decide +kernel

/-- `test_barrett`. -/
example : (do
      let b ← Barrett.new 7
      ok (b.umod, b.mul 2 3, b.mul 4 6, b.mul 5 0)) = ok (7, ok 6, ok 3, ok 0) ∧
    (do
      let b ← Barrett.new 998244353
      ok (b.umod, b.mul 2 3, b.mul 3141592 653589, b.mul 323846264 338327950)) =
      ok (998244353, ok 6, ok 919583920, ok 568012980) ∧
    (do
      let b ← Barrett.new 2147483647
      ok (b.umod, b.mul 1073741824 2147483645)) = ok (2147483647, ok 2147483646) := by
  decide +kernel

/-- `test_pow_mod`. -/
example : powMod 0 0 1 = ok 0 ∧
    powMod 0 0 3 = ok 1 ∧
    powMod 0 0 723 = ok 1 ∧
    powMod 0 0 998244353 = ok 1 ∧
    powMod 0 0 (2 ^ 31 - 1) = ok 1 ∧
    powMod 0 1 1 = ok 0 ∧
    powMod 0 1 3 = ok 0 ∧
    powMod 0 1 723 = ok 0 ∧
    powMod 0 1 998244353 = ok 0 ∧
    powMod 0 1 (2 ^ 31 - 1) = ok 0 ∧
    powMod 0 (2 ^ 63 - 1) 1 = ok 0 ∧
    powMod 0 (2 ^ 63 - 1) 3 = ok 0 ∧
    powMod 0 (2 ^ 63 - 1) 723 = ok 0 ∧
    powMod 0 (2 ^ 63 - 1) 998244353 = ok 0 ∧
    powMod 0 (2 ^ 63 - 1) (2 ^ 31 - 1) = ok 0 ∧
    powMod 1 0 1 = ok 0 ∧
    powMod 1 0 3 = ok 1 ∧
    powMod 1 0 723 = ok 1 ∧
    powMod 1 0 998244353 = ok 1 ∧
    powMod 1 0 (2 ^ 31 - 1) = ok 1 ∧
    powMod 1 1 1 = ok 0 ∧
    powMod 1 1 3 = ok 1 ∧
    powMod 1 1 723 = ok 1 ∧
    powMod 1 1 998244353 = ok 1 ∧
    powMod 1 1 (2 ^ 31 - 1) = ok 1 ∧
    powMod 1 (2 ^ 63 - 1) 1 = ok 0 ∧
    powMod 1 (2 ^ 63 - 1) 3 = ok 1 ∧
    powMod 1 (2 ^ 63 - 1) 723 = ok 1 ∧
    powMod 1 (2 ^ 63 - 1) 998244353 = ok 1 ∧
    powMod 1 (2 ^ 63 - 1) (2 ^ 31 - 1) = ok 1 ∧
    powMod (2 ^ 63 - 1) 0 1 = ok 0 ∧
    powMod (2 ^ 63 - 1) 0 3 = ok 1 ∧
    powMod (2 ^ 63 - 1) 0 723 = ok 1 ∧
    powMod (2 ^ 63 - 1) 0 998244353 = ok 1 ∧
    powMod (2 ^ 63 - 1) 0 (2 ^ 31 - 1) = ok 1 ∧
    powMod (2 ^ 63 - 1) (2 ^ 63 - 1) 1 = ok 0 ∧
    powMod (2 ^ 63 - 1) (2 ^ 63 - 1) 3 = ok 1 ∧
    powMod (2 ^ 63 - 1) (2 ^ 63 - 1) 723 = ok 640 ∧
    powMod (2 ^ 63 - 1) (2 ^ 63 - 1) 998244353 = ok 683296792 ∧
    powMod (2 ^ 63 - 1) (2 ^ 63 - 1) (2 ^ 31 - 1) = ok 1 ∧
    powMod 2 3 1000000007 = ok 8 ∧
    powMod 5 7 1000000007 = ok 78125 ∧
    powMod 123 456 1000000007 = ok 565291922 := by
  decide +kernel

/-- `test_is_prime`. -/
example : isPrime 0 = ok false ∧
    isPrime 1 = ok false ∧
    isPrime 2 = ok true ∧
    isPrime 3 = ok true ∧
    isPrime 4 = ok false ∧
    isPrime 5 = ok true ∧
    isPrime 6 = ok false ∧
    isPrime 7 = ok true ∧
    isPrime 8 = ok false ∧
    isPrime 9 = ok false ∧
    isPrime 57 = ok false ∧
    isPrime 58 = ok false ∧
    isPrime 59 = ok true ∧
    isPrime 60 = ok false ∧
    isPrime 61 = ok true ∧
    isPrime 62 = ok false ∧
    isPrime 701928443 = ok false ∧
    isPrime 998244353 = ok true ∧
    isPrime 1000000000 = ok false ∧
    isPrime 1000000007 = ok true ∧
    isPrime (2 ^ 31 - 1) = ok true := by
  decide +kernel

/-- `test_is_prime_sieve`, with trial division in place of the sieve. -/
example : ((List.range 300).all fun n =>
    isPrime n = ok (decide (2 ≤ n) && (List.range' 2 (n - 2)).all fun d => n % d ≠ 0)) = true := by
  decide +kernel

/-- `test_inv_gcd`. -/
example : ([(0, 1, 1), (0, 4, 4), (0, 7, 7), (2, 3, 1), (-2, 3, 1), (4, 6, 2), (-4, 6, 2), (13, 23, 1), (57, 81, 3),
    (12345, 67890, 15), (-3141592 * 6535, 3141592 * 8979, 3141592), (2 ^ 63 - 1, 2 ^ 63 - 1, 2 ^ 63 - 1),
    (-2 ^ 63, 2 ^ 63 - 1, 1)].all fun ((a, b, g) : Int × Int × Int) =>
    (fun r => decide (r.1 = g ∧ ((r.2 * a).tmod b + b).tmod b = g.tmod b ∧ 0 ≤ r.2 ∧ r.2 < b / g + (if a.tmod b = 0 then 1 else 0))) <$>
      invGcd a b = ok true) = true := by
  decide +kernel

/-- `test_primitive_root`: the roots, and that they have the full order for the small primes. -/
example : primitiveRoot 2 = ok 1 ∧ primitiveRoot 3 = ok 2 ∧ primitiveRoot 5 = ok 2 ∧ primitiveRoot 7 = ok 3 ∧
    primitiveRoot 233 = ok 3 ∧ primitiveRoot 200003 = ok 2 ∧ primitiveRoot 998244353 = ok 3 ∧
    primitiveRoot 1000000007 = ok 5 ∧ primitiveRoot (2 ^ 31 - 1) = ok 7 := by
  decide +kernel

/-- `test_primitive_root`: the powers of the root. -/
example : ([3, 5, 7, 11, 13, 17, 31, 41, 43, 71, 233].all fun (p : Int) =>
    (do
      let g ← primitiveRoot p
      let one ← powMod g (p - 1) p
      ok (decide (one = 1 ∧ g ≠ 1) && (List.range' 1 (p.toNat - 2)).all fun e => powMod g e p ≠ ok 1)) = ok true) = true := by
  decide +kernel

/-- The constants of the table. -/
example : primitiveRoot 167772161 = ok 3 ∧ primitiveRoot 469762049 = ok 3 ∧ primitiveRoot 754974721 = ok 11 ∧
    powMod 3 ((167772161 - 1) / 2) 167772161 ≠ ok 1 ∧ powMod 3 ((167772161 - 1) / 5) 167772161 ≠ ok 1 ∧
    powMod 11 ((754974721 - 1) / 2) 754974721 ≠ ok 1 ∧ powMod 11 ((754974721 - 1) / 3) 754974721 ≠ ok 1 ∧
    powMod 11 ((754974721 - 1) / 5) 754974721 ≠ ok 1 := by
  decide +kernel

/-- Barrett multiplication for all small moduli. -/
example : ((List.range 14).drop 1).all (fun m => (List.range m).all fun a => (List.range m).all fun b =>
    (do let bt ← Barrett.new m; bt.mul a b) = ok (a * b % m)) = true := by decide +kernel

/-- Composites that pass two of the three bases; a prime `m` with `m - 1 = 2 * 3 * 5 * 11^2`. -/
example : isPrime 314821 = ok false ∧ isPrime 916327 = ok false ∧ isPrime 79381 = ok false ∧
    primitiveRoot 3631 = ok 15 := by decide +kernel

/-- Multiples of the modulus have no inverse. -/
example : invGcd 0 7 = ok (7, 0) ∧ invGcd 14 7 = ok (7, 0) ∧ invGcd 0 1 = ok (1, 0) := by decide +kernel

end Verif.Tests
