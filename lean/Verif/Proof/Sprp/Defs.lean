/-!
# Search functions for the completeness of the strong test to the bases 2, 7, 61

Boolean functions whose value `true` shows that no composite odd number below `2 ^ 31` is a strong
probable prime to the bases 2, 7 and 61. They are written for evaluation by the kernel: only recursors and
the `Nat` operations the kernel computes with, on arguments brought to literals by `pos%`. They are not part
of the model; what they mean is proved in `Verif.Proof.Sprp.Sound`.
-/
namespace Verif.Sprp

/-- Evaluate `n` to a literal; `false` if it is 0, otherwise go on with `x` the predecessor. -/
macro "pos% " n:term " as " x:ident " => " b:term : term =>
  `(@Nat.rec (fun _ => Bool) false (fun $x _ => $b) $n)

/-- Conditional on a `Bool`. -/
macro "if% " c:term " then " a:term " else " b:term : term =>
  `(@Bool.rec (fun _ => Bool) $b $a $c)

/-- `a ^ e % n`, by 8-bit digits of the exponent. -/
noncomputable def pw (a e n : Nat) : Nat :=
  Nat.mod (Nat.mul (Nat.pow
  (Nat.mod (Nat.mul (Nat.pow
  (Nat.mod (Nat.mul (Nat.pow
  (Nat.mod (Nat.pow a (Nat.shiftRight e (nat_lit 24))) n)
   (nat_lit 256)) (Nat.pow a (Nat.land (Nat.shiftRight e (nat_lit 16)) (nat_lit 255)))) n)
   (nat_lit 256)) (Nat.pow a (Nat.land (Nat.shiftRight e (nat_lit 8)) (nat_lit 255)))) n)
   (nat_lit 256)) (Nat.pow a (Nat.land e (nat_lit 255)))) n

/-- `2 ^ e % n`, with a longer first digit. -/
noncomputable def pw2 (e n : Nat) : Nat :=
  Nat.mod (Nat.mul (Nat.pow
  (Nat.mod (Nat.mul (Nat.pow
  (Nat.mod (Nat.pow (nat_lit 2) (Nat.shiftRight e (nat_lit 16))) n)
   (nat_lit 256)) (Nat.pow (nat_lit 2) (Nat.land (Nat.shiftRight e (nat_lit 8)) (nat_lit 255)))) n)
   (nat_lit 256)) (Nat.pow (nat_lit 2) (Nat.land e (nat_lit 255)))) n

/-- `p k` for all `k < n`. -/
noncomputable def allBelow (p : Nat → Bool) (n : Nat) : Bool :=
  @Nat.rec (fun _ => Bool) true (fun k ih => if% p k then ih else false) n

/-- `n` fails the strong test with base `a`. -/
noncomputable def strongRej (a n : Nat) : Bool :=
  pos% (Nat.pred n) as e =>
  pos% (Nat.div (Nat.succ e) (Nat.gcd (Nat.succ e) (nat_lit 2147483648))) as d =>
  if% (Nat.beq (pw a (Nat.succ d) n) (nat_lit 1)) then false else
  allBelow (fun r => if% (Nat.beq (pw a (Nat.mul (Nat.pow (nat_lit 2) r) (Nat.succ d)) n) (Nat.succ e))
      then false else true)
    (Nat.log2 (Nat.div (Nat.succ e) (Nat.succ d)))

/-- `n` fails one of the tests. -/
noncomputable def rej (n : Nat) : Bool :=
  if% (Nat.beq (pw2 (Nat.pred n) n) (nat_lit 1)) then
    if% (strongRej (nat_lit 2) n) then true else
    if% (strongRej (nat_lit 7) n) then true else
    strongRej (nat_lit 61) n
  else true

/-- All of `n, n + s, n + 2 s, …` below `2 ^ 31` are rejected. -/
noncomputable def enum (s fuel n : Nat) : Bool :=
  @Nat.rec (fun _ => Nat → Bool) (fun _ => false) (fun _ ih n =>
    pos% n as n =>
    if% (Nat.ble (nat_lit 2147483648) (Nat.succ n)) then true else
    if% (rej (Nat.succ n)) then ih (Nat.add (Nat.succ n) s) else false) fuel n

/-- The inverse of `a` modulo `L`, by Euclid's algorithm; the result is checked where it is used. -/
noncomputable def inv (L fuel a b s t : Nat) : Nat :=
  @Nat.rec (fun _ => Nat → Nat → Nat → Nat → Nat) (fun _ _ _ _ => (nat_lit 0)) (fun _ ih a b s t =>
    @Nat.rec (fun _ => Nat) s (fun b _ =>
      @Nat.rec (fun _ => Nat) (nat_lit 0) (fun a _ =>
        @Nat.rec (fun _ => Nat)
          (ih (Nat.succ b) (Nat.mod (Nat.succ a) (Nat.succ b)) (nat_lit 0) s)
          (fun t _ =>
          ih (Nat.succ b) (Nat.mod (Nat.succ a) (Nat.succ b)) (Nat.succ t)
            (Nat.mod (Nat.add s (Nat.mul (Nat.sub L (Nat.mod (Nat.div (Nat.succ a) (Nat.succ b)) L))
              (Nat.succ t))) L)) t) a) b) fuel a b s t

/-- Entry `i` of the table: 32 bits, a prime in the lower half and an order in the upper half. -/
noncomputable def tv (tab i : Nat) : Nat :=
  Nat.mod (Nat.shiftRight tab (Nat.mul (nat_lit 32) i)) (nat_lit 4294967296)

/-- No admissible `n` with `c ∣ n`, `L ∣ n - 1`, where `n / c` has only primes of the table before `i`. -/
noncomputable def dfs (tab T d c L i : Nat) : Bool :=
  @Nat.rec (fun _ => Nat → Nat → Nat → Bool) (fun _ _ _ => false) (fun _ ih c L i =>
    pos% c as c => pos% L as L =>
    if% (Nat.beq (Nat.gcd (Nat.succ c) (Nat.succ L)) (nat_lit 1)) then
      if% (Nat.ble (Nat.mul T (Nat.mul (Nat.succ c) (Nat.succ L))) (nat_lit 2147483647)) then
        if% (rej (Nat.succ c)) then
          allBelow (fun j => pos% (tv tab j) as v =>
              ih (Nat.mul (Nat.succ c) (Nat.mod (Nat.succ v) (nat_lit 65536)))
                (Nat.div (Nat.mul (Nat.succ L) (Nat.shiftRight (Nat.succ v) (nat_lit 16)))
                  (Nat.gcd (Nat.succ L) (Nat.shiftRight (Nat.succ v) (nat_lit 16))))
                j) i
        else false
      else
        pos% (inv (Nat.succ L) (nat_lit 40) (Nat.mod (Nat.succ c) (Nat.succ L)) (Nat.succ L)
            (nat_lit 1) (nat_lit 0)) as m =>
        if% (Nat.ble m L) then
          if% (Nat.beq (Nat.mod (Nat.mul (Nat.succ c) (Nat.succ m)) (Nat.succ L)) (nat_lit 1)) then
            pos% (Nat.mul (Nat.succ c) (Nat.succ L)) as s =>
            enum (Nat.succ s) (Nat.succ (Nat.succ T)) (Nat.mul (Nat.succ c) (Nat.succ m))
          else false
        else false
    else true) d c L i

/-- No admissible composite `n` with largest prime the `i`th of the table. -/
noncomputable def root (tab T i : Nat) : Bool :=
  pos% (tv tab i) as v =>
  pos% (Nat.mod (Nat.succ v) (nat_lit 65536)) as c =>
  pos% (Nat.div (Nat.mul (nat_lit 2) (Nat.shiftRight (Nat.succ v) (nat_lit 16)))
      (Nat.gcd (nat_lit 2) (Nat.shiftRight (Nat.succ v) (nat_lit 16)))) as L =>
  if% (Nat.ble (Nat.mul T (Nat.mul (Nat.succ c) (Nat.succ L))) (nat_lit 2147483647)) then
    allBelow (fun j => pos% (tv tab j) as v =>
        dfs tab T (nat_lit 12) (Nat.mul (Nat.succ c) (Nat.mod (Nat.succ v) (nat_lit 65536)))
          (Nat.div (Nat.mul (Nat.succ L) (Nat.shiftRight (Nat.succ v) (nat_lit 16)))
            (Nat.gcd (Nat.succ L) (Nat.shiftRight (Nat.succ v) (nat_lit 16))))
          j) i
  else
    if% (Nat.beq (Nat.mod (Nat.succ c) (Nat.succ L)) (nat_lit 1)) then
      pos% (Nat.mul (Nat.succ c) (Nat.succ L)) as s =>
      enum (Nat.succ s) (Nat.succ (Nat.succ T)) (Nat.add (Nat.succ c) (Nat.succ s))
    else false

/-- `root` for `n` indices from `lo`. -/
noncomputable def roots (tab T lo n : Nat) : Bool := allBelow (fun k => root tab T (Nat.add lo k)) n

/-- One of `2 ^ f`, `7 ^ f`, `61 ^ f` is not 1 modulo `p`. -/
noncomputable def ordNe (p f : Nat) : Bool :=
  if% (Nat.beq (pw (nat_lit 2) f p) (nat_lit 1)) then
    if% (Nat.beq (pw (nat_lit 7) f p) (nat_lit 1)) then
      if% (Nat.beq (pw (nat_lit 61) f p) (nat_lit 1)) then false else true
    else true
  else true

/-- `ordNe p (e / l)` for every prime factor `l` of `r`, all of which are at least `d`; trial division. -/
noncomputable def factors (p e fuel d r : Nat) : Bool :=
  @Nat.rec (fun _ => Nat → Nat → Bool) (fun _ _ => false) (fun _ ih d r =>
    pos% r as r => pos% d as d =>
    if% (Nat.ble (Nat.succ (Nat.succ r)) (Nat.mul (Nat.succ d) (Nat.succ d))) then
      if% (Nat.beq (Nat.succ r) (nat_lit 1)) then true else ordNe p (Nat.div e (Nat.succ r))
    else
      if% (Nat.beq (Nat.mod (Nat.succ r) (Nat.succ d)) (nat_lit 0)) then
        if% (ordNe p (Nat.div e (Nat.succ d))) then ih (Nat.succ d) (Nat.div (Nat.succ r) (Nat.succ d)) else false
      else ih (Nat.add (Nat.succ d) (nat_lit 2)) (Nat.succ r)) fuel d r

/-- Entry `(p, e)` of the table: `e` is the least common multiple of the orders of 2, 7, 61 modulo `p`, and not
both `2 ^ (p - 1)` and `7 ^ (p - 1)` are 1 modulo `p ^ 2`. -/
noncomputable def entry (tab i : Nat) : Bool :=
  pos% (tv tab i) as v =>
  pos% (Nat.mod (Nat.succ v) (nat_lit 65536)) as p =>
  pos% (Nat.shiftRight (Nat.succ v) (nat_lit 16)) as e =>
  if% (ordNe (Nat.succ p) (Nat.succ e)) then false else
  if% (Nat.beq (Nat.mod (Nat.div (Nat.succ e) (Nat.gcd (Nat.succ e) (nat_lit 65536))) (nat_lit 2)) (nat_lit 1)) then
    if% (factors (Nat.succ p) (Nat.succ e) (nat_lit 150) (nat_lit 3)
        (Nat.div (Nat.succ e) (Nat.gcd (Nat.succ e) (nat_lit 65536)))) then
      if% (if% (Nat.beq (Nat.mod (Nat.succ e) (nat_lit 2)) (nat_lit 0)) then
          ordNe (Nat.succ p) (Nat.div (Nat.succ e) (nat_lit 2)) else true) then
        if% (Nat.beq (pw (nat_lit 2) p (Nat.mul (Nat.succ p) (Nat.succ p))) (nat_lit 1)) then
          if% (Nat.beq (pw (nat_lit 7) p (Nat.mul (Nat.succ p) (Nat.succ p))) (nat_lit 1)) then false else true
        else true
      else false
    else false
  else false

/-- `entry` for `n` indices from `lo`. -/
noncomputable def entries (tab lo n : Nat) : Bool := allBelow (fun k => entry tab (Nat.add lo k)) n

/-- The prime of entry `i`. -/
noncomputable def tp (tab i : Nat) : Nat := Nat.mod (tv tab i) (nat_lit 65536)

/-- Entry `i + 1` is odd, and every second number between entries `i` and `i + 1` has a common factor with `pr`. -/
noncomputable def gap (tab pr i : Nat) : Bool :=
  pos% (tp tab i) as p =>
  pos% (tp tab (Nat.succ i)) as q =>
  if% (Nat.beq (Nat.mod (Nat.succ q) (nat_lit 2)) (nat_lit 1)) then
  allBelow (fun t => if% (Nat.beq (Nat.gcd (Nat.add (Nat.succ p) (Nat.mul (nat_lit 2) (Nat.succ t))) pr) (nat_lit 1))
      then false else true)
    (Nat.pred (Nat.div (Nat.sub q p) (nat_lit 2)))
  else false

/-- `gap` for `n` indices from `lo`. -/
noncomputable def gaps (tab pr lo n : Nat) : Bool := allBelow (fun k => gap tab pr (Nat.add lo k)) n

/-- `(lo + 1) (lo + 2) ⋯ (lo + 2 ^ d)`. -/
noncomputable def prodR (d lo : Nat) : Nat :=
  @Nat.rec (fun _ => Nat → Nat) (fun lo => Nat.succ lo) (fun d ih lo =>
    Nat.mul (ih lo) (ih (Nat.add lo (Nat.pow (nat_lit 2) d)))) d lo

/-- The primes of `n` entries from `lo` divide `P`. -/
noncomputable def divs (tab P lo n : Nat) : Bool :=
  allBelow (fun k => Nat.beq (Nat.mod P (tp tab (Nat.add lo k))) (nat_lit 0)) n

/-- `v` is 1, or it is below `2 ^ 32` and `c v` is rejected or at least `2 ^ 31`. -/
noncomputable def single (c v : Nat) : Bool :=
  if% (Nat.beq v (nat_lit 1)) then true else
  if% (Nat.ble v (nat_lit 4294967295)) then
    if% (Nat.ble (nat_lit 2147483648) (Nat.mul c v)) then true else
    pos% (Nat.mul c v) as n => rej (Nat.succ n)
  else false

/-- No admissible `c q` with `q > 65536` a prime factor of `D`. Common factors with `P`, the product of the
primes below 65536, are removed first; `c = 19033` is the one case where two primes are left. -/
noncomputable def strip (P c fuel D : Nat) : Bool :=
  @Nat.rec (fun _ => Nat → Bool) (fun _ => false) (fun _ ih D =>
    pos% D as D =>
    pos% (Nat.gcd (Nat.succ D) (Nat.mod P (Nat.succ D))) as h =>
    @Nat.rec (fun _ => Bool)
      (if% (Nat.beq c (nat_lit 19033)) then
        if% (Nat.beq (Nat.succ D) (nat_lit 8693398897)) then
          if% (single c (nat_lit 76129)) then single c (nat_lit 114193) else false
        else false
      else single c (Nat.succ D))
      (fun _ _ => ih (Nat.div (Nat.succ D) (Nat.succ h))) h) fuel D

/-- No admissible `(k + 1) q` with `q > 65536` prime. -/
noncomputable def large (P k : Nat) : Bool :=
  strip P (Nat.succ k) (nat_lit 20)
    (Nat.gcd (Nat.gcd (Nat.pred (Nat.pow (nat_lit 2) k)) (Nat.pred (Nat.pow (nat_lit 7) k)))
      (Nat.pred (Nat.pow (nat_lit 61) k)))

/-- `large` for the `n` even numbers from `2 (lo + 1)`. -/
noncomputable def larges (P lo n : Nat) : Bool :=
  allBelow (fun j => pos% (Nat.mul (nat_lit 2) (Nat.succ (Nat.add lo j))) as k => large P (Nat.succ k)) n

end Verif.Sprp
