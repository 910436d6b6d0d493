import Verif.Common
/-!
Model of /repo/sparta/sparta/utils/MathUtils.hpp. Machine integers are `BitVec w`.
Not modelled: the `double` specialisation of `floor_log2`, `approximatelyEqual`, random helpers.
-/
namespace Sparta.MathUtils

/-- MathUtils.hpp 42-47 -/
def index32 : List Nat :=
  [0, 1, 28, 2, 29, 14, 24, 3, 30, 22, 20, 15, 25, 17, 4, 8,
   31, 27, 13, 23, 21, 19, 16, 7, 26, 12, 18, 6, 11, 5, 10, 9]

/-- MathUtils.hpp 61-70, the same table again at 124-132 -/
def index64 : List Nat :=
  [63, 0, 58, 1, 59, 47, 53, 2, 60, 39, 48, 27, 54, 33, 42, 3,
   61, 51, 37, 40, 49, 18, 28, 20, 55, 30, 34, 11, 43, 14, 22, 4,
   62, 57, 46, 52, 38, 26, 32, 41, 50, 36, 17, 19, 29, 10, 13, 21,
   56, 45, 25, 31, 35, 16, 9, 12, 44, 24, 15, 8, 23, 7, 6, 5]

/-- MathUtils.hpp 35-53 `log2_lsb<uint32_t>`. The index has 5 bits, so it is always inside the table. -/
def log2Lsb32 (x : BitVec 32) : Nat :=
  index32.getD (((x &&& -x) * 0x077CB531#32) >>> 27).toNat 0

/-- MathUtils.hpp 55-75 `log2_lsb<uint64_t>`. The index has 6 bits, so it is always inside the table. -/
def log2Lsb64 (x : BitVec 64) : Nat :=
  index64.getD (((x &&& -x) * 0x07EDD5E59A4E28C2#64) >>> 58).toNat 0

/-- MathUtils.hpp 77-90: the iterative `floor_log2<T>` for an unsigned value -/
def floorLog2Iter (x : Nat) : Nat :=
  if x >>> 1 = 0 then 0 else floorLog2Iter (x >>> 1) + 1
termination_by x
decreasing_by
  simp only [Nat.shiftRight_eq_div_pow, Nat.pow_one] at *
  omega

/-- MathUtils.hpp 111-115 -/
def lut32 : List Nat :=
  [0, 9, 1, 10, 13, 21, 2, 29, 11, 14, 16, 18, 22, 25, 3, 30,
   8, 12, 20, 28, 15, 17, 24, 7, 19, 27, 23, 6, 26, 5, 4, 31]

/-- one line `x |= x >> n` of MathUtils.hpp 116-120, 134-139 -/
def smear {w : Nat} (x : BitVec w) (n : Nat) : BitVec w := x ||| (x >>> n)

/-- MathUtils.hpp 98-122 `floor_log2<uint32_t>` (the product is computed in 64 bits and truncated to 32,
which is multiplication modulo 2^32) -/
def floorLog2_32 (x : BitVec 32) : Nat :=
  if x = 0#32 then 0
  else
    let y := smear (smear (smear (smear (smear x 1) 2) 4) 8) 16
    lut32.getD ((y * 0x07C4ACDD#32) >>> 27).toNat 0

/-- MathUtils.hpp 124-151 `floor_log2<uint64_t>` -/
def floorLog2_64 (x : BitVec 64) : Nat :=
  if x = 0#64 then 0
  else
    let y := smear (smear (smear (smear (smear (smear x 1) 2) 4) 8) 16) 32
    index64.getD (((y - (y >>> 1)) * 0x07EDD5E59A4E28C2#64) >>> 58).toNat 0

/-- MathUtils.hpp 153-162 `ceil_log2` -/
def ceilLog2 (x : BitVec 64) : Nat :=
  let y := floorLog2_64 x
  if (1#64 <<< y) ≠ x then y + 1 else y

/-- MathUtils.hpp 164-167 `pow2`; a shift by 64 or more is undefined behaviour (`none`). -/
def pow2 (x : BitVec 64) : Option (BitVec 64) :=
  if x.toNat < 64 then some (1#64 <<< x.toNat) else none

/-- MathUtils.hpp 169-172 `is_power_of_2` -/
def isPowerOf2 (x : BitVec 64) : Bool := x != 0#64 && (x &&& (x - 1#64)) == 0#64

/-- `64 - __builtin_clzll(x)` for non-zero `x`: the number of significant bits -/
def sigBits (x : BitVec 64) : Nat := Nat.log2 x.toNat + 1

/-- MathUtils.hpp 174-180 `next_power_of_2`; a shift by 64 is undefined behaviour (`none`). -/
def nextPowerOf2 (v : BitVec 64) : Option (BitVec 64) :=
  if v.toNat < 2 then some 1#64
  else if sigBits (v - 1#64) < 64 then some (1#64 <<< sigBits (v - 1#64)) else none

/-- MathUtils.hpp 182-185 `ones`; a shift by 64 or more is undefined behaviour (`none`). -/
def ones (x : BitVec 64) : Option (BitVec 64) :=
  if x.toNat < 64 then some ((1#64 <<< x.toNat) - 1#64) else none

/-- MathUtils.hpp 198-220 `abs<uintN_t>`: arithmetic shift of the reinterpreted value gives the mask. -/
def abs {w : Nat} (x : BitVec w) : BitVec w :=
  let mask := x.sshiftRight (w - 1)
  (x + mask) ^^^ mask

/-- MathUtils.hpp 248-264 (281-297): the do-while loop of `gcd`; `none` = more than `fuel` iterations. -/
def gcdLoop {w : Nat} (lsb : BitVec w → Nat) : Nat → BitVec w → BitVec w → Option (BitVec w)
  | 0, _, _ => none
  | fuel + 1, u, v =>
    let v := v >>> lsb v
    let (u, v) := if u.toNat > v.toNat then (v, u) else (u, v)
    let v := v - u
    if v = 0#w then some u else gcdLoop lsb fuel u v

/-- MathUtils.hpp 231-266 (268-298) `gcd`; the bound on the number of iterations is `2^(w+1)`, so `none`
stands for a loop that never ends. -/
def gcd {w : Nat} (lsb : BitVec w → Nat) (u v : BitVec w) : Option (BitVec w) :=
  if u = 0#w ∨ v = 0#w then some (u ||| v)
  else
    let shift := lsb (u ||| v)
    let u := u >>> shift
    let u := u >>> lsb u
    let v := v >>> shift
    (gcdLoop lsb (2 ^ (w + 1)) u v).map fun (r : BitVec w) => r <<< shift

/-- MathUtils.hpp 236-266 -/
def gcd32 (u v : BitVec 32) : Option (BitVec 32) := gcd log2Lsb32 u v
/-- MathUtils.hpp 268-298 -/
def gcd64 (u v : BitVec 64) : Option (BitVec 64) := gcd log2Lsb64 u v

/-- MathUtils.hpp 306-330 `lcm`; division by zero is undefined behaviour (`none`). -/
def lcm {w : Nat} (gcd : BitVec w → BitVec w → Option (BitVec w)) (u v : BitVec w) : Option (BitVec w) :=
  if u = 1#w then some v
  else if v = 1#w then some u
  else (gcd u v).bind fun g => if g = 0#w then none else some (u / g * v)

/-- MathUtils.hpp 306-317 -/
def lcm32 (u v : BitVec 32) : Option (BitVec 32) := lcm gcd32 u v
/-- MathUtils.hpp 319-330 -/
def lcm64 (u v : BitVec 64) : Option (BitVec 64) := lcm gcd64 u v

/-- MathUtils.hpp 341-349: the loop of `safe_power` with `x` counting up to `e`; `none` = exception -/
def powLoop {w : Nat} (n : BitVec w) : Nat → BitVec w → Option (BitVec w)
  | 0, result => some result
  | k + 1, result =>
    let new := result * n
    if result.toNat > new.toNat then none else powLoop n k new

/-- MathUtils.hpp 332-352 `safe_power<T>` for an unsigned `T` of `w` bits (for `w = 16` the C++ product is
computed in `int` and may be undefined; the model wraps). -/
def safePower {w : Nat} (n e : BitVec w) : Option (BitVec w) :=
  if e = 0#w then some 1#w else powLoop n (e.toNat - 1) n

end Sparta.MathUtils
