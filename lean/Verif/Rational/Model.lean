import Verif.MathUtils.Model
/-!
Model of `sparta::utils::Rational<T>` (/repo/sparta/sparta/utils/Rational.hpp) for `T` = `uint32_t`, `uint64_t` (`gcd` and
`lcm` exist for these only).  `g` is the `gcd` of the type.  Not modelled: the conversion to double.
-/
namespace Sparta.Rational
open Sparta.MathUtils

/-- Rational.hpp 197-198 -/
structure Rat (w : Nat) where
  n : BitVec w
  d : BitVec w
deriving DecidableEq

variable {w : Nat}

/-- Rational.hpp 91-104 `simplify`; `none` if `gcd` does not end -/
def simplify (g : BitVec w → BitVec w → Option (BitVec w)) (r : Rat w) : Option (Rat w) :=
  if r.d ≠ 0#w then
    if r.n = 0#w then some ⟨r.n, 1#w⟩
    else (g r.n r.d).map fun k => if 1 < k.toNat then ⟨r.n / k, r.d / k⟩ else r
  else some r

/-- Rational.hpp 23-29: the constructor; `none` = `assert(denominator != 0)` -/
def make (g : BitVec w → BitVec w → Option (BitVec w)) (n d : BitVec w) : Option (Rat w) :=
  if d = 0#w then none else simplify g ⟨n, d⟩

/-- Rational.hpp 106-109 `*` -/
def mul (g : BitVec w → BitVec w → Option (BitVec w)) (a b : Rat w) : Option (Rat w) := make g (a.n * b.n) (a.d * b.d)

/-- Rational.hpp 111-117 `*=` -/
def mulAssign (g : BitVec w → BitVec w → Option (BitVec w)) (a b : Rat w) : Option (Rat w) :=
  simplify g ⟨a.n * b.n, a.d * b.d⟩

/-- Rational.hpp 119-122 `/` -/
def div (g : BitVec w → BitVec w → Option (BitVec w)) (a b : Rat w) : Option (Rat w) := make g (a.n * b.d) (a.d * b.n)

/-- Rational.hpp 124-136 `/=`; both branches compute this, also when the operand is the object itself -/
def divAssign (g : BitVec w → BitVec w → Option (BitVec w)) (a b : Rat w) : Option (Rat w) :=
  simplify g ⟨a.n * b.d, a.d * b.n⟩

/-- the numerator and denominator of Rational.hpp 140-145 and 150-156; `none` = division by zero -/
def addParts (g : BitVec w → BitVec w → Option (BitVec w)) (a b : Rat w) : Option (Rat w) :=
  if a.d ≠ b.d then
    if a.d = 0#w ∨ b.d = 0#w then none
    else (lcm g a.d b.d).map fun m => ⟨(a.n * m / a.d) + (b.n * m / b.d), m⟩
  else some ⟨a.n + b.n, a.d⟩

/-- Rational.hpp 138-146 `+` -/
def add (g : BitVec w → BitVec w → Option (BitVec w)) (a b : Rat w) : Option (Rat w) :=
  (addParts g a b).bind fun p => make g p.n p.d

/-- Rational.hpp 148-159 `+=` -/
def addAssign (g : BitVec w → BitVec w → Option (BitVec w)) (a b : Rat w) : Option (Rat w) :=
  (addParts g a b).bind (simplify g)

/-- the numerator and denominator of Rational.hpp 164-169 and 174-180 -/
def subParts (g : BitVec w → BitVec w → Option (BitVec w)) (a b : Rat w) : Option (Rat w) :=
  if a.d ≠ b.d then
    if a.d = 0#w ∨ b.d = 0#w then none
    else (lcm g a.d b.d).map fun m => ⟨MathUtils.abs ((a.n * m / a.d) - (b.n * m / b.d)), m⟩
  else some ⟨MathUtils.abs (a.n - b.n), a.d⟩

/-- Rational.hpp 161-170 `-` ("absolute difference") -/
def sub (g : BitVec w → BitVec w → Option (BitVec w)) (a b : Rat w) : Option (Rat w) :=
  (subParts g a b).bind fun p => make g p.n p.d

/-- Rational.hpp 172-183 `-=` -/
def subAssign (g : BitVec w → BitVec w → Option (BitVec w)) (a b : Rat w) : Option (Rat w) :=
  (subParts g a b).bind (simplify g)

/-- Rational.hpp 186-189 `inv` -/
def inv (g : BitVec w → BitVec w → Option (BitVec w)) (a : Rat w) : Option (Rat w) := make g a.d a.n

/-- Rational.hpp 191-196 `==` (the copy does not simplify, 31-33) -/
def eq (g : BitVec w → BitVec w → Option (BitVec w)) (a b : Rat w) : Option Bool :=
  (simplify g b).map fun t => a.n == t.n && a.d == t.d

/-- Rational.hpp 46-50 `operator T`; `none` = assertion -/
def toInt (a : Rat w) : Option (BitVec w) := if a.d = 1#w then some a.n else none

end Sparta.Rational
