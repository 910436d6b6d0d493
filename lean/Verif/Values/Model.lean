import Verif.CInt
import Verif.Common
/-!
Models of the value wrappers
* `sparta::utils::BoundedValue` (/repo/sparta/sparta/utils/BoundedValue.hpp), integral types;
* `sparta::bounded_int`, `OneWayBool`, `AssignOnceObject` (/repo/sparta/sparta/utils/Utils.hpp);
* `sparta::utils::LockedValue` (/repo/sparta/sparta/utils/LockedValue.hpp);
* `sparta::utils::ValidValue` (/repo/sparta/sparta/utils/ValidValue.hpp).

Integers are given by their mathematical value and their C++ type (`Ty`); comparisons with the literal 0 are exact in C++
and are written as such.
-/
namespace Sparta.Values

/-- the result of a call: a value, an assertion failure, or undefined behaviour -/
inductive Res (α : Type) where
  | ok (x : α)
  | threw
  | ub
deriving DecidableEq, Repr

/-! ### BoundedValue<T> -/

/-- BoundedValue.hpp 680-682 -/
structure BV where
  v : Int
  lo : Int
  hi : Int
deriving DecidableEq, Repr

/-- BoundedValue.hpp 700-731 `checkLowerBound_<U>` -/
def checkLower (t u : Ty) (lo x : Int) : Bool :=
  if u.signed = t.signed then geC u x t lo
  else if !u.signed then (if 0 ≤ lo then geC u x .u64 (Ty.conv .u64 lo) else true)
  else decide (0 ≤ x) && geC .u64 (Ty.conv .u64 x) t lo

/-- BoundedValue.hpp 738-766 `checkUpperBound_<U>` -/
def checkUpper (t u : Ty) (hi x : Int) : Bool :=
  if u.signed = t.signed then geC t hi u x
  else if !u.signed then decide (0 ≤ hi) && geC .u64 (Ty.conv .u64 hi) u x
  else decide (0 ≤ x) && geC t hi .u64 (Ty.conv .u64 x)

/-- BoundedValue.hpp 689-692 `checkRange_` -/
def checkRange (t u : Ty) (b : BV) (x : Int) : Bool := checkLower t u b.lo x && checkUpper t u b.hi x

/-- the sanity checks of the seven constructors: 67-84, 103-125, 143-167, 185-212, 230-251, 269-297, 315-343 -/
def sane (t u v w : Ty) (x lo hi : Int) : Bool :=
  let c := Ty.conv .u64
  let d := Ty.conv .i64
  if t.signed = u.signed ∧ t.signed = v.signed ∧ t.signed = w.signed then
    gtC w hi v lo && geC t t.max w hi
  else if !t.signed then
    (if u.signed then decide (0 ≤ x) else true) &&
    (if !v.signed && !w.signed then true else decide (0 ≤ lo) && decide (0 ≤ hi)) &&
    decide (c t.min ≤ c lo) && decide (c hi ≤ c t.max) && decide (c lo < c hi)
  else if !u.signed && v.signed && w.signed then
    decide (d t.min ≤ d lo) && decide (d hi ≤ d t.max) && decide (d lo < d hi) && decide (c x ≤ c t.max)
  else
    (if lo < 0 then decide (d t.min ≤ d lo) else true) &&
    (if 0 < hi then decide (c hi ≤ c t.max) else true) &&
    (if 0 < hi ∧ 0 < lo then decide (c lo < c hi) else true)

/-- BoundedValue.hpp 67-343: `BoundedValue<T>(U value, V lower, W upper)`; the arguments are converted to `T` first, then
checked -/
def BV.make (t u v w : Ty) (x lo hi : Int) : Res BV :=
  let b : BV := ⟨t.conv x, t.conv lo, t.conv hi⟩
  if sane t u v w x lo hi && checkRange t u b x then .ok b else .threw

/-- BoundedValue.hpp 513-520 `operator=(U)` -/
def BV.assign (t u : Ty) (b : BV) (x : Int) : Res BV :=
  if checkRange t u b x then .ok { b with v := t.conv x } else .threw

/-- BoundedValue.hpp 539-543 `operator++`; the sum has the promoted type -/
def BV.incr (t : Ty) (b : BV) : Res BV :=
  if b.v < b.hi then
    match arith t.promote (b.v + 1) with
    | none => .ub
    | some s => if checkRange t t.promote b s then .ok { b with v := t.conv (b.v + 1) } else .threw
  else .threw

/-- BoundedValue.hpp 557-562 `operator--` -/
def BV.decr (t : Ty) (b : BV) : Res BV :=
  if b.lo < b.v then
    match arith t.promote (b.v - 1) with
    | none => .ub
    | some s => if checkRange t t.promote b s then .ok { b with v := t.conv (b.v - 1) } else .threw
  else .threw

/-- `value_ += value` on the members: the sum in the common type, then converted -/
def addTo (t u : Ty) (v x : Int) : Option Int :=
  (arith (t.common u) ((t.common u).conv v + (t.common u).conv x)).map t.conv

/-- `value_ -= value` -/
def subFrom (t u : Ty) (v x : Int) : Option Int :=
  (arith (t.common u) ((t.common u).conv v - (t.common u).conv x)).map t.conv

/-- the common body of BoundedValue.hpp 578-614: the room left (in the promoted type) is compared with the amount, both
converted to `uintmax_t` -/
def BV.move (t : Ty) (b : BV) (room : Int) (amount new : Option Int) : Res BV :=
  match arith t.promote room, amount with
  | some r, some a =>
    if Ty.conv .u64 a ≤ Ty.conv .u64 r then
      match new with
      | some n => .ok { b with v := n }
      | none => .ub
    else .threw
  | _, _ => .ub

/-- BoundedValue.hpp 578-593 `operator+=(U)` -/
def BV.add (t u : Ty) (b : BV) (x : Int) : Res BV :=
  if 0 ≤ x then b.move t (b.hi - b.v) (some x) (addTo t u b.v x)
  else b.move t (b.v - b.lo) (arith u.promote (-x)) (addTo t u b.v x)

/-- BoundedValue.hpp 599-614 `operator-=(U)` -/
def BV.sub (t u : Ty) (b : BV) (x : Int) : Res BV :=
  if 0 ≤ x then b.move t (b.v - b.lo) (some x) (subFrom t u b.v x)
  else b.move t (b.hi - b.v) (arith u.promote (-x)) (subFrom t u b.v x)

/-- calls that change a BoundedValue, with the type of the operand -/
inductive BVOp where
  | assign (u : Ty) (x : Int)
  | incr
  | decr
  | add (u : Ty) (x : Int)
  | sub (u : Ty) (x : Int)
deriving DecidableEq, Repr

/-- one call -/
def BV.step (t : Ty) (b : BV) : BVOp → Res BV
  | .assign u x => b.assign t u x
  | .incr => b.incr t
  | .decr => b.decr t
  | .add u x => b.add t u x
  | .sub u x => b.sub t u x

/-! ### bounded_int<T, min, max> -/

/-- Utils.hpp 635-663 `lowerRangeCheck_`: skipped when the argument type has the same minimum -/
def biLower (t a : Ty) (lo x : Int) : Bool :=
  if geC a a.min t lo ∧ geC t lo a a.min then true else geC a x t lo

/-- Utils.hpp 650-675 `upperRangeCheck_` -/
def biUpper (t a : Ty) (hi x : Int) : Bool :=
  if geC a a.max t hi ∧ geC t hi a a.max then true else geC t hi a x

/-- Utils.hpp 606-655: construction from an integer of type `a` -/
def boundedInt (t a : Ty) (lo hi x : Int) : Option Int :=
  if biLower t a lo x && biUpper t a hi x then some (t.conv x) else none

/-! ### LockedValue -/

/-- LockedValue.hpp 114-116 -/
structure Locked (α : Type) where
  locked : Bool
  v : α
deriving DecidableEq

/-- calls; `refWrite` writes through the reference returned by the non-const `getValue()` or `operator value_type&` -/
inductive LOp (α : Type) where
  | assign (x : α)
  | setAndLock (x : α)
  | lock
  | refWrite (x : α)

/-- LockedValue.hpp 59-64, 68-73, 76-78, 93-95 and 106-108; the flag says whether it threw -/
def Locked.step {α : Type} (s : Locked α) : LOp α → Locked α × Bool
  | .assign x => if s.locked then (s, true) else ({ s with v := x }, false)
  | .setAndLock x => if s.locked then (s, true) else (⟨true, x⟩, false)
  | .lock => ({ s with locked := true }, false)
  | .refWrite x => ({ s with v := x }, false)

/-! ### ValidValue -/

/-- ValidValue.hpp 190-191 -/
structure Valid (α : Type) where
  valid : Bool
  v : α
deriving DecidableEq

/-- ValidValue.hpp 32-35 (the value is default constructed) -/
def Valid.empty {α : Type} (d : α) : Valid α := ⟨false, d⟩
/-- ValidValue.hpp 72-85 assignment of a value -/
def Valid.set {α : Type} (_ : Valid α) (x : α) : Valid α := ⟨true, x⟩
/-- ValidValue.hpp 180-182 `clearValid` -/
def Valid.clear {α : Type} (s : Valid α) : Valid α := { s with valid := false }
/-- ValidValue.hpp 139-176: the conversions and `getValue` -/
def Valid.get {α : Type} (s : Valid α) : Option α := if s.valid then some s.v else none
/-- ValidValue.hpp 56-61 move construction: (new, source) -/
def Valid.moveNew {α : Type} (s : Valid α) : Valid α × Valid α := (⟨s.valid, s.v⟩, { s with valid := false })
/-- ValidValue.hpp 68 the defaulted move assignment leaves the source's flag alone -/
def Valid.moveAssign {α : Type} (_ : Valid α) (s : Valid α) : Valid α × Valid α := (s, s)
/-- ValidValue.hpp 92-95 compare with a value -/
def Valid.eqVal {α : Type} [DecidableEq α] (s : Valid α) (x : α) : Option Bool := if s.valid then some (s.v = x) else none
/-- ValidValue.hpp 111-114 compare with another ValidValue, whose validity is not looked at -/
def Valid.eq {α : Type} [DecidableEq α] (s t : Valid α) : Option Bool := if s.valid then some (s.v = t.v) else none

/-! ### AssignOnceObject -/

/-- Utils.hpp 448-456 -/
structure Once (α : Type) where
  set : Bool
  defaulted : Bool
  v : α
deriving DecidableEq

/-- Utils.hpp 491-497 with a default value -/
def Once.withDefault {α : Type} (d : α) : Once α := ⟨false, true, d⟩
/-- Utils.hpp 502-503 without; `d` is the unspecified content -/
def Once.empty {α : Type} (d : α) : Once α := ⟨false, false, d⟩
/-- Utils.hpp 512-515 `get` -/
def Once.get {α : Type} (s : Once α) : Option α := if s.set || s.defaulted then some s.v else none
/-- Utils.hpp 545-552 assignment of a value; `none` = assertion -/
def Once.assign {α : Type} (s : Once α) (x : α) : Option (Once α) := if s.set then none else some { s with set := true, v := x }
/-- Utils.hpp 531-540 assignment of another object -/
def Once.assignFrom {α : Type} (s b : Once α) : Option (Once α) :=
  if s.set then none else if b.set || b.defaulted then some { s with set := true, v := b.v } else none

/-- calls -/
inductive OOp (α : Type) where
  | assign (x : α)
  | assignFrom (b : Once α)

/-- one call; unchanged if it throws -/
def Once.step {α : Type} (s : Once α) : OOp α → Once α
  | .assign x => (s.assign x).getD s
  | .assignFrom b => (s.assignFrom b).getD s

end Sparta.Values
