/-!
C++ integer types and conversions, as far as the modelled code needs them: x86-64 / GCC, where conversion to a narrower
signed type is modulo a power of two.
-/
namespace Sparta

/-- the fixed-width integer types -/
inductive Ty where
  | u8 | u16 | u32 | u64 | i8 | i16 | i32 | i64
deriving DecidableEq, Repr

/-- signedness -/
def Ty.signed : Ty → Bool
  | .u8 | .u16 | .u32 | .u64 => false
  | _ => true

/-- number of bits -/
def Ty.bits : Ty → Nat
  | .u8 | .i8 => 8
  | .u16 | .i16 => 16
  | .u32 | .i32 => 32
  | .u64 | .i64 => 64

/-- number of values -/
def Ty.size : Ty → Int
  | .u8 | .i8 => 256
  | .u16 | .i16 => 65536
  | .u32 | .i32 => 4294967296
  | .u64 | .i64 => 18446744073709551616

/-- `std::numeric_limits<T>::min()` -/
def Ty.min : Ty → Int
  | .u8 | .u16 | .u32 | .u64 => 0
  | .i8 => -128
  | .i16 => -32768
  | .i32 => -2147483648
  | .i64 => -9223372036854775808

/-- `std::numeric_limits<T>::max()` -/
def Ty.max (t : Ty) : Int := t.min + t.size - 1

/-- the value is one of the type -/
def Ty.has (t : Ty) (x : Int) : Prop := t.min ≤ x ∧ x ≤ t.max

instance (t : Ty) (x : Int) : Decidable (t.has x) := inferInstanceAs (Decidable (_ ∧ _))

/-- conversion to the type -/
def Ty.conv (t : Ty) (x : Int) : Int := (x - t.min) % t.size + t.min

/-- integral promotion -/
def Ty.promote : Ty → Ty
  | .u8 | .u16 | .i8 | .i16 | .i32 => .i32
  | t => t

/-- the usual arithmetic conversions: the common type of two operands -/
def Ty.common (a b : Ty) : Ty :=
  let a := a.promote
  let b := b.promote
  if a = b then a
  else if a.signed = b.signed then (if a.bits < b.bits then b else a)
  else if a.signed then (if a.bits ≤ b.bits then b else a)
  else (if b.bits ≤ a.bits then a else b)

/-- `x >= y` for operands of types `a` and `b` -/
def geC (a : Ty) (x : Int) (b : Ty) (y : Int) : Bool := decide ((a.common b).conv y ≤ (a.common b).conv x)
/-- `x > y` -/
def gtC (a : Ty) (x : Int) (b : Ty) (y : Int) : Bool := decide ((a.common b).conv y < (a.common b).conv x)

/-- the value `r` of an arithmetic expression of type `t`; `none` = signed overflow, undefined -/
def arith (t : Ty) (r : Int) : Option Int :=
  if t.signed then (if t.has r then some r else none) else some (t.conv r)

theorem Ty.size_pos (t : Ty) : 0 < t.size := by cases t <;> decide

theorem Ty.conv_of_has {t : Ty} {x : Int} (h : t.has x) : t.conv x = x := by
  unfold Ty.conv
  obtain ⟨h1, h2⟩ := h
  unfold Ty.max at h2
  rw [Int.emod_eq_of_lt] <;> omega

theorem Ty.conv_has (t : Ty) (x : Int) : t.has (t.conv x) := by
  have h := t.size_pos
  have h1 := Int.emod_nonneg (x - t.min) (Int.ne_of_gt h)
  have h2 := Int.emod_lt_of_pos (x - t.min) h
  unfold Ty.has Ty.conv Ty.max
  omega

theorem Ty.promote_has {t : Ty} {x : Int} (h : t.has x) : t.promote.has x := by
  cases t <;> simp only [Ty.has, Ty.promote, Ty.max, Ty.min, Ty.size] at * <;> omega

/-- operands of the same signedness keep their values -/
theorem Ty.common_has {a b : Ty} (hs : a.signed = b.signed) {x : Int} : (a.has x → (a.common b).has x) ∧ (b.has x → (a.common b).has x) := by
  cases a <;> cases b <;> first
    | exact absurd hs (by decide)
    | (simp only [Ty.has, Ty.max]; simp [Ty.common, Ty.promote, Ty.signed, Ty.bits, Ty.min, Ty.size]; try omega)

theorem geC_same {a b : Ty} (hs : a.signed = b.signed) {x y : Int} (hx : a.has x) (hy : b.has y) : geC a x b y = decide (y ≤ x) := by
  unfold geC
  rw [Ty.conv_of_has ((Ty.common_has hs).1 hx), Ty.conv_of_has ((Ty.common_has hs).2 hy)]

theorem gtC_same {a b : Ty} (hs : a.signed = b.signed) {x y : Int} (hx : a.has x) (hy : b.has y) : gtC a x b y = decide (y < x) := by
  unfold gtC
  rw [Ty.conv_of_has ((Ty.common_has hs).1 hx), Ty.conv_of_has ((Ty.common_has hs).2 hy)]

theorem arith_has {t : Ty} {r : Int} (h : t.has r) : arith t r = some r := by
  simp [arith, h, Ty.conv_of_has h]

end Sparta
