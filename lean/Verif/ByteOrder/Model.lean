/-!
Model of /repo/sparta/sparta/utils/ByteOrder.hpp on a little-endian host.  Signed and unsigned integers of a width are both
`BitVec`; they differ only in the promotion to `int`.
-/
namespace Sparta.ByteOrder

/-- `__builtin_bswap32`: the bytes in opposite order -/
def bswap32 (x : BitVec 32) : BitVec 32 :=
  x.extractLsb' 0 8 ++ x.extractLsb' 8 8 ++ x.extractLsb' 16 8 ++ x.extractLsb' 24 8

/-- `__builtin_bswap64` -/
def bswap64 (x : BitVec 64) : BitVec 64 :=
  x.extractLsb' 0 8 ++ x.extractLsb' 8 8 ++ x.extractLsb' 16 8 ++ x.extractLsb' 24 8 ++
  x.extractLsb' 32 8 ++ x.extractLsb' 40 8 ++ x.extractLsb' 48 8 ++ x.extractLsb' 56 8

/-- ByteOrder.hpp 89-99: 8 bits, signed or not -/
def swap8 (x : BitVec 8) : BitVec 8 := x

/-- ByteOrder.hpp 101-105: `uint16_t`, promoted to `int` with zeros above -/
def swapU16 (x : BitVec 16) : BitVec 16 :=
  let y := x.setWidth 32
  (y <<< 8 ||| y.sshiftRight 8).setWidth 16

/-- ByteOrder.hpp 107-111: `int16_t`, promoted with copies of the sign; the shift of a negative value is arithmetic -/
def swapI16 (x : BitVec 16) : BitVec 16 :=
  let y := x.signExtend 32
  (y <<< 8 ||| y.sshiftRight 8).setWidth 16

/-- ByteOrder.hpp 113-123: 32 bits, signed or not -/
def swap32 (x : BitVec 32) : BitVec 32 := bswap32 x

/-- ByteOrder.hpp 125-135: 64 bits, signed or not -/
def swap64 (x : BitVec 64) : BitVec 64 := bswap64 x

/-- ByteOrder.hpp 74-78 -/
inductive Order where
  | LE | BE
deriving DecidableEq

/-- the supported types and their `byte_swap` -/
inductive Kind where
  | k8 | u16 | i16 | k32 | k64
deriving DecidableEq

/-- bytes -/
def Kind.bytes : Kind → Nat
  | .k8 => 1
  | .u16 | .i16 => 2
  | .k32 => 4
  | .k64 => 8

/-- ByteOrder.hpp 82-135 -/
def byteSwap : (k : Kind) → BitVec (8 * k.bytes) → BitVec (8 * k.bytes)
  | .k8, x => swap8 x
  | .u16, x => swapU16 x
  | .i16, x => swapI16 x
  | .k32, x => swap32 x
  | .k64, x => swap64 x

/-- ByteOrder.hpp 138-154 `reorder` -/
def reorder (k : Kind) (o : Order) (x : BitVec (8 * k.bytes)) : BitVec (8 * k.bytes) :=
  match o with
  | .BE => byteSwap k x
  | .LE => x

end Sparta.ByteOrder
