import Verif.Common
/-!
Model of `sparta::utils::BitArray` (/repo/sparta/sparta/utils/BitArray.hpp).  A byte (`data_type`) is `BitVec 8`; the
C++ operators promote to `int` and truncate the result, which on these operands is the same as the 8-bit operators.
-/
namespace Sparta.BitArray

/-- BitArray.hpp 47 -/
abbrev Byte := BitVec 8

/-- BitArray.hpp 60-68, the constructor from `data`; `array_size` of zero means the size of the data -/
def make (data : List Byte) (arraySize : Nat) : List Byte :=
  let n := if arraySize = 0 then data.length else arraySize
  data.take (min data.length n) ++ List.replicate (n - min data.length n) 0

/-- the bytes of an integer of `k` bytes in memory (little endian machine) -/
def bytesOf : Nat → Nat → List Byte
  | 0, _ => []
  | k + 1, v => BitVec.ofNat 8 v :: bytesOf k (v / 256)

/-- the integer whose bytes in memory are these -/
def ofBytes : List Byte → Nat
  | [] => 0
  | b :: bs => b.toNat + 256 * ofBytes bs

/-- BitArray.hpp 80-84: from an integer of `k` bytes -/
def ofInt (k v arraySize : Nat) : List Byte := make (bytesOf k v) arraySize

/-- BitArray.hpp 105-110 `getValue<T>`, `T` unsigned of `k` bytes -/
def getValue (k : Nat) (a : List Byte) : Nat :=
  ofBytes (a.take (min k a.length) ++ List.replicate (k - min k a.length) 0)

/-- BitArray.hpp 122-128 `fill`, value of `k` bytes -/
def fill (k v : Nat) (a : List Byte) : List Byte :=
  (List.range a.length).map fun i => BitVec.ofNat 8 ((v >>> (8 * (i % k))) &&& 0xff)

/-- BitArray.hpp 14-34 `slide` with the output over the input; each step reads the next byte before it is overwritten -/
def slide (op : Byte → Byte → Byte) (init : Byte) : List Byte → List Byte
  | [] => []
  | [x] => [op x init]
  | x :: y :: r => op x y :: slide op init (y :: r)

/-- `std::rotate(first, first + m, last)` -/
def rotate (m : Nat) (a : List Byte) : List Byte := a.drop m ++ a.take m

/-- BitArray.hpp 246-253 `shiftLeftWords_`; `none`: the iterator `last - amount` lies before the array (undefined) -/
def shiftLeftWords (a : List Byte) (k : Nat) : Option (List Byte) :=
  if k ≤ a.length then
    some (List.replicate k 0 ++ (rotate (a.length - k) a).drop k)
  else none

/-- BitArray.hpp 255-266 `shiftLeftBits_`: slides over the reversed array -/
def shiftLeftBits (a : List Byte) (bits : Nat) : List Byte :=
  (slide (fun low high => low <<< bits ||| high >>> (8 - bits)) 0 a.reverse).reverse

/-- BitArray.hpp 238-244 `shiftLeft_` -/
def shiftLeft (a : List Byte) (amount : Nat) : Option (List Byte) :=
  (shiftLeftWords a (amount / 8)).map (shiftLeftBits · (amount % 8))

/-- BitArray.hpp 276-283 `shiftRightWords_` -/
def shiftRightWords (a : List Byte) (k : Nat) : Option (List Byte) :=
  if k ≤ a.length then
    some ((rotate k a).take (a.length - k) ++ List.replicate k 0)
  else none

/-- BitArray.hpp 285-295 `shiftRightBits_` -/
def shiftRightBits (a : List Byte) (bits : Nat) : List Byte :=
  slide (fun low high => low >>> bits ||| high <<< (8 - bits)) 0 a

/-- BitArray.hpp 268-274 `shiftRight_` -/
def shiftRight (a : List Byte) (amount : Nat) : Option (List Byte) :=
  (shiftRightWords a (amount / 8)).map (shiftRightBits · (amount % 8))

/-- the loops of BitArray.hpp 297-315: combine up to the smaller size, keep the rest of the left array -/
def combine (op : Byte → Byte → Byte) : List Byte → List Byte → List Byte
  | x :: xs, y :: ys => op x y :: combine op xs ys
  | xs, _ => xs

/-- BitArray.hpp 297-305 `and_` -/
def and (a b : List Byte) : List Byte := combine (· &&& ·) a b

/-- BitArray.hpp 307-315 `or_` -/
def or (a b : List Byte) : List Byte := combine (· ||| ·) a b

/-- BitArray.hpp 317-322 `negate_` -/
def negate (a : List Byte) : List Byte := a.map (~~~ ·)

/-- BitArray.hpp 130-134 `operator==` -/
def eq (a b : List Byte) : Bool := a.length == b.length && (List.zip a b).all fun p => p.1 == p.2

/-! ### objects

Each object has its own storage (`data_ss_`, or the buffer of `data_ls_`) and a pointer `data_` to some storage.  The two
kinds of storage are not distinguished: only one of them is used by an object during its life, and the defaulted copy
assignment (94) copies the contents of both and then the pointer. -/

/-- BitArray.hpp 326-336: own storage, and the object whose storage `data_` points to -/
structure Obj where
  own : List Byte
  data : Nat
deriving DecidableEq

/-- all objects -/
abbrev World := Nat → Option Obj

/-- the contents an object shows: BitArray.hpp 100-103 -/
def World.value (w : World) (i : Nat) : Option (List Byte) :=
  (w i).bind fun o => (w o.data).map (·.own)

/-- calls on named objects -/
inductive Op where
  | make (i : Nat) (a : List Byte)
  | copy (i j : Nat)
  | assign (i j : Nat)
  | modify (i : Nat) (f : List Byte → List Byte)

/-- BitArray.hpp 60-68 construction; 86-90 copy construction; 92 defaulted copy assignment; the compound operators
`<<=` etc. write through `data_` -/
def World.step (w : World) : Op → World
  | .make i a => upd w i (some ⟨a, i⟩)
  | .copy i j => match w.value j with
    | some a => upd w i (some ⟨a, i⟩)
    | none => w
  | .assign i j => match w j with
    | some o => upd w i (some ⟨o.own, o.data⟩)
    | none => w
  | .modify i f => match w i with
    | some o => match w o.data with
      | some t => upd w o.data (some { t with own := f t.own })
      | none => w
    | none => w

end Sparta.BitArray
