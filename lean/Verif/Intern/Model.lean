import Verif.Common
/-!
Model of the interning of strings (sparta/sparta/utils/StringManager.hpp).

A string is the list of its bytes. The heap is the list of all `std::string` objects allocated so far, by this manager or elsewhere; a
pointer is an index of the heap. Strings are not freed: the singleton lives until static destruction, which is not modelled (nor are the two
deleters, lines 30-85, and the check that the singleton exists, 224-229). Not modelled: exhaustion of the memory, the printed form of an
address, more than 2^32 strings.
-/
namespace Sparta.Intern

/-- a `std::string`; its order is that of `std::char_traits<char>`, byte by byte as unsigned numbers -/
abbrev Str := List UInt8

/-- StringManager.hpp:97-106: `string_map_`, a `std::map` in the order of its keys, and `max_string_len_`; `heap` holds the strings
pointers point to -/
structure St where
  map : List (Str × Nat)
  maxLen : Nat
  heap : List Str
  deriving DecidableEq, Repr

/-- `std::map::find` by the order of keys -/
def lookup : List (Str × Nat) → Str → Option Nat
  | [], _ => none
  | (k, p) :: r, s => if k < s then lookup r s else if s < k then none else some p

/-- `std::map::emplace`: nothing happens if the key is present -/
def emplace : List (Str × Nat) → Str → Nat → List (Str × Nat)
  | [], s, p => [(s, p)]
  | (k, q) :: r, s, p => if k < s then (k, q) :: emplace r s p else if s < k then (s, p) :: (k, q) :: r else (k, q) :: r

/-- StringManager.hpp:157-165 `findString`; the pointers of the map are never null, so the assertion of line 161 is left out -/
def St.find (c : St) (s : Str) : Option Nat := lookup c.map s

/-- StringManager.hpp:138-150 `internString`; the `std::max` of line 146 is on `uint32_t` -/
def St.intern (c : St) (s : Str) : St × Option Nat :=
  match c.find s with
  | some p => (c, some p)
  | none =>
    let m := emplace c.map s c.heap.length
    ({ map := m, maxLen := max c.maxLen (s.length % 2 ^ 32), heap := c.heap ++ [s] }, lookup m s)

/-- StringManager.hpp:171-173 `hasString` -/
def St.has (c : St) (s : Str) : Bool := (c.find s).isSome

/-- StringManager.hpp:181-189 `isInterned`; `none` is the null pointer -/
def St.isInterned (c : St) (p : Option Nat) : Bool := c.map.any fun e => some e.2 == p

/-- StringManager.hpp:195-208 `dumpStrings`: for each line the string, the width " @ " is padded to, and the pointer. The width is computed
in `size_t` (modulo 2^64) and converted to `int`; here the 64-bit number. -/
def St.dump (c : St) : List (Str × Nat × Nat) :=
  c.map.map fun e => (e.1, ((c.maxLen + 4) % 2 ^ 32 + 2 ^ 64 - e.1.length) % 2 ^ 64, e.2)

/-- StringManager.hpp:122-128, the constructor, which interns the empty string as `EMPTY`; `heap` are the strings that exist before -/
def St.mk' (heap : List Str) : St × Option Nat := St.intern { map := [], maxLen := 0, heap := heap } []

/-- the calls, and what the caller does with strings: `alloc` makes a string of its own, `read` and `set` read and assign to the string
pointed to (the pointers returned are not to constants, line 136) -/
inductive Op where
  | intern (s : Str) | find (s : Str) | has (s : Str) | isInterned (p : Option Nat) | num | dump
  | alloc (s : Str) | read (p : Nat) | set (p : Nat) (s : Str)
  deriving DecidableEq, Repr

/-- results; `wild` is an access through a pointer to no string -/
inductive Out where
  | ptr (p : Option Nat) | bool (b : Bool) | num (n : Nat) | text (l : List (Str × Nat × Nat)) | str (s : Str) | done | wild
  deriving DecidableEq, Repr

/-- one call -/
def step (c : St) : Op → St × Out
  | .intern s => let r := c.intern s; (r.1, .ptr r.2)
  | .find s => (c, .ptr (c.find s))
  | .has s => (c, .bool (c.has s))
  | .isInterned p => (c, .bool (c.isInterned p))
  -- StringManager.hpp:213-215
  | .num => (c, .num (c.map.length % 2 ^ 32))
  | .dump => (c, .text c.dump)
  | .alloc s => ({ c with heap := c.heap ++ [s] }, .ptr (some c.heap.length))
  | .read p => (c, match c.heap[p]? with | some s => .str s | none => .wild)
  | .set p s => if p < c.heap.length then ({ c with heap := c.heap.set p s }, .done) else (c, .wild)

end Sparta.Intern
