import Verif.Common
/-!
Model of enumerations with names (sparta/sparta/utils/Enum.hpp) and of histograms over enumerations
(sparta/sparta/statistics/EnumHistogram.hpp).

A value of an enumeration is its number, below 2^32. The names are one array for each enumeration, of `__LAST + 1` strings, as the users of the
class define it (test/Enum/Enum_main.cpp:22). Not modelled: for histograms the tree, the names of the bins and the probabilities.
-/
namespace Sparta.EnumT

/-- Enum.hpp:24 `names_`, with `__FIRST` and `__LAST` of the enumeration -/
structure En where
  first : Nat
  last : Nat
  names : List String
  deriving DecidableEq, Repr

/-- before any `Enum` object of the enumeration is made -/
def En.init (first last : Nat) : En := ⟨first, last, List.replicate (last + 1) ""⟩

/-- Enum.hpp:194-204 `setName_`, which the constructor (141-147) calls with its arguments; `none` is an access outside the array -/
def En.setNames (e : En) : List (Nat × String) → Option En
  | [] => if e.last < e.names.length then some { e with names := e.names.set e.last "<<LAST>>" } else none
  | (id, s) :: r => if id < e.names.length then En.setNames { e with names := e.names.set id s } r else none

/-- Enum.hpp:72-75, a value to its name; `none` is an access outside the array -/
def En.name (e : En) (v : Nat) : Option String := e.names[v]?

/-- Enum.hpp:169-173, the loop over `i`; `k` values are left -/
def En.search (e : En) (s : String) : Nat → Nat → Option Nat
  | 0, _ => none
  | k + 1, i => if e.names[i]? = some s then some i else En.search e s k (i + 1)

/-- Enum.hpp:164-177, a name to its value; `none` is the exception for unknown names -/
def En.ofName (e : En) (s : String) : Option Nat := e.search s e.last 0

/-- Enum.hpp:32-36 `populateNames` -/
def En.populate (e : En) : List String := (List.range e.last).filterMap fun i => e.names[i]?

/-- the loop over an iterator, Enum.hpp:113-116 and 128-131; `k` steps are left until it is equal to `end` -/
def En.iter : Nat → Nat → List Nat
  | 0, _ => []
  | k + 1, v => v :: En.iter k ((v + 1) % 2 ^ 32)

/-- `for (auto i : e)`, Enum.hpp:179-187 -/
def En.iterate (e : En) : List Nat := En.iter ((e.last + 2 ^ 32 - e.first) % 2 ^ 32) e.first

/-- Enum.hpp:189-191 -/
def En.size (e : En) : Nat := e.last

/-- EnumHistogram.hpp:206-224; the counters are values -/
structure EHist where
  lower : Nat
  upper : Nat
  total : Nat
  under : Nat
  over : Nat
  bins : List Nat
  deriving DecidableEq, Repr

/-- EnumHistogram.hpp:76-148; `none` is a failed assertion. The number of bins is a `uint32_t`, which is compared with the `double` of the
64-bit number. -/
def EHist.make (first last : Nat) : Option EHist :=
  let lower := first
  let upper := (last + 2 ^ 64 - 1) % 2 ^ 64
  if upper > lower then
    let n := ((upper - lower) / 1 + 1) % 2 ^ 64
    if n % 2 ^ 32 = n then some ⟨lower, upper, 0, 0, 0, List.replicate n 0⟩ else none
  else none

/-- EnumHistogram.hpp:156-172 `addValue`; `none` is the exception of `at`. The shift is by `floor_log2(1) = 0`. -/
def EHist.add (h : EHist) (v : Nat) : Option EHist :=
  let h := { h with total := (h.total + 1) % 2 ^ 64 }
  if v < h.lower then some { h with under := (h.under + 1) % 2 ^ 64 }
  else if v > h.upper then some { h with over := (h.over + 1) % 2 ^ 64 }
  else
    let idx := ((v - h.lower) >>> 0) % 2 ^ 32
    match h.bins[idx]? with
    | none => none
    | some b => some { h with bins := h.bins.set idx ((b + 1) % 2 ^ 64) }

/-- the running sums of EnumHistogram.hpp:182-203 -/
def EHist.sums : Nat → List Nat → List Nat
  | _, [] => []
  | s, b :: bs => ((s + b) % 2 ^ 64) :: EHist.sums ((s + b) % 2 ^ 64) bs

/-- EnumHistogram.hpp:182-203 `getDisplayStringCumulative`: the numbers of the lines for the underflow, the bins and the overflow -/
def EHist.display (h : EHist) : Nat × List Nat × Nat :=
  let l := EHist.sums h.under h.bins
  (h.under, l, (l.getLastD h.under + h.over) % 2 ^ 64)

end Sparta.EnumT
