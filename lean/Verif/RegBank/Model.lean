import Verif.Common
/-!
Model of `sparta::RegisterBankTable` (sparta/sparta/functional/RegisterBankTable.hpp), the table through which the registers of a `RegisterSet` are
looked up by group number, group index and bank.

A register is its definition's group number, group index and bank membership and an identity. `unordered_map`s from group indices to registers are
lists of pairs in the order of insertion; the order is not observable through the functions modelled. Warnings are not modelled, nor is `dump`, nor
are null pointers. An exception is a result; the table is left as it is when it is thrown.
-/
namespace Sparta.RegBank

/-- Register.hpp:612-639 and 915-917: the parts of a register's definition that matter here -/
structure Reg where
  id : Nat
  num : Nat
  idx : Nat
  mem : List Nat
deriving DecidableEq

/-- Register.hpp:690: `GROUP_NUM_NONE`, of type `uint32_t` -/
def NONE : Nat := 2 ^ 32 - 1

/-- RegisterBankTable.hpp:44: `ERROR_MAX_BANK_IDX` -/
def errorMax : Nat := 256

/-- RegisterBankTable.hpp:52: registers by group index -/
abbrev Group := List (Nat × Reg)
/-- RegisterBankTable.hpp:59: groups by group number -/
abbrev Bank := List Group

/-- RegisterBankTable.hpp:531-547 -/
structure Table where
  banks : List Bank
  unbanked : List Reg
  numGroups : Nat
  numRegs : Nat
deriving DecidableEq

/-- RegisterBankTable.hpp:70-79: one bank without groups -/
def Table.init : Table := ⟨[[]], [], 0, 0⟩

/-- what a call does -/
inductive Res where
  /-- it returns -/
  | ok
  /-- it throws one of the exceptions that describe what is wrong with the register -/
  | refused
  /-- it fails in an internal assertion -/
  | broken
deriving DecidableEq

/-- the content of a group, empty if the vector is too short -/
def groupAt (b : Bank) (g : Nat) : Group := b.getD g []

/-- RegisterBankTable.hpp:505-516; `none` if the assertion on line 513 fails -/
def insertReg (b : Bank) (r : Reg) : Option Bank :=
  let p := b ++ List.replicate (r.num + 1 - b.length) []
  match (groupAt p r.num).lookup r.idx with
  | some _ => none
  | none => some (p.set r.num (groupAt p r.num ++ [(r.idx, r)]))

/-- RegisterBankTable.hpp:231-233 and 281-284: a register into several banks, one after the other, up to a failing assertion -/
def insertAll (r : Reg) : List Nat → List Bank → List Bank × Bool
  | [], bs => (bs, true)
  | i :: is, bs =>
    match insertReg (bs.getD i []) r with
    | none => (bs, false)
    | some b => insertAll r is (bs.set i b)

/-- RegisterBankTable.hpp:487-491: a new bank, with the unbanked registers -/
def newBank (us : List Reg) : Option Bank := us.foldlM insertReg []

/-- RegisterBankTable.hpp:483-493; `none` if an assertion fails (which does not happen, as C251_results shows) -/
def extend (t : Table) (n : Nat) : Option Table :=
  if n > t.banks.length then
    match newBank t.unbanked with
    | none => none
    | some b => some { t with banks := t.banks ++ List.replicate (n - t.banks.length) b }
  else some t

/-- RegisterBankTable.hpp:292-299 -/
def canLookup (t : Table) (g i b : Nat) : Bool :=
  t.banks.length > b && (t.banks.getD b []).length > g && ((groupAt (t.banks.getD b []) g).lookup i).isSome

/-- RegisterBankTable.hpp:287-288: the counts, of type `uint32_t` -/
def count (t : Table) (r : Reg) : Table :=
  { t with numGroups := max t.numGroups ((r.num + 1) % 2 ^ 32), numRegs := (t.numRegs + 1) % 2 ^ 32 }

/-- RegisterBankTable.hpp:212-234: adding an unbanked register -/
def addUnbanked (t : Table) (r : Reg) : Table × Res :=
  if (List.range t.banks.length).any (fun b => canLookup t r.num r.idx b) then (t, .refused)
  else
    let (bs, good) := insertAll r (List.range t.banks.length) t.banks
    let t' := { t with banks := bs, unbanked := t.unbanked ++ [r] }
    if good then (count t' r, .ok) else (t', .broken)

/-- RegisterBankTable.hpp:234-285: adding a banked register -/
def addBanked (t : Table) (r : Reg) : Table × Res :=
  let maxBank := r.mem.foldl max 0
  if r.mem.any (fun b => b < t.banks.length && canLookup t r.num r.idx b) then (t, .refused)
  else if maxBank ≥ errorMax then (t, .refused)
  else if t.unbanked.any (fun u => u.num == r.num && u.idx == r.idx) then (t, .refused)
  else match extend t ((maxBank + 1) % 2 ^ 32) with
    | none => (t, .broken)
    | some t1 =>
      let (bs, good) := insertAll r r.mem t1.banks
      let t' := { t1 with banks := bs }
      if good then (count t' r, .ok) else (t', .broken)

/-- RegisterBankTable.hpp:189-290 -/
def addRegister (t : Table) (r : Reg) : Table × Res :=
  if r.num = NONE then (if r.mem.length ≠ 0 then (t, .refused) else (t, .ok))
  else if r.mem.length = 0 then addUnbanked t r
  else addBanked t r

/-- RegisterBankTable.hpp:168-170; the sum is of type `uint32_t` -/
def setMinimumBankIndex (t : Table) (b : Nat) : Table × Res :=
  match extend t ((b + 1) % 2 ^ 32) with
  | none => (t, .broken)
  | some t' => (t', .ok)

/-- RegisterBankTable.hpp:301-311: the outer `none` is an access outside of a vector -/
def lookupRegister (t : Table) (g i b : Nat) : Option (Option Reg) :=
  match t.banks[b]? with
  | none => none
  | some bk => match bk[g]? with
    | none => none
    | some rm => some (rm.lookup i)

/-- RegisterBankTable.hpp:337-366: `none` is an exception -/
def getRegister (t : Table) (g i b : Nat) : Option Reg :=
  if t.banks.length ≤ b then none
  else if (t.banks.getD b []).length ≤ g then none
  else if (groupAt (t.banks.getD b []) g).length = 0 then none
  else (groupAt (t.banks.getD b []) g).lookup i

/-- RegisterBankTable.hpp:114-132: `none` is an exception -/
def getGroupSize (t : Table) (g b : Nat) : Option Nat :=
  if g = NONE then some 0
  else if b ≥ t.banks.length then none
  else if g ≥ (t.banks.getD b []).length then some 0
  else some (groupAt (t.banks.getD b []) g).length

/-- RegisterBankTable.hpp:91-94 -/
def getNumBanks (t : Table) : Nat := t.banks.length

/-- the calls that change the table -/
inductive Op where
  | add (r : Reg)
  | minBank (b : Nat)

/-- one call -/
def step (t : Table) : Op → Table × Res
  | .add r => addRegister t r
  | .minBank b => setMinimumBankIndex t b

/-- a history -/
def run (ops : List Op) : Table × List Res := runOps step Table.init ops

end Sparta.RegBank
