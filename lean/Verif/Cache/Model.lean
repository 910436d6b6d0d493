import Verif.Common
/-!
Model of the cache library in /repo/sparta/cache: TreePLRUReplacement.hpp, LRUReplacement.hpp,
DefaultAddrDecoder.hpp, BasicCacheItem.hpp, LineData.hpp, BasicCacheSet.hpp, Cache.hpp, SimpleCache2.hpp,
SimpleCache.hpp.

Simplifications: the exclusive/shared flags of a line, the statistics counters of `SimpleCache`, `setAddrDecoder`
and the typed `read<T>`/`write<T>` of `LineData` are left out; `uint64_t` address arithmetic is on naturals (the
theorems assume addresses below 2^64).
-/
namespace Sparta.Cache

/-! ### replacement policies -/

/-- ReplacementIF.hpp: the interface of a replacement policy with state `σ` -/
structure Policy (σ : Type) where
  init : σ
  lru : σ → Nat
  mru : σ → Nat
  touchLRU : σ → Nat → σ
  touchMRU : σ → Nat → σ
  reset : σ → σ

/-- the loops of TreePLRUReplacement.hpp 63-68 and 83-86: `i` levels down from node `idx` -/
def descend (f : Bool → Bool) (bits : Nat → Bool) : Nat → Nat → Nat
  | 0, idx => idx
  | i + 1, idx => descend f bits i (2 * idx + (f (bits idx)).toNat)

/-- the loops of TreePLRUReplacement.hpp 102-109 and 121-126: `i` levels up from node `idx` -/
def ascend (f : Bool → Bool) : Nat → Nat → (Nat → Bool) → (Nat → Bool)
  | 0, _, bits => bits
  | i + 1, idx, bits => ascend f i (idx / 2) (upd bits (idx / 2) (f (idx % 2 == 1)))

/-- TreePLRUReplacement.hpp with `2 ^ levels` ways (power of two asserted at line 49; `plru_bits_` has 128 bits and all
indices used are below the number of ways, which is at most 128); `way < num_ways` is asserted by the touches and is a
hypothesis of the theorems.  Lines: reset 55-58, getMRUWay 60-73, getLRUWay 80-91, touchMRU 98-110, touchLRU 117-127. -/
def plru (levels : Nat) : Policy (Nat → Bool) where
  init := fun _ => false
  lru bits := descend id bits levels 1 - 2 ^ levels
  mru bits := descend not bits levels 1 - 2 ^ levels
  touchLRU bits way := ascend id levels (way + 2 ^ levels) bits
  touchMRU bits way := ascend not levels (way + 2 ^ levels) bits
  reset _ := fun _ => false

/-- TreePLRUReplacement.hpp 147-152: the way with rank `rnk` -/
def rankDescend (bits : Nat → Bool) (rnk : Nat) : Nat → Nat → Nat
  | 0, idx => idx
  | i + 1, idx => rankDescend bits rnk i (2 * idx + (bits idx ^^ ((rnk >>> i) % 2 == 1)).toNat)

/-- TreePLRUReplacement.hpp 142-160 `getDisplayString`, as the list of way numbers -/
def plruDisplay (levels : Nat) (bits : Nat → Bool) : List Nat :=
  (List.range (2 ^ levels)).reverse.map (fun rnk => rankDescend bits rnk levels 1 - 2 ^ levels)

/-- LRUReplacement.hpp with `n` ways: ctor 24-30, reset 32-35 (does nothing), touchLRU 42-46, touchMRU 53-57,
getLRUWay 64, getMRUWay 71.  `way_map_[way]` always denotes the node that holds `way` (`splice` keeps iterators valid),
so splicing it is removing `way` from the list and putting it at the front or back. -/
def trueLru (n : Nat) : Policy (List Nat) where
  init := List.range n
  lru l := l.headD 0
  mru l := l.getLastD 0
  touchLRU l way := way :: l.erase way
  touchMRU l way := l.erase way ++ [way]
  reset l := l

/-! ### address decoding -/

/-- the parameters of a cache -/
structure Geo where
  line : Nat
  stride : Nat
  nSets : Nat
  nWays : Nat

/-- DefaultAddrDecoder.hpp 21-42 and Cache.hpp:31: number of sets from the size in bytes -/
def Geo.ofSize (bytes line stride ways : Nat) : Geo := ⟨line, stride, bytes / (line * ways), ways⟩

/-- DefaultAddrDecoder.hpp:39,43 `calcTag` -/
def Geo.tag (g : Geo) (a : Nat) : Nat := a >>> Nat.log2 (g.nSets * g.stride)
/-- DefaultAddrDecoder.hpp:37-38,44 `calcIdx` -/
def Geo.idx (g : Geo) (a : Nat) : Nat := (a >>> Nat.log2 g.stride) &&& (g.nSets - 1)
/-- DefaultAddrDecoder.hpp:36,45 `calcBlockAddr`; `~uint64_t(line - 1)` is `2^64 - line` -/
def Geo.block (g : Geo) (a : Nat) : Nat := a &&& (2 ^ 64 - g.line)
/-- DefaultAddrDecoder.hpp:35,46 `calcBlockOffset` -/
def Geo.off (g : Geo) (a : Nat) : Nat := a &&& (g.line - 1)

/-! ### lines and sets -/

/-- BasicCacheItem.hpp (`addr_`, `tag_`), LineData.hpp (`valid_`, `modified_`, `data_`), SimpleCache2.hpp 35-48
(`is_nt_`) -/
structure Line where
  valid : Bool
  modified : Bool
  nt : Bool
  addr : Nat
  tag : Nat
  data : Nat → Nat

/-- BasicCacheItem.hpp 51-54 `setAddr` -/
def Line.setAddr (g : Geo) (l : Line) (a : Nat) : Line := { l with addr := g.block a, tag := g.tag a }

/-- LineData.hpp 46-52 `reset(addr)` and SimpleCache2.hpp 38-41 `reset(addr, nt)` -/
def Line.reset (g : Geo) (l : Line) (a : Nat) (nt : Bool) : Line :=
  { l.setAddr g a with valid := true, modified := false, nt := nt }

/-- BasicCacheSet.hpp 233-236 and `previous_nt_way_` of SimpleCache2.hpp:32 -/
structure CSet (σ : Type) where
  ways : Nat → Line
  rep : σ
  prevNT : Nat

/-- BasicCacheSet.hpp 109-121 `getItem(tag)` and 92-104 `peekItem(tag)`: the way found -/
def CSet.find {σ} (s : CSet σ) (n tag : Nat) : Option Nat :=
  (List.range n).find? (fun i => (s.ways i).valid && (s.ways i).tag == tag)

/-- the loop of BasicCacheSet.hpp 126-143 `getItem(tag, is_cold_miss)` -/
def CSet.findColdFrom {σ} (s : CSet σ) (tag : Nat) : List Nat → Bool → Option Nat × Bool
  | [], cold => (none, cold)
  | i :: is, cold =>
    if (s.ways i).valid then
      if (s.ways i).tag == tag then (some i, false) else s.findColdFrom tag is cold
    else s.findColdFrom tag is true

/-- BasicCacheSet.hpp 126-143 `getItem(tag, is_cold_miss)` -/
def CSet.findCold {σ} (s : CSet σ) (n tag : Nat) : Option Nat × Bool := s.findColdFrom tag (List.range n) false

/-- BasicCacheSet.hpp 198-207 `findInvalidWay()` -/
def CSet.findInvalid {σ} (s : CSet σ) (n : Nat) : Nat :=
  ((List.range n).find? (fun i => !(s.ways i).valid)).getD n

/-- BasicCacheSet.hpp 227-230 `hasOpenWay` -/
def CSet.hasOpenWay {σ} (s : CSet σ) (n : Nat) : Bool := s.findInvalid n != n

/-- BasicCacheSet.hpp 185-196 `getItemForReplacementWithInvalidCheck`: the way chosen -/
def CSet.replaceCheck {σ} (p : Policy σ) (s : CSet σ) (n : Nat) : Nat :=
  if s.findInvalid n ≥ n then p.lru s.rep else s.findInvalid n

/-! ### the cache -/

/-- Cache.hpp 199-204 -/
structure Cache (σ : Type) where
  sets : Nat → CSet σ

/-- Cache.hpp 25-53 with a default line (its data is arbitrary) that is not valid -/
def Cache.init {σ} (p : Policy σ) (d : Line) : Cache σ := ⟨fun _ => ⟨fun _ => d, p.init, 0⟩⟩

section
variable {σ : Type} (g : Geo) (p : Policy σ)

/-- Cache.hpp 117-131 `getItem(addr)`/`peekItem(addr)`: the way found in the set of the address -/
def Cache.find (c : Cache σ) (a : Nat) : Option Nat := (c.sets (g.idx a)).find g.nWays (g.tag a)

/-- SimpleCache2.hpp 98-102 `isHit` (and SimpleCache.hpp 84-88) -/
def Cache.isHit (c : Cache σ) (a : Nat) : Bool := (c.find g a).isSome

/-- change one line -/
def Cache.setLine (c : Cache σ) (s w : Nat) (l : Line) : Cache σ :=
  ⟨upd c.sets s { c.sets s with ways := upd (c.sets s).ways w l }⟩

/-- SimpleCache2.hpp 173-183: `touchMRU`/`touchLRU` of the line at set `s`, way `w` -/
def Cache.touchMRU (c : Cache σ) (s w : Nat) : Cache σ :=
  ⟨upd c.sets s { c.sets s with rep := p.touchMRU (c.sets s).rep w }⟩
@[inherit_doc Cache.touchMRU]
def Cache.touchLRU (c : Cache σ) (s w : Nat) : Cache σ :=
  ⟨upd c.sets s { c.sets s with rep := p.touchLRU (c.sets s).rep w }⟩

/-- the three ways of choosing a line to replace -/
inductive How where
  | lru
  | invalidCheck
  | nt (nt : Bool)
deriving DecidableEq, Repr

/-- SimpleCache2.hpp 124-155 `getLineForReplacement(addr, nt)` for `nt = true` -/
def CSet.ntVictim (s : CSet σ) : Nat :=
  if !(s.ways 0).nt then 0
  else if !(s.ways 1).nt then 1
  else if s.prevNT == 0 then 0 else 1

/-- SimpleCache2.hpp 110-113 `getLineForReplacement(addr)`, 117-120 `getLineForReplacementWithInvalidCheck(addr)`,
124-155 `getLineForReplacement(addr, nt)`: the way chosen in the set of the address -/
def Cache.victim (c : Cache σ) (a : Nat) : How → Nat
  | .lru => p.lru (c.sets (g.idx a)).rep
  | .invalidCheck => (c.sets (g.idx a)).replaceCheck p g.nWays
  | .nt true => (c.sets (g.idx a)).ntVictim
  | .nt false => p.lru (c.sets (g.idx a)).rep

/-- SimpleCache2.hpp 212-217 `allocateWithMRUUpdate(line, addr)` and 221-231 `allocateWithMRUUpdate(line, addr, nt)` -/
def Cache.allocate (c : Cache σ) (s w a : Nat) (nt : Option Bool) : Cache σ :=
  let l := (c.sets s).ways w
  let c1 := c.setLine s w (l.reset g a (nt.getD l.nt))
  let c2 : Cache σ := if nt = some true then ⟨upd c1.sets (g.idx a) { c1.sets (g.idx a) with prevNT := w }⟩ else c1
  c2.touchMRU p s w

/-- SimpleCache2.hpp 233-240 `invalidateLineWithLRUUpdate` -/
def Cache.invalidate (c : Cache σ) (s w : Nat) : Cache σ :=
  let l := ((c.sets s).ways w).reset g 0 false
  (c.setLine s w { l with valid := false }).touchLRU p s w

/-- SimpleCache2.hpp 242-253 `invalidateAll` (also SimpleCache.hpp 221-231) -/
def Cache.invalidateAll (c : Cache σ) : Cache σ :=
  ⟨fun s => { c.sets s with ways := fun w => { (c.sets s).ways w with valid := false }, rep := p.reset (c.sets s).rep }⟩

/-- `memcpy` of `bs` to offset `a` -/
def put (m : Nat → Nat) (a : Nat) (bs : List Nat) : Nat → Nat :=
  fun x => if a ≤ x ∧ x < a + bs.length then bs.getD (x - a) 0 else m x

/-- `memcpy` of `n` bytes from offset `a` -/
def get (m : Nat → Nat) (a n : Nat) : List Nat := (List.range n).map (fun i => m (a + i))

/-- LineData.hpp 126-133 `write` (and `setModified(true)` of the callers); `none` = assertion failure -/
def Line.write (l : Line) (off : Nat) (bs : List Nat) : Option Line :=
  if off + bs.length ≤ g.line then some { l with data := put l.data off bs, modified := true } else none

/-- LineData.hpp 117-124 `read`; `none` = assertion failure -/
def Line.read (l : Line) (off n : Nat) : Option (List Nat) :=
  if off + n ≤ g.line then some (get l.data off n) else none

/-- SimpleCache2.hpp 197-208 `writeWithMRUUpdate`; a failing assertion leaves the cache as it was -/
def Cache.write (c : Cache σ) (s w a : Nat) (bs : List Nat) : Cache σ :=
  match ((c.sets s).ways w).write g (g.off a) bs with
  | some l => (c.setLine s w l).touchMRU p s w
  | none => c

/-- SimpleCache2.hpp 185-195 `readWithMRUUpdate` -/
def Cache.read (c : Cache σ) (s w a n : Nat) : Cache σ × Option (List Nat) :=
  match ((c.sets s).ways w).read g (g.off a) n with
  | some bs => (c.touchMRU p s w, some bs)
  | none => (c, none)

/-! ### a user of `SimpleCache2` -/

/-- what a user of `SimpleCache2` sees happen: block `b` filled, replacing block `v`; block `b` invalidated; all
invalidated -/
inductive Obs where
  | fill (b : Nat) (v : Option Nat)
  | drop (b : Nat)
  | dropAll
deriving DecidableEq, Repr

/-- calls: `fill` takes a line for replacement and allocates it for the address; the others work on the line found for
the address, if there is one -/
inductive Op where
  | fill (a : Nat) (how : How)
  | read (a n : Nat)
  | write (a : Nat) (bs : List Nat)
  | touchMRU (a : Nat)
  | touchLRU (a : Nat)
  | invalidate (a : Nat)
  | invalidateAll
deriving DecidableEq, Repr

/-- the cache and what happened so far (ghost) -/
structure User (σ : Type) where
  c : Cache σ
  trace : List Obs

/-- the `nt` argument of `allocateWithMRUUpdate` that goes with the choice -/
def How.arg : How → Option Bool
  | .nt b => some b
  | _ => none

/-- the user program's step -/
def User.step (u : User σ) : Op → User σ
  | .fill a how =>
    let w := u.c.victim g p a how
    let v := (u.c.sets (g.idx a)).ways w
    ⟨u.c.allocate g p (g.idx a) w a how.arg, u.trace ++ [.fill (g.block a) (if v.valid then some v.addr else none)]⟩
  | .read a n =>
    match u.c.find g a with
    | some w => { u with c := (u.c.read g p (g.idx a) w a n).1 }
    | none => u
  | .write a bs =>
    match u.c.find g a with
    | some w => { u with c := u.c.write g p (g.idx a) w a bs }
    | none => u
  | .touchMRU a =>
    match u.c.find g a with
    | some w => { u with c := u.c.touchMRU p (g.idx a) w }
    | none => u
  | .touchLRU a =>
    match u.c.find g a with
    | some w => { u with c := u.c.touchLRU p (g.idx a) w }
    | none => u
  | .invalidate a =>
    match u.c.find g a with
    | some w => ⟨u.c.invalidate g p (g.idx a) w, u.trace ++ [.drop (g.block a)]⟩
    | none => u
  | .invalidateAll => ⟨u.c.invalidateAll p, u.trace ++ [.dropAll]⟩

/-! ### `SimpleCache` in front of a memory -/

/-- SimpleCache.hpp 299-302, and the memory of the next level.  The virtual functions `castout_`, `reload_` and
`writeNextLevel_` (271-296) only count in the base class; they are modelled as the derived class a user writes, which
connects them to the memory. -/
structure Simple (σ : Type) where
  c : Cache σ
  through : Bool
  allocate : Bool
  mem : Nat → Nat

/-- SimpleCache.hpp 322-335 `replaceLine_`: `castout_` writes the line to the memory, `reload_` (277-286) fetches the
block; returns the way -/
def Simple.replaceLine (s : Simple σ) (a : Nat) : Simple σ × Nat :=
  let i := g.idx a
  let w := p.lru (s.c.sets i).rep
  let v := (s.c.sets i).ways w
  let mem := if v.valid && v.modified then put s.mem v.addr (get v.data 0 g.line) else s.mem
  let b := g.block a
  let l := { v.setAddr g b with valid := true, modified := false, data := fun o => mem (b + o) }
  ({ s with c := s.c.setLine i w l, mem := mem }, w)

/-- SimpleCache.hpp 111-132 `read`; `none` = assertion failure -/
def Simple.read (s : Simple σ) (a n : Nat) : Simple σ × Option (List Nat) :=
  let r := match s.c.find g a with
    | some w => (s, w)
    | none => s.replaceLine g p a
  let c := r.1.c.touchMRU p (g.idx a) r.2
  ({ r.1 with c := c }, ((c.sets (g.idx a)).ways r.2).read g (g.off a) n)

/-- SimpleCache.hpp 160-170: the part of `write` on the line -/
def Simple.writeLine (s : Simple σ) (w a : Nat) (bs : List Nat) : Option (Simple σ) :=
  let c := s.c.touchMRU p (g.idx a) w
  match ((c.sets (g.idx a)).ways w).write g (g.off a) bs with
  | some l => some { s with c := c.setLine (g.idx a) w l }
  | none => none

/-- SimpleCache.hpp 137-176 `write`; `none` = assertion failure -/
def Simple.write (s : Simple σ) (a : Nat) (bs : List Nat) : Option (Simple σ) :=
  match s.c.find g a with
  | some w =>
    (s.writeLine g p w a bs).map (fun s' => if s.through then { s' with mem := put s'.mem a bs } else s')
  | none =>
    if s.allocate then
      let r := s.replaceLine g p a
      (r.1.writeLine g p r.2 a bs).map (fun s' => if s.through then { s' with mem := put s'.mem a bs } else s')
    else some { s with mem := put s.mem a bs }

/-- SimpleCache.hpp 183-201 `getLine` (the caller only looks at the line) -/
def Simple.getLine (s : Simple σ) (a : Nat) : Simple σ :=
  let r := match s.c.find g a with
    | some w => (s, w)
    | none => s.replaceLine g p a
  { r.1 with c := r.1.c.touchMRU p (g.idx a) r.2 }

/-- SimpleCache.hpp 208-219 `invalidateLine`; `none` = assertion failure -/
def Simple.invalidateLine (s : Simple σ) (a : Nat) : Option (Simple σ) :=
  match s.c.find g a with
  | none => none
  | some w =>
    let l := (s.c.sets (g.idx a)).ways w
    let c := s.c.setLine (g.idx a) w { l with valid := false }
    some { s with c := c.touchLRU p (g.idx l.addr) w }

/-- SimpleCache.hpp 90-106 `isHitWithCastout`: hit, and the address and dirtiness of the line that has to be cast out -/
def Simple.isHitWithCastout (s : Simple σ) (a : Nat) : Bool × Option (Nat × Bool) :=
  match s.c.find g a with
  | some _ => (true, none)
  | none =>
    let v := (s.c.sets (g.idx a)).ways (p.lru (s.c.sets (g.idx a)).rep)
    (false, if v.valid then some (v.addr, v.modified) else none)

/-- calls of a user of `SimpleCache` -/
inductive SOp where
  | read (a n : Nat)
  | write (a : Nat) (bs : List Nat)
  | getLine (a : Nat)
  | setThrough (b : Bool)
  | setAllocate (b : Bool)
deriving DecidableEq, Repr

/-- one call and what it returns (reads: the bytes) -/
def Simple.step (s : Simple σ) : SOp → Simple σ × Option (List Nat)
  | .read a n => s.read g p a n
  | .write a bs => ((s.write g p a bs).getD s, none)
  | .getLine a => (s.getLine g p a, none)
  | .setThrough b => ({ s with through := b }, none)
  | .setAllocate b => ({ s with allocate := b }, none)

end

end Sparta.Cache
