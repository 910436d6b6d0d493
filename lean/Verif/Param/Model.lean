import Verif.Common
/-!
Parameters and parameter sets: values, defaults, access counts, lockdown, modifier callbacks.

Code: sparta/sparta/simulation/Parameter.hpp (`ParameterBase` 240-970, `ValidationCheckCallback` 985-1105, `Parameter`
1120-2545), sparta/src/Parameter.cpp 16-85 and 358-420, sparta/sparta/simulation/ParameterSet.hpp 116-222 and 420-490,
sparta/sparta/utils/Printing.hpp 79-170, sparta/sparta/simulation/TreeNode.hpp 429-437.

Simplifications: one parameter set; a parameter is known by its place in the set (`params_`), all are added before the
first call.  A value is a number (any scalar; the number 0 is the value-initialised one) or a vector of values; the type of a
parameter is the number of its dimensions `dim`, whether its scalars are `std::string`s, and a number `ty` that only
matters to the conversions from and to text, which are arbitrary functions (`Env`).  An argument whose C++ type would
be refused by the compiler gives the answer `illTyped`.  Counts and indices do not overflow, memory does not run out.  A
modifier callback is any strategy that calls the same interface, sees the answers and the exceptions, and may throw; which
strategy may differ from one invocation to the next.  A parameter outside a set (null `ParameterSet`), the virtual tree,
copies of the set's name table, display bases, log output, `lock`/`unlock` called by the user, and `markHidden` apart from
the constructor's are not modelled.
-/
namespace Sparta.Param

abbrev Str := List Char

inductive Val
  | leaf (n : Nat)
  | vec (l : List Val)

mutual
def Val.decEq : (a b : Val) → Decidable (a = b)
  | .leaf m, .leaf n => if h : m = n then isTrue (by rw [h]) else isFalse (fun e => h (by injection e))
  | .leaf _, .vec _ => isFalse (fun e => nomatch e)
  | .vec _, .leaf _ => isFalse (fun e => nomatch e)
  | .vec l, .vec m =>
    match Val.decEqL l m with
    | isTrue h => isTrue (by rw [h])
    | isFalse h => isFalse (fun e => h (by injection e))
def Val.decEqL : (a b : List Val) → Decidable (a = b)
  | [], [] => isTrue rfl
  | [], _ :: _ => isFalse (fun e => nomatch e)
  | _ :: _, [] => isFalse (fun e => nomatch e)
  | a :: l, b :: m =>
    match Val.decEq a b, Val.decEqL l m with
    | isTrue h, isTrue h' => isTrue (by rw [h, h'])
    | isFalse h, _ => isFalse (fun e => h (by injection e))
    | _, isFalse h => isFalse (fun e => h (by injection e))
end

instance : DecidableEq Val := Val.decEq

/-- what is thrown: `SpartaException` (also `ParameterException` and failed `sparta_assert`) or anything else -/
inductive Exn
  | sparta
  | other
deriving DecidableEq

inductive Err
  | exn (e : Exn)
  | ub
  | deep
deriving DecidableEq

/-- Parameter.hpp 1134-1140 -/
inductive Attr
  | default
  | locked
  | hidden
deriving DecidableEq

/-- Parameter.hpp 918-965 and 1142-1149: the members of a parameter -/
structure Param where
  dim : Nat
  str : Bool
  ty : Nat
  attr : Attr
  vol : Bool
  dflt : Val
  val : Val
  ovr : Bool
  reads : Nat
  writes : Nat
  ignored : Bool
  quote : Str
  cb : Option Nat
  assoc : List Nat
  deps : List (Str × Nat)
deriving DecidableEq

/-- Parameter.hpp 1169-1226, the constructors -/
def newParam (dim : Nat) (str : Bool) (ty : Nat) (attr : Attr) (vol : Bool) (v : Val) : Param :=
  { dim := dim, str := str, ty := ty, attr := attr, vol := vol, dflt := v, val := v, ovr := false, reads := 0, writes := 0,
    ignored := false, quote := [], cb := none, assoc := [], deps := [] }

/-- `phase`: PhasedObject.hpp 43-73, 3 is TREE_FINALIZED, 4 is TREE_TEARDOWN; `locked`: `special_params_lockdown_` of the
nodes; `final`: the simulation uses a final configuration; `stack`: `locking_params_stack_`, its back first; `calls` is the
number of callbacks invoked so far. -/
structure St where
  ps : List Param
  phase : Nat
  locked : Bool
  final : Bool
  stack : List Nat
  calls : Nat
deriving DecidableEq

inductive Op
  | read (i : Nat)
  | peek (i : Nat)
  | readItem (i : Nat) (is : List Nat) (peek : Bool)
  | sizeAt (i : Nat) (is : List Nat) (peek : Bool)
  | num (i : Nat) (peek : Bool)
  | at_ (i : Nat) (k : Nat) (peek : Bool)
  | getDefault (i : Nat)
  | isDefault (i : Nat)
  | isOverridden (i : Nat)
  | readCount (i : Nat)
  | writeCount (i : Nat)
  | isIgnored (i : Nat)
  | isVolatile (i : Nat)
  | isVisible (i : Nat)
  | assign (i : Nat) (v : Val)
  | setStr (i : Nat) (s : Str) (poke : Bool)
  | setVec (i : Nat) (ss : List Str) (poke : Bool)
  | setItem (i : Nat) (is : List Nat) (s : Str)
  | push (i : Nat) (v : Val)
  | restore (i : Nat)
  | resize (i : Nat) (is : List Nat)
  | clear (i : Nat)
  | ovStr (i : Nat) (s : Str)
  | ovVec (i : Nat) (ss : List Str)
  | ovItem (i : Nat) (is : List Nat) (s : Str)
  | ovResize (i : Nat) (is : List Nat)
  | ovClear (i : Nat)
  | ignore (i : Nat)
  | unread (i : Nat)
  | setVolatile (i : Nat)
  | setQuote (i : Nat) (q : Str)
  | addDep (i : Nat) (name : Str) (c : Nat)
  | validate (i : Nat)
  | associate (i : Nat) (js : List Nat) (h : Nat)
  | resetReads
  | resetWrites
  | verifyAllRead
  | ignoreAll
  | isLocked
  | lockdown
  | setPhase (n : Nat)
deriving DecidableEq

inductive Ans
  | unit
  | val (v : Val)
  | nat (n : Nat)
  | bool (b : Bool)
  | text (s : Str)
  | report (b : Bool) (names : Str)
  | illTyped
  | noParam
deriving DecidableEq

/-- a modifier callback: it ends, throws, or makes a call and goes on according to what came of it -/
inductive Cb
  | done
  | raise (e : Exn)
  | call (o : Op) (k : Except Exn Ans → Cb)

/-- `cast`: `smartLexicalCast`; `render`: `operator<<` of a scalar; `check`: a validation callback, it may change the value it is
shown (`ValueType&`); `handler n h`: what handler `h` does when it is invoked as the `n`-th -/
structure Env where
  cast : Nat → Str → Except Exn Nat
  render : Nat → Nat → Str
  check : Nat → Val → Bool × Val
  handler : Nat → Nat → Cb

/-! ### values -/

/-- a value of a type with `d` dimensions -/
def hasDim : Nat → Val → Bool
  | 0, .leaf _ => true
  | 0, .vec _ => false
  | _ + 1, .leaf _ => false
  | d + 1, .vec l => l.all (hasDim d)

/-- the value-initialised element -/
def zero : Nat → Val
  | 0 => .leaf 0
  | _ + 1 => .vec []

/-- Parameter.hpp 1863-1866 and 1985-1988: `if(idx >= vec.size()) vec.resize(idx+1)` -/
def grow (d idx : Nat) (l : List Val) : List Val := l ++ List.replicate (idx + 1 - l.length) (zero d)

/-- Parameter.hpp 1916-1958 `setFinalVectorItemValueFromString_`, both overloads -/
def setFinal (cast : Str → Except Exn Nat) (d : Nat) (s : Str) (v : Val) : Val × Option Exn :=
  if d = 0 then
    match cast s with
    | .ok n => (.leaf n, none)
    | .error e => (v, some e)
  else (v, some .sparta)

/-- Parameter.hpp 1852-1907 `setVectorItemValueFromString_`, both overloads.  Nothing is undone when it throws.  The last case
does not occur for values of the right type. -/
def setIn (cast : Str → Except Exn Nat) (s : Str) : Nat → List Nat → Val → Val × Option Exn
  | d, [], v => setFinal cast d s v
  | 0, _ :: _, v => (v, some .sparta)
  | d + 1, i :: is, .vec l =>
    let l' := grow d i l
    let r := setIn cast s d is (l'.getD i (zero d))
    (.vec (l'.set i r.1), r.2)
  | _ + 1, _ :: _, .leaf n => (.leaf n, some .sparta)

/-- Parameter.hpp 1974-2021 `resizeVectorsFromString_`, both overloads -/
def resizeIn : Nat → List Nat → Val → Val × Option Exn
  | 0, _, v => (v, some .sparta)
  | _ + 1, [], v => (v, none)
  | d + 1, i :: is, .vec l =>
    let l' := grow d i l
    let r := resizeIn d is (l'.getD i (zero d))
    (.vec (l'.set i r.1), r.2)
  | _ + 1, _ :: _, .leaf n => (.leaf n, some .sparta)

/-- Parameter.hpp 2076-2172 `getVectorItemValueFromString_` and `getFinalVectorItemValueFromString_` -/
def getIn : Nat → List Nat → Val → Except Exn Nat
  | 0, [], .leaf n => .ok n
  | d + 1, i :: is, .vec l =>
    match l[i]? with
    | none => .error .sparta
    | some v => getIn d is v
  | _, _, _ => .error .sparta

/-- Parameter.hpp 2195-2290 `getVectorSize_` and `getFinalVectorSize_` -/
def sizeIn : Nat → List Nat → Val → Except Exn Nat
  | _ + 1, [], .vec l => .ok l.length
  | d + 1, i :: is, .vec l =>
    match l[i]? with
    | none => .error .sparta
    | some v => sizeIn d is v
  | _, _, _ => .error .sparta

/-- Parameter.hpp 2385-2389: all the strings of a vector -/
def castAll (cast : Str → Except Exn Nat) : List Str → Except Exn (List Val)
  | [] => .ok []
  | s :: ss =>
    match cast s with
    | .error e => .error e
    | .ok n =>
      match castAll cast ss with
      | .error e => .error e
      | .ok l => .ok (.leaf n :: l)

/-- Printing.hpp 79-100: the elements, with commas between -/
def commas : List Str → Str
  | [] => []
  | [x] => x
  | x :: y :: l => x ++ [',', ' '] ++ commas (y :: l)

/-- Printing.hpp 79-170 `stringize_value` -/
def stringize (rend : Nat → Str) (isStr : Bool) (q : Str) : Nat → Val → Str
  | 0, .leaf n => if isStr then q ++ rend n ++ q else rend n
  | d + 1, .vec l => ['['] ++ commas (l.map (stringize rend isStr q d)) ++ [']']
  | _, _ => []

/-! ### one parameter -/

/-- Parameter.hpp 1827-1832 `checkModificationPermission_` -/
def allowed (locked : Bool) (p : Param) : Bool := !(locked && p.attr != .default)

/-- Parameter.hpp 859-890 `incrementWriteCount_`; `none`: it throws -/
def countWrite (phase : Nat) (p : Param) : Option Param :=
  if p.vol = false ∧ 0 < p.reads then none
  else if 3 < phase then none
  else some { p with reads := 0, writes := p.writes + 1 }

/-- Parameter.hpp 1286-1288 `getDefaultAsString` -/
def defaultText (env : Env) (p : Param) : Str := stringize (env.render p.ty) p.str p.quote p.dim p.dflt

/-- Parameter.hpp 1297-1302 `getValueAsString` -/
def valueText (env : Env) (p : Param) : Str :=
  if 0 < p.dim ∧ p.quote = [] then stringize (env.render p.ty) p.str ['"'] p.dim p.val
  else stringize (env.render p.ty) p.str p.quote p.dim p.val

/-- Parameter.hpp 807-809 `incrementReadCount_` unless peeking -/
def touch (peek : Bool) (p : Param) : Param := if peek then p else { p with reads := p.reads + 1 }

/-- Parameter.hpp 1733-1744 `validateDependencies`: the callbacks share one copy of the value -/
def runChecks (env : Env) : List (Str × Nat) → Val → Bool × Str
  | [], _ => (true, [])
  | (n, c) :: ds, v =>
    let r := env.check c v
    let rest := runChecks env ds r.2
    if r.1 then rest else (false, n ++ [','] ++ rest.2)

/-- what a call on one parameter does: the parameter afterwards and the outcome -/
abbrev PR := Param × Except Exn Ans

/-- Parameter.hpp 2329-2398 `overrideDefaultFromString_` -/
def overrideScalar (env : Env) (locked : Bool) (p : Param) (s : Str) : PR :=
  if !allowed locked p then (p, .error .sparta)
  else if p.dim ≠ 0 then (p, .error .sparta)
  else
    match env.cast p.ty s with
    | .error e => (p, .error e)
    | .ok n => ({ p with dflt := .leaf n }, .ok .unit)

/-- Parameter.hpp 2417-2455 `overrideDefaultFromStringVector_` -/
def overrideVector (env : Env) (locked : Bool) (p : Param) (ss : List Str) : PR :=
  if !allowed locked p then (p, .error .sparta)
  else if p.dim ≠ 1 then (p, .error .sparta)
  else
    match castAll (env.cast p.ty) ss with
    | .error e => (p, .error e)
    | .ok l => ({ p with dflt := .vec l }, .ok .unit)

/-- Parameter.hpp 1610-1624: after the default has been changed -/
def finishOverride (checkReads : Bool) (r : PR) : PR :=
  match r.2 with
  | .error e => (r.1, .error e)
  | .ok a => if checkReads && r.1.reads != 0 then (r.1, .error .sparta) else ({ r.1 with ovr := true }, .ok a)

/-- Parameter.hpp 1626-1638 with 1852-1878 for a default, `increment_write_count` is false -/
def overrideItem (env : Env) (locked : Bool) (p : Param) (is : List Nat) (s : Str) : PR :=
  if is = [] then overrideScalar env locked p s
  else if !allowed locked p then (p, .error .sparta)
  else
    let r := setIn (env.cast p.ty) s p.dim is p.dflt
    match r.2 with
    | some e => ({ p with dflt := r.1 }, .error e)
    | none => ({ p with dflt := r.1 }, .ok .unit)

/-- Parameter.hpp 1852-1878 for the value: the write is counted after the value has been changed -/
def writeItem (env : Env) (phase : Nat) (locked : Bool) (p : Param) (is : List Nat) (s : Str) : PR :=
  if !allowed locked p then (p, .error .sparta)
  else
    let r := setIn (env.cast p.ty) s p.dim is p.val
    match r.2 with
    | some e => ({ p with val := r.1 }, .error e)
    | none =>
      match countWrite phase { p with val := r.1 } with
      | none => ({ p with val := r.1 }, .error .sparta)
      | some p' => (p', .ok .unit)

/-- Parameter.hpp 1773-1781 `operator_insert_` -/
def pushBack (phase : Nat) (locked : Bool) (p : Param) (v : Val) : PR :=
  match p.dim, p.val with
  | d + 1, .vec l =>
    if hasDim d v then
      if !allowed locked p then (p, .error .sparta)
      else
        match countWrite phase p with
        | none => (p, .error .sparta)
        | some p' => ({ p' with val := .vec (l ++ [v]) }, .ok .unit)
    else (p, .ok .illTyped)
  | _, _ => (p, .ok .illTyped)

/-- Parameter.hpp 1667-1676 `restoreValueFromDefaultImpl_` -/
def restoreDefault (phase : Nat) (locked : Bool) (p : Param) : PR :=
  if !allowed locked p then (p, .error .sparta)
  else if p.reads ≠ 0 then (p, .error .sparta)
  else
    match countWrite phase p with
    | none => (p, .error .sparta)
    | some p' => ({ p' with val := p'.dflt }, .ok .unit)

/-- Parameter.hpp 1682-1688 `resizeVectorsFromString` -/
def resizeValue (locked : Bool) (p : Param) (is : List Nat) : PR :=
  if is = [] then (p, .ok .unit)
  else if !allowed locked p then (p, .error .sparta)
  else
    let r := resizeIn p.dim is p.val
    match r.2 with
    | some e => ({ p with val := r.1 }, .error e)
    | none => ({ p with val := r.1 }, .ok .unit)

/-- Parameter.hpp 1654-1660 `overrideDefaultResizeVectorsFromString` -/
def resizeDefault (locked : Bool) (p : Param) (is : List Nat) : PR :=
  if is = [] then (p, .ok .unit)
  else if !allowed locked p then (p, .error .sparta)
  else
    let r := resizeIn p.dim is p.dflt
    match r.2 with
    | some e => ({ p with dflt := r.1 }, .error e)
    | none => ({ p with dflt := r.1 }, .ok .unit)

/-- Parameter.hpp 2033-2052 `clearVectorValue_` -/
def cleared (d : Nat) (v : Val) : Val := if d = 0 then v else .vec []

/-- Parameter.hpp 2126-2172 and 1320-1331 `getItemValueFromString`: the read is counted at the end -/
def readItem (env : Env) (p : Param) (is : List Nat) (peek : Bool) : PR :=
  match getIn p.dim is p.val with
  | .error e => (p, .error e)
  | .ok n => (touch peek p, .ok (.text (stringize (env.render p.ty) p.str p.quote 0 (.leaf n))))

/-- Parameter.hpp 1338-1347 `getVectorSizeAt` -/
def readSize (p : Param) (is : List Nat) (peek : Bool) : PR :=
  match sizeIn p.dim is p.val with
  | .error e => (p, .error e)
  | .ok n => (touch peek p, .ok (.nat n))

/-- Parameter.hpp 2495-2512 `getNumValues_` -/
def numValues (p : Param) (peek : Bool) : PR :=
  match p.dim, p.val with
  | _ + 1, .vec l => (touch peek p, .ok (.nat l.length))
  | _, _ => (p, .ok (.nat 1))

/-- Parameter.hpp 2463-2488 `getValueAsStringAt_`; `vector::at` throws `std::out_of_range`, after the read has been counted -/
def readAt (env : Env) (p : Param) (k : Nat) (peek : Bool) : PR :=
  match p.dim, p.val with
  | d + 1, .vec l =>
    match l[k]? with
    | none => (touch peek p, .error .other)
    | some v => (touch peek p, .ok (.text (stringize (env.render p.ty) p.str p.quote d v)))
  | _, _ => if k = 0 then (touch peek p, .ok (.text (valueText env p))) else (p, .error .sparta)

/-- Parameter.hpp 271-275 `setIsVolatile` -/
def makeVolatile (phase : Nat) (p : Param) : PR :=
  if 3 < phase then (p, .error .sparta)
  else if p.reads ≠ 0 then (p, .error .sparta)
  else ({ p with vol := true }, .ok .unit)

/-- ParameterSet.hpp 404-427 `hasModificationPermission` (`n` parameters in the set): the answer for the first of `js` that is in the set
is the answer for all -/
def mayModify (n i : Nat) : List Nat → Bool
  | [] => true
  | j :: js => if j = i then false else if j < n then decide (i < j) else mayModify n i js

/-- Parameter.cpp 74-85: `copy_if` without the parameter itself and without duplicates -/
def copyNew (i : Nat) : List Nat → List Nat → List Nat
  | acc, [] => acc
  | acc, j :: js => if j = i ∨ j ∈ acc then copyNew i acc js else copyNew i (acc ++ [j]) js

/-- Parameter.cpp 59-86 `associateParametersForModification` -/
def associate (n i : Nat) (p : Param) (js : List Nat) (h : Nat) : PR :=
  if p.assoc ≠ [] then (p, .error .sparta)
  else if !mayModify n i js then (p, .error .sparta)
  else ({ p with cb := some h, assoc := copyNew i p.assoc js }, .ok .unit)

/-- Parameter.hpp 1088-1096: a name with a comma is refused; 1268-1272 -/
def addDep (p : Param) (name : Str) (c : Nat) : PR :=
  if ',' ∈ name then (p, .error .sparta) else ({ p with deps := p.deps ++ [(name, c)] }, .ok .unit)

/-- the calls on parameter `i` that do not invoke callbacks -/
def onParam (env : Env) (s : St) (i : Nat) (p : Param) : Op → PR
  | .read _ => (touch false p, .ok (.val p.val))
  | .peek _ => (p, .ok (.val p.val))
  | .readItem _ is pk => readItem env p is pk
  | .sizeAt _ is pk => readSize p is pk
  | .num _ pk => numValues p pk
  | .at_ _ k pk => readAt env p k pk
  | .getDefault _ => (p, .ok (.val p.dflt))
  | .isDefault _ => (p, .ok (.bool (valueText env p == defaultText env p)))
  | .isOverridden _ => (p, .ok (.bool p.ovr))
  | .readCount _ => (p, .ok (.nat p.reads))
  | .writeCount _ => (p, .ok (.nat p.writes))
  | .isIgnored _ => (p, .ok (.bool p.ignored))
  | .isVolatile _ => (p, .ok (.bool p.vol))
  | .isVisible _ => (p, .ok (.bool (!(p.attr == .hidden && s.locked))))
  | .setItem _ is t => writeItem env s.phase s.locked p is t
  | .push _ v => pushBack s.phase s.locked p v
  | .restore _ => restoreDefault s.phase s.locked p
  | .resize _ is => resizeValue s.locked p is
  | .clear _ => ({ p with val := cleared p.dim p.val }, .ok .unit)
  | .ovStr _ t => finishOverride true (overrideScalar env s.locked p t)
  | .ovVec _ ts => finishOverride true (overrideVector env s.locked p ts)
  | .ovItem _ is t => finishOverride false (overrideItem env s.locked p is t)
  | .ovResize _ is => resizeDefault s.locked p is
  | .ovClear _ => ({ p with dflt := cleared p.dim p.dflt }, .ok .unit)
  | .ignore _ => ({ p with ignored := true }, .ok .unit)
  | .unread _ => ({ p with reads := 0, ignored := false }, .ok .unit)
  | .setVolatile _ => makeVolatile s.phase p
  | .setQuote _ q => ({ p with quote := q }, .ok (.text p.quote))
  | .addDep _ n c => addDep p n c
  | .validate _ => (p, .ok (.report (runChecks env p.deps p.val).1 (runChecks env p.deps p.val).2))
  | .associate _ js h => associate s.ps.length i p js h
  | _ => (p, .ok .illTyped)

/-! ### the set -/

abbrev R := St × Except Err Ans

def St.put (s : St) (i : Nat) (p : Param) : St := { s with ps := s.ps.set i p }

def lift : Except Exn Ans → Except Err Ans
  | .ok a => .ok a
  | .error e => .error (.exn e)

/-- the set's own calls: ParameterSet.hpp 158-222 `resetReadCounts`, `resetWriteCounts`, `verifyAllRead`, `ignoreAll`; 476-478
`isLocked`; TreeNode.hpp 429-437 `lockdownParameters`; the tree's phase only advances -/
def onSet (s : St) : Op → R
  | .resetReads => ({ s with ps := s.ps.map fun p => { p with reads := 0 } }, .ok .unit)
  | .resetWrites => ({ s with ps := s.ps.map fun p => { p with writes := 0 } }, .ok .unit)
  | .verifyAllRead =>
    if s.ps.all fun p => p.ignored || decide (0 < p.reads) then (s, .ok .unit) else (s, .error (.exn .sparta))
  | .ignoreAll => ({ s with ps := s.ps.map fun p => { p with ignored := true } }, .ok .unit)
  | .isLocked => (s, .ok (.bool (!s.stack.isEmpty)))
  | .lockdown => if 1 < s.phase then (s, .error (.exn .sparta)) else ({ s with locked := true }, .ok .unit)
  | .setPhase n => ({ s with phase := max s.phase n }, .ok .unit)
  | _ => (s, .ok .illTyped)

/-- the parameter a call is made on -/
def Op.target : Op → Option Nat
  | .read i | .peek i | .readItem i _ _ | .sizeAt i _ _ | .num i _ | .at_ i _ _ | .getDefault i | .isDefault i | .isOverridden i
  | .readCount i | .writeCount i | .isIgnored i | .isVolatile i | .isVisible i | .assign i _ | .setStr i _ _ | .setVec i _ _
  | .setItem i _ _ | .push i _ | .restore i | .resize i _ | .clear i | .ovStr i _ | .ovVec i _ | .ovItem i _ _ | .ovResize i _
  | .ovClear i | .ignore i | .unread i | .setVolatile i | .setQuote i _ | .addDep i _ _ | .validate i | .associate i _ _ => some i
  | .resetReads | .resetWrites | .verifyAllRead | .ignoreAll | .isLocked | .lockdown | .setPhase _ => none

/-- what `invokeModifierCB_` does to a state -/
abbrev Inv := St → Nat → St × Option Err

/-- undo the assignment of a value -/
def St.rollback (s : St) (i : Nat) (v : Val) : St :=
  match s.ps[i]? with
  | some p => s.put i { p with val := v }
  | none => s

/-- Parameter.hpp 1590-1600, 2314-2325 and 2394-2405: the value is changed, then the callback is invoked; a `SpartaException` that comes
out of it undoes the change -/
def settle (inv : Inv) (s : St) (i : Nat) (p : Param) (v : Val) : R :=
  match inv (s.put i { p with val := v }) i with
  | (s', none) => (s', .ok .unit)
  | (s', some (.exn .sparta)) => (s'.rollback i p.val, .error (.exn .sparta))
  | (s', some e) => (s', .error e)

/-- Parameter.hpp 1587-1600: count the write unless poking -/
def store (inv : Inv) (s : St) (i : Nat) (p : Param) (v : Val) (poke : Bool) : R :=
  if poke then settle inv s i p v
  else
    match countWrite s.phase p with
    | none => (s, .error (.exn .sparta))
    | some p' => settle inv s i p' v

/-- Parameter.hpp 1568-1601 `operator=` -/
def assign (inv : Inv) (s : St) (i : Nat) (p : Param) (v : Val) : R :=
  if !hasDim p.dim v then (s, .ok .illTyped)
  else if !allowed s.locked p then (s, .error (.exn .sparta))
  else if s.final && p.attr != .hidden then (s, .ok .unit)
  else store inv s i p v false

/-- Parameter.hpp 2290-2326 `setValueFromString_` -/
def setStr (env : Env) (inv : Inv) (s : St) (i : Nat) (p : Param) (t : Str) (poke : Bool) : R :=
  if !allowed s.locked p then (s, .error (.exn .sparta))
  else if p.dim ≠ 0 then (s, .error (.exn .sparta))
  else
    match env.cast p.ty t with
    | .error e => (s, .error (.exn e))
    | .ok n => store inv s i p (.leaf n) poke

/-- Parameter.hpp 2364-2416 `setValueFromStringVector_` -/
def setVec (env : Env) (inv : Inv) (s : St) (i : Nat) (p : Param) (ts : List Str) (poke : Bool) : R :=
  if !allowed s.locked p then (s, .error (.exn .sparta))
  else if p.dim ≠ 1 then (s, .error (.exn .sparta))
  else
    match castAll (env.cast p.ty) ts with
    | .error e => (s, .error (.exn e))
    | .ok l => store inv s i p (.vec l) poke

/-- a call that invokes no callback -/
def plain (env : Env) (s : St) (i : Nat) (p : Param) (o : Op) : R :=
  (s.put i (onParam env s i p o).1, lift (onParam env s i p o).2)

/-- a call on parameter `i`; Parameter.hpp 1793-1802: `setItemValueFromString` without indices is `setValueFromString` -/
def onTarget (env : Env) (inv : Inv) (s : St) (i : Nat) (p : Param) : Op → R
  | .assign _ v => assign inv s i p v
  | .setStr _ t pk => setStr env inv s i p t pk
  | .setVec _ ts pk => setVec env inv s i p ts pk
  | .setItem _ [] t => setStr env inv s i p t false
  | o => plain env s i p o

/-- a call -/
def exec (env : Env) (inv : Inv) (s : St) (o : Op) : R :=
  match o.target with
  | none => onSet s o
  | some i =>
    match s.ps[i]? with
    | none => (s, .ok .noParam)
    | some p => onTarget env inv s i p o

/-- a modifier callback runs -/
def runCb (ex : St → Op → R) : Cb → St → St × Option Err
  | .done, s => (s, none)
  | .raise e, s => (s, some (.exn e))
  | .call o k, s =>
    match ex s o with
    | (s', .ok a) => runCb ex (k (.ok a)) s'
    | (s', .error (.exn e)) => runCb ex (k (.error e)) s'
    | (s', .error e) => (s', some e)

/-- Parameter.cpp 32-43 `unlock` -/
def unlock (s : St) (i : Nat) : St × Option Err :=
  match s.stack with
  | [] => (s, some .ub)
  | t :: ts => if t = i then ({ s with stack := ts }, none) else (s, some (.exn .sparta))

/-- ParameterSet.hpp 436-444 `canParameterBeModifiedByLockingParam` -/
def mayBeModified (s : St) (i : Nat) : Bool :=
  match s.stack with
  | [] => true
  | t :: _ => decide (t ≠ i) && mayModify s.ps.length t [i]

/-- the handler of parameter `i`, if it is to be invoked -/
def handlerOf (s : St) (i : Nat) : Option Nat :=
  match s.ps[i]? with
  | some p => if s.final then none else p.cb
  | none => none

/-- Parameter.cpp 45-62 `invokeModifierCB_`.  When the callback throws, `unlock` is not called.  The first argument bounds how deep
callbacks nest. -/
def invoke (env : Env) : Nat → Inv
  | 0, s, _ => (s, some .deep)
  | f + 1, s, i =>
    if !mayBeModified s i then (s, some (.exn .sparta))
    else
      match handlerOf s i with
      | none => (s, none)
      | some h =>
        match runCb (exec env (invoke env f)) (env.handler s.calls h) { s with stack := i :: s.stack, calls := s.calls + 1 } with
        | (s', none) => unlock s' i
        | (s', some e) => (s', some e)

/-- a call from outside -/
def step (env : Env) (s : St) (o : Op) : R := exec env (invoke env (s.ps.length + 1)) s o

/-- a new set -/
def newSet (ps : List Param) (final : Bool) : St :=
  { ps := ps, phase := 0, locked := false, final := final, stack := [], calls := 0 }

end Sparta.Param
