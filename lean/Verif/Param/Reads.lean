import Verif.Param.Reach
/-!
C160-C167: parameters and parameter sets: calls come to an end, writing after reading, counts, failed and accepted writes,
modifier callbacks.

A run starts from a set of new parameters; the handlers, the conversions and the validation callbacks are arbitrary.
-/
namespace Sparta.Param

deriving instance DecidableEq for Except

/-- the answer to a call -/
def ask (env : Env) (s : St) (o : Op) : Except Err Ans := (step env s o).2

theorem step_on {env : Env} {s : St} {i : Nat} {p : Param} {o : Op} (ht : o.target = some i) (hp : s.ps[i]? = some p) :
    step env s o = onTarget env (invoke env (s.ps.length + 1)) s i p o := by
  unfold step exec
  rw [ht]
  dsimp only
  rw [hp]

theorem put_self {s : St} {i : Nat} {p : Param} (hp : s.ps[i]? = some p) : s.put i p = s := by
  unfold St.put
  have : s.ps.set i p = s.ps := by
    apply List.ext_getElem?
    intro j
    rw [List.getElem?_set]
    split
    · rename_i e
      subst e
      rw [if_pos (lt_of_get hp), hp]
    · rfl
  rw [this]

theorem get_of_ask {env : Env} {s : St} {i : Nat} {o : Op} {r : Except Err Ans} (ht : o.target = some i) (h : ask env s o = r)
    (hr : r ≠ .ok .noParam) : ∃ p, s.ps[i]? = some p := by
  cases hp : s.ps[i]? with
  | some p => exact ⟨p, rfl⟩
  | none =>
    exfalso
    apply hr
    rw [← h]
    unfold ask step exec
    rw [ht]
    dsimp only
    rw [hp]

theorem ask_peek {env : Env} {s : St} {i : Nat} {p : Param} (hp : s.ps[i]? = some p) : ask env s (.peek i) = .ok (.val p.val) := by
  unfold ask
  rw [step_on rfl hp]
  rfl

theorem ask_readCount {env : Env} {s : St} {i : Nat} {p : Param} (hp : s.ps[i]? = some p) :
    ask env s (.readCount i) = .ok (.nat p.reads) := by
  unfold ask
  rw [step_on rfl hp]
  rfl

theorem ask_volatile {env : Env} {s : St} {i : Nat} {p : Param} (hp : s.ps[i]? = some p) :
    ask env s (.isVolatile i) = .ok (.bool p.vol) := by
  unfold ask
  rw [step_on rfl hp]
  rfl

theorem ask_ignored {env : Env} {s : St} {i : Nat} {p : Param} (hp : s.ps[i]? = some p) :
    ask env s (.isIgnored i) = .ok (.bool p.ignored) := by
  unfold ask
  rw [step_on rfl hp]
  rfl

/-! A concrete world for the examples: a text converts to its length, except "x"; the handlers are numbered. -/

def goOn (c : Cb) : Except Exn Ans → Cb
  | .ok _ => c
  | .error e => .raise e

def demo : Env where
  cast _ t := if t = ['x'] then .error .sparta else .ok t.length
  render _ n := if n = 9 then ['"', 'a', '"'] else List.replicate n 'a'
  check c v := if c = 0 then (true, .leaf 5) else (decide (v = .leaf c), v)
  handler _ h :=
    match h with
    | 1 => .call (.assign 1 (.leaf 7)) (goOn .done)
    | 2 => .raise .sparta
    | 3 => .raise .other
    | 4 => .call (.push 0 (.leaf 9)) (goOn .done)
    | 5 => .call (.read 0) (fun _ => .call (.assign 1 (.leaf 7)) (fun _ => .done))
    | _ => .done

/-- two scalars and a vector -/
def demoSet : List Param :=
  [newParam 0 false 0 .default false (.leaf 1), newParam 0 false 0 .default false (.leaf 2),
   newParam 1 false 0 .default false (.vec [.leaf 3])]

theorem demo_fresh : Fresh demoSet := by
  intro p hp
  simp only [demoSet, List.mem_cons, List.not_mem_nil, or_false] at hp
  rcases hp with rfl | rfl | rfl <;> exact ⟨_, _, _, _, _, _, rfl, rfl⟩

theorem reach_after {env : Env} {ps : List Param} {fin : Bool} (h : Fresh ps) (ops : List Op) :
    Reachable env (after env (newSet ps fin) ops) := ⟨ps, fin, ops, h, rfl⟩

/-! ### C160: every call comes to an end -/

/-- C160: whatever the modifier callbacks do, callbacks nest at most as deep as there are parameters, so every call returns or throws; the
stack of running callbacks is never popped empty. -/
theorem C160_calls_return (env : Env) (ps : List Param) (fin : Bool) (hf : Fresh ps) (ops : List Op) :
    ∀ r ∈ (runOps (step env) (newSet ps fin) ops).2, r ≠ .error .ub ∧ r ≠ .error .deep := by
  have : ∀ (ops : List Op) s, Reachable env s → ∀ r ∈ (runOps (step env) s ops).2, r ≠ .error .ub ∧ r ≠ .error .deep := by
    intro ops
    induction ops with
    | nil => intro s _ r hr; cases hr
    | cons o ops ih =>
      intro s h r hr
      rcases List.mem_cons.mp hr with e | e
      · subst e
        exact ⟨(step_out (reach_fine h)).ub, (step_out (reach_fine h)).deep⟩
      · exact ih _ (reach_step h) r e
  exact this ops _ ⟨ps, fin, [], hf, rfl⟩

/-- C160, for one call in any state that can come about -/
theorem C160_call_returns {env : Env} {s : St} (h : Reachable env s) (o : Op) :
    (∃ a, ask env s o = .ok a) ∨ ∃ e, ask env s o = .error (.exn e) := by
  have h1 := step_out (env := env) (o := o) (reach_fine h)
  unfold ask
  cases e : (step env s o).2 with
  | ok a => exact Or.inl ⟨a, rfl⟩
  | error x =>
    cases x with
    | exn x => exact Or.inr ⟨x, rfl⟩
    | ub => exact absurd e h1.ub
    | deep => exact absurd e h1.deep

example : Fresh demoSet ∧ (runOps (step demo) (newSet demoSet false) [.associate 0 [1] 1, .associate 1 [2] 2, .assign 0 (.leaf 4)]).2 =
    [.ok .unit, .ok .unit, .error (.exn .sparta)] := ⟨demo_fresh, by decide +kernel⟩

/-! ### C161: no writing after reading -/

/-- the calls that write parameter `i` and count it -/
def Op.counted : Op → Option Nat
  | .assign i _ | .setStr i _ false | .setVec i _ false | .push i _ | .restore i | .setItem i [] _ => some i
  | _ => none

theorem store_refused {inv : Inv} {s : St} {i : Nat} {p : Param} {v : Val} (h : countWrite s.phase p = none) :
    store inv s i p v false = (s, .error (.exn .sparta)) := by
  unfold store
  rw [if_neg (by decide), h]

theorem counted_refused {env : Env} {s : St} {i : Nat} {p : Param} {o : Op} (hp : s.ps[i]? = some p) (hc : o.counted = some i)
    (h : countWrite s.phase p = none) :
    (step env s o).1 = s ∧ (ask env s o = .ok .unit → s.final = true ∧ ∃ v, o = .assign i v) := by
  unfold ask
  cases o
  case assign j v =>
    injection hc with hc
    subst hc
    rw [step_on rfl hp]
    unfold onTarget assign
    dsimp only
    split
    · exact ⟨rfl, fun e => by cases e⟩
    · split
      · exact ⟨rfl, fun e => by cases e⟩
      · split
        · rename_i hf
          refine ⟨rfl, fun _ => ⟨?_, v, rfl⟩⟩
          rw [Bool.and_eq_true] at hf
          exact hf.1
        · rw [store_refused h]
          exact ⟨rfl, fun e => by cases e⟩
  case setStr j t pk =>
    cases pk with
    | true => cases hc
    | false =>
      injection hc with hc
      subst hc
      rw [step_on rfl hp]
      unfold onTarget setStr
      dsimp only
      split
      · exact ⟨rfl, fun e => by cases e⟩
      · split
        · exact ⟨rfl, fun e => by cases e⟩
        · split
          · exact ⟨rfl, fun e => by cases e⟩
          · rw [store_refused h]
            exact ⟨rfl, fun e => by cases e⟩
  case setVec j t pk =>
    cases pk with
    | true => cases hc
    | false =>
      injection hc with hc
      subst hc
      rw [step_on rfl hp]
      unfold onTarget setVec
      dsimp only
      split
      · exact ⟨rfl, fun e => by cases e⟩
      · split
        · exact ⟨rfl, fun e => by cases e⟩
        · split
          · exact ⟨rfl, fun e => by cases e⟩
          · rw [store_refused h]
            exact ⟨rfl, fun e => by cases e⟩
  case setItem j is t =>
    cases is with
    | cons a b => cases hc
    | nil =>
      injection hc with hc
      subst hc
      rw [step_on rfl hp]
      unfold onTarget setStr
      dsimp only
      split
      · exact ⟨rfl, fun e => by cases e⟩
      · split
        · exact ⟨rfl, fun e => by cases e⟩
        · split
          · exact ⟨rfl, fun e => by cases e⟩
          · rw [store_refused h]
            exact ⟨rfl, fun e => by cases e⟩
  case push j v =>
    injection hc with hc
    subst hc
    rw [step_on rfl hp]
    show s.put j (pushBack s.phase s.locked p v).1 = s ∧ (lift (pushBack s.phase s.locked p v).2 = _ → _)
    have : (pushBack s.phase s.locked p v).1 = p ∧ (pushBack s.phase s.locked p v).2 ≠ .ok .unit := by
      unfold pushBack
      split
      · split
        · split
          · exact ⟨rfl, fun e => by cases e⟩
          · rw [h]
            exact ⟨rfl, fun e => by cases e⟩
        · exact ⟨rfl, fun e => by cases e⟩
      · exact ⟨rfl, fun e => by cases e⟩
    rw [this.1, put_self hp]
    refine ⟨rfl, fun e => ?_⟩
    cases hr : (pushBack s.phase s.locked p v).2 with
    | ok a =>
      rw [hr] at e
      injection e with e
      subst e
      exact absurd hr this.2
    | error x =>
      rw [hr] at e
      cases e
  case restore j =>
    injection hc with hc
    subst hc
    rw [step_on rfl hp]
    show s.put j (restoreDefault s.phase s.locked p).1 = s ∧ (lift (restoreDefault s.phase s.locked p).2 = _ → _)
    have : restoreDefault s.phase s.locked p = (p, .error .sparta) := by
      unfold restoreDefault
      split
      · rfl
      · split
        · rfl
        · rw [h]
    rw [this, put_self hp]
    exact ⟨rfl, fun e => by cases e⟩
  all_goals cases hc

theorem countWrite_read {ph : Nat} {p : Param} (hv : p.vol = false) (hr : 0 < p.reads) : countWrite ph p = none := by
  unfold countWrite
  rw [if_pos ⟨hv, hr⟩]

/-- C161: a parameter that is not volatile and has been read refuses to be written: by assignment, from text, by insertion, by
restoring the default.  Nothing at all changes.  (With a final configuration assignments are ignored without an exception.)
Missing: items of vectors, resizing, clearing, poking. -/
theorem C161_read_refuses_write_partial {env : Env} {s : St} {i r : Nat} (hv : ask env s (.isVolatile i) = .ok (.bool false))
    (hr : ask env s (.readCount i) = .ok (.nat (r + 1))) {o : Op} (ho : o.counted = some i) :
    (step env s o).1 = s ∧ (ask env s o = .ok .unit → s.final = true ∧ ∃ v, o = .assign i v) := by
  obtain ⟨p, hp⟩ := get_of_ask rfl hr (fun e => by cases e)
  rw [ask_volatile hp] at hv
  rw [ask_readCount hp] at hr
  injection hv with hv
  injection hv with hv
  injection hr with hr
  injection hr with hr
  exact counted_refused hp ho (countWrite_read hv (by omega))

example : ask demo (after demo (newSet demoSet false) [.read 0]) (.readCount 0) = .ok (.nat (0 + 1)) ∧
    ask demo (after demo (newSet demoSet false) [.read 0]) (.isVolatile 0) = .ok (.bool false) ∧
    ask demo (after demo (newSet demoSet false) [.read 0]) (.assign 0 (.leaf 4)) = .error (.exn .sparta) := by decide +kernel

/-- a call that does not make parameter `i` unread and is not one of those that write it without the check -/
def Keeps (i : Nat) (o : Op) : Prop :=
  o.pokes = false ∧ o ≠ .unread i ∧ o ≠ .resetReads ∧ o ≠ .clear i ∧ (∀ is, o ≠ .resize i is) ∧ ∀ k is t, o ≠ .setItem i (k :: is) t

theorem closed_keeps (env : Env) (i : Nat) (v : Val) : Closed env (Keeps i)
    (fun s => ∃ p, s.ps[i]? = some p ∧ p.vol = false ∧ 0 < p.reads ∧ p.val = v) where
  set s o hB h := by
    obtain ⟨p, hp, h1, h2, h3⟩ := h
    obtain ⟨f, hf, e⟩ := onSet_get s o i
    rw [hp] at e
    refine ⟨f p, e, ?_, ?_, ?_⟩
    · rw [(hf p).2.2.2.2.2.1, h1]
    · rw [(hf p).2.2.2.2.2.2 hB.2.2.1]
      exact h2
    · rw [(hf p).1, h3]
  param s j p o ht hne hB hp h := by
    obtain ⟨q, hq, h1, h2, h3⟩ := h
    by_cases e : j = i
    · subst e
      rw [hp] at hq
      injection hq with hq
      subst hq
      refine ⟨_, (put_get _ _ _ _ (lt_of_get hp)).trans (if_pos rfl), ?_⟩
      have hcw : countWrite s.phase p = none := countWrite_read h1 h2
      cases o
      case unread k => injection ht with ht; subst ht; exact absurd rfl hB.2.1
      case clear k => injection ht with ht; subst ht; exact absurd rfl hB.2.2.2.1
      case resize k is => injection ht with ht; subst ht; exact absurd rfl (hB.2.2.2.2.1 is)
      case setItem k is t =>
        injection ht with ht
        subst ht
        cases is with
        | nil => exact absurd rfl (hne k t)
        | cons a b => exact absurd rfl (hB.2.2.2.2.2 a b t)
      case setVolatile k =>
        simp only [onParam, makeVolatile]
        split
        · exact ⟨h1, h2, h3⟩
        · rw [if_pos (by omega)]
          exact ⟨h1, h2, h3⟩
      all_goals
        unfold onParam
        branches <;>
        first
          | exact ⟨h1, h2, h3⟩
          | exact ⟨h1, Nat.succ_pos _, h3⟩
          | (exfalso; simp_all; done)
          | (simp_all; done)
    · exact ⟨q, by rw [put_get _ _ _ _ (lt_of_get hp), if_neg e]; exact hq, h1, h2, h3⟩
  store s j p p' w hp _ _ hc h := by
    obtain ⟨q, hq, h1, h2, h3⟩ := h
    have hji : j ≠ i := by
      intro e
      subst e
      rw [hp] at hq
      injection hq with hq
      subst hq
      rcases hc with ⟨_, o, ho1, ho2⟩ | hc
      · rw [ho1.1] at ho2
        cases ho2
      · rw [countWrite_read h1 h2] at hc
        cases hc
    refine ⟨⟨q, by rw [put_get _ _ _ _ (lt_of_get hp), if_neg hji]; exact hq, h1, h2, h3⟩, ?_⟩
    rintro s' ⟨q', hq', h'⟩
    exact ⟨q', by rw [rollback_get, if_neg hji]; exact hq', h'⟩
  push s j h := h
  pop s t ts _ h := h

theorem after_keeps {env : Env} {B : Op → Prop} {P : St → Prop} (C : Closed env B P) (hh : ∀ n h, Uses B (env.handler n h)) :
    ∀ (ops : List Op) {s : St}, (∀ o ∈ ops, B o) → P s → P (after env s ops)
  | [], _, _, h => h
  | o :: ops, _, hB, h => after_keeps C hh ops (fun o' ho => hB o' (List.mem_cons_of_mem _ ho))
      (step_keeps C hh (hB o (List.mem_cons_self ..)) h)

/-- C161, over whole runs: two reads of a parameter that is not volatile give the same value, whatever is called in between (also by
callbacks), as long as the parameter is not marked as unread and nobody pokes, clears, resizes it or edits single items of it. -/
theorem C161_reads_agree_partial {env : Env} {s : St} {i : Nat} {v : Val} (hh : ∀ n h, Uses (Keeps i) (env.handler n h))
    (hv : ask env s (.isVolatile i) = .ok (.bool false)) (hr : ask env s (.read i) = .ok (.val v)) {ops : List Op}
    (ho : ∀ o ∈ ops, Keeps i o) : ask env (after env (step env s (.read i)).1 ops) (.read i) = .ok (.val v) := by
  obtain ⟨p, hp⟩ := get_of_ask rfl hr (fun e => by cases e)
  rw [ask_volatile hp] at hv
  injection hv with hv
  injection hv with hv
  unfold ask at hr
  have hst : step env s (.read i) = (s.put i (touch false p), .ok (.val p.val)) := by
    rw [step_on rfl hp]
    rfl
  rw [hst] at hr
  injection hr with hr
  injection hr with hr
  have h0 : ∃ q, (step env s (.read i)).1.ps[i]? = some q ∧ q.vol = false ∧ 0 < q.reads ∧ q.val = v := by
    rw [hst]
    exact ⟨_, (put_get _ _ _ _ (lt_of_get hp)).trans (if_pos rfl), hv, Nat.succ_pos _, hr⟩
  obtain ⟨q, hq, _, _, h3⟩ := after_keeps (closed_keeps env i v) hh ops ho h0
  unfold ask
  rw [step_on rfl hq]
  show Except.ok (Ans.val q.val) = _
  rw [h3]

/-- an environment whose handlers do nothing -/
def quiet : Env := { demo with handler := fun _ _ => .done }

example : (∀ n h, Uses (Keeps 0) (quiet.handler n h)) ∧
    ask quiet (newSet demoSet false) (.read 0) = .ok (.val (.leaf 1)) ∧ ∀ o ∈ [Op.assign 0 (.leaf 4), .restore 0, .assign 1 (.leaf 4)], Keeps 0 o := by
  refine ⟨fun n h => .done, by decide +kernel, ?_⟩
  intro o ho
  simp only [List.mem_cons, List.not_mem_nil, or_false] at ho
  rcases ho with rfl | rfl | rfl <;>
    exact ⟨rfl, (fun e => by cases e), (fun e => by cases e), (fun e => by cases e), (fun _ e => by cases e), (fun _ _ _ e => by cases e)⟩

/-- C161 is violated for items of vectors: after the parameter has been read, the call throws but the value has changed. -/
theorem C161_item_after_read_violated :
    let s := after demo (newSet demoSet false) [.read 2]
    ask demo s (.peek 2) = .ok (.val (.vec [.leaf 3])) ∧ ask demo s (.setItem 2 [0] ['a']) = .error (.exn .sparta) ∧
      ask demo (step demo s (.setItem 2 [0] ['a'])).1 (.peek 2) = .ok (.val (.vec [.leaf 1])) := by decide +kernel

/-- C161 is violated by clearing and by resizing, which succeed although the parameter has been read. -/
theorem C161_clear_after_read_violated :
    let s := after demo (newSet demoSet false) [.read 2]
    ask demo s (.readCount 2) = .ok (.nat 1) ∧ ask demo s (.clear 2) = .ok .unit ∧
      ask demo (step demo s (.clear 2)).1 (.peek 2) = .ok (.val (.vec [])) ∧
      ask demo (step demo s (.clear 2)).1 (.writeCount 2) = .ok (.nat 0) := by decide +kernel

/-! ### C162: what counts as an access -/

/-- the calls that only look -/
def Op.silent : Op → Bool
  | .peek _ | .readItem _ _ true | .sizeAt _ _ true | .num _ true | .at_ _ _ true | .getDefault _ | .isDefault _ | .isOverridden _
  | .readCount _ | .writeCount _ | .isIgnored _ | .isVolatile _ | .isVisible _ | .validate _ | .verifyAllRead | .isLocked => true
  | _ => false

/-- C162: peeking, asking for defaults, counts and flags, and validating change nothing, whether they succeed or not. -/
theorem C162_silent (env : Env) (s : St) (o : Op) (h : o.silent = true) : (step env s o).1 = s := by
  cases ht : o.target with
  | none =>
    unfold step exec
    rw [ht]
    cases o <;> first | (cases h; done) | (cases ht; done) | skip
    · unfold onSet
      dsimp only
      split <;> rfl
    · rfl
  | some i =>
    cases hp : s.ps[i]? with
    | none =>
      unfold step exec
      rw [ht]
      dsimp only
      rw [hp]
    | some p =>
      rw [step_on ht hp]
      have key : (onParam env s i p o).1 = p := by
        cases o <;> first | (cases h; done) | skip
        all_goals unfold onParam
        case readItem j is pk => cases pk <;> first | (cases h; done) | (branches <;> first | rfl | simp_all)
        case sizeAt j is pk => cases pk <;> first | (cases h; done) | (branches <;> first | rfl | simp_all)
        case num j pk => cases pk <;> first | (cases h; done) | (branches <;> first | rfl | simp_all)
        case at_ j k pk => cases pk <;> first | (cases h; done) | (branches <;> first | rfl | simp_all)
        all_goals rfl
      have : onTarget env (invoke env (s.ps.length + 1)) s i p o = plain env s i p o := by
        cases o <;> first | (cases h; done) | rfl
      rw [this]
      unfold plain
      rw [key]
      exact put_self hp

/-- the calls that read and count -/
def Op.reads : Op → Bool
  | .read _ | .readItem _ _ false | .sizeAt _ _ false | .num _ false | .at_ _ _ false => true
  | _ => false

/-- C162: a read that is not a peek counts once and changes nothing else; asking for the number of values counts for vectors only. -/
theorem C162_read_counts {env : Env} {s : St} {i : Nat} {p : Param} {o : Op} {a : Ans} (hp : s.ps[i]? = some p) (ht : o.target = some i)
    (ho : o.reads = true) (hd : p.dim = 0 → o ≠ .num i false) (hf : hasDim p.dim p.val = true) (h : ask env s o = .ok a) :
    (step env s o).1 = s.put i { p with reads := p.reads + 1 } := by
  unfold ask at h
  rw [step_on ht hp] at h ⊢
  have key : onTarget env (invoke env (s.ps.length + 1)) s i p o = plain env s i p o := by
    cases o <;> first | (cases ho; done) | rfl
  rw [key] at h ⊢
  unfold plain at h ⊢
  have : (onParam env s i p o).1 = { p with reads := p.reads + 1 } := by
    cases o <;> first | (cases ho; done) | skip
    case read => rfl
    case readItem j is pk =>
      cases pk
      case true => cases ho
      unfold onParam readItem at h ⊢
      dsimp only at h ⊢
      split at h
      · cases h
      · rfl
    case sizeAt j is pk =>
      cases pk
      case true => cases ho
      unfold onParam readSize at h ⊢
      dsimp only at h ⊢
      split at h
      · cases h
      · rfl
    case num j pk =>
      cases pk
      case true => cases ho
      injection ht with ht
      subst ht
      unfold onParam numValues
      dsimp only
      split
      · rfl
      · rename_i hne
        exfalso
        cases hdim : p.dim with
        | zero => exact hd hdim rfl
        | succ d =>
          cases hval : p.val with
          | vec l => exact hne d l hdim hval
          | leaf n =>
            rw [hdim, hval] at hf
            cases hf
    case at_ j k pk =>
      cases pk
      case true => cases ho
      unfold onParam readAt at h ⊢
      dsimp only at h ⊢
      split at h
      · split
        · rfl
        · rfl
      · split at h
        · split
          · rfl
          · rename_i e hne
            exact absurd e hne
        · cases h
  rw [this]

example : ask demo (newSet demoSet false) (.num 2 false) = .ok (.nat 1) ∧
    ask demo (step demo (newSet demoSet false) (.num 2 false)).1 (.readCount 2) = .ok (.nat 1) ∧
    ask demo (step demo (newSet demoSet false) (.num 0 false)).1 (.readCount 0) = .ok (.nat 0) := by decide +kernel

end Sparta.Param
