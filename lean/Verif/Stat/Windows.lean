import Verif.Stat.Lemmas
/-! Properties of statistic instances (C175-C184). -/
namespace Sparta.Stat
variable {α : Type}

deriving instance DecidableEq for Except

/-- integers for numbers; -999 stands for NaN.  Counter 9 is `COUNT_LATEST`; the definition of node 7 has two sub-statistics. -/
def demo : Env Int :=
  { ofCount := Int.ofNat, zero := 0, nan := -999, add := (· + ·), sub := (· - ·), mul := (· * ·), div := (· / ·), neg := (- ·)
    fn1 := fun _ x => x, fn2 := fun _ x y => max x y, fn3 := fun _ x y z => if x = 0 then z else y
    latest := fun n => n == 9
    subs := fun n => if n = 7 then [("a", 1), ("b", 2)] else [] }

/-- a world with the given tick and the same count in every counter -/
def at_ (t c : Nat) : World Int :=
  { now := t, ctr := fun _ => c, par := fun n => (n : Int), ref := fun _ => 5, alive := fun _ => true, clocked := fun _ => true }

/-- the same without nodes -/
def gone (t c : Nat) : World Int := { at_ t c with alive := fun _ => false }

/-- the instance made in `W` and given a context, after the calls -/
def after (A : Env α) (W : World α) (d : Def α) (cs : List (Call α)) : Option (World α × Inst α) :=
  match instance_ A W d with
  | .error _ => none
  | .ok i => some (runOps (step A) (W, i.setContext) cs).1

theorem after_follows (A : Env α) (W : World α) (d : Def α) (cs : List (Call α)) (ha : d.Exists W) (hk : d.Clocked W)
    (hs : Steady d W cs) : ∃ s, after A W d cs = some s ∧ Follows A d (spanOf W cs) s := by
  obtain ⟨i, h1, h2⟩ := follows_init A W d ha hk
  refine ⟨(runOps (step A) (W, i.setContext) cs).1, by simp only [after, h1], ?_⟩
  exact (follows_run cs h2 hs).1

/-- C175: an instance made from a definition, whatever was started and ended since, says what the definition means over its window:
from the last start to the last end after it or, if there is none, to now. -/
theorem C175_window (A : Env α) (W : World α) (d : Def α) (cs : List (Call α)) (ha : d.Exists W) (hk : d.Clocked W)
    (hs : Steady d W cs) :
    ∃ s, after A W d cs = some s ∧ s.1 = (spanOf W cs).now ∧
      s.2.value A s.1 = .ok (meaning A (spanOf W cs).base ((spanOf W cs).till.getD (spanOf W cs).now) d) := by
  obtain ⟨s, h1, h2⟩ := after_follows A W d cs ha hk hs
  refine ⟨s, h1, h2.now, ?_⟩
  have hi := h2.inst
  rw [h2.now]
  cases ht : (spanOf W cs).till with
  | none =>
    rw [ht] at hi
    exact value_open hi _ h2.since h2.ex
  | some U =>
    rw [ht] at hi
    obtain ⟨h3, h4⟩ := h2.till U ht
    exact value_closed hi _ h3 h4

/-- C175: no start and no end throws. -/
theorem C175_no_exception (A : Env α) (W : World α) (d : Def α) (cs : List (Call α)) (ha : d.Exists W) (hk : d.Clocked W)
    (hs : Steady d W cs) : ∃ i, instance_ A W d = .ok i ∧ ∀ r ∈ (runOps (step A) (W, i.setContext) cs).2, r = none := by
  obtain ⟨i, h1, h2⟩ := follows_init A W d ha hk
  exact ⟨i, h1, (follows_run cs h2 hs).2⟩

/-- a ratio of two counters, one of them by way of another statistic -/
def ratio : Def Int := .sdef 7 (.op2 .div (.ctr 1) (.op2 .add (.sdef 8 (.ctr 2)) (.const 1)))

def laps3 : List (Call Int) := [.world (at_ 10 4), .stop, .start, .world (at_ 20 30), .stop, .world (at_ 25 99)]

example : ratio.Exists (at_ 0 0) ∧ ratio.Clocked (at_ 0 0) ∧ Steady ratio (at_ 0 0) laps3 :=
  ⟨fun _ _ => rfl, fun _ _ => rfl, by decide, fun _ _ => rfl, by decide, fun _ _ => rfl, by decide, fun _ _ => rfl, trivial⟩

example : (spanOf (at_ 0 0) laps3).base.now = 10 ∧ (spanOf (at_ 0 0) laps3).till.map World.now = some 20 ∧
    (after demo (at_ 0 0) (.op2 .add (.ctr 1) (.ctr 9)) laps3).map (fun s => s.2.value demo s.1) = some (.ok 56) := by
  decide +kernel

/-- C175: an instance made from a node needs no context. -/
theorem C175_node_context (A : Env α) (W : World α) (d : Def α) (hd : d.isNode = true) (i : Inst α)
    (h : instance_ A W d = .ok i) : i.setContext = i := by
  have key : ∀ k n b w x, construct A W k n b = .ok (w, x) → w.sched = true := by
    intro k n b w x hc
    unfold construct at hc
    split at hc
    · cases hc
    · split at hc
      · cases hc
      · rename_i w' b' he
        cases hc
        by_cases hcl : W.clocked n = true
        · simp only [startWin, freshWin, hcl] at he
          cases k with
          | sdef m =>
            dsimp only at he
            split at he
            · cases he
            · split at he
              · cases he
              · split at he
                · cases he
                · cases he; rfl
          | ctr m =>
            dsimp only at he
            split at he
            · cases he
            · split at he
              · cases he
              · cases he; rfl
          | par m =>
            dsimp only at he
            split at he
            · cases he
            · split at he
              · cases he
              · cases he; rfl
          | free =>
            dsimp only at he
            split at he
            · cases he
            · split at he
              · cases he
              · cases he; rfl
        · simp [startWin, freshWin, hcl] at he
  have fin : ∀ k w b subs, w.sched = true →
      Inst.setContext ({ kind := k, win := w, body := b, subs := subs } : Inst α) =
        { kind := k, win := w, body := b, subs := subs } := by
    rintro k ⟨a1, a2, a3, a4, a5, a6⟩ b subs hw
    dsimp only at hw
    subst hw
    rfl
  cases d with
  | ctr n =>
    simp only [instance_, build] at h
    rcases hc : construct A W (.ctr n) n .empty with e | ⟨w, b⟩
    · simp [hc] at h
    · simp only [hc] at h
      cases h
      exact fin _ _ _ _ (key _ _ _ _ _ hc)
  | par n =>
    simp only [instance_, build] at h
    rcases hc : construct A W (.par n) n .empty with e | ⟨w, b⟩
    · simp [hc] at h
    · simp only [hc] at h
      cases h
      exact fin _ _ _ _ (key _ _ _ _ _ hc)
  | sdef n d =>
    simp only [instance_, build] at h
    rcases hb : build A W d with e | x
    · simp [hb] at h
    · simp only [hb] at h
      rcases hc : construct A W (.sdef n) n x with e | ⟨w, b⟩
      · simp [hc] at h
      · simp only [hc] at h
        cases h
        exact fin _ _ _ _ (key _ _ _ _ _ hc)
  | _ => cases hd

example : ∃ i, instance_ demo (at_ 3 1) ratio = .ok i ∧ ratio.isNode = true := by
  refine ⟨_, rfl, rfl⟩

/-! ### the reported window -/

theorem start_win {A : Env α} {W : World α} {i : Inst α} (h : i.win.sched = true) :
    (i.start A W).1.win.start = W.now ∧ (i.start A W).1.win.stop = none ∧ (i.start A W).1.win.sched = true ∧
      (i.start A W).1.kind = i.kind := by
  rcases hx : startExpr A W i.body with ⟨x, r⟩
  simp only [Inst.start, startWin, h, hx]
  cases hk : i.kind with
  | free => cases r <;> simp
  | ctr n => by_cases ha : W.alive n = true <;> simp [ha]
  | par n => by_cases ha : W.alive n = true <;> simp [ha]
  | sdef n => by_cases ha : W.alive n = true <;> cases r <;> simp [ha]

theorem storeResult_win {A : Env α} {W : World α} {k : Kind} {w : Win α} {b : Expr α} :
    (storeResult A W k w b).1.start = w.start ∧ (storeResult A W k w b).1.stop = w.stop ∧
      (storeResult A W k w b).1.sched = w.sched := by
  unfold storeResult
  split <;> exact ⟨rfl, rfl, rfl⟩

theorem stop_win {A : Env α} {W : World α} {i : Inst α} (h : i.win.sched = true) :
    (i.stop A W).1.win.start = i.win.start ∧ (i.stop A W).1.win.stop = some W.now ∧ (i.stop A W).1.win.sched = true ∧
      (i.stop A W).1.kind = i.kind := by
  rcases hx : endExpr A W i.body with ⟨x, r⟩
  have hs := fun k w b => @storeResult_win α A W k w b
  simp only [Inst.stop, endWin, h, hx]
  cases hk : i.kind with
  | free => cases r <;> simp [hs, h]
  | ctr n => by_cases ha : W.alive n = true <;> simp [ha, hs, h]
  | par n => by_cases ha : W.alive n = true <;> simp [ha, hs, h]
  | sdef n => by_cases ha : W.alive n = true <;> cases r <;> simp [ha, hs, h]

theorem run_win {A : Env α} (cs : List (Call α)) {p : Span α} {s : World α × Inst α} (hn : s.1 = p.now)
    (hc : s.2.win.sched = true) (hs : s.2.win.start = p.since.now) (ht : s.2.win.stop = p.till.map World.now) :
    (runOps (step A) s cs).1.2.win.sched = true ∧
      (runOps (step A) s cs).1.2.win.start = (cs.foldl Span.next p).since.now ∧
      (runOps (step A) s cs).1.2.win.stop = (cs.foldl Span.next p).till.map World.now := by
  induction cs generalizing p s with
  | nil => exact ⟨hc, hs, ht⟩
  | cons c cs ih =>
    rcases s with ⟨V, i⟩
    dsimp only at hn hc hs ht
    subst hn
    cases c with
    | start =>
      obtain ⟨h1, h2, h3, _⟩ := start_win (A := A) (W := p.now) hc
      exact ih rfl h3 h1 h2
    | stop =>
      obtain ⟨h1, h2, h3, _⟩ := stop_win (A := A) (W := p.now) hc
      exact ih rfl h3 (h1.trans hs) h2
    | accumulate => exact ih (p := p.next .accumulate) rfl hc hs ht
    | world W => exact ih (p := p.next (.world W)) rfl hc hs ht

/-- C176: the ticks an instance of a node reports are those of its last start and of the last end after it, whatever happens: with
ticks that go back, with nodes that are gone. -/
theorem C176_ticks (A : Env α) (W : World α) (d : Def α) (cs : List (Call α)) (ha : d.Exists W) (hk : d.Clocked W)
    (hd : d.isNode = true) :
    ∃ s, after A W d cs = some s ∧ s.2.win.start = (spanOf W cs).since.now ∧
      s.2.win.stop = (spanOf W cs).till.map World.now := by
  obtain ⟨i, h1, h2⟩ := follows_init A W d ha hk
  refine ⟨(runOps (step A) (W, i.setContext) cs).1, by simp only [after, h1], ?_⟩
  have hst : i.setContext.win.start = W.now ∧ i.setContext.win.stop = none := by
    obtain ⟨e, hb, ht⟩ := build_tracks A W d ha hk
    simp only [instance_, hb] at h1
    cases ht with
    | ctr n hi hw =>
      cases h1
      have hn : W.alive n = true := ha n (by simp [Def.nodes])
      have hc : W.clocked n = true := hk n (by simp [Def.nodes])
      simp only [build, construct, hn, startWin, freshWin, hc] at hb
      cases hb
      exact ⟨rfl, rfl⟩
    | par n hw =>
      cases h1
      have hn : W.alive n = true := ha n (by simp [Def.nodes])
      have hc : W.clocked n = true := hk n (by simp [Def.nodes])
      simp only [build, construct, hn, startWin, freshWin, hc] at hb
      cases hb
      exact ⟨rfl, rfl⟩
    | @sdef n d x w hx hw =>
      cases h1
      have hn : W.alive n = true := ha n (by simp [Def.nodes])
      have hc : W.clocked n = true := hk n (by simp [Def.nodes])
      rcases hbd : build A W d with e | y
      · simp [build, hbd] at hb
      · rcases hy : startExpr A W y with ⟨y', r⟩
        cases r with
        | some r => simp [build, hbd, construct, hn, startWin, freshWin, hc, hy] at hb
        | none =>
          simp only [build, hbd, construct, hn, startWin, freshWin, hc, hy] at hb
          cases hb
          exact ⟨rfl, rfl⟩
    | _ => cases hd
  exact (run_win (p := Span.init W) cs rfl rfl hst.1 hst.2).2

example : (after demo (at_ 3 1) ratio [.world (gone 9 1), .stop, .world (at_ 5 1), .start]).map
    (fun s => (s.2.win.start, s.2.win.stop)) = some (5, none) := by decide +kernel

/-! ### the end of a window -/

/-- C177: once ended, the value is that of the moment of the end, in every later world: whatever the counters say and whichever
nodes are gone. -/
theorem C177_frozen (A : Env α) (W : World α) (d : Def α) (cs : List (Call α)) (ha : d.Exists W) (hk : d.Clocked W)
    (hs : Steady d W cs) :
    ∃ s, after A W d (cs ++ [.stop]) = some s ∧ ∀ V : World α, (spanOf W cs).now.now ≤ V.now →
      s.2.value A V = .ok (meaning A (spanOf W cs).base (spanOf W cs).now d) := by
  obtain ⟨s, h1, h2⟩ := after_follows A W d cs ha hk hs
  obtain ⟨i, h3, h4⟩ := follows_init A W d ha hk
  simp only [after, h3, Option.some.injEq] at h1
  obtain ⟨h5, h6⟩ := follows_step h2 .stop (fun W h => by cases h)
  refine ⟨(step A s .stop).1, ?_, fun V hV => ?_⟩
  · simp only [after, h3, runOps_append, h1]
    rfl
  · exact value_closed h6.inst V h2.since hV

example : (after demo (at_ 0 0) ratio [.world (at_ 10 4), .stop]).map (fun s => s.2.value demo (gone 99 1000)) = some (.ok 0) ∧
    (after demo (at_ 0 0) (.ctr 1) [.world (at_ 10 4), .stop]).map (fun s => s.2.value demo (gone 99 1000)) = some (.ok 4) := by
  decide +kernel

/-- C178: reading an instance of a node throws if, after a checkpoint, the time is before its start or before its end. -/
theorem C178_future (A : Env α) (W : World α) (d : Def α) (cs : List (Call α)) (ha : d.Exists W) (hk : d.Clocked W)
    (hs : Steady d W cs) (hd : d.isNode = true) :
    ∃ s, after A W d cs = some s ∧
      (∀ V : World α, V.now < (spanOf W cs).since.now → s.2.value A V = .error .futureStart) ∧
      (∀ V U : World α, (spanOf W cs).since.now ≤ V.now → (spanOf W cs).till = some U → V.now < U.now →
        s.2.value A V = .error .futureEnd) := by
  obtain ⟨s, h1, h2⟩ := after_follows A W d cs ha hk hs
  obtain ⟨s', h1', h3, h4⟩ := C176_ticks A W d cs ha hk hd
  rw [h1] at h1'
  cases h1'
  have hsch := h2.inst.win.sched
  refine ⟨s, h1, fun V hV => ?_, fun V U hV hU hlt => ?_⟩
  · cases ht : (spanOf W cs).till with
    | none =>
      rw [ht] at h4
      have : s.2.win.start > V.now := by omega
      simp only [Option.map] at h4
      simp [Inst.value, getValue, h4, hsch, this]
    | some U =>
      obtain ⟨h5, _⟩ := h2.till U ht
      rw [ht] at h4
      have : s.2.win.start > V.now := by omega
      have h6 : ¬ U.now < s.2.win.start := by omega
      simp only [Option.map] at h4
      simp [Inst.value, getValue, h4, hsch, this, h6]
  · obtain ⟨h5, _⟩ := h2.till U hU
    rw [hU] at h4
    have h7 : ¬ s.2.win.start > V.now := by omega
    have h6 : ¬ U.now < s.2.win.start := by omega
    simp only [Option.map] at h4
    simp [Inst.value, getValue, h4, hsch, h7, h6, hlt]

example : (after demo (at_ 10 0) ratio [.world (at_ 20 4), .stop]).map (fun s => (s.2.value demo (at_ 5 0), s.2.value demo (at_ 15 0)))
    = some (.error .futureStart, .error .futureEnd) := by decide +kernel

/-- C178: an end at a tick before that of the start makes every reading throw, until the next start. -/
theorem C178_reversed (A : Env α) (W : World α) (d : Def α) (cs : List (Call α)) (ha : d.Exists W) (hk : d.Clocked W)
    (hd : d.isNode = true) (V X : World α) (hV : V.now < (spanOf W cs).since.now) :
    ∃ s, after A W d (cs ++ [.world V, .stop]) = some s ∧ s.2.value A X = .error .reversed := by
  obtain ⟨s, h1, h2, h3⟩ := C176_ticks A W d (cs ++ [.world V, .stop]) ha hk hd
  refine ⟨s, h1, ?_⟩
  simp only [spanOf, List.foldl_append, List.foldl, Span.next, Option.map] at h2 h3
  have h4 : V.now < s.2.win.start := by
    simp only [spanOf] at hV
    omega
  simp [Inst.value, getValue, h3, h4]

example : (after demo (at_ 10 0) ratio [.start, .world (at_ 4 0), .stop]).map (fun s => s.2.value demo (at_ 50 0))
    = some (.error .reversed) := by decide +kernel

/-! ### accumulation -/

theorem span_cumul (cs : List (Call α)) (p : Span α) (h : p.cumul = true) :
    (cs.foldl Span.next p).base = p.base ∧ (cs.foldl Span.next p).cumul = true := by
  induction cs generalizing p with
  | nil => exact ⟨rfl, h⟩
  | cons c cs ih =>
    have h2 : (p.next c).cumul = true := by cases c <;> simp [Span.next, h]
    have h3 : (p.next c).base = p.base := by cases c <;> simp [Span.next, h]
    obtain ⟨h4, h5⟩ := ih _ h2
    exact ⟨h4.trans h3, h5⟩

/-- C179: once it accumulates, an instance counts from the last start before that, however often it is started again. -/
theorem C179_accumulate (A : Env α) (W : World α) (d : Def α) (cs cs' : List (Call α)) (ha : d.Exists W) (hk : d.Clocked W)
    (hs : Steady d W (cs ++ .accumulate :: cs')) :
    ∃ s, after A W d (cs ++ .accumulate :: cs') = some s ∧
      s.2.value A s.1 = .ok (meaning A (spanOf W cs).base
        ((spanOf W (cs ++ .accumulate :: cs')).till.getD (spanOf W (cs ++ .accumulate :: cs')).now) d) := by
  obtain ⟨s, h1, _, h2⟩ := C175_window A W d _ ha hk hs
  refine ⟨s, h1, ?_⟩
  rw [h2]
  have := (span_cumul cs' ((cs.foldl Span.next (Span.init W)).next .accumulate) rfl).1
  simp only [spanOf, List.foldl_append, List.foldl] at this ⊢
  rw [this]
  rfl

example : (after demo (at_ 0 0) (.op2 .add (.ctr 1) (.ctr 2)) [.accumulate, .world (at_ 10 4), .stop, .start, .world (at_ 20 30), .stop]).map
    (fun s => s.2.value demo s.1) = some (.ok 60) := by decide +kernel

/-- C179: not, as documented, from the first start. -/
theorem C179_first_start_violated : ¬ ∀ (d : Def Int) (W V X : World Int), d.Exists W → d.Clocked W → d.Exists V → d.Exists X →
    W.now ≤ V.now → V.now ≤ X.now →
    ∃ s, after demo W d [.world V, .start, .accumulate, .world X] = some s ∧ s.2.value demo s.1 = .ok (meaning demo W X d) := by
  intro h
  obtain ⟨s, h1, h2⟩ := h (.ctr 1) (at_ 0 0) (at_ 10 5) (at_ 20 7) (fun _ _ => rfl) (fun _ _ => rfl) (fun _ _ => rfl)
    (fun _ _ => rfl) (by decide) (by decide)
  have h3 : (after demo (at_ 0 0) (.ctr 1) [.world (at_ 10 5), .start, .accumulate, .world (at_ 20 7)]).map
      (fun s => s.2.value demo s.1) = some (.ok 2) := by decide +kernel
  rw [h1] at h3
  simp only [Option.map, Option.some.injEq] at h3
  rw [h2] at h3
  exact absurd h3 (by decide +kernel)

/-! ### nodes that are gone -/

/-- the node of an instance -/
def Kind.node : Kind → Option Nat
  | .ctr n => some n
  | .par n => some n
  | .sdef n => some n
  | .free => none

/-- C180: with its node gone, an instance whose window is open reads as NaN, and starting or ending it throws. -/
theorem C180_gone (A : Env α) (V : World α) (i : Inst α) (n : Nat) (hn : i.kind.node = some n) (hg : V.alive n = false)
    (hs : i.win.sched = true) :
    (i.win.stop = none → i.win.start ≤ V.now → i.value A V = .ok A.nan) ∧
      (i.start A V).2 = some .expired ∧ (i.stop A V).2 = some .expired := by
  refine ⟨fun h1 h2 => ?_, ?_, ?_⟩
  · have h3 : ¬ i.win.start > V.now := by omega
    cases hk : i.kind <;> rw [hk] at hn <;> cases hn <;> simp [Inst.value, getValue, h1, h3, hs, computeValue, hk, hg]
  · cases hk : i.kind <;> rw [hk] at hn <;> cases hn <;> simp [Inst.start, startWin, hs, hk, hg]
  · cases hk : i.kind <;> rw [hk] at hn <;> cases hn <;> simp [Inst.stop, endWin, hs, hk, hg]

example : (after demo (at_ 0 0) ratio [.world (gone 9 4)]).map (fun s => s.2.value demo s.1) = some (.ok (-999)) ∧
    (after demo (at_ 0 0) ratio []).map (fun s => (s.2.kind, s.2.win.sched, s.2.win.stop, s.2.win.start)) =
      some (.sdef 7, true, none, 0) := by
  decide +kernel

/-- C180: a start that throws still loses the value of the window that had ended. -/
theorem C180_failed_start_violated : ¬ ∀ (i : Inst Int) (W V : World Int), (i.start demo W).2 ≠ none → W.now ≤ V.now →
    (i.start demo W).1.value demo V = i.value demo V := by
  intro h
  have h1 : ∃ s, after demo (at_ 0 0) (.ctr 1) [.world (at_ 10 4), .stop] = some s := by
    refine ⟨_, rfl⟩
  obtain ⟨s, h1⟩ := h1
  have h2 : (after demo (at_ 0 0) (.ctr 1) [.world (at_ 10 4), .stop]).map
      (fun s => ((s.2.start demo (gone 20 4)).2, (s.2.start demo (gone 20 4)).1.value demo (gone 20 4), s.2.value demo (gone 20 4))) =
      some (some .expired, .ok (-999), .ok 4) := by decide +kernel
  rw [h1] at h2
  simp only [Option.map, Option.some.injEq, Prod.mk.injEq] at h2
  obtain ⟨h3, h4, h5⟩ := h2
  have := h s.2 (gone 20 4) (gone 20 4) (by simp [h3]) (Nat.le_refl _)
  rw [h4, h5] at this
  exact absurd this (by decide +kernel)

/-! ### one window after the other -/

/-- In each of the worlds the window is ended, read, and started again. -/
def laps (A : Env α) (i : Inst α) : List (World α) → List (Except Err α)
  | [] => []
  | W :: Ws => (i.stop A W).1.value A W :: laps A ((i.stop A W).1.start A W).1 Ws

/-- the differences of a counter from one world to the next -/
def steps (A : Env α) (n : Nat) (B : World α) : List (World α) → List α
  | [] => []
  | W :: Ws => A.sub (A.ofCount (W.ctr n)) (A.ofCount (B.ctr n)) :: steps A n W Ws

/-- each world has a tick that is not before, and node `n` exists -/
def Onwards (n : Nat) : World α → List (World α) → Prop
  | _, [] => True
  | V, W :: Ws => V.now ≤ W.now ∧ W.alive n = true ∧ Onwards n W Ws

theorem laps_steps {A : Env α} {n : Nat} (hl : A.latest n = false) (Ws : List (World α)) {B : World α} {i : Inst α}
    (h : TracksI A B B.now false none (.ctr n) i) (ho : Onwards n B Ws) : laps A i Ws = (steps A n B Ws).map .ok := by
  induction Ws generalizing B i with
  | nil => rfl
  | cons W Ws ih =>
    obtain ⟨h1, h2, h3⟩ := ho
    have hex : Def.Exists (.ctr n : Def α) W := fun m hm => by
      simp only [Def.nodes, List.mem_singleton] at hm
      rw [hm]; exact h2
    obtain ⟨_, h4⟩ := stop_tracksI h W h1 hex
    obtain ⟨_, h5⟩ := start_tracksI h4 W hex
    have h6 := value_closed h4 W h1 (Nat.le_refl _)
    simp only [laps, steps, List.map]
    rw [h6, ih h5 h3]
    simp [meaning, hl, rebase]

/-- C181: ending and starting again a window on a counter, over and over, gives how much it counted from each to the next. -/
theorem C181_laps (A : Env α) (n : Nat) (W : World α) (Ws : List (World α)) (hl : A.latest n = false) (ha : W.alive n = true)
    (hk : W.clocked n = true) (ho : Onwards n W Ws) :
    ∃ i, instance_ A W (.ctr n) = .ok i ∧ laps A i Ws = (steps A n W Ws).map .ok := by
  have h1 : Def.Exists (.ctr n : Def α) W := fun m hm => by
    simp only [Def.nodes, List.mem_singleton] at hm; rw [hm]; exact ha
  have h2 : Def.Clocked (.ctr n : Def α) W := fun m hm => by
    simp only [Def.nodes, List.mem_singleton] at hm; rw [hm]; exact hk
  obtain ⟨i, h3, h4⟩ := instance_tracks A W (.ctr n) h1 h2
  have h5 := C175_node_context A W (.ctr n) rfl i h3
  rw [h5] at h4
  exact ⟨i, h3, laps_steps hl Ws h4 ho⟩

/-- C181: with integers, nothing is lost and nothing is counted twice between windows: the values add up to what the counter counted
altogether. -/
theorem C181_sum (A : Env Int) (hs : ∀ x y, A.sub x y = x - y) (n : Nat) (W : World Int) (Ws : List (World Int)) :
    (steps A n W Ws).sum = A.ofCount ((Ws.getLastD W).ctr n) - A.ofCount (W.ctr n) := by
  induction Ws generalizing W with
  | nil => simp [steps]
  | cons V Vs ih =>
    simp only [steps, List.sum_cons, ih V, hs]
    cases Vs with
    | nil => simp
    | cons X Xs =>
      simp only [List.getLastD_cons]
      omega

example : Onwards 1 (at_ 0 2) [at_ 5 4, at_ 5 4, at_ 9 20] ∧
    (match instance_ demo (at_ 0 2) (.ctr 1) with | .ok i => laps demo i [at_ 5 4, at_ 5 4, at_ 9 20] | .error _ => []) =
      [.ok 2, .ok 0, .ok 16] :=
  ⟨⟨by decide, rfl, by decide, rfl, by decide, rfl, trivial⟩, by decide +kernel⟩

/-! ### raw values -/

/-- C182: the raw latest value of a counter or parameter is its value now, whatever the window. -/
theorem C182_raw (A : Env α) (V : World α) (i : Inst α) (n : Nat) (hg : V.alive n = true) :
    (i.kind = .ctr n → i.rawLatest A V = .ok (A.ofCount (V.ctr n))) ∧ (i.kind = .par n → i.rawLatest A V = .ok (V.par n)) := by
  constructor <;> intro h <;> simp [Inst.rawLatest, h, hg]

example : (after demo (at_ 0 3) (.ctr 1) [.world (at_ 10 4), .stop, .world (at_ 20 9)]).map
    (fun s => (s.2.kind, s.2.rawLatest demo s.1, s.2.value demo s.1)) = some (.ctr 1, .ok 9, .ok 1) := by decide +kernel

/-- C182: the raw latest value of a statistic does depend on the window, against its documentation. -/
theorem C182_raw_violated : ¬ ∀ (d : Def Int) (W V : World Int) (cs : List (Call Int)) (s s' : World Int × Inst Int), d.Exists W →
    d.Exists V → after demo W d (cs ++ [.world V]) = some s → after demo W d [.world V] = some s' →
    s.2.rawLatest demo V = s'.2.rawLatest demo V := by
  intro h
  have h1 : ∃ s, after demo (at_ 0 0) (.sdef 7 (.ctr 1)) ([.world (at_ 10 4), .start] ++ [.world (at_ 20 5)]) = some s :=
    ⟨_, rfl⟩
  have h2 : ∃ s, after demo (at_ 0 0) (.sdef 7 (.ctr 1)) [.world (at_ 20 5)] = some s := ⟨_, rfl⟩
  obtain ⟨s, h1⟩ := h1
  obtain ⟨s', h2⟩ := h2
  have h3 := h _ _ _ _ s s' (fun _ _ => rfl) (fun _ _ => rfl) h1 h2
  have h4 : (after demo (at_ 0 0) (.sdef 7 (.ctr 1)) ([.world (at_ 10 4), .start] ++ [.world (at_ 20 5)])).map
      (fun s => s.2.rawLatest demo (at_ 20 5)) = some (.ok 1) := by decide +kernel
  have h5 : (after demo (at_ 0 0) (.sdef 7 (.ctr 1)) [.world (at_ 20 5)]).map
      (fun s => s.2.rawLatest demo (at_ 20 5)) = some (.ok 5) := by decide +kernel
  rw [h1] at h4
  rw [h2] at h5
  simp only [Option.map, Option.some.injEq] at h4 h5
  rw [h4, h5] at h3
  exact absurd h3 (by decide +kernel)

/-! ### assignment and moves -/

/-- the same instance, but for an expression that is not used -/
def Alike (i j : Inst α) : Prop :=
  i.kind = j.kind ∧ i.win = j.win ∧ (i.body = j.body ∨ (∃ n, j.kind = .ctr n) ∨ (∃ n, j.kind = .par n))

theorem alike_value {A : Env α} {W : World α} {i j : Inst α} (h : Alike i j) : i.value A W = j.value A W := by
  obtain ⟨h1, h2, h3⟩ := h
  rcases h3 with h3 | ⟨n, h3⟩ | ⟨n, h3⟩
  · rw [Inst.value, Inst.value, h1, h2, h3]
  · rw [Inst.value, Inst.value, h1, h2, h3]; rfl
  · rw [Inst.value, Inst.value, h1, h2, h3]; rfl

theorem storeResult_ctr {A : Env α} {W : World α} {k : Kind} {w : Win α} {b b' : Expr α}
    (hk : (∃ n, k = .ctr n) ∨ (∃ n, k = .par n)) :
    (storeResult A W k w b).1 = (storeResult A W k w b').1 ∧ (storeResult A W k w b).2.2 = (storeResult A W k w b').2.2 := by
  rcases hk with ⟨n, rfl⟩ | ⟨n, rfl⟩
  · by_cases ha : W.alive n = true <;> by_cases hl : A.latest n = true <;> simp [storeResult, computeValue, ha, hl]
  · by_cases ha : W.alive n = true <;> simp [storeResult, computeValue, ha]

theorem alike_start {A : Env α} {W : World α} {i j : Inst α} (h : Alike i j) :
    Alike (i.start A W).1 (j.start A W).1 ∧ (i.start A W).2 = (j.start A W).2 := by
  rcases i with ⟨ik, iw, ib, isb⟩
  rcases j with ⟨jk, jw, jb, jsb⟩
  obtain ⟨h1, h2, h3⟩ := h
  dsimp only at h1 h2 h3
  subst h1; subst h2
  rcases h3 with rfl | ⟨n, rfl⟩ | ⟨n, rfl⟩
  · exact ⟨⟨rfl, rfl, .inl rfl⟩, rfl⟩
  · refine ⟨⟨rfl, ?_, .inr (.inl ⟨n, rfl⟩)⟩, ?_⟩ <;>
      by_cases hs : iw.sched = true <;> by_cases ha : W.alive n = true <;> simp [Inst.start, startWin, hs, ha]
  · refine ⟨⟨rfl, ?_, .inr (.inr ⟨n, rfl⟩)⟩, ?_⟩ <;>
      by_cases hs : iw.sched = true <;> by_cases ha : W.alive n = true <;> simp [Inst.start, startWin, hs, ha]

theorem alike_stop {A : Env α} {W : World α} {i j : Inst α} (h : Alike i j) :
    Alike (i.stop A W).1 (j.stop A W).1 ∧ (i.stop A W).2 = (j.stop A W).2 := by
  rcases i with ⟨ik, iw, ib, isb⟩
  rcases j with ⟨jk, jw, jb, jsb⟩
  obtain ⟨h1, h2, h3⟩ := h
  dsimp only at h1 h2 h3
  subst h1; subst h2
  rcases h3 with rfl | ⟨n, rfl⟩ | ⟨n, rfl⟩
  · exact ⟨⟨rfl, rfl, .inl rfl⟩, rfl⟩
  · have hst := @storeResult_ctr α A W (.ctr n) { iw with stop := some W.now } ib jb (.inl ⟨n, rfl⟩)
    refine ⟨⟨rfl, ?_, .inr (.inl ⟨n, rfl⟩)⟩, ?_⟩
    · by_cases hs : iw.sched = true <;> by_cases ha : W.alive n = true <;> simp [Inst.stop, endWin, hs, ha]
      rw [hs] at hst; exact hst.1
    · by_cases hs : iw.sched = true <;> by_cases ha : W.alive n = true <;> simp [Inst.stop, endWin, hs, ha]
      rw [hs] at hst; exact hst.2
  · have hst := @storeResult_ctr α A W (.par n) { iw with stop := some W.now } ib jb (.inr ⟨n, rfl⟩)
    refine ⟨⟨rfl, ?_, .inr (.inr ⟨n, rfl⟩)⟩, ?_⟩
    · by_cases hs : iw.sched = true <;> by_cases ha : W.alive n = true <;> simp [Inst.stop, endWin, hs, ha]
      rw [hs] at hst; exact hst.1
    · by_cases hs : iw.sched = true <;> by_cases ha : W.alive n = true <;> simp [Inst.stop, endWin, hs, ha]
      rw [hs] at hst; exact hst.2

theorem alike_run {A : Env α} (cs : List (Call α)) {W : World α} {i j : Inst α} (h : Alike i j) :
    Alike (runOps (step A) (W, i) cs).1.2 (runOps (step A) (W, j) cs).1.2 ∧
      (runOps (step A) (W, i) cs).1.1 = (runOps (step A) (W, j) cs).1.1 ∧
      (runOps (step A) (W, i) cs).2 = (runOps (step A) (W, j) cs).2 := by
  induction cs generalizing W i j with
  | nil => exact ⟨h, rfl, rfl⟩
  | cons c cs ih =>
    cases c with
    | start =>
      obtain ⟨h1, h2⟩ := alike_start (A := A) (W := W) h
      obtain ⟨h3, h4, h5⟩ := ih (W := W) h1
      exact ⟨h3, h4, by simp only [runOps, step]; rw [h2]; exact congrArg _ h5⟩
    | stop =>
      obtain ⟨h1, h2⟩ := alike_stop (A := A) (W := W) h
      obtain ⟨h3, h4, h5⟩ := ih (W := W) h1
      exact ⟨h3, h4, by simp only [runOps, step]; rw [h2]; exact congrArg _ h5⟩
    | accumulate =>
      have h1 : Alike i.accumulate j.accumulate := by
        obtain ⟨g1, g2, g3⟩ := h
        refine ⟨g1, by simp [Inst.accumulate, g2], ?_⟩
        rcases g3 with g3 | g3
        · exact .inl (by simp [Inst.accumulate, g3])
        · exact .inr g3
      obtain ⟨h3, h4, h5⟩ := ih (W := W) h1
      exact ⟨h3, h4, by simp only [runOps, step]; exact congrArg _ h5⟩
    | world V =>
      obtain ⟨h3, h4, h5⟩ := ih (W := V) h
      exact ⟨h3, h4, by simp only [runOps, step]; exact congrArg _ h5⟩

/-- C183: an instance assigned from one that has something to compute behaves as that one, whatever it was before and whatever is done
next. -/
theorem C183_assign (A : Env α) (l r : Inst α) (W : World α) (cs : List (Call α))
    (h : r.body ≠ .empty ∨ (∃ n, r.kind = .ctr n) ∨ (∃ n, r.kind = .par n)) :
    (runOps (step A) (W, l.assign r) cs).2 = (runOps (step A) (W, r) cs).2 ∧
      ∀ V, (runOps (step A) (W, l.assign r) cs).1.2.value A V = (runOps (step A) (W, r) cs).1.2.value A V := by
  have ha : Alike (l.assign r) r := by
    refine ⟨rfl, rfl, ?_⟩
    rcases h with h | h
    · left
      cases hb : r.body with
      | empty => exact absurd hb h
      | _ => simp [Inst.assign, assignExpr, hb]
    · exact .inr h
  obtain ⟨h1, _, h3⟩ := alike_run (A := A) cs (W := W) ha
  exact ⟨h3, fun V => alike_value h1⟩

/-- C183: a moved instance behaves as the one it was made from. -/
theorem C183_move (A : Env α) (r : Inst α) (W : World α) (cs : List (Call α)) :
    (runOps (step A) (W, r.moved) cs).2 = (runOps (step A) (W, r) cs).2 ∧
      ∀ V, (runOps (step A) (W, r.moved) cs).1.2.value A V = (runOps (step A) (W, r) cs).1.2.value A V := by
  obtain ⟨h1, _, h3⟩ := alike_run (A := A) cs (W := W) (i := r.moved) (j := r) ⟨rfl, rfl, .inl rfl⟩
  exact ⟨h3, fun V => alike_value h1⟩

/-- C183: what is left after a move has no value: reading it throws or gives NaN. -/
theorem C183_moved_from (A : Env α) (r : Inst α) (V : World α) :
    (∃ e, (r.movedFrom A).value A V = .error e) ∨ (r.movedFrom A).value A V = .ok A.nan := by
  simp only [Inst.movedFrom, Inst.value, getValue, computeValue, eval]
  repeat' split
  all_goals first
    | exact .inl ⟨_, rfl⟩
    | exact .inr rfl

/-- C183: an instance without an expression, assigned to one that has one, does not replace it. -/
theorem C183_assign_violated : ¬ ∀ (l r : Inst Int) (V : World Int), (l.assign r).value demo V = r.value demo V := by
  intro h
  have := h { kind := .free, win := freshWin demo true, body := .const 3, subs := [] }
    { kind := .free, win := freshWin demo true, body := .empty, subs := [] } (at_ 0 0)
  exact absurd this (by decide +kernel)

/-- C183: a moved instance has lost its sub-statistics. -/
theorem C183_move_subs_violated : ¬ ∀ r : Inst Int, r.moved.subs = r.subs := by
  intro h
  have := h { kind := .free, win := freshWin demo true, body := .empty, subs := [("a", 1)] }
  exact absurd this (by decide)

example : ∃ r : Inst Int, r.body ≠ .empty ∧ r.value demo (at_ 1 1) = .ok 3 :=
  ⟨{ kind := .free, win := freshWin demo true, body := .const 3, subs := [] }, by simp, by decide +kernel⟩

/-! ### context -/

/-- C184: an expression that is not a node makes an instance that can be neither read nor started nor ended before it is given a
context. -/
theorem C184_context (A : Env α) (W : World α) (d : Def α) (i : Inst α) (h : instance_ A W d = .ok i) (hd : d.isNode = false)
    (V : World α) :
    i.value A V = .error .noScheduler ∧ (i.start A V).2 = some .noScheduler ∧ (i.stop A V).2 = some .noScheduler := by
  have key : i.win = freshWin A false := by
    unfold instance_ at h
    split at h
    · cases h
    · rename_i k w b hb
      exfalso
      cases d <;> simp only [build] at hb <;> (repeat' split at hb) <;> cases hb <;> cases hd
    · cases h; rfl
  refine ⟨?_, ?_, ?_⟩
  · simp [Inst.value, getValue, key, freshWin]
  · simp [Inst.start, startWin, key, freshWin]
  · simp [Inst.stop, endWin, key, freshWin]

example : ∃ i, instance_ demo (at_ 0 0) (.op2 .add (.ctr 1) (.const 2)) = .ok i ∧
    i.setContext.value demo (at_ 5 3) = .ok 5 := ⟨_, rfl, by decide +kernel⟩

end Sparta.Stat
