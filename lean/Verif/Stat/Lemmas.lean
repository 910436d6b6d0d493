import Verif.Stat.Spec
/-! Helper lemmas about expressions and windows. -/
namespace Sparta.Stat
variable {α : Type}

/-- the fields of a window started at or before tick `t`, and ended in `c` with the value `v` -/
structure WinOk (t : Nat) (cum : Bool) (c : Option (World α)) (v : World α → α) (w : Win α) : Prop where
  sched : w.sched = true
  start : w.start ≤ t
  cumul : w.cumul = cum
  open_ : c = none → w.stop = none
  closed : ∀ C, c = some C → w.stop = some C.now ∧ w.result = v C

/-- the expression is an instance of the definition, with counters counted from `B`, started at or before tick `t` and ended in `c` -/
inductive Tracks (A : Env α) (B : World α) (t : Nat) (cum : Bool) (c : Option (World α)) : Def α → Expr α → Prop
  | const (v : α) : Tracks A B t cum c (.const v) (.const v)
  | ref (i : Nat) : Tracks A B t cum c (.ref i) (.ref i)
  | op1 (o : Op1) {a x} : Tracks A B t cum c a x → Tracks A B t cum c (.op1 o a) (.oper o.code (.cons x .nil))
  | op2 (o : Op2) {a b x y} : Tracks A B t cum c a x → Tracks A B t cum c b y →
      Tracks A B t cum c (.op2 o a b) (.oper o.code (.cons x (.cons y .nil)))
  | fn1 (f : Nat) {a x} : Tracks A B t cum c a x → Tracks A B t cum c (.fn1 f a) (.fn1 f x)
  | fn2 (f : Nat) {a b x y} : Tracks A B t cum c a x → Tracks A B t cum c b y → Tracks A B t cum c (.fn2 f a b) (.fn2 f x y)
  | fn3 (f : Nat) {a b d x y z} : Tracks A B t cum c a x → Tracks A B t cum c b y → Tracks A B t cum c d z →
      Tracks A B t cum c (.fn3 f a b d) (.fn3 f x y z)
  | ctr (n : Nat) {w} : w.initial = some (A.ofCount (B.ctr n)) → WinOk t cum c (fun C => meaning A B C (.ctr n)) w →
      Tracks A B t cum c (.ctr n) (.stat (.ctr n) w .empty)
  | par (n : Nat) {w} : WinOk t cum c (fun C => meaning A B C (.par n)) w →
      Tracks A B t cum c (.par n) (.stat (.par n) w .empty)
  | sdef (n : Nat) {d x w} : Tracks A B t cum c d x → WinOk t cum c (fun C => meaning A B C (.sdef n d)) w →
      Tracks A B t cum c (.sdef n d) (.stat (.sdef n) w x)

theorem operate1 (A : Env α) (o : Op1) (x : α) : operate A o.code [.ok x] = .ok (o.apply A x) := by
  cases o <;> rfl

theorem operate2 (A : Env α) (o : Op2) (x y : α) : operate A o.code [.ok x, .ok y] = .ok (o.apply A x y) := by
  cases o <;> rfl

theorem ex_append_left {W : World α} {a b : List Nat} (h : ∀ n ∈ a ++ b, W.alive n = true) : ∀ n ∈ a, W.alive n = true :=
  fun n hn => h n (List.mem_append_left b hn)

theorem ex_append_right {W : World α} {a b : List Nat} (h : ∀ n ∈ a ++ b, W.alive n = true) : ∀ n ∈ b, W.alive n = true :=
  fun n hn => h n (List.mem_append_right a hn)

theorem getValue_open {t : Nat} {cum : Bool} {v : World α → α} {w : Win α} {W : World α} (h : WinOk t cum none v w)
    (ht : t ≤ W.now) (x : Except Err α) : getValue W w x = x := by
  have h1 := h.open_ rfl
  have h2 := h.start
  have h3 : ¬ w.start > W.now := by omega
  simp [getValue, h1, h.sched, h3]

theorem getValue_closed {t : Nat} {cum : Bool} {v : World α → α} {w : Win α} {W C : World α} (h : WinOk t cum (some C) v w)
    (ht : t ≤ C.now) (hC : C.now ≤ W.now) (x : Except Err α) : getValue W w x = .ok (v C) := by
  obtain ⟨h1, h4⟩ := h.closed C rfl
  have h2 := h.start
  have h3 : ¬ w.start > W.now := by omega
  have h5 : ¬ C.now < w.start := by omega
  have h6 : ¬ C.now > W.now := by omega
  simp [getValue, h1, h.sched, h3, h4, h5, h6]

/-- the value of an instance whose window is open -/
theorem eval_open {A : Env α} {B : World α} {t : Nat} {cum : Bool} {d : Def α} {e : Expr α} (h : Tracks A B t cum none d e)
    (W : World α) (ht : t ≤ W.now) (ha : d.Exists W) : eval A W e = .ok (meaning A B W d) := by
  induction h with
  | const v => rfl
  | ref i => rfl
  | op1 o _ ih => simp only [eval, evalArgs, ih ha, operate1, meaning]
  | op2 o _ _ ih1 ih2 =>
    simp only [eval, evalArgs, ih1 (ex_append_left ha), ih2 (ex_append_right ha), operate2, meaning]
  | fn1 f _ ih => simp only [eval, ih ha, one, meaning]
  | fn2 f _ _ ih1 ih2 =>
    simp [eval, ih1 (ex_append_left ha), ih2 (ex_append_right ha), both, operand, meaning]
  | fn3 f _ _ _ ih1 ih2 ih3 =>
    simp [eval, ih1 (ex_append_left ha), ih2 (ex_append_left (ex_append_right ha)),
      ih3 (ex_append_right (ex_append_right ha)), both, operand, meaning]
  | ctr n hi hw =>
    have hn : W.alive n = true := ha n (by simp [Def.nodes])
    rw [eval, getValue_open hw ht]
    simp only [computeValue, hn, initialValue, hi, meaning, Option.getD]
    by_cases hl : A.latest n = true <;> simp [hl]
  | par n hw =>
    have hn : W.alive n = true := ha n (by simp [Def.nodes])
    rw [eval, getValue_open hw ht]
    simp [computeValue, hn, meaning]
  | sdef n _ hw ih =>
    have hn : W.alive n = true := ha n (by simp [Def.nodes])
    rw [eval, getValue_open hw ht]
    simp only [computeValue, hn, meaning]
    exact ih (fun m hm => ha m (by simp [Def.nodes, hm]))

/-- the value of an expression at the moment all its windows ended -/
theorem eval_closed {A : Env α} {B C : World α} {t : Nat} {cum : Bool} {d : Def α} {e : Expr α}
    (h : Tracks A B t cum (some C) d e) (ht : t ≤ C.now) : eval A C e = .ok (meaning A B C d) := by
  induction h with
  | const v => rfl
  | ref i => rfl
  | op1 o _ ih => simp only [eval, evalArgs, ih, operate1, meaning]
  | op2 o _ _ ih1 ih2 => simp only [eval, evalArgs, ih1, ih2, operate2, meaning]
  | fn1 f _ ih => simp only [eval, ih, one, meaning]
  | fn2 f _ _ ih1 ih2 => simp [eval, ih1, ih2, both, operand, meaning]
  | fn3 f _ _ _ ih1 ih2 ih3 => simp [eval, ih1, ih2, ih3, both, operand, meaning]
  | ctr n hi hw => rw [eval, getValue_closed hw ht (Nat.le_refl _)]
  | par n hw => rw [eval, getValue_closed hw ht (Nat.le_refl _)]
  | sdef n _ hw ih => rw [eval, getValue_closed hw ht (Nat.le_refl _)]

/-- the base of the window after a start -/
def rebase (cum : Bool) (B W : World α) : World α := if cum then B else W

theorem startExpr_tracks {A : Env α} {B : World α} {t : Nat} {cum : Bool} {c : Option (World α)} {d : Def α} {e : Expr α}
    (h : Tracks A B t cum c d e) (W : World α) (ha : d.Exists W) :
    (startExpr A W e).2 = none ∧ Tracks A (rebase cum B W) W.now cum none d (startExpr A W e).1 := by
  induction h with
  | const v => exact ⟨rfl, .const v⟩
  | ref i => exact ⟨rfl, .ref i⟩
  | @op1 o a x _ ih =>
    obtain ⟨h1, h2⟩ := ih ha
    rcases hx : startExpr A W x with ⟨x', r⟩
    rw [hx] at h1 h2
    dsimp only at h1 h2; subst h1
    simp only [startExpr, startArgs, hx]
    exact ⟨trivial, .op1 o h2⟩
  | @op2 o a b x y _ _ ih1 ih2 =>
    obtain ⟨h1, h2⟩ := ih1 (ex_append_left ha)
    obtain ⟨h3, h4⟩ := ih2 (ex_append_right ha)
    rcases hx : startExpr A W x with ⟨x', r⟩
    rcases hy : startExpr A W y with ⟨y', q⟩
    rw [hx] at h1 h2
    rw [hy] at h3 h4
    dsimp only at h1 h2 h3 h4; subst h1; subst h3
    simp only [startExpr, startArgs, hx, hy]
    exact ⟨trivial, .op2 o h2 h4⟩
  | @fn1 f a x _ ih =>
    obtain ⟨h1, h2⟩ := ih ha
    rcases hx : startExpr A W x with ⟨x', r⟩
    rw [hx] at h1 h2
    dsimp only at h1 h2; subst h1
    simp only [startExpr, hx]
    exact ⟨trivial, .fn1 f h2⟩
  | @fn2 f a b x y _ _ ih1 ih2 =>
    obtain ⟨h1, h2⟩ := ih1 (ex_append_left ha)
    obtain ⟨h3, h4⟩ := ih2 (ex_append_right ha)
    rcases hx : startExpr A W x with ⟨x', r⟩
    rcases hy : startExpr A W y with ⟨y', q⟩
    rw [hx] at h1 h2
    rw [hy] at h3 h4
    dsimp only at h1 h2 h3 h4; subst h1; subst h3
    simp only [startExpr, hx, hy]
    exact ⟨trivial, .fn2 f h2 h4⟩
  | @fn3 f a b d x y z _ _ _ ih1 ih2 ih3 =>
    obtain ⟨h1, h2⟩ := ih1 (ex_append_left ha)
    obtain ⟨h3, h4⟩ := ih2 (ex_append_left (ex_append_right ha))
    obtain ⟨h5, h6⟩ := ih3 (ex_append_right (ex_append_right ha))
    rcases hx : startExpr A W x with ⟨x', r⟩
    rcases hy : startExpr A W y with ⟨y', q⟩
    rcases hz : startExpr A W z with ⟨z', s⟩
    rw [hx] at h1 h2
    rw [hy] at h3 h4
    rw [hz] at h5 h6
    dsimp only at h1 h2 h3 h4 h5 h6; subst h1; subst h3; subst h5
    simp only [startExpr, hx, hy, hz]
    exact ⟨trivial, .fn3 f h2 h4 h6⟩
  | @ctr n w hi hw =>
    have hn : W.alive n = true := ha n (by simp [Def.nodes])
    have hc := hw.cumul
    simp only [startExpr, startWin, hw.sched, hn]
    refine ⟨rfl, .ctr n ?_ ⟨(by first | rfl | exact hw.sched), Nat.le_refl _, hc, fun _ => rfl, fun _ h => by cases h⟩⟩
    cases cum <;> simp [resetInitial, hc, rebase, hi]
  | @par n w hw =>
    have hn : W.alive n = true := ha n (by simp [Def.nodes])
    simp only [startExpr, startWin, hw.sched, hn]
    exact ⟨rfl, .par n ⟨(by first | rfl | exact hw.sched), Nat.le_refl _, hw.cumul, fun _ => rfl, fun _ h => by cases h⟩⟩
  | @sdef n d x w _ hw ih =>
    have hn : W.alive n = true := ha n (by simp [Def.nodes])
    obtain ⟨h1, h2⟩ := ih (fun m hm => ha m (by simp [Def.nodes, hm]))
    rcases hx : startExpr A W x with ⟨x', r⟩
    rw [hx] at h1 h2
    dsimp only at h1 h2; subst h1
    simp only [startExpr, startWin, hw.sched, hn, hx]
    exact ⟨rfl, .sdef n h2 ⟨(by first | rfl | exact hw.sched), Nat.le_refl _, hw.cumul, fun _ => rfl, fun _ h => by cases h⟩⟩

theorem endExpr_tracks {A : Env α} {B : World α} {t : Nat} {cum : Bool} {c : Option (World α)} {d : Def α} {e : Expr α}
    (h : Tracks A B t cum c d e) (W : World α) (ht : t ≤ W.now) (ha : d.Exists W) :
    (endExpr A W e).2 = none ∧ Tracks A B t cum (some W) d (endExpr A W e).1 := by
  induction h with
  | const v => exact ⟨rfl, .const v⟩
  | ref i => exact ⟨rfl, .ref i⟩
  | @op1 o a x _ ih =>
    obtain ⟨h1, h2⟩ := ih ha
    rcases hx : endExpr A W x with ⟨x', r⟩
    rw [hx] at h1 h2
    dsimp only at h1 h2; subst h1
    simp only [endExpr, endArgs, hx]
    exact ⟨trivial, .op1 o h2⟩
  | @op2 o a b x y _ _ ih1 ih2 =>
    obtain ⟨h1, h2⟩ := ih1 (ex_append_left ha)
    obtain ⟨h3, h4⟩ := ih2 (ex_append_right ha)
    rcases hx : endExpr A W x with ⟨x', r⟩
    rcases hy : endExpr A W y with ⟨y', q⟩
    rw [hx] at h1 h2
    rw [hy] at h3 h4
    dsimp only at h1 h2 h3 h4; subst h1; subst h3
    simp only [endExpr, endArgs, hx, hy]
    exact ⟨trivial, .op2 o h2 h4⟩
  | @fn1 f a x _ ih =>
    obtain ⟨h1, h2⟩ := ih ha
    rcases hx : endExpr A W x with ⟨x', r⟩
    rw [hx] at h1 h2
    dsimp only at h1 h2; subst h1
    simp only [endExpr, hx]
    exact ⟨trivial, .fn1 f h2⟩
  | @fn2 f a b x y _ _ ih1 ih2 =>
    obtain ⟨h1, h2⟩ := ih1 (ex_append_left ha)
    obtain ⟨h3, h4⟩ := ih2 (ex_append_right ha)
    rcases hx : endExpr A W x with ⟨x', r⟩
    rcases hy : endExpr A W y with ⟨y', q⟩
    rw [hx] at h1 h2
    rw [hy] at h3 h4
    dsimp only at h1 h2 h3 h4; subst h1; subst h3
    simp only [endExpr, hx, hy]
    exact ⟨trivial, .fn2 f h2 h4⟩
  | @fn3 f a b d x y z _ _ _ ih1 ih2 ih3 =>
    obtain ⟨h1, h2⟩ := ih1 (ex_append_left ha)
    obtain ⟨h3, h4⟩ := ih2 (ex_append_left (ex_append_right ha))
    obtain ⟨h5, h6⟩ := ih3 (ex_append_right (ex_append_right ha))
    rcases hx : endExpr A W x with ⟨x', r⟩
    rcases hy : endExpr A W y with ⟨y', q⟩
    rcases hz : endExpr A W z with ⟨z', s⟩
    rw [hx] at h1 h2
    rw [hy] at h3 h4
    rw [hz] at h5 h6
    dsimp only at h1 h2 h3 h4 h5 h6; subst h1; subst h3; subst h5
    simp only [endExpr, hx, hy, hz]
    exact ⟨trivial, .fn3 f h2 h4 h6⟩
  | @ctr n w hi hw =>
    have hn : W.alive n = true := ha n (by simp [Def.nodes])
    by_cases hl : A.latest n = true
    · simp only [endExpr, endWin, hw.sched, hn, storeResult, computeValue, hl, initialValue, hi]
      refine ⟨rfl, .ctr n ?_ ⟨(by first | rfl | exact hw.sched), hw.start, hw.cumul, (fun h => by cases h), fun C hC => ?_⟩⟩
      · simp [hi]
      · cases hC; simp [meaning, hl]
    · simp only [endExpr, endWin, hw.sched, hn, storeResult, computeValue, hl, initialValue, hi]
      refine ⟨rfl, .ctr n ?_ ⟨(by first | rfl | exact hw.sched), hw.start, hw.cumul, (fun h => by cases h), fun C hC => ?_⟩⟩
      · simp [hi]
      · cases hC; simp [meaning, hl]
  | @par n w hw =>
    have hn : W.alive n = true := ha n (by simp [Def.nodes])
    simp only [endExpr, endWin, hw.sched, hn, storeResult, computeValue]
    refine ⟨rfl, .par n ⟨(by first | rfl | exact hw.sched), hw.start, hw.cumul, (fun h => by cases h), fun C hC => ?_⟩⟩
    cases hC; simp [meaning]
  | @sdef n d x w _ hw ih =>
    have hn : W.alive n = true := ha n (by simp [Def.nodes])
    obtain ⟨h1, h2⟩ := ih (fun m hm => ha m (by simp [Def.nodes, hm]))
    rcases hx : endExpr A W x with ⟨x', r⟩
    rw [hx] at h1 h2
    dsimp only at h1 h2; subst h1
    have he := eval_closed h2 ht
    simp only [endExpr, endWin, hw.sched, hn, hx, storeResult, computeValue, he]
    refine ⟨rfl, .sdef n h2 ⟨(by first | rfl | exact hw.sched), hw.start, hw.cumul, (fun h => by cases h), fun C hC => ?_⟩⟩
    cases hC; simp [meaning]

theorem accumulate_tracks {A : Env α} {B : World α} {t : Nat} {cum : Bool} {c : Option (World α)} {d : Def α} {e : Expr α}
    (h : Tracks A B t cum c d e) : Tracks A B t true c d (accumulateExpr e) := by
  induction h with
  | const v => exact .const v
  | ref i => exact .ref i
  | op1 o _ ih => exact .op1 o ih
  | op2 o _ _ ih1 ih2 => exact .op2 o ih1 ih2
  | fn1 f _ ih => exact .fn1 f ih
  | fn2 f _ _ ih1 ih2 => exact .fn2 f ih1 ih2
  | fn3 f _ _ _ ih1 ih2 ih3 => exact .fn3 f ih1 ih2 ih3
  | ctr n hi hw => exact .ctr n hi ⟨hw.sched, hw.start, rfl, hw.open_, hw.closed⟩
  | par n hw => exact .par n ⟨hw.sched, hw.start, rfl, hw.open_, hw.closed⟩
  | sdef n _ hw ih => exact .sdef n ih ⟨hw.sched, hw.start, rfl, hw.open_, hw.closed⟩

theorem build_tracks (A : Env α) (W : World α) (d : Def α) (ha : d.Exists W) (hk : d.Clocked W) :
    ∃ e, build A W d = .ok e ∧ Tracks A W W.now false none d e := by
  induction d with
  | const v => exact ⟨_, rfl, .const v⟩
  | ref i => exact ⟨_, rfl, .ref i⟩
  | op1 o a ih =>
    obtain ⟨x, h1, h2⟩ := ih ha hk
    exact ⟨_, by simp only [build, h1], .op1 o h2⟩
  | op2 o a b ih1 ih2 =>
    obtain ⟨x, h1, h2⟩ := ih1 (ex_append_left ha) (fun n hn => hk n (List.mem_append_left _ hn))
    obtain ⟨y, h3, h4⟩ := ih2 (ex_append_right ha) (fun n hn => hk n (List.mem_append_right _ hn))
    exact ⟨_, by simp only [build, h1, h3], .op2 o h2 h4⟩
  | fn1 f a ih =>
    obtain ⟨x, h1, h2⟩ := ih ha hk
    exact ⟨_, by simp only [build, h1], .fn1 f h2⟩
  | fn2 f a b ih1 ih2 =>
    obtain ⟨x, h1, h2⟩ := ih1 (ex_append_left ha) (fun n hn => hk n (List.mem_append_left _ hn))
    obtain ⟨y, h3, h4⟩ := ih2 (ex_append_right ha) (fun n hn => hk n (List.mem_append_right _ hn))
    exact ⟨_, by simp only [build, h1, h3], .fn2 f h2 h4⟩
  | fn3 f a b c ih1 ih2 ih3 =>
    obtain ⟨x, h1, h2⟩ := ih1 (ex_append_left ha) (fun n hn => hk n (List.mem_append_left _ hn))
    obtain ⟨y, h3, h4⟩ := ih2 (ex_append_left (ex_append_right ha))
      (fun n hn => hk n (List.mem_append_right _ (List.mem_append_left _ hn)))
    obtain ⟨z, h5, h6⟩ := ih3 (ex_append_right (ex_append_right ha))
      (fun n hn => hk n (List.mem_append_right _ (List.mem_append_right _ hn)))
    exact ⟨_, by simp only [build, h1, h3, h5], .fn3 f h2 h4 h6⟩
  | ctr n =>
    have hn : W.alive n = true := ha n (by simp [Def.nodes])
    have hc : W.clocked n = true := hk n (by simp [Def.nodes])
    refine ⟨_, by simp only [build, construct, hn, startWin, freshWin, hc]; rfl, .ctr n ?_ ?_⟩
    · simp [resetInitial]
    · exact ⟨rfl, Nat.le_refl _, rfl, fun _ => rfl, fun _ h => by cases h⟩
  | par n =>
    have hn : W.alive n = true := ha n (by simp [Def.nodes])
    have hc : W.clocked n = true := hk n (by simp [Def.nodes])
    refine ⟨_, by simp only [build, construct, hn, startWin, freshWin, hc]; rfl, .par n ?_⟩
    exact ⟨rfl, Nat.le_refl _, rfl, fun _ => rfl, fun _ h => by cases h⟩
  | sdef n d ih =>
    have hn : W.alive n = true := ha n (by simp [Def.nodes])
    have hc : W.clocked n = true := hk n (by simp [Def.nodes])
    have had : d.Exists W := fun m hm => ha m (by simp [Def.nodes, hm])
    obtain ⟨x, h1, h2⟩ := ih had (fun m hm => hk m (by simp [Def.nodes, hm]))
    obtain ⟨h3, h4⟩ := startExpr_tracks h2 W had
    rcases hx : startExpr A W x with ⟨x', r⟩
    rw [hx] at h3 h4
    dsimp only at h3 h4; subst h3
    refine ⟨_, by simp only [build, construct, h1, hn, startWin, freshWin, hc, hx]; rfl, .sdef n h4 ?_⟩
    exact ⟨rfl, Nat.le_refl _, rfl, fun _ => rfl, fun _ h => by cases h⟩

/-- the instance is one of the definition -/
def TracksI (A : Env α) (B : World α) (t : Nat) (cum : Bool) (c : Option (World α)) (d : Def α) (i : Inst α) : Prop :=
  Tracks A B t cum c d (.stat i.kind i.win i.body) ∨
    (i.kind = .free ∧ Tracks A B t cum c d i.body ∧ WinOk t cum c (fun C => meaning A B C d) i.win)

theorem TracksI.win {A : Env α} {B : World α} {t : Nat} {cum : Bool} {c : Option (World α)} {d : Def α} {i : Inst α}
    (h : TracksI A B t cum c d i) : WinOk t cum c (fun C => meaning A B C d) i.win := by
  rcases h with h | ⟨_, _, h⟩
  · generalize he : Expr.stat i.kind i.win i.body = e at h
    cases h with
    | ctr n hi hw => injection he with _ he; rw [he]; exact hw
    | par n hw => injection he with _ he; rw [he]; exact hw
    | sdef n hx hw => injection he with _ he; rw [he]; exact hw
    | _ => cases he
  · exact h

theorem value_open {A : Env α} {B : World α} {t : Nat} {cum : Bool} {d : Def α} {i : Inst α}
    (h : TracksI A B t cum none d i) (W : World α) (ht : t ≤ W.now) (ha : d.Exists W) :
    i.value A W = .ok (meaning A B W d) := by
  rcases h with h | ⟨hk, hb, hw⟩
  · exact eval_open h W ht ha
  · rw [Inst.value, getValue_open hw ht, hk]
    exact eval_open hb W ht ha

theorem value_closed {A : Env α} {B C : World α} {t : Nat} {cum : Bool} {d : Def α} {i : Inst α}
    (h : TracksI A B t cum (some C) d i) (W : World α) (ht : t ≤ C.now) (hC : C.now ≤ W.now) :
    i.value A W = .ok (meaning A B C d) := by
  rw [Inst.value, getValue_closed h.win ht hC]

theorem start_tracksI {A : Env α} {B : World α} {t : Nat} {cum : Bool} {c : Option (World α)} {d : Def α} {i : Inst α}
    (h : TracksI A B t cum c d i) (W : World α) (ha : d.Exists W) :
    (i.start A W).2 = none ∧ TracksI A (rebase cum B W) W.now cum none d (i.start A W).1 := by
  rcases h with h | ⟨hk, hb, hw⟩
  · obtain ⟨h1, h2⟩ := startExpr_tracks h W ha
    exact ⟨h1, .inl h2⟩
  · obtain ⟨h1, h2⟩ := startExpr_tracks hb W ha
    rcases hx : startExpr A W i.body with ⟨x', r⟩
    rw [hx] at h1 h2
    dsimp only at h1 h2; subst h1
    simp only [Inst.start, startWin, hw.sched, hk, hx]
    exact ⟨rfl, .inr ⟨by first | exact hk | rfl, h2, (by first | rfl | exact hw.sched), Nat.le_refl _, hw.cumul, fun _ => rfl, fun _ h => by cases h⟩⟩

theorem stop_tracksI {A : Env α} {B : World α} {t : Nat} {cum : Bool} {c : Option (World α)} {d : Def α} {i : Inst α}
    (h : TracksI A B t cum c d i) (W : World α) (ht : t ≤ W.now) (ha : d.Exists W) :
    (i.stop A W).2 = none ∧ TracksI A B t cum (some W) d (i.stop A W).1 := by
  rcases h with h | ⟨hk, hb, hw⟩
  · obtain ⟨h1, h2⟩ := endExpr_tracks h W ht ha
    exact ⟨h1, .inl h2⟩
  · obtain ⟨h1, h2⟩ := endExpr_tracks hb W ht ha
    rcases hx : endExpr A W i.body with ⟨x', r⟩
    rw [hx] at h1 h2
    dsimp only at h1 h2; subst h1
    have he := eval_closed h2 ht
    simp only [Inst.stop, endWin, hw.sched, hk, hx, storeResult, computeValue, he]
    refine ⟨rfl, .inr ⟨by first | exact hk | rfl, h2, (by first | rfl | exact hw.sched), hw.start, hw.cumul, (fun h => by cases h), fun C hC => ?_⟩⟩
    cases hC; exact ⟨rfl, rfl⟩

theorem accumulate_tracksI {A : Env α} {B : World α} {t : Nat} {cum : Bool} {c : Option (World α)} {d : Def α} {i : Inst α}
    (h : TracksI A B t cum c d i) : TracksI A B t true c d i.accumulate := by
  rcases h with h | ⟨hk, hb, hw⟩
  · exact .inl (accumulate_tracks h)
  · exact .inr ⟨hk, accumulate_tracks hb, hw.sched, hw.start, rfl, hw.open_, hw.closed⟩

theorem instance_tracks (A : Env α) (W : World α) (d : Def α) (ha : d.Exists W) (hk : d.Clocked W) :
    ∃ i, instance_ A W d = .ok i ∧ TracksI A W W.now false none d i.setContext := by
  obtain ⟨e, h1, h2⟩ := build_tracks A W d ha hk
  simp only [instance_, h1]
  cases h2 with
  | const v => exact ⟨_, rfl, .inr ⟨rfl, .const v, rfl, Nat.zero_le _, rfl, fun _ => rfl, fun _ h => by cases h⟩⟩
  | ref i => exact ⟨_, rfl, .inr ⟨rfl, .ref i, rfl, Nat.zero_le _, rfl, fun _ => rfl, fun _ h => by cases h⟩⟩
  | op1 o h => exact ⟨_, rfl, .inr ⟨rfl, .op1 o h, rfl, Nat.zero_le _, rfl, fun _ => rfl, fun _ h => by cases h⟩⟩
  | op2 o h g => exact ⟨_, rfl, .inr ⟨rfl, .op2 o h g, rfl, Nat.zero_le _, rfl, fun _ => rfl, fun _ h => by cases h⟩⟩
  | fn1 f h => exact ⟨_, rfl, .inr ⟨rfl, .fn1 f h, rfl, Nat.zero_le _, rfl, fun _ => rfl, fun _ h => by cases h⟩⟩
  | fn2 f h g => exact ⟨_, rfl, .inr ⟨rfl, .fn2 f h g, rfl, Nat.zero_le _, rfl, fun _ => rfl, fun _ h => by cases h⟩⟩
  | fn3 f h g k => exact ⟨_, rfl, .inr ⟨rfl, .fn3 f h g k, rfl, Nat.zero_le _, rfl, fun _ => rfl, fun _ h => by cases h⟩⟩
  | ctr n hi hw => exact ⟨_, rfl, .inl (.ctr n hi ⟨rfl, hw.start, hw.cumul, hw.open_, hw.closed⟩)⟩
  | par n hw => exact ⟨_, rfl, .inl (.par n ⟨rfl, hw.start, hw.cumul, hw.open_, hw.closed⟩)⟩
  | sdef n h hw => exact ⟨_, rfl, .inl (.sdef n h ⟨rfl, hw.start, hw.cumul, hw.open_, hw.closed⟩)⟩

/-! ### histories -/

/-- the instance follows the window of the calls -/
structure Follows (A : Env α) (d : Def α) (p : Span α) (s : World α × Inst α) : Prop where
  now : s.1 = p.now
  ex : d.Exists p.now
  since : p.since.now ≤ p.now.now
  till : ∀ U, p.till = some U → p.since.now ≤ U.now ∧ U.now ≤ p.now.now
  inst : TracksI A p.base p.since.now p.cumul p.till d s.2

theorem follows_step {A : Env α} {d : Def α} {p : Span α} {s : World α × Inst α} (h : Follows A d p s) (c : Call α)
    (hw : ∀ W, c = .world W → p.now.now ≤ W.now ∧ d.Exists W) :
    (step A s c).2 = none ∧ Follows A d (p.next c) (step A s c).1 := by
  rcases s with ⟨V, i⟩
  obtain ⟨hV, hex, hs, ht, hi⟩ := h
  dsimp only at hV hi
  subst hV
  cases c with
  | start =>
    obtain ⟨h1, h2⟩ := start_tracksI hi p.now hex
    exact ⟨h1, rfl, hex, Nat.le_refl _, (fun U hU => by cases hU), h2⟩
  | stop =>
    obtain ⟨h1, h2⟩ := stop_tracksI hi p.now hs hex
    exact ⟨h1, rfl, hex, hs, fun U hU => by cases hU; exact ⟨hs, Nat.le_refl _⟩, h2⟩
  | accumulate => exact ⟨rfl, rfl, hex, hs, ht, accumulate_tracksI hi⟩
  | world W =>
    obtain ⟨h1, h2⟩ := hw W rfl
    refine ⟨rfl, rfl, h2, Nat.le_trans hs h1, fun U hU => ?_, hi⟩
    obtain ⟨h3, h4⟩ := ht U hU
    exact ⟨h3, Nat.le_trans h4 h1⟩

theorem follows_run {A : Env α} {d : Def α} (cs : List (Call α)) {p : Span α} {s : World α × Inst α} (h : Follows A d p s)
    (hs : Steady d p.now cs) :
    Follows A d (cs.foldl Span.next p) (runOps (step A) s cs).1 ∧ ∀ r ∈ (runOps (step A) s cs).2, r = none := by
  induction cs generalizing p s with
  | nil => exact ⟨h, by simp [runOps]⟩
  | cons c cs ih =>
    have hw : ∀ W, c = .world W → p.now.now ≤ W.now ∧ d.Exists W := by
      rintro W rfl
      exact ⟨hs.1, hs.2.1⟩
    obtain ⟨h1, h2⟩ := follows_step h c hw
    have h3 : Steady d (p.next c).now cs := by
      cases c with
      | world W => exact hs.2.2
      | _ => exact hs
    obtain ⟨h4, h5⟩ := ih h2 h3
    refine ⟨h4, fun r hr => ?_⟩
    simp only [runOps, List.mem_cons] at hr
    rcases hr with rfl | hr
    · exact h1
    · exact h5 r hr

theorem follows_init (A : Env α) (W : World α) (d : Def α) (ha : d.Exists W) (hk : d.Clocked W) :
    ∃ i, instance_ A W d = .ok i ∧ Follows A d (Span.init W) (W, i.setContext) := by
  obtain ⟨i, h1, h2⟩ := instance_tracks A W d ha hk
  exact ⟨i, h1, rfl, ha, Nat.le_refl _, (fun U hU => by cases hU), h2⟩

end Sparta.Stat
