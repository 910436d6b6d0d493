import Verif.SyncPort.Lemmas
/-! Histories of sync ports: what is recorded and what is outstanding. -/
namespace Sparta.SyncPort
variable {α : Type}

/-- induction over a history with its log -/
theorem hist_induct (c : Cfg) (P : Port α → Log α → Prop) (Q : Op α × Res α → Prop) (hinit : P (Port.init α c) (Log.init α))
    (hstep : ∀ s L o, P s L → Q (o, (s.step c o).2) → P (s.step c o).1 (L.add (o, (s.step c o).2))) (os : List (Op α))
    (hq : ∀ e ∈ os.zip (runOps (Port.step c) (Port.init α c) os).2, Q e) :
    P (runOps (Port.step c) (Port.init α c) os).1 (logOf c os) := by
  have gen : ∀ (os : List (Op α)) (s : Port α) (L : Log α), P s L → (∀ e ∈ os.zip (runOps (Port.step c) s os).2, Q e) →
      P (runOps (Port.step c) s os).1 ((os.zip (runOps (Port.step c) s os).2).foldl Log.add L) := by
    intro os
    induction os with
    | nil => intro s L h _; exact h
    | cons o os ih =>
      intro s L h hq
      have e : runOps (Port.step c) s (o :: os) = ((runOps (Port.step c) (s.step c o).1 os).1, (s.step c o).2 :: (runOps (Port.step c) (s.step c o).1 os).2) := rfl
      rw [e] at hq ⊢
      dsimp only at hq ⊢
      rw [List.zip_cons_cons] at hq ⊢
      rw [List.foldl_cons]
      exact ih _ _ (hstep s L o h (hq _ List.mem_cons_self)) fun e he => hq e (List.mem_cons_of_mem _ he)
  exact gen os _ _ hinit hq

/-- the part of the log about time and readiness -/
structure Clk (c : Cfg) (s : Port α) (L : Log α) : Prop where
  now : L.now = s.now
  here : L.readyAt c s.now = s.latched
  later : ∀ T, s.now < T → L.readyAt c T = s.cur
  setTick : s.setTick ≤ s.now
  sets : ∀ e ∈ L.sets, e.1 ≤ s.now

theorem readyAt_congr {c : Cfg} {L L' : Log α} (h : L'.sets = L.sets) : L'.readyAt c = L.readyAt c := by
  funext T; unfold Log.readyAt; rw [h]

theorem readyAt_cons {c : Cfg} (L : Log α) (t : Nat) (b : Bool) (T : Nat) :
    Log.readyAt { L with sets := (t, b) :: L.sets } c T = if t < T then b else L.readyAt c T := by
  unfold Log.readyAt
  dsimp only
  rw [List.find?_cons]
  by_cases h : t < T
  · rw [if_pos h, decide_eq_true h]
  · rw [if_neg h, decide_eq_false h]

theorem Clk.congr {c : Cfg} {s s' : Port α} {L L' : Log α} (h : Clk c s L) (e1 : s'.now = s.now) (e2 : s'.cur = s.cur) (e3 : s'.prev = s.prev) (e4 : s'.setTick = s.setTick)
    (e5 : L'.now = L.now) (e6 : L'.sets = L.sets) : Clk c s' L' := by
  refine ⟨by rw [e5, e1]; exact h.now, ?_, ?_, by rw [e4, e1]; exact h.setTick, by rw [e6, e1]; exact h.sets⟩
  · rw [readyAt_congr e6, e1, h.here]
    unfold Port.latched
    rw [e1, e2, e3, e4]
  · rw [readyAt_congr e6, e1, e2]; exact h.later

theorem latched_eq {s : Port α} (h : s.setTick ≤ s.now) : s.latched = if s.setTick = s.now then s.prev else s.cur := by
  unfold Port.latched
  by_cases he : s.setTick = s.now
  · rw [if_pos he]
    cases hp : s.prev with
    | true => rw [if_neg (by rintro (⟨_, h⟩ | ⟨h, _⟩) <;> first | omega | simp at h)]
    | false => rw [if_pos (.inl ⟨he, rfl⟩)]
  · rw [if_neg he]
    cases hc : s.cur with
    | true => rw [if_neg (by rintro (⟨h, _⟩ | ⟨_, h⟩) <;> first | omega | simp at h)]
    | false => rw [if_pos (.inr ⟨by omega, rfl⟩)]

theorem clk_init (c : Cfg) : Clk c (Port.init α c) (Log.init α) := by
  refine ⟨rfl, ?_, fun T _ => rfl, Nat.le_refl _, fun e he => by cases he⟩
  rw [latched_eq (Nat.le_refl _)]
  rfl

theorem Clk.setReady {c : Cfg} {s : Port α} {L : Log α} (h : Clk c s L) (b : Bool) : Clk c (s.setReady b).1 (L.add (.setReady b, (s.setReady b).2)) := by
  unfold Port.setReady
  split
  · next hgt =>
    show Clk c _ { L with sets := (L.now, b) :: L.sets }
    refine ⟨h.now, ?_, ?_, Nat.le_refl _, ?_⟩
    · rw [latched_eq (by exact Nat.le_refl _), if_pos rfl]
      rw [readyAt_cons, if_neg (by rw [h.now]; exact Nat.lt_irrefl _)]
      show L.readyAt c s.now = s.cur
      rw [h.here, latched_eq h.setTick, if_neg (by omega)]
    · intro T hT
      rw [readyAt_cons, if_pos (by rw [h.now]; exact hT)]
    · intro e he
      rcases List.mem_cons.1 he with he | he
      · subst he; show L.now ≤ s.now; rw [h.now]; exact Nat.le_refl _
      · exact h.sets e he
  · split
    · next hq =>
      show Clk c _ { L with sets := (L.now, b) :: L.sets }
      refine ⟨h.now, ?_, ?_, h.setTick, ?_⟩
      · rw [readyAt_cons, if_neg (by rw [h.now]; exact Nat.lt_irrefl _)]
        exact h.here
      · intro T hT
        rw [readyAt_cons, if_pos (by rw [h.now]; exact hT), hq.2]
      · intro e he
        rcases List.mem_cons.1 he with he | he
        · subst he; show L.now ≤ s.now; rw [h.now]; exact Nat.le_refl _
        · exact h.sets e he
    · exact h

/-- readiness in the past does not change -/
theorem readyAt_past {c : Cfg} {s : Port α} {L : Log α} (h : Clk c s L) (o : Op α) (r : Res α) {T : Nat} (hT : T ≤ s.now) :
    (L.add (o, r)).readyAt c T = L.readyAt c T := by
  unfold Log.add
  split <;> first | rfl | skip
  · next b e =>
    rw [readyAt_cons, if_neg (by rw [h.now]; omega)]

theorem sendIn_keeps {c : Cfg} (s : Port α) (x : α) (P d : Nat) (sl : Bool) :
    (s.sendIn c x P d sl).1.now = s.now ∧ (s.sendIn c x P d sl).1.cur = s.cur ∧ (s.sendIn c x P d sl).1.prev = s.prev ∧
    (s.sendIn c x P d sl).1.setTick = s.setTick ∧ (s.sendIn c x P d sl).1.prevSend = s.prevSend ∧ (s.sendIn c x P d sl).1.late = s.late := by
  unfold Port.sendIn
  split
  · exact ⟨rfl, rfl, rfl, rfl, rfl, rfl⟩
  · dsimp only
    split
    · exact ⟨rfl, rfl, rfl, rfl, rfl, rfl⟩
    · split
      · exact ⟨rfl, rfl, rfl, rfl, rfl, rfl⟩
      · split <;> exact ⟨rfl, rfl, rfl, rfl, rfl, rfl⟩

theorem send_keeps {c : Cfg} (s : Port α) (x : α) (d : Nat) (sl : Bool) :
    (s.send c x d sl).1.now = s.now ∧ (s.send c x d sl).1.cur = s.cur ∧ (s.send c x d sl).1.prev = s.prev ∧ (s.send c x d sl).1.setTick = s.setTick := by
  unfold Port.send
  split
  · exact ⟨rfl, rfl, rfl, rfl⟩
  · split
    · exact ⟨rfl, rfl, rfl, rfl⟩
    · have := sendIn_keeps (c := c) s x c.S d sl
      split
      · next he => rw [he] at this; exact ⟨this.1, this.2.1, this.2.2.1, this.2.2.2.1⟩
      · next he =>
        rw [he] at this
        split
        · exact ⟨this.1, this.2.1, this.2.2.1, this.2.2.2.1⟩
        · split <;> exact ⟨this.1, this.2.1, this.2.2.1, this.2.2.2.1⟩

theorem deliver_keeps {c : Cfg} {s : Port α} (h : Inv c s) :
    (s.deliver c).1.now = s.now ∧ (s.deliver c).1.cur = s.cur ∧ (s.deliver c).1.prev = s.prev ∧ (s.deliver c).1.setTick = s.setTick := by
  rcases deliver_eq h with ⟨_, e⟩ | ⟨x, rest, hp, hr, hl, e⟩
  · rw [e]; exact ⟨rfl, rfl, rfl, rfl⟩
  · rw [e]
    split
    · exact ⟨rfl, rfl, rfl, rfl⟩
    · have := sendIn_keeps (c := c) (s.taken rest) x c.D 1 false
      split
      · next he => rw [he] at this; exact ⟨this.1, this.2.1, this.2.2.1, this.2.2.2.1⟩
      · next he =>
        rw [he] at this
        split <;> exact ⟨this.1, this.2.1, this.2.2.1, this.2.2.2.1⟩

theorem add_send_clk (L : Log α) (x : α) (d : Nat) (sl : Bool) (r : Res α) : (L.add (.send x d sl, r)).now = L.now ∧ (L.add (.send x d sl, r)).sets = L.sets := by
  cases r <;> exact ⟨rfl, rfl⟩

theorem add_deliver_clk (L : Log α) (r : Res α) : (L.add (.deliver, r)).now = L.now ∧ (L.add (.deliver, r)).sets = L.sets := by
  cases r <;> exact ⟨rfl, rfl⟩

theorem Clk.step {c : Cfg} {s : Port α} {L : Log α} (o : Op α) (hi : Inv c s) (h : Clk c s L) : Clk c (s.step c o).1 (L.add (o, (s.step c o).2)) := by
  cases o with
  | send x d sl =>
    obtain ⟨a1, a2, a3, a4⟩ := send_keeps (c := c) s x d sl
    obtain ⟨b1, b2⟩ := add_send_clk L x d sl (s.send c x d sl).2
    exact h.congr a1 a2 a3 a4 b1 b2
  | setReady b => exact h.setReady b
  | deliver =>
    obtain ⟨a1, a2, a3, a4⟩ := deliver_keeps hi
    obtain ⟨b1, b2⟩ := add_deliver_clk L (s.deliver c).2
    exact h.congr a1 a2 a3 a4 b1 b2
  | pass =>
    rcases pass_eq hi with ⟨hn, e⟩ | e
    · rw [e]; exact h.congr rfl rfl rfl rfl rfl rfl
    · rw [e]; exact h
  | next =>
    rcases next_eq hi with ⟨hn, e⟩ | e
    · rw [e]
      show Clk c _ { L with now := L.now + 1 }
      refine ⟨by show L.now + 1 = s.now + 1; rw [h.now], ?_, ?_, Nat.le_trans h.setTick (Nat.le_succ _), fun e he => Nat.le_trans (h.sets e he) (Nat.le_succ _)⟩
      · show L.readyAt c (s.now + 1) = _
        rw [h.later _ (Nat.lt_succ_self _), latched_eq (by exact Nat.le_trans h.setTick (Nat.le_succ _))]
        show s.cur = if s.setTick = s.now + 1 then s.prev else s.cur
        rw [if_neg (by have := h.setTick; omega)]
      · intro T hT
        exact h.later T (Nat.lt_of_succ_lt hT)
    · rw [e]; exact h
  | isReady => cases hc : (s.step c .isReady).2 <;> exact h
  | isReadyPS => cases hc : (s.step c .isReadyPS).2 <;> exact h
  | isDriven r => cases hc : (s.step c (.isDriven r)).2 <;> exact h
  | isDrivenIn => exact h
  | nextAvailable d n => cases hc : (s.step c (.nextAvailable d n)).2 <;> exact h
  | getReady => exact h

/-- calls that only ask leave everything as it is -/
theorem asks {c : Cfg} (s : Port α) (L : Log α) (o : Op α) (h : match o with | .isReady | .isReadyPS | .isDriven _ | .isDrivenIn | .nextAvailable _ _ | .getReady => True | _ => False) :
    (s.step c o).1 = s ∧ ∀ r, L.add (o, r) = L := by
  cases o <;> first | exact h.elim | exact ⟨rfl, fun r => by cases r <;> rfl⟩

/-! ### One delivery per cycle -/

structure Del (c : Cfg) (s : Port α) (L : Log α) : Prop where
  inv : Inv c s
  clk : Clk c s L
  sorted : L.dels.Pairwise fun a b => a.1 < b.1
  dvd : ∀ d ∈ L.dels, c.D ∣ d.1
  le : ∀ d ∈ L.dels, d.1 ≤ s.now ∧ ∃ p, s.prevArrival = some p ∧ d.1 ≤ p
  before : ∀ d ∈ L.dels, ∀ e ∈ s.pending, d.1 < e.1

/-- what one more entry does -/
theorem sendIn_effect {c : Cfg} (hD : 0 < c.D) (s : Port α) (hp : PrevOk c s.prevArrival) (x : α) (P d : Nat) (sl : Bool) :
    ((s.sendIn c x P d sl).1.prevArrival = s.prevArrival ∧ (s.sendIn c x P d sl).1.pending = s.pending ∧ (s.sendIn c x P d sl).2 = none) ∨
    ∃ A, s.later A = true ∧ (s.sendIn c x P d sl).1.prevArrival = some A ∧ A = arrival c s.now P d sl s.prevArrival ∧ s.now ≤ A ∧ P ∣ s.now ∧
      (((s.sendIn c x P d sl).1.pending = s.pending ∧ (s.sendIn c x P d sl).2 = none ∧ A = s.now ∧ s.late = true) ∨
       ((s.sendIn c x P d sl).1.pending = s.pending ++ [(A, x)] ∧ (s.sendIn c x P d sl).2 = some (A - s.now) ∧ ¬ (A = s.now ∧ s.late = true) ∧
         (s.sendIn c x P d sl).1.inFlight = s.inFlight + 1)) := by
  rw [sendIn_eq hD s hp]
  have hge := arrival_ge hD s.now P d sl s.prevArrival
  split
  · exact .inl ⟨rfl, rfl, rfl⟩
  · next hP =>
    split
    · exact .inl ⟨rfl, rfl, rfl⟩
    · next h =>
      right
      refine ⟨_, by simpa using h, ?_, rfl, by omega, Decidable.not_not.1 hP, ?_⟩
      · split <;> rfl
      · split
        · next h2 => exact .inl ⟨rfl, rfl, h2.1, h2.2⟩
        · next h2 => exact .inr ⟨rfl, rfl, h2, rfl⟩

theorem Del.sendIn {c : Cfg} (hD : 0 < c.D) {s : Port α} {dels : List (Nat × α)} (hp : PrevOk c s.prevArrival)
    (le : ∀ d ∈ dels, d.1 ≤ s.now ∧ ∃ p, s.prevArrival = some p ∧ d.1 ≤ p) (before : ∀ d ∈ dels, ∀ e ∈ s.pending, d.1 < e.1) (x : α) (P dl : Nat) (sl : Bool) :
    (∀ d ∈ dels, d.1 ≤ (s.sendIn c x P dl sl).1.now ∧ ∃ p, (s.sendIn c x P dl sl).1.prevArrival = some p ∧ d.1 ≤ p) ∧
    (∀ d ∈ dels, ∀ e ∈ (s.sendIn c x P dl sl).1.pending, d.1 < e.1) := by
  rw [(sendIn_keeps s x P dl sl).1]
  rcases sendIn_effect hD s hp x P dl sl with ⟨e1, e2, _⟩ | ⟨A, hA, e1, _, _, _, h⟩
  · rw [e1, e2]; exact ⟨le, before⟩
  · rw [later_iff] at hA
    have hlt : ∀ d ∈ dels, d.1 < A := by
      intro d hd
      obtain ⟨_, p, hp, h2⟩ := le d hd
      have := hA p hp
      omega
    rw [e1]
    refine ⟨fun d hd => ⟨(le d hd).1, A, rfl, Nat.le_of_lt (hlt d hd)⟩, ?_⟩
    rcases h with ⟨e2, _⟩ | ⟨e2, _⟩
    · rw [e2]; exact before
    · rw [e2]
      intro d hd e he
      rcases List.mem_append.1 he with he | he
      · exact before d hd e he
      · rw [List.mem_singleton] at he; subst he; exact hlt d hd

/-- `send` is `send_` up to the record of the sending cycle -/
theorem send_sendIn {c : Cfg} (s : Port α) (x : α) (d : Nat) (sl : Bool) :
    ((s.send c x d sl).1 = s ∧ (s.send c x d sl).2 = .threw) ∨
    ((s.send c x d sl).1.prevArrival = (s.sendIn c x c.S d sl).1.prevArrival ∧ (s.send c x d sl).1.pending = (s.sendIn c x c.S d sl).1.pending ∧
      (s.send c x d sl).1.inFlight = (s.sendIn c x c.S d sl).1.inFlight ∧ (s.send c x d sl).1.late = (s.sendIn c x c.S d sl).1.late ∧
      ∀ r, (s.send c x d sl).2 = .delay r → (s.sendIn c x c.S d sl).2 = some r) := by
  unfold Port.send
  split
  · exact .inl ⟨rfl, rfl⟩
  · split
    · exact .inl ⟨rfl, rfl⟩
    · right
      split
      · next he => rw [he]; exact ⟨rfl, rfl, rfl, rfl, fun r hr => by cases hr⟩
      · next he =>
        rw [he]
        split
        · exact ⟨rfl, rfl, rfl, rfl, fun r hr => by injection hr with hr; rw [hr]⟩
        · split
          · exact ⟨rfl, rfl, rfl, rfl, fun r hr => by injection hr with hr; rw [hr]⟩
          · exact ⟨rfl, rfl, rfl, rfl, fun r hr => by cases hr⟩

theorem add_send_dels (L : Log α) (x : α) (d : Nat) (sl : Bool) (r : Res α) : (L.add (.send x d sl, r)).dels = L.dels := by cases r <;> rfl

theorem Del.step {c : Cfg} (hD : 0 < c.D) {s : Port α} {L : Log α} (o : Op α) (h : Del c s L) : Del c (s.step c o).1 (L.add (o, (s.step c o).2)) := by
  have hi := h.inv.step hD s o
  have hc := h.clk.step o h.inv
  cases o with
  | send x d sl =>
    have hd : (L.add (.send x d sl, (s.send c x d sl).2)).dels = L.dels := add_send_dels ..
    refine ⟨hi, hc, by rw [show (L.add (.send x d sl, (s.step c (.send x d sl)).2)).dels = L.dels from hd]; exact h.sorted,
      by rw [show (L.add (.send x d sl, (s.step c (.send x d sl)).2)).dels = L.dels from hd]; exact h.dvd, ?_, ?_⟩
    · rw [show (L.add (.send x d sl, (s.step c (.send x d sl)).2)).dels = L.dels from hd]
      show ∀ d' ∈ L.dels, d'.1 ≤ (s.send c x d sl).1.now ∧ _
      rw [(send_keeps s x d sl).1]
      show ∀ d' ∈ L.dels, d'.1 ≤ s.now ∧ ∃ p, (s.send c x d sl).1.prevArrival = some p ∧ d'.1 ≤ p
      rcases send_sendIn (c := c) s x d sl with ⟨e, _⟩ | ⟨e1, _⟩
      · rw [e]; exact h.le
      · rw [e1]
        have := (Del.sendIn hD h.inv.prevOk h.le h.before x c.S d sl).1
        rw [(sendIn_keeps s x c.S d sl).1] at this
        exact this
    · rw [show (L.add (.send x d sl, (s.step c (.send x d sl)).2)).dels = L.dels from hd]
      show ∀ d' ∈ L.dels, ∀ e ∈ (s.send c x d sl).1.pending, d'.1 < e.1
      rcases send_sendIn (c := c) s x d sl with ⟨e, _⟩ | ⟨_, e1, _⟩
      · rw [e]; exact h.before
      · rw [e1]
        exact (Del.sendIn hD h.inv.prevOk h.le h.before x c.S d sl).2
  | setReady b =>
    have hd : (L.add (.setReady b, (s.setReady b).2)).dels = L.dels := by cases (s.setReady b).2 <;> rfl
    have hs : (s.setReady b).1.now = s.now ∧ (s.setReady b).1.prevArrival = s.prevArrival ∧ (s.setReady b).1.pending = s.pending := by
      unfold Port.setReady; split
      · exact ⟨rfl, rfl, rfl⟩
      · split <;> exact ⟨rfl, rfl, rfl⟩
    have hd' : (L.add (.setReady b, (s.step c (.setReady b)).2)).dels = L.dels := hd
    obtain ⟨h1, h2, h3⟩ := hs
    refine ⟨hi, hc, by rw [hd']; exact h.sorted, by rw [hd']; exact h.dvd, ?_, ?_⟩
    · rw [hd']
      show ∀ d' ∈ L.dels, d'.1 ≤ (s.setReady b).1.now ∧ ∃ p, (s.setReady b).1.prevArrival = some p ∧ d'.1 ≤ p
      rw [h1, h2]; exact h.le
    · rw [hd']
      show ∀ d' ∈ L.dels, ∀ e ∈ (s.setReady b).1.pending, d'.1 < e.1
      rw [h3]; exact h.before
  | deliver =>
    have hi : Inv c (s.deliver c).1 := hi
    have hc : Clk c (s.deliver c).1 (L.add (.deliver, (s.deliver c).2)) := hc
    show Del c (s.deliver c).1 (L.add (.deliver, (s.deliver c).2))
    rcases deliver_eq h.inv with ⟨_, e⟩ | ⟨x, rest, hp, hr, hl, e⟩
    · rw [e]; exact h
    · have hm : ∀ e ∈ rest, e ∈ s.pending := fun e he => by rw [hp]; exact List.mem_cons_of_mem _ he
      by_cases hlt : s.latched = true
      · rw [if_pos hlt] at e
        rw [e] at hi hc ⊢
        have hx : ((s.now, x) : Nat × α) ∈ s.pending := by rw [hp]; exact List.mem_cons_self
        have hn : L.now = s.now := h.clk.now
        refine ⟨hi, hc, ?_, ?_, ?_, ?_⟩
        · show (L.dels ++ [(L.now, x)]).Pairwise _
          rw [List.pairwise_append]
          refine ⟨h.sorted, List.pairwise_singleton _ _, ?_⟩
          intro a ha b hb
          rw [List.mem_singleton] at hb; subst hb
          show a.1 < L.now
          rw [hn]
          exact h.before a ha _ hx
        · intro d hd
          rcases List.mem_append.1 hd with hd | hd
          · exact h.dvd d hd
          · rw [List.mem_singleton] at hd; subst hd; show c.D ∣ L.now; rw [hn]; exact h.inv.dvd _ hx
        · intro d hd
          show d.1 ≤ s.now ∧ ∃ p, s.prevArrival = some p ∧ d.1 ≤ p
          rcases List.mem_append.1 hd with hd | hd
          · exact h.le d hd
          · rw [List.mem_singleton] at hd; subst hd
            show L.now ≤ s.now ∧ ∃ p, s.prevArrival = some p ∧ L.now ≤ p
            rw [hn]
            exact ⟨Nat.le_refl _, h.inv.le _ hx⟩
        · intro d hd e he
          have he : e ∈ rest := he
          rcases List.mem_append.1 hd with hd | hd
          · exact h.before d hd e (hm e he)
          · rw [List.mem_singleton] at hd; subst hd; show L.now < e.1; rw [hn]; exact hr e he
      · rw [if_neg hlt] at e
        have key := Del.sendIn hD (s := s.taken rest) (dels := L.dels) h.inv.prevOk h.le (fun d hd e he => h.before d hd e (hm e he)) x c.D 1 false
        split at e
        · next s' he =>
          rw [e] at hi hc ⊢; rw [he] at key
          exact ⟨hi, hc, h.sorted, h.dvd, key.1, key.2⟩
        · next s' r he =>
          rw [he] at key
          split at e
          · rw [e] at hi hc ⊢
            exact ⟨hi, hc, h.sorted, h.dvd, key.1, key.2⟩
          · rw [e] at hi hc ⊢
            exact ⟨hi, hc, h.sorted, h.dvd, key.1, key.2⟩
  | pass =>
    rcases pass_eq h.inv with ⟨hn, e⟩ | e
    · rw [e] at hi hc ⊢; exact ⟨hi, hc, h.sorted, h.dvd, h.le, h.before⟩
    · rw [e] at hi hc ⊢; exact h
  | next =>
    rcases next_eq h.inv with ⟨hn, e⟩ | e
    · rw [e] at hi hc ⊢
      exact ⟨hi, hc, h.sorted, h.dvd, fun d hd => ⟨Nat.le_trans (h.le d hd).1 (Nat.le_succ _), (h.le d hd).2⟩, h.before⟩
    · rw [e] at hi hc ⊢; exact h
  | isReady => obtain ⟨e1, e2⟩ := asks (c := c) s L .isReady trivial; rw [e1, e2]; exact h
  | isReadyPS => obtain ⟨e1, e2⟩ := asks (c := c) s L .isReadyPS trivial; rw [e1, e2]; exact h
  | isDriven r => obtain ⟨e1, e2⟩ := asks (c := c) s L (.isDriven r) trivial; rw [e1, e2]; exact h
  | isDrivenIn => exact h
  | nextAvailable d n => obtain ⟨e1, e2⟩ := asks (c := c) s L (.nextAvailable d n) trivial; rw [e1, e2]; exact h
  | getReady => exact h

theorem del_init (c : Cfg) : Del c (Port.init α c) (Log.init α) :=
  ⟨inv_init c, clk_init c, .nil, fun d h => (by cases h), fun d h => (by cases h), fun d h => (by cases h)⟩

theorem del_hist {c : Cfg} (hD : 0 < c.D) (os : List (Op α)) : Del c (runOps (Port.step c) (Port.init α c) os).1 (logOf c os) :=
  hist_induct c (Del c) (fun _ => True) (del_init c) (fun _ _ o h _ => h.step hD o) os fun _ _ => trivial

end Sparta.SyncPort
