import Verif.SigPort.Model
/-!
Theorems about signal ports (C240, C241).
-/
namespace Sparta.SigPort

/-- the cycles in which the delivery event called the handler, in order -/
def In.events (p : In) : List Nat := (p.log.filter (fun e => !e.2)).map (·.1)

/-- what holds of an in port with phase `ph` in cycle `now`, phase `cur` -/
structure Good (p : In) (ph now cur : Nat) : Prop where
  nodup : p.waiting.Nodup
  ahead : ∀ t ∈ p.waiting, now ≤ t
  soon : now ∈ p.waiting → cur ≤ ph
  fired : ∀ l, p.last = some l → l ≤ now
  firedNow : p.last = some now → ph ≤ cur ∧ now ∉ p.waiting
  order : p.events.Pairwise (· < ·)
  past : ∀ t ∈ p.events, ∃ l, p.last = some l ∧ t ≤ l
  stamped : ∀ e, p.log.getLast? = some e → p.stamp = e.1
  val : p.valid = true → p.log ≠ []
  logged : ∀ e ∈ p.log, e.1 ≤ now

theorem events_recv (p : In) (now : Nat) (d : Bool) : (p.recv now d).events = p.events ++ if d then [] else [now] := by
  unfold In.events In.recv
  dsimp only
  rw [List.filter_append, List.map_append]
  cases d <;> rfl

theorem good_init (ph now cur : Nat) : Good {} ph now cur where
  nodup := List.nodup_nil
  ahead := by intro t h; cases h
  soon := by intro h; cases h
  fired := by intro l h; cases h
  firedNow := by intro h; cases h
  order := List.Pairwise.nil
  past := by intro t h; cases h
  stamped := by intro e h; cases h
  val := by intro h; cases h
  logged := by intro e h; cases h

theorem good_direct {p : In} {ph now cur : Nat} (g : Good p ph now cur) : Good (p.recv now true) ph now cur where
  nodup := g.nodup
  ahead := g.ahead
  soon := g.soon
  fired := g.fired
  firedNow := g.firedNow
  order := by rw [events_recv]; simpa using g.order
  past := by rw [events_recv]; simpa using (show ∀ t ∈ p.events, ∃ l, (p.recv now true).last = some l ∧ t ≤ l from g.past)
  stamped := by
    intro e h
    have h : (p.log ++ [(now, true)]).getLast? = some e := h
    rw [List.getLast?_concat] at h
    injection h with h
    subst h
    rfl
  val := by intro _; show p.log ++ [(now, true)] ≠ []; simp
  logged := by
    intro e h
    rcases List.mem_append.1 (show e ∈ p.log ++ [(now, true)] from h) with h | h
    · exact g.logged e h
    · rw [List.mem_singleton.1 h]; exact Nat.le_refl _

theorem good_fire {p : In} {ph now : Nat} (g : Good p ph now ph) (hw : now ∈ p.waiting) :
    Good (In.recv { p with waiting := p.waiting.erase now, last := some now } now false) ph now ph where
  nodup := g.nodup.erase _
  ahead := fun t h => g.ahead t (List.mem_of_mem_erase h)
  soon := fun _ => Nat.le_refl _
  fired := by intro l h; have : now = l := Option.some.inj h; omega
  firedNow := fun _ => ⟨Nat.le_refl _, fun h => absurd h (g.nodup.not_mem_erase)⟩
  order := by
    rw [events_recv]
    show (p.events ++ [now]).Pairwise (· < ·)
    rw [List.pairwise_append]
    refine ⟨g.order, List.pairwise_singleton _ _, ?_⟩
    intro a ha b hb
    rw [List.mem_singleton.1 hb]
    obtain ⟨l, hl, h⟩ := g.past a ha
    have h1 := g.fired l hl
    rcases Nat.lt_or_ge l now with h2 | h2
    · omega
    · have : l = now := by omega
      subst this
      exact absurd hw (g.firedNow hl).2
  past := by
    rw [events_recv]
    intro t ht
    refine ⟨now, rfl, ?_⟩
    rcases List.mem_append.1 (show t ∈ p.events ++ [now] from ht) with h | h
    · obtain ⟨l, hl, h⟩ := g.past t h
      have := g.fired l hl
      omega
    · rw [List.mem_singleton.1 h]; exact Nat.le_refl _
  stamped := by
    intro e h
    have h : (p.log ++ [(now, false)]).getLast? = some e := h
    rw [List.getLast?_concat] at h
    injection h with h
    subst h
    rfl
  val := by intro _; show p.log ++ [(now, false)] ≠ []; simp
  logged := by
    intro e h
    rcases List.mem_append.1 (show e ∈ p.log ++ [(now, false)] from h) with h | h
    · exact g.logged e h
    · rw [List.mem_singleton.1 h]; exact Nat.le_refl _

/-- the cycle a signal is due in, and whether the sender calls the handler itself -/
def due (now delay rel : Nat) : Nat := now + (rel + delay) % 2 ^ 32

theorem schedule_spec {p : In} {ph now cur rel : Nat} (g : Good p ph now cur) (h : rel = 0 → cur < ph) :
    ∃ q, p.schedule now rel = some q ∧ Good q ph now cur ∧ (∀ t, t ∈ q.waiting ↔ t ∈ p.waiting ∨ t = now + rel) ∧
      q.log = p.log ∧ q.valid = p.valid ∧ q.stamp = p.stamp := by
  unfold In.schedule
  have hl : ¬p.last = some (now + rel) := by
    intro hl
    have h1 := g.fired _ hl
    have h0 : rel = 0 := by omega
    subst h0
    have := (g.firedNow hl).1
    have := h rfl
    omega
  rw [if_neg hl]
  by_cases hm : now + rel ∈ p.waiting
  · rw [if_pos hm]
    refine ⟨p, rfl, g, fun t => ⟨Or.inl, ?_⟩, rfl, rfl, rfl⟩
    rintro (h | h)
    · exact h
    · rw [h]; exact hm
  · rw [if_neg hm]
    refine ⟨_, rfl, ?_, fun t => ?_, rfl, rfl, rfl⟩
    · exact {
        nodup := List.nodup_append.2 ⟨g.nodup, List.nodup_cons.2 ⟨by simp, List.nodup_nil⟩, by
          intro a ha b hb e
          rw [List.mem_singleton.1 hb] at e
          exact hm (e ▸ ha)⟩
        ahead := by
          intro t ht
          rcases List.mem_append.1 ht with h | h
          · exact g.ahead t h
          · rw [List.mem_singleton.1 h]; omega
        soon := by
          intro ht
          rcases List.mem_append.1 ht with h' | h'
          · exact g.soon h'
          · have := List.mem_singleton.1 h'
            have := h (by omega)
            omega
        fired := g.fired
        firedNow := by
          intro hl'
          obtain ⟨a, b⟩ := g.firedNow hl'
          refine ⟨a, fun ht => ?_⟩
          rcases List.mem_append.1 ht with h' | h'
          · exact b h'
          · have := List.mem_singleton.1 h'
            have := h (by omega)
            omega
        order := g.order
        past := g.past
        stamped := g.stamped
        val := g.val
        logged := g.logged }
    · show t ∈ p.waiting ++ [now + rel] ↔ _
      rw [List.mem_append, List.mem_singleton]

/-- what one in port makes of a signal -/
theorem send_spec {p : In} {ph now cur delay rel : Nat} (g : Good p ph now cur) :
    ((rel + delay) % 2 ^ 32 = 0 ∧ ph < cur ∧ p.send now cur delay ph rel = none) ∨
    ((rel + delay) % 2 ^ 32 = 0 ∧ ph = cur ∧ p.send now cur delay ph rel = some (p.recv now true)) ∨
    (((rel + delay) % 2 ^ 32 = 0 → cur < ph) ∧ ∃ q, p.send now cur delay ph rel = some q ∧ Good q ph now cur ∧
      (∀ t, t ∈ q.waiting ↔ t ∈ p.waiting ∨ t = due now delay rel) ∧ q.log = p.log ∧ q.valid = p.valid ∧ q.stamp = p.stamp) := by
  unfold In.send due
  dsimp only
  by_cases h0 : (rel + delay) % 2 ^ 32 = 0
  · rw [if_pos h0]
    rcases Nat.lt_trichotomy ph cur with h | h | h
    · exact Or.inl ⟨h0, h, if_pos h⟩
    · right; left
      refine ⟨h0, h, ?_⟩
      rw [if_neg (by omega), if_pos h]
    · right; right
      rw [if_neg (by omega), if_neg (by omega)]
      exact ⟨fun _ => h, schedule_spec g (fun _ => h)⟩
  · rw [if_neg h0]
    right; right
    exact ⟨fun h => absurd h h0, schedule_spec g (fun h => absurd h h0)⟩

theorem send_good {p q : In} {ph now cur delay rel : Nat} (g : Good p ph now cur) (h : p.send now cur delay ph rel = some q) : Good q ph now cur := by
  rcases send_spec (delay := delay) (rel := rel) g with a | a | ⟨_, r, a, b, _⟩
  · rw [a.2.2] at h; cases h
  · rw [a.2.2] at h; injection h with h; subst h; exact good_direct g
  · rw [a] at h; injection h with h; subst h; exact b

/-! ### all ports -/

structure Ok (s : Sys) : Prop where
  good : ∀ i, i < s.cfg.n → Good (s.ins i) (s.cfg.phase i) s.now s.phase
  uniq : ∀ o, (s.outs o).Nodup
  real : ∀ o, ∀ i ∈ s.outs o, i < s.cfg.n

/-- what `send` does to the in ports of a list: ports are served in order up to one that refuses -/
theorem sendAll_spec (rel : Nat) : ∀ (l : List Nat) (s : Sys), (∀ i, i < s.cfg.n → Good (s.ins i) (s.cfg.phase i) s.now s.phase) → l.Nodup → (∀ i ∈ l, i < s.cfg.n) →
    (s.sendAll rel l).1.cfg = s.cfg ∧ (s.sendAll rel l).1.now = s.now ∧ (s.sendAll rel l).1.phase = s.phase ∧ (s.sendAll rel l).1.outs = s.outs ∧
    (∀ i, i ∉ l → (s.sendAll rel l).1.ins i = s.ins i) ∧
    (∀ i ∈ l, (s.sendAll rel l).1.ins i = s.ins i ∨
      some ((s.sendAll rel l).1.ins i) = (s.ins i).send s.now s.phase (s.cfg.delay i) (s.cfg.phase i) rel) ∧
    ((s.sendAll rel l).2 = .done → ∀ i ∈ l, some ((s.sendAll rel l).1.ins i) = (s.ins i).send s.now s.phase (s.cfg.delay i) (s.cfg.phase i) rel) ∧
    ((s.sendAll rel l).2 = if ∃ i ∈ l, (rel + s.cfg.delay i) % 2 ^ 32 = 0 ∧ s.cfg.phase i < s.phase then .threw else .done)
  | [], s, _, _, _ => ⟨rfl, rfl, rfl, rfl, fun _ _ => rfl, fun i h => (by cases h), fun _ i h => (by cases h), (by rw [if_neg]; rfl; rintro ⟨i, h, _⟩; cases h)⟩
  | j :: l, s, hg, hn, hr => by
    have hj := hr j (List.mem_cons_self ..)
    obtain ⟨hjl, hn'⟩ := List.nodup_cons.1 hn
    unfold Sys.sendAll
    have hcase : ((s.ins j).send s.now s.phase (s.cfg.delay j) (s.cfg.phase j) rel = none ↔ (rel + s.cfg.delay j) % 2 ^ 32 = 0 ∧ s.cfg.phase j < s.phase) := by
      rcases send_spec (delay := s.cfg.delay j) (rel := rel) (hg j hj) with a | a | ⟨a, r, b, _⟩
      · exact ⟨fun _ => ⟨a.1, a.2.1⟩, fun _ => a.2.2⟩
      · rw [a.2.2]
        exact ⟨fun h => (by cases h), fun h => (by have := a.2.1; omega)⟩
      · rw [b]
        exact ⟨fun h => (by cases h), fun h => (by have := a h.1; omega)⟩
    cases hs : (s.ins j).send s.now s.phase (s.cfg.delay j) (s.cfg.phase j) rel with
    | none =>
      dsimp only
      refine ⟨rfl, rfl, rfl, rfl, fun _ _ => rfl, fun _ _ => Or.inl rfl, ?_, ?_⟩
      · intro h; cases h
      · rw [if_pos ⟨j, List.mem_cons_self .., hcase.1 hs⟩]
    | some p =>
      dsimp only
      have hg' : ∀ i, i < s.cfg.n → Good (upd s.ins j p i) (s.cfg.phase i) s.now s.phase := by
        intro i hi
        by_cases e : i = j
        · subst e; rw [upd_same]; exact send_good (hg i hi) hs
        · rw [upd_other _ _ e]; exact hg i hi
      obtain ⟨a1, a2, a3, a4, a5, a6, a7, a8⟩ := sendAll_spec rel l { s with ins := upd s.ins j p } hg' hn' (fun i h => hr i (List.mem_cons_of_mem _ h))
      have aj : (Sys.sendAll { s with ins := upd s.ins j p } rel l).1.ins j = p := by rw [a5 j hjl]; exact upd_same ..
      have ne : ∀ i ∈ l, i ≠ j := fun i h e => hjl (e ▸ h)
      refine ⟨a1, a2, a3, a4, ?_, ?_, ?_, ?_⟩
      · intro i hi
        rw [a5 i (fun h => hi (List.mem_cons_of_mem _ h))]
        exact upd_other _ _ (fun e => hi (e ▸ List.mem_cons_self ..))
      · intro i hi
        rcases List.mem_cons.1 hi with e | h
        · subst e; right; rw [aj]; exact hs.symm
        · have := a6 i h
          dsimp only at this
          rw [upd_other _ _ (ne i h)] at this
          exact this
      · intro hd i hi
        rcases List.mem_cons.1 hi with e | h
        · subst e; rw [aj]; exact hs.symm
        · have := a7 hd i h
          dsimp only at this
          rw [upd_other _ _ (ne i h)] at this
          exact this
      · rw [a8]
        dsimp only
        by_cases h : ∃ i ∈ l, (rel + s.cfg.delay i) % 2 ^ 32 = 0 ∧ s.cfg.phase i < s.phase
        · obtain ⟨i, hi, hx⟩ := h
          rw [if_pos ⟨i, hi, hx⟩, if_pos ⟨i, List.mem_cons_of_mem _ hi, hx⟩]
        · rw [if_neg h, if_neg]
          rintro ⟨i, hi, hx⟩
          rcases List.mem_cons.1 hi with e | hi
          · subst e; rw [hcase.2 hx] at hs; cases hs
          · exact h ⟨i, hi, hx⟩

theorem ok_init (cfg : Config) : Ok (init cfg) where
  good := fun _ _ => good_init ..
  uniq := fun _ => List.nodup_nil
  real := by intro o i h; cases h

/-- the fields a cleared port keeps -/
theorem good_clear {p : In} {ph now cur : Nat} (g : Good p ph now cur) : Good { p with valid := false } ph now cur where
  nodup := g.nodup
  ahead := g.ahead
  soon := g.soon
  fired := g.fired
  firedNow := g.firedNow
  order := g.order
  past := g.past
  stamped := g.stamped
  val := by intro h; cases h
  logged := g.logged

theorem waits_false {s : Sys} {i : Nat} (h : (!s.waits i) = true) : s.now ∉ (s.ins i).waiting := by
  unfold Sys.waits at h
  simpa using h

theorem ok_upd {s : Sys} (k : Ok s) (i : Nat) (p : In) (h : i < s.cfg.n → Good p (s.cfg.phase i) s.now s.phase) : Ok { s with ins := upd s.ins i p } where
  good := by
    intro j hj
    by_cases e : j = i
    · subst e; dsimp only; rw [upd_same]; exact h hj
    · dsimp only; rw [upd_other _ _ e]; exact k.good j hj
  uniq := k.uniq
  real := k.real

theorem ok_step (s : Sys) (k : Ok s) (o : Op) : Ok (s.step o).1 ∧ (s.step o).1.cfg = s.cfg := by
  cases o with
  | bind o i =>
    unfold Sys.step
    dsimp only
    by_cases hi : i < s.cfg.n
    · rw [if_pos hi]
      by_cases hc : (s.outs o).contains i = true
      · rw [if_pos hc]; exact ⟨k, rfl⟩
      · rw [if_neg hc]
        refine ⟨⟨k.good, ?_, ?_⟩, rfl⟩
        · intro o'
          dsimp only
          by_cases e : o' = o
          · subst e
            rw [upd_same]
            refine List.nodup_append.2 ⟨k.uniq o', List.nodup_cons.2 ⟨by simp, List.nodup_nil⟩, ?_⟩
            intro a ha b hb e
            rw [List.mem_singleton.1 hb] at e
            subst e
            exact hc (List.contains_iff_mem.2 ha)
          · rw [upd_other _ _ e]; exact k.uniq o'
        · intro o' j hj
          dsimp only at hj
          by_cases e : o' = o
          · subst e
            rw [upd_same] at hj
            rcases List.mem_append.1 hj with h | h
            · exact k.real o' j h
            · rw [List.mem_singleton.1 h]; exact hi
          · rw [upd_other _ _ e] at hj; exact k.real o' j hj
    · rw [if_neg hi]; exact ⟨k, rfl⟩
  | send o rel =>
    unfold Sys.step
    dsimp only
    by_cases he : s.outs o = []
    · rw [if_pos he]; exact ⟨k, rfl⟩
    · rw [if_neg he]
      obtain ⟨a1, a2, a3, a4, a5, a6, a7, a8⟩ := sendAll_spec rel (s.outs o) s k.good (k.uniq o) (k.real o)
      refine ⟨⟨?_, by rw [a4]; exact k.uniq, by rw [a4, a1]; exact k.real⟩, a1⟩
      intro i hi
      rw [a1] at hi ⊢
      rw [a2, a3]
      by_cases hm : i ∈ s.outs o
      · rcases a6 i hm with h | h
        · rw [h]; exact k.good i hi
        · exact send_good (k.good i hi) h.symm
      · rw [a5 i hm]; exact k.good i hi
  | fire i =>
    unfold Sys.step
    dsimp only
    by_cases h : i < s.cfg.n ∧ s.cfg.phase i = s.phase ∧ s.waits i = true
    · rw [if_pos h]
      refine ⟨ok_upd k i _ (fun hi => ?_), rfl⟩
      have g := k.good i hi
      rw [← h.2.1] at g ⊢
      exact good_fire g (by have := h.2.2; unfold Sys.waits at this; simpa using this)
    · rw [if_neg h]; exact ⟨k, rfl⟩
  | goto q =>
    unfold Sys.step
    dsimp only
    by_cases h : s.phase ≤ q ∧ ((List.range s.cfg.n).all fun i => !(decide (s.cfg.phase i < q) && s.waits i)) = true
    · rw [if_pos h]
      refine ⟨⟨?_, k.uniq, k.real⟩, rfl⟩
      intro i hi
      have g := k.good i hi
      have hw := List.all_eq_true.1 h.2 i (List.mem_range.2 hi)
      exact { nodup := g.nodup, ahead := g.ahead, fired := g.fired, order := g.order, past := g.past, stamped := g.stamped, val := g.val, logged := g.logged
              soon := by
                intro hm
                show q ≤ s.cfg.phase i
                rcases Nat.lt_or_ge (s.cfg.phase i) q with hq | hq
                · have : s.waits i = true := by unfold Sys.waits; exact decide_eq_true hm
                  rw [this, decide_eq_true hq] at hw
                  cases hw
                · exact hq
              firedNow := by
                intro hl
                obtain ⟨a, b⟩ := g.firedNow hl
                exact ⟨Nat.le_trans a h.1, b⟩ }
    · rw [if_neg h]; exact ⟨k, rfl⟩
  | next =>
    unfold Sys.step
    dsimp only
    by_cases h : ((List.range s.cfg.n).all fun i => !s.waits i) = true
    · rw [if_pos h]
      refine ⟨⟨?_, k.uniq, k.real⟩, rfl⟩
      intro i hi
      have g := k.good i hi
      have hw := waits_false (List.all_eq_true.1 h i (List.mem_range.2 hi))
      exact { nodup := g.nodup, order := g.order, past := g.past, stamped := g.stamped, val := g.val
              ahead := by
                intro t ht
                have := g.ahead t ht
                show s.now + 1 ≤ t
                rcases Nat.lt_or_ge s.now t with h | h
                · exact h
                · have : t = s.now := by omega
                  subst this
                  exact absurd ht hw
              soon := fun _ => Nat.zero_le _
              fired := by
                intro l hl
                have := g.fired l hl
                show l ≤ s.now + 1
                omega
              firedNow := by
                intro hl
                have := g.fired _ hl
                have : s.now + 1 ≤ s.now := this
                omega
              logged := by
                intro e he
                have := g.logged e he
                show e.1 ≤ s.now + 1
                omega }
    · rw [if_neg h]; exact ⟨k, rfl⟩
  | received i => exact ⟨k, rfl⟩
  | receivedNow i => exact ⟨k, rfl⟩
  | stamp i => unfold Sys.step; dsimp only; split <;> exact ⟨k, rfl⟩
  | pull i =>
    unfold Sys.step
    dsimp only
    split
    · exact ⟨ok_upd k i _ (fun hi => good_clear (k.good i hi)), rfl⟩
    · exact ⟨k, rfl⟩
  | clear i => exact ⟨ok_upd k i _ (fun hi => good_clear (k.good i hi)), rfl⟩

theorem ok_run : ∀ (os : List Op) (s : Sys), Ok s → Ok (run s os).1 ∧ (run s os).1.cfg = s.cfg
  | [], _, k => ⟨k, rfl⟩
  | o :: os, s, k => by
    obtain ⟨k1, c1⟩ := ok_step s k o
    obtain ⟨k2, c2⟩ := ok_run os (s.step o).1 k1
    exact ⟨k2, c2.trans c1⟩

/-- what one call does to an in port: nothing; a signal is received from a sender; one is put off; the delivery event fires; the data is cleared -/
inductive Change (s : Sys) (op : Op) (i : Nat) (p q : In) : Prop
  | same (h : q = p)
  | direct (o rel : Nat) (ho : op = .send o rel) (hi : i ∈ s.outs o) (h0 : (rel + s.cfg.delay i) % 2 ^ 32 = 0) (hp : s.cfg.phase i = s.phase) (h : q = p.recv s.now true)
  | put (o rel : Nat) (ho : op = .send o rel) (hi : i ∈ s.outs o) (hw : ∀ t, t ∈ q.waiting ↔ t ∈ p.waiting ∨ t = due s.now (s.cfg.delay i) rel)
      (hl : q.log = p.log) (hv : q.valid = p.valid) (hs : q.stamp = p.stamp)
  | fire (ho : op = .fire i) (hw : s.now ∈ p.waiting) (hp : s.cfg.phase i = s.phase)
      (h : q = In.recv { p with waiting := p.waiting.erase s.now, last := some s.now } s.now false)
  | clear (ho : op = .clear i ∨ op = .pull i) (h : q = { p with valid := false })

theorem change_step (s : Sys) (k : Ok s) (op : Op) (i : Nat) (hi : i < s.cfg.n) : Change s op i (s.ins i) ((s.step op).1.ins i) := by
  cases op with
  | bind o j =>
    apply Change.same
    unfold Sys.step; dsimp only
    split
    · split <;> rfl
    · rfl
  | send o rel =>
    unfold Sys.step
    dsimp only
    by_cases he : s.outs o = []
    · rw [if_pos he]; exact .same rfl
    · rw [if_neg he]
      obtain ⟨a1, a2, a3, a4, a5, a6, a7, a8⟩ := sendAll_spec rel (s.outs o) s k.good (k.uniq o) (k.real o)
      by_cases hm : i ∈ s.outs o
      · rcases a6 i hm with h | h
        · exact .same h
        · rcases send_spec (delay := s.cfg.delay i) (rel := rel) (k.good i hi) with b | b | ⟨_, r, b, _, c1, c2, c3, c4⟩
          · rw [b.2.2] at h; cases h
          · rw [b.2.2] at h
            exact .direct o rel rfl hm b.1 b.2.1 (Option.some.inj h)
          · rw [b] at h
            rw [Option.some.inj h]
            exact .put o rel rfl hm c1 c2 c3 c4
      · exact .same (a5 i hm)
  | fire j =>
    unfold Sys.step
    dsimp only
    by_cases h : j < s.cfg.n ∧ s.cfg.phase j = s.phase ∧ s.waits j = true
    · rw [if_pos h]
      dsimp only
      by_cases e : i = j
      · subst e
        rw [upd_same]
        exact .fire rfl (by have := h.2.2; unfold Sys.waits at this; simpa using this) h.2.1 rfl
      · rw [upd_other _ _ e]; exact .same rfl
    · rw [if_neg h]; exact .same rfl
  | goto q => apply Change.same; unfold Sys.step; dsimp only; split <;> rfl
  | next => apply Change.same; unfold Sys.step; dsimp only; split <;> rfl
  | received j => exact .same rfl
  | receivedNow j => exact .same rfl
  | stamp j => apply Change.same; unfold Sys.step; dsimp only; split <;> rfl
  | pull j =>
    unfold Sys.step
    dsimp only
    split
    · dsimp only
      by_cases e : i = j
      · subst e; rw [upd_same]; exact .clear (Or.inr rfl) rfl
      · rw [upd_other _ _ e]; exact .same rfl
    · exact .same rfl
  | clear j =>
    unfold Sys.step
    dsimp only
    by_cases e : i = j
    · subst e; rw [upd_same]; exact .clear (Or.inl rfl) rfl
    · rw [upd_other _ _ e]; exact .same rfl

/-- the system after some calls -/
def after (cfg : Config) (os : List Op) : Sys := (run (init cfg) os).1

/-- C240: a send is refused exactly if the out port is unbound or some in port is to get the signal in this cycle although its phase is over. If it is
accepted every bound in port either received the signal at once (due in this cycle, in its phase) or has it waiting for the cycle
`now + rel + delay`. Missing: sums of 2^32 and more, for which it is false. -/
theorem C240_send_partial (cfg : Config) (os : List Op) (o rel : Nat) (hd : ∀ i ∈ (after cfg os).outs o, rel + cfg.delay i < 2 ^ 32) :
    let s := after cfg os
    ((s.step (.send o rel)).2 = .done ↔ s.outs o ≠ [] ∧ ∀ i ∈ s.outs o, rel + cfg.delay i = 0 → s.phase ≤ cfg.phase i) ∧
    ((s.step (.send o rel)).2 = .done → ∀ i ∈ s.outs o,
      if rel + cfg.delay i = 0 ∧ cfg.phase i = s.phase then ((s.step (.send o rel)).1.ins i).log = (s.ins i).log ++ [(s.now, true)]
      else s.now + (rel + cfg.delay i) ∈ ((s.step (.send o rel)).1.ins i).waiting ∧ ((s.step (.send o rel)).1.ins i).log = (s.ins i).log) := by
  intro s
  obtain ⟨k, hc⟩ := ok_run os (init cfg) (ok_init cfg)
  have k : Ok s := k
  have hc : s.cfg = cfg := hc
  have hd : ∀ i ∈ s.outs o, (rel + s.cfg.delay i) % 2 ^ 32 = rel + s.cfg.delay i := fun i h => Nat.mod_eq_of_lt (by rw [hc]; exact hd i h)
  obtain ⟨a1, a2, a3, a4, a5, a6, a7, a8⟩ := sendAll_spec rel (s.outs o) s k.good (k.uniq o) (k.real o)
  rw [← hc]
  unfold Sys.step
  dsimp only
  by_cases he : s.outs o = []
  · rw [if_pos he]
    exact ⟨⟨fun h => (by cases h), fun h => absurd he h.1⟩, fun h => by cases h⟩
  · rw [if_neg he]
    constructor
    · rw [a8]
      by_cases h : ∃ i ∈ s.outs o, (rel + s.cfg.delay i) % 2 ^ 32 = 0 ∧ s.cfg.phase i < s.phase
      · rw [if_pos h]
        refine ⟨fun h => (by cases h), fun g => ?_⟩
        obtain ⟨i, hi, h1, h2⟩ := h
        have := g.2 i hi (by rw [← hd i hi]; exact h1)
        omega
      · rw [if_neg h]
        refine ⟨fun _ => ⟨he, fun i hi h0 => ?_⟩, fun _ => rfl⟩
        rcases Nat.lt_or_ge (s.cfg.phase i) s.phase with g | g
        · exact absurd ⟨i, hi, by rw [hd i hi]; exact h0, g⟩ h
        · exact g
    · intro hdone i hi
      have h := a7 hdone i hi
      rcases send_spec (delay := s.cfg.delay i) (rel := rel) (k.good i (k.real o i hi)) with b | b | ⟨b0, r, b, _, c1, c2, c3, c4⟩
      · rw [b.2.2] at h; cases h
      · rw [b.2.2] at h
        rw [if_pos ⟨by rw [← hd i hi]; exact b.1, b.2.1⟩, Option.some.inj h]
        rfl
      · rw [b] at h
        rw [hd i hi] at b0
        rw [if_neg (fun g => by have := b0 g.1; have := g.2; omega), Option.some.inj h]
        refine ⟨(c1 _).2 (Or.inr ?_), c2⟩
        unfold due
        rw [hd i hi]

/-- C240: a signal that waits is received in its cycle: whatever is called, time does not pass that cycle before the handler was called in it -/
theorem C240_arrives (cfg : Config) (os more : List Op) (i t : Nat) (hi : i < cfg.n) (ht : t ∈ ((after cfg os).ins i).waiting) :
    (t ∈ ((run (after cfg os) more).1.ins i).waiting ∧ (run (after cfg os) more).1.now ≤ t) ∨ (t, false) ∈ ((run (after cfg os) more).1.ins i).log := by
  obtain ⟨k, hc⟩ := ok_run os (init cfg) (ok_init cfg)
  have gen : ∀ (more : List Op) (s : Sys), Ok s → i < s.cfg.n → (t ∈ (s.ins i).waiting ∨ (t, false) ∈ (s.ins i).log) →
      (t ∈ ((run s more).1.ins i).waiting ∧ (run s more).1.now ≤ t) ∨ (t, false) ∈ ((run s more).1.ins i).log := by
    intro more
    induction more with
    | nil =>
      intro s k hi h
      rcases h with h | h
      · exact Or.inl ⟨h, (k.good i hi).ahead t h⟩
      · exact Or.inr h
    | cons op more ih =>
      intro s k hi h
      obtain ⟨k1, c1⟩ := ok_step s k op
      apply ih (s.step op).1 k1 (by rw [c1]; exact hi)
      rcases change_step s k op i hi with e | ⟨o, rel, _, _, _, _, e⟩ | ⟨o, rel, _, _, w, l, _, _⟩ | ⟨_, w, _, e⟩ | ⟨_, e⟩
      · rw [e]; exact h
      · rw [e]
        rcases h with h | h
        · exact Or.inl h
        · exact Or.inr (List.mem_append_left _ h)
      · rcases h with h | h
        · exact Or.inl ((w t).2 (Or.inl h))
        · exact Or.inr (by rw [l]; exact h)
      · rw [e]
        rcases h with h | h
        · by_cases et : t = s.now
          · subst et; exact Or.inr (List.mem_append_right _ (List.mem_singleton.2 rfl))
          · exact Or.inl ((List.mem_erase_of_ne et).2 h)
        · exact Or.inr (List.mem_append_left _ h)
      · rw [e]; exact h
  have hc : (after cfg os).cfg = cfg := hc
  exact gen more _ k (by rw [hc]; exact hi) (Or.inl ht)

/-- C240: the scheduler can go on: a signal due in this cycle can be received, after those of ports in earlier phases -/
theorem C240_progress (cfg : Config) (os : List Op) (i : Nat) (hi : i < cfg.n) (ht : (after cfg os).now ∈ ((after cfg os).ins i).waiting)
    (hf : ∀ j, j < cfg.n → (after cfg os).now ∈ ((after cfg os).ins j).waiting → cfg.phase i ≤ cfg.phase j) :
    (run (after cfg os) [.goto (cfg.phase i), .fire i]).2 = [.done, .done] ∧
    ((run (after cfg os) [.goto (cfg.phase i), .fire i]).1.ins i).log = ((after cfg os).ins i).log ++ [((after cfg os).now, false)] := by
  obtain ⟨k, hc⟩ := ok_run os (init cfg) (ok_init cfg)
  change Ok (after cfg os) at k
  change (after cfg os).cfg = cfg at hc
  generalize after cfg os = s at *
  subst hc
  have h1 := (k.good i hi).soon ht
  have e1 : s.step (.goto (s.cfg.phase i)) = ({ s with phase := s.cfg.phase i }, .done) := by
    unfold Sys.step
    dsimp only
    rw [if_pos]
    refine ⟨h1, List.all_eq_true.2 ?_⟩
    intro j hj
    by_cases hw : s.waits j = true
    · have : s.now ∈ (s.ins j).waiting := by unfold Sys.waits at hw; simpa using hw
      have := hf j (List.mem_range.1 hj) this
      rw [decide_eq_false (by omega)]
      rfl
    · rw [Bool.eq_false_iff.2 hw, Bool.and_false]
      rfl
  have e2 : Sys.step { s with phase := s.cfg.phase i } (.fire i) =
      ({ s with phase := s.cfg.phase i, ins := upd s.ins i (In.recv { s.ins i with waiting := (s.ins i).waiting.erase s.now, last := some s.now } s.now false) }, .done) := by
    unfold Sys.step
    dsimp only
    rw [if_pos ⟨hi, rfl, by unfold Sys.waits; exact decide_eq_true ht⟩]
  unfold run runOps
  rw [e1]
  unfold runOps
  dsimp only
  rw [e2]
  refine ⟨rfl, ?_⟩
  show (upd s.ins i _ i).log = _
  rw [upd_same]
  rfl

/-- C240: signals for the same cycle that wait are received as one: the delivery event calls the handler at most once in a cycle -/
theorem C240_once (cfg : Config) (os : List Op) (i : Nat) (hi : i < cfg.n) :
    ((((after cfg os).ins i).log.filter (fun e => !e.2)).map (·.1)).Pairwise (· < ·) := by
  obtain ⟨k, hc⟩ := ok_run os (init cfg) (ok_init cfg)
  exact (k.good i (by rw [hc]; exact hi)).order

/-- C240: nothing else is received: a call adds to what an in port received only if it is a send through an out port bound to it, due now in its phase, or the
firing of its event in a cycle some signal waits for; and a signal comes to wait only by a send through a bound out port, for the cycle it is due -/
theorem C240_only_sent (cfg : Config) (os : List Op) (op : Op) (i : Nat) (hi : i < cfg.n) :
    let s := after cfg os
    (((s.step op).1.ins i).log = (s.ins i).log ∨
      (((s.step op).1.ins i).log = (s.ins i).log ++ [(s.now, true)] ∧ cfg.phase i = s.phase ∧ ∃ o rel, op = .send o rel ∧ i ∈ s.outs o ∧ (rel + cfg.delay i) % 2 ^ 32 = 0) ∨
      (((s.step op).1.ins i).log = (s.ins i).log ++ [(s.now, false)] ∧ cfg.phase i = s.phase ∧ op = .fire i ∧ s.now ∈ (s.ins i).waiting)) ∧
    (∀ t, t ∈ ((s.step op).1.ins i).waiting → t ∈ (s.ins i).waiting ∨
      ∃ o rel, op = .send o rel ∧ i ∈ s.outs o ∧ t = s.now + (rel + cfg.delay i) % 2 ^ 32) := by
  intro s
  obtain ⟨k, hc⟩ := ok_run os (init cfg) (ok_init cfg)
  have k : Ok s := k
  have hc : s.cfg = cfg := hc
  rw [← hc] at hi ⊢
  rcases change_step s k op i hi with e | ⟨o, rel, ho, hm, h0, hp, e⟩ | ⟨o, rel, ho, hm, w, l, _, _⟩ | ⟨ho, w, hp, e⟩ | ⟨_, e⟩
  · rw [e]; exact ⟨Or.inl rfl, fun t h => Or.inl h⟩
  · rw [e]; exact ⟨Or.inr (Or.inl ⟨rfl, hp, o, rel, ho, hm, h0⟩), fun t h => Or.inl h⟩
  · refine ⟨Or.inl l, fun t h => ?_⟩
    rcases (w t).1 h with h | h
    · exact Or.inl h
    · exact Or.inr ⟨o, rel, ho, hm, h⟩
  · rw [e]; exact ⟨Or.inr (Or.inr ⟨rfl, hp, ho, w⟩), fun t h => Or.inl (List.mem_of_mem_erase h)⟩
  · rw [e]; exact ⟨Or.inl rfl, fun t h => Or.inl h⟩

/-- one in port with delay 1 and one with delay 0, both in the phase chosen for their delay, bound to one out port -/
def demo : Config := ⟨2, fun i => if i = 0 then 1 else 0, fun i => if i = 0 then 2 else 5⟩

def demoOps : List Op := [.bind 0 0, .bind 0 1, .send 0 0, .send 0 0, .goto 5, .fire 1, .next, .goto 2, .fire 0]

example : (after demo demoOps).ins 0 = ⟨[], some 1, true, 1, [(1, false)]⟩ ∧ (after demo demoOps).ins 1 = ⟨[], some 0, true, 0, [(0, false)]⟩ ∧
    ((after demo (demoOps.take 3)).ins 0).waiting = [1] ∧ (∀ i ∈ (after demo demoOps).outs 0, 7 + demo.delay i < 2 ^ 32) := by
  decide +kernel

/-- C240, violated: the delay is kept in 32 bits: a signal sent with a delay of 2^32 cycles is received in this cycle -/
theorem C240_long_delay_violated : ((after demo [.bind 0 1, .goto 5, .send 0 (2 ^ 32)]).ins 1).log = [(0, true)] := by decide +kernel

/-- C240, violated: a signal of this cycle can be received twice: by the delivery event and from a sender in the phase of the port -/
theorem C240_twice_violated : ((after demo [.bind 0 1, .send 0 0, .goto 5, .send 0 0, .fire 1]).ins 1).log = [(0, true), (0, false)] := by decide +kernel

/-- C240, violated: a send that is refused has reached the ports bound before the one that refuses -/
theorem C240_midway_violated :
    (run (init demo) [.bind 0 0, .bind 0 1, .goto 7, .send 0 0]).2 = [.done, .done, .done, .threw] ∧
    ((after demo [.bind 0 0, .bind 0 1, .goto 7, .send 0 0]).ins 0).waiting = [1] := by decide +kernel

/-! ### what a port holds -/

/-- C241: what an in port says: data is there exactly if it received a signal after it was last cleared or pulled; its time is the cycle of the last signal -/
theorem C241_held (cfg : Config) (os : List Op) (i : Nat) (hi : i < cfg.n) :
    let s := after cfg os
    (s.step (.stamp i)).2 = (if (s.ins i).valid then match (s.ins i).log.getLast? with | some e => .num e.1 | none => .threw else .threw) ∧
    (s.step (.receivedNow i)).2 = .yes ((s.ins i).valid && (s.ins i).log.any (fun e => decide (e.1 = s.now) && decide ((s.ins i).log.getLast? = some e))) ∧
    (s.step (.received i)).2 = .yes (s.ins i).valid ∧
    (s.step (.pull i)).2 = (if (s.ins i).valid then .yes true else .threw) ∧
    ((s.step (.pull i)).1.ins i).valid = false ∧ ((s.step (.clear i)).1.ins i).valid = false := by
  intro s
  obtain ⟨k, hc⟩ := ok_run os (init cfg) (ok_init cfg)
  have k : Ok s := k
  have hc : s.cfg = cfg := hc
  have g := k.good i (by rw [hc]; exact hi)
  unfold Sys.step
  dsimp only
  cases hv : (s.ins i).valid with
  | false =>
    refine ⟨rfl, rfl, rfl, rfl, ?_, ?_⟩
    · exact hv
    · rw [upd_same]
  | true =>
    cases hl : (s.ins i).log.getLast? with
    | none => exact absurd (List.getLast?_eq_none_iff.1 hl) (g.val hv)
    | some e =>
      have hs := g.stamped e hl
      refine ⟨by rw [if_pos rfl, if_pos rfl, hs], ?_, rfl, rfl, ?_, ?_⟩
      · show Res.yes _ = Res.yes _
        congr 1
        rw [Bool.true_and, Bool.true_and, Bool.eq_iff_iff, decide_eq_true_iff, List.any_eq_true, hs]
        constructor
        · intro h
          exact ⟨e, List.mem_of_getLast? hl, by simp [h]⟩
        · rintro ⟨x, _, hx⟩
          rw [Bool.and_eq_true, decide_eq_true_iff, decide_eq_true_iff] at hx
          have := Option.some.inj hx.2
          rw [this]; exact hx.1
      · rw [if_pos rfl]; dsimp only; rw [upd_same]
      · rw [upd_same]

/-- C241: data stays until it is cleared or pulled, and a signal makes it valid -/
theorem C241_stays (cfg : Config) (os : List Op) (op : Op) (i : Nat) (hi : i < cfg.n) :
    let s := after cfg os
    (((s.step op).1.ins i).log ≠ (s.ins i).log → ((s.step op).1.ins i).valid = true) ∧
    (((s.step op).1.ins i).log = (s.ins i).log → op ≠ .clear i → op ≠ .pull i → ((s.step op).1.ins i).valid = (s.ins i).valid) := by
  intro s
  obtain ⟨k, hc⟩ := ok_run os (init cfg) (ok_init cfg)
  have k : Ok s := k
  have hc : s.cfg = cfg := hc
  rw [← hc] at hi
  have grow : ∀ (l : List (Nat × Bool)) x, l ++ [x] ≠ l := by
    intro l x h
    have := congrArg List.length h
    simp at this
  rcases change_step s k op i hi with e | ⟨o, rel, ho, hm, h0, hp, e⟩ | ⟨o, rel, ho, hm, w, l, v, _⟩ | ⟨ho, w, hp, e⟩ | ⟨ho, e⟩
  · rw [e]; exact ⟨fun h => absurd rfl h, fun _ _ _ => rfl⟩
  · rw [e]; exact ⟨fun _ => rfl, fun h => absurd h (grow _ _)⟩
  · exact ⟨fun h => absurd l h, fun _ _ _ => v⟩
  · rw [e]; exact ⟨fun _ => rfl, fun h => absurd h (grow _ _)⟩
  · rw [e]
    refine ⟨fun h => absurd rfl h, fun _ h1 h2 => ?_⟩
    rcases ho with h | h
    · exact absurd h h1
    · exact absurd h h2

example : (run (init demo) (demoOps ++ [.received 0, .receivedNow 0, .receivedNow 1, .stamp 1, .pull 1, .stamp 1, .received 1])).2.drop 9 =
    [.yes true, .yes true, .yes false, .num 0, .yes true, .threw, .yes false] := by decide +kernel

end Sparta.SigPort
