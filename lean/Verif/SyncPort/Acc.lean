import Verif.SyncPort.Hist
/-! Every item sent is either delivered or outstanding. -/
namespace Sparta.SyncPort
variable {α : Type}

/-- an item: first and latest tick for which it was scheduled, the data, and whether it was delivered -/
structure Item (α : Type) where
  first : Nat
  tick : Nat
  x : α
  got : Bool

def Cfg.again (c : Cfg) : Nat := (c.portDelay + 1) * c.D

theorem again_pos {c : Cfg} (hD : 0 < c.D) : 0 < c.again := Nat.mul_pos (Nat.succ_pos _) hD

/-- the tick of an item sent again -/
theorem again_arrival {c : Cfg} (hD : 0 < c.D) {now : Nat} (hd : c.D ∣ now) (prev : Option Nat) : arrival c now c.D 1 false prev = now + c.again := by
  rw [arrival_noslide]
  unfold Cfg.again Cfg.portDelay
  have h1 : up c.D c.R = (c.R + (c.D - 1)) / c.D * c.D := rfl
  rw [Nat.add_mul, ← h1, Nat.one_mul]
  have a := up_ge hD c.R
  have b := up_lt hD c.R
  refine up_eq hD (Nat.dvd_add hd (Nat.dvd_add (up_dvd _ _) (Nat.dvd_refl _))) (by omega) (by omega)

/-- from `T0` the item came to `T`, having found the receiver not ready in between -/
def Reach (ready : Nat → Bool) (step now : Nat) (T0 T : Nat) : Prop :=
  ∃ k, T = T0 + k * step ∧ ∀ j, j < k → ready (T0 + j * step) = false ∧ T0 + j * step ≤ now

structure Acc (c : Cfg) (s : Port α) (L : Log α) (w : List (Item α)) : Prop where
  sends : w.map (fun e => (e.first, e.x)) = L.sends.map fun e => (e.1 + e.2.1, e.2.2)
  dels : ((w.filter (·.got)).map fun e => (e.tick, e.x)).Perm L.dels
  pending : ((w.filter (fun e => !e.got)).map fun e => (e.tick, e.x)).Perm s.pending
  reach : ∀ e ∈ w, Reach (L.readyAt c) c.again s.now e.first e.tick
  got : ∀ e ∈ w, e.got = true → L.readyAt c e.tick = true ∧ e.tick ≤ s.now

theorem Reach.mono {ready ready' : Nat → Bool} {step now now' T0 T : Nat} (h : Reach ready step now T0 T) (hn : now ≤ now') (hr : ∀ t, t ≤ now → ready' t = ready t) :
    Reach ready' step now' T0 T := by
  obtain ⟨k, e, hk⟩ := h
  exact ⟨k, e, fun j hj => ⟨by rw [hr _ (hk j hj).2]; exact (hk j hj).1, Nat.le_trans (hk j hj).2 hn⟩⟩

theorem Acc.congr {c : Cfg} {s s' : Port α} {L L' : Log α} {w : List (Item α)} (h : Acc c s L w) (e1 : L'.sends = L.sends) (e2 : L'.dels = L.dels)
    (e3 : s'.pending = s.pending) (hn : s.now ≤ s'.now) (hr : ∀ t, t ≤ s.now → L'.readyAt c t = L.readyAt c t) : Acc c s' L' w := by
  refine ⟨by rw [e1]; exact h.sends, by rw [e2]; exact h.dels, by rw [e3]; exact h.pending, fun e he => (h.reach e he).mono hn hr, ?_⟩
  intro e he hg
  obtain ⟨a, b⟩ := h.got e he hg
  exact ⟨by rw [hr _ b]; exact a, Nat.le_trans b hn⟩

theorem acc_init (c : Cfg) : Acc c (Port.init α c) (Log.init α) [] :=
  ⟨rfl, .refl _, .refl _, fun e h => (by cases h), fun e h => (by cases h)⟩

theorem Acc.send {c : Cfg} {s s' : Port α} {L : Log α} {w : List (Item α)} (h : Acc c s L w) {x : α} {r : Nat}
    (hp : s'.pending = s.pending ++ [(L.now + r, x)]) (hn : s'.now = s.now) : ∃ w', Acc c s' { L with sends := L.sends ++ [(L.now, r, x)] } w' := by
  refine ⟨w ++ [⟨L.now + r, L.now + r, x, false⟩], ?_, ?_, ?_, ?_, ?_⟩
  · rw [List.map_append, List.map_append, h.sends]; rfl
  · rw [List.filter_append, List.map_append]
    show (List.map _ (List.filter _ w) ++ []).Perm L.dels
    rw [List.append_nil]; exact h.dels
  · rw [List.filter_append, List.map_append, hp]
    exact h.pending.append_right _
  · intro e he
    rw [hn]
    rcases List.mem_append.1 he with he | he
    · exact h.reach e he
    · rw [List.mem_singleton] at he; subst he
      exact ⟨0, by rw [Nat.zero_mul]; rfl, fun j hj => by omega⟩
  · intro e he hg
    rw [hn]
    rcases List.mem_append.1 he with he | he
    · exact h.got e he hg
    · rw [List.mem_singleton] at he; subst he; cases hg

/-- the item that is due -/
theorem Acc.find {c : Cfg} {s : Port α} {L : Log α} {w : List (Item α)} (h : Acc c s L w) {x : α} {rest : List (Nat × α)} (hp : s.pending = (s.now, x) :: rest) :
    ∃ w1 w2 e, w = w1 ++ e :: w2 ∧ e.got = false ∧ e.tick = s.now ∧ e.x = x ∧ (((w1 ++ w2).filter (fun e => !e.got)).map fun e => (e.tick, e.x)).Perm rest := by
  have hm : (s.now, x) ∈ (w.filter (fun e => !e.got)).map fun e => (e.tick, e.x) := by
    rw [h.pending.mem_iff, hp]; exact List.mem_cons_self
  obtain ⟨e, he, heq⟩ := List.mem_map.1 hm
  obtain ⟨he, hg⟩ := List.mem_filter.1 he
  obtain ⟨w1, w2, rfl⟩ := List.append_of_mem he
  have hg : e.got = false := by simpa using hg
  injection heq with h1 h2
  refine ⟨w1, w2, e, rfl, hg, h1, h2, ?_⟩
  have hperm := h.pending
  rw [hp] at hperm
  have : ((w1 ++ e :: w2).filter fun e => !e.got).map (fun e => (e.tick, e.x)) = ((w1.filter fun e => !e.got).map fun e => (e.tick, e.x)) ++ (s.now, x) :: ((w2.filter fun e => !e.got).map fun e => (e.tick, e.x)) := by
    rw [List.filter_append, List.filter_cons_of_pos (by rw [hg]; rfl), List.map_append, List.map_cons, h1, h2]
  rw [this] at hperm
  rw [List.filter_append, List.map_append]
  exact (List.perm_middle.symm.trans hperm).cons_inv

theorem Acc.deliver_got {c : Cfg} {s : Port α} {L : Log α} {w : List (Item α)} (h : Acc c s L w) (hc : Clk c s L) {x : α} {rest : List (Nat × α)} (hp : s.pending = (s.now, x) :: rest)
    (hl : s.latched = true) : ∃ w', Acc c (s.taken rest) { L with dels := L.dels ++ [(L.now, x)] } w' := by
  obtain ⟨w1, w2, e, rfl, hg, ht, hx, hperm⟩ := h.find hp
  refine ⟨w1 ++ { e with got := true } :: w2, ?_, ?_, ?_, ?_, ?_⟩
  · have := h.sends
    rw [List.map_append, List.map_cons] at this ⊢
    exact this
  · have := h.dels
    rw [List.filter_append, List.filter_cons_of_neg (by rw [hg]; simp), ← List.filter_append] at this
    rw [List.filter_append, List.filter_cons_of_pos (by rfl), List.map_append, List.map_cons]
    refine List.perm_middle.trans ?_
    rw [← List.map_append, ← List.filter_append]
    show ((e.tick, e.x) :: _).Perm _
    rw [ht, hx, hc.now]
    exact (List.Perm.cons _ this).trans (List.perm_append_comm (l₁ := [(s.now, x)]) (l₂ := L.dels))
  · rw [List.filter_append, List.filter_cons_of_neg (by simp), ← List.filter_append]
    exact hperm
  · intro e' he'
    rcases List.mem_append.1 he' with he' | he'
    · exact h.reach e' (List.mem_append_left _ he')
    · rcases List.mem_cons.1 he' with he' | he'
      · subst he'; exact h.reach e (List.mem_append_right _ List.mem_cons_self)
      · exact h.reach e' (List.mem_append_right _ (List.mem_cons_of_mem _ he'))
  · intro e' he' hg'
    rcases List.mem_append.1 he' with he' | he'
    · exact h.got e' (List.mem_append_left _ he') hg'
    · rcases List.mem_cons.1 he' with he' | he'
      · subst he'
        show L.readyAt c e.tick = true ∧ e.tick ≤ s.now
        rw [ht, hc.here]
        exact ⟨hl, Nat.le_refl _⟩
      · exact h.got e' (List.mem_append_right _ (List.mem_cons_of_mem _ he')) hg'

theorem Acc.deliver_held {c : Cfg} {s s' : Port α} {L : Log α} {w : List (Item α)} (h : Acc c s L w) (hc : Clk c s L) {x : α} {rest : List (Nat × α)} (hp : s.pending = (s.now, x) :: rest)
    (hl : s.latched = false) (hp' : s'.pending = rest ++ [(s.now + c.again, x)]) (hn : s'.now = s.now) : ∃ w', Acc c s' L w' := by
  obtain ⟨w1, w2, e, rfl, hg, ht, hx, hperm⟩ := h.find hp
  refine ⟨w1 ++ { e with tick := s.now + c.again } :: w2, ?_, ?_, ?_, ?_, ?_⟩
  · have := h.sends
    rw [List.map_append, List.map_cons] at this ⊢
    exact this
  · have := h.dels
    rw [List.filter_append, List.filter_cons_of_neg (by rw [hg]; simp)] at this ⊢
    exact this
  · rw [List.filter_append, List.filter_cons_of_pos (by show (!e.got) = true; rw [hg]; rfl), List.map_append, List.map_cons, hp']
    refine List.perm_middle.trans ?_
    rw [← List.map_append, ← List.filter_append]
    show ((s.now + c.again, e.x) :: _).Perm _
    rw [hx]
    exact (List.Perm.cons _ hperm).trans (List.perm_append_comm (l₁ := [(s.now + c.again, x)]) (l₂ := rest))
  · intro e' he'
    rw [hn]
    rcases List.mem_append.1 he' with he' | he'
    · exact h.reach e' (List.mem_append_left _ he')
    · rcases List.mem_cons.1 he' with he' | he'
      · subst he'
        obtain ⟨k, hk, hr⟩ := h.reach e (List.mem_append_right _ List.mem_cons_self)
        show Reach _ _ _ e.first (s.now + c.again)
        refine ⟨k + 1, ?_, ?_⟩
        · rw [← ht, hk, Nat.add_mul, Nat.one_mul, Nat.add_assoc]
        · intro j hj
          by_cases hjk : j = k
          · subst hjk
            rw [← hk, ht, hc.here]
            exact ⟨hl, Nat.le_refl _⟩
          · exact hr j (by omega)
      · exact h.reach e' (List.mem_append_right _ (List.mem_cons_of_mem _ he'))
  · intro e' he' hg'
    rw [hn]
    rcases List.mem_append.1 he' with he' | he'
    · exact h.got e' (List.mem_append_left _ he') hg'
    · rcases List.mem_cons.1 he' with he' | he'
      · subst he'
        exact absurd (show e.got = true from hg') (by rw [hg]; simp)
      · exact h.got e' (List.mem_append_right _ (List.mem_cons_of_mem _ he')) hg'

/-- a delivery that did not throw -/
theorem deliver_cases {c : Cfg} (hD : 0 < c.D) {s : Port α} (h : Inv c s) :
    (NotDue s ∧ s.deliver c = (s, .no)) ∨
    ∃ x rest, s.pending = (s.now, x) :: rest ∧ (∀ e ∈ rest, s.now < e.1) ∧ s.late = false ∧
      ((s.latched = true ∧ s.deliver c = (s.taken rest, .got x)) ∨
       (s.latched = false ∧ s.later (s.now + c.again) = true ∧
        s.deliver c = ({ s with prevArrival := some (s.now + c.again), pending := rest ++ [(s.now + c.again, x)], inFlight := s.inFlight - 1 + 1 }, .held)) ∨
       (s.latched = false ∧ s.later (s.now + c.again) = false ∧ (s.deliver c).2 = .threw)) := by
  rcases deliver_eq h with h' | ⟨x, rest, hp, hr, hl, e⟩
  · exact .inl h'
  · right
    refine ⟨x, rest, hp, hr, hl, ?_⟩
    cases hlt : s.latched with
    | true => rw [hlt, if_pos rfl] at e; exact .inl ⟨rfl, e⟩
    | false =>
      right
      rw [hlt, if_neg (by simp)] at e
      have hdv : c.D ∣ s.now := h.dvd (s.now, x) (by rw [hp]; exact List.mem_cons_self)
      rw [sendIn_eq hD _ (show PrevOk c (s.taken rest).prevArrival from h.prevOk)] at e
      have en : (s.taken rest).now = s.now := rfl
      have el : (s.taken rest).late = s.late := rfl
      have ela : (s.taken rest).later = s.later := rfl
      rw [en, el, ela, again_arrival hD hdv, if_neg (by exact fun h' => h' hdv)] at e
      cases hla : s.later (s.now + c.again) with
      | false =>
        right
        rw [hla, if_pos rfl] at e
        exact ⟨rfl, rfl, by rw [e]⟩
      | true =>
        left
        rw [hla, if_neg (by simp), if_neg (by rw [hl]; simp)] at e
        refine ⟨rfl, rfl, ?_⟩
        rw [e]
        dsimp only
        rw [if_pos (Nat.succ_pos _)]
        rfl

theorem send_result {c : Cfg} (s : Port α) (x : α) (d : Nat) (sl : Bool) : (s.send c x d sl).2 = .threw ∨ ∃ r, (s.send c x d sl).2 = .delay r := by
  unfold Port.send
  split
  · exact .inl rfl
  · split
    · exact .inl rfl
    · split
      · exact .inl rfl
      · split
        · exact .inr ⟨_, rfl⟩
        · split
          · exact .inr ⟨_, rfl⟩
          · exact .inl rfl

theorem Acc.step {c : Cfg} (hD : 0 < c.D) {s : Port α} {L : Log α} {w : List (Item α)} (o : Op α) (hi : Inv c s) (hc : Clk c s L) (h : Acc c s L w)
    (hq : o.moves = true → (s.step c o).2 ≠ .threw) : ∃ w', Acc c (s.step c o).1 (L.add (o, (s.step c o).2)) w' := by
  have hpast := fun t (ht : t ≤ s.now) => readyAt_past hc o (s.step c o).2 ht
  cases o with
  | send x d sl =>
    have hq : (s.send c x d sl).2 ≠ .threw := hq rfl
    show ∃ w', Acc c (s.send c x d sl).1 (L.add (.send x d sl, (s.send c x d sl).2)) w'
    have hk := (send_keeps (c := c) s x d sl).1
    have hcase : ∃ r, (s.send c x d sl).2 = .delay r := (send_result s x d sl).resolve_left hq
    obtain ⟨r, hr⟩ := hcase
    rcases send_sendIn (c := c) s x d sl with ⟨_, e⟩ | ⟨_, e2, _, _, e3⟩
    · exact absurd e hq
    · have e3 := e3 r hr
      rw [hr]
      rcases sendIn_effect hD s hi.prevOk x c.S d sl with ⟨_, _, e⟩ | ⟨A, _, _, _, hA, _, ⟨_, e, _⟩ | ⟨e4, e5, _⟩⟩
      · rw [e] at e3; cases e3
      · rw [e] at e3; cases e3
      · rw [e5] at e3
        injection e3 with e3
        refine h.send (s' := (s.send c x d sl).1) (x := x) (r := r) ?_ hk
        rw [e2, e4, hc.now, ← e3]
        congr 3
        omega
  | setReady b =>
    refine ⟨w, h.congr ?_ ?_ ?_ ?_ hpast⟩
    · cases (s.setReady b).2 <;> cases hc : (s.step c (.setReady b)).2 <;> rfl
    · cases hc : (s.step c (.setReady b)).2 <;> rfl
    · show (s.setReady b).1.pending = _
      unfold Port.setReady; split
      · rfl
      · split <;> rfl
    · show _ ≤ (s.setReady b).1.now
      unfold Port.setReady; split
      · exact Nat.le_refl _
      · split <;> exact Nat.le_refl _
  | deliver =>
    have hq : (s.deliver c).2 ≠ .threw := hq rfl
    show ∃ w', Acc c (s.deliver c).1 (L.add (.deliver, (s.deliver c).2)) w'
    rcases deliver_cases hD hi with ⟨_, e⟩ | ⟨x, rest, hp, hr, hl, ⟨h1, e⟩ | ⟨h1, h2, e⟩ | ⟨h1, h2, e⟩⟩
    · rw [e]; exact ⟨w, h⟩
    · rw [e]; exact h.deliver_got hc hp h1
    · rw [e]; exact h.deliver_held hc hp h1 rfl rfl
    · exact absurd e hq
  | pass =>
    rcases pass_eq hi with ⟨hn, e⟩ | e
    · rw [e]; exact ⟨w, h.congr rfl rfl rfl (Nat.le_refl _) fun _ _ => rfl⟩
    · rw [e]; exact ⟨w, h⟩
  | next =>
    rcases next_eq hi with ⟨hn, e⟩ | e
    · rw [e]; exact ⟨w, h.congr rfl rfl rfl (Nat.le_succ _) fun _ _ => rfl⟩
    · rw [e]; exact ⟨w, h⟩
  | isReady => obtain ⟨e1, e2⟩ := asks (c := c) s L .isReady trivial; rw [e1, e2]; exact ⟨w, h⟩
  | isReadyPS => obtain ⟨e1, e2⟩ := asks (c := c) s L .isReadyPS trivial; rw [e1, e2]; exact ⟨w, h⟩
  | isDriven r => obtain ⟨e1, e2⟩ := asks (c := c) s L (.isDriven r) trivial; rw [e1, e2]; exact ⟨w, h⟩
  | isDrivenIn => exact ⟨w, h⟩
  | nextAvailable d n => obtain ⟨e1, e2⟩ := asks (c := c) s L (.nextAvailable d n) trivial; rw [e1, e2]; exact ⟨w, h⟩
  | getReady => exact ⟨w, h⟩

theorem acc_hist {c : Cfg} (hD : 0 < c.D) (os : List (Op α)) (hq : Quiet c os) : ∃ w, Acc c (runOps (Port.step c) (Port.init α c) os).1 (logOf c os) w := by
  have := hist_induct c (fun s L => Inv c s ∧ Clk c s L ∧ ∃ w, Acc c s L w) (fun e => e.1.moves = true → e.2 ≠ .threw)
    ⟨inv_init c, clk_init c, [], acc_init c⟩ (fun s L o ⟨hi, hc, w, h⟩ hq => ⟨hi.step hD s o, hc.step o hi, h.step hD o hi hc hq⟩) os hq
  exact this.2.2

/-! ### The tick of a delivery -/

theorem settle_ge {ready : Nat → Bool} {step now : Nat} : ∀ (fuel T : Nat), T ≤ settle ready step now fuel T := by
  intro fuel
  induction fuel with
  | zero => intro T; exact Nat.le_refl _
  | succ n ih =>
    intro T
    unfold settle
    split
    · exact Nat.le_trans (Nat.le_add_right _ _) (ih _)
    · exact Nat.le_refl _

theorem settle_reach {ready : Nat → Bool} {step now : Nat} (hs : 0 < step) : ∀ (k fuel T0 T : Nat), T = T0 + k * step →
    (∀ j, j < k → ready (T0 + j * step) = false ∧ T0 + j * step ≤ now) → now ≤ T0 + fuel →
    (T < now → ready T = true → settle ready step now fuel T0 = T) ∧ (now ≤ T → now ≤ settle ready step now fuel T0) := by
  intro k
  induction k with
  | zero =>
    intro fuel T0 T e _ hf
    have e : T = T0 := by rw [e, Nat.zero_mul]; rfl
    subst e
    refine ⟨?_, fun h => Nat.le_trans h (settle_ge _ _)⟩
    intro h1 h2
    cases fuel with
    | zero => rfl
    | succ n => unfold settle; rw [if_neg (by rw [h2]; simp)]
  | succ k ih =>
    intro fuel T0 T e hk hf
    have h0 := hk 0 (Nat.succ_pos _)
    rw [Nat.zero_mul, Nat.add_zero] at h0
    have e' : T = T0 + step + k * step := by rw [e, Nat.add_mul, Nat.one_mul]; omega
    have hT : T0 + step ≤ T := by rw [e']; exact Nat.le_add_right _ _
    by_cases hlt : T0 < now
    · cases fuel with
      | zero => omega
      | succ n =>
        unfold settle
        rw [if_pos ⟨hlt, h0.1⟩]
        refine ih n (T0 + step) T e' ?_ (by omega)
        intro j hj
        have := hk (j + 1) (by omega)
        have e2 : T0 + (j + 1) * step = T0 + step + j * step := by rw [Nat.add_mul, Nat.one_mul]; omega
        rw [e2] at this
        exact this
    · refine ⟨fun h => by omega, fun _ => Nat.le_trans (by omega) (settle_ge _ _)⟩

theorem filter_map_filter {β γ : Type} (w : List β) (b : β → Bool) (f : β → γ) (q : γ → Bool) (g : β → Option γ)
    (h : ∀ e ∈ w, g e = if b e = true ∧ q (f e) = true then some (f e) else none) : ((w.filter b).map f).filter q = w.filterMap g := by
  induction w with
  | nil => rfl
  | cons a w ih =>
    have ih := ih fun e he => h e (List.mem_cons_of_mem _ he)
    rw [List.filterMap_cons, h a List.mem_cons_self]
    by_cases hb : b a = true
    · rw [List.filter_cons_of_pos hb, List.map_cons]
      by_cases hq : q (f a) = true
      · rw [List.filter_cons_of_pos hq, if_pos ⟨hb, hq⟩, ih]
      · rw [List.filter_cons_of_neg hq, if_neg (fun x => hq x.2), ih]
    · rw [List.filter_cons_of_neg hb, if_neg (fun x => hb x.1), ih]

theorem Acc.expected {c : Cfg} (hD : 0 < c.D) {s : Port α} {L : Log α} {w : List (Item α)} (hi : Inv c s) (hc : Clk c s L) (h : Acc c s L w) :
    (L.dels.filter fun e => decide (e.1 < L.now)).Perm (L.expected c) := by
  have e : L.expected c = w.filterMap fun e => if L.due c e.first 0 < L.now then some (L.due c e.first 0, e.x) else none := by
    unfold Log.expected
    have e1 : ∀ l : List (Nat × Nat × α), (l.filterMap fun e => if L.due c e.1 e.2.1 < L.now then some (L.due c e.1 e.2.1, e.2.2) else none) =
        (l.map fun e => (e.1 + e.2.1, e.2.2)).filterMap fun e => if L.due c e.1 0 < L.now then some (L.due c e.1 0, e.2) else none := by
      intro l; rw [List.filterMap_map]; rfl
    rw [e1, ← h.sends, List.filterMap_map]; rfl
  rw [e]
  refine (h.dels.symm.filter _).trans ?_
  rw [filter_map_filter w (·.got) (fun e => (e.tick, e.x)) _ (fun e => if L.due c e.first 0 < L.now then some (L.due c e.first 0, e.x) else none)]
  intro e he
  obtain ⟨k, hk, hr⟩ := h.reach e he
  have hs := settle_reach (again_pos hD) k L.now e.first e.tick hk hr (by rw [hc.now]; omega)
  have hdue : L.due c e.first 0 = settle (L.readyAt c) c.again s.now L.now e.first := by
    unfold Log.due; rw [hc.now]; rfl
  rw [hdue, hc.now]
  rw [hc.now] at hs
  by_cases hg : e.got = true
  · obtain ⟨g1, g2⟩ := h.got e he hg
    by_cases hlt : e.tick < s.now
    · rw [hs.1 hlt g1, if_pos hlt, if_pos ⟨hg, decide_eq_true hlt⟩]
    · have := hs.2 (by omega)
      rw [if_neg (by omega), if_neg (by rintro ⟨_, h⟩; exact hlt (of_decide_eq_true h))]
  · have : e ∈ w.filter fun e => !e.got := List.mem_filter.2 ⟨he, by simpa using hg⟩
    have hm : (e.tick, e.x) ∈ s.pending := h.pending.mem_iff.1 (List.mem_map.2 ⟨e, this, rfl⟩)
    have hge := hi.ge _ hm
    have := hs.2 hge
    rw [if_neg (by omega), if_neg (fun h => hg h.1)]

end Sparta.SyncPort
