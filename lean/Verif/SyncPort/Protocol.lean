import Verif.SyncPort.Props
/-!
Helper lemmas: the queue of a port whose sender asks before every send, and rows of sends.
-/
namespace Sparta.SyncPort
variable {α : Type}

/-- induction over histories whose operations satisfy a precondition -/
theorem hist_legal (c : Cfg) (legal : Port α → Op α → Prop) (P : Port α → Log α → Prop) (Q : Op α × Res α → Prop) (hinit : P (Port.init α c) (Log.init α))
    (hstep : ∀ s L o, P s L → legal s o → P (s.step c o).1 (L.add (o, (s.step c o).2)) ∧ Q (o, (s.step c o).2)) (os : List (Op α))
    (hl : legalOps (Port.step c) legal (Port.init α c) os) :
    P (runOps (Port.step c) (Port.init α c) os).1 (logOf c os) ∧ ∀ e ∈ os.zip (runOps (Port.step c) (Port.init α c) os).2, Q e := by
  have gen : ∀ (os : List (Op α)) (s : Port α) (L : Log α), P s L → legalOps (Port.step c) legal s os →
      P (runOps (Port.step c) s os).1 ((os.zip (runOps (Port.step c) s os).2).foldl Log.add L) ∧ ∀ e ∈ os.zip (runOps (Port.step c) s os).2, Q e := by
    intro os
    induction os with
    | nil => intro s L h _; exact ⟨h, fun e he => by cases he⟩
    | cons o os ih =>
      intro s L h hl
      have e : runOps (Port.step c) s (o :: os) = ((runOps (Port.step c) (s.step c o).1 os).1, (s.step c o).2 :: (runOps (Port.step c) (s.step c o).1 os).2) := rfl
      rw [e]
      dsimp only
      rw [List.zip_cons_cons, List.foldl_cons]
      obtain ⟨h1, h2⟩ := hstep s L o h hl.1
      obtain ⟨h3, h4⟩ := ih _ _ h1 hl.2
      refine ⟨h3, fun e he => ?_⟩
      rcases List.mem_cons.1 he with rfl | he
      · exact h2
      · exact h4 e he
  exact gen os _ _ hinit hl

/-- every send is without extra delay or sliding, in a cycle in which `isReady` is true and `isDriven` false, and, for ports without delay, before the scheduler is past the delivery -/
def Polite (c : Cfg) (s : Port α) : Op α → Prop
  | .send _ d sl => d = 0 ∧ sl = false ∧ (s.step c .isReady).2 = .yes true ∧ (s.step c (.isDriven 0)).2 = .yes false ∧ (c.R = 0 → s.late = false)
  | _ => True

/-- the queue holds at most two items -/
def Small (c : Cfg) (s : Port α) : List (Nat × α) → Prop
  | [] => True
  | [e] => c.R = 0 → e.1 = s.now ∧ s.latched = true
  | [e, _] => c.R = c.D ∧ e.1 = s.now ∧ s.latched = true
  | _ => False

structure PI (c : Cfg) (s : Port α) (L : Log α) : Prop where
  inv : Inv c s
  ps : PS c s
  clk : Clk c s L
  small : Small c s s.pending
  tail : ∀ p, s.prevArrival = some p → p ≤ s.now ∨ ∃ e ∈ s.pending, e.1 = p
  data : L.dels.map (·.2) ++ s.pending.map (·.2) = L.sends.map (·.2.2)

theorem polite_send {c : Cfg} (hD : 0 < c.D) (hSD : c.S = c.D) (hR : c.R = 0 ∨ c.R = c.D) {s : Port α} (hi : Inv c s) (hps : PS c s) {x : α} {d : Nat} {sl : Bool}
    (h : Polite c s (.send x d sl)) :
    d = 0 ∧ sl = false ∧ c.D ∣ s.now ∧ (∀ p, s.prevArrival = some p → p < s.now + c.R) ∧ (s.latched = true ∨ (s.pending = [] ∧ c.R ≠ 0)) ∧
    s.send c x d sl = ({ s with prevArrival := some (s.now + c.R), pending := s.pending ++ [(s.now + c.R, x)], inFlight := s.inFlight + 1, prevSend := some (s.now / c.S) }, .delay c.R) := by
  obtain ⟨rfl, rfl, h1, h2, h3⟩ := h
  have hS : 0 < c.S := by omega
  have e1 : (s.step c .isReady).2 = match s.couldAccept c with | some b => .yes b | none => .threw := rfl
  have e2 : (s.step c (.isDriven 0)).2 = match s.isDriven c 0 with | some b => .yes b | none => .threw := rfl
  rw [e1, couldAccept_eq hD] at h1
  rw [e2, isDriven_eq hD hi] at h2
  by_cases hedge : c.S ∣ s.now
  · rw [if_pos hedge] at h1 h2
    have hdv : c.D ∣ s.now := hSD ▸ hedge
    have hdR : c.D ∣ s.now + c.R := by
      rcases hR with e | e
      · rw [e]; exact hdv
      · rw [e]; exact Nat.dvd_add hdv (Nat.dvd_refl _)
    have eup : up c.D (s.now + (0 * c.S + c.R)) = s.now + c.R := by
      rw [show 0 * c.S + c.R = c.R by omega]; exact up_self hD hdR
    rw [eup] at h2
    have h2 : (!s.later (s.now + c.R)) = false := by injection h2
    rw [Bool.not_eq_false'] at h2
    have earr : arrival c s.now c.S 0 false s.prevArrival = s.now + c.R := by rw [arrival_noslide, eup]
    refine ⟨rfl, rfl, hdv, (later_iff _ _).1 h2, ?_, ?_⟩
    · by_cases hl : s.latched = false
      · right
        rw [if_pos hl] at h1
        by_cases h4 : c.portDelay = 1 ∨ c.portDelay = 0
        · rw [if_pos h4] at h1
          by_cases h5 : s.inFlight > 0 ∨ c.portDelay = 0
          · rw [if_pos h5] at h1; cases h1
          · refine ⟨?_, fun e => h5 (.inr ?_)⟩
            · have : s.pending.length = 0 := by rw [← hi.count]; omega
              exact List.eq_nil_of_length_eq_zero this
            · unfold Cfg.portDelay; rw [e, Nat.div_eq_zero_iff]; omega
        · rw [if_neg h4] at h1; cases h1
      · left; simpa using hl
    · rw [send_eq hS hD s hi, earr, if_neg (fun h => h hedge), if_neg (by rw [h2]; simp)]
      have hz : ¬ (s.now + c.R = s.now ∧ s.late = true) := by
        rintro ⟨a, b⟩
        rw [h3 (by omega)] at b; cases b
      rw [if_neg hz, if_pos (prevSend_ok hS (by omega) hps hdR h2)]
      rw [show s.now + c.R - c.R = s.now by omega, show s.now + c.R - s.now = c.R by omega]
  · rw [if_neg hedge] at h1; cases h1

theorem small_congr {c : Cfg} {s s' : Port α} (h1 : s'.now = s.now) (h2 : s'.latched = s.latched) {l : List (Nat × α)} (h : Small c s l) : Small c s' l := by
  unfold Small at *
  rw [h1, h2]; exact h

theorem PI.step {c : Cfg} (hD : 0 < c.D) (hSD : c.S = c.D) (hR : c.R = 0 ∨ c.R = c.D) {s : Port α} {L : Log α} (o : Op α) (h : PI c s L) (hp : Polite c s o) :
    PI c (s.step c o).1 (L.add (o, (s.step c o).2)) ∧ (o.moves = true → (s.step c o).2 ≠ .threw) ∧ (c.R = 0 → (s.step c o).2 ≠ .held) := by
  have hS : 0 < c.S := by omega
  have i' := h.inv.step hD s o
  have p' := h.ps.step hS hD h.inv o
  have k' := h.clk.step o h.inv
  suffices hs : Small c (s.step c o).1 (s.step c o).1.pending ∧ (∀ p, (s.step c o).1.prevArrival = some p → p ≤ (s.step c o).1.now ∨ ∃ e ∈ (s.step c o).1.pending, e.1 = p) ∧
      ((L.add (o, (s.step c o).2)).dels.map (·.2) ++ (s.step c o).1.pending.map (·.2) = (L.add (o, (s.step c o).2)).sends.map (·.2.2)) ∧
      (o.moves = true → (s.step c o).2 ≠ .threw) ∧ (c.R = 0 → (s.step c o).2 ≠ .held) from
    ⟨⟨i', p', k', hs.1, hs.2.1, hs.2.2.1⟩, hs.2.2.2⟩
  clear i' p' k'
  have quiet : ∀ o', o' = o → (s.step c o').1 = s → L.add (o', (s.step c o').2) = L → o'.moves = false → (s.step c o').2 ≠ .held → 
      Small c (s.step c o).1 (s.step c o).1.pending ∧ (∀ p, (s.step c o).1.prevArrival = some p → p ≤ (s.step c o).1.now ∨ ∃ e ∈ (s.step c o).1.pending, e.1 = p) ∧
      ((L.add (o, (s.step c o).2)).dels.map (·.2) ++ (s.step c o).1.pending.map (·.2) = (L.add (o, (s.step c o).2)).sends.map (·.2.2)) ∧
      (o.moves = true → (s.step c o).2 ≠ .threw) ∧ (c.R = 0 → (s.step c o).2 ≠ .held) := by
    rintro o' rfl e1 e2 hm hh
    rw [e1, e2]
    exact ⟨h.small, h.tail, h.data, (fun hm' => by rw [hm] at hm'; cases hm'), (fun _ => hh)⟩
  cases o with
  | send x d sl =>
    obtain ⟨rfl, rfl, hdv, hlt, hl, e⟩ := polite_send hD hSD hR h.inv h.ps hp
    have e' : s.step c (.send x 0 false) = _ := e
    rw [e']
    dsimp only
    refine ⟨?_, fun p hp => ?_, ?_, (fun _ h => by cases h), (fun _ h => by cases h)⟩
    · show Small c s _
      cases hpend : s.pending with
      | nil =>
        intro hR0
        rcases hl with hl | ⟨_, hl⟩
        · exact ⟨by show s.now + c.R = s.now; omega, hl⟩
        · exact absurd hR0 hl
      | cons a l =>
        have hge := h.inv.ge
        obtain ⟨q, hq, haq⟩ := h.inv.le a (by rw [hpend]; exact List.mem_cons_self)
        have hqlt := hlt q hq
        have hga := hge a (by rw [hpend]; exact List.mem_cons_self)
        have hda := h.inv.dvd a (by rw [hpend]; exact List.mem_cons_self)
        rcases hR with hR | hR
        · omega
        · have hla : s.latched = true := by
            rcases hl with hl | ⟨hl, _⟩
            · exact hl
            · rw [hpend] at hl; cases hl
          have hanow : a.1 = s.now := by
            rcases Nat.lt_or_ge s.now a.1 with hlt' | hge'
            · have := dvd_gap hdv hda hlt'
              omega
            · omega
          cases l with
          | nil => exact ⟨hR, hanow, hla⟩
          | cons b l =>
            exfalso
            obtain ⟨q', hq', hbq⟩ := h.inv.le b (by rw [hpend]; simp)
            rw [hq] at hq'; injection hq' with hq'; subst hq'
            have hs := h.inv.sorted
            rw [hpend, List.pairwise_cons] at hs
            have hab := hs.1 b List.mem_cons_self
            have hdb := h.inv.dvd b (by rw [hpend]; simp)
            have := dvd_gap hdv hdb (by omega)
            omega
    · injection hp with hp
      exact .inr ⟨(s.now + c.R, x), List.mem_append_right _ List.mem_cons_self, hp⟩
    · show L.dels.map (·.2) ++ (s.pending ++ [(s.now + c.R, x)]).map (·.2) = (L.sends ++ [(L.now, c.R, x)]).map (·.2.2)
      rw [List.map_append, List.map_append, ← List.append_assoc, h.data]; rfl
  | setReady b =>
    show Small c (s.setReady b).1 (s.setReady b).1.pending ∧ (∀ p, (s.setReady b).1.prevArrival = some p → p ≤ (s.setReady b).1.now ∨ ∃ e ∈ (s.setReady b).1.pending, e.1 = p) ∧
      ((L.add (.setReady b, (s.setReady b).2)).dels.map (·.2) ++ (s.setReady b).1.pending.map (·.2) = (L.add (.setReady b, (s.setReady b).2)).sends.map (·.2.2)) ∧ _ ∧ (c.R = 0 → (s.setReady b).2 ≠ .held)
    have hd : (L.add (.setReady b, (s.setReady b).2)).dels = L.dels ∧ (L.add (.setReady b, (s.setReady b).2)).sends = L.sends := by
      cases (s.setReady b).2 <;> exact ⟨rfl, rfl⟩
    rw [hd.1, hd.2]
    unfold Port.setReady
    split
    · next hgt =>
      refine ⟨small_congr (s := s) (s' := { s with prev := s.cur, cur := b, setTick := s.now }) rfl ?_ h.small, h.tail, h.data, (fun h => by cases h), (fun _ h => by cases h)⟩
      rw [latched_eq (by exact Nat.le_refl _), if_pos rfl, latched_eq h.inv.setTick, if_neg (by omega)]
    · split <;> exact ⟨h.small, h.tail, h.data, (fun h => by cases h), (fun _ h => by cases h)⟩
  | deliver =>
    have e0 : s.step c .deliver = s.deliver c := rfl
    rw [e0]
    rcases deliver_cases hD h.inv with ⟨_, e⟩ | ⟨x, rest, hpd, hr, hl, ⟨h1, e⟩ | ⟨h1, h2, e⟩ | ⟨h1, h2, e⟩⟩
    · rw [e]; exact ⟨h.small, h.tail, h.data, (fun _ h => by cases h), (fun _ h => by cases h)⟩
    · rw [e]
      have hsm := h.small
      rw [hpd] at hsm
      refine ⟨?_, fun p hp => ?_, ?_, (fun _ h => by cases h), (fun _ h => by cases h)⟩
      · show Small c _ rest
        cases rest with
        | nil => trivial
        | cons b l =>
          cases l with
          | nil => intro hR0; have := hsm.1; omega
          | cons b' l => exact hsm.elim
      · rcases h.tail p hp with h3 | ⟨f, hf, h3⟩
        · exact .inl h3
        · rw [hpd] at hf
          rcases List.mem_cons.1 hf with rfl | hf
          · left; show p ≤ s.now; have : s.now = p := h3; omega
          · exact .inr ⟨f, hf, h3⟩
      · show (L.dels ++ [(L.now, x)]).map (·.2) ++ rest.map (·.2) = L.sends.map (·.2.2)
        have := h.data
        rw [hpd] at this
        rw [List.map_append, List.append_assoc]
        exact this
    · rw [e]
      have hsm := h.small
      rw [hpd] at hsm
      have hrest : rest = [] := by
        cases rest with
        | nil => rfl
        | cons b l =>
          cases l with
          | nil => have := hsm.2.2; rw [h1] at this; cases this
          | cons b' l => exact hsm.elim
      subst hrest
      have hR0 : c.R ≠ 0 := by
        intro hR0
        have := (hsm hR0).2
        rw [h1] at this; cases this
      refine ⟨?_, fun p hp => ?_, ?_, (fun _ h => by cases h), (fun h => absurd h hR0)⟩
      · intro h; exact absurd h hR0
      · injection hp with hp
        exact .inr ⟨(s.now + c.again, x), List.mem_cons_self, hp⟩
      · have := h.data
        rw [hpd] at this
        exact this
    · exfalso
      have hsm := h.small
      rw [hpd] at hsm
      have hrest : rest = [] := by
        cases rest with
        | nil => rfl
        | cons b l =>
          cases l with
          | nil => have := hsm.2.2; rw [h1] at this; cases this
          | cons b' l => exact hsm.elim
      subst hrest
      have : s.later (s.now + c.again) = true := by
        rw [later_iff]
        intro p hp
        have := again_pos hD
        rcases h.tail p hp with h3 | ⟨f, hf, h3⟩
        · omega
        · rw [hpd] at hf
          rcases List.mem_cons.1 hf with rfl | hf
          · have : s.now = p := h3; omega
          · cases hf
      rw [this] at h2; cases h2
  | pass =>
    rcases pass_eq h.inv with ⟨hn, e⟩ | e
    · rw [e]; exact ⟨small_congr rfl rfl h.small, h.tail, h.data, (fun h => by cases h), (fun _ h => by cases h)⟩
    · rw [e]; exact ⟨h.small, h.tail, h.data, (fun h => by cases h), (fun _ h => by cases h)⟩
  | next =>
    rcases next_eq h.inv with ⟨hn, e⟩ | e
    · rw [e]
      refine ⟨?_, fun p hp => ?_, h.data, (fun h => by cases h), (fun _ h => by cases h)⟩
      · show Small c _ s.pending
        have hsm := h.small
        cases hpd : s.pending with
        | nil => trivial
        | cons a l =>
          have hn := hn a (by rw [hpd]; exact List.mem_cons_self)
          rw [hpd] at hsm
          cases l with
          | nil => intro hR0; have := (hsm hR0).1; omega
          | cons b l =>
            cases l with
            | nil => have := hsm.2.1; omega
            | cons b' l => exact hsm.elim
      · rcases h.tail p hp with h3 | h3
        · left; show p ≤ s.now + 1; omega
        · exact .inr h3
    · rw [e]; exact ⟨h.small, h.tail, h.data, (fun h => by cases h), (fun _ h => by cases h)⟩
  | isReady => exact quiet .isReady rfl rfl ((asks (c := c) s L .isReady trivial).2 _) rfl (by show (match s.couldAccept c with | some b => Res.yes b | none => .threw) ≠ .held; split <;> simp)
  | isReadyPS => exact quiet .isReadyPS rfl rfl ((asks (c := c) s L .isReadyPS trivial).2 _) rfl (by show (if c.portDelay = 0 then Res.yes s.cur else .threw) ≠ .held; split <;> simp)
  | isDriven r => exact quiet (.isDriven r) rfl rfl ((asks (c := c) s L (.isDriven r) trivial).2 _) rfl (by show (match s.isDriven c r with | some b => Res.yes b | none => .threw) ≠ .held; split <;> simp)
  | isDrivenIn => exact quiet .isDrivenIn rfl rfl rfl rfl (by show Res.yes _ ≠ _; simp)
  | nextAvailable d n => exact quiet (.nextAvailable d n) rfl rfl ((asks (c := c) s L (.nextAvailable d n) trivial).2 _) rfl (by show (match s.nextAvailable c d n with | some k => Res.cycle k | none => .threw) ≠ .held; split <;> simp)
  | getReady => exact quiet .getReady rfl rfl rfl rfl (by show Res.yes _ ≠ _; simp)

/-- a row of sends with sliding -/
theorem row_eq {c : Cfg} (hS : 0 < c.S) (hSD : c.S ≤ c.D) (x : Nat → α) (d : Nat) : ∀ (n b : Nat) (s : Port α), Inv c s → PS c s → c.S ∣ s.now → s.late = false →
    ∃ rs : List Nat, rs.length = n ∧
      (runOps (Port.step c) s ((List.range' b n).map fun i => .send (x i) (d + i) true)).2 = rs.map .delay ∧
      beatArr c s.now d b n s.prevArrival = (match rs.getLast? with | some r => some (s.now + r) | none => s.prevArrival) := by
  have hD : 0 < c.D := by omega
  intro n
  induction n with
  | zero => intro b s _ _ _ _; exact ⟨[], rfl, rfl, rfl⟩
  | succ n ih =>
    intro b s hi hps hedge hlate
    rw [List.range'_succ, List.map_cons]
    have hge := arrival_ge hD s.now c.S (d + b) true s.prevArrival
    have hl : s.later (arrival c s.now c.S (d + b) true s.prevArrival) = true := by
      rw [later_iff]; intro p hp; rw [hp]; exact arrival_slide_later hD
    have hi' := hi.step hD s (.send (x b) (d + b) true)
    have hps' := hps.step hS hD hi (.send (x b) (d + b) true)
    have hz : ¬ (arrival c s.now c.S (d + b) true s.prevArrival = s.now ∧ s.late = true) := by rw [hlate]; simp
    have e : s.step c (.send (x b) (d + b) true) = _ := (send_eq hS hD s hi (x b) (d + b) true).trans (by
      rw [if_neg (fun h => h hedge), if_neg (by rw [hl]; simp), if_neg hz,
        if_pos (prevSend_ok hS hSD hps (arrival_dvd (now := s.now) (P := c.S) (delay := d + b) (slide := true) hi.prevOk) hl)])
    have ar : ∀ (o : Op α) os, runOps (Port.step c) s (o :: os) = ((runOps (Port.step c) (s.step c o).1 os).1, (s.step c o).2 :: (runOps (Port.step c) (s.step c o).1 os).2) := fun _ _ => rfl
    rw [ar]
    rw [e] at hi' hps' ⊢
    obtain ⟨rs, h1, h2, h3⟩ := ih (b + 1) _ hi' hps' hedge hlate
    refine ⟨(arrival c s.now c.S (d + b) true s.prevArrival - s.now) :: rs, by rw [List.length_cons, h1], ?_, ?_⟩
    · dsimp only at h2 ⊢
      rw [h2]; rfl
    · show beatArr c s.now d (b + 1) n (some (arrival c s.now c.S (d + b) true s.prevArrival)) = _
      have h3 : beatArr c s.now d (b + 1) n (some (arrival c s.now c.S (d + b) true s.prevArrival)) = _ := h3
      rw [h3]
      cases rs with
      | nil => show some _ = some (s.now + (arrival c s.now c.S (d + b) true s.prevArrival - s.now)); congr 1; omega
      | cons r rs => rw [List.getLast?_cons_cons]; cases hg : (r :: rs).getLast? with
        | none => rw [List.getLast?_eq_none_iff] at hg; cases hg
        | some r => rfl

/-- a row of sends with sliding of which none throws, for any clocks -/
theorem row_of {c : Cfg} (hS : 0 < c.S) (hD : 0 < c.D) (x : Nat → α) (d : Nat) : ∀ (n b : Nat) (s : Port α) (rs : List Nat), Inv c s → c.S ∣ s.now →
    (runOps (Port.step c) s ((List.range' b n).map fun i => .send (x i) (d + i) true)).2 = rs.map .delay →
      beatArr c s.now d b n s.prevArrival = (match rs.getLast? with | some r => some (s.now + r) | none => s.prevArrival) := by
  intro n
  induction n with
  | zero =>
    intro b s rs _ _ h
    cases rs with
    | nil => rfl
    | cons r rs => cases h
  | succ n ih =>
    intro b s rs hi hedge h
    rw [List.range'_succ, List.map_cons] at h
    have hge := arrival_ge hD s.now c.S (d + b) true s.prevArrival
    have ar : ∀ (o : Op α) os, runOps (Port.step c) s (o :: os) = ((runOps (Port.step c) (s.step c o).1 os).1, (s.step c o).2 :: (runOps (Port.step c) (s.step c o).1 os).2) := fun _ _ => rfl
    rw [ar] at h
    cases rs with
    | nil => cases h
    | cons r rs =>
      rw [List.map_cons] at h
      injection h with h1 h2
      have hi' := hi.step hD s (.send (x b) (d + b) true)
      have hr : (s.send c (x b) (d + b) true).2 = .delay r := h1
      have key : (s.step c (.send (x b) (d + b) true)).1.now = s.now ∧ (s.step c (.send (x b) (d + b) true)).1.prevArrival = some (arrival c s.now c.S (d + b) true s.prevArrival) ∧
          s.now + r = arrival c s.now c.S (d + b) true s.prevArrival := by
        show (s.send c (x b) (d + b) true).1.now = _ ∧ (s.send c (x b) (d + b) true).1.prevArrival = _ ∧ _
        rw [send_eq hS hD s hi] at hr ⊢
        split at hr
        · cases hr
        · next q1 =>
          rw [if_neg q1]
          split at hr
          · cases hr
          · next q2 =>
            rw [if_neg q2]
            split at hr
            · cases hr
            · next q3 =>
              rw [if_neg q3]
              split at hr
              · next q4 =>
                rw [if_pos q4]
                injection hr with hr
                exact ⟨rfl, rfl, by omega⟩
              · cases hr
      have h3 := ih (b + 1) _ rs hi' (key.1 ▸ hedge) h2
      rw [key.1, key.2.1] at h3
      show beatArr c s.now d (b + 1) n (some (arrival c s.now c.S (d + b) true s.prevArrival)) = _
      rw [h3]
      cases rs with
      | nil => show some _ = some (s.now + r); rw [key.2.2]
      | cons r' rs => rw [List.getLast?_cons_cons]; cases hg : (r' :: rs).getLast? with
        | none => rw [List.getLast?_eq_none_iff] at hg; cases hg
        | some r => rfl

end Sparta.SyncPort
