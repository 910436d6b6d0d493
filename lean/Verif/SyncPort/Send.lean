import Verif.SyncPort.Acc
/-! Sending on sync ports: when it succeeds, and the cycle it reports. -/
namespace Sparta.SyncPort
variable {α : Type}

/-- the arrival of `n` beats from beat `b` on, after `p` -/
def beatArr (c : Cfg) (now d : Nat) : Nat → Nat → Option Nat → Option Nat
  | _, 0, p => p
  | b, n + 1, p => beatArr c now d (b + 1) n (some (arrival c now c.S (d + b) true p))

theorem prevOk_arrival {c : Cfg} {now P d : Nat} {sl : Bool} {p : Option Nat} (hp : PrevOk c p) : PrevOk c (some (arrival c now P d sl p)) := by
  intro q hq
  injection hq with hq
  subst hq
  exact arrival_dvd hp

theorem beats_eq {c : Cfg} (hD : 0 < c.D) {now d : Nat} (hS : c.S ∣ now) : ∀ (n b : Nat) (p : Option Nat), PrevOk c p → beats c now d b n p = some (beatArr c now d b n p) := by
  intro n
  induction n with
  | zero => intro b p _; rfl
  | succ n ih =>
    intro b p hp
    unfold beats beatArr
    rw [toReceive_eq hD _ _ _ _ _ hp, if_pos hS, Option.bind_some]
    have hge := arrival_ge hD now c.S (d + b) true p
    have : now + (arrival c now c.S (d + b) true p - now) = arrival c now c.S (d + b) true p := by omega
    rw [this]
    exact ih _ _ (prevOk_arrival hp)

theorem beatArr_some {c : Cfg} (hD : 0 < c.D) {now d : Nat} : ∀ (n b : Nat) (p : Option Nat), PrevOk c p →
    ∃ A, beatArr c now d b (n + 1) p = some A ∧ c.D ∣ A ∧ now + (d * c.S + c.R) ≤ A := by
  intro n
  induction n with
  | zero =>
    intro b p hp
    refine ⟨_, rfl, arrival_dvd hp, ?_⟩
    have := arrival_ge hD now c.S (d + b) true p
    rw [Nat.add_mul] at this
    omega
  | succ n ih =>
    intro b p hp
    unfold beatArr
    exact ih _ _ (prevOk_arrival hp)

theorem cyc_eq {S d R arr : Nat} (hS : 0 < S) (h : d * S + R ≤ arr) : (arr - (d * S + R)) / S + d = (arr - R) / S := by
  have e : arr - (d * S + R) = arr - R - S * d := by rw [Nat.mul_comm]; omega
  rw [e, Nat.sub_mul_div]
  have : d ≤ (arr - R) / S := (Nat.le_div_iff_mul_le hS).2 (by omega)
  omega

/-- the reported cycle -/
theorem nextAvailable_eq {c : Cfg} (hS : 0 < c.S) (hD : 0 < c.D) {s : Port α} (hp : PrevOk c s.prevArrival) (hedge : c.S ∣ s.now) (d n : Nat) :
    ∃ A, beatArr c s.now d 0 (n + 1) s.prevArrival = some A ∧ c.D ∣ A ∧ s.now + (d * c.S + c.R) ≤ A ∧ s.nextAvailable c d n = some ((A - c.R) / c.S) := by
  obtain ⟨A, e, hA, hle⟩ := beatArr_some hD (now := s.now) (d := d) n 0 s.prevArrival hp
  refine ⟨A, e, hA, hle, ?_⟩
  unfold Port.nextAvailable
  rw [if_neg (by rw [ne_eq, Decidable.not_not]; exact Nat.mod_eq_zero_of_dvd hedge), beats_eq hD hedge _ _ _ hp, Option.bind_some, e, Option.bind_some,
    reverse_eq hA (by omega), Option.bind_some]
  have h1 := Nat.div_mul_le_self (A - (d * c.S + c.R)) c.S
  rw [if_neg (by omega)]
  dsimp only
  have e2 : A - (A - (A - (d * c.S + c.R)) / c.S * c.S) = (A - (d * c.S + c.R)) / c.S * c.S := by omega
  rw [e2, Nat.mul_div_cancel _ hS, cyc_eq hS (by omega), if_neg]
  rw [Nat.not_lt]
  apply Nat.div_le_div_right
  omega

theorem nextAvailable_off {c : Cfg} {s : Port α} (hedge : ¬ c.S ∣ s.now) (d n : Nat) : s.nextAvailable c d n = none := by
  unfold Port.nextAvailable
  rw [if_pos (by intro h; exact hedge (Nat.dvd_of_mod_eq_zero h))]

/-- the sending cycle recorded last -/
def PS (c : Cfg) (s : Port α) : Prop :=
  ∀ q, s.prevSend = some q → ∃ p a, s.prevArrival = some p ∧ a ≤ p ∧ c.D ∣ a ∧ c.R ≤ a ∧ q = (a - c.R) / c.S

theorem later_slide {c : Cfg} {s : Port α} {P d : Nat} {sl : Bool} (h : s.later (arrival c s.now P d sl s.prevArrival) = true) :
    arrival c s.now P d true s.prevArrival = arrival c s.now P d sl s.prevArrival := by
  rw [later_iff] at h
  cases hp : s.prevArrival with
  | none => rfl
  | some p =>
    rw [hp] at h
    exact arrival_slide_eq (h p rfl)

/-- what `send` does -/
theorem send_eq {c : Cfg} (hS : 0 < c.S) (hD : 0 < c.D) (s : Port α) (hi : Inv c s) (x : α) (d : Nat) (sl : Bool) :
    s.send c x d sl = if ¬ c.S ∣ s.now then (s, .threw)
      else if s.later (arrival c s.now c.S d sl s.prevArrival) = false then (s, .threw)
      else if arrival c s.now c.S d sl s.prevArrival = s.now ∧ s.late = true then ({ s with prevArrival := some (arrival c s.now c.S d sl s.prevArrival) }, .threw)
      else if s.prevSend.all (fun p => decide (p < (arrival c s.now c.S d sl s.prevArrival - c.R) / c.S)) = true then
        ({ s with prevArrival := some (arrival c s.now c.S d sl s.prevArrival), pending := s.pending ++ [(arrival c s.now c.S d sl s.prevArrival, x)], inFlight := s.inFlight + 1, prevSend := some ((arrival c s.now c.S d sl s.prevArrival - c.R) / c.S) }, .delay (arrival c s.now c.S d sl s.prevArrival - s.now))
      else ({ s with prevArrival := some (arrival c s.now c.S d sl s.prevArrival), pending := s.pending ++ [(arrival c s.now c.S d sl s.prevArrival, x)], inFlight := s.inFlight + 1 }, .threw) := by
  unfold Port.send
  by_cases hedge : c.S ∣ s.now
  · rw [if_neg (by rw [ne_eq, Decidable.not_not]; exact Nat.mod_eq_zero_of_dvd hedge), if_neg (by exact fun h => h hedge)]
    obtain ⟨A, e, hA, hle, en⟩ := nextAvailable_eq hS hD (s := s) hi.prevOk hedge d 0
    rw [en]
    dsimp only
    rw [sendIn_eq hD s hi.prevOk, if_neg (by exact fun h => h hedge)]
    have eA : A = arrival c s.now c.S d true s.prevArrival := by
      have : beatArr c s.now d 0 (0 + 1) s.prevArrival = some (arrival c s.now c.S d true s.prevArrival) := rfl
      rw [this] at e
      injection e with e
      exact e.symm
    cases hl : s.later (arrival c s.now c.S d sl s.prevArrival) with
    | false => rw [if_pos rfl, if_pos rfl]
    | true =>
      rw [later_slide hl] at eA
      have nf : ¬ (true = false) := by simp
      rw [eA, if_neg nf, if_neg nf]
      by_cases hz : arrival c s.now c.S d sl s.prevArrival = s.now ∧ s.late = true
      · rw [if_pos hz, if_pos hz]
      · rw [if_neg hz, if_neg hz]
        dsimp only
        cases hps : s.prevSend with
        | none => rw [if_pos (by rfl)]
        | some p =>
          dsimp only
          by_cases hlt : p < (arrival c s.now c.S d sl s.prevArrival - c.R) / c.S
          · rw [if_pos hlt, if_pos (by simpa using hlt)]
          · rw [if_neg hlt, if_neg (by simpa using hlt)]
  · rw [if_pos (by intro h; exact hedge (Nat.dvd_of_mod_eq_zero h)), if_pos hedge]

theorem dvd_gap {D a b : Nat} (ha : D ∣ a) (hb : D ∣ b) (h : a < b) : a + D ≤ b := by
  obtain ⟨i, rfl⟩ := ha
  obtain ⟨j, rfl⟩ := hb
  have : i < j := Nat.lt_of_mul_lt_mul_left h
  calc D * i + D = D * (i + 1) := by rw [Nat.mul_add, Nat.mul_one]
    _ ≤ D * j := Nat.mul_le_mul_left _ this

/-- for a sender that is not slower than the receiver, the sending cycles increase -/
theorem prevSend_ok {c : Cfg} (hS : 0 < c.S) (hSD : c.S ≤ c.D) {s : Port α} (h : PS c s) {A : Nat} (hA : c.D ∣ A) (hl : s.later A = true) :
    s.prevSend.all (fun p => decide (p < (A - c.R) / c.S)) = true := by
  cases hp : s.prevSend with
  | none => rfl
  | some q =>
    obtain ⟨p, a, e, hap, hda, hRa, rfl⟩ := h q hp
    rw [later_iff] at hl
    have h1 := hl p e
    have h2 := dvd_gap hda hA (by omega)
    show decide _ = true
    rw [decide_eq_true_eq]
    have e : (a - c.R) / c.S + 1 = (a - c.R + c.S) / c.S := (Nat.add_div_right _ hS).symm
    have : (a - c.R + c.S) / c.S ≤ (A - c.R) / c.S := Nat.div_le_div_right (by omega)
    omega

theorem PS.grow {c : Cfg} {s s' : Port α} (h : PS c s) (e : s'.prevSend = s.prevSend) (hg : ∀ p, s.prevArrival = some p → ∃ p', s'.prevArrival = some p' ∧ p ≤ p') : PS c s' := by
  intro q hq
  rw [e] at hq
  obtain ⟨p, a, e1, e2, e3⟩ := h q hq
  obtain ⟨p', e4, e5⟩ := hg p e1
  exact ⟨p', a, e4, by omega, e3⟩

theorem PS.step {c : Cfg} (hS : 0 < c.S) (hD : 0 < c.D) {s : Port α} (hi : Inv c s) (h : PS c s) (o : Op α) : PS c (s.step c o).1 := by
  have grow : ∀ A, s.later A = true → ∀ p, s.prevArrival = some p → ∃ p', some A = some p' ∧ p ≤ p' := by
    intro A hA p hp
    rw [later_iff] at hA
    exact ⟨A, rfl, Nat.le_of_lt (hA p hp)⟩
  have same : ∀ p, s.prevArrival = some p → ∃ p', s.prevArrival = some p' ∧ p ≤ p' := fun p hp => ⟨p, hp, Nat.le_refl _⟩
  cases o with
  | send x d sl =>
    show PS c (s.send c x d sl).1
    rw [send_eq hS hD s hi]
    split
    · exact h
    · split
      · exact h
      · next hl =>
        rw [Bool.not_eq_false] at hl
        split
        · exact h.grow rfl (grow _ hl)
        · split
          · intro q hq
            injection hq with hq
            have := arrival_ge hD s.now c.S d sl s.prevArrival
            exact ⟨_, _, rfl, Nat.le_refl _, arrival_dvd hi.prevOk, by omega, hq.symm⟩
          · exact h.grow rfl (grow _ hl)
  | setReady b =>
    show PS c (s.setReady b).1
    unfold Port.setReady
    split
    · exact h.grow rfl same
    · split <;> exact h
  | deliver =>
    show PS c (s.deliver c).1
    rcases deliver_eq hi with ⟨_, e⟩ | ⟨x, rest, hp, hr, hl, e⟩
    · rw [e]; exact h
    · rw [e]
      have h' : PS c (s.taken rest) := h.grow rfl same
      split
      · exact h'
      · have hk := sendIn_keeps (c := c) (s.taken rest) x c.D 1 false
        have key : PS c ((s.taken rest).sendIn c x c.D 1 false).1 := by
          refine h'.grow hk.2.2.2.2.1 ?_
          rcases sendIn_effect hD (s.taken rest) hi.prevOk x c.D 1 false with ⟨e1, _⟩ | ⟨A, hA, e1, _⟩
          · rw [e1]; exact same
          · rw [e1]
            exact grow A hA
        split
        · next e2 => rw [e2] at key; exact key
        · next e2 =>
          rw [e2] at key
          split <;> exact key
  | pass =>
    rcases pass_eq hi with ⟨hn, e⟩ | e
    · rw [e]; exact h.grow rfl same
    · rw [e]; exact h
  | next =>
    rcases next_eq hi with ⟨hn, e⟩ | e
    · rw [e]; exact h.grow rfl same
    · rw [e]; exact h
  | _ => exact h

/-- the state after a history -/
def after (c : Cfg) (os : List (Op α)) : Port α := (runOps (Port.step c) (Port.init α c) os).1

theorem after_ok {c : Cfg} (hS : 0 < c.S) (hD : 0 < c.D) (os : List (Op α)) : Inv c (after c os) ∧ PS c (after c os) ∧ Clk c (after c os) (logOf c os) := by
  have := hist_induct c (fun s L => Inv c s ∧ PS c s ∧ Clk c s L) (fun _ => True) ⟨inv_init c, fun q h => (by cases h), clk_init c⟩
    (fun s L o ⟨a, b, d⟩ _ => ⟨a.step hD s o, b.step hS hD a o, d.step o a⟩) os fun _ _ => trivial
  exact this

theorem isDriven_eq {c : Cfg} (hD : 0 < c.D) {s : Port α} (hi : Inv c s) (rel : Nat) :
    s.isDriven c rel = if c.S ∣ s.now then some (!s.later (up c.D (s.now + (rel * c.S + c.R)))) else none := by
  unfold Port.isDriven
  rw [toReceive_eq hD _ _ _ _ _ hi.prevOk]
  split
  · rw [Option.map_some, arrival_noslide]
    have := up_ge hD (s.now + (rel * c.S + c.R))
    rw [show up c.D (s.now + (rel * c.S + c.R)) - s.now + s.now = up c.D (s.now + (rel * c.S + c.R)) by omega]
  · rfl

theorem couldAccept_eq {c : Cfg} (hD : 0 < c.D) (s : Port α) :
    s.couldAccept c = if c.S ∣ s.now then
        if s.latched = false then
          if c.portDelay = 1 ∨ c.portDelay = 0 then some (if s.inFlight > 0 ∨ c.portDelay = 0 then false else s.later (up c.D (s.now + (s.now + c.R)))) else none
        else some (s.later (up c.D (s.now + (s.now + c.R))))
      else none := by
  unfold Port.couldAccept
  rw [cross_eq hD]
  split
  · rw [Option.bind_some]
    have := up_ge hD (s.now + (s.now + c.R))
    rw [show up c.D (s.now + (s.now + c.R)) - s.now + s.now = up c.D (s.now + (s.now + c.R)) by omega]
  · rfl

end Sparta.SyncPort
