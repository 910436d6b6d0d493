import Verif.SyncPort.Protocol
/-!
Properties C91 (protocol) and C92 of sync ports.
-/
namespace Sparta.SyncPort
variable {α : Type}

/-- C91: for clocks of one period and a port delay of zero or one cycle, a sender that sends only in cycles in which `isReady` is true and `isDriven` is false (and only without extra delay)
never gets an exception from a send, nor the scheduler from a delivery; data is delivered in the order of the sends; and with port delay zero the receiver is always ready for it. -/
theorem C91_protocol_partial (c : Cfg) (hD : 0 < c.D) (hSD : c.S = c.D) (hR : c.R = 0 ∨ c.R = c.D) (os : List (Op α))
    (hl : legalOps (Port.step c) (Polite c) (Port.init α c) os) :
    Quiet c os ∧ (logOf c os).dels.map (·.2) <+: (logOf c os).sends.map (·.2.2) ∧ (c.R = 0 → Smooth c os) := by
  have hS : 0 < c.S := by omega
  obtain ⟨h, hq⟩ := hist_legal c (Polite c) (PI c) (fun e => (e.1.moves = true → e.2 ≠ .threw) ∧ (c.R = 0 → e.2 ≠ .held))
    ⟨inv_init c, fun q h => (by cases h), clk_init c, trivial, fun p h => (by cases h), rfl⟩
    (fun s L o h hp => h.step hD hSD hR o hp) os hl
  exact ⟨fun e he => (hq e he).1, ⟨_, h.data⟩, fun hR e he => ⟨(hq e he).1, (hq e he).2 hR⟩⟩

instance (c : Cfg) (s : Port Nat) (o : Op Nat) : Decidable (Polite c s o) := by
  cases o <;> unfold Polite <;> infer_instance

def demo3 : List (Op Nat) := [.send 7 0 false, .next, .next, .deliver, .setReady false, .send 8 0 false, .next, .next, .deliver, .setReady true, .next, .next, .next, .next, .deliver, .send 9 0 false, .next, .next, .deliver]

example : legalOps (Port.step ⟨2, 2, 2, true⟩) (Polite ⟨2, 2, 2, true⟩) (Port.init Nat ⟨2, 2, 2, true⟩) demo3 ∧
    (logOf ⟨2, 2, 2, true⟩ demo3).dels = [(2, 7), (8, 8), (10, 9)] := by decide

/-- C92: the first cycle available is reported exactly on edges of the sender's clock; it leaves the port as it was. -/
theorem C92_no_throw (c : Cfg) (hS : 0 < c.S) (hD : 0 < c.D) (os : List (Op α)) (d n : Nat) :
    (((after c os).step c (.nextAvailable d n)).2 = .threw ↔ ¬ c.S ∣ (logOf c os).now) ∧ ((after c os).step c (.nextAvailable d n)).1 = after c os := by
  obtain ⟨hi, hps, hc⟩ := after_ok hS hD os
  rw [hc.now]
  refine ⟨?_, rfl⟩
  show (match (after c os).nextAvailable c d n with | some k => Res.cycle k | none => .threw) = .threw ↔ _
  by_cases hedge : c.S ∣ (after c os).now
  · obtain ⟨A, _, _, _, e⟩ := nextAvailable_eq hS hD hi.prevOk hedge d n
    rw [e]
    exact ⟨(fun h => by cases h), (fun h => absurd hedge h)⟩
  · rw [nextAvailable_off hedge]
    exact ⟨(fun _ => hedge), (fun _ => rfl)⟩

/-- C92: for a sender that is not slower than the receiver, `computeNextAvailableCycleForSend(d, n)` is the cycle in which the last of `n + 1` items sent with sliding one cycle apart, from
delay `d` on, would have to be sent in order to arrive when it does: sending them gives no exception, and the cycle is the tick of arrival of the last one less the port delay. -/
theorem C92_available (c : Cfg) (hS : 0 < c.S) (hSD : c.S ≤ c.D) (os : List (Op α)) (hedge : c.S ∣ (logOf c os).now) (hl : (after c os).late = false) (d n : Nat) (x : Nat → α) :
    ∃ (rs : List Nat) (r : Nat), rs.length = n + 1 ∧ (runOps (Port.step c) (after c os) ((List.range (n + 1)).map fun i => .send (x i) (d + i) true)).2 = rs.map .delay ∧ rs.getLast? = some r ∧
      ((after c os).step c (.nextAvailable d n)).2 = .cycle (((logOf c os).now + r - c.R) / c.S) := by
  have hD : 0 < c.D := by omega
  obtain ⟨hi, hps, hc⟩ := after_ok hS hD os
  rw [hc.now] at hedge ⊢
  obtain ⟨rs, h1, h2, h3⟩ := row_eq hS hSD x d (n + 1) 0 _ hi hps hedge hl
  obtain ⟨A, e1, _, _, e⟩ := nextAvailable_eq hS hD hi.prevOk hedge d n
  cases hg : rs.getLast? with
  | none => rw [List.getLast?_eq_none_iff] at hg; rw [hg] at h1; cases h1
  | some r =>
    rw [hg, e1] at h3
    injection h3 with h3
    refine ⟨rs, r, h1, by rw [List.range_eq_range']; exact h2, hg, ?_⟩
    show (match (after c os).nextAvailable c d n with | some k => Res.cycle k | none => .threw) = _
    rw [e, h3]

/-- C92, for a receiver's period and a port delay that are multiples of the sender's period: the item arrives exactly the port delay after the reported cycle. -/
theorem C92_exact (c : Cfg) (hS : 0 < c.S) (hD : 0 < c.D) (hSD : c.S ∣ c.D) (hSR : c.S ∣ c.R) (os : List (Op α)) (d n k : Nat)
    (h : ((after c os).step c (.nextAvailable d n)).2 = .cycle k) (hl : (after c os).late = false) (x : Nat → α) :
    ∃ (rs : List Nat) (r : Nat), (runOps (Port.step c) (after c os) ((List.range (n + 1)).map fun i => .send (x i) (d + i) true)).2 = rs.map .delay ∧ rs.getLast? = some r ∧
      k * c.S + c.R = (logOf c os).now + r := by
  have hedge : c.S ∣ (logOf c os).now := by
    apply Decidable.not_not.1
    intro hn
    rw [(C92_no_throw c hS hD os d n).1.2 hn] at h; cases h
  obtain ⟨hi, hps, hc⟩ := after_ok hS hD os
  rw [hc.now] at hedge ⊢
  obtain ⟨rs, h1, h2, h3⟩ := row_eq hS (Nat.le_of_dvd hD hSD) x d (n + 1) 0 _ hi hps hedge hl
  obtain ⟨A, e1, hA, hle, e⟩ := nextAvailable_eq hS hD hi.prevOk hedge d n
  have h : (match (after c os).nextAvailable c d n with | some k => Res.cycle k | none => .threw) = .cycle k := h
  rw [e] at h
  injection h with h
  cases hg : rs.getLast? with
  | none => rw [List.getLast?_eq_none_iff] at hg; rw [hg] at h1; cases h1
  | some r =>
    rw [hg, e1] at h3
    injection h3 with h3
    refine ⟨rs, r, by rw [List.range_eq_range']; exact h2, hg, ?_⟩
    rw [← h, Nat.div_mul_cancel (Nat.dvd_sub (Nat.dvd_trans hSD hA) hSR)]
    omega

example : ((after ⟨2, 4, 2, true⟩ ([.send 7 3 false] : List (Op Nat))).step ⟨2, 4, 2, true⟩ (.nextAvailable 1 1)).2 = .cycle 7 := by decide

/-- C92, for any two clocks: if the beats can be sent at all, the prediction is right. -/
theorem C92_if_sent (c : Cfg) (hS : 0 < c.S) (hD : 0 < c.D) (os : List (Op α)) (d n r : Nat) (rs : List Nat) (x : Nat → α) (hedge : c.S ∣ (logOf c os).now)
    (h : (runOps (Port.step c) (after c os) ((List.range (n + 1)).map fun i => .send (x i) (d + i) true)).2 = rs.map .delay) (hr : rs.getLast? = some r) :
    ((after c os).step c (.nextAvailable d n)).2 = .cycle (((logOf c os).now + r - c.R) / c.S) := by
  obtain ⟨hi, hps, hc⟩ := after_ok hS hD os
  rw [hc.now] at hedge ⊢
  rw [List.range_eq_range'] at h
  have h3 := row_of hS hD x d (n + 1) 0 _ rs hi hedge h
  obtain ⟨A, e1, _, _, e⟩ := nextAvailable_eq hS hD hi.prevOk hedge d n
  rw [hr, e1] at h3
  injection h3 with h3
  show (match (after c os).nextAvailable c d n with | some k => Res.cycle k | none => .threw) = _
  rw [e, h3]

example : (runOps (Port.step ⟨3, 2, 1, true⟩) (after ⟨3, 2, 1, true⟩ ([] : List (Op Nat))) ((List.range 3).map fun i => .send i (1 + i) true)).2 = [4, 8, 10].map .delay := by decide

/-- C92 is violated from a slow to a fast clock: the current cycle is reported as available but a send throws. -/
theorem C92_available_violated : ∃ os : List (Op Nat), (logOf ⟨10, 1, 0, true⟩ os).now = 0 ∧ ((after ⟨10, 1, 0, true⟩ os).step ⟨10, 1, 0, true⟩ (.nextAvailable 0 0)).2 = .cycle 0 ∧
    ∀ sl, ((after ⟨10, 1, 0, true⟩ os).step ⟨10, 1, 0, true⟩ (.send 8 0 sl)).2 = .threw :=
  ⟨[.send 7 0 false], by decide, by decide, by decide⟩

end Sparta.SyncPort
