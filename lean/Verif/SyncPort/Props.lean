import Verif.SyncPort.Send
import Verif.Clock.Props
/-!
Properties C90–C92 of sync ports. `c.S` and `c.D` are the periods of the sender's and the receiver's clock in ticks, `c.R` the port delay in ticks.
-/
namespace Sparta.SyncPort
variable {α : Type}

/-! ### The clock-crossing functions are those of `Verif.Clock` -/

/-- the function used here agrees with the 64-bit one (C88) as long as nothing overflows -/
theorem cross_agrees (cur s d : BitVec 64) (sp dp : BitVec 32) (hs : 0 < sp.toNat) (hd : 0 < dp.toNat)
    (hfit : cur.toNat + s.toNat + d.toNat + dp.toNat < 2 ^ 64) :
    cross cur.toNat s.toNat sp.toNat d.toNat dp.toNat = (Clock.crossing cur s sp d dp).map (·.toNat) := by
  rw [cross_eq hd]
  have h := Clock.C88_crossing cur s d sp dp hs hd hfit
  by_cases hdv : sp.toNat ∣ cur.toNat
  · rw [if_pos hdv]
    obtain ⟨r, e⟩ := Option.isSome_iff_exists.1 (h.1.2 hdv)
    obtain ⟨h1, h2, h3⟩ := h.2 r e
    rw [e, Option.map_some]
    congr 1
    have hup := up_ge hd (cur.toNat + (s.toNat + d.toNat))
    have ha := h3 (up dp.toNat (cur.toNat + (s.toNat + d.toNat))) (up_dvd _ _) (by omega)
    have hb := up_least hd h1 (x := cur.toNat + (s.toNat + d.toNat)) (by omega)
    omega
  · rw [if_neg hdv]
    cases e : Clock.crossing cur s sp d dp with
    | none => rfl
    | some r => exact absurd (h.1.1 (by rw [e]; rfl)) hdv

theorem reverse_agrees (arr s d : BitVec 64) (sp dp : BitVec 32) (hs : 0 < sp.toNat) (hd : 0 < dp.toNat) (hfit : s.toNat + d.toNat ≤ arr.toNat) :
    reverse arr.toNat s.toNat sp.toNat d.toNat dp.toNat = (Clock.reverseCrossing arr s sp d dp).map (·.toNat) := by
  have h := Clock.C88_reverse arr s d sp dp hs hd hfit
  by_cases hdv : dp.toNat ∣ arr.toNat
  · rw [reverse_eq hdv hfit]
    obtain ⟨r, e⟩ := Option.isSome_iff_exists.1 (h.1.2 hdv)
    obtain ⟨h0, h1, h2, h3⟩ := h.2 r e
    rw [e, Option.map_some]
    congr 1
    have hle := Nat.div_mul_le_self (arr.toNat - (s.toNat + d.toNat)) sp.toNat
    have ha := h3 ((arr.toNat - (s.toNat + d.toNat)) / sp.toNat * sp.toNat) ⟨_, Nat.mul_comm _ _⟩ (by omega)
    have hb : arr.toNat - r.toNat ≤ (arr.toNat - (s.toNat + d.toNat)) / sp.toNat * sp.toNat := by
      obtain ⟨k, hk⟩ := h1
      rw [hk, Nat.mul_comm]
      apply Nat.mul_le_mul_right
      rw [Nat.le_div_iff_mul_le hs, Nat.mul_comm, ← hk]
      omega
    omega
  · unfold reverse
    rw [if_pos (by rw [ne_eq, divmul_eq_iff]; exact hdv)]
    cases e : Clock.reverseCrossing arr s sp d dp with
    | none => rfl
    | some r => exact absurd (h.1.1 (by rw [e]; rfl)) hdv

/-! ### C90: delivery -/

/-- C90: in every history in which no sending call and no delivery threw, what the consumer received before the current tick is exactly what was sent, each item once and unaltered and in
its tick: the tick of the call plus the returned delay, or, if the receiver was not ready then, the first of the ticks 1 + port delay cycles apart in which it was. -/
theorem C90_delivered (c : Cfg) (hD : 0 < c.D) (os : List (Op α)) (hq : Quiet c os) :
    ((logOf c os).dels.filter fun e => decide (e.1 < (logOf c os).now)).Perm ((logOf c os).expected c) := by
  obtain ⟨w, h⟩ := acc_hist hD os hq
  have hd := del_hist hD os
  exact h.expected hD hd.inv hd.clk

/-- a history for C90: period 1 and 1, port delay 1; the receiver is not ready in tick 2, so that 8 comes in tick 4 -/
def demo : List (Op Nat) := [.send 7 0 false, .next, .deliver, .setReady false, .isReady, .send 8 0 false, .next, .deliver, .setReady true, .isReady, .next, .next, .deliver, .next]

instance [DecidableEq α] (c : Cfg) (os : List (Op α)) : Decidable (Quiet c os) :=
  inferInstanceAs (Decidable (∀ e ∈ os.zip (runOps (Port.step c) (Port.init α c) os).2, e.1.moves = true → e.2 ≠ .threw))

example : Quiet ⟨1, 1, 1, true⟩ demo := by decide
example : (logOf ⟨1, 1, 1, true⟩ demo).expected ⟨1, 1, 1, true⟩ = [(1, 7), (4, 8)] := by decide

/-- C90: the consumer receives at most one item per cycle, and only on edges of its clock; in every history. -/
theorem C90_one_per_cycle (c : Cfg) (hD : 0 < c.D) (os : List (Op α)) :
    ((logOf c os).dels.Pairwise fun a b => a.1 + c.D ≤ b.1) ∧ ∀ d ∈ (logOf c os).dels, c.D ∣ d.1 := by
  have hd := del_hist hD os
  refine ⟨?_, hd.dvd⟩
  exact hd.sorted.imp_of_mem fun ha hb hab => dvd_gap (hd.dvd _ ha) (hd.dvd _ hb) hab

example : (logOf ⟨1, 1, 1, true⟩ demo).dels = [(1, 7), (4, 8)] := by decide

/-- C90: whether the input port is driven at all: exactly when something sent was not yet delivered. -/
theorem C90_isDriven_any (c : Cfg) (hD : 0 < c.D) (os : List (Op α)) (hq : Quiet c os) :
    ((after c os).step c .isDrivenIn).2 = .yes (decide ((logOf c os).dels.length < (logOf c os).sends.length)) := by
  obtain ⟨w, h⟩ := acc_hist hD os hq
  have h1 : w.length = (logOf c os).sends.length := by
    have := congrArg List.length h.sends
    rw [List.length_map, List.length_map] at this; exact this
  have h2 := h.dels.length_eq
  have h3 := h.pending.length_eq
  rw [List.length_map] at h2 h3
  have h4 : (w.filter (·.got)).length + (w.filter (fun e => !e.got)).length = w.length := by
    clear h h1 h2 h3
    induction w with
    | nil => rfl
    | cons a w ih =>
      cases hg : a.got with
      | true =>
        rw [List.filter_cons_of_pos (by exact hg), List.filter_cons_of_neg (by rw [hg]; simp), List.length_cons, List.length_cons]; omega
      | false =>
        rw [List.filter_cons_of_neg (by rw [hg]; simp), List.filter_cons_of_pos (by rw [hg]; rfl), List.length_cons, List.length_cons]; omega
  show Res.yes (!(after c os).pending.isEmpty) = _
  have h5 : (after c os).pending.length = (w.filter (fun e => !e.got)).length := h3.symm
  congr 1
  cases hp : (after c os).pending with
  | nil =>
    rw [hp] at h5
    have : ¬ (logOf c os).dels.length < (logOf c os).sends.length := by simp only [List.length_nil] at h5; omega
    rw [decide_eq_false this]; rfl
  | cons a l =>
    rw [hp] at h5
    have : (logOf c os).dels.length < (logOf c os).sends.length := by simp only [List.length_cons] at h5; omega
    rw [decide_eq_true this]; rfl

example : ((after ⟨1, 1, 1, true⟩ (demo.take 8)).step ⟨1, 1, 1, true⟩ .isDrivenIn).2 = .yes true := by decide

/-- C90: the returned delay leads to an edge of the receiver's clock, after the requested delay and the port delay; without sliding to the first such edge. In every history. -/
theorem C90_send_delay (c : Cfg) (hS : 0 < c.S) (hD : 0 < c.D) (os : List (Op α)) (x : α) (d : Nat) (sl : Bool) (r : Nat)
    (h : ((after c os).step c (.send x d sl)).2 = .delay r) :
    c.S ∣ (logOf c os).now ∧ c.D ∣ (logOf c os).now + r ∧ (logOf c os).now + d * c.S + c.R ≤ (logOf c os).now + r ∧
    (sl = false → ∀ T, c.D ∣ T → (logOf c os).now + d * c.S + c.R ≤ T → (logOf c os).now + r ≤ T) := by
  obtain ⟨hi, hps, hc⟩ := after_ok hS hD os
  rw [hc.now]
  have h : ((after c os).send c x d sl).2 = .delay r := h
  generalize after c os = s at *
  rcases send_sendIn (c := c) s x d sl with ⟨_, e⟩ | ⟨_, _, _, _, e⟩
  · rw [e] at h; cases h
  · have e := e r h
    rcases sendIn_effect hD s hi.prevOk x c.S d sl with ⟨_, _, e'⟩ | ⟨A, _, _, hA, hge, hedge, ⟨_, e', _⟩ | ⟨_, e', _⟩⟩
    · rw [e'] at e; cases e
    · rw [e'] at e; cases e
    · rw [e'] at e
      injection e with e
      have eA : s.now + r = A := by omega
      rw [eA]
      have hA1 := arrival_ge hD s.now c.S d sl s.prevArrival
      refine ⟨hedge, hA ▸ arrival_dvd hi.prevOk, by rw [hA]; omega, ?_⟩
      intro hsl T hT hle
      subst hsl
      rw [hA, arrival_noslide]
      exact up_least hD hT (by omega)

example : ((after ⟨2, 3, 3, true⟩ [.next, .next]).step ⟨2, 3, 3, true⟩ (.send 7 1 false)).2 = .delay 7 := by decide

/-! ### Order -/

/-- no sending call and no delivery threw, and the receiver was ready whenever data came -/
def Smooth (c : Cfg) (os : List (Op α)) : Prop :=
  ∀ e ∈ os.zip (runOps (Port.step c) (Port.init α c) os).2, (e.1.moves = true → e.2 ≠ .threw) ∧ e.2 ≠ .held

structure Ord (s : Port α) (L : Log α) : Prop where
  data : L.dels.map (·.2) ++ s.pending.map (·.2) = L.sends.map (·.2.2)
  last : s.prevArrival = L.sends.getLast?.map fun e => e.1 + e.2.1
  inc : L.sends.Pairwise fun a b => a.1 + a.2.1 < b.1 + b.2.1

theorem Ord.step {c : Cfg} (hS : 0 < c.S) (hD : 0 < c.D) {s : Port α} {L : Log α} (o : Op α) (hi : Inv c s) (hc : Clk c s L) (h : Ord s L)
    (hq : (o.moves = true → (s.step c o).2 ≠ .threw) ∧ (s.step c o).2 ≠ .held) : Ord (s.step c o).1 (L.add (o, (s.step c o).2)) := by
  cases o with
  | send x d sl =>
    have hq : (s.send c x d sl).2 ≠ .threw := hq.1 rfl
    show Ord (s.send c x d sl).1 (L.add (.send x d sl, (s.send c x d sl).2))
    rw [send_eq hS hD s hi] at hq ⊢
    have hge := arrival_ge hD s.now c.S d sl s.prevArrival
    generalize arrival c s.now c.S d sl s.prevArrival = A at hge hq ⊢
    split
    · next h1 => rw [if_pos h1] at hq; exact absurd rfl hq
    · next h1 =>
      rw [if_neg h1] at hq
      split
      · next h2 => rw [if_pos h2] at hq; exact absurd rfl hq
      · next h2 =>
        rw [if_neg h2] at hq
        split
        · next h3 => rw [if_pos h3] at hq; exact absurd rfl hq
        · next h3 =>
          rw [if_neg h3] at hq
          split
          · have eA : L.now + (A - s.now) = A := by rw [hc.now]; omega
            refine ⟨?_, ?_, ?_⟩
            · show L.dels.map (·.2) ++ (s.pending ++ [(A, x)]).map (·.2) = (L.sends ++ [(L.now, A - s.now, x)]).map (·.2.2)
              rw [List.map_append, List.map_append, ← List.append_assoc, h.data]; rfl
            · show some A = (L.sends ++ [(L.now, A - s.now, x)]).getLast?.map _
              rw [List.getLast?_append]
              show some A = some (L.now + (A - s.now))
              rw [eA]
            · show (L.sends ++ [(L.now, A - s.now, x)]).Pairwise _
              rw [List.pairwise_append]
              refine ⟨h.inc, List.pairwise_singleton _ _, ?_⟩
              intro a ha b hb
              rw [List.mem_singleton] at hb; subst hb
              show a.1 + a.2.1 < L.now + (A - s.now)
              rw [eA]
              rw [Bool.not_eq_false, later_iff] at h2
              cases hl : L.sends.getLast? with
              | none => rw [List.getLast?_eq_none_iff] at hl; rw [hl] at ha; cases ha
              | some l =>
                have hp := h.last
                rw [hl] at hp
                have hlt := h2 _ hp
                obtain ⟨ys, hys⟩ := List.getLast?_eq_some_iff.1 hl
                have hinc := h.inc
                rw [hys, List.pairwise_append] at hinc
                rw [hys] at ha
                rcases List.mem_append.1 ha with ha | ha
                · have := hinc.2.2 a ha l List.mem_cons_self
                  have hlt : l.1 + l.2.1 < A := hlt
                  exact Nat.lt_trans this hlt
                · rw [List.mem_singleton] at ha; subst ha; exact hlt
          · next h4 => rw [if_neg h4] at hq; exact absurd rfl hq
  | setReady b =>
    show Ord (s.setReady b).1 (L.add (.setReady b, (s.setReady b).2))
    have hd : (L.add (.setReady b, (s.setReady b).2)).dels = L.dels ∧ (L.add (.setReady b, (s.setReady b).2)).sends = L.sends := by
      cases (s.setReady b).2 <;> exact ⟨rfl, rfl⟩
    have hs : (s.setReady b).1.prevArrival = s.prevArrival ∧ (s.setReady b).1.pending = s.pending := by
      unfold Port.setReady; split
      · exact ⟨rfl, rfl⟩
      · split <;> exact ⟨rfl, rfl⟩
    refine ⟨?_, ?_, ?_⟩
    · rw [hd.1, hd.2, hs.2]; exact h.data
    · rw [hd.2, hs.1]; exact h.last
    · rw [hd.2]; exact h.inc
  | deliver =>
    have hq1 : (s.deliver c).2 ≠ .threw := hq.1 rfl
    have hq2 : (s.deliver c).2 ≠ .held := hq.2
    show Ord (s.deliver c).1 (L.add (.deliver, (s.deliver c).2))
    rcases deliver_cases hD hi with ⟨_, e⟩ | ⟨x, rest, hp, hr, hl, ⟨h1, e⟩ | ⟨h1, h2, e⟩ | ⟨h1, h2, e⟩⟩
    · rw [e]; exact h
    · rw [e]
      refine ⟨?_, h.last, h.inc⟩
      show (L.dels ++ [(L.now, x)]).map (·.2) ++ rest.map (·.2) = L.sends.map (·.2.2)
      have := h.data
      rw [hp] at this
      rw [List.map_append, List.append_assoc]
      exact this
    · rw [e] at hq2; exact absurd rfl hq2
    · exact absurd e hq1
  | pass =>
    rcases pass_eq hi with ⟨hn, e⟩ | e
    · rw [e]; exact ⟨h.data, h.last, h.inc⟩
    · rw [e]; exact h
  | next =>
    rcases next_eq hi with ⟨hn, e⟩ | e
    · rw [e]; exact ⟨h.data, h.last, h.inc⟩
    · rw [e]; exact h
  | isReady => obtain ⟨e1, e2⟩ := asks (c := c) s L .isReady trivial; rw [e1, e2]; exact h
  | isReadyPS => obtain ⟨e1, e2⟩ := asks (c := c) s L .isReadyPS trivial; rw [e1, e2]; exact h
  | isDriven r => obtain ⟨e1, e2⟩ := asks (c := c) s L (.isDriven r) trivial; rw [e1, e2]; exact h
  | isDrivenIn => exact h
  | nextAvailable d n => obtain ⟨e1, e2⟩ := asks (c := c) s L (.nextAvailable d n) trivial; rw [e1, e2]; exact h
  | getReady => exact h

theorem ord_hist {c : Cfg} (hS : 0 < c.S) (hD : 0 < c.D) (os : List (Op α)) (hq : Smooth c os) : Ord (after c os) (logOf c os) :=
  (hist_induct c (fun s L => Inv c s ∧ Clk c s L ∧ Ord s L) (fun e => (e.1.moves = true → e.2 ≠ .threw) ∧ e.2 ≠ .held)
    ⟨inv_init c, clk_init c, rfl, rfl, .nil⟩ (fun s L o ⟨hi, hc, h⟩ hq => ⟨hi.step hD s o, hc.step o hi, h.step hS hD o hi hc hq⟩) os hq).2.2

/-- C90: as long as the receiver is ready whenever data comes, data is delivered in the order of the sends. -/
theorem C90_order_partial (c : Cfg) (hS : 0 < c.S) (hD : 0 < c.D) (os : List (Op α)) (hq : Smooth c os) :
    ((logOf c os).dels.map (·.2)) <+: ((logOf c os).sends.map (·.2.2)) :=
  ⟨_, (ord_hist hS hD os hq).data⟩

/-- C90: under the same condition the returned delay leads to the first edge of the receiver's clock after the requested delays and after everything sent before; with or without sliding. -/
theorem C90_slide_partial (c : Cfg) (hS : 0 < c.S) (hD : 0 < c.D) (os : List (Op α)) (hq : Smooth c os) (x : α) (d : Nat) (sl : Bool) (r : Nat)
    (h : ((after c os).step c (.send x d sl)).2 = .delay r) :
    (∀ e ∈ (logOf c os).sends, e.1 + e.2.1 < (logOf c os).now + r) ∧
    ∀ T, c.D ∣ T → (logOf c os).now + d * c.S + c.R ≤ T → (∀ e ∈ (logOf c os).sends, e.1 + e.2.1 < T) → (logOf c os).now + r ≤ T := by
  obtain ⟨hi, hps, hc⟩ := after_ok hS hD os
  have ho := ord_hist hS hD os hq
  have hn := hc.now
  have h : ((after c os).send c x d sl).2 = .delay r := h
  generalize after c os = s at *
  have ho' := ho.step hS hD (.send x d sl) hi hc ⟨fun _ => by show (s.send c x d sl).2 ≠ _; rw [h]; simp, by show (s.send c x d sl).2 ≠ _; rw [h]; simp⟩
  have hinc := ho'.inc
  have e : (s.step c (.send x d sl)).2 = .delay r := h
  rw [e] at hinc
  have hinc : ((logOf c os).sends ++ [((logOf c os).now, r, x)]).Pairwise _ := hinc
  rw [List.pairwise_append] at hinc
  refine ⟨fun e he => hinc.2.2 e he _ List.mem_cons_self, ?_⟩
  intro T hT hle hall
  rcases send_sendIn (c := c) s x d sl with ⟨_, e⟩ | ⟨_, _, _, _, e⟩
  · rw [e] at h; cases h
  · have e := e r h
    rcases sendIn_effect hD s hi.prevOk x c.S d sl with ⟨_, _, e'⟩ | ⟨A, _, _, hA, hge, hedge, ⟨_, e', _⟩ | ⟨_, e', _⟩⟩
    · rw [e'] at e; cases e
    · rw [e'] at e; cases e
    · rw [e'] at e
      injection e with e
      have eA : s.now + r = A := by omega
      rw [hn] at hle ⊢
      rw [eA, hA]
      have hup := up_least hD hT (x := s.now + (d * c.S + c.R)) (by omega)
      unfold arrival
      split
      · next p hp =>
        split
        · have : p < T := by
            have hl := ho.last
            rw [hp] at hl
            cases hg : (logOf c os).sends.getLast? with
            | none => rw [hg] at hl; cases hl
            | some l =>
              rw [hg] at hl
              injection hl with hl
              rw [hl]
              exact hall l (List.mem_of_getLast? hg)
          exact dvd_gap (hi.prevOk p hp) hT this
        · exact hup
      · exact hup

def demo2 : List (Op Nat) := [.send 7 0 true, .send 8 0 true, .next, .next, .next, .deliver]

instance [DecidableEq α] (c : Cfg) (os : List (Op α)) : Decidable (Smooth c os) :=
  inferInstanceAs (Decidable (∀ e ∈ os.zip (runOps (Port.step c) (Port.init α c) os).2, (e.1.moves = true → e.2 ≠ .threw) ∧ e.2 ≠ .held))

example : Smooth ⟨1, 2, 1, true⟩ demo2 ∧ (logOf ⟨1, 2, 1, true⟩ demo2).sends = [(0, 2, 7), (0, 4, 8)] := by decide

/-- C90 is violated (order): a receiver that is not ready for one cycle gets 8 before 7, although `isReady` was true before both sends (periods 1,
port delay 2). -/
theorem C90_order_violated : ∃ os : List (Op Nat), Quiet ⟨1, 1, 2, true⟩ os ∧ (logOf ⟨1, 1, 2, true⟩ os).sends.map (·.2.2) = [7, 8] ∧
    (logOf ⟨1, 1, 2, true⟩ os).dels.map (·.2) = [8, 7] ∧ ∀ i, os[i]? = some (.send 7 0 false) ∨ os[i]? = some (.send 8 0 false) →
      ((after ⟨1, 1, 2, true⟩ (os.take i)).step ⟨1, 1, 2, true⟩ .isReady).2 = .yes true := by
  refine ⟨[.send 7 0 false, .next, .setReady false, .send 8 0 false, .next, .deliver, .setReady true, .next, .deliver, .next, .next, .deliver], by decide, by decide, by decide, ?_⟩
  intro i hi
  have : i = 0 ∨ i = 3 := by
    by_cases h : i < 12
    · have := (by decide : ∀ i : Fin 12, ([.send 7 0 false, .next, .setReady false, .send 8 0 false, .next, .deliver, .setReady true, .next, .deliver, .next, .next, .deliver] : List (Op Nat))[i.1]? = some (.send 7 0 false) ∨
        ([.send 7 0 false, .next, .setReady false, .send 8 0 false, .next, .deliver, .setReady true, .next, .deliver, .next, .next, .deliver] : List (Op Nat))[i.1]? = some (.send 8 0 false) → i.1 = 0 ∨ i.1 = 3)
      exact this ⟨i, h⟩ hi
    · rw [List.getElem?_eq_none (by simpa using h)] at hi
      simp at hi
  rcases this with rfl | rfl <;> decide

/-- C90 is violated (loss): the item that finds the receiver not ready is lost when the port is also driven in the cycle of its next attempt; the exception comes out of the delivery. -/
theorem C90_lost_violated : ∃ os : List (Op Nat), (after ⟨1, 1, 0, true⟩ os).pending = [(4, 8)] ∧ (logOf ⟨1, 1, 0, true⟩ os).dels = [] ∧
    (logOf ⟨1, 1, 0, true⟩ os).sends = [(0, 3, 7), (1, 3, 8)] ∧ ((runOps (Port.step ⟨1, 1, 0, true⟩) (Port.init Nat ⟨1, 1, 0, true⟩) os).2).getLast? = some .threw :=
  ⟨[.send 7 3 false, .next, .isReady, .send 8 3 false, .next, .setReady false, .next, .deliver], by decide, by decide, by decide, by decide⟩

/-- C90 is violated (exception although sent): from a slow to a fast clock, a second send with sliding in the same cycle throws, and its data is delivered nevertheless. -/
theorem C90_thrown_violated : ∃ os : List (Op Nat), (runOps (Port.step ⟨10, 1, 0, true⟩) (Port.init Nat ⟨10, 1, 0, true⟩) os).2 =
    [.delay 0, .threw, .got 7, .done, .got 8] :=
  ⟨[.send 7 0 true, .send 8 0 true, .deliver, .next, .deliver], by decide⟩

/-! ### C91: asking before sending -/

/-- C91: for a sender that is not slower than the receiver, a send succeeds on an edge of the sender's clock if sliding is allowed or `isDriven` (with the same delay) is false, except when it
has to be delivered in this tick and the scheduler is past the delivery; if `isDriven` is true, a send without sliding throws. -/
theorem C91_isDriven (c : Cfg) (hS : 0 < c.S) (hSD : c.S ≤ c.D) (os : List (Op α)) (x : α) (d : Nat) (sl : Bool) :
    (((after c os).step c (.isDriven d)).2 = .threw ↔ ¬ c.S ∣ (logOf c os).now) ∧
    (((after c os).step c (.isDriven d)).2 = .yes true → ((after c os).step c (.send x d false)).2 = .threw) ∧
    (c.S ∣ (logOf c os).now → sl = true ∨ ((after c os).step c (.isDriven d)).2 = .yes false → (after c os).late = false ∨ 0 < d * c.S + c.R →
      ∃ r, ((after c os).step c (.send x d sl)).2 = .delay r) := by
  have hD : 0 < c.D := by omega
  obtain ⟨hi, hps, hc⟩ := after_ok hS hD os
  rw [hc.now]
  generalize after c os = s at *
  have e1 : (s.step c (.isDriven d)).2 = match s.isDriven c d with | some b => .yes b | none => .threw := rfl
  have e2 : ∀ sl, (s.step c (.send x d sl)).2 = (s.send c x d sl).2 := fun _ => rfl
  rw [e1, e2, e2, isDriven_eq hD hi, send_eq hS hD s hi, send_eq hS hD s hi, arrival_noslide]
  by_cases hedge : c.S ∣ s.now
  · have hne : ¬ ¬ c.S ∣ s.now := fun h => h hedge
    rw [if_pos hedge, if_neg hne, if_neg hne]
    refine ⟨⟨(fun h => by cases h), (fun h => absurd hedge h)⟩, ?_, ?_⟩
    · intro h
      have h : (!s.later (up c.D (s.now + (d * c.S + c.R)))) = true := by injection h
      rw [if_pos (by simpa using h)]
    · intro _ h1 h2
      have hl : s.later (arrival c s.now c.S d sl s.prevArrival) = true := by
        rcases h1 with h1 | h1
        · subst h1
          rw [later_iff]
          intro p hp
          rw [hp]
          exact arrival_slide_later hD
        · have h1 : (!s.later (up c.D (s.now + (d * c.S + c.R)))) = false := by injection h1
          rw [Bool.not_eq_false'] at h1
          rw [later_iff] at h1 ⊢
          intro p hp
          exact Nat.lt_of_lt_of_le (h1 p hp) (arrival_up_le _ _ _ _ _)
      have hge := arrival_ge hD s.now c.S d sl s.prevArrival
      have hz : ¬ (arrival c s.now c.S d sl s.prevArrival = s.now ∧ s.late = true) := by
        rintro ⟨a, b⟩
        rcases h2 with h2 | h2
        · rw [h2] at b; cases b
        · omega
      have hps := prevSend_ok hS hSD hps (arrival_dvd (now := s.now) (P := c.S) (delay := d) (slide := sl) hi.prevOk) hl
      rw [if_neg (by rw [hl]; simp), if_neg hz, if_pos hps]
      exact ⟨_, rfl⟩
  · rw [if_neg hedge]
    exact ⟨⟨fun _ => hedge, fun _ => rfl⟩, (fun h => by cases h), (fun h => absurd h hedge)⟩

example : ((after ⟨1, 2, 2, true⟩ ([.send 7 0 false, .next] : List (Op Nat))).step ⟨1, 2, 2, true⟩ (.isDriven 0)).2 = .yes false ∧
    ((after ⟨1, 2, 2, true⟩ ([.next, .send 7 0 false, .next] : List (Op Nat))).step ⟨1, 2, 2, true⟩ (.isDriven 0)).2 = .yes true := by decide

/-- C91 (what a false `isReady` means): a send now would throw, or the receiver is not ready and has something outstanding or no port delay. For port delays above one cycle it throws when the
receiver is not ready. -/
theorem C91_isReady_false (c : Cfg) (hS : 0 < c.S) (hD : 0 < c.D) (os : List (Op α)) (x : α)
    (h : ((after c os).step c .isReady).2 = .yes false) :
    ((after c os).step c (.send x 0 false)).2 = .threw ∨ ((logOf c os).readyAt c (logOf c os).now = false ∧ (((after c os).step c .isDrivenIn).2 = .yes true ∨ c.R = 0)) := by
  obtain ⟨hi, hps, hc⟩ := after_ok hS hD os
  rw [hc.now, hc.here]
  generalize after c os = s at *
  have e1 : (s.step c .isReady).2 = match s.couldAccept c with | some b => .yes b | none => .threw := rfl
  rw [e1, couldAccept_eq hD] at h
  have key : s.later (up c.D (s.now + (s.now + c.R))) = false → (s.step c (.send x 0 false)).2 = .threw := by
    intro hl
    show (s.send c x 0 false).2 = _
    rw [send_eq hS hD s hi, arrival_noslide]
    split
    · rfl
    · rw [if_pos]
      rw [← Bool.not_eq_true, later_iff] at hl ⊢
      intro hall
      apply hl
      intro p hp
      refine Nat.lt_of_lt_of_le (hall p hp) (up_least hD (up_dvd _ _) ?_)
      have := up_ge hD (s.now + (s.now + c.R))
      omega
  by_cases h1 : c.S ∣ s.now
  · rw [if_pos h1] at h
    by_cases h2 : s.latched = false
    · rw [if_pos h2] at h
      by_cases h3 : c.portDelay = 1 ∨ c.portDelay = 0
      · rw [if_pos h3] at h
        by_cases h4 : s.inFlight > 0 ∨ c.portDelay = 0
        · right
          refine ⟨h2, ?_⟩
          rcases h4 with h4 | h4
          · left
            show Res.yes (!s.pending.isEmpty) = _
            rw [hi.count] at h4
            cases hp : s.pending with
            | nil => rw [hp] at h4; exact absurd h4 (by simp)
            | cons a l => rfl
          · right
            unfold Cfg.portDelay at h4
            rw [Nat.div_eq_zero_iff] at h4
            omega
        · rw [if_neg h4] at h
          left
          exact key (by injection h)
      · rw [if_neg h3] at h; cases h
    · rw [if_neg h2] at h
      left
      exact key (by injection h)
  · rw [if_neg h1] at h; cases h

example : ((after ⟨1, 1, 1, true⟩ (demo.take 7)).step ⟨1, 1, 1, true⟩ .isReady).2 = .yes false := by decide

/-- C91 is violated: `isReady` takes the current tick for a delay, so that it is true although a send throws: in tick 3 the port is ready and driven for tick 4 by data that was sent again. -/
theorem C91_isReady_violated : ∃ os : List (Op Nat), ((after ⟨1, 1, 1, true⟩ os).step ⟨1, 1, 1, true⟩ .isReady).2 = .yes true ∧
    ((after ⟨1, 1, 1, true⟩ os).step ⟨1, 1, 1, true⟩ (.send 9 0 false)).2 = .threw :=
  ⟨[.send 7 0 false, .next, .deliver, .setReady false, .send 8 0 false, .next, .deliver, .setReady true, .next], by decide, by decide⟩

/-- C91 is violated: `isReady` is true for a second send in the same cycle. -/
theorem C91_isReady_twice_violated : ∃ os : List (Op Nat), (logOf ⟨1, 1, 1, true⟩ os).sends = [(2, 1, 7)] ∧ (logOf ⟨1, 1, 1, true⟩ os).now = 2 ∧
    ((after ⟨1, 1, 1, true⟩ os).step ⟨1, 1, 1, true⟩ .isReady).2 = .yes true ∧ ((after ⟨1, 1, 1, true⟩ os).step ⟨1, 1, 1, true⟩ (.send 9 0 false)).2 = .threw :=
  ⟨[.next, .next, .send 7 0 false], by decide, by decide, by decide, by decide⟩

/-- C91: the state of `ready` set in a tick is what `getReady` shows from then on, and what decides on deliveries from the next tick on. -/
theorem C91_setReady (c : Cfg) (hS : 0 < c.S) (hD : 0 < c.D) (os : List (Op α)) (b : Bool) (h : ((after c os).step c (.setReady b)).2 = .done) :
    ((after c (os ++ [.setReady b])).step c .getReady).2 = .yes b ∧ ((after c (os ++ [.setReady b])).latched = (after c os).latched) ∧
    ∀ T, (logOf c os).now < T → (logOf c (os ++ [.setReady b])).readyAt c T = b := by
  have e : after c (os ++ [.setReady b]) = ((after c os).step c (.setReady b)).1 := by
    unfold after; rw [runOps_append]; rfl
  obtain ⟨hi, _, hc⟩ := after_ok hS hD os
  obtain ⟨_, _, hc'⟩ := after_ok hS hD (os ++ [Op.setReady b])
  rw [e] at hc' ⊢
  have hcur : ((after c os).setReady b).1.cur = b ∧ ((after c os).setReady b).1.now = (after c os).now ∧
      ((after c os).setReady b).1.latched = (after c os).latched := by
    have h : ((after c os).setReady b).2 = .done := h
    revert h
    unfold Port.setReady
    split
    · next hgt =>
      intro _
      refine ⟨rfl, rfl, ?_⟩
      rw [latched_eq (by exact Nat.le_refl _), if_pos rfl, latched_eq hi.setTick, if_neg (by omega)]
    · split
      · next hq => intro _; exact ⟨hq.2.symm, rfl, rfl⟩
      · intro h; cases h
  refine ⟨congrArg Res.yes hcur.1, hcur.2.2, ?_⟩
  intro T hT
  have := hc'.later T (by show ((after c os).setReady b).1.now < T; rw [hcur.2.1, ← hc.now]; exact hT)
  rw [this]
  exact hcur.1

example : ((after ⟨1, 1, 1, true⟩ ([.next] : List (Op Nat))).step ⟨1, 1, 1, true⟩ (.setReady false)).2 = .done := by decide

end Sparta.SyncPort
