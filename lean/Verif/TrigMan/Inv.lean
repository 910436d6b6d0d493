import Verif.TrigMan.Spec
/-! The states of the code and of the promise that belong together, and the two basic moves: a trigger is entered, a
trigger is taken off. -/
namespace Sparta.TrigMan

/-- the tick in progress: clock, the triggers registered when it began, those still to be looked at -/
abbrev Tick := Option (Nat × List Nat × List Nat)

structure TrigRel (r : Ref) (t : Nat) (g : Trig) (i : Info) : Prop where
  clk : g.clk = i.clk
  ctr : g.ctr = i.ctr
  point : g.point = i.point
  cb : g.cb = i.cb
  fired : g.fired = i.fired
  active : g.active = r.active.contains t
  target : r.started = false → g.target = t

structure Idle (s : St) (r : Ref) (d : Nat) (h : Handler) : Prop where
  inTick : h.inTick = false
  toRem : h.toRem = []
  toAdd : h.toAdd = []
  trigs : h.trigs = r.on d
  pend : s.pend d = [h.hid]

structure Busy (s : St) (r : Ref) (d : Nat) (h : Handler) (L todo : List Nat) : Prop where
  inTick : h.inTick = true
  pend : s.pend d = []
  trigs : h.trigs = L
  nodup : L.Nodup
  on : r.on d = L.filter (fun t => !h.toRem.contains t) ++ h.toAdd
  left : ∀ t ∈ todo, t ∈ L ∧ t ∉ h.toRem ∧ t ∉ h.toAdd
  leftND : todo.Nodup
  fresh : ∀ t, t ∈ h.toAdd ↔ t ∈ r.fresh ∧ r.clkOf t = some d

def HRel (s : St) (r : Ref) (k : Tick) (d : Nat) : Prop :=
  match s.hnd d with
  | none => d ∉ r.ticking ∧ r.on d = [] ∧ s.pend d = [] ∧ (∀ L td, k ≠ some (d, L, td))
  | some h => d ∈ r.ticking ∧ (∀ L td, k = some (d, L, td) → Busy s r d h L td) ∧
      ((∀ L td, k ≠ some (d, L, td)) → Idle s r d h)

structure Inv (s : St) (r : Ref) (k : Tick) : Prop where
  fin : s.fin = r.fin
  startup : s.startup = r.waiting
  next : s.nextT = r.next
  ctr : s.ctr = r.ctr
  log : s.log = r.log
  alive : s.dead = false
  trigNone : ∀ t, r.info t = none → s.trig t = none
  trigSome : ∀ t i, r.info t = some i → ∃ g, s.trig t = some g ∧ TrigRel r t g i
  bound : ∀ t, r.next ≤ t → r.info t = none
  actND : r.active.Nodup
  actAlive : ∀ t ∈ r.active, r.alive t = true
  freshAct : ∀ t ∈ r.fresh, t ∈ r.active
  waitND : r.waiting.Nodup
  waitAlive : ∀ t ∈ r.waiting, r.alive t = true ∧ t ∉ r.active
  started : r.started = true → r.fin = true ∧ r.waiting = []
  hnd : ∀ d, HRel s r k d

theorem inv_init : Inv init rinit none := by
  constructor <;> (try simp [init, rinit])
  intro d
  simp [HRel, Ref.on]

theorem Inv.has {s r k} (h : Inv s r k) {t : Nat} (ha : r.alive t = true) :
    ∃ i g, r.info t = some i ∧ s.trig t = some g ∧ TrigRel r t g i := by
  unfold Ref.alive at ha
  cases hi : r.info t with
  | none => simp [hi] at ha
  | some i =>
    obtain ⟨g, h1, h2⟩ := h.trigSome t i hi
    exact ⟨i, g, rfl, h1, h2⟩

theorem on_activate {r : Ref} {t c d : Nat} (hc : r.clkOf t = some c) :
    (r.activate t).on d = if d = c then r.on d ++ [t] else r.on d := by
  have he : ∀ x, (r.activate t).clkOf x = r.clkOf x := fun _ => rfl
  unfold Ref.on
  simp only [he]
  show ((r.active ++ [t]).filter _) = _
  rw [List.filter_append]
  by_cases hd : d = c
  · subst hd; simp [hc]
  · have : c ≠ d := fun h => hd h.symm
    simp [hc, hd, this]

theorem on_quiet {r : Ref} {t d : Nat} : (r.quiet t).on d = (r.on d).filter (· != t) := by
  have he : ∀ x, (r.quiet t).clkOf x = r.clkOf x := fun _ => rfl
  unfold Ref.on
  simp only [he]
  show (r.active.filter _).filter _ = _
  rw [List.filter_filter, List.filter_filter]
  congr 1
  funext x
  exact Bool.and_comm _ _

theorem mem_on {r : Ref} {t d : Nat} : t ∈ r.on d ↔ t ∈ r.active ∧ r.clkOf t = some d := by
  unfold Ref.on
  rw [List.mem_filter]
  simp

theorem on_nodup {r : Ref} (h : r.active.Nodup) (d : Nat) : (r.on d).Nodup := List.Pairwise.filter _ h

theorem has_idle {s r d h} (hi : Idle s r d h) (t : Nat) : h.has t = (r.on d).contains t := by
  unfold Handler.has
  rw [hi.toRem, hi.toAdd, hi.trigs]
  simp

theorem has_busy {s r d h L td} (hi : Busy s r d h L td) (t : Nat) : h.has t = (r.on d).contains t := by
  unfold Handler.has
  rw [hi.trigs, hi.on]
  by_cases h1 : t ∈ L <;> by_cases h2 : t ∈ h.toRem <;> by_cases h3 : t ∈ h.toAdd <;>
    simp [h1, h2, h3]

theorem hasTrigger_rel {s r k} (h : Inv s r k) (t d : Nat) : hasTrigger s t d = (r.on d).contains t := by
  unfold hasTrigger
  have hd := h.hnd d
  unfold HRel at hd
  cases e : s.hnd d with
  | none => rw [e] at hd; simp [hd.2.1]
  | some x =>
    rw [e] at hd
    simp only
    by_cases hk : ∀ L td, k ≠ some (d, L, td)
    · exact has_idle (hd.2.2 hk) t
    · have : ∃ L td, k = some (d, L, td) := by
        apply Classical.byContradiction
        intro hn
        exact hk fun L td he => hn ⟨L, td, he⟩
      obtain ⟨L, td, hk⟩ := this
      exact has_busy (hd.2.1 L td hk) t

end Sparta.TrigMan
