import Verif.TrigMan.Moves
/-! One call, made outside of ticks or in a callback, keeps the two states together. -/
namespace Sparta.TrigMan

theorem not_active_of_none {s r k} (h : Inv s r k) {t : Nat} (hn : r.info t = none) : t ∉ r.active := by
  intro hh
  have := h.actAlive t hh
  simp [Ref.alive, hn] at this

theorem not_waiting_of_none {s r k} (h : Inv s r k) {t : Nat} (hn : r.info t = none) : t ∉ r.waiting := by
  intro hh
  have := (h.waitAlive t hh).1
  simp [Ref.alive, hn] at this

theorem clkOf_put {r : Ref} {t x : Nat} {i : Info} (h : x ≠ t) : (r.putI t i).clkOf x = r.clkOf x := by
  unfold Ref.clkOf Ref.putI
  simp [upd, h]

theorem clkOf_put_same {r : Ref} {t : Nat} {i : Info} : (r.putI t i).clkOf t = some i.clk := by
  simp [Ref.clkOf, Ref.putI]

/-- nothing that `HRel` reads changes when the entries of inactive triggers change -/
theorem hrel_info {s s1 : St} {r r1 : Ref} {k : Tick} (h : Inv s r k) (h1 : s1.hnd = s.hnd) (h2 : s1.pend = s.pend)
    (h3 : r1.ticking = r.ticking) (h4 : r1.active = r.active) (h5 : r1.fresh = r.fresh)
    (h6 : ∀ x ∈ r.active, r1.clkOf x = r.clkOf x) (d : Nat) : HRel s1 r1 k d := by
  refine hrel_other (s := s) (r := r) (by rw [h1]) (by rw [h2]) (by rw [h3]) ?_ ?_ (h.hnd d)
  · unfold Ref.on
    rw [h4]
    apply List.filter_congr
    intro x hx
    rw [h6 x hx]
  · intro x
    rw [h5]
    constructor
    · rintro ⟨a, b⟩
      exact ⟨a, by rw [← h6 x (h.freshAct x a)]; exact b⟩
    · rintro ⟨a, b⟩
      exact ⟨a, by rw [h6 x (h.freshAct x a)]; exact b⟩

theorem alive_put {r : Ref} {t x : Nat} {i : Info} (h : r.alive x = true) : (r.putI t i).alive x = true := by
  unfold Ref.alive Ref.putI at *
  by_cases hx : x = t
  · simp [hx]
  · simpa [upd, hx] using h

theorem put_ok {s r k} (h : Inv s r k) {t : Nat} {g : Trig} {i : Info} (hb : t < r.next)
    (hc : t ∈ r.active → r.clkOf t = some i.clk) (hr : TrigRel r t g i) : Inv (s.putT t g) (r.putI t i) k := by
  refine ⟨h.fin, h.startup, h.next, h.ctr, h.log, h.alive, ?_, ?_, ?_, h.actND, fun x hx => alive_put (h.actAlive x hx),
    h.freshAct, h.waitND, fun x hx => ⟨alive_put (h.waitAlive x hx).1, (h.waitAlive x hx).2⟩, h.started,
    fun d => hrel_info h (by rfl) (by rfl) (by rfl) (by rfl) (by rfl) ?_ d⟩
  · intro x hx
    by_cases hxt : x = t
    · subst hxt; simp [Ref.putI] at hx
    · show upd s.trig t _ x = none
      rw [upd_other _ _ hxt]
      exact h.trigNone x (by simpa [Ref.putI, upd, hxt] using hx)
  · intro x j hx
    by_cases hxt : x = t
    · subst hxt
      have : j = i := by simpa [Ref.putI] using hx.symm
      subst this
      exact ⟨g, upd_same _ _ _, hr.clk, hr.ctr, hr.point, hr.cb, hr.fired, hr.active, hr.target⟩
    · obtain ⟨g', a, b⟩ := h.trigSome x j (by simpa [Ref.putI, upd, hxt] using hx)
      refine ⟨g', ?_, b.clk, b.ctr, b.point, b.cb, b.fired, b.active, b.target⟩
      show upd s.trig t _ x = _
      rw [upd_other _ _ hxt, a]
  · intro x hx
    have : r.next ≤ x := hx
    show upd r.info t _ x = none
    rw [upd_other _ _ (by omega)]
    exact h.bound x hx
  · intro x hx
    by_cases hxt : x = t
    · subst hxt
      rw [clkOf_put_same, hc hx]
    · exact clkOf_put hxt

theorem new_ok {s r k} (h : Inv s r k) {g : Trig} {i : Info}
    (hr : TrigRel r r.next g i) :
    Inv ({ s with nextT := s.nextT + 1 }.putT s.nextT g) ({ r with next := r.next + 1 }.putI r.next i) k := by
  have hn := not_active_of_none h (h.bound r.next (Nat.le_refl _))
  have h0 : Inv { s with nextT := s.nextT + 1 } { r with next := r.next + 1 } k := by
    refine ⟨h.fin, h.startup, by show s.nextT + 1 = r.next + 1; rw [h.next], h.ctr, h.log, h.alive, h.trigNone, ?_, ?_,
      h.actND, h.actAlive, h.freshAct, h.waitND, h.waitAlive, h.started, ?_⟩
    · intro t i hi
      obtain ⟨g, a, b⟩ := h.trigSome t i hi
      exact ⟨g, a, b.clk, b.ctr, b.point, b.cb, b.fired, b.active, b.target⟩
    · intro t ht
      exact h.bound t (by have : r.next + 1 ≤ t := ht; omega)
    · exact fun d => hrel_info h (by rfl) (by rfl) (by rfl) (by rfl) (by rfl) (fun _ _ => by rfl) d
  rw [h.next]
  rw [h.next] at h0
  refine put_ok h0 (by show r.next < r.next + 1; omega) (fun hh => absurd hh hn) ?_
  exact ⟨hr.clk, hr.ctr, hr.point, hr.cb, hr.fired, hr.active, hr.target⟩

theorem del_ok {s r k} (h : Inv s r k) {t : Nat} (ha : t ∉ r.active) (hw : t ∉ r.waiting) :
    Inv { s with trig := upd s.trig t none } { r with info := upd r.info t none } k := by
  have hal : ∀ x, x ≠ t → r.alive x = true → ({ r with info := upd r.info t none } : Ref).alive x = true := by
    intro x hx hh
    unfold Ref.alive at *
    simpa [upd, hx] using hh
  refine ⟨h.fin, h.startup, h.next, h.ctr, h.log, h.alive, ?_, ?_, ?_, h.actND, ?_,
    h.freshAct, h.waitND, ?_, h.started, fun d => hrel_info h (by rfl) (by rfl) (by rfl) (by rfl) (by rfl) ?_ d⟩
  · intro x hx
    show upd s.trig t none x = none
    by_cases hxt : x = t
    · subst hxt; exact upd_same _ _ _
    · rw [upd_other _ _ hxt]
      exact h.trigNone x (by simpa [upd, hxt] using hx)
  · intro x j hx
    have hxt : x ≠ t := by
      rintro rfl
      simp at hx
    obtain ⟨g', a, b⟩ := h.trigSome x j (by simpa [upd, hxt] using hx)
    refine ⟨g', ?_, b.clk, b.ctr, b.point, b.cb, b.fired, b.active, b.target⟩
    show upd s.trig t _ x = _
    rw [upd_other _ _ hxt, a]
  · intro x hx
    show upd r.info t none x = none
    by_cases hxt : x = t
    · subst hxt; exact upd_same _ _ _
    · rw [upd_other _ _ hxt]; exact h.bound x hx
  · intro x hx
    exact hal x (by rintro rfl; exact ha hx) (h.actAlive x hx)
  · intro x hx
    exact ⟨hal x (by rintro rfl; exact hw hx) (h.waitAlive x hx).1, (h.waitAlive x hx).2⟩
  · intro x hx
    have : x ≠ t := by rintro rfl; exact ha hx
    unfold Ref.clkOf
    simp [upd, this]

/-- history and flags -/
theorem log_ok {s r k} (h : Inv s r k) (l : List Ev) (p q : Bool) (hl : l = l) :
    Inv { s with log := l } { r with log := l, proper := p, safe := q } k := by
  refine ⟨h.fin, h.startup, h.next, h.ctr, rfl, h.alive, h.trigNone, ?_, h.bound, h.actND, h.actAlive,
    h.freshAct, h.waitND, h.waitAlive, h.started, fun d => hrel_info h (by rfl) (by rfl) (by rfl) (by rfl) (by rfl) (fun _ _ => by rfl) d⟩
  intro t i hi
  obtain ⟨g, a, b⟩ := h.trigSome t i hi
  exact ⟨g, a, b.clk, b.ctr, b.point, b.cb, b.fired, b.active, b.target⟩

theorem ctr_ok {s r k} (h : Inv s r k) (f : Nat → Nat) : Inv { s with ctr := f } { r with ctr := f } k := by
  refine ⟨h.fin, h.startup, h.next, rfl, h.log, h.alive, h.trigNone, ?_, h.bound, h.actND, h.actAlive,
    h.freshAct, h.waitND, h.waitAlive, h.started, fun d => hrel_info h (by rfl) (by rfl) (by rfl) (by rfl) (by rfl) (fun _ _ => by rfl) d⟩
  intro t i hi
  obtain ⟨g, a, b⟩ := h.trigSome t i hi
  exact ⟨g, a, b.clk, b.ctr, b.point, b.cb, b.fired, b.active, b.target⟩

theorem wait_ok {s r k} (h : Inv s r k) {t : Nat} (ha : r.alive t = true) (hf : r.fin = false) (hn : t ∉ r.active)
    (hw : t ∉ r.waiting) : Inv { s with startup := s.startup ++ [t] } { r with waiting := r.waiting ++ [t] } k := by
  refine ⟨h.fin, by show s.startup ++ [t] = r.waiting ++ [t]; rw [h.startup], h.next, h.ctr, h.log, h.alive, h.trigNone, ?_,
    h.bound, h.actND, h.actAlive, h.freshAct, ?_, ?_, ?_, fun d => hrel_info h (by rfl) (by rfl) (by rfl) (by rfl) (by rfl) (fun _ _ => by rfl) d⟩
  · intro t i hi
    obtain ⟨g, a, b⟩ := h.trigSome t i hi
    exact ⟨g, a, b.clk, b.ctr, b.point, b.cb, b.fired, b.active, b.target⟩
  · show (r.waiting ++ [t]).Nodup
    rw [List.nodup_append]
    refine ⟨h.waitND, by simp, ?_⟩
    intro a hain b hb
    have := List.mem_singleton.1 hb
    subst this
    exact fun he => hw (he ▸ hain)
  · intro x hx
    rcases List.mem_append.1 hx with hx | hx
    · exact h.waitAlive x hx
    · have := List.mem_singleton.1 hx
      subst this; exact ⟨ha, hn⟩
  · intro hs
    have := (h.started hs).1
    rw [hf] at this
    exact absurd this (by simp)

/-! the order of independent updates -/

theorem upd_upd {β : Type} (f : Nat → β) (i : Nat) (a b : β) : upd (upd f i a) i b = upd f i b := by
  funext j
  unfold upd
  split <;> rfl

theorem put_put (s : St) (t : Nat) (g g' : Trig) : (s.putT t g).putT t g' = s.putT t g' := by
  simp [St.putT, upd_upd]

theorem rem_put (s : St) (t x c : Nat) (g : Trig) : removeTrigger (s.putT t g) x c = (removeTrigger s x c).putT t g := by
  unfold removeTrigger
  show (match s.hnd c with | none => _ | some h => _) = _
  cases s.hnd c <;> rfl

theorem addTo_put (s : St) (t x c : Nat) (g : Trig) : addTo (s.putT t g) x c = (addTo s x c).map (·.putT t g) := by
  unfold addTo
  show (match s.hnd c with | none => _ | some h => _) = _
  cases s.hnd c with
  | none => rfl
  | some h =>
    simp only
    cases h.add x <;> rfl

theorem add_put (s : St) (t x c : Nat) (g : Trig) : addTrigger (s.putT t g) x c = (addTrigger s x c).map (·.putT t g) := by
  unfold addTrigger
  have h1 : hasTrigger (s.putT t g) x c = hasTrigger s x c := rfl
  have h2 : newHandler (s.putT t g) c = (newHandler s c).putT t g := rfl
  have h3 : (s.putT t g).hnd = s.hnd := rfl
  rw [h1, h2, h3, addTo_put, addTo_put]
  split
  · rfl
  · split <;> rfl

theorem reg_put (s : St) (t : Nat) (g : Trig) (hf : s.fin = true) :
    registerSelf (s.putT t g) t = registerSelf (s.putT t { g with active := false }) t := by
  unfold registerSelf
  have h1 : (s.putT t g).trig t = some g := upd_same _ _ _
  have h2 : (s.putT t { g with active := false }).trig t = some { g with active := false } := upd_same _ _ _
  have h3 : (s.putT t g).fin = true := hf
  have h4 : (s.putT t { g with active := false }).fin = true := hf
  rw [h1, h2]
  simp only
  rw [h3, h4, add_put, add_put]
  simp only [if_true]
  cases addTrigger s t g.clk with
  | error e => rfl
  | ok s' =>
    show Except.ok ((s'.putT t g).putT t _) = Except.ok ((s'.putT t _).putT t _)
    rw [put_put, put_put]

end Sparta.TrigMan
