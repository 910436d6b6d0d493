import Verif.TrigMan.Acts
namespace Sparta.TrigMan

theorem lt_next {s r k} (h : Inv s r k) {t : Nat} {i : Info} (hi : r.info t = some i) : t < r.next := by
  apply Classical.byContradiction
  intro hh
  rw [h.bound t (Nat.not_lt.1 hh)] at hi
  exact absurd hi (by simp)

theorem not_mem_quiet {r : Ref} {t : Nat} : t ∉ (r.quiet t).active := by
  intro hh
  have := (List.mem_filter.1 hh).2
  simp at this

theorem contains_false {l : List Nat} {t : Nat} (h : t ∉ l) : l.contains t = false := by
  rw [Bool.eq_false_iff]
  exact fun hh => h (List.contains_iff_mem.1 hh)

theorem act_make {s r k} (h : Inv s r k) (clk ctr point cb : Nat) :
    ∃ s1, doAct s (.make clk ctr point cb) = .ok s1 ∧ Inv s1 (r.doAct (.make clk ctr point cb)) k := by
  have hnone := h.bound r.next (Nat.le_refl _)
  have hna := not_active_of_none h hnone
  have hnw := not_waiting_of_none h hnone
  have hN := new_ok h (g := { clk := clk, ctr := ctr, point := point, cb := cb, active := false, fired := false, target := s.nextT })
    (i := { clk := clk, ctr := ctr, point := point, cb := cb, fired := false })
    ⟨rfl, rfl, rfl, rfl, rfl, (contains_false hna).symm, fun _ => h.next⟩
  have hal : (({ r with next := r.next + 1 } : Ref).putI r.next
      { clk := clk, ctr := ctr, point := point, cb := cb, fired := false }).alive r.next = true := by
    simp [Ref.alive, Ref.putI]
  show ∃ s1, makeT s clk ctr point cb = .ok s1 ∧ Inv s1 (Ref.enter _ _) k
  unfold makeT Ref.enter
  cases hf : r.fin with
  | true =>
    have := reg_ok hN (t := r.next) hf hal hna hnw
    rw [h.next] at this ⊢
    simpa [Ref.putI, hf] using this
  | false =>
    have := wait_ok hN (t := r.next) hal hf hna hnw
    rw [h.next] at this ⊢
    refine ⟨_, ?_, by simpa [Ref.putI, hf] using this⟩
    unfold registerSelf
    simp [St.putT, h.fin, hf]

theorem act_set {s r k} (h : Inv s r k) {t : Nat} (hs : r.started = true) (ha : r.alive t = true) (hn : t ∉ r.active) :
    ∃ s1, doAct s (.set t) = .ok s1 ∧ Inv s1 (r.doAct (.set t)) k := by
  obtain ⟨hf, hw⟩ := h.started hs
  obtain ⟨i, g, hi, hg, hr⟩ := h.has ha
  have hga : g.active = false := by rw [hr.active, contains_false hn]
  show ∃ s1, setT s t = .ok s1 ∧ Inv s1 (r.activate t) k
  unfold setT
  rw [hg]
  simp only [hga, Bool.false_eq_true, if_false]
  exact reg_ok h hf ha hn (by rw [hw]; simp)

theorem act_deactivate {s r k pl} (h : Inv s r k) (hp : PlaceRel k pl) {t : Nat} (ha : r.alive t = true)
    (hs : r.safeOff pl t = true) : ∃ s1, doAct s (.deactivate t) = .ok s1 ∧ Inv s1 (r.doAct (.deactivate t)) k := by
  obtain ⟨i, g, hi, hg, hr⟩ := h.has ha
  show ∃ s1, deactivateT s t = .ok s1 ∧ Inv s1 (r.quiet t) k
  unfold deactivateT
  rw [hg]
  exact ⟨_, rfl, off_ok h hp hi hg hs⟩

theorem act_reset {s r k pl} (h : Inv s r k) (hp : PlaceRel k pl) {t p : Nat} (hst : r.started = true)
    (ha : r.alive t = true) (hs : r.safeOff pl t = true) :
    ∃ s1, doAct s (.reset t p) = .ok s1 ∧ Inv s1 (r.doAct (.reset t p)) k := by
  obtain ⟨hf, hw⟩ := h.started hst
  obtain ⟨i, g, hi, hg, hr⟩ := h.has ha
  have h1 := off_ok h hp hi hg hs
  have h2 := put_ok h1 (t := t) (g := { g with active := false, point := p }) (i := { i with point := p })
    (lt_next h1 hi) (fun hh => absurd hh not_mem_quiet)
    ⟨hr.clk, hr.ctr, rfl, hr.cb, hr.fired, (contains_false not_mem_quiet).symm, hr.target⟩
  rw [put_put] at h2
  have h3 := reg_ok h2 (t := t) hf (by simp [Ref.alive, Ref.putI]) not_mem_quiet (by
    show t ∉ r.waiting
    rw [hw]; simp)
  show ∃ s1, resetT s t p = .ok s1 ∧ Inv s1 (Ref.doAct r (.reset t p)) k
  unfold resetT
  simp only [Ref.doAct]
  rw [hg, hi]
  exact h3

theorem act_destroy {s r k pl} (h : Inv s r k) (hp : PlaceRel k pl) {t : Nat} (hst : r.started = true)
    (ha : r.alive t = true) (hs : r.safeOff pl t = true) :
    ∃ s1, doAct s (.destroy t) = .ok s1 ∧ Inv s1 (r.doAct (.destroy t)) k := by
  obtain ⟨hf, hw⟩ := h.started hst
  obtain ⟨i, g, hi, hg, hr⟩ := h.has ha
  have h1 := off_ok h hp hi hg hs
  have h2 := del_ok h1 (t := t) not_mem_quiet (by show t ∉ r.waiting; rw [hw]; simp)
  show ∃ s1, destroyT s t = .ok s1 ∧ _
  unfold destroyT
  rw [hg]
  refine ⟨_, rfl, ?_⟩
  have e : upd ((removeTrigger s t g.clk).putT t { g with active := false }).trig t none = upd s.trig t none := by
    show upd (upd (removeTrigger s t g.clk).trig t _) t none = _
    rw [upd_upd]
    have : (removeTrigger s t g.clk).trig = s.trig := by
      unfold removeTrigger
      cases s.hnd g.clk <;> rfl
    rw [this]
  rw [e] at h2
  exact h2

theorem act_copy {s r k} (h : Inv s r k) {t : Nat} (hst : r.started = true) (ha : r.alive t = true) :
    ∃ s1, doAct s (.copy t) = .ok s1 ∧ Inv s1 (r.doAct (.copy t)) k := by
  obtain ⟨hf, hw⟩ := h.started hst
  obtain ⟨i, g, hi, hg, hr⟩ := h.has ha
  have hnone := h.bound r.next (Nat.le_refl _)
  have hna := not_active_of_none h hnone
  have hN := new_ok h (g := { g with fired := false, active := false }) (i := { i with fired := false })
    ⟨hr.clk, hr.ctr, hr.point, hr.cb, rfl, (contains_false hna).symm, fun hh => by rw [hst] at hh; exact absurd hh (by simp)⟩
  show ∃ s1, copyT s t = .ok s1 ∧ Inv s1 (Ref.doAct r (.copy t)) k
  unfold copyT
  simp only [Ref.doAct]
  rw [hg, hi]
  simp only
  by_cases hact : t ∈ r.active
  · have e1 : g.active = true := by rw [hr.active]; exact List.contains_iff_mem.2 hact
    have e2 : r.active.contains t = true := List.contains_iff_mem.2 hact
    rw [e2, if_pos e1, if_pos rfl, reg_put _ _ _ (show ({ s with nextT := s.nextT + 1 } : St).fin = true from h.fin.trans hf)]
    have h3 := reg_ok hN (t := r.next) hf (by simp [Ref.alive, Ref.putI]) hna (by
      show _ ∉ r.waiting
      rw [hw]; simp)
    rw [h.next] at h3 ⊢
    exact h3
  · have e2 : r.active.contains t = false := contains_false hact
    have e1 : g.active = false := by rw [hr.active, e2]
    have e3 : g = { g with active := false } := by rw [← e1]
    rw [e2, if_neg (by rw [e1]; simp), if_neg (by simp)]
    refine ⟨_, rfl, ?_⟩
    rw [e3]
    exact hN

theorem act_assign {s r k pl} (h : Inv s r k) (hp : PlaceRel k pl) {t u : Nat} (hst : r.started = true) (htu : t ≠ u)
    (ha : r.alive t = true) (hu : r.alive u = true) (hs : r.safeOff pl t = true) :
    ∃ s1, doAct s (.assign t u) = .ok s1 ∧ Inv s1 (r.doAct (.assign t u)) k := by
  obtain ⟨hf, hw⟩ := h.started hst
  obtain ⟨i, g, hi, hg, hr⟩ := h.has ha
  have h1 := off_ok h hp hi hg hs
  have hu' : (r.quiet t).alive u = true := hu
  obtain ⟨j, g', hj, hg', hr'⟩ := h1.has hu'
  have hj' : r.info u = some j := hj
  have h2 := put_ok h1 (t := t) (g := { g' with active := false }) (i := j) (lt_next h1 hi) (fun hh => absurd hh not_mem_quiet)
    ⟨hr'.clk, hr'.ctr, hr'.point, hr'.cb, hr'.fired, (contains_false not_mem_quiet).symm,
      fun hh => by have : r.started = false := hh; rw [hst] at this; exact absurd this (by simp)⟩
  have hqu : (r.quiet t).active.contains u = r.active.contains u := by
    rw [Bool.eq_iff_iff, List.contains_iff_mem, List.contains_iff_mem]
    show u ∈ r.active.filter _ ↔ _
    rw [List.mem_filter]
    simp [Ne.symm htu]
  show ∃ s1, assignT s t u = .ok s1 ∧ Inv s1 (Ref.doAct r (.assign t u)) k
  unfold assignT endObs
  simp only [Ref.doAct]
  rw [hg, hj']
  simp only
  rw [rem_put]
  rw [hg']
  simp only
  by_cases hact : u ∈ r.active
  · have e2 : r.active.contains u = true := List.contains_iff_mem.2 hact
    have e1 : g'.active = true := by rw [hr'.active, hqu, e2]
    rw [e2, if_pos e1, if_pos rfl]
    rw [reg_put _ _ _ (show _ = true from h1.fin.trans hf)]
    exact reg_ok h2 (t := t) hf (by simp [Ref.alive, Ref.putI]) not_mem_quiet (by show _ ∉ r.waiting; rw [hw]; simp)
  · have e2 : r.active.contains u = false := contains_false hact
    have e1 : g'.active = false := by rw [hr'.active, hqu, e2]
    have e3 : g' = { g' with active := false } := by rw [← e1]
    rw [e2, if_neg (by rw [e1]; simp), if_neg (by simp)]
    refine ⟨_, rfl, ?_⟩
    rw [e3]
    exact h2

theorem act_ok {s r k pl} (h : Inv s r k) (hp : PlaceRel k pl) {a : Act} (h1 : r.properAct pl a = true)
    (h2 : r.safeAct pl a = true) (h3 : ∀ t, a = .set t → t ∉ r.active) :
    ∃ s1, doAct s a = .ok s1 ∧ Inv s1 (r.doAct a) k := by
  have hm : r.mentions a = true := by
    unfold Ref.properAct at h1
    rw [Bool.and_eq_true] at h1
    exact h1.1
  cases a with
  | make clk ctr point cb => exact act_make h clk ctr point cb
  | set t => exact act_set h h2 hm (h3 t rfl)
  | deactivate t =>
    simp only [Ref.safeAct, Bool.and_eq_true] at h2
    exact act_deactivate h hp hm h2.2
  | reset t p =>
    simp only [Ref.safeAct, Bool.and_eq_true] at h2
    exact act_reset h hp h2.1 hm h2.2
  | destroy t =>
    simp only [Ref.safeAct, Bool.and_eq_true] at h2
    exact act_destroy h hp h2.1 hm h2.2
  | copy t => exact act_copy h h2 hm
  | assign t u =>
    simp only [Ref.safeAct, Bool.and_eq_true, bne_iff_ne] at h2
    simp only [Ref.mentions, Bool.and_eq_true] at hm
    exact act_assign h hp h2.1.1 h2.1.2 hm.1 hm.2 h2.2
  | count c v =>
    refine ⟨_, rfl, ?_⟩
    rw [h.ctr]
    exact ctr_ok h _

theorem flags_put (r : Ref) (t : Nat) (i : Info) : (r.putI t i).proper = r.proper ∧ (r.putI t i).safe = r.safe := ⟨rfl, rfl⟩

theorem flags_act (r : Ref) (a : Act) : (r.doAct a).proper = r.proper ∧ (r.doAct a).safe = r.safe := by
  cases a <;> simp only [Ref.doAct] <;> (try unfold Ref.enter) <;> (repeat' split) <;> constructor <;> first | rfl | trivial

theorem call_flags {r : Ref} {pl : Ref.Place} {a : Act} (h1 : (r.callAct pl a).proper = true)
    (h2 : (r.callAct pl a).safe = true) : r.proper = true ∧ r.safe = true ∧ r.properAct pl a = true ∧ r.safeAct pl a = true := by
  unfold Ref.callAct at h1 h2
  rw [(flags_act _ _).1] at h1
  rw [(flags_act _ _).2] at h2
  simp only [Bool.and_eq_true] at h1 h2
  exact ⟨h1.1, h2.1, h1.2, h2.2⟩

theorem call_ok {s r k pl} (h : Inv s r k) (hp : PlaceRel k pl) {a : Act} (h1 : (r.callAct pl a).proper = true)
    (h2 : (r.callAct pl a).safe = true) (h3 : ∀ t, a = .set t → t ∉ r.active) :
    ∃ s1, callAct s a = .ok s1 ∧ Inv s1 (r.callAct pl a) k := by
  obtain ⟨_, _, q1, q2⟩ := call_flags h1 h2
  unfold callAct Ref.callAct
  rw [h.log]
  have := log_ok h (r.log ++ [Ev.act a]) (r.proper && r.properAct pl a) (r.safe && r.safeAct pl a) rfl
  exact act_ok this hp q1 q2 h3

end Sparta.TrigMan
