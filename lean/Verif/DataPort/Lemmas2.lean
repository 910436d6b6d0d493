import Verif.DataPort.Lemmas
/-! The system of data ports refines its specification. -/
namespace Sparta.DataPort

open Sparta.PayloadEvent (PE)

variable {α : Type}

def frameEv : Frame α → Option Nat
  | .event i => some i
  | _ => none

/-- the in ports whose delivery event is calling a handler -/
def evs (st : List (Frame α)) : List Nat := st.filterMap frameEv

def DRep (p : InP α) : Option (α × Nat) → Prop
  | none => p.valid = false
  | some (x, u) => p.valid = true ∧ p.val = some x ∧ p.stamp = u

structure Rep (s : Sys α) (t : Spec α) : Prop where
  cfg : s.cfg = t.cfg
  now : s.now = t.now
  phase : s.phase = t.phase
  outs : s.outs = t.outs
  ocont : s.ocont = t.ocont
  stack : s.stack = t.stack
  pe : ∀ i, PERep (s.ins i).pe (t.ins i) t.now t.cfg.cap ((evs t.stack).contains i)
  data : ∀ i, DRep (s.ins i) (t.ins i).data
  bound : ∀ i, (s.ins i).bound = (t.ins i).bound
  cont : ∀ i, (s.ins i).cont = (t.ins i).cont
  frames : ∀ x d rest, Frame.sending x d rest ∈ t.stack → ∀ i ∈ rest, i < t.cfg.n ∧ d + t.cfg.delay i < half
  outsLt : ∀ o, ∀ i ∈ t.outs o, i < t.cfg.n
  outsNd : ∀ o, (t.outs o).Nodup
  pastOk : ∀ i, (t.ins i).past = true → t.cfg.phase i ≤ t.phase
  far : ∀ i, t.cfg.n ≤ i → (t.ins i).pending = []
  one : (evs t.stack).length ≤ 1

theorem rep_init (cfg : Config) : Rep (Sys.init α cfg) (Spec.init α cfg) where
  cfg := rfl
  now := rfl
  phase := rfl
  outs := rfl
  ocont := rfl
  stack := rfl
  pe := fun _ => perep_init _
  data := fun _ => rfl
  bound := fun _ => rfl
  cont := fun _ => rfl
  frames := fun _ _ _ h => (by cases h)
  outsLt := fun _ _ h => (by cases h)
  outsNd := fun _ => List.nodup_nil
  pastOk := fun _ h => (by cases h)
  far := fun _ _ => rfl
  one := Nat.zero_le _

/-- the in ports are changed: what has to be shown again -/
theorem Rep.upd_ins {s : Sys α} {t : Spec α} (r : Rep s t) (si : Nat → InP α) (ti : Nat → SIn α)
    (pe : ∀ i, PERep (si i).pe (ti i) t.now t.cfg.cap ((evs t.stack).contains i))
    (data : ∀ i, DRep (si i) (ti i).data) (bound : ∀ i, (si i).bound = (ti i).bound) (cont : ∀ i, (si i).cont = (ti i).cont)
    (pastOk : ∀ i, (ti i).past = true → t.cfg.phase i ≤ t.phase) (far : ∀ i, t.cfg.n ≤ i → (ti i).pending = []) :
    Rep { s with ins := si } { t with ins := ti } :=
  ⟨r.cfg, r.now, r.phase, r.outs, r.ocont, r.stack, pe, data, bound, cont, r.frames, r.outsLt, r.outsNd, pastOk, far, r.one⟩

/-- one in port is changed -/
theorem Rep.setIn {s : Sys α} {t : Spec α} (r : Rep s t) (i : Nat) (p : InP α) (q : SIn α)
    (pe : PERep p.pe q t.now t.cfg.cap ((evs t.stack).contains i)) (data : DRep p q.data)
    (bound : p.bound = q.bound) (cont : p.cont = q.cont) (pastOk : q.past = true → t.cfg.phase i ≤ t.phase)
    (far : t.cfg.n ≤ i → q.pending = []) : Rep (s.setIn i p) (t.setIn i q) := by
  refine r.upd_ins _ _ ?_ ?_ ?_ ?_ ?_ ?_ <;> intro j <;> by_cases hj : j = i
  · subst hj; simpa [upd] using pe
  · simpa [upd, hj] using r.pe j
  · subst hj; simpa [upd] using data
  · simpa [upd, hj] using r.data j
  · subst hj; simpa [upd] using bound
  · simpa [upd, hj] using r.bound j
  · subst hj; simpa [upd] using cont
  · simpa [upd, hj] using r.cont j
  · subst hj; simpa [upd] using pastOk
  · simpa [upd, hj] using r.pastOk j
  · subst hj; simpa [upd] using far
  · simpa [upd, hj] using r.far j

/-- the stack is changed, not the events on it -/
theorem Rep.setStack {s : Sys α} {t : Spec α} (r : Rep s t) (st : List (Frame α)) (he : evs st = evs t.stack)
    (hf : ∀ x d rest, Frame.sending x d rest ∈ st → ∀ i ∈ rest, i < t.cfg.n ∧ d + t.cfg.delay i < half) :
    Rep { s with stack := st } { t with stack := st } :=
  ⟨r.cfg, r.now, r.phase, r.outs, r.ocont, rfl, fun i => by show PERep _ _ _ _ ((evs st).contains i); rw [he]; exact r.pe i,
    r.data, r.bound, r.cont, hf, r.outsLt, r.outsNd, r.pastOk, r.far,
    by show (evs st).length ≤ 1; rw [he]; exact r.one⟩

theorem perep_data {pe : PE α} {q : SIn α} {now cap : Nat} {run : Bool} (h : PERep pe q now cap run)
    (d : Option (α × Nat)) : PERep pe { q with data := d } now cap run := by
  obtain ⟨ps, r, i⟩ := h
  exact ⟨ps, r, i.cap, i.now, i.past, i.fired, i.refs, i.canc, i.pend, i.cur, i.notw, i.run⟩

theorem sendTo_rep {s : Sys α} {t : Spec α} (r : Rep s t) (x : α) (d i : Nat) (hi : i < t.cfg.n) (hd : d + t.cfg.delay i < half) :
    Rep (s.sendTo x d i).1 (t.sendTo x d i).1 ∧ (s.sendTo x d i).2 = (t.sendTo x d i).2 ∧
      (t.sendTo x d i).1.stack = t.stack ∧ (t.sendTo x d i).1.cfg = t.cfg ∧ (t.sendTo x d i).1.now = t.now := by
  unfold Sys.sendTo Spec.sendTo
  rw [r.cfg, r.phase, Nat.mod_eq_of_lt hd]
  dsimp only
  by_cases h1 : d + t.cfg.delay i = 0 ∧ t.cfg.phase i < t.phase
  · rw [if_pos h1, if_pos h1]
    exact ⟨r, rfl, rfl, rfl, rfl⟩
  rw [if_neg h1, if_neg h1]
  by_cases h2 : d + t.cfg.delay i = 0 ∧ t.cfg.phase i = t.phase
  · rw [if_pos h2, if_pos h2]
    refine ⟨r.setIn i _ _ (perep_data (r.pe i) _) ?_ (r.bound i) (r.cont i) (r.pastOk i) (r.far i), rfl, rfl, rfl, rfl⟩
    exact ⟨rfl, rfl, r.now⟩
  rw [if_neg h2, if_neg h2]
  have hq := queue_rep (r.pe i) x (d + t.cfg.delay i) (fun h0 => by
    cases hp : (t.ins i).past with
    | false => rfl
    | true =>
      have := r.pastOk i hp
      rcases Nat.lt_or_eq_of_le this with h | h
      · exact absurd ⟨h0, h⟩ h1
      · exact absurd ⟨h0, h⟩ h2)
  by_cases h3 : (t.ins i).count + 1 < t.cfg.cap
  · rw [if_pos h3] at hq ⊢
    refine ⟨r.setIn i _ _ hq.2 (r.data i) (r.bound i) (r.cont i) (r.pastOk i) (fun h => by omega), ?_, rfl, rfl, rfl⟩
    rw [hq.1]
  · rw [if_neg h3] at hq ⊢
    have := r.setIn i { s.ins i with pe := (queue (s.ins i).pe x (d + t.cfg.delay i)).1 } (t.ins i) hq.2 (r.data i) (r.bound i) (r.cont i) (r.pastOk i) (r.far i)
    have e : t.setIn i (t.ins i) = t := by
      unfold Spec.setIn
      have : upd t.ins i (t.ins i) = t.ins := by
        funext j
        by_cases hj : j = i
        · simp [upd, hj]
        · simp [upd, hj]
      rw [this]
    rw [e] at this
    refine ⟨this, ?_, rfl, rfl, rfl⟩
    rw [hq.1]

theorem cont_rep {s : Sys α} {t : Spec α} (r : Rep s t) : Rep s.cont.1 t.send.1 ∧ s.cont.2 = t.send.2 := by
  cases hst : t.stack with
  | nil =>
    have h1 : s.cont = (s, .busy) := by unfold Sys.cont; rw [r.stack, hst]
    have h2 : t.send = (t, .busy) := by unfold Spec.send; rw [hst]
    rw [h1, h2]; exact ⟨r, rfl⟩
  | cons f st =>
    cases f with
    | direct i =>
      have h1 : s.cont = (s, .busy) := by unfold Sys.cont; rw [r.stack, hst]
      have h2 : t.send = (t, .busy) := by unfold Spec.send; rw [hst]
      rw [h1, h2]; exact ⟨r, rfl⟩
    | event i =>
      have h1 : s.cont = (s, .busy) := by unfold Sys.cont; rw [r.stack, hst]
      have h2 : t.send = (t, .busy) := by unfold Spec.send; rw [hst]
      rw [h1, h2]; exact ⟨r, rfl⟩
    | sending x d rest =>
      have hev : evs st = evs t.stack := by rw [hst]; rfl
      have hfr : ∀ x d rest, Frame.sending x d rest ∈ st → ∀ i ∈ rest, i < t.cfg.n ∧ d + t.cfg.delay i < half :=
        fun x d rest h => r.frames x d rest (by rw [hst]; exact List.mem_cons_of_mem _ h)
      cases rest with
      | nil =>
        have h1 : s.cont = ({ s with stack := st }, .done) := by unfold Sys.cont; rw [r.stack, hst]
        have h2 : t.send = ({ t with stack := st }, .done) := by unfold Spec.send; rw [hst]
        rw [h1, h2]; exact ⟨r.setStack st hev hfr, rfl⟩
      | cons i rest =>
        have hi := r.frames x d (i :: rest) (by rw [hst]; exact List.mem_cons_self ..)
        have hi0 := hi i (List.mem_cons_self ..)
        obtain ⟨r', hres, e1, e2, e3⟩ := sendTo_rep r x d i hi0.1 hi0.2
        have h1 : s.cont = match s.sendTo x d i with
            | (s', _, false) => ({ s' with stack := st }, .threw)
            | (s', true, true) => ({ s' with stack := .direct i :: .sending x d rest :: st }, .deliver i x)
            | (s', false, true) => ({ s' with stack := .sending x d rest :: st }, .done) := by
          unfold Sys.cont; rw [r.stack, hst]
          dsimp only
          rcases s.sendTo x d i with ⟨_, _ | _, _ | _⟩ <;> rfl
        have h2 : t.send = match t.sendTo x d i with
            | (s', _, false) => ({ s' with stack := st }, .threw)
            | (s', true, true) => ({ s' with stack := .direct i :: .sending x d rest :: st }, .deliver i x)
            | (s', false, true) => ({ s' with stack := .sending x d rest :: st }, .done) := by
          unfold Spec.send; rw [hst]
          dsimp only
          rcases t.sendTo x d i with ⟨_, _ | _, _ | _⟩ <;> rfl
        have hfr' : ∀ x' d' rest', Frame.sending x' d' rest' ∈ Frame.sending x d rest :: st →
            ∀ i ∈ rest', i < t.cfg.n ∧ d' + t.cfg.delay i < half := by
          intro x' d' rest' h j hj
          rw [List.mem_cons] at h
          rcases h with h | h
          · cases h; exact hi j (List.mem_cons_of_mem _ hj)
          · exact hfr x' d' rest' h j hj
        rw [← e2] at hfr hfr'
        have hev' : evs st = evs (t.sendTo x d i).1.stack := by rw [e1]; exact hev
        rw [h1, h2]
        generalize s.sendTo x d i = a at r' hres
        generalize t.sendTo x d i = b at r' hres hfr hfr' hev'
        obtain ⟨a1, a2, a3⟩ := a
        obtain ⟨b1, b2, b3⟩ := b
        simp only [Prod.mk.injEq] at hres
        obtain ⟨rfl, rfl⟩ := hres
        cases a3 with
        | false => exact ⟨r'.setStack st hev' hfr, rfl⟩
        | true =>
          cases a2 with
          | false => exact ⟨r'.setStack (.sending x d rest :: st) hev' hfr', rfl⟩
          | true =>
            refine ⟨r'.setStack (.direct i :: .sending x d rest :: st) hev' ?_, rfl⟩
            intro x' d' rest' h
            rw [List.mem_cons] at h
            rcases h with h | h
            · cases h
            · exact hfr' x' d' rest' h

theorem fire_step {s : Sys α} {t : Spec α} (r : Rep s t) (i : Nat) (hst : t.stack = []) :
    Rep (s.fire i).1 (t.fire i).1 ∧ (s.fire i).2 = (t.fire i).2 := by
  unfold Sys.fire Spec.fire
  rw [r.cfg, r.phase, past_rep (r.pe i)]
  by_cases hc : i < t.cfg.n ∧ t.cfg.phase i = t.phase ∧ (t.ins i).past = false
  · rw [if_pos hc, if_pos hc]
    have hp := r.pe i
    rw [hst] at hp
    have hf := fire_rep hp
    cases htd : takeDue t.now (t.ins i).pending with
    | none =>
      rw [htd] at hf
      obtain ⟨pe', e1, e2⟩ := hf
      rw [e1]
      have := r.setIn i { s.ins i with pe := pe' } (t.ins i) (by rw [hst]; exact e2) (r.data i) (r.bound i) (r.cont i) (r.pastOk i) (r.far i)
      have e : t.setIn i (t.ins i) = t := by
        unfold Spec.setIn
        have : upd t.ins i (t.ins i) = t.ins := by
          funext j
          by_cases hj : j = i
          · simp [upd, hj]
          · simp [upd, hj]
        rw [this]
      rw [e] at this
      exact ⟨this, rfl⟩
    | some e =>
      obtain ⟨x, l⟩ := e
      rw [htd] at hf
      obtain ⟨pe', e1, e2⟩ := hf
      rw [e1]
      refine ⟨?_, rfl⟩
      have e3 : s.stack = [] := r.stack.trans hst
      refine ⟨r.cfg, r.now, r.phase, r.outs, r.ocont, ?_, ?_, ?_, ?_, ?_, ?_, r.outsLt, r.outsNd, ?_, ?_, ?_⟩
      · show Frame.event i :: s.stack = _; rw [r.stack]
      · intro j
        show PERep (upd s.ins i _ j).pe (upd t.ins i _ j) t.now t.cfg.cap ((evs (Frame.event i :: t.stack)).contains j)
        have hev : evs (Frame.event i :: t.stack) = [i] := by rw [hst]; rfl
        rw [hev]
        by_cases hj : j = i
        · subst hj
          have := e2 (some (x, t.now))
          simpa [upd, InP.setData] using this
        · have h := r.pe j
          rw [hst] at h
          have : (evs ([] : List (Frame α))).contains j = List.contains [i] j := by simp [evs, hj]
          rw [this] at h
          simpa [upd, hj] using h
      · intro j
        show DRep (upd s.ins i _ j) (upd t.ins i _ j).data
        by_cases hj : j = i
        · subst hj
          simp only [upd, if_pos]
          exact ⟨rfl, rfl, r.now⟩
        · simpa [upd, hj] using r.data j
      · intro j
        show (upd s.ins i _ j).bound = (upd t.ins i _ j).bound
        by_cases hj : j = i
        · subst hj; simpa [upd, InP.setData] using r.bound j
        · simpa [upd, hj] using r.bound j
      · intro j
        show (upd s.ins i _ j).cont = (upd t.ins i _ j).cont
        by_cases hj : j = i
        · subst hj; simpa [upd, InP.setData] using r.cont j
        · simpa [upd, hj] using r.cont j
      · intro x' d' rest' h
        have h : Frame.sending x' d' rest' ∈ Frame.event i :: t.stack := h
        rw [List.mem_cons] at h
        rcases h with h | h
        · cases h
        · exact r.frames x' d' rest' h
      · intro j
        show (upd t.ins i _ j).past = true → t.cfg.phase j ≤ t.phase
        by_cases hj : j = i
        · subst hj; simpa [upd] using r.pastOk j
        · simpa [upd, hj] using r.pastOk j
      · intro j hj'
        show (upd t.ins i _ j).pending = []
        have hj : j ≠ i := by rintro rfl; have := hc.1; have hj' : t.cfg.n ≤ j := hj'; omega
        simpa [upd, hj] using r.far j hj'
      · show (evs (Frame.event i :: t.stack)).length ≤ 1
        rw [hst]; exact Nat.le_refl 1
  · rw [if_neg hc, if_neg hc]
    exact ⟨r, rfl⟩

theorem ret_step {s : Sys α} {t : Spec α} (r : Rep s t) : Rep s.ret.1 t.ret.1 ∧ s.ret.2 = t.ret.2 := by
  cases hst : t.stack with
  | nil =>
    have h1 : s.ret = (s, .busy) := by unfold Sys.ret; rw [r.stack, hst]
    have h2 : t.ret = (t, .busy) := by unfold Spec.ret; rw [hst]
    rw [h1, h2]; exact ⟨r, rfl⟩
  | cons f st =>
    have hfr : ∀ x d rest, Frame.sending x d rest ∈ st → ∀ i ∈ rest, i < t.cfg.n ∧ d + t.cfg.delay i < half :=
      fun x d rest h => r.frames x d rest (by rw [hst]; exact List.mem_cons_of_mem _ h)
    cases f with
    | sending x d rest =>
      have h1 : s.ret = (s, .busy) := by unfold Sys.ret; rw [r.stack, hst]
      have h2 : t.ret = (t, .busy) := by unfold Spec.ret; rw [hst]
      rw [h1, h2]; exact ⟨r, rfl⟩
    | direct i =>
      have h1 : s.ret = ({ s with stack := st }, .done) := by unfold Sys.ret; rw [r.stack, hst]
      have h2 : t.ret = ({ t with stack := st }, .done) := by unfold Spec.ret; rw [hst]
      rw [h1, h2]
      exact ⟨r.setStack st (by rw [hst]; rfl) hfr, rfl⟩
    | event i =>
      have h1 : s.ret = ({ s.setIn i { s.ins i with pe := (s.ins i).pe.ret.1 } with stack := st }, .done) := by
        unfold Sys.ret; rw [r.stack, hst]
      have h2 : t.ret = ({ t.setIn i { t.ins i with cur := none } with stack := st }, .done) := by unfold Spec.ret; rw [hst]
      rw [h1, h2]
      refine ⟨?_, rfl⟩
      have hone := r.one
      rw [hst] at hone
      have hev0 : evs (Frame.event i :: st) = i :: evs st := rfl
      rw [hev0, List.length_cons] at hone
      have hev : evs st = [] := List.length_eq_zero_iff.1 (by omega)
      have hpi := r.pe i
      rw [hst, hev0, hev] at hpi
      have hpi : PERep (s.ins i).pe (t.ins i) t.now t.cfg.cap true := by
        have e : List.contains [i] i = true := by simp
        rw [e] at hpi; exact hpi
      refine ⟨r.cfg, r.now, r.phase, r.outs, r.ocont, rfl, ?_, ?_, ?_, ?_, hfr, r.outsLt, r.outsNd, ?_, ?_, ?_⟩
      · intro j
        show PERep (upd s.ins i _ j).pe (upd t.ins i _ j) t.now t.cfg.cap ((evs st).contains j)
        rw [hev]
        by_cases hj : j = i
        · subst hj; simpa [upd] using ret_rep hpi
        · have h := r.pe j
          rw [hst, hev0, hev] at h
          have : List.contains [i] j = List.contains ([] : List Nat) j := by simp [hj]
          rw [this] at h
          simpa [upd, hj] using h
      · intro j
        show DRep (upd s.ins i _ j) (upd t.ins i _ j).data
        by_cases hj : j = i
        · subst hj
          simp only [upd, if_pos]
          exact r.data j
        · simpa [upd, hj] using r.data j
      · intro j
        show (upd s.ins i _ j).bound = (upd t.ins i _ j).bound
        by_cases hj : j = i
        · subst hj; simpa [upd] using r.bound j
        · simpa [upd, hj] using r.bound j
      · intro j
        show (upd s.ins i _ j).cont = (upd t.ins i _ j).cont
        by_cases hj : j = i
        · subst hj; simpa [upd] using r.cont j
        · simpa [upd, hj] using r.cont j
      · intro j
        show (upd t.ins i _ j).past = true → t.cfg.phase j ≤ t.phase
        by_cases hj : j = i
        · subst hj; simpa [upd] using r.pastOk j
        · simpa [upd, hj] using r.pastOk j
      · intro j
        show t.cfg.n ≤ j → (upd t.ins i _ j).pending = []
        by_cases hj : j = i
        · subst hj; simpa [upd] using r.far j
        · simpa [upd, hj] using r.far j
      · show (evs st).length ≤ 1
        rw [hev]; exact Nat.zero_le _

theorem over_step {s : Sys α} {t : Spec α} (r : Rep s t) (hst : t.stack = []) (f : Nat → Bool) : s.over f = t.over f := by
  unfold Sys.over Spec.over
  rw [r.cfg]
  congr 1
  funext i
  have h := r.pe i
  rw [hst] at h
  rw [over_rep h]
  rfl

theorem over_all {s : Sys α} {t : Spec α} (r : Rep s t) {f : Nat → Bool} (h : t.over f = true) (i : Nat) (hf : f i = true) :
    (t.ins i).over t.now = true := by
  by_cases hi : i < t.cfg.n
  · unfold Spec.over at h
    rw [List.all_eq_true] at h
    have := h i (List.mem_range.2 hi)
    rw [hf] at this
    simpa using this
  · unfold SIn.over
    rw [r.far i (by omega)]
    rfl

theorem toPhase_step {s : Sys α} {t : Spec α} (r : Rep s t) (k : Nat) (hst : t.stack = []) :
    Rep (s.toPhase k).1 (t.toPhase k).1 ∧ (s.toPhase k).2 = (t.toPhase k).2 := by
  unfold Sys.toPhase Spec.toPhase
  rw [over_step r hst, r.phase, r.cfg]
  by_cases hc : t.phase ≤ k ∧ t.over (fun i => decide (t.cfg.phase i < k)) = true
  · rw [if_pos hc, if_pos hc]
    refine ⟨⟨r.cfg, r.now, rfl, r.outs, r.ocont, r.stack, ?_, ?_, ?_, ?_, r.frames, r.outsLt, r.outsNd, ?_, ?_, r.one⟩, rfl⟩
    · intro i
      have h := r.pe i
      rw [hst] at h
      show PERep (if decide (t.cfg.phase i < k) = true then _ else _ : InP α).pe (if t.cfg.phase i < k then _ else _) t.now t.cfg.cap ((evs t.stack).contains i)
      rw [hst]
      by_cases hi : t.cfg.phase i < k
      · rw [if_pos (decide_eq_true hi), if_pos hi]
        exact pass_rep h (over_all r hc.2 i (decide_eq_true hi))
      · rw [if_neg (by simpa using hi), if_neg hi]
        exact h
    · intro i
      show DRep (if decide (t.cfg.phase i < k) = true then _ else _ : InP α) (if t.cfg.phase i < k then _ else _ : SIn α).data
      by_cases hi : t.cfg.phase i < k
      · rw [if_pos (decide_eq_true hi), if_pos hi]; exact r.data i
      · rw [if_neg (by simpa using hi), if_neg hi]; exact r.data i
    · intro i
      show (if decide (t.cfg.phase i < k) = true then _ else _ : InP α).bound = (if t.cfg.phase i < k then _ else _ : SIn α).bound
      by_cases hi : t.cfg.phase i < k
      · rw [if_pos (decide_eq_true hi), if_pos hi]; exact r.bound i
      · rw [if_neg (by simpa using hi), if_neg hi]; exact r.bound i
    · intro i
      show (if decide (t.cfg.phase i < k) = true then _ else _ : InP α).cont = (if t.cfg.phase i < k then _ else _ : SIn α).cont
      by_cases hi : t.cfg.phase i < k
      · rw [if_pos (decide_eq_true hi), if_pos hi]; exact r.cont i
      · rw [if_neg (by simpa using hi), if_neg hi]; exact r.cont i
    · intro i
      show (if t.cfg.phase i < k then _ else _ : SIn α).past = true → t.cfg.phase i ≤ k
      by_cases hi : t.cfg.phase i < k
      · intro _; omega
      · rw [if_neg hi]
        intro h
        have := r.pastOk i h
        have := hc.1
        omega
    · intro i hi'
      show (if t.cfg.phase i < k then _ else _ : SIn α).pending = []
      split
      · exact r.far i hi'
      · exact r.far i hi'
  · rw [if_neg hc, if_neg hc]
    exact ⟨r, rfl⟩

theorem pass_step {s : Sys α} {t : Spec α} (r : Rep s t) (i : Nat) (hst : t.stack = []) :
    Rep (s.pass i).1 (t.pass i).1 ∧ (s.pass i).2 = (t.pass i).2 := by
  have h := r.pe i
  rw [hst] at h
  have h : PERep (s.ins i).pe (t.ins i) t.now t.cfg.cap false := h
  unfold Sys.pass Spec.pass
  rw [over_rep h, r.phase, r.cfg]
  simp only [Bool.not_false, Bool.true_and]
  by_cases hc : t.cfg.phase i = t.phase ∧ (t.ins i).over t.now = true
  · rw [if_pos hc, if_pos hc]
    exact ⟨r.setIn i _ _ (by rw [hst]; exact pass_rep h hc.2) (r.data i) (r.bound i) (r.cont i)
      (fun _ => Nat.le_of_eq hc.1) (r.far i), rfl⟩
  · rw [if_neg hc, if_neg hc]
    exact ⟨r, rfl⟩

theorem next_step {s : Sys α} {t : Spec α} (r : Rep s t) (hst : t.stack = []) :
    Rep s.next.1 t.next.1 ∧ s.next.2 = t.next.2 := by
  unfold Sys.next Spec.next
  rw [over_step r hst]
  cases hc : t.over fun _ => true with
  | true =>
    refine ⟨⟨r.cfg, congrArg (· + 1) r.now, rfl, r.outs, r.ocont, r.stack, ?_, r.data, r.bound, r.cont, r.frames, r.outsLt, r.outsNd,
      fun i h => (by cases h), r.far, r.one⟩, rfl⟩
    intro i
    have h := r.pe i
    rw [hst] at h
    show PERep ((s.ins i).pe.step .next).1 _ (t.now + 1) t.cfg.cap ((evs t.stack).contains i)
    rw [hst]
    exact next_rep h (over_all r hc i rfl)
  | false => exact ⟨r, rfl⟩

theorem cancelIn_step {s : Sys α} {t : Spec α} (r : Rep s t) (i : Nat) (op : PayloadEvent.Op α) (f : α → Bool)
    (h : PERep ((s.ins i).pe.step op).1 ((t.ins i).cancel f) t.now t.cfg.cap ((evs t.stack).contains i) ∧
      numOf ((s.ins i).pe.step op).2 = (t.ins i).cancelCount f) :
    Rep (s.cancelIn op i).1 (t.setIn i ((t.ins i).cancel f)) ∧ (s.cancelIn op i).2 = (t.ins i).cancelCount f := by
  refine ⟨r.setIn i _ _ h.1 (r.data i) (r.bound i) (r.cont i) (r.pastOk i) (fun hi => ?_), h.2⟩
  show (t.ins i).pending.filter _ = []
  rw [r.far i hi]; rfl

theorem cancelOut_step (op : PayloadEvent.Op α) (f : α → Bool)
    (h : ∀ {pe : PE α} {q : SIn α} {now cap : Nat} {run : Bool}, PERep pe q now cap run →
      PERep (pe.step op).1 (q.cancel f) now cap run ∧ numOf (pe.step op).2 = q.cancelCount f) :
    ∀ (L : List Nat) (s : Sys α) (t : Spec α), Rep s t → L.Nodup →
      Rep (s.cancelOut op L).1 { t with ins := fun i => if i ∈ L then (t.ins i).cancel f else t.ins i } ∧
        (s.cancelOut op L).2 = (L.map fun i => (t.ins i).cancelCount f).sum
  | [], s, t, r, _ => by
    refine ⟨?_, rfl⟩
    have e : { t with ins := fun i => if i ∈ ([] : List Nat) then (t.ins i).cancel f else t.ins i } = t := by simp
    rw [e]; exact r
  | i :: L, s, t, r, hn => by
    rw [List.nodup_cons] at hn
    obtain ⟨h1, h2⟩ := cancelIn_step r i op f (h (r.pe i))
    obtain ⟨h3, h4⟩ := cancelOut_step op f h L _ _ h1 hn.2
    have e : { t.setIn i ((t.ins i).cancel f) with
        ins := fun j => if j ∈ L then ((t.setIn i ((t.ins i).cancel f)).ins j).cancel f else (t.setIn i ((t.ins i).cancel f)).ins j } =
        { t with ins := fun j => if j ∈ i :: L then (t.ins j).cancel f else t.ins j } := by
      show Spec.mk _ _ _ _ _ _ _ = Spec.mk _ _ _ _ _ _ _
      congr 1
      funext j
      by_cases hj : j = i
      · subst hj; simp [Spec.setIn, upd, hn.1]
      · simp [Spec.setIn, upd, hj]
    rw [e] at h3
    refine ⟨h3, ?_⟩
    show (s.cancelIn op i).2 + (Sys.cancelOut (s.cancelIn op i).1 op L).2 = _
    rw [h2, h4, List.map_cons, List.sum_cons]
    congr 2
    refine List.map_congr_left fun j hj => ?_
    have hne : j ≠ i := fun hc => hn.1 (hc ▸ hj)
    simp [Spec.setIn, upd, hne]

theorem get_eq {p : InP α} {d : Option (α × Nat)} (h : DRep p d) : p.get = dataOf d := by
  unfold InP.get
  cases d with
  | none =>
    have : p.valid = false := h
    rw [if_pos this]; rfl
  | some e =>
    obtain ⟨x, u⟩ := e
    obtain ⟨h1, h2, _⟩ := h
    rw [if_neg (by rw [h1]; decide), h2]; rfl

theorem valid_eq {p : InP α} {d : Option (α × Nat)} (h : DRep p d) : p.valid = d.isSome := by
  cases d with
  | none => exact h
  | some e => exact h.1

theorem user_step {s : Sys α} {t : Spec α} (r : Rep s t) (o : Op α) (hl : t.legal o) :
    Rep (s.user o).1 (t.user o).1 ∧ (s.user o).2 = (t.user o).2 := by
  cases o with
  | bind o i =>
    have hi : i < t.cfg.n := hl
    show Rep (s.bind o i).1 _ ∧ _
    unfold Sys.user Sys.bind Spec.user
    rw [r.cfg, r.outs]
    dsimp only
    by_cases h1 : t.cfg.ifreq i ≠ t.cfg.ofreq o
    · rw [if_pos h1, if_pos h1]; exact ⟨r, rfl⟩
    rw [if_neg h1, if_neg h1]
    by_cases h2 : i ∈ t.outs o
    · rw [if_pos (by simpa using h2), if_pos h2]; exact ⟨r, rfl⟩
    rw [if_neg (by simpa using h2), if_neg h2]
    have r1 := r.setIn i { s.ins i with cont := s.ocont o, bound := (s.ins i).bound ++ [o] }
      { t.ins i with cont := t.ocont o, bound := (t.ins i).bound ++ [o] }
      (by obtain ⟨ps, r', i'⟩ := r.pe i
          exact ⟨ps, r', i'.cap, i'.now, i'.past, i'.fired, i'.refs, i'.canc, i'.pend, i'.cur, i'.notw, i'.run⟩) (r.data i)
      (by show _ ++ _ = _ ++ _; rw [r.bound i]) (by show s.ocont o = _; rw [r.ocont]) (r.pastOk i) (r.far i)
    refine ⟨⟨r1.cfg, r1.now, r1.phase, ?_, r1.ocont, r1.stack, r1.pe, r1.data, r1.bound, r1.cont, r1.frames, ?_, ?_, r1.pastOk, r1.far, r1.one⟩, rfl⟩
    · rfl
    · intro o' j hj
      have hj : j ∈ upd t.outs o (t.outs o ++ [i]) o' := hj
      by_cases ho : o' = o
      · subst ho
        simp only [upd, if_pos, List.mem_append, List.mem_singleton] at hj
        rcases hj with hj | rfl
        · exact r.outsLt o' j hj
        · exact hi
      · simp only [upd, if_neg ho] at hj
        exact r.outsLt o' j hj
    · intro o'
      show (upd t.outs o (t.outs o ++ [i]) o').Nodup
      by_cases ho : o' = o
      · subst ho
        simp only [upd, if_pos]
        rw [List.nodup_append]
        refine ⟨r.outsNd o', by simp, fun a ha b hb => ?_⟩
        rw [List.mem_singleton] at hb
        subst hb
        rintro rfl
        exact h2 ha
      · simp only [upd, if_neg ho]
        exact r.outsNd o'
  | send o x d =>
    have hd : ∀ i ∈ t.outs o, d + t.cfg.delay i < half := hl
    cases ho : t.outs o with
    | nil =>
      have h1 : s.user (.send o x d) = (s, .threw) := by unfold Sys.user; dsimp only; rw [r.outs, ho]; rfl
      have h2 : t.user (.send o x d) = (t, .threw) := by unfold Spec.user; dsimp only; rw [if_pos ho]
      rw [h1, h2]
      exact ⟨r, rfl⟩
    | cons a L =>
      have ho' : s.outs o = a :: L := by rw [r.outs, ho]
      have h1 : s.user (.send o x d) = ({ s with stack := .sending x d (a :: L) :: s.stack }, .done) := by
        unfold Sys.user; dsimp only; rw [ho']; rfl
      have h2 : t.user (.send o x d) = ({ t with stack := .sending x d (a :: L) :: t.stack }, .done) := by
        unfold Spec.user; dsimp only; rw [ho]; rfl
      rw [h1, h2]
      refine ⟨?_, rfl⟩
      show Rep { s with stack := .sending x d (a :: L) :: s.stack } { t with stack := .sending x d (a :: L) :: t.stack }
      rw [r.stack]
      refine r.setStack _ rfl ?_
      intro x' d' rest' h i hi
      rw [List.mem_cons] at h
      rcases h with h | h
      · cases h
        rw [← ho] at hi
        exact ⟨r.outsLt o i hi, hd i hi⟩
      · exact r.frames x' d' rest' h i hi
  | cancelIn i =>
    obtain ⟨h1, h2⟩ := cancelIn_step r i .cancelAll (fun _ => true) (cancelAll_rep (r.pe i))
    exact ⟨h1, congrArg Res.num h2⟩
  | cancelIfIn i f =>
    obtain ⟨h1, h2⟩ := cancelIn_step r i (.cancelIf f) f (cancelIf_rep (r.pe i) f)
    exact ⟨h1, congrArg Res.num h2⟩
  | cancelOut o =>
    obtain ⟨h1, h2⟩ := cancelOut_step .cancelAll (fun _ => true) (fun h => cancelAll_rep h) (t.outs o) s t r (r.outsNd o)
    unfold Sys.user
    dsimp only
    rw [r.outs]
    exact ⟨h1, by rw [h2]; rfl⟩
  | cancelIfOut o f =>
    obtain ⟨h1, h2⟩ := cancelOut_step (.cancelIf f) f (fun h => cancelIf_rep h f) (t.outs o) s t r (r.outsNd o)
    unfold Sys.user
    dsimp only
    rw [r.outs]
    exact ⟨h1, by rw [h2]; rfl⟩
  | drivenIn i =>
    refine ⟨r, ?_⟩
    show Res.yes ((s.ins i).driven .isScheduled) = _
    unfold InP.driven
    rw [driven_rep (r.pe i)]; rfl
  | drivenInAt i rel =>
    refine ⟨r, ?_⟩
    show Res.yes ((s.ins i).driven (.isScheduledAt rel)) = _
    unfold InP.driven
    rw [drivenAt_rep (r.pe i) rel hl]; rfl
  | drivenOut o =>
    refine ⟨r, ?_⟩
    show Res.yes ((s.outs o).any fun i => (s.ins i).driven .isScheduled) = Res.yes ((t.outs o).any fun i => (t.ins i).driven)
    rw [r.outs]
    congr 2
    funext i
    unfold InP.driven
    rw [driven_rep (r.pe i)]
  | drivenOutAt o rel =>
    refine ⟨r, ?_⟩
    have hl : rel ≠ 0 ∨ ∀ i ∈ t.outs o, (t.ins i).fired = false := hl
    show Res.yes ((s.outs o).any fun i => (s.ins i).driven (.isScheduledAt rel)) = Res.yes ((t.outs o).any fun i => (t.ins i).drivenAt (t.now + rel))
    rw [r.outs]
    congr 1
    have hi : ∀ i ∈ t.outs o, (s.ins i).driven (.isScheduledAt rel) = (t.ins i).drivenAt (t.now + rel) := by
      intro i hi
      unfold InP.driven
      rw [drivenAt_rep (r.pe i) rel (hl.imp id fun h => h i hi)]
    rw [Bool.eq_iff_iff, List.any_eq_true, List.any_eq_true]
    exact ⟨fun ⟨i, h1, h2⟩ => ⟨i, h1, by rw [← hi i h1]; exact h2⟩, fun ⟨i, h1, h2⟩ => ⟨i, h1, by rw [hi i h1]; exact h2⟩⟩
  | received i => exact ⟨r, congrArg Res.yes (valid_eq (r.data i))⟩
  | receivedNow i =>
    refine ⟨r, ?_⟩
    show Res.yes ((s.ins i).valid && decide ((s.ins i).stamp = s.now)) = Res.yes ((t.ins i).data.any fun e => e.2 == t.now)
    have := r.data i
    rw [r.now]
    cases hd : (t.ins i).data with
    | none =>
      rw [hd] at this
      have : (s.ins i).valid = false := this
      rw [this]; rfl
    | some e =>
      rw [hd] at this
      obtain ⟨x, u⟩ := e
      obtain ⟨h1, _, h3⟩ := this
      rw [h1, h3]
      show Res.yes (true && decide (u = t.now)) = Res.yes (u == t.now)
      congr 1
  | pull i =>
    refine ⟨?_, get_eq (r.data i)⟩
    show Rep (if (s.ins i).valid = false then s else s.setIn i { s.ins i with valid := false }) (t.setIn i { t.ins i with data := none })
    have hr := r.setIn i { s.ins i with valid := false } { t.ins i with data := none } (perep_data (r.pe i) none) rfl (r.bound i) (r.cont i) (r.pastOk i) (r.far i)
    split
    · rename_i hv
      have : s.setIn i { s.ins i with valid := false } = s := by
        unfold Sys.setIn
        have : upd s.ins i { s.ins i with valid := false } = s.ins := by
          funext j
          by_cases hj : j = i
          · subst hj; simp only [upd, if_pos]; rw [← hv]
          · simp [upd, hj]
        rw [this]
      rw [this] at hr
      exact hr
    · exact hr
  | peek i => exact ⟨r, get_eq (r.data i)⟩
  | clear i =>
    exact ⟨r.setIn i { s.ins i with valid := false } { t.ins i with data := none } (perep_data (r.pe i) none) rfl (r.bound i) (r.cont i) (r.pastOk i) (r.far i), rfl⟩
  | stamp i =>
    refine ⟨r, ?_⟩
    have := r.data i
    unfold Sys.user Spec.user
    dsimp only
    cases hd : (t.ins i).data with
    | none =>
      rw [hd] at this
      have : (s.ins i).valid = false := this
      rw [if_pos this]
    | some e =>
      rw [hd] at this
      obtain ⟨x, u⟩ := e
      obtain ⟨h1, _, h3⟩ := this
      rw [if_neg (by rw [h1]; decide), h3]
  | setContOut o b =>
    refine ⟨⟨r.cfg, r.now, r.phase, r.outs, ?_, r.stack, r.pe, r.data, r.bound, r.cont, r.frames, r.outsLt, r.outsNd, r.pastOk, r.far, r.one⟩, rfl⟩
    show upd s.ocont o b = upd t.ocont o b
    rw [r.ocont]
  | setContIn i b =>
    exact ⟨r.setIn i { s.ins i with cont := b } { t.ins i with cont := b }
      (by obtain ⟨ps, r', i'⟩ := r.pe i
          exact ⟨ps, r', i'.cap, i'.now, i'.past, i'.fired, i'.refs, i'.canc, i'.pend, i'.cur, i'.notw, i'.run⟩)
      (r.data i) (r.bound i) rfl (r.pastOk i) (r.far i), rfl⟩
  | isCont i => exact ⟨r, congrArg Res.yes (r.cont i)⟩
  | numBound o => exact ⟨r, by show Res.num (s.outs o).length = Res.num (t.outs o).length; rw [r.outs]⟩
  | cont => exact ⟨r, rfl⟩
  | fire i => exact ⟨r, rfl⟩
  | ret => exact ⟨r, rfl⟩
  | toPhase k => exact ⟨r, rfl⟩
  | pass i => exact ⟨r, rfl⟩
  | next => exact ⟨r, rfl⟩

theorem rep_step (s : Sys α) (t : Spec α) (o : Op α) (r : Rep s t) (hl : t.legal o) :
    Rep (s.step o).1 (t.step o).1 ∧ (s.step o).2 = (t.step o).2 := by
  have hu : Rep (if sending s.stack then (s, .busy) else s.user o : Sys α × Res α).1 (if sending t.stack then (t, .busy) else t.user o : Spec α × Res α).1 ∧
      (if sending s.stack then (s, .busy) else s.user o : Sys α × Res α).2 = (if sending t.stack then (t, .busy) else t.user o : Spec α × Res α).2 := by
    rw [r.stack]
    cases sending t.stack with
    | true => exact ⟨r, rfl⟩
    | false => exact user_step r o hl
  have hk : ∀ (a : Sys α × Res α) (b : Spec α × Res α), (t.stack = [] → Rep a.1 b.1 ∧ a.2 = b.2) →
      Rep (if s.stack.isEmpty then a else (s, .busy)).1 (if t.stack.isEmpty then b else (t, .busy)).1 ∧
        (if s.stack.isEmpty then a else (s, .busy)).2 = (if t.stack.isEmpty then b else (t, .busy)).2 := by
    intro a b h
    rw [r.stack]
    cases hst : t.stack with
    | nil => exact h hst
    | cons f st => exact ⟨r, rfl⟩
  cases o with
  | cont => exact cont_rep r
  | ret => exact ret_step r
  | fire i => exact hk _ _ fun h => fire_step r i h
  | toPhase k => exact hk _ _ fun h => toPhase_step r k h
  | pass i => exact hk _ _ fun h => pass_step r i h
  | next => exact hk _ _ fun h => next_step r h
  | _ => exact hu

end Sparta.DataPort
