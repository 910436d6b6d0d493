import Verif.Scheduler.Lemmas
/-!
What one call of `run` does: lemmas for the properties about stopping.
-/
namespace Sparta.Scheduler

theorem During.reach {cfg : Cfg} {H : St → Nat → List Call} {s0 s : St} {n : Option Nat} {ex : Bool}
    (h0 : Reach cfg H s0) (hp : s0.pc = .idle) (h : During cfg H s0 n ex s) : Reach cfg H s := by
  induction h with
  | start => exact .run n ex h0 hp
  | micro seen _ ih => exact .micro seen ih
  | async a _ ih => exact .async a ih

/-- nothing about stopping changed between two states -/
structure Quiet (s s' : St) : Prop where
  tick : s'.tick = s.tick
  running : s'.running = s.running
  latest : s.latest ≤ s'.latest
  stops : ∀ r, r.ev = .stop → (r ∈ pending s'.trace ↔ r ∈ pending s.trace)

theorem Quiet.refl (s : St) : Quiet s s := ⟨rfl, rfl, Nat.le_refl _, fun _ _ => Iff.rfl⟩

theorem Quiet.trans {a b c : St} (h1 : Quiet a b) (h2 : Quiet b c) : Quiet a c :=
  ⟨h2.tick.trans h1.tick, h2.running.trans h1.running, Nat.le_trans h1.latest h2.latest,
   fun r hr => (h2.stops r hr).trans (h1.stops r hr)⟩

theorem schedule_quiet {cfg : Cfg} {s s' : St} {e : Nat} {rel : Nat} {cont uniq : Bool}
    (h : s.scheduleEv cfg (.user e) rel cont uniq = some s') : Quiet s s' := by
  have hf := schedule_fields h
  refine ⟨hf.1, hf.2.2.2.1, ?_, ?_⟩
  · unfold St.scheduleEv at h
    simp only at h
    split at h
    · cases h
    split at h
    · cases h
    cases h
    unfold St.enqueue St.noteCont
    simp only
    split <;> split
    · exact Nat.le_max_left ..
    · exact Nat.le_max_left ..
    · exact Nat.le_refl _
    · exact Nat.le_refl _
  · intro r hr
    unfold St.scheduleEv at h
    simp only at h
    split at h
    · cases h
    split at h
    · cases h
    cases h
    unfold St.enqueue St.noteCont
    simp only
    have hne : ∀ g d c, r ≠ ⟨s.rid, .user e, d, g, c⟩ := by
      rintro g d c rfl; cases hr
    split <;> split <;> simp [pending_snoc, pendStep, hne]

theorem cancelObs_stops (tr : List Obs) (o : Obs) (ho : ∀ r : Req, r.ev = .stop → o.covers r = false)
    (hn : ∀ r t, o ≠ .fire r t) (hna : ∀ r a b, o ≠ .accept r a b) (r : Req) (hr : r.ev = .stop) :
    r ∈ pending (tr ++ [o]) ↔ r ∈ pending tr := by
  rw [pending_snoc]
  cases o with
  | accept => exact absurd rfl (hna _ _ _)
  | fire => exact absurd rfl (hn _ _)
  | _ => simp [pendStep, ho r hr]

theorem exec_quiet {cfg : Cfg} {s : St} {c : Call} (hc : c ≠ .stop) : Quiet s (s.exec cfg c) := by
  cases c with
  | schedule e rel cont uniq =>
    simp only [St.exec]
    cases h : s.scheduleEv cfg (.user e) rel cont uniq with
    | none => exact Quiet.refl s
    | some s' => exact schedule_quiet h
  | cancel e =>
    exact ⟨rfl, rfl, Nat.le_refl _, fun r hr => cancelObs_stops _ _ (by intro r hr; simp [Obs.covers, hr])
      (by simp) (by simp) r hr⟩
  | cancelAt e rel =>
    exact ⟨rfl, rfl, Nat.le_refl _, fun r hr => cancelObs_stops _ _ (by intro r hr; simp [Obs.covers, hr])
      (by simp) (by simp) r hr⟩
  | cancelAsync e =>
    exact ⟨rfl, rfl, Nat.le_refl _, fun r hr => cancelObs_stops _ _ (by intro r hr; simp [Obs.covers, hr])
      (by simp) (by simp) r hr⟩
  | stop => exact absurd rfl hc
  | throw => exact Quiet.refl s

theorem execAll_quiet {cfg : Cfg} {s : St} {cs : List Call} (hc : Call.stop ∉ cs) : Quiet s (s.execAll cfg cs) := by
  induction cs generalizing s with
  | nil => exact Quiet.refl s
  | cons c cs ih =>
    simp only [List.mem_cons, not_or] at hc
    by_cases ht : c = .throw
    · subst ht; exact ⟨rfl, rfl, Nat.le_refl _, fun _ _ => Iff.rfl⟩
    · have : s.execAll cfg (c :: cs) = (s.exec cfg c).execAll cfg cs := by
        cases c <;> first | rfl | exact absurd rfl ht
      rw [this]
      exact (exec_quiet (fun h => hc.1 h.symm)).trans (ih hc.2)

theorem drainAsync_quiet {cfg : Cfg} {as : List Async} {s s' : St} (h : s.drainAsync cfg as = some s') : Quiet s s' := by
  induction as generalizing s with
  | nil => cases h; exact Quiet.refl _
  | cons a as ih =>
    unfold St.drainAsync at h
    cases hs : s.scheduleEv cfg (.user a.e) a.rel a.cont false with
    | none => rw [hs] at h; cases h
    | some s1 =>
      rw [hs] at h
      exact (schedule_quiet hs).trans (ih h)

/-- still running towards the stop event at `T` (if any) -/
def Going (T : Option Nat) (ex : Bool) (s : St) : Prop :=
  s.running = true ∧ (∀ r ∈ pending s.trace, r.ev = .stop → T = some r.due) ∧
  (∀ t, T = some t → (∃ r ∈ pending s.trace, r.ev = .stop ∧ r.due = t) ∧ (ex = true → t ≤ s.latest))

/-- the stop event has fired -/
def Stopped (T : Option Nat) (s : St) : Prop := s.running = false ∧ T = some s.tick

/-- how a run may end -/
def Ended (T : Option Nat) (ex : Bool) (s : St) : Prop :=
  (∃ t, T = some t ∧ s.tick = t + 1) ∨
  ((∀ r ∈ pending s.trace, r.cont = false) ∧ ∀ t, T = some t → s.tick ≤ t + 1 ∧ ex = false)

def J (T : Option Nat) (ex : Bool) (s : St) : Prop :=
  match s.pc with
  | .loop => Going T ex s ∨ Stopped T s ∨ (s.running = false ∧ s.queue = [] ∧ T = none)
  | .firing => Going T ex s ∨ Stopped T s
  | .idle => Ended T ex s
  | .aborted => True

theorem Going.quiet {T : Option Nat} {ex : Bool} {s s' : St} (h : Going T ex s) (q : Quiet s s') : Going T ex s' := by
  obtain ⟨h1, h2, h3⟩ := h
  refine ⟨q.running.trans h1, fun r hr he => h2 r ((q.stops r he).1 hr) he, fun t ht => ?_⟩
  obtain ⟨⟨r, a, b, c⟩, d⟩ := h3 t ht
  exact ⟨⟨r, (q.stops r b).2 a, b, c⟩, fun he => Nat.le_trans (d he) q.latest⟩

theorem Stopped.quiet {T : Option Nat} {s s' : St} (h : Stopped T s) (q : Quiet s s') : Stopped T s' :=
  ⟨q.running.trans h.1, by rw [q.tick]; exact h.2⟩

theorem J.micro {cfg : Cfg} {H : St → Nat → List Call} {T : Option Nat} {ex : Bool} {s : St} {k : Nat}
    (I : Inv cfg s k) (hk : s.pc = .firing → k = s.idx) (hH : ∀ s e, Call.stop ∉ H s e) (j : J T ex s) (seen : Bool) :
    J T ex (s.micro cfg H seen) := by
  have ph := I.phase
  cases hp : s.pc with
  | idle => simpa [St.micro, hp] using j
  | aborted => simpa [St.micro, hp] using j
  | loop =>
    simp only [J, hp] at j
    simp only [Phase, hp] at ph
    simp only [St.micro, hp]
    by_cases hr : s.running = true
    · rw [if_pos hr]
      have hg : Going T ex s := by
        rcases j with j | j | j
        · exact j
        · rw [j.1] at hr; cases hr
        · rw [j.1] at hr; cases hr
      cases hq : s.queue with
      | nil => simp [J]
      | cons q qs =>
        simp only
        have hg1 : Going T ex (s.enterQuantum q) := hg
        unfold St.beginQuantum
        simp only
        split
        · split
          · rename_i s2 hs
            obtain rfl := ph.1
            have hpc : s2.pc = .firing := by
              have I1 := (I.beginQuantum hp hq false).1
              unfold St.beginQuantum at I1
              simp only [Bool.false_eq_true, if_false] at I1
              exact (I1.drainAsync rfl hs).2.1
            simp only [J, hpc]
            have := hg1.quiet (drainAsync_quiet hs)
            exact Or.inl this
          · rename_i hs
            obtain rfl := ph.1
            have hpc : ((s.enterQuantum q).drainStuck cfg (s.enterQuantum q).async).pc = .aborted := by
              have I1 := (I.beginQuantum hp hq false).1
              unfold St.beginQuantum at I1
              simp only [Bool.false_eq_true, if_false] at I1
              exact (I1.drainStuck rfl hs).2
            simp only [J, hpc]
        · simp only [J, St.enterQuantum]; exact Or.inl hg1
    · have hr' : s.running = false := by simpa using hr
      rw [if_neg hr]
      simp only [J, St.finish]
      rcases j with j | j | j
      · exact absurd j.1 hr
      · exact Or.inl ⟨s.tick, j.2, rfl⟩
      · refine Or.inr ⟨?_, by simp [j.2.2]⟩
        intro r hrp
        obtain ⟨q, hq, _⟩ := (I.agree r).1 hrp
        rw [j.2.1] at hq; simp at hq
  | firing =>
    obtain rfl := hk hp
    simp only [J, hp] at j
    have ph' := ph
    simp only [Phase, hp] at ph
    obtain ⟨q, qs, hq, e2, e3, e4, e5⟩ := ph
    have hqm : q ∈ s.queue := by simp [hq]
    simp only [St.micro, hp, hq]
    split
    · split
      · rename_i x hx
        obtain ⟨rid, ev, c⟩ := x
        have hpc := (I.fireEntry (H := H) hp hq hx).2
        have key : ∀ s', (s'.pc = .firing ∨ s'.pc = .aborted) → (Going T ex s' ∨ Stopped T s') →
            J T ex { s' with idx := s.idx + 1 } := by
          intro s' h1 h2
          rcases h1 with h1 | h1
          · simp only [J, h1]; exact h2
          · simp only [J, h1]
        refine key _ hpc ?_
        unfold St.fireEntry
        cases ev with
        | none => exact j
        | some ev =>
          have hpend := (I.fireObs hp hq hx).2
          cases ev with
          | stop =>
            simp only
            right
            refine ⟨rfl, ?_⟩
            rcases j with j | j
            · exact j.2.1 _ hpend rfl
            · exact j.2
          | user e =>
            simp only
            have hq1 : Quiet s { s with trace := s.trace ++ [.fire ⟨rid, .user e, s.tick, s.grp, c⟩ s.tick] } := by
              refine ⟨rfl, rfl, Nat.le_refl _, ?_⟩
              intro r hr
              simp only [pending_snoc, pendStep, List.mem_filter, decide_eq_true_eq]
              constructor
              · exact fun h => h.1
              · refine fun h => ⟨h, ?_⟩
                rintro rfl; cases hr
            have hq2 := hq1.trans (execAll_quiet (cfg := cfg) (hH { s with trace := s.trace ++ [.fire ⟨rid, .user e, s.tick, s.grp, c⟩ s.tick] } e))
            rcases j with j | j
            · exact Or.inl (j.quiet hq2)
            · exact Or.inr (j.quiet hq2)
      · simp only [J]; exact j
    · rename_i hn
      have hempty : ∀ g, q.groups g = [] := by
        intro g
        by_cases hg : g < s.grp
        · exact e4 g hg
        · cases hc : q.groups g with
          | nil => rfl
          | cons x xs =>
            have := (I.ent q hqm g x (by simp [hc])).2.1
            omega
      have hs := I.sorted
      rw [hq] at hs
      have hin : ∀ r ∈ pending s.trace, ∃ q' ∈ qs, q'.tick = r.due := by
        intro r hr
        obtain ⟨q', hq', f1, i, f2, f3⟩ := (I.agree r).1 hr
        rw [hq] at hq'
        rcases List.mem_cons.1 hq' with rfl | h
        · have := f2.lt; simp [hempty] at this
        · exact ⟨q', h, f1⟩
      unfold St.endQuantum
      cases hqs : qs with
      | nil =>
        simp only [J, St.finish]
        rcases j with j | j
        · refine Or.inr ⟨?_, ?_⟩
          · intro r hr
            obtain ⟨q', h', _⟩ := hin r hr
            rw [hqs] at h'; simp at h'
          · intro t ht
            obtain ⟨⟨r, hr, _⟩, _⟩ := j.2.2 t ht
            obtain ⟨q', h', _⟩ := hin r hr
            rw [hqs] at h'; simp at h'
        · exact Or.inl ⟨s.tick, j.2, rfl⟩
      | cons q' qs' =>
        simp only
        have hle : ∀ r ∈ pending s.trace, q'.tick ≤ r.due := by
          intro r hr
          obtain ⟨q'', h', h2⟩ := hin r hr
          rw [← h2]
          rw [hqs] at hs h'
          exact sorted_head_le (List.pairwise_cons.1 hs).2 q'' h'
        split
        · rename_i hlat
          simp only [J, St.finish]
          rcases j with j | j
          · refine Or.inr ⟨?_, ?_⟩
            · intro r hr
              cases hc : r.cont with
              | false => rfl
              | true => have h1 := I.contLe r hr hc; have h2 := hle r hr; omega
            · intro t ht
              obtain ⟨⟨r, hr, h1, h2⟩, h3⟩ := j.2.2 t ht
              have h4 := hle r hr
              have h5 : s.tick < q'.tick := by
                have := (List.pairwise_cons.1 hs).1 q' (by simp [hqs]); omega
              refine ⟨by show s.tick + 1 ≤ t + 1; omega, ?_⟩
              cases ex with
              | false => rfl
              | true => have := h3 rfl; omega
          · exact Or.inl ⟨s.tick, j.2, rfl⟩
        · simp only [J]
          rcases j with j | j
          · exact Or.inl j
          · exact Or.inr (Or.inl j)

theorem J.async {T : Option Nat} {ex : Bool} {s : St} (j : J T ex s) (a : Async) :
    J T ex { s with async := s.async ++ [a] } := by
  unfold J at *
  exact j

/-- the group counter and the recycled `first_group_idx` values stay in range -/
structure GB (cfg : Cfg) (s : St) : Prop where
  first : ∀ q ∈ s.queue, q.first < cfg.nGroups
  grp : s.pc ≠ .firing → s.pc ≠ .loop → s.grp < cfg.nGroups

theorem withQuantum_first {cfg : Cfg} {t first g : Nat} {x : Entry} {l : List Quantum} (hg : g < cfg.nGroups)
    (h : ∀ q ∈ l, q.first < cfg.nGroups) : ∀ q ∈ withQuantum t first (·.addEvent g x) l, q.first < cfg.nGroups := by
  induction l with
  | nil =>
    intro q hq
    simp only [withQuantum, List.mem_singleton] at hq
    subst hq
    show min _ _ < _; omega
  | cons a l ih =>
    intro q hq
    unfold withQuantum at hq
    split at hq
    · rcases List.mem_cons.1 hq with rfl | hq
      · show min _ _ < _; omega
      · exact h q (by simp [hq])
    · split at hq
      · rcases List.mem_cons.1 hq with rfl | hq
        · show min _ _ < _; omega
        · exact h q hq
      · rcases List.mem_cons.1 hq with rfl | hq
        · exact h q (by simp)
        · exact ih (fun q hq => h q (by simp [hq])) q hq

theorem GB.schedule {cfg : Cfg} {s s' : St} (I : GB cfg s) {ev : Ev} {rel : Nat} {cont uniq : Bool}
    (h : s.scheduleEv cfg ev rel cont uniq = some s') : GB cfg s' := by
  have hf := schedule_fields h
  refine ⟨?_, by rw [hf.2.2.1, hf.2.1]; exact I.grp⟩
  unfold St.scheduleEv at h
  simp only at h
  split at h
  · cases h
  split at h
  · cases h
  rename_i hg
  cases h
  unfold St.enqueue St.noteCont
  simp only
  have := withQuantum_first (cfg := cfg) (t := s.tick + rel) (first := allocFirst s.free)
    (x := ⟨s.rid, some ev, cont⟩) (g := cfg.fgEv ev) (by omega) I.first
  split <;> split
  · exact I.first
  · exact this
  · exact I.first
  · exact this

theorem GB.exec {cfg : Cfg} {s : St} (I : GB cfg s) (c : Call) :
    GB cfg (s.exec cfg c) ∧ (s.exec cfg c).pc = s.pc ∧ (s.exec cfg c).grp = s.grp := by
  have hmap : ∀ (l : List Quantum) (f : Quantum → Quantum), (∀ q, (f q).first = q.first) →
      (∀ q ∈ l, q.first < cfg.nGroups) → ∀ q ∈ l.map f, q.first < cfg.nGroups := by
    intro l f hf h q hq
    obtain ⟨q', h1, rfl⟩ := List.mem_map.1 hq
    rw [hf]; exact h q' h1
  cases c with
  | schedule e rel cont uniq =>
    simp only [St.exec]
    cases h : s.scheduleEv cfg (.user e) rel cont uniq with
    | none => exact ⟨I, rfl, rfl⟩
    | some s' => exact ⟨I.schedule h, (schedule_fields h).2.2.1, (schedule_fields h).2.1⟩
  | cancel e => exact ⟨⟨hmap _ _ (fun _ => rfl) I.first, I.grp⟩, rfl, rfl⟩
  | cancelAt e rel =>
    refine ⟨⟨?_, I.grp⟩, rfl, rfl⟩
    show ∀ q ∈ cancelQuantum _ _ _ _, _
    have h := I.first
    generalize s.queue = l at h
    induction l with
    | nil => simp [cancelQuantum]
    | cons a l ih =>
      intro q hq
      unfold cancelQuantum at hq
      split at hq
      · rcases List.mem_cons.1 hq with rfl | hq
        · exact h a (by simp)
        · exact h q (by simp [hq])
      · rcases List.mem_cons.1 hq with rfl | hq
        · exact h _ (by simp)
        · exact ih (fun q hq => h q (by simp [hq])) q hq
  | cancelAsync e => exact ⟨⟨hmap _ _ (fun _ => rfl) I.first, I.grp⟩, rfl, rfl⟩
  | stop => exact ⟨⟨I.first, I.grp⟩, rfl, rfl⟩
  | throw => exact ⟨I, rfl, rfl⟩

theorem GB.execAll {cfg : Cfg} {s : St} (I : GB cfg s) (hg : s.grp < cfg.nGroups) (cs : List Call) :
    GB cfg (s.execAll cfg cs) ∧ (s.execAll cfg cs).grp < cfg.nGroups := by
  induction cs generalizing s with
  | nil => exact ⟨I, hg⟩
  | cons c cs ih =>
    by_cases ht : c = .throw
    · subst ht; exact ⟨⟨I.first, fun _ _ => hg⟩, hg⟩
    · have : s.execAll cfg (c :: cs) = (s.exec cfg c).execAll cfg cs := by
        cases c <;> first | rfl | exact absurd rfl ht
      rw [this]
      have h1 := I.exec c
      exact ih h1.1 (by rw [h1.2.2]; exact hg)

theorem GB.drain {cfg : Cfg} {as : List Async} {s : St} (I : GB cfg s) (hg : s.grp < cfg.nGroups) :
    GB cfg (s.drainStuck cfg as) ∧ ∀ s', s.drainAsync cfg as = some s' → GB cfg s' := by
  induction as generalizing s with
  | nil => exact ⟨I, fun s' h => by cases h; exact I⟩
  | cons a as ih =>
    unfold St.drainAsync St.drainStuck
    cases hs : s.scheduleEv cfg (.user a.e) a.rel a.cont false with
    | none => exact ⟨⟨I.first, fun _ _ => hg⟩, fun s' h => by cases h⟩
    | some s1 =>
      exact ih (I.schedule hs) (by rw [(schedule_fields hs).2.1]; exact hg)

theorem Reach.gb {cfg : Cfg} {H : St → Nat → List Call} {s : St} (h : Reach cfg H s) : GB cfg s := by
  have hz : 0 < cfg.nGroups := by simp [Cfg.nGroups]
  induction h with
  | init => exact ⟨by simp [St.init], by simp [St.init, hz]⟩
  | call c _ hp ih => exact (ih.exec c).1
  | @run s n ex _ hp ih =>
    have hg := ih.grp (by simp [hp]) (by simp [hp])
    unfold St.startRun
    split
    · exact ih
    · cases n with
      | none => exact ⟨ih.first, by simp⟩
      | some n =>
        simp only
        split
        · split
          · exact ⟨ih.first, fun _ _ => hg⟩
          · exact ⟨ih.first, fun _ _ => hg⟩
        · cases hs : St.scheduleEv cfg { s with firstTick := false, running := !s.queue.isEmpty } .stop (n - 1) ex false with
          | none => exact ⟨ih.first, by simp⟩
          | some s2 =>
            have I1 : GB cfg { s with firstTick := false, running := !s.queue.isEmpty } := ⟨ih.first, fun _ _ => hg⟩
            exact ⟨(I1.schedule hs).first, by simp⟩
  | restart t _ hp ih =>
    exact ⟨by simp [St.restartAt, St.clearEvents], fun _ _ => ih.grp (by simp [hp]) (by simp [hp])⟩
  | clear _ hp ih => exact ⟨by simp [St.clearEvents], fun _ _ => ih.grp (by simp [hp]) (by simp [hp])⟩
  | recover t _ hp ih =>
    exact ⟨by simp [St.recover, St.restartAt, St.clearEvents], fun _ _ => ih.grp (by simp [hp]) (by simp [hp])⟩
  | async a _ ih => exact ⟨ih.first, ih.grp⟩
  | @micro s seen hr ih =>
    obtain ⟨k, I, hk⟩ := hr.inv
    have ph := I.phase
    cases hp : s.pc with
    | idle => simpa [St.micro, hp] using ih
    | aborted => simpa [St.micro, hp] using ih
    | loop =>
      simp only [St.micro, hp]
      simp only [Phase, hp] at ph
      split
      · rename_i hrun
        cases hq : s.queue with
        | nil => exact absurd hq (ph.2.2.2.2.2 hrun)
        | cons q qs =>
          have hf := ih.first q (by simp [hq])
          have I1 : GB cfg (s.enterQuantum q) := ⟨ih.first, by simp [St.enterQuantum]⟩
          have I2 := I1.drain (as := (s.enterQuantum q).async) hf
          unfold St.beginQuantum
          simp only
          split
          · split
            · rename_i s2 hs
              have := I2.2 s2 hs
              exact ⟨this.first, this.grp⟩
            · exact I2.1
          · exact I1
      · exact ⟨ih.first, fun _ _ => hz⟩
    | firing =>
      simp only [Phase, hp] at ph
      obtain ⟨q, qs, hq, _⟩ := ph
      have hqs : ∀ q' ∈ qs, q'.first < cfg.nGroups := fun q' h => ih.first q' (by simp [hq, h])
      simp only [St.micro, hp, hq]
      split
      · rename_i hg
        split
        · rename_i x hx
          suffices h : GB cfg (s.fireEntry cfg H x) from ⟨h.first, h.grp⟩
          unfold St.fireEntry
          split
          · exact ih
          · exact ⟨ih.first, ih.grp⟩
          · rename_i e _
            have h1 : GB cfg { s with trace := s.trace ++ [.fire ⟨x.rid, .user e, s.tick, s.grp, x.cont⟩ s.tick] } :=
              ⟨ih.first, ih.grp⟩
            exact (h1.execAll hg _).1
        · refine ⟨?_, by simp⟩
          intro q' hq'
          rcases List.mem_cons.1 hq' with rfl | h
          · exact ih.first q (by simp [hq])
          · exact hqs q' h
      · unfold St.endQuantum
        cases hc : qs with
        | nil => exact ⟨by simp [St.finish], fun _ _ => hz⟩
        | cons q' qs' =>
          simp only
          split
          · exact ⟨hc ▸ hqs, fun _ _ => hz⟩
          · exact ⟨hc ▸ hqs, by simp⟩

/-- entering a limited run always succeeds in scheduling the stop event -/
theorem schedule_stop {cfg : Cfg} {s : St} (hg : s.grp < cfg.nGroups) (rel : Nat) (ex : Bool) :
    ∃ s2, s.scheduleEv cfg .stop rel ex false = some s2 ∧
      s2.trace = s.trace ++ [.accept ⟨s.rid, .stop, s.tick + rel, cfg.groupZero, ex⟩ s.tick rel] ∧
      (ex = true → s.tick + rel ≤ s2.latest) := by
  have h1 : ¬ (rel = 0 ∧ cfg.groupZero < s.grp) := by
    simp only [Cfg.nGroups, Cfg.groupZero] at *; omega
  have h2 : cfg.groupZero < cfg.nGroups := by simp [Cfg.nGroups, Cfg.groupZero]
  refine ⟨_, by simp only [St.scheduleEv, Cfg.fgEv, h1, h2, if_false, not_true_eq_false]; rfl, ?_, ?_⟩
  · simp only [St.enqueue, St.noteCont]
    cases ex <;> simp
  · rintro rfl
    simp only [St.enqueue, St.noteCont]
    simp
    exact Nat.le_max_right ..

/-- entering `run` establishes `J`, unless the run returns at once because nothing is due within it -/
theorem J.start {cfg : Cfg} {H : St → Nat → List Call} {s : St} (hr : Reach cfg H s) (hp : s.pc = .idle)
    (hns : ∀ r ∈ pending s.trace, r.ev ≠ .stop) (n : Option Nat) (ex : Bool) (hn : n ≠ some 0)
    (hw : ∀ m, n = some m → s.nothingWithin m = false) :
    J (n.map (fun m => s.tick + m - 1)) ex (s.startRun cfg n ex) := by
  obtain ⟨k, I, _⟩ := hr.inv
  unfold St.startRun
  rw [if_neg hn]
  cases n with
  | none =>
    simp only [J, Option.map_none]
    by_cases hq : s.queue = []
    · right; right; simp [hq]
    · left
      refine ⟨by simpa using hq, ?_, by simp⟩
      intro r hr he
      exact absurd he (hns r hr)
  | some m =>
    have hw' := hw m rfl
    have hne : s.queue ≠ [] := by
      intro hq; simp [St.nothingWithin, hq] at hw'
    simp only
    have hw2 : ({ s with firstTick := false, running := !s.queue.isEmpty } : St).nothingWithin m = false := hw'
    rw [hw2]
    simp only [Bool.false_eq_true, if_false]
    obtain ⟨s2, h1, h2, h3⟩ := schedule_stop (cfg := cfg)
      (s := { s with firstTick := false, running := !s.queue.isEmpty }) (hr.gb.grp (by simp [hp]) (by simp [hp])) (m - 1) ex
    rw [h1]
    have hm : m ≠ 0 := by rintro rfl; exact hn rfl
    have hT : s.tick + m - 1 = s.tick + (m - 1) := by omega
    simp only [Option.getD_some, J]
    left
    refine ⟨?_, ?_, ?_⟩
    · show s2.running = true
      rw [(schedule_fields h1).2.2.2.1]; simpa using hne
    · show ∀ r ∈ pending s2.trace, _
      rw [h2]
      intro r hr he
      simp only [pending_snoc, pendStep, List.mem_cons] at hr
      rcases hr with rfl | hr
      · simp [hT]
      · exact absurd he (hns r hr)
    · intro t ht
      simp only [Option.map_some, Option.some.injEq] at ht
      subst ht
      refine ⟨⟨⟨s.rid, .stop, s.tick + (m - 1), cfg.groupZero, ex⟩, ?_, rfl, hT.symm⟩, fun h => hT ▸ h3 h⟩
      show _ ∈ pending s2.trace
      rw [h2]
      simp [pending_snoc, pendStep]

theorem J.during {cfg : Cfg} {H : St → Nat → List Call} {s0 s : St} (hr : Reach cfg H s0) (hp : s0.pc = .idle)
    (hH : ∀ s e, Call.stop ∉ H s e)
    (hns : ∀ r ∈ pending s0.trace, r.ev ≠ .stop) {n : Option Nat} {ex : Bool} (hn : n ≠ some 0)
    (hw : ∀ m, n = some m → s0.nothingWithin m = false) (h : During cfg H s0 n ex s) :
    J (n.map (fun m => s0.tick + m - 1)) ex s := by
  induction h with
  | start => exact J.start hr hp hns n ex hn hw
  | micro seen hd ih =>
    obtain ⟨k, I, hk⟩ := (hd.reach hr hp).inv
    exact ih.micro I hk hH seen
  | async a _ ih => exact ih.async a

/-- a run that returns at once -/
theorem During.immediate {cfg : Cfg} {H : St → Nat → List Call} {s0 s : St} (hp : s0.pc = .idle)
    {m : Nat} {ex : Bool} (hw : m = 0 ∨ s0.nothingWithin m = true) (h : During cfg H s0 (some m) ex s) :
    s.tick = (if ex then s0.tick + m else s0.tick) ∧ s.pc = .idle ∧ s.queue = s0.queue ∧ s.trace = s0.trace ∧
      s.elapsed = (if ex ∧ m ≠ 0 then s0.elapsed + dist (s0.tick + m) (s0.elapsed + 1) else s0.elapsed) := by
  induction h with
  | start =>
    unfold St.startRun
    by_cases hm : m = 0
    · subst hm; simp [hp]
    · have hw1 : s0.nothingWithin m = true := by rcases hw with h | h <;> first | exact absurd h hm | exact h
      have hw2 : ({ s0 with firstTick := false, running := !s0.queue.isEmpty } : St).nothingWithin m = true := hw1
      rw [if_neg (by simp [hm])]
      simp only [hw2, if_true]
      cases ex <;> simp [hp, hm]
  | micro seen _ ih => simpa [St.micro, ih.2.1] using ih
  | async a _ ih => exact ih

end Sparta.Scheduler
