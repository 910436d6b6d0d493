import Verif.Counter.Spec

/-!
# Lemmas on counters
-/

namespace Sparta.Counter

theorem shown_append (b : Behavior) (os ps : List Op) (v : Nat) :
    shown b (os ++ ps) v = shown b ps (shown b os v) := by
  induction os generalizing v with
  | nil => rfl
  | cons o os ih => cases o <;> simp [shown, ih]

/-- a counter shows the sum modulo the word -/
theorem ctr_run (os : List Op) (c : Ctr) (v : Nat) (h : c.val % word = v % word) (hw : ∀ w, Op.set w ∈ os → w < word) :
    (runOps Ctr.step c os).1.behavior = c.behavior ∧
      (runOps Ctr.step c os).1.val % word = shown c.behavior os v % word := by
  induction os generalizing c v with
  | nil => exact ⟨rfl, h⟩
  | cons o os ih =>
    have hadd : ∀ n, (c.val + n) % word % word = (v + n) % word := fun n => by
      rw [Nat.mod_mod, Nat.add_mod, h, ← Nat.add_mod]
    have hos : ∀ w, Op.set w ∈ os → w < word := fun w hm => hw w (List.mem_cons_of_mem _ hm)
    cases o with
    | set w =>
      by_cases hb : c.behavior = .latest
      · have hs : Ctr.step c (.set w) = ({ c with val := w }, .val w) := by simp [Ctr.step, Ctr.set, hb]
        have := ih { c with val := w } w rfl hos
        simp only [runOps, hs, shown, if_pos hb] at this ⊢
        exact this
      · have hs : Ctr.step c (.set w) = (c, .threw) := by simp [Ctr.step, Ctr.set, hb]
        have := ih c v h hos
        simp only [runOps, hs, shown, if_neg hb] at this ⊢
        exact this
    | add n => exact ih (c.increment n) (v + n) (hadd n) hos
    | pre => exact ih (c.increment 1) (v + 1) (hadd 1) hos
    | post => exact ih (c.increment 1) (v + 1) (hadd 1) hos
    | get => exact ih c v h hos

theorem ctr_lt (os : List Op) (c : Ctr) (h : c.val < word) (hw : ∀ w, Op.set w ∈ os → w < word) :
    (runOps Ctr.step c os).1.val < word := by
  have hpos : 0 < word := by decide
  induction os generalizing c with
  | nil => exact h
  | cons o os ih =>
    refine ih _ ?_ fun w hm => hw w (List.mem_cons_of_mem _ hm)
    cases o with
    | set w =>
      have := hw w (List.mem_cons_self ..)
      by_cases hb : c.behavior = .latest <;> simp [Ctr.step, Ctr.set, hb, h, this]
    | add n => exact Nat.mod_lt _ hpos
    | pre => exact Nat.mod_lt _ hpos
    | post => exact Nat.mod_lt _ hpos
    | get => exact h

/-! ## cycle counters -/

structure CRep (s : CSys) (t : CSpec) : Prop where
  now : s.now = t.now
  fits : t.now < word - half
  count : s.c.count = (t.closed.map Period.total).sum % word
  counting : s.c.counting = t.cur.isSome
  cur : ∀ m f, t.cur = some (m, f) → s.c.mult = m ∧ s.c.start = f ∧ f < word

theorem crep_init {now : Nat} (h : now < word - half) : CRep (.init now) (.init now) :=
  ⟨rfl, h, rfl, rfl, fun _ _ h => by cases h⟩

theorem mod_delay {now d : Nat} (h : now < word - half) (hd : d < half) : (now + d) % word = now + d := by
  apply Nat.mod_eq_of_lt
  have : half ≤ word := by decide
  omega

theorem add_total (closed : List Period) (m f e : Nat) :
    ((closed.map Period.total).sum % word + (e - f) * m) % word =
      (((closed ++ [(⟨m, f, e⟩ : Period)]).map Period.total).sum) % word := by
  rw [Nat.mod_add_mod]
  simp [Period.total, Nat.mul_comm]

theorem CRep.stop {s : CSys} {t : CSpec} (r : CRep s t) {d : Nat} (hd : d < half) :
    s.c.stop s.now d =
      match t.cur with
      | none => none
      | some (m, f) =>
        if f ≤ t.now + d then
          some { s.c with count := ((t.closed ++ [(⟨m, f, t.now + d⟩ : Period)]).map Period.total).sum % word, counting := false }
        else none := by
  unfold Cyc.stop
  have hm := mod_delay r.fits hd
  cases hc : t.cur with
  | none => rw [if_pos (by rw [r.counting, hc]; rfl)]
  | some p =>
    obtain ⟨m, f⟩ := p
    obtain ⟨h1, h2, _⟩ := r.cur m f hc
    rw [if_neg (by rw [r.counting, hc]; simp), r.now, hm, h1, h2, r.count, add_total]
    by_cases hf : f ≤ t.now + d
    · rw [if_neg (by omega)]; simp only [if_pos hf, h1, h2]
    · rw [if_pos (by omega)]; simp only [if_neg hf]

theorem CRep.get {s : CSys} {t : CSpec} (r : CRep s t) : s.c.get s.now = t.value % word := by
  unfold Cyc.get CSpec.value CSpec.periods
  rw [r.counting, r.count, r.now]
  cases hc : t.cur with
  | none => simp
  | some p =>
    obtain ⟨m, f⟩ := p
    obtain ⟨h1, h2, _⟩ := r.cur m f hc
    rw [h1, h2]
    by_cases hf : t.now > f
    · rw [if_pos (by simp [hf])]; exact add_total ..
    · rw [if_neg (by simp [hf])]
      have : t.now - f = 0 := by omega
      simp [Period.total, this]

theorem CRep.start {s : CSys} {t : CSpec} (r : CRep s t) {m d : Nat} (hd : d < half) :
    s.c.start_ s.now m d =
      match t.cur with
      | some _ => none
      | none => some { s.c with mult := m, start := t.now + d, counting := true } := by
  unfold Cyc.start_
  cases hc : t.cur with
  | some p => rw [if_pos (by rw [r.counting, hc]; rfl)]
  | none => rw [if_neg (by rw [r.counting, hc]; simp), r.now, mod_delay r.fits hd]

theorem CRep.update {s : CSys} {t : CSpec} (r : CRep s t) {m : Nat} :
    s.c.update s.now m =
      match t.cur with
      | none => some { s.c with mult := m, start := t.now, counting := true }
      | some (m', f) =>
        if f ≤ t.now then
          some ⟨m, ((t.closed ++ [(⟨m', f, t.now⟩ : Period)]).map Period.total).sum % word, t.now, true⟩
        else none := by
  have hh : 0 < half := by decide
  unfold Cyc.update
  cases hc : t.cur with
  | none =>
    rw [if_neg (by rw [r.counting, hc]; simp), Option.bind_some, r.start hh, hc]; rfl
  | some p =>
    obtain ⟨m', f⟩ := p
    have hs := r.stop hh
    rw [hc] at hs
    simp only [Nat.add_zero] at hs
    rw [if_pos (by rw [r.counting, hc]; rfl), hs]
    by_cases hf : f ≤ t.now
    · rw [if_pos hf]
      simp only [Option.bind_some, Cyc.start_, if_pos hf]
      rw [if_neg (by simp), r.now, mod_delay r.fits hh]; rfl
    · rw [if_neg hf]; simp only [if_neg hf]; rfl

theorem crep_step (s : CSys) (t : CSpec) (o : COp) (hl : t.legal o) (r : CRep s t) :
    CRep (s.step o).1 (t.step o).1 ∧ (s.step o).2 = (t.step o).2 := by
  have hh : 0 < half := by decide
  cases o with
  | tick k => exact ⟨⟨by simp [CSys.step, CSpec.step, r.now], hl, r.count, r.counting, r.cur⟩, rfl⟩
  | start m d =>
    have hs := r.start (m := m) hl.2
    simp only [CSys.step, CSpec.step, hs]
    cases hc : t.cur with
    | some p => exact ⟨r, rfl⟩
    | none =>
      refine ⟨⟨r.now, r.fits, r.count, rfl, fun m' f h => ?_⟩, rfl⟩
      cases h
      refine ⟨rfl, rfl, ?_⟩
      have := hl.2
      have := r.fits
      omega
  | stop d =>
    have hs := r.stop (d := d) hl
    simp only [CSys.step, CSpec.step, hs]
    cases hc : t.cur with
    | none => exact ⟨r, rfl⟩
    | some p =>
      obtain ⟨m, f⟩ := p
      by_cases hf : f ≤ t.now + d
      · simp only [if_pos hf]
        exact ⟨⟨r.now, r.fits, rfl, rfl, fun _ _ h => by cases h⟩, rfl⟩
      · simp only [if_neg hf]
        exact ⟨r, rfl⟩
  | update m =>
    have hw : t.now < word := by have := r.fits; omega
    have hs := r.update (m := m)
    simp only [CSys.step, CSpec.step, hs]
    cases hc : t.cur with
    | none => exact ⟨⟨r.now, r.fits, r.count, rfl, fun m' f h => by cases h; exact ⟨rfl, rfl, hw⟩⟩, rfl⟩
    | some p =>
      obtain ⟨m', f⟩ := p
      by_cases hf : f ≤ t.now
      · simp only [if_pos hf]
        exact ⟨⟨r.now, r.fits, rfl, rfl, fun m' f h => by cases h; exact ⟨rfl, rfl, hw⟩⟩, rfl⟩
      · simp only [if_neg hf]
        exact ⟨r, rfl⟩
  | get => exact ⟨r, by simp only [CSys.step, CSpec.step, r.get]⟩
  | isCounting => exact ⟨r, by simp only [CSys.step, CSpec.step, r.counting]⟩

/-! ## cycle by cycle -/

structure LRep (t : CSpec) (l : Log) : Prop where
  rate : t.cur.map Prod.fst = l.rate
  first : ∀ m f, t.cur = some (m, f) → f ≤ t.now
  sum : t.value = l.cycles.sum

theorem value_eq (t : CSpec) : t.value =
    (t.closed.map Period.total).sum + (match t.cur with | none => 0 | some (m, f) => m * (t.now - f)) := by
  unfold CSpec.value CSpec.periods
  cases t.cur with
  | none => simp
  | some p => simp [Period.total]

theorem lrep_step (t : CSpec) (l : Log) (o : COp) (hp : o.prompt) (r : LRep t l) :
    LRep (t.step o).1 (l.step o) := by
  obtain ⟨h1, h2, h3⟩ := r
  rw [value_eq] at h3
  cases o with
  | tick k =>
    refine ⟨h1, fun m f h => Nat.le_trans (h2 m f h) (Nat.le_add_right ..), ?_⟩
    rw [value_eq]
    cases hc : t.cur with
    | none => rw [hc] at h1 h3; simp [CSpec.step, Log.step, hc, ← h1, ← h3]
    | some p =>
      obtain ⟨m, f⟩ := p
      rw [hc] at h1 h3
      have := h2 m f hc
      have e : t.now + k - f = (t.now - f) + k := by omega
      simp [CSpec.step, Log.step, hc, ← h1, ← h3, e, Nat.mul_add, Nat.mul_comm, Nat.add_assoc]
  | start m d =>
    have hd : d = 0 := hp
    subst hd
    cases hc : t.cur with
    | none =>
      rw [hc] at h1 h3
      refine ⟨by simp [CSpec.step, Log.step, hc, ← h1], fun m f h => ?_, ?_⟩
      · simp [CSpec.step, hc] at h ⊢; omega
      · rw [value_eq]; simp [CSpec.step, Log.step, hc, ← h1, ← h3]
    | some p =>
      rw [hc] at h1 
      have e1 : (t.step (.start m 0)).1 = t := by simp [CSpec.step, hc]
      have e2 : l.step (.start m 0) = l := by simp [Log.step, ← h1]
      rw [e1, e2]
      exact ⟨by rw [hc]; exact h1, h2, by rw [value_eq]; exact h3⟩
  | stop d =>
    have hd : d = 0 := hp
    subst hd
    cases hc : t.cur with
    | none =>
      rw [hc] at h1 h3
      refine ⟨by simp [CSpec.step, Log.step, hc], fun m f h => by simp [CSpec.step, hc] at h, ?_⟩
      rw [value_eq]; simp [CSpec.step, Log.step, hc, ← h3]
    | some p =>
      obtain ⟨m, f⟩ := p
      rw [hc] at h1 h3
      have := h2 m f hc
      refine ⟨by simp [CSpec.step, Log.step, hc, this], fun m f h => by simp [CSpec.step, hc, this] at h, ?_⟩
      rw [value_eq]; simp [CSpec.step, Log.step, hc, this, ← h3, Period.total]
  | update m =>
    cases hc : t.cur with
    | none =>
      rw [hc] at h1 h3
      refine ⟨by simp [CSpec.step, Log.step, hc], fun m f h => ?_, ?_⟩
      · simp [CSpec.step, hc] at h ⊢; omega
      · rw [value_eq]; simp [CSpec.step, Log.step, hc, ← h3]
    | some p =>
      obtain ⟨m', f⟩ := p
      rw [hc] at h1 h3
      have := h2 m' f hc
      refine ⟨by simp [CSpec.step, Log.step, hc, this], fun m f h => ?_, ?_⟩
      · simp [CSpec.step, hc, this] at h ⊢; omega
      · rw [value_eq]; simp [CSpec.step, Log.step, hc, this, ← h3, Period.total]
  | get => exact ⟨h1, h2, by rw [value_eq]; exact h3⟩
  | isCounting => exact ⟨h1, h2, by rw [value_eq]; exact h3⟩

end Sparta.Counter
