import Verif.Collect.Lemmas
/-!
The system and what its users see: every call of the interface.
-/
namespace Sparta.Collect

/-- the registered collectables are those that are on, the next heartbeat is scheduled, the future is not in the picture -/
structure Good (r : Fr) (v : View) : Prop where
  nd : r.reg.Nodup
  reg : ∀ i, i ∈ r.reg ↔ i ∈ v.on
  nde : r.en.Nodup
  en : ∀ i, i ∈ r.en ↔ v.auto i = true ∧ (i ∈ v.on ∨ i ∈ v.stale)
  beat : v.active = true → r.last + v.H ∈ r.hbs
  fut : v.active = true → ∀ i t, v.now ≤ t → v.pic v.path i t = []
  strict : r.strict = true
  mul : ∀ h, h ∈ r.hbs → h % v.H = 0

def Inv (s : Sys) (v : View) : Prop := ∃ r, Rel r s v ∧ Good r v

variable {r : Fr}

theorem Good.update {v : View} (G : Good r v) (f : Nat → Option Val) : Good r (v.update f) :=
  ⟨G.nd, G.reg, G.nde, G.en, G.beat, G.fut, G.strict, G.mul⟩

theorem single_nil {v : View} {i : Nat} (h : v.cur i = []) : v.update (single i []) = v := by
  have := single_self v i
  rwa [h] at this

theorem mem_insertNew (a b : Nat) (l : List Nat) : a ∈ insertNew b l ↔ a = b ∨ a ∈ l := by
  unfold insertNew
  split
  · constructor
    · exact .inr
    · rintro (h | h)
      · subst h; assumption
      · exact h
  · simp [or_comm]

theorem nodup_insertNew (b : Nat) (l : List Nat) (h : l.Nodup) : (insertNew b l).Nodup := by
  unfold insertNew
  split
  · exact h
  · rename_i hb
    rw [List.nodup_append]
    refine ⟨h, by simp, ?_⟩
    intro a ha c hc
    simp at hc
    subst hc
    exact fun e => hb (e ▸ ha)

/-- collecting when it may be off -/
theorem Rel.collect_ready {s : Sys} {v : View} (R : Rel r s v) (i : Nat) (w : Val) (hf : v.fits i w) (hr : v.ready i) :
    ∃ s', s.collect i w = (s', none) ∧ Rel r s' (if i ∈ v.on then v.update (single i w) else v) := by
  by_cases hon : i ∈ v.on
  · rw [if_pos hon]; exact R.collect i w hon hf
  · rw [if_neg hon]
    rcases hr with hr | ⟨hp, hs⟩
    · exact absurd hr hon
    · refine ⟨s, ?_, R⟩
      have h := R.obj i
      have hcol : (s.objs i).collected = false := by
        cases hc : (s.objs i).collected
        · rfl
        · rcases h.col.1 hc with h2 | h2
          · exact absurd h2 hon
          · exact absurd h2 hs
      have hp2 : (s.objs i).pair = false := by rw [h.pair]; exact hp
      simp [Sys.collect, hp2, hcol]

theorem Rel.collectFor {s : Sys} {v : View} (R : Rel r s v) (i : Nat) (w : Val) (d : Nat) (hf : v.fits i w) (hs : i ∉ v.stale) :
    ∃ s', s.collectFor i w d = (s', none) ∧ Rel r s' (v.step (.collectFor i w d)) := by
  have h := R.obj i
  by_cases hon : i ∈ v.on
  · have hcol : (s.objs i).collected = true := h.col.2 (.inl hon)
    simp only [View.step, if_pos hon, Sys.collectFor, hcol, Bool.not_true, Bool.false_eq_true, if_false]
    have R1 : Rel r (if d = 0 then s else { s with closes := s.closes ++ [(i, s.now + d)] })
        { v with closes := v.closes ++ (if d = 0 then [] else [(i, v.now + d)]) } := by
      by_cases hd : d = 0
      · simp only [hd, if_true, List.append_nil]; exact R
      · simp only [hd, if_false]
        exact ⟨R.hH, R.h1, R.now, R.path, R.active, by simp [R.closes, R.now], R.pend, R.reg, R.hbs, R.last, R.en, R.dis,
          R.onact, (fun j => let h := R.obj j; ⟨h.pair, h.auto, h.var, h.col, h.att, h.opened, h.shut⟩), R.le, R.dvd, R.act, R.shows, R.vals⟩
    exact R1.collect i w hon hf
  · have hcol : (s.objs i).collected = false := by
      cases hc : (s.objs i).collected
      · rfl
      · rcases h.col.1 hc with h2 | h2
        · exact absurd h2 hon
        · exact absurd h2 hs
    exact ⟨s, by simp [Sys.collectFor, hcol], by simpa [View.step, hon] using R⟩

theorem collectAll_empty (v : View) (b : Nat) (xs : List (Option Val)) :
    v.update (fun j => if j ∈ v.on ∧ b ≤ j ∧ j < b + 0 then some ((xs[j - b]?.join).getD []) else none) = v := by
  apply update_self
  intro i w h
  split at h
  · omega
  · cases h

theorem Rel.collectAll {s : Sys} {v : View} (R : Rel r s v) (b n : Nat) (xs : List (Option Val))
    (hl : v.legal (.collectAll b n xs)) :
    ∃ s', s.collectAll b n xs = (s', none) ∧ Rel r s' (v.step (.collectAll b n xs)) := by
  induction n generalizing s v b xs with
  | zero =>
    refine ⟨s, rfl, ?_⟩
    simp only [View.step]
    rw [collectAll_empty]
    exact R
  | succ n ih =>
    simp only [View.legal] at hl
    -- the first position
    have first : ∃ s1, s.position b xs = (s1, none) ∧
        Rel r s1 (if b ∈ v.on then v.update (single b ((xs[0]?.join).getD [])) else v) := by
      have closeCase : ∃ s1, s.closeRecord b false = (s1, none) ∧ Rel r s1 (if b ∈ v.on then v.update (single b []) else v) := by
        obtain ⟨s1, h1, R1, _⟩ := R.close b
        refine ⟨s1, h1, ?_⟩
        split
        · exact R1
        · rename_i h
          rwa [single_nil (R.off_cur h)] at R1
      cases xs with
      | nil => simpa [Sys.position] using closeCase
      | cons x xs =>
        cases x with
        | none => simpa [Sys.position] using closeCase
        | some w =>
          obtain ⟨hf, hr⟩ := hl 0 (by omega) w (by simp)
          simpa [Sys.position] using R.collect_ready b w hf hr
    obtain ⟨s1, h1, R1⟩ := first
    generalize hv1 : (if b ∈ v.on then v.update (single b ((xs[0]?.join).getD [])) else v) = v1 at R1
    have hon1 : v1.on = v.on := by rw [← hv1]; split <;> rfl
    have hst1 : v1.stale = v.stale := by rw [← hv1]; split <;> rfl
    have hp1 : v1.pair = v.pair := by rw [← hv1]; split <;> rfl
    have hl1 : v1.legal (.collectAll (b + 1) n xs.tail) := by
      intro j hj w hw
      have := hl (j + 1) (by omega) w (by simpa [List.getElem?_tail] using hw)
      simp only [View.fits, View.ready, hon1, hst1, hp1] at this ⊢
      have e : b + 1 + j = b + (j + 1) := by omega
      rw [e]; exact this
    obtain ⟨s2, h2, R2⟩ := ih R1 (b + 1) xs.tail hl1
    refine ⟨s2, by simp only [Sys.collectAll]; rw [h1]; exact h2, ?_⟩
    have e : v1.step (.collectAll (b + 1) n xs.tail) = v.step (.collectAll b (n + 1) xs) := by
      simp only [View.step, hon1]
      rw [← hv1]
      by_cases hb : b ∈ v.on
      · simp only [if_pos hb, View.update, View.mk.injEq, true_and, and_true]
        constructor
        · funext j
          by_cases e : j = b
          · subst e
            rw [if_neg (by omega), if_pos (by refine ⟨hb, ?_, ?_⟩ <;> omega)]
            simp [single]
          · by_cases h3 : j ∈ v.on ∧ b ≤ j ∧ j < b + (n + 1)
            · have e2 : j - b = (j - (b + 1)) + 1 := by omega
              rw [if_pos h3, if_pos (by refine ⟨h3.1, ?_, ?_⟩ <;> omega)]
              simp [List.getElem?_tail, e2]
            · rw [if_neg h3, if_neg (by rintro ⟨a, b1, c⟩; exact h3 ⟨a, by omega, by omega⟩)]
              simp [single, e]
        · funext j
          by_cases e : j = b
          · subst e
            rw [if_neg (by omega), if_pos (by refine ⟨hb, ?_, ?_⟩ <;> omega)]
            simp [single]
          · by_cases h3 : j ∈ v.on ∧ b ≤ j ∧ j < b + (n + 1)
            · have e2 : j - b = (j - (b + 1)) + 1 := by omega
              rw [if_pos h3, if_pos (by refine ⟨h3.1, ?_, ?_⟩ <;> omega)]
              simp [List.getElem?_tail, e2, single, e]
            · rw [if_neg h3, if_neg (by rintro ⟨a, b1, c⟩; exact h3 ⟨a, by omega, by omega⟩)]
              simp [single, e]
      · simp only [if_neg hb]
        congr 1
        funext j
        by_cases h3 : j ∈ v.on ∧ b ≤ j ∧ j < b + (n + 1)
        · have hne : j ≠ b := fun e => hb (e ▸ h3.1)
          have e2 : j - b = (j - (b + 1)) + 1 := by omega
          rw [if_pos h3, if_pos (by refine ⟨h3.1, ?_, ?_⟩ <;> omega)]
          simp [List.getElem?_tail, e2]
        · rw [if_neg h3, if_neg (by rintro ⟨a, b1, c⟩; exact h3 ⟨a, by omega, by omega⟩)]
    rw [← e]
    exact R2

theorem Rel.initialize {s : Sys} {v : View} (R : Rel r s v) (i : Nat) (w : Val) (hl : v.legal (.initialize i w)) :
    ∃ s', s.initialize i w = (s', none) ∧ Rel r s' (v.step (.initialize i w)) := by
  have h := R.obj i
  simp only [View.legal] at hl
  simp only [Sys.initialize, View.step, h.pair]
  by_cases hp : v.pair i = true
  · simp only [hp, if_true, true_and] at hl ⊢
    by_cases hon : i ∈ v.on
    · rw [if_pos hon, if_pos (h.col.2 (.inl hon))]
      exact R.collect i w hon hl.1
    · rw [if_neg hon, if_neg (fun hc => (h.col.1 hc).elim hon hl.2)]
      exact ⟨s, rfl, R⟩
  · rw [if_neg hp] at hl ⊢
    rw [if_neg (fun h2 => hp h2.1)]
    refine ⟨_, rfl, ?_⟩
    have := R.setVal i w (R.off_closed hl)
    rw [← h.pair]
    exact this

theorem Rel.assign {s : Sys} {v : View} (R : Rel r s v) (i : Nat) (x : Option Val) (hl : ∀ w, x = some w → v.fits i w) :
    Rel r (s.set i { s.objs i with var := x }) { v with var := upd v.var i x } := by
  refine ⟨R.hH, R.h1, R.now, R.path, R.active, R.closes, R.pend, R.reg, R.hbs, R.last, R.en, R.dis, R.onact, ?_, R.le, R.dvd,
    R.act, ?_, ?_⟩
  · intro j
    have h := R.obj j
    by_cases e : j = i
    · subst e
      rw [set_same]
      exact ⟨h.pair, h.auto, by simp, h.col, h.att, h.opened, h.shut⟩
    · rw [set_other _ _ e]
      exact ⟨h.pair, h.auto, by simp [upd_other _ _ e, h.var], h.col, h.att, h.opened, h.shut⟩
  · intro p j t
    show shown (s.disk p) j t ++ _ = _
    have : pending (s.set i { s.objs i with var := x }) p j t = pending s p j t := by
      by_cases e : j = i
      · subst e; simp only [pending, set_same]; rfl
      · simp only [pending, set_other _ _ e]; rfl
    rw [this]
    exact R.shows p j t
  · intro j w hw
    by_cases e : j = i
    · subst e; simp at hw; exact hl w hw
    · exact R.vals j w (by simpa [upd_other _ _ e] using hw)

/-- the lists of what is on count as sets -/
theorem Rel.congr {s : Sys} {v : View} (R : Rel r s v) (on stale pend : List Nat) (h1 : ∀ i, i ∈ on ↔ i ∈ v.on)
    (h2 : ∀ i, i ∈ stale ↔ i ∈ v.stale) (h3 : ∀ t, t ∈ pend ↔ t ∈ v.pend) :
    Rel r s { v with on := on, stale := stale, pend := pend } := by
  refine ⟨R.hH, R.h1, R.now, R.path, R.active, R.closes, fun t => (R.pend t).trans (h3 t).symm, R.reg, R.hbs, R.last, R.en, ?_, ?_,
    ?_, R.le, R.dvd, R.act, R.shows, R.vals⟩
  · intro i hi; simp only [h1, h2] at hi ⊢; exact R.dis i hi
  · intro i hi; exact R.onact i ((h1 i).1 hi)
  · intro i
    have h := R.obj i
    exact ⟨h.pair, h.auto, h.var, by simp only [h1, h2]; exact h.col, h.att, by simp only [h1]; exact h.opened, h.shut⟩

/-- collection of one collectable starts -/
theorem Rel.startOne {s : Sys} {v : View} (R : Rel r s v) (i : Nat) (ha : v.active = true) (hc : v.cur i = []) :
    Rel { r with reg := insertNew i r.reg, en := if v.auto i then insertNew i r.en else r.en } (s.startOne i)
      { v with on := [i] ++ v.on, stale := v.stale.filter (fun j => j ∉ [i])
               pend := (if [i].any v.auto then [v.now + 1] else []) ++ v.pend } := by
  have hcl : (s.objs i).closed = true := by
    cases h : (s.objs i).closed
    · have := (R.obj i).opened h
      rw [hc] at this
      exact absurd this.2.1.symm this.2.2.1
    · rfl
  have hobj : ∀ j, (s.startOne i).objs j =
      if j = i then (if (s.objs i).val ≠ [] then { s.objs i with collected := true, attached := true, start := s.now }
        else { s.objs i with collected := true, attached := true }) else s.objs j := by
    intro j
    simp only [Sys.startOne]
    split <;> by_cases e : j = i <;> simp [Sys.set, upd, e]
  have hcl2 : ∀ j, ((s.startOne i).objs j).closed = (s.objs j).closed := by
    intro j
    rw [hobj]
    by_cases e : j = i
    · subst e; rw [if_pos rfl]; split <;> rfl
    · rw [if_neg e]
  have hfld : (s.startOne i).H = s.H ∧ (s.startOne i).now = s.now ∧ (s.startOne i).path = s.path ∧ (s.startOne i).active = s.active ∧
      (s.startOne i).closes = s.closes ∧ (s.startOne i).reg = insertNew i s.reg ∧ (s.startOne i).hbs = s.hbs ∧
      (s.startOne i).last = s.last ∧ (s.startOne i).disk = s.disk ∧
      (s.startOne i).enabled = (if (s.objs i).auto then insertNew i s.enabled else s.enabled) ∧
      (s.startOne i).pend = (if (s.objs i).auto then insertNew (s.now + 1) s.pend else s.pend) := by
    simp only [Sys.startOne]
    split <;> simp [Sys.set]
  obtain ⟨f1, f2, f3, f4, f5, f6, f7, f8, f9, f10, f11⟩ := hfld
  have hau := (R.obj i).auto
  refine ⟨by rw [f1]; exact R.hH, by rw [f1]; exact R.h1, by rw [f2]; exact R.now, by rw [f3]; exact R.path, by rw [f4]; exact R.active,
    by rw [f5]; exact R.closes, ?_, by rw [f6, R.reg], by rw [f7]; exact R.hbs, by rw [f8]; exact R.last, by rw [f10, hau, R.en], ?_, ?_, ?_,
    by rw [f8, f2]; exact R.le, by rw [f8, f1]; exact R.dvd, by rw [f4, f2, f8, f1]; exact R.act, ?_, R.vals⟩
  · intro t
    rw [f11, hau]
    cases h : v.auto i
    · simp [h, R.pend]
    · simp [h, mem_insertNew, R.pend, R.now]
  · intro j hj
    simp only [List.mem_append, List.mem_singleton, List.mem_filter, decide_eq_true_eq] at hj ⊢
    rintro ⟨h1, h2⟩
    rcases hj with hj | hj
    · exact h2 hj
    · exact R.dis j hj h1
  · intro j _; exact ha
  · intro j
    have h := R.obj j
    rw [hobj, f2, f8]
    by_cases e : j = i
    · subst e
      rw [if_pos rfl]
      by_cases hv : (s.objs j).val ≠ []
      · rw [if_pos hv]
        exact ⟨h.pair, h.auto, h.var, by simp, by simp, (fun h2 => by simp [hcl] at h2), h.shut⟩
      · rw [if_neg hv]
        exact ⟨h.pair, h.auto, h.var, by simp, by simp, (fun h2 => by simp [hcl] at h2), h.shut⟩
    · rw [if_neg e]
      refine ⟨h.pair, h.auto, h.var, ?_, h.att, ?_, h.shut⟩
      · simp only [List.mem_append, List.mem_singleton, e, false_or, List.mem_filter, not_false_eq_true, decide_true, and_true]
        exact h.col
      · intro h2
        obtain ⟨a, b⟩ := h.opened h2
        exact ⟨by simp [a], b⟩
  · intro p j t
    rw [f9]
    have : pending (s.startOne i) p j t = pending s p j t := by
      simp only [pending, hcl2, f3, f2]
      by_cases e : j = i
      · subst e; simp [hcl]
      · rw [hobj, if_neg e]
    rw [this]
    exact R.shows p j t

theorem Rel.startAll (is : List Nat) : ∀ {r : Fr} {s : Sys} {v : View}, Rel r s v → v.active = true → (∀ i ∈ is, v.cur i = []) →
    ∃ r', Rel r' (is.foldl Sys.startOne s)
      { v with on := is ++ v.on, stale := v.stale.filter (fun j => j ∉ is)
               pend := (if is.any v.auto then [v.now + 1] else []) ++ v.pend } ∧
      (∀ i, i ∈ r'.reg ↔ i ∈ is ∨ i ∈ r.reg) ∧ (r.reg.Nodup → r'.reg.Nodup) ∧
      (∀ i, i ∈ r'.en ↔ (i ∈ is ∧ v.auto i = true) ∨ i ∈ r.en) ∧ (r.en.Nodup → r'.en.Nodup) ∧ r'.hbs = r.hbs ∧ r'.last = r.last ∧
      r'.strict = r.strict := by
  induction is with
  | nil =>
    intro r s v R _ _
    exact ⟨r, by simpa using R.congr v.on (v.stale.filter (fun j => j ∉ [])) v.pend (by simp) (by simp) (by simp), by simp, id, by simp, id, rfl, rfl,
      rfl⟩
  | cons i is ih =>
    intro r s v R ha hc
    have R1 := R.startOne i ha (hc i (by simp))
    obtain ⟨r', R2, h1, h2, e1, e2, h3, h4, h5⟩ := ih R1 ha (fun j hj => hc j (by simp [hj]))
    refine ⟨r', ?_, ?_, ?_, ?_, ?_, h3, h4, h5⟩
    · refine R2.congr _ _ _ ?_ ?_ ?_
      · intro j; simp; constructor <;> (intro h; rcases h with h | h | h <;> simp [h])
      · intro j
        simp only [List.mem_filter, decide_eq_true_eq, List.mem_cons, List.not_mem_nil, or_false, not_or]
        constructor
        · rintro ⟨a, b, c⟩; exact ⟨⟨a, b⟩, c⟩
        · rintro ⟨⟨a, b⟩, c⟩; exact ⟨a, b, c⟩
      · intro t
        cases hai : v.auto i <;> cases has : is.any v.auto <;> simp [hai, has]
    · intro j; rw [h1]; simp only [mem_insertNew, List.mem_cons]
      constructor
      · rintro (h | h | h)
        · exact .inl (.inr h)
        · exact .inl (.inl h)
        · exact .inr h
      · rintro ((h | h) | h)
        · exact .inr (.inl h)
        · exact .inl h
        · exact .inr (.inr h)
    · intro h; exact h2 (nodup_insertNew _ _ h)
    · intro j; rw [e1]
      show _ ∨ j ∈ (if v.auto i = true then insertNew i r.en else r.en) ↔ _
      by_cases e : j = i
      · subst e
        cases h : v.auto j <;> simp [mem_insertNew]
      · cases h : v.auto i <;> simp [mem_insertNew, e]
    · intro h
      apply e2
      show (if v.auto i = true then insertNew i r.en else r.en).Nodup
      split
      · exact nodup_insertNew _ _ h
      · exact h

theorem activate_rel {s : Sys} {v : View} (R : Rel r s v) (hoff : v.active = false) (hon : v.on = []) :
    Rel { r with hbs := insertNew (s.now + ((s.now / s.H + 1) * s.H - s.now)) r.hbs, last := s.now / s.H * s.H } s.activate v.begin := by
  have hb : v.begin = { v with active := true, pic := upd v.pic v.path (fun _ _ => []) } := by simp [View.begin, hoff]
  have hcl : ∀ j, (s.objs j).closed = true := fun j => R.off_closed (by simp [hon])
  have hdm := Nat.div_mul_le_self s.now s.H
  have hlt : s.now < (s.now / s.H + 1) * s.H := by
    have := Nat.div_add_mod s.now s.H
    have h2 := Nat.mod_lt s.now (by have := R.h1; omega : s.H > 0)
    rw [Nat.add_mul, Nat.one_mul, Nat.mul_comm]
    omega
  rw [hb]
  refine ⟨R.hH, R.h1, R.now, R.path, rfl, R.closes, R.pend, R.reg, by simp [Sys.activate, R.hbs], rfl, R.en, R.dis,
    (fun i hi => by simp [hon] at hi), ?_, hdm, Nat.mul_mod_left _ _, ?_, ?_, R.vals⟩
  · intro j
    have h := R.obj j
    exact ⟨h.pair, h.auto, h.var, h.col, h.att, (fun h2 => by simp [Sys.activate, hcl] at h2), h.shut⟩
  · intro _
    show s.now ≤ s.now / s.H * s.H + s.H
    rw [Nat.add_mul, Nat.one_mul] at hlt
    omega
  · intro p j t
    have hp : pending s.activate p j t = [] := by simp [pending, Sys.activate, hcl]
    rw [hp]
    by_cases e : p = s.path
    · subst e
      simp [Sys.activate, shown_replicate, R.path, only]
    · have := R.shows p j t
      have hp2 : pending s p j t = [] := by simp [pending, hcl]
      rw [hp2] at this
      have e2 : p ≠ v.path := by rw [← R.path]; exact e
      simp only [Sys.activate, upd_other _ _ e, upd_other _ _ e2]
      exact this

theorem Inv.start {s : Sys} {v : View} (I : Inv s v) (is : List Nat) (hl : ∀ i ∈ is, v.cur i = []) :
    Inv (s.start is) (v.step (.start is)) := by
  obtain ⟨r, R, G⟩ := I
  have key : ∃ r0, Rel r0 (if s.active then s else s.activate) v.begin ∧ Good r0 v.begin := by
    cases ha : v.active with
    | true =>
      have : v.begin = v := by simp [View.begin, ha]
      rw [this, R.active, ha]
      exact ⟨r, R, G⟩
    | false =>
      have hon : v.on = [] := by
        cases h : v.on with
        | nil => rfl
        | cons i l =>
          have := R.onact i (by simp [h])
          rw [ha] at this; cases this
      rw [R.active, ha]
      refine ⟨_, activate_rel R ha hon, ?_⟩
      have hb : v.begin = { v with active := true, pic := upd v.pic v.path (fun _ _ => []) } := by simp [View.begin, ha]
      rw [hb]
      refine ⟨G.nd, G.reg, G.nde, G.en, ?_, ?_, G.strict, ?_⟩
      · intro _
        show s.now / s.H * s.H + v.H ∈ insertNew _ r.hbs
        rw [mem_insertNew]
        left
        have hlt : s.now < (s.now / s.H + 1) * s.H := by
          have := Nat.div_add_mod s.now s.H
          have h2 := Nat.mod_lt s.now (by have := R.h1; omega : s.H > 0)
          rw [Nat.add_mul, Nat.one_mul, Nat.mul_comm]
          omega
        rw [← R.hH]
        rw [Nat.add_mul, Nat.one_mul] at hlt ⊢
        omega
      · intro _ i t _
        simp
      · intro h hh
        rcases (mem_insertNew _ _ _).1 hh with h2 | h2
        · have hlt : s.now < (s.now / s.H + 1) * s.H := by
            have := Nat.div_add_mod s.now s.H
            have h2 := Nat.mod_lt s.now (by have := R.h1; omega : s.H > 0)
            rw [Nat.add_mul, Nat.one_mul, Nat.mul_comm]
            omega
          have e : h = (s.now / s.H + 1) * s.H := by omega
          rw [e]
          show _ % v.H = 0
          rw [R.hH]
          exact Nat.mul_mod_left _ _
        · exact G.mul h h2
  obtain ⟨r0, R0, G0⟩ := key
  have hbc : v.begin.cur = v.cur ∧ v.begin.on = v.on ∧ v.begin.stale = v.stale ∧ v.begin.pend = v.pend ∧ v.begin.now = v.now ∧
      v.begin.auto = v.auto ∧ v.begin.active = true := by
    cases ha : v.active <;> simp [View.begin, ha]
  obtain ⟨b1, b2, b3, b4, b5, b6, b7⟩ := hbc
  obtain ⟨r', R', h1, h2, e1, e2, h3, h4, h5⟩ := Rel.startAll is R0 b7 (by rw [b1]; exact hl)
  refine ⟨r', ?_, ?_⟩
  · simp only [Sys.start, View.step]
    rw [b2, b3, b4] at R'
    rw [← b6, ← b5]
    exact R'
  · simp only [View.step]
    refine ⟨h2 G0.nd, ?_, e2 G0.nde, ?_, ?_, ?_, by rw [h5]; exact G0.strict, by rw [h3]; exact G0.mul⟩
    · intro i
      rw [h1, G0.reg, b2]; simp
    · intro i
      rw [e1, G0.en, b2, b3, b6]
      by_cases hi : i ∈ is
      · cases h : v.auto i <;> simp [hi]
      · simp [hi]
    · intro h; rw [h3, h4]; exact G0.beat b7
    · intro h; exact G0.fut b7

end Sparta.Collect
