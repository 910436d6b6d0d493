import Verif.Collect.Ends
import Verif.Collect.Records
/-!
The system and what its users see: destruction of the collector, the end of a tick, every call.
-/
namespace Sparta.Collect

variable {r : Fr}

/-- the value of `i` in this tick is in the picture -/
def View.last (v : View) (i : Nat) : View :=
  { v.update (single i []) with pic := upd v.pic v.path (fun j t => if j = i ∧ t = v.now then v.cur i else v.pic v.path j t) }

theorem upd_self (f : Nat → Nat → Nat → Val) (p : Nat) (g : Nat → Nat → Val) (h : g = f p) : upd f p g = f := by
  subst h
  funext q
  by_cases e : q = p
  · subst e; simp
  · exact upd_other _ _ e

theorem Rel.endOne {s : Sys} {v : View} (R : Rel r s v) (i : Nat) (hon : i ∈ v.on) (hs : r.strict = true)
    (hpic : v.pic v.path i v.now = []) (hl : v.cur i ≠ [] → v.began i < v.now ∧ v.now % v.H ≠ 0) :
    ∃ s', s.endOne i = (s', none) ∧ Rel r s' (v.last i) := by
  have h := R.obj i
  have hcol : (s.objs i).collected = true := h.col.2 (.inl hon)
  cases hc : (s.objs i).closed with
  | true =>
    have hcur := h.shut hc
    refine ⟨s, by simp [Sys.endOne, hcol, Sys.closeRecord, hc], ?_⟩
    have : v.last i = v := by
      have e : upd v.pic v.path (fun j t => if j = i ∧ t = v.now then v.cur i else v.pic v.path j t) = v.pic := by
        apply upd_self
        funext j t
        split
        · rename_i h2
          rw [h2.1, h2.2, hcur, hpic]
        · rfl
      simp only [View.last]
      rw [e, single_nil hcur]
    rw [this]; exact R
  | false =>
    obtain ⟨_, hcur, hne, hle, hn, hb, hf⟩ := h.opened hc
    obtain ⟨hbeg, hmod⟩ := hl (by rw [hcur]; exact hne)
    have hlt : (s.objs i).start < s.now := hb hs (by rw [R.now]; exact hbeg)
    have hact : s.active = true := by rw [R.active]; exact R.onact i hon
    have hw : s.now < s.last + s.H := by
      have h1 := R.act hact
      rcases Nat.lt_or_ge s.now (s.last + s.H) with h2 | h2
      · exact h2
      · exfalso
        have e : s.now = s.last + s.H := by omega
        apply hmod
        rw [← R.now, ← R.hH, e, Nat.add_mod_right]
        exact R.dvd
    refine ⟨({ s with ids := s.ids + 1 }.put (.record { loc := i, start := (s.objs i).start, stop := s.now + 1, id := s.ids + 1, cont := false, val := (s.objs i).val })).set i { s.objs i with closed := true, val := [] },
      by simp [Sys.endOne, hcol, Sys.closeRecord, hc, R.writeRecord_end i hc hlt hw, Sys.put], ?_⟩
    refine ⟨R.hH, R.h1, R.now, R.path, R.active, R.closes, R.pend, R.reg, R.hbs, R.last, R.en, R.dis, R.onact, ?_, R.le, R.dvd, R.act,
      ?_, R.vals⟩
    · intro j
      by_cases e : j = i
      · subst e
        rw [set_same]
        exact ⟨h.pair, h.auto, h.var, h.col, h.att, (fun h2 => by simp at h2), (fun _ => update_cur_single _ _ _)⟩
      · rw [set_other _ _ e]
        have h := R.obj j
        refine ⟨h.pair, h.auto, h.var, h.col, h.att, ?_, ?_⟩
        · show _ → _ ∧ (v.update (single i [])).cur j = _ ∧ _ ∧ _ ∧ _ ∧ (_ → (v.update (single i [])).began j < _ → _) ∧ _
          rw [update_cur_other _ _ e, update_began_other _ _ e]; exact h.opened
        · show _ → (v.update (single i [])).cur j = _
          rw [update_cur_other _ _ e]; exact h.shut
    · intro p j t
      have hsh := R.shows p j t
      by_cases hpp : p = s.path
      · subst hpp
        have hp3 : v.pic s.path = v.pic v.path := by rw [R.path]
        rw [hp3] at hsh
        show shown (upd s.disk s.path (s.disk s.path ++ [_]) s.path) j t ++ _ = only (upd v.pic v.path _ s.path j t)
        have hv : ∀ g, upd v.pic v.path g s.path = g := fun g => by rw [R.path]; exact upd_same _ _ _
        rw [upd_same, hv, shown_append, shown_record]
        by_cases e : j = i
        · subst e
          simp only [pending, set_same, true_and, hc] at hsh ⊢
          by_cases et : t = v.now
          · subst et
            rw [hpic] at hsh
            simp only [if_true]
            have hd : shown (s.disk s.path) j v.now = [] := by
              cases hd : shown (s.disk s.path) j v.now with
              | nil => rfl
              | cons a l => rw [hd] at hsh; simp [only] at hsh
            have h3 : (s.objs j).start ≤ v.now ∧ v.now < s.now + 1 := by rw [← R.now]; omega
            rw [hd, if_pos h3, hcur]
            simp [only, hne]
          · rw [if_neg et, ← hsh]
            simp only [Bool.true_eq_false, false_and, and_false, if_false, List.append_nil]
            congr 1
            have hiff : ((s.objs j).start ≤ t ∧ t < s.now + 1) ↔ ((s.objs j).start ≤ t ∧ t < s.now) := by
              rw [R.now]
              omega
            simp only [hiff]
        · rw [if_neg (fun h2 => Ne.symm e h2.1), if_neg (fun h2 => e h2.1), List.append_nil, ← hsh]
          congr 1
          simp [pending, Sys.put, Sys.set, upd_other _ _ e]
      · have hpp2 : p ≠ v.path := by rw [← R.path]; exact hpp
        show shown (upd s.disk s.path (s.disk s.path ++ [_]) p) j t ++ _ = only (upd v.pic v.path _ p j t)
        rw [upd_other _ _ hpp, upd_other _ _ hpp2]
        rw [← hsh]
        congr 1
        simp only [pending]
        rw [if_neg (fun h2 => hpp h2.1), if_neg (fun h2 => hpp h2.1)]

/-- the values of `l` in this tick are in the picture -/
def View.lasts (v : View) (l : List Nat) : View :=
  { v.update (empties l) with pic := upd v.pic v.path (fun j t => if j ∈ l ∧ t = v.now then v.cur j else v.pic v.path j t) }

theorem endOne_all (l : List Nat) : ∀ {s : Sys} {v : View}, Rel r s v → l.Nodup → r.strict = true → (∀ i ∈ l, i ∈ v.on) →
    (∀ i ∈ l, v.pic v.path i v.now = []) → (∀ i ∈ l, v.cur i ≠ [] → v.began i < v.now ∧ v.now % v.H ≠ 0) →
    ∃ s', each Sys.endOne s l = (s', none) ∧ Rel r s' (v.lasts l) := by
  induction l with
  | nil =>
    intro s v R _ _ _ _ _
    refine ⟨s, rfl, ?_⟩
    have : v.lasts [] = v := by
      have e := update_self v (empties []) (by intro i w h; simp [empties] at h)
      have e2 : upd v.pic v.path (fun j t => if j ∈ [] ∧ t = v.now then v.cur j else v.pic v.path j t) = v.pic := by
        apply upd_self; funext j t; simp
      simp only [View.lasts]
      rw [e, e2]
    rw [this]; exact R
  | cons i l ih =>
    intro s v R hnd hs hon hpic hl
    obtain ⟨s1, h1, R1⟩ := R.endOne i (hon i (by simp)) hs (hpic i (by simp)) (hl i (by simp))
    rw [List.nodup_cons] at hnd
    have hne : ∀ j, j ∈ l → j ≠ i := fun j hj e => hnd.1 (e ▸ hj)
    obtain ⟨s2, h2, R2⟩ := ih R1 hnd.2 hs (fun j hj => hon j (by simp [hj])) (by
      intro j hj
      show upd v.pic v.path _ v.path j v.now = []
      rw [upd_same, if_neg (fun h => hne j hj h.1)]
      exact hpic j (by simp [hj])) (by
      intro j hj
      show (v.update (single i [])).cur j ≠ [] → (v.update (single i [])).began j < v.now ∧ _
      rw [update_cur_other _ _ (hne j hj), update_began_other _ _ (hne j hj)]
      exact hl j (by simp [hj]))
    refine ⟨s2, by simp [each, h1, h2], ?_⟩
    have e : (v.last i).lasts l = v.lasts (i :: l) := by
      have h3 := single_cons v i l (fun _ => [])
      simp only [View.update, View.mk.injEq, true_and, and_true] at h3
      simp only [View.last, View.lasts, View.update, View.mk.injEq, true_and, and_true, empties]
      refine ⟨h3.1, h3.2, ?_⟩
      funext p j t
      by_cases ep : p = v.path
      · subst ep
        simp only [upd_same]
        by_cases e : j = i
        · subst e; simp [hnd.1]
        · simp [e, single]
      · simp only [upd_other _ _ ep]
    rw [← e]; exact R2

theorem Inv.destroy {s : Sys} {v : View} (I : Inv s v) (hl : v.legal .destroy) :
    ∃ s', s.destroy = (s', none) ∧ Inv s' (v.step .destroy) := by
  obtain ⟨r, R, G⟩ := I
  have hmem : ∀ i, i ∈ s.reg ↔ i ∈ v.on := by intro i; rw [R.reg, G.reg]
  have key : ∃ s', (if s.active then each Sys.endOne s s.reg else (s, none)) = (s', none) ∧ Rel r s' (v.lasts s.reg) := by
    cases ha : v.active with
    | true =>
      rw [R.active, ha]
      exact endOne_all s.reg R (by rw [R.reg]; exact G.nd) G.strict (fun i hi => (hmem i).1 hi)
        (fun i _ => G.fut ha i v.now (Nat.le_refl _)) (fun i hi => hl i ((hmem i).1 hi))
    | false =>
      have hreg : s.reg = [] := by
        cases h : s.reg with
        | nil => rfl
        | cons i l =>
          have := R.onact i ((hmem i).1 (by simp [h]))
          rw [ha] at this; cases this
      rw [R.active, ha, hreg]
      refine ⟨s, rfl, ?_⟩
      have : v.lasts [] = v := by
        have e := update_self v (empties []) (by intro i w h; simp [empties] at h)
        have e2 : upd v.pic v.path (fun j t => if j ∈ [] ∧ t = v.now then v.cur j else v.pic v.path j t) = v.pic := by
          apply upd_self; funext j t; simp
        simp only [View.lasts]
        rw [e, e2]
      rw [this]; exact R
  obtain ⟨s', h1, R1⟩ := key
  have e1 : empties s.reg = empties v.on := by funext i; simp [empties, hmem]
  have e2 : v.lasts s.reg = v.lasts v.on := by simp only [View.lasts, e1, hmem]
  rw [e2] at R1
  refine ⟨{ s' with reg := [], active := false }, by simp only [Sys.destroy, h1], { r with reg := [] }, ?_, ?_⟩
  · have hcl : ∀ j, (s'.objs j).closed = true := by
      intro j
      cases hc : (s'.objs j).closed
      · exfalso
        obtain ⟨a, b, c, _⟩ := (R1.obj j).opened hc
        have a : j ∈ v.on := a
        have : (v.lasts v.on).cur j = [] := by simp [View.lasts, View.update, empties, a]
        rw [this] at b
        exact c b.symm
      · rfl
    refine ⟨R1.hH, R1.h1, R1.now, R1.path, rfl, R1.closes, R1.pend, rfl, R1.hbs, R1.last, R1.en, (fun i hi => by simp [View.step] at hi),
      (fun i hi => by simp [View.step] at hi), ?_, R1.le, R1.dvd, (fun h => by simp at h), R1.shows, R1.vals⟩
    intro j
    have h := R1.obj j
    have hcl2 : ({ s' with reg := [], active := false }.objs j).closed = true := hcl j
    refine ⟨h.pair, h.auto, h.var, ?_, h.att, (fun h2 => by rw [hcl2] at h2; cases h2), h.shut⟩
    simp only [View.step, List.not_mem_nil, false_or, List.mem_append]
    exact h.col
  · refine ⟨by simp, by simp [View.step], G.nde, ?_, (fun h => by simp [View.step] at h), (fun h => by simp [View.step] at h), G.strict, G.mul⟩
    intro i
    show i ∈ r.en ↔ _
    rw [G.en]
    simp [View.step, View.update]

theorem Inv.reactivate {s : Sys} {v : View} (I : Inv s v) (p : Nat) (hl : v.active = false) :
    ∃ s', s.reactivate p = (s', none) ∧ Inv s' (v.step (.reactivate p)) := by
  obtain ⟨r, R, G⟩ := I
  have ha : s.active = false := by rw [R.active]; exact hl
  have hcl : ∀ j, (s.objs j).closed = true := by
    intro j
    cases hc : (s.objs j).closed
    · have := R.onact j (R.open_on hc)
      rw [hl] at this; cases this
    · rfl
  refine ⟨{ s with path := p }, by simp [Sys.reactivate, ha], r, ?_, ?_⟩
  · refine ⟨R.hH, R.h1, R.now, rfl, R.active, R.closes, R.pend, R.reg, R.hbs, R.last, R.en, R.dis, R.onact,
      (fun j => let h := R.obj j; ⟨h.pair, h.auto, h.var, h.col, h.att, h.opened, h.shut⟩), R.le, R.dvd, R.act, ?_, R.vals⟩
    intro q j t
    have := R.shows q j t
    simp only [pending, hcl, Bool.true_eq_false, false_and, and_false, if_false] at this ⊢
    exact this
  · refine ⟨G.nd, G.reg, G.nde, G.en, G.beat, ?_, G.strict, G.mul⟩
    intro h
    have h : v.active = true := h
    rw [hl] at h; cases h

/-- automatic collection of one collectable -/
theorem Rel.autoOne {s : Sys} {v : View} (R : Rel r s v) (i : Nat) (hon : i ∈ v.on) :
    ∃ s', s.autoOne i = (s', none) ∧ Rel r s' (v.update (single i ((v.var i).getD []))) := by
  have h := R.obj i
  have hcol : (s.objs i).collected = true := h.col.2 (.inl hon)
  simp only [Sys.autoOne, hcol, if_true, h.var]
  cases hv : v.var i with
  | none =>
    obtain ⟨s', h1, R1, _⟩ := R.close i
    exact ⟨s', h1, R1⟩
  | some w => exact R.collect i w hon (R.vals i w hv)

/-- the ticks for automatic collection -/
theorem Rel.setPend {s : Sys} {v : View} (R : Rel r s v) (a b : List Nat) (h : ∀ t, t ∈ a ↔ t ∈ b) :
    Rel r { s with pend := a } { v with pend := b } :=
  ⟨R.hH, R.h1, R.now, R.path, R.active, R.closes, h, R.reg, R.hbs, R.last, R.en, R.dis, R.onact,
    (fun j => let h := R.obj j; ⟨h.pair, h.auto, h.var, h.col, h.att, h.opened, h.shut⟩), R.le, R.dvd,
    R.act, R.shows, R.vals⟩

theorem Rel.autos {s : Sys} {v : View} (R : Rel r s v) (G : Good r v) (hl : ∀ i ∈ v.stale, v.auto i = false) :
    ∃ s', (if s.now ∈ s.pend then { s with pend := s.pend.filter (fun t => t ≠ s.now) }.performCollection else (s, none)) = (s', none) ∧
      Rel r s' v.autos := by
  by_cases hp : v.now ∈ v.pend
  · rw [if_pos (by rw [R.now]; exact (R.pend _).2 hp)]
    have R0 := R.setPend (s.pend.filter (fun t => t ≠ s.now)) (v.pend.filter (fun t => t ≠ v.now)) (by
      intro t; simp only [List.mem_filter, R.pend, R.now])
    have hen : ∀ i, i ∈ s.enabled ↔ i ∈ v.on ∧ v.auto i = true := by
      intro i
      rw [R.en, G.en]
      constructor
      · rintro ⟨a, b | b⟩
        · exact ⟨b, a⟩
        · rw [hl i b] at a; cases a
      · rintro ⟨a, b⟩; exact ⟨b, .inl a⟩
    obtain ⟨s1, h1, R1⟩ := each_rel (r := r) Sys.autoOne (fun i => (v.var i).getD []) (fun v' i => i ∈ v'.on ∧ v'.var = v.var)
      (fun v' i j h => h)
      (fun s' v' i R' h => by
        obtain ⟨s'', h2, R2⟩ := R'.autoOne i h.1
        rw [h.2] at R2
        exact ⟨s'', h2, R2⟩)
      s.enabled _ _ R0 (fun i hi => ⟨((hen i).1 hi).1, rfl⟩)
    have he : s1.enabled = s.enabled := by rw [R1.en, R.en]
    simp only [Sys.performCollection]
    have h1' : each Sys.autoOne { s with pend := s.pend.filter (fun t => t ≠ s.now) }
        ({ s with pend := s.pend.filter (fun t => t ≠ s.now) } : Sys).enabled = (s1, none) := h1
    simp only [h1']
    refine ⟨_, rfl, ?_⟩
    have hf : (fun j => if j ∈ s.enabled then some ((v.var j).getD []) else none) = v.fetch := by
      funext j; simp only [View.fetch, hen]
    rw [hf] at R1
    have hany : s1.enabled.isEmpty = !v.on.any v.auto := by
      rw [he]
      cases hq : s.enabled with
      | nil =>
        symm
        simp only [List.isEmpty_nil, Bool.not_eq_true', List.any_eq_false]
        intro i hi h2
        have := (hen i).2 ⟨hi, h2⟩
        simp [hq] at this
      | cons i l =>
        symm
        have := (hen i).1 (by simp [hq])
        simp only [List.isEmpty_cons, Bool.not_eq_false', List.any_eq_true]
        exact ⟨i, this⟩
    have hnow1 : s1.now = v.now := R1.now
    have hpend1 : ∀ t, t ∈ s1.pend ↔ t ∈ v.pend.filter (fun t => t ≠ v.now) := R1.pend
    simp only [View.autos, if_pos hp]
    rw [hany]
    cases ha : v.on.any v.auto with
    | false =>
      simp only [Bool.not_false, if_true, Bool.false_eq_true, if_false, List.nil_append]
      exact R1
    | true =>
      simp only [Bool.not_true, Bool.false_eq_true, if_false, if_true]
      have := R1.setPend (insertNew (s1.now + 1) s1.pend) ([v.now + 1] ++ v.pend.filter (fun t => t ≠ v.now)) (by
        intro t
        rw [mem_insertNew, hpend1, hnow1]; simp)
      exact this
  · rw [if_neg (by rw [R.now]; exact fun h => hp ((R.pend _).1 h))]
    refine ⟨s, rfl, ?_⟩
    simp only [View.autos, if_neg hp]
    exact R

/-- the records that are new are those of the current file, which end now and have the current value -/
def Adds (s s' : Sys) (v : View) : Prop :=
  ∀ p, ∀ x ∈ records (s'.disk p), x ∈ records (s.disk p) ∨ (p = v.path ∧ v.active = true ∧ x.stop = v.now ∧ x.val = v.cur x.loc)

/-- a heartbeat for one collectable: nothing changes for the users -/
theorem Rel.restart {s : Sys} {v : View} (R : Rel r s v) (i : Nat) (hon : i ∈ v.on) (hs : r.strict = false) :
    ∃ s', s.restartOne i = (s', none) ∧ Rel r s' v ∧ ((s'.objs i).closed = false → (s'.objs i).start = s'.now) ∧ s'.now = s.now ∧
      (∀ j, j ≠ i → s'.objs j = s.objs j) ∧ Adds s s' v := by
  have h := R.obj i
  have hcol : (s.objs i).collected = true := h.col.2 (.inl hon)
  cases hc : (s.objs i).closed with
  | true =>
    exact ⟨s, by simp [Sys.restartOne, hcol, Sys.restart, hc], R, (fun h2 => by rw [hc] at h2; cases h2), rfl, (fun _ _ => rfl),
      fun p x hx => .inl hx⟩
  | false =>
    obtain ⟨a, hcur, hne, hle, hn, hb, hf⟩ := h.opened hc
    have ho : RelO r.strict s.now s.last { s.objs i with start := s.now } (v.update (single i (v.cur i))) i := by
      rw [single_self]
      refine ⟨h.pair, h.auto, h.var, h.col, h.att, fun _ => ⟨a, hcur, hne, R.le, Nat.le_refl _, ?_, hf⟩, h.shut⟩
      intro h2; rw [hs] at h2; cases h2
    by_cases e : (s.objs i).start = s.now
    · refine ⟨s.set i { s.objs i with start := s.now }, ?_, ?_, (fun _ => by simp), rfl, (fun j hj => set_other _ _ hj),
        fun p x hx => .inl hx⟩
      · simp [Sys.restartOne, hcol, Sys.restart, hc, R.writeRecord_open i true hc, e]
      · have := R.change0 i (v.cur i) _ ho (fun t h2 => by have : s.now ≤ t := h2.2.1; omega) (fun t h2 => by omega)
        rwa [single_self] at this
    · refine ⟨({ s with ids := s.ids + 1 }.put (.record { loc := i, start := (s.objs i).start, stop := s.now, id := s.ids + 1, cont := true, val := (s.objs i).val })).set i { s.objs i with start := s.now },
        ?_, ?_, ?_, ?_, ?_, ?_⟩
      · simp [Sys.restartOne, hcol, Sys.restart, hc, R.writeRecord_open i true hc, e, Sys.put]
      · have := R.wrote i (v.cur i) true hc _ ho (fun _ => rfl)
        rwa [single_self] at this
      · intro _; simp [Sys.put]
      · rfl
      · intro j hj
        rw [set_other _ _ hj]; rfl
      · intro p x hx
        have hx : x ∈ records (({ s with ids := s.ids + 1 }.put (.record { loc := i, start := (s.objs i).start, stop := s.now, id := s.ids + 1, cont := true, val := (s.objs i).val })).disk p) := hx
        rw [records_put] at hx
        split at hx
        · rename_i hp
          rcases List.mem_append.1 hx with hx | hx
          · exact .inl hx
          · simp at hx
            subst hx
            exact .inr ⟨by rw [← R.path]; exact hp, R.onact i hon, R.now, hcur.symm⟩
        · exact .inl hx

theorem restart_all (l : List Nat) : ∀ {s : Sys} {v : View}, Rel r s v → r.strict = false → (∀ i ∈ l, i ∈ v.on) →
    (∀ i, (s.objs i).closed = false → i ∈ l ∨ (s.objs i).start = s.now) →
    ∃ s', each Sys.restartOne s l = (s', none) ∧ Rel r s' v ∧ (∀ i, (s'.objs i).closed = false → (s'.objs i).start = s'.now) ∧
      Adds s s' v := by
  induction l with
  | nil =>
    intro s v R _ _ h
    exact ⟨s, rfl, R, (fun i hi => (h i hi).resolve_left (by simp)), fun p x hx => .inl hx⟩
  | cons i l ih =>
    intro s v R hs hon h
    obtain ⟨s1, h1, R1, hi, hn, ho, hA⟩ := R.restart i (hon i (by simp)) hs
    obtain ⟨s2, h2, R2, h3, hB⟩ := ih R1 hs (fun j hj => hon j (by simp [hj])) (by
      intro j hj
      by_cases e : j = i
      · subst e; exact .inr (hi hj)
      · rw [ho j e] at hj ⊢
        rcases h j hj with h4 | h4
        · simp [e] at h4; exact .inl h4
        · exact .inr (by rw [hn]; exact h4))
    exact ⟨s2, by simp [each, h1, h2], R2, h3, fun p x hx => (hB p x hx).elim (hA p x) .inr⟩

theorem Rel.loose {s : Sys} {v : View} (R : Rel r s v) (hb : List Nat) :
    Rel { r with strict := false, hbs := hb } { s with hbs := hb } v :=
  ⟨R.hH, R.h1, R.now, R.path, R.active, R.closes, R.pend, R.reg, rfl, R.last, R.en, R.dis, R.onact,
    (fun j => let h := R.obj j; ⟨h.pair, h.auto, h.var, h.col, h.att,
      (fun h2 => let ⟨a, b, c, d, e, _, g⟩ := h.opened h2; ⟨a, b, c, d, e, (fun h3 => by cases h3), g⟩), h.shut⟩), R.le, R.dvd,
    R.act, R.shows, R.vals⟩

/-- the heartbeat, if there is one in this tick: what the users see stays, and the next one is later -/
theorem Rel.beats {s : Sys} {v : View} (R : Rel r s v) (G : Good r v) (hmod : ∀ h ∈ r.hbs, h % s.H = 0) :
    ∃ s' r', (if s.now ∈ s.hbs then { s with hbs := s.hbs.filter (fun t => t ≠ s.now) }.heartbeat else (s, none)) = (s', none) ∧
      Rel r' s' v ∧ r'.reg = r.reg ∧ r'.en = r.en ∧ (v.active = true → r'.last + v.H ∈ r'.hbs ∧ s'.now < r'.last + v.H) ∧
      (∀ h ∈ r'.hbs, h % s.H = 0) ∧ (∀ p, ∀ x ∈ records (s'.disk p), x ∈ records (s.disk p) ∨
        (p = v.path ∧ v.active = true ∧ x.stop = v.now ∧ x.val = v.cur x.loc ∧ v.now % v.H = 0)) := by
  by_cases hb : s.now ∈ s.hbs
  · rw [if_pos hb]
    have hnm : s.now % s.H = 0 := hmod _ (by rw [← R.hbs]; exact hb)
    have R0 := R.loose (s.hbs.filter (fun t => t ≠ s.now))
    have hm0 : ∀ h ∈ s.hbs.filter (fun t => t ≠ s.now), h % s.H = 0 := by
      intro h hh
      exact hmod h (by rw [← R.hbs]; exact (List.mem_filter.1 hh).1)
    cases ha : v.active with
    | false =>
      have : s.active = false := by rw [R.active]; exact ha
      exact ⟨_, _, by simp only [Sys.heartbeat, this, Bool.not_false, if_true], R0, rfl, rfl, (fun h => by cases h), hm0, fun p x hx => .inl hx⟩
    | true =>
      have hact : s.active = true := by rw [R.active]; exact ha
      obtain ⟨s1, h1, R1, h2, hA⟩ := restart_all s.reg R0 rfl (fun i hi => by rw [R.reg, G.reg] at hi; exact hi) (by
        intro i hi
        left
        rw [R.reg, G.reg]
        exact R.open_on hi)
      have h1' : each Sys.restartOne { s with hbs := s.hbs.filter (fun t => t ≠ s.now) }
        ({ s with hbs := s.hbs.filter (fun t => t ≠ s.now) } : Sys).reg = (s1, none) := h1
      have hn1 : s1.now = s.now := by rw [R1.now, R.now]
      have hH1 : s1.H = s.H := by rw [R1.hH, R.hH]
      refine ⟨{ s1.put .index with last := s1.now, hbs := insertNew (s1.now + s1.H) s1.hbs },
        { r with strict := false, hbs := insertNew (s1.now + s1.H) (s.hbs.filter (fun t => t ≠ s.now)), last := s1.now }, ?_, ?_, rfl, rfl,
        ?_, ?_, ?_⟩
      · unfold Sys.heartbeat
        rw [if_neg (by simp [hact]), h1']
        rfl
      · refine ⟨R1.hH, R1.h1, R1.now, R1.path, R1.active, R1.closes, R1.pend, R1.reg, ?_, rfl, R1.en, R1.dis, R1.onact, ?_, Nat.le_refl _,
          ?_, ?_, ?_, R1.vals⟩
        · show insertNew (s1.now + s1.H) s1.hbs = insertNew (s1.now + s1.H) _
          rw [R1.hbs]
        · intro j
          have h := R1.obj j
          refine ⟨h.pair, h.auto, h.var, h.col, h.att, ?_, h.shut⟩
          intro h3
          obtain ⟨a, b, c, d, e, _, g⟩ := h.opened h3
          have := h2 j h3
          exact ⟨a, b, c, (by show s1.now ≤ (s1.objs j).start; omega), e, (fun h3 => by cases h3), g⟩
        · show s1.now % s1.H = 0
          rw [hn1, hH1]; exact hnm
        · intro _
          show s1.now ≤ s1.now + s1.H
          omega
        · intro p j t
          rw [← R1.shows p j t]
          have hp : pending { s1.put .index with last := s1.now, hbs := insertNew (s1.now + s1.H) s1.hbs } p j t = pending s1 p j t := rfl
          rw [hp]
          congr 1
          show shown (upd s1.disk s1.path (s1.disk s1.path ++ [.index]) p) j t = _
          by_cases e : p = s1.path
          · subst e
            rw [upd_same, shown_append, shown_index, List.append_nil]
          · rw [upd_other _ _ e]
      · intro _
        have hvH : v.H = s1.H := R1.hH.symm
        have := R1.h1
        refine ⟨?_, ?_⟩
        · show s1.now + v.H ∈ insertNew (s1.now + s1.H) _
          rw [mem_insertNew, hvH]; exact .inl rfl
        · show s1.now < s1.now + v.H
          rw [hvH]; omega
      · intro h hh
        rcases (mem_insertNew _ _ _).1 hh with h3 | h3
        · rw [h3, hH1, hn1, Nat.add_mod_right]; exact hnm
        · exact hm0 h h3
      · intro p x hx
        have hx : x ∈ records ((s1.put .index).disk p) := hx
        rw [records_put_index] at hx
        rcases hA p x hx with h3 | ⟨h3, h4, h5, h6⟩
        · exact .inl h3
        · exact .inr ⟨h3, rfl, h5, h6, by rw [← R.now, ← R.hH]; exact hnm⟩
  · rw [if_neg hb]
    refine ⟨s, r, rfl, R, rfl, rfl, ?_, hmod, fun p x hx => .inl hx⟩
    intro ha
    have h1 := G.beat ha
    refine ⟨h1, ?_⟩
    have hact : s.active = true := by rw [R.active]; exact ha
    have h2 := R.act hact
    rw [R.last, R.hH] at h2
    rcases Nat.lt_or_ge s.now (r.last + v.H) with h3 | h3
    · exact h3
    · exfalso
      have : s.now = r.last + v.H := by omega
      apply hb
      rw [this, R.hbs]; exact h1

/-- the tick is over -/
theorem Rel.keep {s : Sys} {v : View} (R : Rel r s v) (hn : v.active = true → s.now < r.last + v.H)
    (hf : v.active = true → ∀ i t, v.now ≤ t → v.pic v.path i t = []) :
    Rel { r with strict := true } { s with now := s.now + 1 } v.keep := by
  refine ⟨R.hH, R.h1, by simp [View.keep, R.now], R.path, R.active, R.closes, R.pend, R.reg, R.hbs, R.last, R.en, R.dis, R.onact, ?_,
    Nat.le_succ_of_le R.le, R.dvd, ?_, ?_, R.vals⟩
  · intro j
    have h := R.obj j
    refine ⟨h.pair, h.auto, h.var, h.col, h.att, ?_, h.shut⟩
    intro h2
    obtain ⟨a, b, c, d, e, _, g⟩ := h.opened h2
    exact ⟨a, b, c, d, Nat.le_succ_of_le e, (fun _ _ => Nat.lt_succ_of_le e), g⟩
  · intro h
    have h : s.active = true := h
    rw [R.active] at h
    have := hn h
    rw [← R.last, ← R.hH] at this
    exact this
  · intro p i t
    have hs := R.shows p i t
    cases ha : v.active with
    | false =>
      have hcl : (s.objs i).closed = true := by
        cases hc : (s.objs i).closed
        · have := R.onact i (R.open_on hc)
          rw [ha] at this; cases this
        · rfl
      simp only [View.keep, ha, Bool.false_eq_true, if_false]
      rw [← hs]
      congr 1
      simp [pending, hcl]
    | true =>
      simp only [View.keep, ha, if_true]
      by_cases ep : p = s.path
      · have ep2 : p = v.path := by rw [← R.path]; exact ep
        have hv : ∀ g, upd v.pic v.path g p = g := fun g => by rw [ep2]; exact upd_same _ _ _
        rw [hv]
        by_cases et : t = v.now
        · subst et
          have h0 := hf ha i v.now (Nat.le_refl _)
          rw [← ep2] at h0
          rw [h0] at hs
          have hd : shown (s.disk p) i v.now = [] := by
            cases hd : shown (s.disk p) i v.now with
            | nil => rfl
            | cons a l => rw [hd] at hs; simp [only] at hs
          rw [if_pos rfl]
          show shown (s.disk p) i v.now ++ _ = _
          rw [hd, List.nil_append]
          cases hc : (s.objs i).closed with
          | true =>
            rw [(R.obj i).shut hc]
            simp [pending, hc, only]
          | false =>
            obtain ⟨a, b, c, d, e, _⟩ := (R.obj i).opened hc
            rw [b]
            have h1 : (s.objs i).start ≤ v.now := by rw [← R.now]; exact e
            have h2 : v.now < s.now + 1 := by rw [R.now]; omega
            simp [pending, hc, only, c, ep, h1, h2]
        · rw [if_neg et, ← ep2, ← hs]
          congr 1
          have hiff : t < s.now + 1 ↔ t < s.now := by rw [R.now]; omega
          simp only [pending, hiff]
      · have ep2 : p ≠ v.path := by rw [← R.path]; exact ep
        rw [upd_other _ _ ep2, ← hs]
        congr 1
        simp [pending, ep]

theorem Inv.next {s : Sys} {v : View} (I : Inv s v) (hl : ∀ i ∈ v.stale, v.auto i = false) :
    ∃ s', s.next = (s', none) ∧ Inv s' (v.step .next) ∧ (∀ p, ∀ x ∈ records (s'.disk p), x.cont = true → x ∈ records (s.disk p) ∨
      (p = v.path ∧ v.active = true ∧ x.stop = v.now ∧ x.val = v.autos.cur x.loc ∧ v.now % v.H = 0)) := by
  obtain ⟨r, R, G⟩ := I
  obtain ⟨s1, h1, R1⟩ := R.autos G hl
  have hsame : v.autos.active = v.active ∧ v.autos.H = v.H ∧ v.autos.on = v.on ∧ v.autos.stale = v.stale ∧ v.autos.auto = v.auto ∧
      v.autos.pic = v.pic ∧ v.autos.now = v.now ∧ v.autos.path = v.path := by
    simp only [View.autos]; split <;> exact ⟨rfl, rfl, rfl, rfl, rfl, rfl, rfl, rfl⟩
  obtain ⟨a1, a2, a3, a4, a5, a6, a7, a8⟩ := hsame
  have G1 : Good r v.autos := by
    refine ⟨G.nd, ?_, G.nde, ?_, ?_, ?_, G.strict, ?_⟩
    · rw [a3]; exact G.reg
    · rw [a3, a4, a5]; exact G.en
    · rw [a1, a2]; exact G.beat
    · rw [a1, a6, a7, a8]; exact G.fut
    · rw [a2]; exact G.mul
  obtain ⟨s2, r2, h2, R2, b1, b2, b3, b4, b5⟩ := R1.beats G1 (by rw [R1.hH]; exact G1.mul)
  have R3 := R2.keep (fun h => (b3 h).2) G1.fut
  have G3 : Good { r2 with strict := true } v.autos.keep := by
    refine ⟨?_, ?_, ?_, ?_, (fun h => (b3 h).1), ?_, rfl, ?_⟩
    · show r2.reg.Nodup; rw [b1]; exact G1.nd
    · show ∀ i, i ∈ r2.reg ↔ _; rw [b1]; exact G1.reg
    · show r2.en.Nodup; rw [b2]; exact G1.nde
    · show ∀ i, i ∈ r2.en ↔ _; rw [b2]; exact G1.en
    · intro h i t ht
      have h : v.autos.active = true := h
      have ht : v.autos.now + 1 ≤ t := ht
      simp only [View.keep, h, if_true, upd_same]
      rw [if_neg (by omega)]
      exact G1.fut h i t (by omega)
    · intro h hh
      have := b4 h hh
      rw [R1.hH] at this
      exact this
  have R4 : Rel { r2 with strict := true } { s2 with now := s2.now + 1, closes := s2.closes.filter (fun p => p.2 ≠ s2.now + 1) }
      { v.autos.keep with closes := v.autos.keep.closes.filter (fun p => p.2 ≠ v.autos.keep.now) } :=
    ⟨R3.hH, R3.h1, R3.now, R3.path, R3.active, by
      have hc := R3.closes
      have hn := R3.now
      show s2.closes.filter _ = _
      rw [← hn, ← hc], R3.pend, R3.reg, R3.hbs, R3.last, R3.en, R3.dis, R3.onact,
      (fun j => let h := R3.obj j; ⟨h.pair, h.auto, h.var, h.col, h.att, h.opened, h.shut⟩), R3.le, R3.dvd,
      R3.act, R3.shows, R3.vals⟩
  obtain ⟨s3, h3, R5⟩ := each_rel (r := { r2 with strict := true }) Sys.closeOne (fun _ => []) (fun _ _ => True) (fun _ _ _ _ => trivial)
    (fun s v i R _ => by
      obtain ⟨s', h, R', _⟩ := R.close i
      exact ⟨s', h, R'⟩) ((s2.closes.filter (fun p => p.2 = s2.now + 1)).map Prod.fst) _ _ R4 (fun _ _ => trivial)
  refine ⟨s3, ?_, ⟨{ r2 with strict := true }, ?_, ?_⟩, ?_⟩
  · simp only [Sys.next, Sys.endTick]
    rw [h1]
    simp only []
    rw [h2]
    exact h3
  · have e : v.step .next = ({ v.autos.keep with closes := v.autos.keep.closes.filter (fun p => p.2 ≠ v.autos.keep.now) } : View).update
        (fun j => if j ∈ ((s2.closes.filter (fun p => p.2 = s2.now + 1)).map Prod.fst) then some [] else none) := by
      have hc : s2.closes = v.autos.keep.closes := R3.closes
      have hn : s2.now + 1 = v.autos.keep.now := R3.now
      rw [hc, hn]
      rfl
    rw [e]
    exact R5
  · exact ⟨G3.nd, G3.reg, G3.nde, G3.en, G3.beat, G3.fut, G3.strict, G3.mul⟩
  · intro p x hx hc
    have hb : Same s2 s3 := by
      have := (Same.calm s2).p0.beginTick { s2 with now := s2.now + 1 } (fun p x hx _ => hx)
      have e : ({ s2 with now := s2.now + 1 } : Sys).beginTick = (s3, none) := h3
      rw [e] at this
      exact this
    have ha : Same s s1 := by
      have := (Same.calm s).p0.autos s (fun p x hx _ => hx)
      rw [h1] at this
      exact this
    rcases b5 p x (hb p x hx hc) with h4 | ⟨h4, h5, h6, h7, h8⟩
    · exact .inl (ha p x h4 hc)
    · exact .inr ⟨by rw [← a8]; exact h4, by rw [← a1]; exact h5, by rw [← a7]; exact h6, h7, by rw [← a7, ← a2]; exact h8⟩

theorem inv_update {s : Sys} {v : View} {f : Nat → Option Val} (R : Rel r s (v.update f)) (G : Good r v) : Inv s (v.update f) :=
  ⟨r, R, G.update f⟩

/-- every legal call does for its users what it is to do, and does not throw -/
theorem Inv.step {s : Sys} {v : View} (I : Inv s v) (op : Op) (hl : v.legal op) :
    ∃ s', Collect.step s op = (s', none) ∧ Inv s' (v.step op) := by
  cases op with
  | collect i w =>
    obtain ⟨r, R, G⟩ := I
    obtain ⟨s', h, R'⟩ := R.collect_ready i w hl.1 hl.2
    refine ⟨s', h, r, R', ?_⟩
    simp only [View.step]
    split
    · exact G.update _
    · exact G
  | collectFor i w d =>
    obtain ⟨r, R, G⟩ := I
    obtain ⟨s', h, R'⟩ := R.collectFor i w d hl.1 hl.2
    refine ⟨s', h, r, R', ?_⟩
    simp only [View.step]
    split
    · exact ⟨G.nd, G.reg, G.nde, G.en, G.beat, G.fut, G.strict, G.mul⟩
    · exact G
  | collectAll b n xs =>
    obtain ⟨r, R, G⟩ := I
    obtain ⟨s', h, R'⟩ := R.collectAll b n xs hl
    exact ⟨s', h, r, R', G.update _⟩
  | close i =>
    obtain ⟨r, R, G⟩ := I
    obtain ⟨s', h, R', _⟩ := R.close i
    exact ⟨s', h, r, R', G.update _⟩
  | «initialize» i w =>
    obtain ⟨r, R, G⟩ := I
    obtain ⟨s', h, R'⟩ := R.initialize i w hl
    refine ⟨s', h, r, R', ?_⟩
    simp only [View.step]
    split
    · exact G.update _
    · exact G
  | assign i x =>
    obtain ⟨r, R, G⟩ := I
    exact ⟨_, rfl, r, R.assign i x hl, G.nd, G.reg, G.nde, G.en, G.beat, G.fut, G.strict, G.mul⟩
  | start is => exact ⟨_, rfl, I.start is hl⟩
  | stop is => exact I.stop is hl
  | stopAll => exact I.stopAll hl
  | destroy => exact I.destroy hl
  | reactivate p => exact I.reactivate p hl
  | next => exact let ⟨s', h1, h2, _⟩ := I.next hl; ⟨s', h1, h2⟩

theorem Inv.new (H : Nat) (h : 1 < H) (pair auto : Nat → Bool) : Inv (Sys.new H pair auto) (View.new H pair auto) := by
  refine ⟨⟨[], [], [], 0, true⟩, ?_, ?_⟩
  · refine ⟨rfl, h, rfl, rfl, rfl, rfl, by simp [Sys.new, View.new], rfl, rfl, rfl, rfl, by simp [View.new], by simp [View.new], ?_,
      Nat.le_refl _, by simp [Sys.new], by simp [Sys.new], ?_, by simp [View.new]⟩
    · intro i
      exact ⟨rfl, rfl, rfl, by simp [Sys.new, Obj.new, View.new], by simp [Sys.new, Obj.new], by simp [Sys.new, Obj.new], fun _ => rfl⟩
    · intro p i t
      simp [Sys.new, Obj.new, View.new, shown, pending, only]
  · exact ⟨by simp, by simp [View.new], by simp, by simp [View.new], by simp [View.new], by simp [View.new], rfl, by simp⟩

theorem Inv.run {s : Sys} {v w : View} {ops : List Op} (I : Inv s v) (hl : Legal v ops w) :
    Inv (runOps Collect.step s ops).1 w ∧ ∀ x ∈ (runOps Collect.step s ops).2, x = none := by
  induction hl generalizing s with
  | nil v => exact ⟨I, by simp [runOps]⟩
  | cons h _ ih =>
    obtain ⟨s1, h1, I1⟩ := I.step _ h
    obtain ⟨I2, h2⟩ := ih I1
    simp only [runOps, h1]
    refine ⟨I2, ?_⟩
    intro x hx
    rcases List.mem_cons.1 hx with hx | hx
    · exact hx
    · exact h2 x hx

end Sparta.Collect
