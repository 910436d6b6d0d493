import Verif.TrigMan.Inv
/-! Entering a trigger and taking one off. -/
namespace Sparta.TrigMan

theorem hrel_other {s s1 : St} {r r1 : Ref} {k : Tick} {d : Nat} (h1 : s1.hnd d = s.hnd d) (h2 : s1.pend d = s.pend d)
    (h3 : d ∈ r1.ticking ↔ d ∈ r.ticking) (h4 : r1.on d = r.on d)
    (h5 : ∀ t, (t ∈ r1.fresh ∧ r1.clkOf t = some d) ↔ (t ∈ r.fresh ∧ r.clkOf t = some d)) (h : HRel s r k d) :
    HRel s1 r1 k d := by
  unfold HRel at h ⊢
  rw [h1]
  cases e : s.hnd d with
  | none =>
    rw [e] at h
    simp only at h ⊢
    rw [h2, h3, h4]; exact h
  | some x =>
    rw [e] at h
    simp only at h ⊢
    obtain ⟨a, b, c⟩ := h
    refine ⟨h3.2 a, ?_, ?_⟩
    · intro L td hk
      obtain ⟨b1, b2, b3, b4, b5, b6, b7, b8⟩ := b L td hk
      exact ⟨b1, h2.trans b2, b3, b4, h4.trans b5, b6, b7, fun t => (b8 t).trans (h5 t).symm⟩
    · intro hk
      obtain ⟨c1, c2, c3, c4, c5⟩ := c hk
      exact ⟨c1, c2, c3, c4.trans h4.symm, h2.trans c5⟩

theorem hrel_same {s s1 : St} {r : Ref} {k : Tick} {d : Nat} (h1 : s1.hnd = s.hnd) (h2 : s1.pend = s.pend)
    (h : HRel s r k d) : HRel s1 r k d :=
  hrel_other (by rw [h1]) (by rw [h2]) Iff.rfl rfl (fun _ => Iff.rfl) h

theorem clkOf_of {s r k} (_ : Inv s r k) {t : Nat} {i : Info} (hi : r.info t = some i) : r.clkOf t = some i.clk := by
  simp [Ref.clkOf, hi]

/-- only the manager's own part changes -/
def Only (s s1 : St) : Prop :=
  s1.fin = s.fin ∧ s1.startup = s.startup ∧ s1.nextT = s.nextT ∧ s1.ctr = s.ctr ∧ s1.log = s.log ∧ s1.dead = s.dead ∧
  s1.trig = s.trig

theorem tick_cases (k : Tick) (d : Nat) : (∀ L td, k ≠ some (d, L, td)) ∨ ∃ L td, k = some (d, L, td) := by
  by_cases hk : ∀ L td, k ≠ some (d, L, td)
  · exact .inl hk
  · right
    apply Classical.byContradiction
    intro hn
    exact hk fun L td he => hn ⟨L, td, he⟩

theorem addTo_ok {s : St} {t c : Nat} {h h' : Handler} (h1 : s.hnd c = some h) (h2 : h.add t = .ok h') :
    addTo s t c = .ok { s with hnd := upd s.hnd c (some h') } := by
  unfold addTo; rw [h1]; simp only; rw [h2]

theorem add_ok {s r k} (h : Inv s r k) {t c : Nat} (hc : r.clkOf t = some c) (hn : t ∉ r.active) :
    ∃ s1, addTrigger s t c = .ok s1 ∧ Only s s1 ∧ ∀ d, HRel s1 (r.activate t) k d := by
  have hno : (r.on c).contains t = false := by
    rw [Bool.eq_false_iff]
    intro hh
    exact hn (mem_on.1 (List.contains_iff_mem.1 hh)).1
  have hht : hasTrigger s t c = false := (hasTrigger_rel h t c).trans hno
  have hoth : ∀ (s1 : St) (d : Nat), d ≠ c → s1.hnd d = s.hnd d → s1.pend d = s.pend d → HRel s1 (r.activate t) k d := by
    intro s1 d hd h1 h2
    refine hrel_other h1 h2 ?_ ?_ ?_ (h.hnd d)
    · show d ∈ r.ticking ++ (r.clkOf t).toList ↔ _
      rw [hc]; simp [hd]
    · rw [on_activate hc, if_neg hd]
    · intro x
      show (x ∈ r.fresh ++ [t] ∧ r.clkOf x = some d) ↔ _
      constructor
      · rintro ⟨a, b⟩
        rcases List.mem_append.1 a with a | a
        · exact ⟨a, b⟩
        · have := List.mem_singleton.1 a
          subst this
          rw [hc] at b
          exact absurd (Option.some.inj b).symm hd
      · rintro ⟨a, b⟩
        exact ⟨List.mem_append_left _ a, b⟩
  have htk : c ∈ (r.activate t).ticking := by
    show c ∈ r.ticking ++ (r.clkOf t).toList
    rw [hc]; simp
  unfold addTrigger
  rw [hht]
  simp only [Bool.false_eq_true, if_false]
  have hd := h.hnd c
  unfold HRel at hd
  cases e : s.hnd c with
  | none =>
    rw [e] at hd
    simp only at hd
    obtain ⟨d1, d2, d3, d4⟩ := hd
    simp only [Option.isNone_none, if_true]
    have e1 : (newHandler s c).hnd c = some { hid := s.nextH, trigs := [], toRem := [], toAdd := [], inTick := false } := by
      simp [newHandler]
    have e2 : Handler.add { hid := s.nextH, trigs := [], toRem := [], toAdd := [], inTick := false } t =
      .ok { hid := s.nextH, trigs := [t], toRem := [], toAdd := [], inTick := false } := by
      simp [Handler.add, Handler.has, Handler.addNow]
    rw [addTo_ok e1 e2]
    refine ⟨_, rfl, ⟨rfl, rfl, rfl, rfl, rfl, rfl, rfl⟩, ?_⟩
    intro d
    by_cases hdc : d = c
    · subst hdc
      unfold HRel
      simp only [upd_same]
      refine ⟨htk, fun L td hk => absurd hk (d4 L td), fun _ => ⟨rfl, rfl, rfl, ?_, ?_⟩⟩
      · rw [on_activate hc, if_pos rfl, d2]; rfl
      · simp [newHandler, d3]
    · exact hoth _ d hdc (by simp [newHandler, upd, hdc]) (by simp [newHandler, upd, hdc])
  | some x =>
    rw [e] at hd
    simp only at hd
    obtain ⟨d1, d2, d3⟩ := hd
    simp only [Option.isNone_some, Bool.false_eq_true, if_false]
    have hhas : x.has t = false := by
      unfold hasTrigger at hht; rw [e] at hht; exact hht
    rcases tick_cases k c with hk | ⟨L, td, hk⟩
    · have hi := d3 hk
      have e2 : x.add t = .ok { x with trigs := x.trigs ++ [t] } := by
        unfold Handler.add Handler.addNow
        have : t ∉ x.trigs := by rw [hi.trigs]; exact fun hh => hn (mem_on.1 hh).1
        simp [hhas, hi.inTick, this]
      rw [addTo_ok e e2]
      refine ⟨_, rfl, ⟨rfl, rfl, rfl, rfl, rfl, rfl, rfl⟩, ?_⟩
      intro d
      by_cases hdc : d = c
      · subst hdc
        unfold HRel
        simp only [upd_same]
        refine ⟨htk, fun L td hk' => absurd hk' (hk L td), fun _ => ⟨hi.inTick, hi.toRem, hi.toAdd, ?_, hi.pend⟩⟩
        rw [on_activate hc, if_pos rfl]
        show x.trigs ++ [t] = _
        rw [hi.trigs]
      · exact hoth _ d hdc (upd_other _ _ hdc) rfl
    · have hb := d2 L td hk
      have e2 : x.add t = .ok { x with toAdd := x.toAdd ++ [t] } := by
        unfold Handler.add
        simp [hhas, hb.inTick]
      rw [addTo_ok e e2]
      refine ⟨_, rfl, ⟨rfl, rfl, rfl, rfl, rfl, rfl, rfl⟩, ?_⟩
      intro d
      by_cases hdc : d = c
      · subst hdc
        unfold HRel
        simp only [upd_same]
        refine ⟨htk, ?_, fun hk' => absurd hk (hk' L td)⟩
        intro L' td' hk'
        rw [hk] at hk'
        obtain ⟨-, e3, e4⟩ : True ∧ L = L' ∧ td = td' := by simpa using hk'
        subst e3; subst e4
        refine ⟨hb.inTick, hb.pend, hb.trigs, hb.nodup, ?_, ?_, hb.leftND, ?_⟩
        · rw [on_activate hc, if_pos rfl, hb.on, List.append_assoc]
        · intro y hy
          obtain ⟨a, b, c⟩ := hb.left y hy
          refine ⟨a, b, ?_⟩
          intro hh
          rcases List.mem_append.1 hh with hh | hh
          · exact c hh
          · have := List.mem_singleton.1 hh
            subst this
            apply hn
            apply (mem_on (d := d)).1 ?_ |>.1
            rw [hb.on]
            apply List.mem_append_left
            rw [List.mem_filter]
            exact ⟨a, by simpa using b⟩
        · intro y
          show y ∈ x.toAdd ++ [t] ↔ y ∈ r.fresh ++ [t] ∧ r.clkOf y = some d
          rw [List.mem_append, List.mem_append, hb.fresh]
          constructor
          · rintro (a | a)
            · exact ⟨.inl a.1, a.2⟩
            · have := List.mem_singleton.1 a
              subst this
              exact ⟨.inr a, hc⟩
          · rintro ⟨a | a, b⟩
            · exact .inl ⟨a, b⟩
            · exact .inr a
      · exact hoth _ d hdc (upd_other _ _ hdc) rfl

theorem contains_append_ne {l : List Nat} {t x : Nat} (h : x ≠ t) : (l ++ [t]).contains x = l.contains x := by
  rw [Bool.eq_iff_iff]; simp [h]

theorem reg_ok {s r k} (h : Inv s r k) {t : Nat} (hf : r.fin = true) (ha : r.alive t = true) (hn : t ∉ r.active)
    (hw : t ∉ r.waiting) : ∃ s1, registerSelf s t = .ok s1 ∧ Inv s1 (r.activate t) k := by
  obtain ⟨i, g, hi, hg, hr⟩ := h.has ha
  obtain ⟨s1, h1, ho, h2⟩ := add_ok h (clkOf_of h hi) hn
  obtain ⟨o1, o2, o3, o4, o5, o6, o7⟩ := ho
  refine ⟨s1.putT t { g with active := true }, ?_, ?_⟩
  · unfold registerSelf
    rw [hg]
    simp only [h.fin, hf, if_true]
    rw [hr.clk, h1]
  · refine ⟨o1.trans h.fin, o2.trans h.startup, o3.trans h.next, o4.trans h.ctr, o5.trans h.log, o6.trans h.alive,
      ?_, ?_, h.bound, ?_, ?_, ?_, h.waitND, ?_, h.started, fun d => hrel_same (s := s1) rfl rfl (h2 d)⟩
    · intro x hx
      have hx' : r.info x = none := hx
      have : x ≠ t := by rintro rfl; rw [hi] at hx'; exact absurd hx' (by simp)
      show upd s1.trig t _ x = none
      rw [upd_other _ _ this, o7]
      exact h.trigNone x hx
    · intro x j hx
      by_cases hxt : x = t
      · subst hxt
        have : j = i := by
          have : r.info x = some j := hx
          rw [hi] at this; exact (Option.some.inj this).symm
        subst this
        refine ⟨_, upd_same _ _ _, hr.clk, hr.ctr, hr.point, hr.cb, hr.fired, ?_, hr.target⟩
        show true = (r.active ++ [x]).contains x
        simp
      · obtain ⟨g', a, b⟩ := h.trigSome x j hx
        refine ⟨g', ?_, b.clk, b.ctr, b.point, b.cb, b.fired, ?_, b.target⟩
        · show upd s1.trig t _ x = _
          rw [upd_other _ _ hxt, o7, a]
        · rw [b.active]; exact (contains_append_ne hxt).symm
    · show (r.active ++ [t]).Nodup
      rw [List.nodup_append]
      refine ⟨h.actND, by simp, ?_⟩
      intro a hain b hb
      have := List.mem_singleton.1 hb
      subst this
      exact fun he => hn (he ▸ hain)
    · intro x hx
      rcases List.mem_append.1 hx with hx | hx
      · exact h.actAlive x hx
      · have := List.mem_singleton.1 hx
        subst this; exact ha
    · intro x hx
      show x ∈ r.active ++ [t]
      rcases List.mem_append.1 hx with hx | hx
      · exact List.mem_append_left _ (h.freshAct x hx)
      · exact List.mem_append_right _ hx
    · intro x hx
      obtain ⟨a, b⟩ := h.waitAlive x hx
      refine ⟨a, ?_⟩
      intro hh
      rcases List.mem_append.1 hh with hh | hh
      · exact b hh
      · have := List.mem_singleton.1 hh
        subst this; exact hw hx

/-- the tick in progress as the promise sees it -/
def PlaceRel (k : Tick) (pl : Ref.Place) : Prop :=
  match k, pl with
  | none, .outside => True
  | some (c, L, td), .inside c' _ td' => c' = c ∧ td' = td ∧ L ≠ []
  | _, _ => False

theorem filter_ne_self {l : List Nat} {t : Nat} (h : t ∉ l) : l.filter (· != t) = l := by
  rw [List.filter_eq_self]
  intro a ha
  simp only [bne_iff_ne, ne_eq]
  rintro rfl
  exact h ha

theorem any_ne {l : List Nat} {t : Nat} (h : l.any (· != t) = true) : l.filter (· != t) ≠ [] := by
  rw [List.any_eq_true] at h
  obtain ⟨x, h1, h2⟩ := h
  exact List.ne_nil_of_mem (List.mem_filter.2 ⟨h1, h2⟩)

theorem rem_ok {s r k pl} (h : Inv s r k) (hp : PlaceRel k pl) {t c : Nat} (hc : r.clkOf t = some c)
    (hs : r.safeRemove pl t c = true) :
    Only s (removeTrigger s t c) ∧ ∀ d, HRel (removeTrigger s t c) (r.quiet t) k d := by
  have hoth : ∀ (s1 : St) (d : Nat), (d ≠ c ∨ t ∉ r.on d ∧ t ∉ r.fresh) → s1.hnd d = s.hnd d → s1.pend d = s.pend d →
      HRel s1 (r.quiet t) k d := by
    intro s1 d hd h1 h2
    have hto : t ∉ r.on d := by
      rcases hd with hd | hd
      · intro hh
        have := (mem_on.1 hh).2
        rw [hc] at this
        exact hd (Option.some.inj this).symm
      · exact hd.1
    refine hrel_other (r := r) h1 h2 Iff.rfl ?_ ?_ (h.hnd d)
    · rw [on_quiet, filter_ne_self hto]
    · intro x
      show (x ∈ r.fresh.filter (· != t) ∧ r.clkOf x = some d) ↔ _
      rw [List.mem_filter]
      constructor
      · rintro ⟨a, b⟩
        exact ⟨a.1, b⟩
      · rintro ⟨a, b⟩
        refine ⟨⟨a, ?_⟩, b⟩
        simp only [bne_iff_ne, ne_eq]
        rintro rfl
        exact hto (mem_on.2 ⟨h.freshAct _ a, b⟩)
  unfold removeTrigger
  have hd := h.hnd c
  unfold HRel at hd
  cases e : s.hnd c with
  | none =>
    rw [e] at hd
    simp only at hd ⊢
    refine ⟨⟨rfl, rfl, rfl, rfl, rfl, rfl, rfl⟩, ?_⟩
    intro d
    by_cases hdc : d = c
    · subst hdc
      refine hoth _ d (.inr ?_) rfl rfl
      have h0 : t ∉ r.on d := by rw [hd.2.1]; simp
      exact ⟨h0, fun hh => h0 (mem_on.2 ⟨h.freshAct _ hh, hc⟩)⟩
    · exact hoth _ d (.inl hdc) rfl rfl
  | some x =>
    rw [e] at hd
    simp only at hd ⊢
    obtain ⟨d1, d2, d3⟩ := hd
    refine ⟨⟨rfl, rfl, rfl, rfl, rfl, rfl, rfl⟩, ?_⟩
    intro d
    by_cases hdc : d = c
    · subst hdc
      rcases tick_cases k d with hk | ⟨L, td, hk⟩
      · have hi := d3 hk
        have hne : (r.on d).filter (· != t) ≠ [] := by
          apply any_ne
          unfold Ref.safeRemove at hs
          cases pl with
          | outside => simpa [d1] using hs
          | inside c' cur td =>
            have : d ≠ c' := by
              rintro rfl
              cases k with
              | none => exact hp
              | some y =>
                obtain ⟨y1, y2, y3⟩ := y
                obtain ⟨q1, q2, q3⟩ := hp
                subst q1
                exact hk y2 y3 rfl
            simpa [this, d1] using hs
        have het : (x.remove t).trigs = (r.on d).filter (· != t) := by
          unfold Handler.remove Handler.removeNow
          rw [hi.inTick, hi.trigs]
          exact List.Nodup.erase_eq_filter (on_nodup h.actND d) t
        have hne2 : ¬ (x.remove t).trigs.length = 0 := by
          rw [het]
          intro hh
          exact hne (List.eq_nil_of_length_eq_zero hh)
        rw [if_neg hne2]
        unfold HRel
        simp only [upd_same]
        refine ⟨d1, fun L td hk' => absurd hk' (hk L td), fun _ => ⟨?_, ?_, ?_, ?_, ?_⟩⟩
        · unfold Handler.remove Handler.removeNow; simp [hi.inTick]
        · unfold Handler.remove Handler.removeNow; rw [hi.inTick]; exact hi.toRem
        · unfold Handler.remove Handler.removeNow; rw [hi.inTick]; exact hi.toAdd
        · rw [het, on_quiet]
        · rw [show (x.remove t).hid = x.hid by unfold Handler.remove Handler.removeNow; rw [hi.inTick]; rfl]
          exact hi.pend
      · have hb := d2 L td hk
        subst hk
        cases pl with
        | outside => exact hp.elim
        | inside c' cur td' =>
          obtain ⟨q1, q2, q3⟩ := hp
          subst q1; subst q2
          simp only [Ref.safeRemove, if_true, Bool.and_eq_true, Bool.not_eq_true', ← Bool.not_eq_true,
            List.contains_iff_mem] at hs
          obtain ⟨hs1, hs2⟩ := hs
          have hta : t ∉ x.toAdd := fun hh => hs1 ((hb.fresh t).1 hh).1
          have her : x.remove t = { x with toRem := x.toRem ++ [t] } := by
            unfold Handler.remove; rw [hb.inTick]; rfl
          have hne2 : ¬ (x.remove t).trigs.length = 0 := by
            rw [her]
            show ¬ x.trigs.length = 0
            rw [hb.trigs]
            exact fun hh => q3 (List.eq_nil_of_length_eq_zero hh)
          rw [if_neg hne2, her]
          unfold HRel
          simp only [upd_same]
          refine ⟨d1, ?_, fun hk' => absurd rfl (hk' L td')⟩
          intro L' tdd hk'
          obtain ⟨-, e3, e4⟩ : True ∧ L = L' ∧ td' = tdd := by simpa using hk'
          subst e3; subst e4
          refine ⟨hb.inTick, hb.pend, hb.trigs, hb.nodup, ?_, ?_, hb.leftND, ?_⟩
          · rw [on_quiet, hb.on, List.filter_append, filter_ne_self hta, List.filter_filter]
            congr 2
            funext y
            rw [Bool.eq_iff_iff]
            simp [and_comm]
          · intro y hy
            obtain ⟨a, b, c⟩ := hb.left y hy
            refine ⟨a, ?_, c⟩
            intro hh
            rcases List.mem_append.1 hh with hh | hh
            · exact b hh
            · have := List.mem_singleton.1 hh
              subst this
              exact hs2 hy
          · intro y
            show y ∈ x.toAdd ↔ y ∈ r.fresh.filter (· != t) ∧ r.clkOf y = some _
            rw [hb.fresh, List.mem_filter]
            constructor
            · rintro ⟨a, b⟩
              refine ⟨⟨a, ?_⟩, b⟩
              simp only [bne_iff_ne, ne_eq]
              rintro rfl
              exact hs1 a
            · rintro ⟨a, b⟩
              exact ⟨a.1, b⟩
    · exact hoth _ d (.inl hdc) (upd_other _ _ hdc) rfl

/-- a trigger is taken off: it becomes inactive -/
theorem off_ok {s r k pl} (h : Inv s r k) (hp : PlaceRel k pl) {t : Nat} {i : Info} {g : Trig} (hi : r.info t = some i)
    (hg : s.trig t = some g) (hs : r.safeOff pl t = true) :
    Inv ((removeTrigger s t g.clk).putT t { g with active := false }) (r.quiet t) k := by
  have hr : TrigRel r t g i := by
    obtain ⟨g', a, b⟩ := h.trigSome t i hi
    rw [hg] at a
    rw [Option.some.inj a]; exact b
  have hc := clkOf_of h hi
  have hs' : r.safeRemove pl t i.clk = true := by
    unfold Ref.safeOff at hs
    rw [hc] at hs
    exact hs
  obtain ⟨⟨o1, o2, o3, o4, o5, o6, o7⟩, h2⟩ := rem_ok h hp hc hs'
  rw [hr.clk]
  have hcon : ∀ x, x ≠ t → (r.active.filter (· != t)).contains x = r.active.contains x := by
    intro x hx
    rw [Bool.eq_iff_iff]
    simp [hx]
  refine ⟨o1.trans h.fin, o2.trans h.startup, o3.trans h.next, o4.trans h.ctr, o5.trans h.log, o6.trans h.alive,
      ?_, ?_, h.bound, ?_, ?_, ?_, h.waitND, ?_, h.started, fun d => hrel_same (s := removeTrigger s t i.clk) rfl rfl (h2 d)⟩
  · intro x hx
    have hx' : r.info x = none := hx
    have : x ≠ t := by rintro rfl; rw [hi] at hx'; exact absurd hx' (by simp)
    show upd (removeTrigger s t i.clk).trig t _ x = none
    rw [upd_other _ _ this, o7]
    exact h.trigNone x hx
  · intro x j hx
    by_cases hxt : x = t
    · subst hxt
      have : j = i := by
        have : r.info x = some j := hx
        rw [hi] at this; exact (Option.some.inj this).symm
      subst this
      refine ⟨_, upd_same _ _ _, rfl, hr.ctr, hr.point, hr.cb, hr.fired, ?_, hr.target⟩
      show false = (r.active.filter (· != x)).contains x
      symm
      rw [Bool.eq_false_iff]
      intro hh
      rw [List.contains_iff_mem, List.mem_filter] at hh
      simp at hh
    · obtain ⟨g', a, b⟩ := h.trigSome x j hx
      refine ⟨g', ?_, b.clk, b.ctr, b.point, b.cb, b.fired, ?_, b.target⟩
      · show upd (removeTrigger s t i.clk).trig t _ x = _
        rw [upd_other _ _ hxt, o7, a]
      · rw [b.active]; exact (hcon x hxt).symm
  · exact List.Pairwise.filter _ h.actND
  · intro x hx
    exact h.actAlive x (List.mem_filter.1 hx).1
  · intro x hx
    show x ∈ r.active.filter (· != t)
    have hx := List.mem_filter.1 hx
    exact List.mem_filter.2 ⟨h.freshAct x hx.1, hx.2⟩
  · intro x hx
    obtain ⟨a, b⟩ := h.waitAlive x hx
    exact ⟨a, fun hh => b (List.mem_filter.1 hh).1⟩

end Sparta.TrigMan
