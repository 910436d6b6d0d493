import Verif.Param.Writes
/-! C168-C174: lockdown, defaults, items of vectors, final configurations, "is default", validation, phases. -/
namespace Sparta.Param

theorem ask_default {env : Env} {s : St} {i : Nat} {p : Param} (hp : s.ps[i]? = some p) :
    ask env s (.getDefault i) = .ok (.val p.dflt) := by
  unfold ask
  rw [step_on rfl hp]
  rfl

theorem ask_overridden {env : Env} {s : St} {i : Nat} {p : Param} (hp : s.ps[i]? = some p) :
    ask env s (.isOverridden i) = .ok (.bool p.ovr) := by
  unfold ask
  rw [step_on rfl hp]
  rfl

theorem step_plain {env : Env} {s : St} {i : Nat} {p : Param} {o : Op} (ht : o.target = some i) (hp : s.ps[i]? = some p)
    (ho : o.stores = none) : step env s o = (s.put i (onParam env s i p o).1, lift (onParam env s i p o).2) := by
  rw [step_on ht hp]
  cases o <;> first | rfl | (cases ho; done) | skip
  case setItem j is t => cases is <;> first | rfl | (cases ho; done)

/-! ### C168: lockdown -/

theorem closed_frozen (env : Env) (i : Nat) (v d : Val) : Closed env (fun o => o ≠ .clear i ∧ o ≠ .ovClear i)
    (fun s => s.locked = true ∧ ∃ p, s.ps[i]? = some p ∧ p.attr ≠ .default ∧ p.val = v ∧ p.dflt = d) where
  set s o _ h := by
    obtain ⟨hl, p, hp, h1, h2, h3⟩ := h
    obtain ⟨f, hf, e⟩ := onSet_get s o i
    rw [hp] at e
    exact ⟨onSet_locked s o hl, f p, e, by rw [(hf p).2.2.2.1]; exact h1, by rw [(hf p).1]; exact h2, by rw [(hf p).2.1]; exact h3⟩
  param s j p o ht hne hB hp h := by
    obtain ⟨hl, q, hq, h1, h2, h3⟩ := h
    refine ⟨hl, ?_⟩
    by_cases e : j = i
    · subst e
      rw [hp] at hq
      injection hq with hq
      subst hq
      have hfr := onParam_frozen env s j p o (by unfold allowed; rw [hl]; simp [h1]) hB.1 hB.2 ht
      exact ⟨_, (put_get _ _ _ _ (lt_of_get hp)).trans (if_pos rfl), by rw [(onParam_kind env s j p o).2.1]; exact h1,
        by rw [hfr.1]; exact h2, by rw [hfr.2.1]; exact h3⟩
    · exact ⟨q, by rw [put_get _ _ _ _ (lt_of_get hp), if_neg e]; exact hq, h1, h2, h3⟩
  store s j p p' w hp ha _ hc h := by
    obtain ⟨hl, q, hq, h1, h2, h3⟩ := h
    have hji : j ≠ i := by
      intro e
      subst e
      rw [hp] at hq
      injection hq with hq
      subst hq
      unfold allowed at ha
      rw [hl] at ha
      simp [h1] at ha
    refine ⟨⟨hl, q, by rw [put_get _ _ _ _ (lt_of_get hp), if_neg hji]; exact hq, h1, h2, h3⟩, ?_⟩
    rintro s' ⟨hl', q', hq', h'⟩
    exact ⟨by rw [(rollback_rest _ _ _).2.1]; exact hl', q', by rw [rollback_get, if_neg hji]; exact hq', h'⟩
  push s j h := h
  pop s t ts _ h := h

/-- C168: once special parameters are locked down, value and default of a locked or hidden parameter never change again, whatever is called
and whatever callbacks do, if nobody clears the vector (its value or its default). -/
theorem C168_lockdown_partial {env : Env} {s : St} {i : Nat} {p : Param} (hp : s.ps[i]? = some p) (ha : p.attr ≠ .default)
    (hl : ask env s .lockdown = .ok .unit) (hh : ∀ n h, Uses (fun o => o ≠ .clear i ∧ o ≠ .ovClear i) (env.handler n h)) {ops : List Op}
    (ho : ∀ o ∈ ops, o ≠ .clear i ∧ o ≠ .ovClear i) :
    ask env (after env (step env s .lockdown).1 ops) (.peek i) = ask env s (.peek i) ∧
    ask env (after env (step env s .lockdown).1 ops) (.getDefault i) = ask env s (.getDefault i) := by
  have h0 : (step env s .lockdown).1.locked = true ∧
      ∃ q, (step env s .lockdown).1.ps[i]? = some q ∧ q.attr ≠ .default ∧ q.val = p.val ∧ q.dflt = p.dflt := by
    unfold ask step exec at hl
    unfold step exec
    dsimp only [Op.target, onSet] at hl ⊢
    split at hl
    · cases hl
    · rename_i e
      rw [if_neg e]
      exact ⟨rfl, p, hp, ha, rfl, rfl⟩
  obtain ⟨_, q, hq, _, h2, h3⟩ := after_keeps (closed_frozen env i p.val p.dflt) hh ops ho h0
  rw [ask_peek hq, ask_peek hp, ask_default hq, ask_default hp, h2, h3]
  exact ⟨rfl, rfl⟩

/-- a set with special parameters -/
def specials : List Param :=
  [newParam 1 false 0 .locked false (.vec [.leaf 3]), newParam 0 false 0 .hidden false (.leaf 2), newParam 1 true 0 .default false (.vec [.leaf 3])]

theorem specials_fresh : Fresh specials := by
  intro p hp
  simp only [specials, List.mem_cons, List.not_mem_nil, or_false] at hp
  rcases hp with rfl | rfl | rfl <;> exact ⟨_, _, _, _, _, _, rfl, rfl⟩

example : ask quiet (newSet specials false) .lockdown = .ok .unit ∧
    ask quiet (after quiet (newSet specials false) [.lockdown]) (.assign 1 (.leaf 8)) = .error (.exn .sparta) ∧
    (∀ n h, Uses (fun o => o ≠ .clear 0 ∧ o ≠ .ovClear 0) (quiet.handler n h)) := ⟨by decide +kernel, by decide +kernel, fun _ _ => .done⟩

/-- C168 is violated by clearing: a locked vector is emptied after the lockdown. -/
theorem C168_clear_violated :
    let s := after demo (newSet specials false) [.lockdown]
    ask demo s (.push 0 (.leaf 1)) = .error (.exn .sparta) ∧ ask demo s (.clear 0) = .ok .unit ∧
      ask demo (step demo s (.clear 0)).1 (.peek 0) = .ok (.val (.vec [])) ∧
      ask demo (step demo s (.ovClear 0)).1 (.getDefault 0) = .ok (.val (.vec [])) := by decide +kernel

/-- C168: hidden parameters are visible until the lockdown and invisible for ever after; the others are always visible. -/
theorem C168_visible {env : Env} {s : St} {i : Nat} {p : Param} (hp : s.ps[i]? = some p) (hl : ask env s .lockdown = .ok .unit) (ops : List Op) :
    ask env (after env (step env s .lockdown).1 ops) (.isVisible i) = .ok (.bool (decide (p.attr ≠ .hidden))) := by
  have C : Closed env (fun _ => True) (fun s => s.locked = true ∧ kind s i = some (p.dim, p.attr)) := {
    set := fun s o _ h => ⟨onSet_locked s o h.1, kind_onSet.trans h.2⟩
    param := fun s j q o h1 h2 h3 hq h => ⟨h.1, (closed_kind env i _).param s j q o h1 h2 h3 hq h.2⟩
    store := fun s j q q' w hq ha hd hc h =>
      ⟨⟨h.1, ((closed_kind env i _).store s j q q' w hq ha hd hc h.2).1⟩,
        fun s' h' => ⟨by rw [(rollback_rest _ _ _).2.1]; exact h'.1, kind_rollback.trans h'.2⟩⟩
    push := fun s j h => h
    pop := fun s t ts _ h => h }
  have h0 : (step env s .lockdown).1.locked = true ∧ kind (step env s .lockdown).1 i = some (p.dim, p.attr) := by
    unfold ask step exec at hl
    unfold step exec
    dsimp only [Op.target, onSet] at hl ⊢
    split at hl
    · cases hl
    · rename_i e
      rw [if_neg e]
      exact ⟨rfl, kind_of (s := { s with locked := true }) hp⟩
  obtain ⟨h1, h2⟩ := after_keeps C (fun _ _ => uses_true _) ops (fun _ _ => trivial) h0
  unfold kind at h2
  cases hq : (after env (step env s .lockdown).1 ops).ps[i]? with
  | none =>
    rw [hq] at h2
    cases h2
  | some q =>
    rw [hq] at h2
    injection h2 with h2
    injection h2 with _ h2
    unfold ask
    rw [step_plain rfl hq rfl]
    show Except.ok (Ans.bool (!(q.attr == .hidden && (after env (step env s .lockdown).1 ops).locked))) = _
    have h2 : q.attr = p.attr := h2
    rw [h1, h2]
    cases p.attr <;> rfl

example : ask demo (newSet specials false) (.isVisible 1) = .ok (.bool true) ∧
    ask demo (after demo (newSet specials false) [.lockdown]) (.isVisible 1) = .ok (.bool false) := by decide +kernel

/-! ### C169: defaults -/

/-- a set with a vector of vectors -/
def nested : List Param := [newParam 2 false 0 .default false (.vec [.vec [.leaf 1], .vec []])]

theorem closed_default (env : Env) (i : Nat) (d : Val) (b : Bool) : Closed env (fun o => o.overrides = false)
    (fun s => ∃ p, s.ps[i]? = some p ∧ p.dflt = d ∧ p.ovr = b) where
  set s o _ h := by
    obtain ⟨p, hp, h1, h2⟩ := h
    obtain ⟨f, hf, e⟩ := onSet_get s o i
    rw [hp] at e
    exact ⟨f p, e, by rw [(hf p).2.1]; exact h1, by rw [(hf p).2.2.2.2.1]; exact h2⟩
  param s j p o ht hne hB hp h := by
    obtain ⟨q, hq, h1, h2⟩ := h
    by_cases e : j = i
    · subst e
      rw [hp] at hq
      injection hq with hq
      subst hq
      have hk := onParam_dflt env s j p o hB
      exact ⟨_, (put_get _ _ _ _ (lt_of_get hp)).trans (if_pos rfl), by rw [hk.1]; exact h1, by rw [hk.2]; exact h2⟩
    · exact ⟨q, by rw [put_get _ _ _ _ (lt_of_get hp), if_neg e]; exact hq, h1, h2⟩
  store s j p p' w hp ha _ hc h := by
    obtain ⟨q, hq, h1, h2⟩ := h
    refine ⟨?_, ?_⟩
    · by_cases e : j = i
      · subst e
        rw [hp] at hq
        injection hq with hq
        subst hq
        have hk := store_kind (i := j) hc
        exact ⟨_, (put_get _ _ _ _ (lt_of_get hp)).trans (if_pos rfl), hk.2.2.1.trans h1, hk.2.2.2.trans h2⟩
      · exact ⟨q, by rw [put_get _ _ _ _ (lt_of_get hp), if_neg e]; exact hq, h1, h2⟩
    · rintro s' ⟨q', hq', h1', h2'⟩
      by_cases e : j = i
      · subst e
        exact ⟨{ q' with val := p.val }, by rw [rollback_get, if_pos rfl, hq']; rfl, h1', h2'⟩
      · exact ⟨q', by rw [rollback_get, if_neg e]; exact hq', h1', h2'⟩
  push s j h := h
  pop s t ts _ h := h

/-- C169: reading and writing values never changes a default or makes it count as overridden; only the override calls do. -/
theorem C169_writes_keep_default {env : Env} {s : St} {i : Nat} {p : Param} (hp : s.ps[i]? = some p)
    (hh : ∀ n h, Uses (fun o => o.overrides = false) (env.handler n h)) {ops : List Op} (ho : ∀ o ∈ ops, o.overrides = false) :
    ask env (after env s ops) (.getDefault i) = ask env s (.getDefault i) ∧
    ask env (after env s ops) (.isOverridden i) = ask env s (.isOverridden i) := by
  obtain ⟨q, hq, h1, h2⟩ := after_keeps (closed_default env i p.dflt p.ovr) hh ops ho ⟨p, hp, rfl, rfl⟩
  rw [ask_default hq, ask_default hp, ask_overridden hq, ask_overridden hp, h1, h2]
  exact ⟨rfl, rfl⟩

example : (∀ n h, Uses (fun o => o.overrides = false) (quiet.handler n h)) ∧ (∀ o ∈ [Op.assign 0 (.leaf 8), .clear 2], o.overrides = false) :=
  ⟨fun _ _ => .done, by decide⟩

theorem onParam_override {env : Env} {s : St} {i : Nat} {p : Param} {o : Op} (h : o.overrides = true) :
    ∃ d b, (onParam env s i p o).1 = { p with dflt := d, ovr := b } ∧ (p.ovr = true → b = true) := by
  cases o
  all_goals first | (cases h; done) | skip
  all_goals
    unfold onParam
    branches <;>
    first
      | exact ⟨_, _, rfl, fun e => e⟩
      | exact ⟨_, _, rfl, fun e => rfl⟩
      | (simp_all; done)

/-- C169: an override call, whether it succeeds or not, changes neither the value nor the counts, only the default of the parameter and whether
it counts as overridden. -/
theorem C169_override_keeps_value {env : Env} {s : St} {i : Nat} {p : Param} (hp : s.ps[i]? = some p) {o : Op} (ho : o.overrides = true)
    (ht : o.target = some i) : ∃ d b, (step env s o).1 = s.put i { p with dflt := d, ovr := b } := by
  have hs : o.stores = none := by cases o <;> first | rfl | (cases ho; done)
  obtain ⟨d, b, e, _⟩ := onParam_override (env := env) (s := s) (i := i) (p := p) ho
  exact ⟨d, b, by rw [step_plain ht hp hs, e]⟩

example : (Op.ovStr 0 ['a']).overrides = true ∧ ask demo (newSet demoSet false) (.ovStr 0 ['a', 'b']) = .ok .unit := by decide +kernel

/-- C169: an accepted override from text gives the parameter the default asked for and marks it as overridden. -/
theorem C169_override_takes {env : Env} {s : St} {i : Nat} {p : Param} (hp : s.ps[i]? = some p) :
    (∀ t, ask env s (.ovStr i t) = .ok .unit → ∃ n, env.cast p.ty t = .ok n ∧
      ask env (step env s (.ovStr i t)).1 (.getDefault i) = .ok (.val (.leaf n)) ∧
      ask env (step env s (.ovStr i t)).1 (.isOverridden i) = .ok (.bool true)) ∧
    (∀ ts, ask env s (.ovVec i ts) = .ok .unit → ∃ ns : List Nat, ts.map (env.cast p.ty) = ns.map Except.ok ∧
      ask env (step env s (.ovVec i ts)).1 (.getDefault i) = .ok (.val (.vec (ns.map Val.leaf))) ∧
      ask env (step env s (.ovVec i ts)).1 (.isOverridden i) = .ok (.bool true)) ∧
    (∀ is t, ask env s (.ovItem i is t) = .ok .unit →
      ask env (step env s (.ovItem i is t)).1 (.isOverridden i) = .ok (.bool true)) := by
  have hget : ∀ q, (s.put i q).ps[i]? = some q := fun q => by rw [put_get _ _ _ _ (lt_of_get hp), if_pos rfl]
  have hfin : ∀ (b : Bool) (r : PR), lift (finishOverride b r).2 = .ok .unit →
      r.2 = .ok .unit ∧ (finishOverride b r).1 = { r.1 with ovr := true } := by
    intro b r h
    unfold finishOverride at h ⊢
    split at h
    · cases h
    · split at h
      · cases h
      · rename_i e1 e2
        rw [if_neg e2]
        injection h with h
        subst h
        exact ⟨e1, rfl⟩
  refine ⟨?_, ?_, ?_⟩
  · intro t h
    unfold ask at h
    rw [step_plain rfl hp rfl] at h ⊢
    obtain ⟨h1, h2⟩ := hfin true (overrideScalar env s.locked p t) h
    rw [ask_default (hget _), ask_overridden (hget _)]
    show ∃ n, _ ∧ Except.ok (Ans.val (finishOverride true (overrideScalar env s.locked p t)).1.dflt) = _ ∧
      Except.ok (Ans.bool (finishOverride true (overrideScalar env s.locked p t)).1.ovr) = _
    rw [h2]
    unfold overrideScalar at h1 ⊢
    split at h1
    · cases h1
    · split at h1
      · cases h1
      · split at h1
        · cases h1
        · rename_i e1 e2 _ n e3
          rw [if_neg e1, if_neg e2]
          exact ⟨n, e3, rfl, rfl⟩
  · intro ts h
    unfold ask at h
    rw [step_plain rfl hp rfl] at h ⊢
    obtain ⟨h1, h2⟩ := hfin true (overrideVector env s.locked p ts) h
    rw [ask_default (hget _), ask_overridden (hget _)]
    show ∃ ns : List Nat, _ ∧ Except.ok (Ans.val (finishOverride true (overrideVector env s.locked p ts)).1.dflt) = _ ∧
      Except.ok (Ans.bool (finishOverride true (overrideVector env s.locked p ts)).1.ovr) = _
    rw [h2]
    unfold overrideVector at h1 ⊢
    split at h1
    · cases h1
    · split at h1
      · cases h1
      · split at h1
        · cases h1
        · rename_i e1 e2 _ l e3
          rw [if_neg e1, if_neg e2]
          obtain ⟨ns, h3, h4⟩ := castAll_ok e3
          exact ⟨ns, h3, by rw [h4], rfl⟩
  · intro is t h
    unfold ask at h
    rw [step_plain rfl hp rfl] at h ⊢
    obtain ⟨_, h2⟩ := hfin false (overrideItem env s.locked p is t) h
    rw [ask_overridden (hget _)]
    show Except.ok (Ans.bool (finishOverride false (overrideItem env s.locked p is t)).1.ovr) = _
    rw [h2]

example : ask demo (newSet demoSet false) (.ovVec 2 [['a'], []]) = .ok .unit ∧
    ask demo (newSet demoSet false) (.ovItem 2 [3] ['a']) = .ok .unit := by decide +kernel

/-- C169: a default that counts as overridden does so for ever. -/
theorem C169_overridden_for_ever {env : Env} {s : St} {i : Nat} (h : ask env s (.isOverridden i) = .ok (.bool true)) (ops : List Op) :
    ask env (after env s ops) (.isOverridden i) = .ok (.bool true) := by
  obtain ⟨p, hp⟩ := get_of_ask rfl h (fun e => by cases e)
  rw [ask_overridden hp] at h
  injection h with h
  injection h with h
  have h0 : ∃ p, s.ps[i]? = some p ∧ p.ovr = true := ⟨p, hp, h⟩
  clear hp h
  have C : Closed env (fun _ => True) (fun s => ∃ p, s.ps[i]? = some p ∧ p.ovr = true) := by
    refine ⟨?_, ?_, ?_, fun s j h => h, fun s t ts _ h => h⟩
    · rintro s o _ ⟨p, hp, h⟩
      obtain ⟨f, hf, e⟩ := onSet_get s o i
      rw [hp] at e
      exact ⟨f p, e, by rw [(hf p).2.2.2.2.1]; exact h⟩
    · rintro s j p o ht hne hB hp ⟨q, hq, h⟩
      by_cases e : j = i
      · subst e
        rw [hp] at hq
        injection hq with hq
        subst hq
        refine ⟨_, (put_get _ _ _ _ (lt_of_get hp)).trans (if_pos rfl), ?_⟩
        by_cases ho : o.overrides = false
        · rw [(onParam_dflt env s j p o ho).2]
          exact h
        · obtain ⟨d, b, e, hb⟩ := onParam_override (env := env) (s := s) (i := j) (p := p) (by simpa using ho)
          rw [e]
          exact hb h
      · exact ⟨q, by rw [put_get _ _ _ _ (lt_of_get hp), if_neg e]; exact hq, h⟩
    · rintro s j p p' w hp ha hd hc ⟨q, hq, h⟩
      refine ⟨?_, ?_⟩
      · by_cases e : j = i
        · subst e
          rw [hp] at hq
          injection hq with hq
          subst hq
          have hk := store_kind (i := j) hc
          exact ⟨_, (put_get _ _ _ _ (lt_of_get hp)).trans (if_pos rfl), hk.2.2.2.trans h⟩
        · exact ⟨q, by rw [put_get _ _ _ _ (lt_of_get hp), if_neg e]; exact hq, h⟩
      · rintro s' ⟨q', hq', h'⟩
        by_cases e : j = i
        · subst e
          exact ⟨{ q' with val := p.val }, by rw [rollback_get, if_pos rfl, hq']; rfl, h'⟩
        · exact ⟨q', by rw [rollback_get, if_neg e]; exact hq', h'⟩
  obtain ⟨q, hq, h2⟩ := after_keeps C (fun _ _ => uses_true _) ops (fun _ _ => trivial) h0
  rw [ask_overridden hq, h2]

example : ask demo (after demo (newSet demoSet false) [.ovItem 2 [3] ['a']]) (.isOverridden 2) = .ok (.bool true) := by decide +kernel

/-- C169 is violated after a read: the call throws, the default has changed and does not count as overridden. -/
theorem C169_override_after_read_violated :
    let s := after demo (newSet demoSet false) [.read 0]
    ask demo s (.ovStr 0 ['a', 'b', 'c', 'd']) = .error (.exn .sparta) ∧
      ask demo (step demo s (.ovStr 0 ['a', 'b', 'c', 'd'])).1 (.getDefault 0) = .ok (.val (.leaf 4)) ∧
      ask demo (step demo s (.ovStr 0 ['a', 'b', 'c', 'd'])).1 (.isOverridden 0) = .ok (.bool false) := by decide +kernel

/-- C169 is violated by resizing and clearing a default: it changes and does not count as overridden. -/
theorem C169_resize_default_violated :
    ask demo (newSet nested false) (.ovResize 0 [2]) = .ok .unit ∧
      ask demo (after demo (newSet nested false) [.ovResize 0 [2]]) (.getDefault 0) = .ok (.val (.vec [.vec [.leaf 1], .vec [], .vec []])) ∧
      ask demo (after demo (newSet nested false) [.ovResize 0 [2]]) (.isOverridden 0) = .ok (.bool false) ∧
      ask demo (after demo (newSet nested false) [.ovClear 0]) (.getDefault 0) = .ok (.val (.vec [])) ∧
      ask demo (after demo (newSet nested false) [.ovClear 0]) (.isOverridden 0) = .ok (.bool false) := by decide +kernel

/-! ### C170: items of vectors -/

theorem ask_item {env : Env} {s : St} {i : Nat} {p : Param} (hp : s.ps[i]? = some p) (is : List Nat) :
    ask env s (.readItem i is true) = match getIn p.dim is p.val with
      | .error e => .error (.exn e)
      | .ok n => .ok (.text (if p.str then p.quote ++ env.render p.ty n ++ p.quote else env.render p.ty n)) := by
  unfold ask
  rw [step_plain rfl hp rfl]
  show lift (readItem env p is true).2 = _
  unfold readItem
  cases getIn p.dim is p.val <;> rfl

theorem ask_size {env : Env} {s : St} {i : Nat} {p : Param} (hp : s.ps[i]? = some p) (is : List Nat) :
    ask env s (.sizeAt i is true) = match sizeIn p.dim is p.val with
      | .error e => .error (.exn e)
      | .ok n => .ok (.nat n) := by
  unfold ask
  rw [step_plain rfl hp rfl]
  show lift (readSize p is true).2 = _
  unfold readSize
  cases sizeIn p.dim is p.val <;> rfl

/-- C170: after an accepted write of an item, that item reads as the text written, converted; every other item that could be read
before reads the same; every vector has the size it had, or grew to hold the index on the way to the item. -/
theorem C170_item_roundtrip {env : Env} {s : St} (h : Reachable env s) {i : Nat} {p : Param} (hp : s.ps[i]? = some p) {is : List Nat}
    (his : is ≠ []) {t : Str} (he : ask env s (.setItem i is t) = .ok .unit) :
    (∃ n, env.cast p.ty t = .ok n ∧ ask env (step env s (.setItem i is t)).1 (.readItem i is true) =
      .ok (.text (if p.str then p.quote ++ env.render p.ty n ++ p.quote else env.render p.ty n))) ∧
    (∀ ks a, ks ≠ is → ask env s (.readItem i ks true) = .ok a →
      ask env (step env s (.setItem i is t)).1 (.readItem i ks true) = .ok a) ∧
    (∀ ks m, ask env s (.sizeAt i ks true) = .ok (.nat m) → ∃ m', ask env (step env s (.setItem i is t)).1 (.sizeAt i ks true) = .ok (.nat m') ∧
      m ≤ m' ∧ (m' = m ∨ ∃ k rest, is = ks ++ k :: rest ∧ m' = max m (k + 1))) := by
  have hs : (Op.setItem i is t).stores = none := by
    cases is with
    | nil => exact absurd rfl his
    | cons a b => rfl
  have hd := (reach_typed h i p hp).1
  unfold ask at he
  rw [step_plain rfl hp hs] at he ⊢
  have he : lift (writeItem env s.phase s.locked p is t).2 = .ok .unit := he
  have key : (setIn (env.cast p.ty) t p.dim is p.val).2 = none ∧ (writeItem env s.phase s.locked p is t).1 =
      { p with val := (setIn (env.cast p.ty) t p.dim is p.val).1, reads := 0, writes := p.writes + 1 } := by
    unfold writeItem at he ⊢
    split at he
    · cases he
    · rename_i ha
      rw [if_neg ha]
      dsimp only at he ⊢
      split at he
      · cases he
      · rename_i e
        rw [e]
        split at he
        · cases he
        · rename_i e'
          exact ⟨rfl, countWrite_eq e'⟩
  obtain ⟨hok, hq⟩ := key
  have hget : ∀ q, (s.put i q).ps[i]? = some q := fun q => by rw [put_get _ _ _ _ (lt_of_get hp), if_pos rfl]
  show (∃ n, _ ∧ ask env (s.put i (writeItem env s.phase s.locked p is t).1) _ = _) ∧
    (∀ ks a, _ → _ → ask env (s.put i (writeItem env s.phase s.locked p is t).1) _ = _) ∧
    (∀ ks m, _ → ∃ m', ask env (s.put i (writeItem env s.phase s.locked p is t).1) _ = _ ∧ _)
  rw [hq]
  refine ⟨?_, ?_, ?_⟩
  · obtain ⟨n, h1, h2⟩ := getIn_setIn hd hok
    exact ⟨n, h1, by rw [ask_item (hget _), h2]⟩
  · intro ks a hne hr
    rw [ask_item hp] at hr
    split at hr
    · cases hr
    · rename_i n e
      rw [ask_item (hget _), getIn_other hne e]
      exact hr
  · intro ks m hr
    rw [ask_size hp] at hr
    split at hr
    · cases hr
    · rename_i n e
      injection hr with hr
      injection hr with hr
      subst hr
      obtain ⟨m', h1, h2, h3⟩ := sizeIn_setIn (c := env.cast p.ty) (t := t) (is := is) e
      exact ⟨m', by rw [ask_size (hget _), h1], h2, h3⟩

example : ask demo (newSet nested false) (.setItem 0 [2, 1] ['a', 'b']) = .ok .unit ∧
    ask demo (after demo (newSet nested false) [.setItem 0 [2, 1] ['a', 'b']]) (.peek 0) =
      .ok (.val (.vec [.vec [.leaf 1], .vec [], .vec [.leaf 0, .leaf 2]])) := by decide +kernel

/-- C170: an item write is accepted if there are as many indices as dimensions, the text converts, the parameter may be written in this
phase, and it is volatile or has not been read. -/
theorem C170_item_accepted {env : Env} {s : St} (h : Reachable env s) {i : Nat} {p : Param} (hp : s.ps[i]? = some p) {is : List Nat}
    (his : is ≠ []) {t : Str} {n : Nat} (hc : env.cast p.ty t = .ok n) (hl : is.length = p.dim) (ha : s.locked = false ∨ p.attr = .default)
    (hph : s.phase ≤ 3) (hv : p.vol = true ∨ p.reads = 0) : ask env s (.setItem i is t) = .ok .unit := by
  have hs : (Op.setItem i is t).stores = none := by
    cases is with
    | nil => exact absurd rfl his
    | cons a b => rfl
  have hd := (reach_typed h i p hp).1
  unfold ask
  rw [step_plain rfl hp hs]
  show lift (writeItem env s.phase s.locked p is t).2 = _
  unfold writeItem
  rw [if_neg (by unfold allowed; rcases ha with ha | ha <;> rw [ha] <;> simp)]
  dsimp only
  rw [setIn_succeeds hc hd hl]
  dsimp only
  have : ∀ w, countWrite s.phase { p with val := w } = some { p with val := w, reads := 0, writes := p.writes + 1 } := by
    intro w
    unfold countWrite
    rw [if_neg (by dsimp only; rintro ⟨h1, h2⟩; rcases hv with hv | hv <;> simp_all), if_neg (by omega)]
  rw [this]
  rfl

example : Reachable demo (newSet nested false) ∧ demo.cast 0 ['a', 'b'] = .ok 2 := by
  refine ⟨⟨nested, false, [], ?_, rfl⟩, by decide +kernel⟩
  intro p hp
  simp only [nested, List.mem_cons, List.not_mem_nil, or_false] at hp
  subst hp
  exact ⟨_, _, _, _, _, _, rfl, rfl⟩

/-- C170 is violated for resizing: with one index too many the call throws, and the vector has grown. -/
theorem C170_resize_violated :
    ask demo (newSet demoSet false) (.resize 2 [3]) = .error (.exn .sparta) ∧
      ask demo (step demo (newSet demoSet false) (.resize 2 [3])).1 (.peek 2) =
        .ok (.val (.vec [.leaf 3, .leaf 0, .leaf 0, .leaf 0])) := by decide +kernel

/-! ### C171: final configurations -/

/-- C171: with a final configuration, assigning to a parameter that is not hidden does nothing and succeeds, even if it has been read. -/
theorem C171_final_assign {env : Env} {s : St} (hf : s.final = true) {i : Nat} {p : Param} (hp : s.ps[i]? = some p) (ha : p.attr ≠ .hidden)
    (hl : s.locked = false ∨ p.attr = .default) {v : Val} (hv : hasDim p.dim v = true) : step env s (.assign i v) = (s, .ok .unit) := by
  rw [step_on rfl hp]
  show assign _ s i p v = _
  unfold assign
  rw [if_neg (by rw [hv]; decide), if_neg (by unfold allowed; rcases hl with hl | hl <;> rw [hl] <;> simp), if_pos (by rw [hf]; simp [ha])]

example : (newSet demoSet true).final = true ∧ ask demo (after demo (newSet demoSet true) [.assign 0 (.leaf 8)]) (.peek 0) = .ok (.val (.leaf 1)) ∧
    ask demo (after demo (newSet specials true) [.assign 1 (.leaf 8)]) (.peek 1) = .ok (.val (.leaf 8)) := by decide +kernel

/-- C171: with a final configuration no callback runs: a call on one parameter changes no other. -/
theorem C171_final_no_callbacks {env : Env} {s : St} (hf : s.final = true) {i : Nat} {o : Op} (ht : o.target = some i) :
    (step env s o).1.calls = s.calls ∧ ∀ j, j ≠ i → (step env s o).1.ps[j]? = s.ps[j]? := by
  cases hp : s.ps[i]? with
  | none =>
    unfold step exec
    rw [ht]
    dsimp only
    rw [hp]
    exact ⟨rfl, fun _ _ => rfl⟩
  | some p =>
    have hput : ∀ q, (s.put i q).calls = s.calls ∧ ∀ j, j ≠ i → (s.put i q).ps[j]? = s.ps[j]? :=
      fun q => ⟨rfl, fun j hj => by rw [put_get _ _ _ _ (lt_of_get hp), if_neg (Ne.symm hj)]⟩
    cases ho : o.stores with
    | none =>
      rw [step_plain ht hp ho]
      exact hput _
    | some k =>
      have hk : k = i := by
        have := stores_target ho
        rw [ht] at this
        injection this with this
        exact this.symm
      subst hk
      have hinv : ∀ q, invoke env (s.ps.length + 1) (s.put k q) k = (s.put k q, none) ∨
          invoke env (s.ps.length + 1) (s.put k q) k = (s.put k q, some (.exn .sparta)) := by
        intro q
        unfold invoke
        split
        · exact Or.inr rfl
        · rw [handlerOf_quiet (s := s.put k q) (p := q) (by rw [put_get _ _ _ _ (lt_of_get hp), if_pos rfl]) (Or.inl hf)]
          exact Or.inl rfl
      have hset : ∀ q v, (settle (invoke env (s.ps.length + 1)) s k q v).1.calls = s.calls ∧
          ∀ j, j ≠ k → (settle (invoke env (s.ps.length + 1)) s k q v).1.ps[j]? = s.ps[j]? := by
        intro q v
        unfold settle
        rcases hinv { q with val := v } with e | e
        · rw [e]
          exact hput _
        · rw [e]
          refine ⟨?_, ?_⟩
          · dsimp only
            unfold St.rollback
            split <;> rfl
          intro j hj
          dsimp only
          rw [rollback_get, if_neg (Ne.symm hj)]
          exact (hput _).2 j hj
      rw [step_on ht hp]
      rcases stores_cases (env := env) (inv := invoke env (s.ps.length + 1)) (s := s) (p := p) ho with ⟨r, e, _⟩ | ⟨v, pk, e, _, _⟩
      · rw [e]
        exact ⟨rfl, fun _ _ => rfl⟩
      · rw [e]
        unfold store
        split
        · exact hset _ _
        · split
          · exact ⟨rfl, fun _ _ => rfl⟩
          · exact hset _ _

example : ask demo (after demo (newSet demoSet true) [.associate 0 [1] 1, .setStr 0 ['a', 'b', 'c'] false]) (.peek 0) = .ok (.val (.leaf 3)) ∧
    ask demo (after demo (newSet demoSet true) [.associate 0 [1] 1, .setStr 0 ['a', 'b', 'c'] false]) (.peek 1) = .ok (.val (.leaf 2)) := by
  decide +kernel

/-! ### C172: "is default" -/

theorem ask_isDefault {env : Env} {s : St} {i : Nat} {p : Param} (hp : s.ps[i]? = some p) :
    ask env s (.isDefault i) = .ok (.bool (valueText env p == defaultText env p)) := by
  unfold ask
  rw [step_plain rfl hp rfl]
  rfl

theorem stringize_quote {rend : Nat → Str} (q q' : Str) : ∀ (d : Nat) (v : Val), stringize rend false q d v = stringize rend false q' d v
  | 0, .leaf n => by simp [stringize]
  | 0, .vec l => by simp [stringize]
  | _ + 1, .leaf n => by simp [stringize]
  | d + 1, .vec l => by
    unfold stringize
    have : l.map (stringize rend false q d) = l.map (stringize rend false q' d) := by
      apply List.map_congr_left
      intro v _
      exact stringize_quote q q' d v
    rw [this]

/-- C172: a parameter whose value equals its default is reported as having its default, if it is a scalar, has no strings, or a quote
has been set.  Missing: vectors of strings. -/
theorem C172_equal_is_default_partial {env : Env} {s : St} {i : Nat} {p : Param} (hp : s.ps[i]? = some p) (he : p.val = p.dflt)
    (h : p.dim = 0 ∨ p.str = false ∨ p.quote ≠ []) : ask env s (.isDefault i) = .ok (.bool true) := by
  rw [ask_isDefault hp]
  have : valueText env p = defaultText env p := by
    unfold valueText defaultText
    split
    · rename_i hc
      rcases h with h | h | h
      · omega
      · rw [h, he]
        exact stringize_quote _ _ _ _
      · exact absurd hc.2 h
    · rw [he]
  rw [this]
  simp

example : ask demo (after demo (newSet demoSet false) [.push 2 (.leaf 8), .restore 2]) (.isDefault 2) = .ok (.bool true) ∧
    ask demo (after demo (newSet demoSet false) [.push 2 (.leaf 8)]) (.isDefault 2) = .ok (.bool false) := by decide +kernel

/-- C172: for a scalar whose values print differently, "is default" is exactly that the value equals the default. -/
theorem C172_scalar_exact {env : Env} {s : St} {i : Nat} {p : Param} (hp : s.ps[i]? = some p) (hd : p.dim = 0)
    (hr : ∀ m n, env.render p.ty m = env.render p.ty n → m = n) (ht : hasDim 0 p.val = true ∧ hasDim 0 p.dflt = true) :
    ask env s (.isDefault i) = .ok (.bool (decide (p.val = p.dflt))) := by
  rw [ask_isDefault hp]
  unfold valueText defaultText
  rw [hd, if_neg (by omega)]
  cases hv : p.val with
  | vec l => rw [hv] at ht; cases ht.1
  | leaf m =>
    cases hw : p.dflt with
    | vec l => rw [hw] at ht; cases ht.2
    | leaf n =>
      unfold stringize
      congr 2
      by_cases e : m = n
      · subst e
        simp
      · have h1 : ¬ (env.render p.ty m = env.render p.ty n) := fun h => e (hr m n h)
        cases p.str <;> simp [e, h1]

example : ask quiet (after quiet (newSet demoSet false) [.assign 0 (.leaf 8)]) (.isDefault 0) = .ok (.bool false) := by decide +kernel

theorem commas_len {f g : Val → Str} : ∀ (l : List Val), (∀ v ∈ l, (f v).length < (g v).length) → l ≠ [] →
    (commas (l.map f)).length < (commas (l.map g)).length
  | [], _, h => absurd rfl h
  | [v], h, _ => h v (List.mem_cons_self ..)
  | v :: w :: l, h, _ => by
    have h1 := h v (List.mem_cons_self ..)
    have h2 := commas_len (w :: l) (fun x hx => h x (List.mem_cons_of_mem _ hx)) (by simp)
    simp only [List.map_cons, commas, List.length_append] at h2 ⊢
    omega

/-- C172 is violated for every non-empty vector of strings: untouched, it is reported as not having its default. -/
theorem C172_string_vector_violated {env : Env} {s : St} {i : Nat} {p : Param} (hp : s.ps[i]? = some p) (hd : p.dim = 1) (hs : p.str = true)
    (hq : p.quote = []) {ns : List Nat} (hn : ns ≠ []) (hv : p.val = .vec (ns.map Val.leaf)) (he : p.dflt = p.val) :
    ask env s (.isDefault i) = .ok (.bool false) := by
  rw [ask_isDefault hp]
  have : valueText env p ≠ defaultText env p := by
    unfold valueText defaultText
    rw [if_pos ⟨by omega, hq⟩, he, hv, hd, hs, hq]
    intro e
    have e := congrArg List.length e
    unfold stringize at e
    simp only [List.length_append] at e
    have := commas_len (f := stringize (env.render p.ty) true [] 0) (g := stringize (env.render p.ty) true ['"'] 0) (ns.map Val.leaf)
      (by
        intro v hv
        obtain ⟨n, _, rfl⟩ := List.mem_map.mp hv
        simp [stringize]
        omega) (by simpa using hn)
    omega
  simp [this]

example : ask demo (newSet specials false) (.isDefault 2) = .ok (.bool false) := by decide +kernel

/-- C172 is violated the other way: a vector of strings is reported as having its default although it differs. -/
theorem C172_differs_violated :
    let s := after demo (newSet [newParam 1 true 0 .default false (.vec [.leaf 9])] false) [.assign 0 (.vec [.leaf 1])]
    ask demo s (.getDefault 0) = .ok (.val (.vec [.leaf 9])) ∧ ask demo s (.peek 0) = .ok (.val (.vec [.leaf 1])) ∧
      ask demo s (.isDefault 0) = .ok (.bool true) := by decide +kernel

/-! ### C173: validation -/

/-- C173: when the validation callbacks leave the value they are shown alone, the answer is whether all of them accept the value, and the names
of those that do not, in the order they were added, each followed by a comma.  Nothing changes. -/
theorem C173_validate_partial {env : Env} (hpure : ∀ c v, (env.check c v).2 = v) {s : St} {i : Nat} {p : Param} (hp : s.ps[i]? = some p) :
    step env s (.validate i) = (s, .ok (.report (p.deps.all fun d => (env.check d.2 p.val).1)
      ((p.deps.filter fun d => !(env.check d.2 p.val).1).flatMap fun d => d.1 ++ [',']))) := by
  rw [step_plain rfl hp rfl]
  show (s.put i p, Except.ok (Ans.report (runChecks env p.deps p.val).1 (runChecks env p.deps p.val).2)) = _
  rw [put_self hp]
  have : ∀ ds : List (Str × Nat), runChecks env ds p.val = (ds.all fun d => (env.check d.2 p.val).1,
      (ds.filter fun d => !(env.check d.2 p.val).1).flatMap fun d => d.1 ++ [',']) := by
    intro ds
    induction ds with
    | nil => rfl
    | cons d ds ih =>
      unfold runChecks
      dsimp only
      rw [hpure, ih]
      cases h : (env.check d.2 p.val).1 <;> simp [h]
  rw [this]

/-- validators that accept exactly one value -/
def exactly : Env := { demo with check := fun c v => (decide (v = .leaf c), v) }

example : (∀ c v, (exactly.check c v).2 = v) ∧
    ask exactly (after exactly (newSet demoSet false) [.addDep 0 ['a'] 1, .addDep 0 ['b'] 2, .addDep 0 ['c'] 3]) (.validate 0) =
      .ok (.report false ['b', ',', 'c', ',']) := ⟨fun _ _ => rfl, by decide +kernel⟩

/-- C173: a validation callback is taken exactly if its name has no comma; it is then asked last. -/
theorem C173_add {env : Env} {s : St} {i : Nat} {p : Param} (hp : s.ps[i]? = some p) (name : Str) (c : Nat) :
    step env s (.addDep i name c) = if ',' ∈ name then (s, .error (.exn .sparta))
      else (s.put i { p with deps := p.deps ++ [(name, c)] }, .ok .unit) := by
  rw [step_plain rfl hp rfl]
  show (s.put i (addDep p name c).1, lift (addDep p name c).2) = _
  unfold addDep
  split
  · rw [put_self hp]
    rfl
  · rfl

example : ask demo (newSet demoSet false) (.addDep 0 ['a', ',', 'b'] 1) = .error (.exn .sparta) := by decide +kernel

/-- C173 is violated if a callback changes the value it is shown: the next one is shown the changed copy. -/
theorem C173_shared_copy_violated :
    let s := after demo (newSet demoSet false) [.addDep 0 ['a'] 0, .addDep 0 ['b'] 5]
    ask demo s (.peek 0) = .ok (.val (.leaf 1)) ∧ (demo.check 5 (.leaf 1)).1 = false ∧
      ask demo s (.validate 0) = .ok (.report true []) := by decide +kernel

/-! ### C174: phases -/

/-- C174: from teardown on, writing by assignment, from text, by insertion or by restoring the default is refused and changes nothing,
whatever happens in between (assignments under a final configuration are ignored).  Missing: items, resizing, clearing, poking, and the phase
before teardown. -/
theorem C174_teardown_partial {env : Env} {s : St} {n : Nat} (hn : 3 < n) (ops : List Op) {i : Nat} {o : Op} (ho : o.counted = some i) :
    (step env (after env (step env s (.setPhase n)).1 ops) o).1 = after env (step env s (.setPhase n)).1 ops ∧
    (ask env (after env (step env s (.setPhase n)).1 ops) o = .ok .unit →
      (after env (step env s (.setPhase n)).1 ops).final = true ∧ ∃ v, o = .assign i v) := by
  have C : Closed env (fun _ => True) (fun s => 3 < s.phase) := by
    refine ⟨?_, fun s j p o _ _ _ _ h => h, ?_, fun s j h => h, fun s t ts _ h => h⟩
    · intro s o _ h
      cases o <;> first | exact h | (unfold onSet; dsimp only; split <;> exact h) | skip
      · show 3 < max s.phase _
        omega
    · intro s j p p' w _ _ _ _ h
      exact ⟨h, fun s' h' => by rw [(rollback_rest _ _ _).1]; exact h'⟩
  have h0 : 3 < (step env s (.setPhase n)).1.phase := by
    show 3 < max s.phase n
    omega
  have h1 := after_keeps C (fun _ _ => uses_true _) ops (fun _ _ => trivial) h0
  generalize after env (step env s (.setPhase n)).1 ops = s' at h1
  cases hp : s'.ps[i]? with
  | none =>
    have ht : o.target = some i := by
      cases o <;> first | (cases ho; done) | exact ho | skip
      case setStr j t pk => cases pk <;> first | (cases ho; done) | exact ho
      case setVec j t pk => cases pk <;> first | (cases ho; done) | exact ho
      case setItem j is t => cases is <;> first | (cases ho; done) | exact ho
    unfold ask step exec
    rw [ht]
    dsimp only
    rw [hp]
    exact ⟨rfl, fun e => by cases e⟩
  | some p =>
    refine counted_refused hp ho ?_
    unfold countWrite
    rw [if_pos h1]
    split <;> rfl

example : ask demo (after demo (newSet demoSet false) [.setPhase 4]) (.push 2 (.leaf 3)) = .error (.exn .sparta) := by decide +kernel

/-- C174 is violated between finalization and teardown: the tree is finalized and writing is still accepted. -/
theorem C174_finalized_violated :
    let s := after demo (newSet demoSet false) [.setPhase 3]
    ask demo s (.assign 0 (.leaf 8)) = .ok .unit ∧ ask demo (step demo s (.assign 0 (.leaf 8))).1 (.peek 0) = .ok (.val (.leaf 8)) := by
  decide +kernel

/-- C174 is violated in teardown for clearing and poking. -/
theorem C174_teardown_clear_violated :
    let s := after demo (newSet demoSet false) [.setPhase 4]
    ask demo s (.clear 2) = .ok .unit ∧ ask demo (step demo s (.clear 2)).1 (.peek 2) = .ok (.val (.vec [])) ∧
      ask demo s (.setStr 0 ['a', 'b', 'c'] true) = .ok .unit ∧
      ask demo (step demo s (.setStr 0 ['a', 'b', 'c'] true)).1 (.peek 0) = .ok (.val (.leaf 3)) := by decide +kernel

end Sparta.Param
