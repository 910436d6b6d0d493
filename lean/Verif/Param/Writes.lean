import Verif.Param.Reads
/-! C162-C167: accepted and failed writes, unread parameters, modifier callbacks. -/
namespace Sparta.Param

theorem ask_writeCount {env : Env} {s : St} {i : Nat} {p : Param} (hp : s.ps[i]? = some p) :
    ask env s (.writeCount i) = .ok (.nat p.writes) := by
  unfold ask
  rw [step_on rfl hp]
  rfl

theorem ask_locked {env : Env} {s : St} : ask env s .isLocked = .ok (.bool (!s.stack.isEmpty)) := rfl

theorem stack_of_unlocked {env : Env} {s : St} (h : ask env s .isLocked = .ok (.bool false)) : s.stack = [] := by
  rw [ask_locked] at h
  injection h with h
  injection h with h
  cases hs : s.stack with
  | nil => rfl
  | cons a b =>
    rw [hs] at h
    cases h

theorem peek_valAt {env : Env} {s : St} {i : Nat} : ask env s (.peek i) =
    match valAt s i with
    | some v => .ok (.val v)
    | none => .ok .noParam := by
  unfold valAt
  cases hp : s.ps[i]? with
  | some p => exact ask_peek hp
  | none =>
    unfold ask step exec
    dsimp only [Op.target]
    rw [hp]
    rfl

theorem peek_congr {env : Env} {s s' : St} {i : Nat} (h : valAt s' i = valAt s i) : ask env s' (.peek i) = ask env s (.peek i) := by
  rw [peek_valAt, peek_valAt, h]

theorem castAll_ok {c : Str → Except Exn Nat} : ∀ {ts : List Str} {l : List Val}, castAll c ts = .ok l →
    ∃ ns : List Nat, ts.map c = ns.map Except.ok ∧ l = ns.map Val.leaf
  | [], l, h => by
    injection h with h
    subst h
    exact ⟨[], rfl, rfl⟩
  | t :: ts, l, h => by
    unfold castAll at h
    split at h
    · cases h
    · rename_i n e
      split at h
      · cases h
      · rename_i l' e'
        injection h with h
        subst h
        obtain ⟨ns, h1, h2⟩ := castAll_ok e'
        exact ⟨n :: ns, by rw [List.map_cons, List.map_cons, e, h1], by rw [h2]; rfl⟩

/-- the value that a call asks a parameter to take, where texts of its type convert by `cast` -/
inductive Asked (cast : Str → Except Exn Nat) (i : Nat) : Op → Val → Prop
  | assign (v) : Asked cast i (.assign i v) v
  | setStr (t pk n) : cast t = .ok n → Asked cast i (.setStr i t pk) (.leaf n)
  | setItem (t n) : cast t = .ok n → Asked cast i (.setItem i [] t) (.leaf n)
  | setVec (ts pk) (ns : List Nat) : ts.map cast = ns.map Except.ok → Asked cast i (.setVec i ts pk) (.vec (ns.map Val.leaf))

/-- the calls that replace the whole value of parameter `i` -/
def Op.stores : Op → Option Nat
  | .assign i _ | .setStr i _ _ | .setVec i _ _ | .setItem i [] _ => some i
  | _ => none

theorem stores_target {o : Op} {i : Nat} (h : o.stores = some i) : o.target = some i := by
  cases o <;> first | (cases h; done) | exact h | skip
  case setItem j is t => cases is <;> first | (cases h; done) | exact h

/-- a call that replaces the value is refused at once, ignored, or stores the value it asks for -/
theorem stores_cases {env : Env} {inv : Inv} {s : St} {i : Nat} {p : Param} {o : Op} (ho : o.stores = some i) :
    (∃ r, onTarget env inv s i p o = (s, r) ∧ (r = .ok .unit → s.final = true ∧ p.attr ≠ .hidden ∧ ∃ v, o = .assign i v)) ∨
    (∃ v pk, onTarget env inv s i p o = store inv s i p v pk ∧ Asked (env.cast p.ty) i o v ∧ (pk = true → o.pokes = true)) := by
  have key : ∀ t pk o', (∀ n, env.cast p.ty t = .ok n → Asked (env.cast p.ty) i o' (.leaf n)) → (pk = true → o'.pokes = true) →
      (∃ r, setStr env inv s i p t pk = (s, r) ∧ (r = .ok .unit → s.final = true ∧ p.attr ≠ .hidden ∧ ∃ v, o = .assign i v)) ∨
      (∃ v pk', setStr env inv s i p t pk = store inv s i p v pk' ∧ Asked (env.cast p.ty) i o' v ∧ (pk' = true → o'.pokes = true)) := by
    intro t pk o' hk hpk
    unfold setStr
    split
    · exact Or.inl ⟨_, rfl, fun e => by cases e⟩
    · split
      · exact Or.inl ⟨_, rfl, fun e => by cases e⟩
      · split
        · exact Or.inl ⟨_, rfl, fun e => by cases e⟩
        · rename_i n e
          exact Or.inr ⟨_, pk, rfl, hk n e, hpk⟩
  cases o <;> first | (cases ho; done) | skip
  case assign j v =>
    injection ho with ho
    subst ho
    unfold onTarget assign
    dsimp only
    split
    · exact Or.inl ⟨_, rfl, fun e => by cases e⟩
    · split
      · exact Or.inl ⟨_, rfl, fun e => by cases e⟩
      · split
        · rename_i hf
          rw [Bool.and_eq_true] at hf
          exact Or.inl ⟨_, rfl, fun _ => ⟨hf.1, by simpa using hf.2, v, rfl⟩⟩
        · exact Or.inr ⟨v, false, rfl, .assign v, fun e => by cases e⟩
  case setStr j t pk =>
    injection ho with ho
    subst ho
    exact key t pk _ (fun n e => .setStr t pk n e) (fun e => e)
  case setVec j ts pk =>
    injection ho with ho
    subst ho
    unfold onTarget setVec
    dsimp only
    split
    · exact Or.inl ⟨_, rfl, fun e => by cases e⟩
    · split
      · exact Or.inl ⟨_, rfl, fun e => by cases e⟩
      · split
        · exact Or.inl ⟨_, rfl, fun e => by cases e⟩
        · rename_i l e
          obtain ⟨ns, h1, h2⟩ := castAll_ok e
          refine Or.inr ⟨_, pk, rfl, ?_, fun e => e⟩
          rw [h2]
          exact .setVec ts pk ns h1
  case setItem j is t =>
    cases is with
    | cons a b => cases ho
    | nil =>
      injection ho with ho
      subst ho
      exact key t false _ (fun n e => .setItem t n e) (fun e => by cases e)

theorem invoke_quiet {env : Env} {f : Nat} {s : St} {i : Nat} (hs : s.stack = []) (hh : handlerOf s i = none) :
    invoke env (f + 1) s i = (s, none) := by
  unfold invoke
  rw [if_neg (by unfold mayBeModified; rw [hs]; simp), hh]

theorem handlerOf_quiet {s : St} {i : Nat} {p : Param} (h : s.ps[i]? = some p) (hc : s.final = true ∨ p.cb = none) :
    handlerOf s i = none := by
  unfold handlerOf
  rw [h]
  dsimp only
  split
  · rfl
  · rename_i hf
    rcases hc with hc | hc
    · exact absurd hc hf
    · exact hc

theorem settle_quiet {env : Env} {f : Nat} {s : St} {i : Nat} {p q : Param} {v : Val} (hs : s.stack = []) (hq : s.ps[i]? = some q)
    (hc : s.final = true ∨ p.cb = none) :
    settle (invoke env (f + 1)) s i p v = (s.put i { p with val := v }, .ok .unit) := by
  unfold settle
  have h1 : (s.put i { p with val := v }).ps[i]? = some { p with val := v } := by
    rw [put_get _ _ _ _ (lt_of_get hq), if_pos rfl]
  rw [invoke_quiet (s := s.put i { p with val := v }) hs (handlerOf_quiet h1 hc)]

theorem store_quiet {env : Env} {f : Nat} {s : St} {i : Nat} {p : Param} {v : Val} (hs : s.stack = []) (hp : s.ps[i]? = some p)
    (hc : s.final = true ∨ p.cb = none) : store (invoke env (f + 1)) s i p v false = (s, .error (.exn .sparta)) ∨
    store (invoke env (f + 1)) s i p v false = (s.put i { p with val := v, reads := 0, writes := p.writes + 1 }, .ok .unit) := by
  unfold store
  rw [if_neg (by decide)]
  split
  · exact Or.inl rfl
  · rename_i p' e
    refine Or.inr ?_
    have hp' := countWrite_eq e
    rw [settle_quiet hs hp (by rw [hp']; exact hc), hp']

/-- the calls that write parameter `i` and count it, single items included -/
def Op.writesTo : Op → Option Nat
  | .assign i _ | .setStr i _ false | .setVec i _ false | .push i _ | .restore i | .setItem i _ _ => some i
  | _ => none

/-- C162: an accepted write of a parameter without callback counts one write, resets the reads, and changes nothing else but the
value (assignments under a final configuration aside). -/
theorem C162_write_counts {env : Env} {s : St} {i : Nat} {p : Param} {o : Op} (hp : s.ps[i]? = some p) (ho : o.writesTo = some i)
    (hl : ask env s .isLocked = .ok (.bool false)) (hf : s.final = false) (hcb : p.cb = none) (h : ask env s o = .ok .unit) :
    ∃ v, (step env s o).1 = s.put i { p with val := v, reads := 0, writes := p.writes + 1 } := by
  have hs := stack_of_unlocked hl
  unfold ask at h
  have whole : o.stores = some i → o.pokes = false →
      ∃ v, (step env s o).1 = s.put i { p with val := v, reads := 0, writes := p.writes + 1 } := by
    intro ho' hpk
    have ht := stores_target ho'
    rw [step_on ht hp] at h ⊢
    rcases stores_cases (env := env) (inv := invoke env (s.ps.length + 1)) (s := s) (p := p) ho' with ⟨r, e, hr⟩ | ⟨v, pk, e, _, hpk'⟩
    · rw [e] at h
      rw [hf] at hr
      exact absurd (hr h).1 (by decide)
    · have : pk = false := by
        cases pk with
        | false => rfl
        | true => rw [hpk' rfl] at hpk; cases hpk
      subst this
      rw [e] at h ⊢
      rcases store_quiet (env := env) (f := s.ps.length) (v := v) hs hp (Or.inr hcb) with e' | e'
      · rw [e'] at h
        cases h
      · rw [e']
        exact ⟨v, rfl⟩
  cases o <;> first | (cases ho; done) | skip
  case assign j v => exact whole ho rfl
  case setStr j t pk =>
    cases pk with
    | true => cases ho
    | false => exact whole ho rfl
  case setVec j t pk =>
    cases pk with
    | true => cases ho
    | false => exact whole ho rfl
  case setItem j is t =>
    injection ho with ho
    subst ho
    cases is with
    | nil => exact whole rfl rfl
    | cons a b =>
      rw [step_on rfl hp] at h ⊢
      show ∃ v, s.put j (writeItem env s.phase s.locked p (a :: b) t).1 = _
      have h : lift (writeItem env s.phase s.locked p (a :: b) t).2 = .ok .unit := h
      unfold writeItem at h ⊢
      split at h
      · cases h
      · rename_i ha
        rw [if_neg ha]
        dsimp only at h ⊢
        split at h
        · cases h
        · split at h
          · cases h
          · rename_i e2
            rw [countWrite_eq e2]
            exact ⟨_, rfl⟩
  case push j v =>
    injection ho with ho
    subst ho
    rw [step_on rfl hp] at h ⊢
    show ∃ w, s.put j (pushBack s.phase s.locked p v).1 = _
    have h : lift (pushBack s.phase s.locked p v).2 = .ok .unit := h
    unfold pushBack at h ⊢
    split at h
    · split at h
      · split at h
        · cases h
        · split at h
          · cases h
          · rename_i h1 h2 _ p' e
            simp only [if_pos h1, if_neg h2]
            rw [countWrite_eq e]
            exact ⟨_, rfl⟩
      · cases h
    · cases h
  case restore j =>
    injection ho with ho
    subst ho
    rw [step_on rfl hp] at h ⊢
    show ∃ w, s.put j (restoreDefault s.phase s.locked p).1 = _
    have h : lift (restoreDefault s.phase s.locked p).2 = .ok .unit := h
    unfold restoreDefault at h ⊢
    split at h
    · cases h
    · split at h
      · cases h
      · split at h
        · cases h
        · rename_i h1 h2 _ p' e
          rw [if_neg h1, if_neg h2, countWrite_eq e]
          exact ⟨_, rfl⟩

example : (newSet demoSet false).ps[2]? = some (newParam 1 false 0 .default false (.vec [.leaf 3])) ∧
    ask demo (newSet demoSet false) .isLocked = .ok (.bool false) ∧
    ask demo (newSet demoSet false) (.setItem 2 [4] ['a', 'b']) = .ok .unit ∧
    ask demo (step demo (newSet demoSet false) (.setItem 2 [4] ['a', 'b'])).1 (.writeCount 2) = .ok (.nat 1) := by decide +kernel

/-! ### C163: parameters that nobody read -/

theorem verify_iff (s : St) : (onSet s .verifyAllRead).2 = .ok .unit ↔ ∀ p ∈ s.ps, p.ignored = true ∨ 0 < p.reads := by
  unfold onSet
  dsimp only
  split
  · rename_i h
    rw [List.all_eq_true] at h
    refine ⟨fun _ p hp => ?_, fun _ => rfl⟩
    have := h p hp
    rw [Bool.or_eq_true, decide_eq_true_eq] at this
    exact this
  · rename_i h
    refine ⟨(fun e => by cases e), fun h' => ?_⟩
    exfalso
    apply h
    rw [List.all_eq_true]
    intro p hp
    rw [Bool.or_eq_true, decide_eq_true_eq]
    exact h' p hp

/-- C163: the check for unread parameters passes exactly if every parameter is ignored or has been read since its last counted write;
otherwise it throws. -/
theorem C163_verify_exact (env : Env) (s : St) :
    (ask env s .verifyAllRead = .ok .unit ↔
      ∀ i, i < s.ps.length → ask env s (.isIgnored i) = .ok (.bool true) ∨ ∃ r, ask env s (.readCount i) = .ok (.nat (r + 1))) ∧
    (ask env s .verifyAllRead ≠ .ok .unit → ask env s .verifyAllRead = .error (.exn .sparta)) := by
  refine ⟨(verify_iff s).trans ⟨?_, ?_⟩, ?_⟩
  · intro h i hi
    have hp : s.ps[i]? = some s.ps[i] := List.getElem?_eq_getElem hi
    rw [ask_ignored hp, ask_readCount hp]
    rcases h _ (List.mem_of_getElem? hp) with h | h
    · exact Or.inl (by rw [h])
    · refine Or.inr ⟨s.ps[i].reads - 1, ?_⟩
      rw [Nat.sub_add_cancel h]
  · intro h p hp
    obtain ⟨i, hi, rfl⟩ := List.getElem_of_mem hp
    have hp : s.ps[i]? = some s.ps[i] := List.getElem?_eq_getElem hi
    have := h i hi
    rw [ask_ignored hp, ask_readCount hp] at this
    rcases this with h | ⟨r, h⟩
    · injection h with h
      injection h with h
      exact Or.inl h
    · injection h with h
      injection h with h
      exact Or.inr (by omega)
  · intro h
    unfold ask step exec at h ⊢
    dsimp only [Op.target, onSet] at h ⊢
    split at h
    · exact absurd rfl h
    · rename_i e
      rw [if_neg e]

example : ask demo (newSet demoSet false) .verifyAllRead = .error (.exn .sparta) ∧
    ask demo (after demo (newSet demoSet false) [.read 0, .ignore 1, .num 2 false]) .verifyAllRead = .ok .unit := by decide +kernel

/-- C163: after an accepted write of a parameter that is not ignored the check fails, until the parameter is read again; ignored
parameters stay ignored. -/
theorem C163_write_needs_read {env : Env} {s : St} {i : Nat} {p : Param} {o : Op} (hp : s.ps[i]? = some p) (ho : o.writesTo = some i)
    (hl : ask env s .isLocked = .ok (.bool false)) (hf : s.final = false) (hcb : p.cb = none) (h : ask env s o = .ok .unit) :
    ask env (step env s o).1 (.isIgnored i) = ask env s (.isIgnored i) ∧
    (ask env s (.isIgnored i) = .ok (.bool false) → ask env (step env s o).1 .verifyAllRead = .error (.exn .sparta)) := by
  obtain ⟨v, e⟩ := C162_write_counts hp ho hl hf hcb h
  rw [e]
  have hq : (s.put i { p with val := v, reads := 0, writes := p.writes + 1 }).ps[i]? =
      some { p with val := v, reads := 0, writes := p.writes + 1 } := by
    rw [put_get _ _ _ _ (lt_of_get hp), if_pos rfl]
  rw [ask_ignored hq, ask_ignored hp]
  refine ⟨rfl, fun hi => ?_⟩
  injection hi with hi
  injection hi with hi
  refine (C163_verify_exact env _).2 fun h' => ?_
  rcases (verify_iff _).mp h' _ (List.mem_of_getElem? hq) with h1 | h1
  · rw [hi] at h1
    cases h1
  · exact absurd h1 (Nat.lt_irrefl 0)

example : ask demo (after demo (newSet demoSet false) [.read 0, .read 1, .read 2, .unread 0]) (.assign 0 (.leaf 3)) = .ok .unit ∧
    ask demo (after demo (newSet demoSet false) [.read 0, .read 1, .read 2, .unread 0]) (.isIgnored 0) = .ok (.bool false) := by decide +kernel

/-! ### C164: failed writes -/

theorem inv_len {env : Env} {s : St} (h : Fine s.ps.length s) {i : Nat} {p : Param} (hi : i < s.ps.length) :
    (invoke env (s.ps.length + 1) (s.put i p) i).1.ps.length = s.ps.length :=
  (invoke_out _ _ i (fine_of h (put_len _ _ _) rfl) hi (by omega) (fun _ => by omega)).fine.len

theorem settle_failed {env : Env} {s : St} (h : Fine s.ps.length s) {i : Nat} {p q : Param} {v : Val} (hq : s.ps[i]? = some q)
    (hv : p.val = q.val) (he : (settle (invoke env (s.ps.length + 1)) s i p v).2 = .error (.exn .sparta)) :
    valAt (settle (invoke env (s.ps.length + 1)) s i p v).1 i = valAt s i := by
  have hl := inv_len (env := env) (p := { p with val := v }) h (lt_of_get hq)
  unfold settle at he ⊢
  split at he
  · cases he
  · rename_i e
    rw [e] at hl
    rw [valAt_rollback (by rw [hl]; exact lt_of_get hq), if_pos rfl]
    unfold valAt
    rw [hq, hv]
    rfl
  · rename_i e' hne e
    injection he with he
    subst he
    exact absurd rfl hne

/-- C164: a call to replace a value (by assignment or from text) that throws a `SpartaException` leaves the value as it was, whatever the
callbacks do.  Missing: other exceptions; access counts; single items. -/
theorem C164_failed_write_keeps_partial {env : Env} {s : St} (h : Reachable env s) {i : Nat} {o : Op} (ho : o.stores = some i)
    (he : ask env s o = .error (.exn .sparta)) : ask env (step env s o).1 (.peek i) = ask env s (.peek i) := by
  have hf := reach_fine h
  obtain ⟨p, hp⟩ := get_of_ask (stores_target ho) he (fun e => by cases e)
  unfold ask at he
  apply peek_congr
  rw [step_on (stores_target ho) hp] at he ⊢
  rcases stores_cases (env := env) (inv := invoke env (s.ps.length + 1)) (s := s) (p := p) ho with ⟨r, e, _⟩ | ⟨v, pk, e, _, _⟩
  · rw [e]
  · rw [e] at he ⊢
    unfold store at he ⊢
    split at he
    · rename_i hpk
      rw [if_pos hpk]
      exact settle_failed hf hp rfl he
    · rename_i hpk
      rw [if_neg hpk]
      split at he
      · rfl
      · rename_i p' e'
        exact settle_failed hf hp (by rw [countWrite_eq e']) he

example : ask demo (after demo (newSet demoSet false) [.associate 0 [1] 2]) (.assign 0 (.leaf 8)) = .error (.exn .sparta) := by decide +kernel

/-- C164: a failed insertion or a failed restoring of the default changes nothing. -/
theorem C164_failed_insert {env : Env} {s : St} {i : Nat} {o : Op} (ho : (∃ v, o = .push i v) ∨ o = .restore i) {e : Err}
    (he : ask env s o = .error e) : (step env s o).1 = s := by
  have ht : o.target = some i := by rcases ho with ⟨v, rfl⟩ | rfl <;> rfl
  obtain ⟨p, hp⟩ := get_of_ask ht he (fun e => by cases e)
  unfold ask at he
  rw [step_on ht hp] at he ⊢
  rcases ho with ⟨v, rfl⟩ | rfl
  · have he : lift (pushBack s.phase s.locked p v).2 = .error e := he
    show s.put i (pushBack s.phase s.locked p v).1 = s
    have : (pushBack s.phase s.locked p v).1 = p := by
      unfold pushBack at he ⊢
      split at he
      · split at he
        · split at he
          · rename_i h1 h2
            simp only [if_pos h1, if_pos h2]
          · split at he
            · rename_i h1 h2 _ e
              simp only [if_pos h1, if_neg h2]
            · cases he
        · cases he
      · cases he
    rw [this]
    exact put_self hp
  · have he : lift (restoreDefault s.phase s.locked p).2 = .error e := he
    show s.put i (restoreDefault s.phase s.locked p).1 = s
    have : (restoreDefault s.phase s.locked p).1 = p := by
      unfold restoreDefault at he ⊢
      split at he
      · rename_i h1
        rw [if_pos h1]
      · split at he
        · rename_i h1 h2
          rw [if_neg h1, if_pos h2]
        · split at he
          · rename_i h1 h2 _ e
            rw [if_neg h1, if_neg h2]
          · cases he
    rw [this]
    exact put_self hp

example : ask demo (after demo (newSet demoSet false) [.read 2]) (.push 2 (.leaf 8)) = .error (.exn .sparta) := by decide +kernel

/-- C164 is violated when a callback throws anything but a `SpartaException`: the call fails, the new value stays. -/
theorem C164_other_exception_violated :
    let s := after demo (newSet demoSet false) [.associate 0 [1] 3]
    ask demo s (.peek 0) = .ok (.val (.leaf 1)) ∧ ask demo s (.assign 0 (.leaf 8)) = .error (.exn .other) ∧
      ask demo (step demo s (.assign 0 (.leaf 8))).1 (.peek 0) = .ok (.val (.leaf 8)) := by decide +kernel

/-- C164 is violated for items of vectors: a text that does not convert still makes the vector grow. -/
theorem C164_item_violated :
    ask demo (newSet demoSet false) (.setItem 2 [3] ['x']) = .error (.exn .sparta) ∧
      ask demo (step demo (newSet demoSet false) (.setItem 2 [3] ['x'])).1 (.peek 2) =
        .ok (.val (.vec [.leaf 3, .leaf 0, .leaf 0, .leaf 0])) := by decide +kernel

/-- C164 is violated for the counts: an assignment undone because the callback failed has counted as a write. -/
theorem C164_counts_violated :
    let s := after demo (newSet demoSet false) [.associate 0 [1] 2]
    ask demo s (.assign 0 (.leaf 8)) = .error (.exn .sparta) ∧ ask demo s (.writeCount 0) = .ok (.nat 0) ∧
      ask demo (step demo s (.assign 0 (.leaf 8))).1 (.writeCount 0) = .ok (.nat 1) := by decide +kernel

/-! ### C165: accepted writes -/

theorem settle_value {env : Env} (hh : ∀ n h, Uses Ordered (env.handler n h)) {s : St} (h : Fine s.ps.length s) {i : Nat} {p q : Param}
    {v : Val} (hq : s.ps[i]? = some q) (he : (settle (invoke env (s.ps.length + 1)) s i p v).2 = .ok .unit) :
    valAt (settle (invoke env (s.ps.length + 1)) s i p v).1 i = some v := by
  have hc := (calm_top hh h (lt_of_get hq)).keeps { p with val := v } i (Nat.le_refl _)
  unfold settle at he ⊢
  split at he
  · rename_i e
    rw [e] at hc
    dsimp only at hc ⊢
    rw [hc, valAt_put (lt_of_get hq), if_pos rfl]
  · cases he
  · cases he

/-- C165: after an accepted call to replace a value, the parameter has the value asked for, whatever the callbacks do, as long as they
write by the calls that are checked (assignment, from text).  Under a final configuration assignments do nothing: see C171. -/
theorem C165_accepted_value_partial {env : Env} (hh : ∀ n h, Uses Ordered (env.handler n h)) {s : St} (h : Reachable env s) {i : Nat} {p : Param}
    (hp : s.ps[i]? = some p) {o : Op} (ho : o.stores = some i) (hf : s.final = false ∨ p.attr = .hidden ∨ ∀ v, o ≠ .assign i v)
    (he : ask env s o = .ok .unit) : ∃ v, Asked (env.cast p.ty) i o v ∧ ask env (step env s o).1 (.peek i) = .ok (.val v) := by
  have hfi := reach_fine h
  unfold ask at he
  rw [step_on (stores_target ho) hp] at he ⊢
  rcases stores_cases (env := env) (inv := invoke env (s.ps.length + 1)) (s := s) (p := p) ho with ⟨r, e, hr⟩ | ⟨v, pk, e, ha, _⟩
  · rw [e] at he
    obtain ⟨h1, h2, v, h3⟩ := hr he
    rcases hf with hf | hf | hf
    · rw [hf] at h1
      cases h1
    · exact absurd hf h2
    · exact absurd h3 (hf v)
  · refine ⟨v, ha, ?_⟩
    rw [e] at he ⊢
    have key : valAt (store (invoke env (s.ps.length + 1)) s i p v pk).1 i = some v := by
      unfold store at he ⊢
      split at he
      · rename_i hpk
        rw [if_pos hpk]
        exact settle_value hh hfi hp he
      · rename_i hpk
        rw [if_neg hpk]
        split at he
        · cases he
        · rename_i p' e'
          exact settle_value hh hfi hp he
    rw [peek_valAt, key]

/-- handlers that assign to the second parameter -/
def ordered : Env := { demo with handler := fun _ _ => .call (.assign 1 (.leaf 7)) (goOn .done) }

theorem ordered_uses : ∀ n h, Uses Ordered (ordered.handler n h) := by
  intro n h
  refine .call _ _ rfl ?_
  intro r
  cases r
  · exact .raise _
  · exact .done

example : ask ordered (after ordered (newSet demoSet false) [.associate 0 [1] 1]) (.setStr 0 ['a', 'b', 'c'] false) = .ok .unit ∧
    ask ordered (after ordered (newSet demoSet false) [.associate 0 [1] 1, .setStr 0 ['a', 'b', 'c'] false]) (.peek 1) = .ok (.val (.leaf 7)) := by
  decide +kernel

/-- C165: an accepted insertion appends the element; an accepted restoring gives the default. -/
theorem C165_insert_value {env : Env} {s : St} {i : Nat} {p : Param} (hp : s.ps[i]? = some p) :
    (∀ v, ask env s (.push i v) = .ok .unit → ∃ l, p.val = .vec l ∧
      ask env (step env s (.push i v)).1 (.peek i) = .ok (.val (.vec (l ++ [v])))) ∧
    (ask env s (.restore i) = .ok .unit → ask env (step env s (.restore i)).1 (.peek i) = ask env s (.getDefault i)) := by
  have hget : ∀ q, (s.put i q).ps[i]? = some q := fun q => by rw [put_get _ _ _ _ (lt_of_get hp), if_pos rfl]
  constructor
  · intro v he
    unfold ask at he
    rw [step_on rfl hp] at he ⊢
    show ∃ l, _ ∧ ask env (s.put i (pushBack s.phase s.locked p v).1) (.peek i) = _
    have he : lift (pushBack s.phase s.locked p v).2 = .ok .unit := he
    rw [ask_peek (hget _)]
    unfold pushBack at he ⊢
    split at he
    · rename_i hv
      split at he
      · split at he
        · cases he
        · split at he
          · cases he
          · rename_i h1 h2 _ p' e
            refine ⟨_, hv, ?_⟩
            simp only [if_pos h1, if_neg h2]
      · cases he
    · cases he
  · intro he
    unfold ask at he
    rw [step_on rfl hp] at he ⊢
    have he : lift (restoreDefault s.phase s.locked p).2 = .ok .unit := he
    show ask env (s.put i (restoreDefault s.phase s.locked p).1) (.peek i) = _
    rw [ask_peek (hget _)]
    have : ask env s (.getDefault i) = .ok (.val p.dflt) := by
      unfold ask
      rw [step_on rfl hp]
      rfl
    rw [this]
    unfold restoreDefault at he ⊢
    split at he
    · cases he
    · split at he
      · cases he
      · split at he
        · cases he
        · rename_i h1 h2 _ p' e
          rw [if_neg h1, if_neg h2, countWrite_eq e]

example : ask demo (newSet demoSet false) (.push 2 (.leaf 8)) = .ok .unit ∧
    ask demo (after demo (newSet demoSet false) [.push 2 (.leaf 8)]) (.restore 2) = .ok .unit := by decide +kernel

/-- a set with a vector first -/
def vecFirst : List Param :=
  [newParam 1 false 0 .default false (.vec [.leaf 3]), newParam 0 false 0 .default false (.leaf 2)]

/-- C165 is violated if the callback of the parameter inserts into it: this is not checked. -/
theorem C165_own_callback_violated :
    let s := after demo (newSet vecFirst false) [.associate 0 [1] 4]
    ask demo s (.assign 0 (.vec [.leaf 5])) = .ok .unit ∧
      ask demo (step demo s (.assign 0 (.vec [.leaf 5]))).1 (.peek 0) = .ok (.val (.vec [.leaf 5, .leaf 9])) := by decide +kernel

/-! ### C166: callbacks change later parameters only -/

/-- C166: a call on parameter `i` never changes the value of a parameter before it, whatever callbacks run (also by the callbacks of
parameters written by callbacks), as long as the callbacks write by the calls that are checked. -/
theorem C166_earlier_unchanged_partial {env : Env} (hh : ∀ n h, Uses Ordered (env.handler n h)) {s : St} (h : Reachable env s) {i j : Nat}
    {o : Op} (ht : o.target = some i) (hj : j < i) : ask env (step env s o).1 (.peek j) = ask env s (.peek j) := by
  apply peek_congr
  cases hp : s.ps[i]? with
  | none =>
    unfold step exec
    rw [ht]
    dsimp only
    rw [hp]
  | some p =>
    rw [step_on ht hp]
    by_cases ho : o.edits = false
    · exact onTarget_frame ho (calm_top hh (reach_fine h) (lt_of_get hp)) hp (Or.inl hj)
    · have : onTarget env (invoke env (s.ps.length + 1)) s i p o = plain env s i p o := by
        cases o <;> first | rfl | (exact absurd rfl ho) | skip
        case setItem k is t => cases is <;> first | rfl | (exact absurd rfl ho)
      rw [this]
      unfold plain
      rw [valAt_put (lt_of_get hp), if_neg (by omega)]

example : Reachable ordered (after ordered (newSet demoSet false) [.associate 0 [1] 1, .associate 1 [2] 1]) ∧
    ask ordered (after ordered (newSet demoSet false) [.associate 0 [1] 1, .associate 1 [2] 1]) (.assign 1 (.leaf 3)) =
      .error (.exn .sparta) := ⟨reach_after demo_fresh _, by decide +kernel⟩

/-- C166 is violated if a callback inserts into an earlier parameter. -/
theorem C166_insert_violated :
    let s := after demo (newSet vecFirst false) [.associate 1 [] 4]
    ask demo s (.assign 1 (.leaf 5)) = .ok .unit ∧ ask demo s (.peek 0) = .ok (.val (.vec [.leaf 3])) ∧
      ask demo (step demo s (.assign 1 (.leaf 5))).1 (.peek 0) = .ok (.val (.vec [.leaf 3, .leaf 9])) := by decide +kernel

/-- C166, the announcement: a single parameter is accepted exactly if it comes later in the set (or is not in the set), and if nothing
was announced before. -/
theorem C166_associate_single {env : Env} {s : St} {i j h : Nat} {p : Param} (hp : s.ps[i]? = some p) (hj : j < s.ps.length) :
    ask env s (.associate i [j] h) = .ok .unit ↔ p.assoc = [] ∧ i < j := by
  unfold ask
  rw [step_on rfl hp]
  show lift (associate s.ps.length i p [j] h).2 = .ok .unit ↔ _
  unfold associate mayModify mayModify
  by_cases ha : p.assoc = []
  · by_cases hij : j = i
    · subst hij
      simp [ha, lift]
    · by_cases hlt : i < j
      · simp [ha, hij, hj, hlt, lift]
      · simp [ha, hij, hj, hlt, lift]
  · simp [ha, lift]

example : ask demo (newSet demoSet false) (.associate 1 [2] 1) = .ok .unit := by decide +kernel

/-- C166 is violated for several parameters: only the first one announced is looked at. -/
theorem C166_announce_violated :
    ask demo (newSet demoSet false) (.associate 1 [2, 0] 1) = .ok .unit ∧
      ask demo (newSet demoSet false) (.associate 1 [0, 2] 1) = .error (.exn .sparta) := by decide +kernel

/-! ### C167: the lock -/

/-- C167: a call that returns leaves the set locked or unlocked as it was, whatever the callbacks do. -/
theorem C167_lock_balanced {env : Env} {s : St} (h : Reachable env s) {o : Op} {a : Ans} (he : ask env s o = .ok a) :
    ask env (step env s o).1 .isLocked = ask env s .isLocked := by
  rw [ask_locked, ask_locked, (step_out (reach_fine h)).ok ⟨a, he⟩]

example : ask demo (after demo (newSet demoSet false) [.associate 0 [1] 1]) (.assign 0 (.leaf 8)) = .ok .unit := by decide +kernel

/-- C167 is violated when a callback throws: the set stays locked, and the parameter refuses further writes. -/
theorem C167_exception_locks_violated :
    let s := after demo (newSet demoSet false) [.associate 0 [1] 2, .assign 0 (.leaf 8)]
    ask demo s .isLocked = .ok (.bool true) ∧ ask demo s (.assign 0 (.leaf 1)) = .error (.exn .sparta) ∧
      ask demo (after demo s [.unread 0, .resetReads, .resetWrites]) (.setStr 0 ['a'] true) = .error (.exn .sparta) := by decide +kernel

theorem after_suf {env : Env} : ∀ (ops : List Op) {s : St}, Reachable env s → ∃ ext, (after env s ops).stack = ext ++ s.stack
  | [], s, _ => ⟨[], rfl⟩
  | o :: ops, s, h => by
    obtain ⟨e1, h1⟩ := after_suf ops (reach_step (o := o) h)
    obtain ⟨e2, h2⟩ := (step_out (env := env) (o := o) (reach_fine h)).suf
    exact ⟨e1 ++ e2, by rw [List.append_assoc, ← h2]; exact h1⟩

theorem reach_after' {env : Env} {s : St} (h : Reachable env s) (ops : List Op) : Reachable env (after env s ops) := by
  obtain ⟨ps, fin, ops', hf, rfl⟩ := h
  refine ⟨ps, fin, ops' ++ ops, hf, ?_⟩
  unfold after
  rw [runOps_append]

/-- C167: a set found locked between calls is so for ever, whatever is called, and its first parameter can never be replaced again: the
call throws and the value stays (under a final configuration an assignment is ignored). -/
theorem C167_locked_for_ever {env : Env} {s : St} (h : Reachable env s) (hl : ask env s .isLocked = .ok (.bool true)) (ops : List Op) :
    ask env (after env s ops) .isLocked = .ok (.bool true) ∧
    ∀ o, o.stores = some 0 → (s.ps.length ≠ 0) → ask env (after env s ops) o = .ok .unit →
      (after env s ops).final = true ∧ (step env (after env s ops) o).1 = after env s ops := by
  obtain ⟨ext, hst⟩ := after_suf ops h
  have hr := reach_after' h ops
  have hne : ∃ t ts, (after env s ops).stack = t :: ts := by
    rw [ask_locked] at hl
    cases hs : s.stack with
    | nil =>
      rw [hs] at hl
      cases hl
    | cons a b =>
      rw [hst, hs]
      cases ext with
      | nil => exact ⟨a, b, rfl⟩
      | cons c d => exact ⟨c, d ++ a :: b, rfl⟩
  obtain ⟨t, ts, hst'⟩ := hne
  refine ⟨?_, ?_⟩
  · rw [ask_locked, hst']
    rfl
  · intro o ho hn he
    obtain ⟨p, hp⟩ := get_of_ask (stores_target ho) he (fun e => by cases e)
    have hf := reach_fine hr
    have hno : mayBeModified (after env s ops) 0 = false := by
      cases hm : mayBeModified (after env s ops) 0 with
      | false => rfl
      | true =>
        have := (mayBeModified_iff hf (lt_of_get hp)).mp hm t ts hst'
        omega
    have hinv : ∀ q, invoke env ((after env s ops).ps.length + 1) ((after env s ops).put 0 q) 0 = ((after env s ops).put 0 q, some (.exn .sparta)) := by
      intro q
      unfold invoke
      rw [mayBeModified_put, hno]
      rfl
    unfold ask at he
    rw [step_on (stores_target ho) hp] at he ⊢
    rcases stores_cases (env := env) (inv := invoke env ((after env s ops).ps.length + 1)) (s := after env s ops) (p := p) ho with
      ⟨r, e, hr⟩ | ⟨v, pk, e, _, _⟩
    · rw [e] at he ⊢
      exact ⟨(hr he).1, rfl⟩
    · rw [e] at he
      unfold store settle at he
      split at he
      · rw [hinv] at he
        cases he
      · split at he
        · cases he
        · rw [hinv] at he
          cases he

example : Reachable demo (after demo (newSet demoSet false) [.associate 0 [1] 2, .assign 0 (.leaf 8)]) ∧
    ask demo (after demo (newSet demoSet false) [.associate 0 [1] 2, .assign 0 (.leaf 8)]) .isLocked = .ok (.bool true) :=
  ⟨reach_after demo_fresh _, by decide +kernel⟩

end Sparta.Param
