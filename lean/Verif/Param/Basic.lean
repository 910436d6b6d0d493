import Verif.Param.Model
/-! Helper lemmas: looking up parameters, types of values, an induction principle for calls and callbacks. -/
namespace Sparta.Param

theorem put_get (s : St) (i j : Nat) (p : Param) (h : i < s.ps.length) :
    (s.put i p).ps[j]? = if i = j then some p else s.ps[j]? := by
  show (s.ps.set i p)[j]? = _
  rw [List.getElem?_set]
  split
  · rename_i e
    subst e
    simp [h]
  · rfl

theorem lt_of_get {s : St} {i : Nat} {p : Param} (h : s.ps[i]? = some p) : i < s.ps.length := by
  rcases Nat.lt_or_ge i s.ps.length with h' | h'
  · exact h'
  · rw [List.getElem?_eq_none h'] at h
    cases h

theorem put_put (s : St) (i : Nat) (p q : Param) : (s.put i p).put i q = s.put i q := by
  simp [St.put, List.set_set]

theorem put_len (s : St) (i : Nat) (p : Param) : (s.put i p).ps.length = s.ps.length := by
  simp [St.put]

theorem rollback_get (s : St) (i j : Nat) (v : Val) :
    (s.rollback i v).ps[j]? = if i = j then (s.ps[j]?).map (fun p => { p with val := v }) else s.ps[j]? := by
  unfold St.rollback
  cases h : s.ps[i]? with
  | none =>
    simp only
    split
    · rename_i e
      subst e
      rw [h]
      rfl
    · rfl
  | some p =>
    simp only
    rw [put_get _ _ _ _ (lt_of_get h)]
    split
    · rename_i e
      subst e
      rw [h]
      rfl
    · rfl

theorem rollback_len (s : St) (i : Nat) (v : Val) : (s.rollback i v).ps.length = s.ps.length := by
  unfold St.rollback
  split
  · exact put_len _ _ _
  · rfl

theorem rollback_stack (s : St) (i : Nat) (v : Val) : (s.rollback i v).stack = s.stack := by
  unfold St.rollback
  split <;> rfl

theorem rollback_rest (s : St) (i : Nat) (v : Val) :
    (s.rollback i v).phase = s.phase ∧ (s.rollback i v).locked = s.locked ∧ (s.rollback i v).final = s.final := by
  unfold St.rollback
  split <;> exact ⟨rfl, rfl, rfl⟩

theorem countWrite_eq {ph : Nat} {p p' : Param} (h : countWrite ph p = some p') :
    p' = { p with reads := 0, writes := p.writes + 1 } := by
  unfold countWrite at h
  split at h
  · cases h
  · split at h
    · cases h
    · injection h with h
      exact h.symm

theorem countWrite_ok {ph : Nat} {p p' : Param} (h : countWrite ph p = some p') : (p.vol = true ∨ p.reads = 0) ∧ ph ≤ 3 := by
  unfold countWrite at h
  split at h
  · cases h
  · rename_i h1
    split at h
    · cases h
    · rename_i h2
      refine ⟨?_, by omega⟩
      cases hv : p.vol with
      | true => exact Or.inl rfl
      | false =>
        refine Or.inr ?_
        rcases Nat.eq_zero_or_pos p.reads with h3 | h3
        · exact h3
        · exact absurd ⟨hv, h3⟩ h1

/-- a callback all of whose calls satisfy `B` -/
inductive Uses (B : Op → Prop) : Cb → Prop
  | done : Uses B .done
  | raise (e : Exn) : Uses B (.raise e)
  | call (o : Op) (k : Except Exn Ans → Cb) : B o → (∀ r, Uses B (k r)) → Uses B (.call o k)

theorem uses_true (c : Cb) : Uses (fun _ => True) c := by
  induction c with
  | done => exact .done
  | raise e => exact .raise e
  | call o k ih => exact .call o k trivial ih

/-- a call that changes the value without counting -/
def Op.pokes : Op → Bool
  | .setStr _ _ pk => pk
  | .setVec _ _ pk => pk
  | _ => false

/-- what must hold for `P` to be kept by every call that satisfies `B` -/
structure Closed (env : Env) (B : Op → Prop) (P : St → Prop) : Prop where
  set : ∀ s o, B o → P s → P (onSet s o).1
  param : ∀ s i p o, o.target = some i → (∀ j t, o ≠ .setItem j [] t) → B o → s.ps[i]? = some p → P s → P (s.put i (onParam env s i p o).1)
  store : ∀ s i p p' v, s.ps[i]? = some p → allowed s.locked p = true → hasDim p.dim v = true →
    ((p' = p ∧ ∃ o, B o ∧ o.pokes = true) ∨ countWrite s.phase p = some p') → P s →
    P (s.put i { p' with val := v }) ∧ ∀ s', P s' → P (s'.rollback i p.val)
  push : ∀ s i, P s → P { s with stack := i :: s.stack, calls := s.calls + 1 }
  pop : ∀ s t ts, s.stack = t :: ts → P s → P { s with stack := ts }

theorem settle_keeps {P : St → Prop} {inv : Inv} (hinv : ∀ s i, P s → P (inv s i).1) {s : St} {i : Nat} {p : Param} {v : Val}
    (h : P (s.put i { p with val := v })) (hr : ∀ s', P s' → P (s'.rollback i p.val)) : P (settle inv s i p v).1 := by
  have h1 := hinv _ i h
  unfold settle
  split
  · rename_i s' e
    rw [e] at h1
    exact h1
  · rename_i s' e
    rw [e] at h1
    exact hr _ h1
  · rename_i s' e' _ e
    rw [e] at h1
    exact h1

theorem store_keeps {env : Env} {B : Op → Prop} {P : St → Prop} (C : Closed env B P) {inv : Inv}
    (hinv : ∀ s i, P s → P (inv s i).1) {s : St} {i : Nat} {p : Param} {v : Val} {pk : Bool}
    (hp : s.ps[i]? = some p) (ha : allowed s.locked p = true) (hd : hasDim p.dim v = true)
    (hB : pk = true → ∃ o, B o ∧ o.pokes = true) (h : P s) : P (store inv s i p v pk).1 := by
  unfold store
  split
  · rename_i e
    have := C.store s i p p v hp ha hd (Or.inl ⟨rfl, hB e⟩) h
    exact settle_keeps hinv this.1 this.2
  · split
    · exact h
    · rename_i p' e
      have := C.store s i p p' v hp ha hd (Or.inr e) h
      refine settle_keeps hinv this.1 ?_
      rw [countWrite_eq e]
      exact this.2

theorem castAll_dim {c : Str → Except Exn Nat} : ∀ {ts : List Str} {l : List Val}, castAll c ts = .ok l → hasDim 1 (.vec l) = true
  | [], l, h => by
    injection h with h
    subst h
    rfl
  | t :: ts, l, h => by
    unfold castAll at h
    split at h
    · cases h
    · split at h
      · cases h
      · rename_i n _ l' e
        injection h with h
        subst h
        have := castAll_dim e
        simp only [hasDim, List.all_cons, Bool.true_and] at this ⊢
        exact this

theorem assign_keeps {env : Env} {B : Op → Prop} {P : St → Prop} (C : Closed env B P) {inv : Inv}
    (hinv : ∀ s i, P s → P (inv s i).1) {s : St} {i : Nat} {p : Param} {v : Val}
    (hp : s.ps[i]? = some p) (h : P s) : P (assign inv s i p v).1 := by
  unfold assign
  split
  · exact h
  · rename_i h1
    split
    · exact h
    · rename_i h2
      split
      · exact h
      · exact store_keeps C hinv hp (by simpa using h2) (by simpa using h1) (fun e => by cases e) h

theorem setStr_keeps {env : Env} {B : Op → Prop} {P : St → Prop} (C : Closed env B P) {inv : Inv}
    (hinv : ∀ s i, P s → P (inv s i).1) {s : St} {i : Nat} {p : Param} {t : Str} {pk : Bool}
    (hB : pk = true → ∃ o, B o ∧ o.pokes = true)
    (hp : s.ps[i]? = some p) (h : P s) : P (setStr env inv s i p t pk).1 := by
  unfold setStr
  split
  · exact h
  · rename_i h1
    split
    · exact h
    · rename_i h2
      split
      · exact h
      · refine store_keeps C hinv hp (by simpa using h1) ?_ hB h
        rw [Decidable.not_not.mp h2]
        rfl

theorem setVec_keeps {env : Env} {B : Op → Prop} {P : St → Prop} (C : Closed env B P) {inv : Inv}
    (hinv : ∀ s i, P s → P (inv s i).1) {s : St} {i : Nat} {p : Param} {ts : List Str} {pk : Bool}
    (hB : pk = true → ∃ o, B o ∧ o.pokes = true)
    (hp : s.ps[i]? = some p) (h : P s) : P (setVec env inv s i p ts pk).1 := by
  unfold setVec
  split
  · exact h
  · rename_i h1
    split
    · exact h
    · rename_i h2
      split
      · exact h
      · rename_i l e
        refine store_keeps C hinv hp (by simpa using h1) ?_ hB h
        rw [Decidable.not_not.mp h2]
        exact castAll_dim e

theorem onTarget_keeps {env : Env} {B : Op → Prop} {P : St → Prop} (C : Closed env B P) {inv : Inv}
    (hinv : ∀ s i, P s → P (inv s i).1) {s : St} {i : Nat} {p : Param} {o : Op} (ht : o.target = some i) (hB : B o)
    (hp : s.ps[i]? = some p) (h : P s) : P (onTarget env inv s i p o).1 := by
  unfold onTarget
  split
  · exact assign_keeps C hinv hp h
  · exact setStr_keeps C hinv (fun e => ⟨_, hB, e⟩) hp h
  · exact setVec_keeps C hinv (fun e => ⟨_, hB, e⟩) hp h
  · exact setStr_keeps C hinv (fun e => by cases e) hp h
  · rename_i hne
    exact C.param s i p _ ht (fun j t e => hne j t e) hB hp h

theorem exec_keeps {env : Env} {B : Op → Prop} {P : St → Prop} (C : Closed env B P) {inv : Inv}
    (hinv : ∀ s i, P s → P (inv s i).1) {s : St} {o : Op} (hB : B o) (h : P s) : P (exec env inv s o).1 := by
  unfold exec
  split
  · exact C.set s o hB h
  · rename_i i ht
    split
    · exact h
    · rename_i p hp
      exact onTarget_keeps C hinv ht hB hp h

theorem runCb_keeps {P : St → Prop} {B : Op → Prop} {ex : St → Op → R} (hex : ∀ s o, B o → P s → P (ex s o).1) {c : Cb}
    (hc : Uses B c) : ∀ s, P s → P (runCb ex c s).1 := by
  induction hc with
  | done => exact fun s h => h
  | raise e => exact fun s h => h
  | call o k hB hk ih =>
    intro s h
    have h1 := hex s o hB h
    unfold runCb
    split
    · rename_i e
      rw [e] at h1
      exact ih _ _ h1
    · rename_i e
      rw [e] at h1
      exact ih _ _ h1
    · rename_i e
      rw [e] at h1
      exact h1

theorem invoke_keeps {env : Env} {B : Op → Prop} {P : St → Prop} (C : Closed env B P)
    (hh : ∀ n h, Uses B (env.handler n h)) : ∀ f s i, P s → P (invoke env f s i).1
  | 0, _, _, h => h
  | f + 1, s, i, h => by
    unfold invoke
    split
    · exact h
    · split
      · exact h
      · rename_i hd _
        have h1 := runCb_keeps (P := P) (ex := exec env (invoke env f)) (fun s o hB h => exec_keeps C (invoke_keeps C hh f) hB h)
          (hh s.calls hd) _ (C.push s i h)
        split
        · rename_i s' e
          rw [e] at h1
          unfold unlock
          split
          · exact h1
          · rename_i t ts e'
            split
            · exact C.pop s' t ts e' h1
            · exact h1
        · rename_i s' e' e
          rw [e] at h1
          exact h1

theorem step_keeps {env : Env} {B : Op → Prop} {P : St → Prop} (C : Closed env B P)
    (hh : ∀ n h, Uses B (env.handler n h)) {s : St} {o : Op} (hB : B o) (h : P s) : P (step env s o).1 :=
  exec_keeps C (invoke_keeps C hh _) hB h

end Sparta.Param
