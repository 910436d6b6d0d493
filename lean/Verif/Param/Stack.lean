import Verif.Param.One
/-! Helper lemmas: the parameters whose callbacks are running, and the values a callback may change. -/
namespace Sparta.Param

structure Fine (n : Nat) (s : St) : Prop where
  len : s.ps.length = n
  desc : s.stack.Pairwise (· > ·)
  lt : ∀ t ∈ s.stack, t < n

theorem fine_of {n : Nat} {s s' : St} (h : Fine n s) (h1 : s'.ps.length = s.ps.length) (h2 : s'.stack = s.stack) : Fine n s' :=
  ⟨h1.trans h.len, h2 ▸ h.desc, fun t ht => h.lt t (h2 ▸ ht)⟩

/-- how a call comes out -/
structure OutE (n : Nat) (s : St) (r : R) : Prop where
  fine : Fine n r.1
  suf : ∃ ext, r.1.stack = ext ++ s.stack
  ok : (∃ a, r.2 = .ok a) → r.1.stack = s.stack
  ub : r.2 ≠ .error .ub
  deep : r.2 ≠ .error .deep

structure OutI (n : Nat) (s : St) (r : St × Option Err) : Prop where
  fine : Fine n r.1
  suf : ∃ ext, r.1.stack = ext ++ s.stack
  ok : r.2 = none → r.1.stack = s.stack
  ub : r.2 ≠ some .ub
  deep : r.2 ≠ some .deep

theorem outE_same {n : Nat} {s : St} (h : Fine n s) {a : Except Err Ans} (h1 : a ≠ .error .ub) (h2 : a ≠ .error .deep) :
    OutE n s (s, a) := ⟨h, ⟨[], rfl⟩, (fun _ => rfl), h1, h2⟩

def InvFine (n : Nat) (stack : List Nat) (inv : Inv) : Prop :=
  ∀ s j, Fine n s → s.stack = stack → j < n → OutI n s (inv s j)

theorem settle_out {n : Nat} {inv : Inv} {s : St} {i : Nat} {p : Param} {v : Val} (hinv : InvFine n s.stack inv) (h : Fine n s)
    (hi : i < n) : OutE n s (settle inv s i p v) := by
  have h1 : OutI n (s.put i { p with val := v }) _ := hinv _ i (fine_of h (put_len _ _ _) rfl) rfl hi
  unfold settle
  split
  · rename_i s' e
    rw [e] at h1
    exact ⟨h1.fine, h1.suf, (fun _ => h1.ok rfl), (fun e => by cases e), (fun e => by cases e)⟩
  · rename_i s' e
    rw [e] at h1
    refine ⟨fine_of h1.fine (rollback_len _ _ _) (rollback_stack _ _ _), ?_, (fun ⟨a, e⟩ => by cases e), (fun e => by cases e),
      (fun e => by cases e)⟩
    show ∃ ext, (s'.rollback i p.val).stack = _
    rw [rollback_stack]
    exact h1.suf
  · rename_i s' e' _ e
    rw [e] at h1
    refine ⟨h1.fine, h1.suf, (fun ⟨a, e⟩ => by cases e), ?_, ?_⟩
    · intro e
      injection e with e
      subst e
      exact h1.ub rfl
    · intro e
      injection e with e
      subst e
      exact h1.deep rfl

theorem store_out {n : Nat} {inv : Inv} {s : St} {i : Nat} {p : Param} {v : Val} {pk : Bool} (hinv : InvFine n s.stack inv)
    (h : Fine n s) (hi : i < n) : OutE n s (store inv s i p v pk) := by
  unfold store
  split
  · exact settle_out hinv h hi
  · split
    · exact outE_same h (fun e => by cases e) (fun e => by cases e)
    · exact settle_out hinv h hi

theorem setStr_out {n : Nat} {env : Env} {inv : Inv} {s : St} {i : Nat} {p : Param} {t : Str} {pk : Bool}
    (hinv : InvFine n s.stack inv) (h : Fine n s) (hi : i < n) : OutE n s (setStr env inv s i p t pk) := by
  unfold setStr
  split
  · exact outE_same h (fun e => by cases e) (fun e => by cases e)
  · split
    · exact outE_same h (fun e => by cases e) (fun e => by cases e)
    · split
      · exact outE_same h (fun e => by cases e) (fun e => by cases e)
      · exact store_out hinv h hi

theorem exec_out {n : Nat} {env : Env} {inv : Inv} {s : St} {o : Op} (hinv : InvFine n s.stack inv) (h : Fine n s) :
    OutE n s (exec env inv s o) := by
  unfold exec
  split
  · refine ⟨fine_of h (onSet_len _ _) (onSet_stack _ _), ⟨[], ?_⟩, (fun _ => onSet_stack _ _), (onSet_ok _ _).1, (onSet_ok _ _).2⟩
    exact onSet_stack _ _
  · rename_i i ht
    split
    · exact outE_same h (fun e => by cases e) (fun e => by cases e)
    · rename_i p hp
      have hi : i < n := h.len ▸ lt_of_get hp
      unfold onTarget
      split
      · unfold assign
        split
        · exact outE_same h (fun e => by cases e) (fun e => by cases e)
        · split
          · exact outE_same h (fun e => by cases e) (fun e => by cases e)
          · split
            · exact outE_same h (fun e => by cases e) (fun e => by cases e)
            · exact store_out hinv h hi
      · exact setStr_out hinv h hi
      · unfold setVec
        split
        · exact outE_same h (fun e => by cases e) (fun e => by cases e)
        · split
          · exact outE_same h (fun e => by cases e) (fun e => by cases e)
          · split
            · exact outE_same h (fun e => by cases e) (fun e => by cases e)
            · exact store_out hinv h hi
      · exact setStr_out hinv h hi
      · unfold plain
        refine ⟨fine_of h (put_len _ _ _) rfl, ⟨[], rfl⟩, (fun _ => rfl), ?_, ?_⟩
        · unfold lift
          split <;> intro e <;> cases e
        · unfold lift
          split <;> intro e <;> cases e

theorem mayBeModified_iff {n : Nat} {s : St} (h : Fine n s) {i : Nat} (hi : i < n) :
    mayBeModified s i = true ↔ ∀ t ts, s.stack = t :: ts → t < i := by
  unfold mayBeModified
  split
  · rename_i e
    refine ⟨fun _ t ts e' => ?_, fun _ => rfl⟩
    rw [e] at e'
    cases e'
  · rename_i t ts e
    have hm : (decide (t ≠ i) && mayModify s.ps.length t [i]) = true ↔ t < i := by
      unfold mayModify
      rw [h.len]
      by_cases h1 : i = t
      · subst h1
        simp
      · rw [if_neg h1, if_pos hi]
        have : t ≠ i := fun e => h1 e.symm
        simp [this]
    rw [hm]
    constructor
    · intro h1 t' ts' e'
      rw [e] at e'
      injection e' with e1 e2
      exact e1 ▸ h1
    · intro h1
      exact h1 t ts e

/-- the state of a callback of `i` that was entered with `base` below it -/
structure Inside (n i : Nat) (base : List Nat) (s : St) : Prop where
  fine : Fine n s
  suf : ∃ ext, s.stack = ext ++ i :: base

theorem inside_top {n i : Nat} {base : List Nat} {s : St} (h : Inside n i base s) :
    ∃ t ts, s.stack = t :: ts ∧ i ≤ t ∧ (t = i → ts = base) := by
  obtain ⟨ext, e⟩ := h.suf
  cases ext with
  | nil => exact ⟨i, base, e, Nat.le_refl _, fun _ => rfl⟩
  | cons t ts =>
    have hd := h.fine.desc
    rw [e] at hd
    have : t > i := (List.pairwise_cons.mp hd).1 i (List.mem_append.mpr (Or.inr (List.mem_cons_self ..)))
    exact ⟨t, ts ++ i :: base, e, by omega, fun e' => by omega⟩

theorem inside_push {n i : Nat} {s : St} (h : Fine n s) (hi : i < n) (hm' : ∀ t ts, s.stack = t :: ts → t < i) :
    Inside n i s.stack { s with stack := i :: s.stack, calls := s.calls + 1 } := by
  refine ⟨⟨h.len, ?_, ?_⟩, [], rfl⟩
  · show (i :: s.stack).Pairwise (· > ·)
    refine List.pairwise_cons.mpr ⟨?_, h.desc⟩
    intro t ht
    cases hs : s.stack with
    | nil => rw [hs] at ht; cases ht
    | cons t0 ts =>
      have h1 := hm' t0 ts hs
      have hd := h.desc
      rw [hs] at hd ht
      rcases List.mem_cons.mp ht with e | e
      · subst e
        exact h1
      · have := (List.pairwise_cons.mp hd).1 t e
        omega
  · intro t ht
    rcases List.mem_cons.mp ht with e | e
    · exact e ▸ hi
    · exact h.lt t e

theorem runCb_out {n i : Nat} {base : List Nat} {ex : St → Op → R} (hex : ∀ s o, Inside n i base s → OutE n s (ex s o)) (c : Cb) :
    ∀ s, Inside n i base s → Inside n i base (runCb ex c s).1 ∧ (runCb ex c s).2 ≠ some .ub ∧ (runCb ex c s).2 ≠ some .deep := by
  have hin : ∀ s r, Inside n i base s → OutE n s r → Inside n i base r.1 := by
    intro s r h h1
    obtain ⟨e1, he1⟩ := h1.suf
    obtain ⟨e2, he2⟩ := h.suf
    exact ⟨h1.fine, e1 ++ e2, by rw [he1, he2, List.append_assoc]⟩
  induction c with
  | done => exact fun s h => ⟨h, (fun e => by cases e), (fun e => by cases e)⟩
  | raise e => exact fun s h => ⟨h, (fun e => by cases e), (fun e => by cases e)⟩
  | call o k ih =>
    intro s h
    have h1 := hex s o h
    have h2 := hin s _ h h1
    unfold runCb
    split
    · rename_i e
      rw [e] at h2
      exact ih _ _ h2
    · rename_i e
      rw [e] at h2
      exact ih _ _ h2
    · rename_i s' e' _ e
      rw [e] at h2 h1
      refine ⟨h2, ?_, ?_⟩
      · intro e
        injection e with e
        subst e
        exact h1.ub rfl
      · intro e
        injection e with e
        subst e
        exact h1.deep rfl

theorem invoke_out {n : Nat} {env : Env} : ∀ f s i, Fine n s → i < n → 1 ≤ f → (mayBeModified s i = true → n < f + i) →
    OutI n s (invoke env f s i)
  | 0, _, _, _, _, h, _ => by omega
  | f + 1, s, i, h, hi, _, hf => by
    unfold invoke
    split
    · exact ⟨h, ⟨[], rfl⟩, (fun e => by cases e), (fun e => by cases e), (fun e => by cases e)⟩
    · rename_i hm
      have hm : mayBeModified s i = true := by simpa using hm
      have hf := hf hm
      have hm' := (mayBeModified_iff h hi).mp hm
      split
      · exact ⟨h, ⟨[], rfl⟩, (fun _ => rfl), (fun e => by cases e), (fun e => by cases e)⟩
      · rename_i hd _
        have h0 : Inside n i s.stack { s with stack := i :: s.stack, calls := s.calls + 1 } := inside_push h hi hm'
        have h1 := runCb_out (n := n) (i := i) (base := s.stack) (ex := exec env (invoke env f))
          (fun s' o h' => exec_out (fun s'' j h'' hst hj => by
            obtain ⟨t, ts, e, h3, _⟩ := inside_top h'
            refine invoke_out f s'' j h'' hj (by omega) ?_
            intro hm2
            have := (mayBeModified_iff h'' hj).mp hm2 t ts (hst.trans e)
            omega) h'.fine) (env.handler s.calls hd) _ h0
        split
        · rename_i s' e
          rw [e] at h1
          obtain ⟨t, ts, e1, h3, h4⟩ := inside_top h1.1
          have hfine := h1.1.fine
          have hsuf := h1.1.suf
          unfold unlock
          rw [e1]
          dsimp only
          split
          · rename_i e2
            have h5 := h4 e2
            refine ⟨⟨hfine.len, ?_, ?_⟩, ⟨[], h5⟩, (fun _ => h5), (fun e => by cases e), (fun e => by cases e)⟩
            · show ts.Pairwise (· > ·)
              have := hfine.desc
              rw [e1] at this
              exact (List.pairwise_cons.mp this).2
            · intro x hx
              refine hfine.lt x ?_
              rw [e1]
              exact List.mem_cons_of_mem _ hx
          · refine ⟨hfine, ?_, (fun e => by cases e), (fun e => by cases e), (fun e => by cases e)⟩
            obtain ⟨ext, he⟩ := hsuf
            exact ⟨ext ++ [i], by rw [List.append_assoc]; exact he⟩
        · rename_i s' e' e
          rw [e] at h1
          refine ⟨h1.1.fine, ?_, (fun e => by cases e), h1.2.1, h1.2.2⟩
          obtain ⟨ext, he⟩ := h1.1.suf
          exact ⟨ext ++ [i], by rw [List.append_assoc]; exact he⟩

theorem step_out {env : Env} {s : St} {o : Op} (h : Fine s.ps.length s) : OutE s.ps.length s (step env s o) :=
  exec_out (fun s' j h' _ hj => invoke_out _ s' j h' hj (by omega) (fun _ => by omega)) h

end Sparta.Param
