import Verif.Param.Order
import Verif.Param.Items
/-! Runs from a set of new parameters; what holds in every state that can come about. -/
namespace Sparta.Param

/-- the set after a sequence of calls -/
def after (env : Env) (s : St) (ops : List Op) : St := (runOps (step env) s ops).1

/-- a set of newly constructed parameters -/
def Fresh (ps : List Param) : Prop :=
  ∀ p ∈ ps, ∃ d str ty attr vol v, p = newParam d str ty attr vol v ∧ hasDim d v = true

/-- a set that can come about -/
def Reachable (env : Env) (s : St) : Prop := ∃ ps fin ops, Fresh ps ∧ s = after env (newSet ps fin) ops

theorem reach_induct {env : Env} {P : St → Prop} (h0 : ∀ ps fin, Fresh ps → P (newSet ps fin))
    (hs : ∀ s o, P s → P (step env s o).1) : ∀ s, Reachable env s → P s := by
  rintro s ⟨ps, fin, ops, hf, rfl⟩
  have : ∀ (ops : List Op) s, P s → P (after env s ops) := by
    intro ops
    induction ops with
    | nil => exact fun s h => h
    | cons o ops ih => exact fun s h => ih _ (hs s o h)
  exact this ops _ (h0 ps fin hf)

theorem reach_step {env : Env} {s : St} {o : Op} (h : Reachable env s) : Reachable env (step env s o).1 := by
  obtain ⟨ps, fin, ops, hf, rfl⟩ := h
  refine ⟨ps, fin, ops ++ [o], hf, ?_⟩
  unfold after
  rw [runOps_append]
  rfl

theorem fine_fresh (ps : List Param) (fin : Bool) : Fine (newSet ps fin).ps.length (newSet ps fin) :=
  ⟨rfl, List.Pairwise.nil, fun t ht => by cases ht⟩

theorem step_len {env : Env} {s : St} {o : Op} (h : Fine s.ps.length s) : (step env s o).1.ps.length = s.ps.length := (step_out h).fine.len

theorem reach_fine {env : Env} {s : St} (h : Reachable env s) : Fine s.ps.length s := by
  refine reach_induct (P := fun s => Fine s.ps.length s) (fun ps fin _ => fine_fresh ps fin) ?_ s h
  intro s o h
  have := (step_out (env := env) (o := o) h).fine
  rw [← step_len (env := env) (o := o) h] at this
  exact this

/-- what never changes: dimensions and attribute -/
def kind (s : St) (i : Nat) : Option (Nat × Attr) := (s.ps[i]?).map fun p => (p.dim, p.attr)

theorem kind_of {s : St} {i : Nat} {p : Param} (h : s.ps[i]? = some p) : kind s i = some (p.dim, p.attr) := by
  unfold kind
  rw [h]
  rfl

theorem kind_put {s : St} {i j : Nat} {p q : Param} (h : s.ps[i]? = some p) (hd : q.dim = p.dim) (ha : q.attr = p.attr) :
    kind (s.put i q) j = kind s j := by
  unfold kind
  rw [put_get _ _ _ _ (lt_of_get h)]
  split
  · rename_i e
    subst e
    rw [h]
    show some (q.dim, q.attr) = some (p.dim, p.attr)
    rw [hd, ha]
  · rfl

theorem kind_rollback {s : St} {i j : Nat} {v : Val} : kind (s.rollback i v) j = kind s j := by
  unfold kind
  rw [rollback_get]
  split
  · cases s.ps[j]? <;> rfl
  · rfl

theorem kind_onSet {s : St} {o : Op} {j : Nat} : kind (onSet s o).1 j = kind s j := by
  obtain ⟨f, hf, e⟩ := onSet_get s o j
  unfold kind
  rw [e]
  cases s.ps[j]? with
  | none => rfl
  | some p =>
    show some ((f p).dim, (f p).attr) = some (p.dim, p.attr)
    rw [(hf p).2.2.1, (hf p).2.2.2.1]

theorem store_kind {s : St} {i : Nat} {p p' : Param} {K : Prop}
    (hc : (p' = p ∧ K) ∨ countWrite s.phase p = some p') : p'.dim = p.dim ∧ p'.attr = p.attr ∧ p'.dflt = p.dflt ∧ p'.ovr = p.ovr := by
  rcases hc with hc | hc
  · rw [hc.1]
    exact ⟨rfl, rfl, rfl, rfl⟩
  · rw [countWrite_eq hc]
    exact ⟨rfl, rfl, rfl, rfl⟩

theorem closed_kind (env : Env) (i : Nat) (k : Option (Nat × Attr)) : Closed env (fun _ => True) (fun s => kind s i = k) where
  set s o _ h := kind_onSet.trans h
  param s j p o _ _ _ hp h := (kind_put hp (onParam_kind env s j p o).1 (onParam_kind env s j p o).2.1).trans h
  store s j p p' v hp _ _ hc h := by
    have hk := store_kind (i := j) hc
    refine ⟨(kind_put hp ?_ ?_).trans h, fun s' h' => kind_rollback.trans h'⟩
    · exact hk.1
    · exact hk.2.1
  push s j h := h
  pop s t ts _ h := h

theorem step_kind {env : Env} {s : St} {o : Op} (i : Nat) : kind (step env s o).1 i = kind s i :=
  step_keeps (closed_kind env i (kind s i)) (fun n h => uses_true _) trivial rfl

theorem closed_typed (env : Env) (K : Nat → Option (Nat × Attr)) :
    Closed env (fun _ => True) (fun s => (∀ i, kind s i = K i) ∧ Typed s) where
  set s o _ h := by
    refine ⟨fun i => kind_onSet.trans (h.1 i), ?_⟩
    intro i p hp
    obtain ⟨f, hf, e⟩ := onSet_get s o i
    rw [e] at hp
    cases hq : s.ps[i]? with
    | none => rw [hq] at hp; cases hp
    | some q =>
      rw [hq] at hp
      injection hp with hp
      subst hp
      have := h.2 i q hq
      unfold Fits at this ⊢
      rw [(hf q).1, (hf q).2.1, (hf q).2.2.1]
      exact this
  param s i p o _ _ _ hp h := by
    refine ⟨fun j => (kind_put hp (onParam_kind env s i p o).1 (onParam_kind env s i p o).2.1).trans (h.1 j), ?_⟩
    intro j q hq
    rw [put_get _ _ _ _ (lt_of_get hp)] at hq
    split at hq
    · injection hq with hq
      subst hq
      exact onParam_fits env s i p o (h.2 i p hp)
    · exact h.2 j q hq
  store s i p p' v hp _ hd hc h := by
    have hk := store_kind (i := i) hc
    refine ⟨⟨fun j => (kind_put (q := { p' with val := v }) hp hk.1 hk.2.1).trans (h.1 j), ?_⟩, ?_⟩
    · intro j q hq
      rw [put_get _ _ _ _ (lt_of_get hp)] at hq
      split at hq
      · injection hq with hq
        subst hq
        refine ⟨?_, ?_⟩
        · show hasDim p'.dim v = true
          rw [hk.1]
          exact hd
        · show hasDim p'.dim p'.dflt = true
          rw [hk.1, hk.2.2.1]
          exact (h.2 i p hp).2
      · exact h.2 j q hq
    · intro s' h'
      refine ⟨fun j => kind_rollback.trans (h'.1 j), ?_⟩
      intro j q hq
      rw [rollback_get] at hq
      split at hq
      · rename_i e
        subst e
        cases hq' : s'.ps[i]? with
        | none => rw [hq'] at hq; cases hq
        | some q' =>
          rw [hq'] at hq
          injection hq with hq
          subst hq
          have h1 := (kind_of hq').symm.trans ((h'.1 i).trans ((h.1 i).symm.trans (kind_of hp)))
          injection h1 with h1
          injection h1 with h1 _
          refine ⟨?_, (h'.2 i q' hq').2⟩
          show hasDim q'.dim p.val = true
          rw [h1]
          exact (h.2 i p hp).1
      · exact h'.2 j q hq
  push s i h := h
  pop s t ts _ h := h

theorem reach_typed {env : Env} {s : St} (h : Reachable env s) : Typed s := by
  refine reach_induct (P := Typed) ?_ ?_ s h
  · intro ps fin hf i p hp
    obtain ⟨d, str, ty, attr, vol, v, rfl, hv⟩ := hf p (List.mem_of_getElem? hp)
    exact ⟨hv, hv⟩
  · intro s o h
    exact (step_keeps (closed_typed env (kind s)) (fun n h => uses_true _) trivial ⟨fun i => rfl, h⟩).2

end Sparta.Param
