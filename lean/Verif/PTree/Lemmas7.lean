import Verif.PTree.Lemmas6
/-! Paths and names; every legal history. -/
namespace Sparta.PTree
open Sparta.Strings (Str)

/-! ### paths -/

theorem names_nil : names [] = [] := by unfold names; simp

theorem names_some {s r : Str} (h0 : s ≠ []) (h : (nextName s).2 = some r) : names s = (nextName s).1 :: names r := by
  rw [names, if_neg h0]
  split
  · rename_i r' hr'
    rw [h] at hr'
    obtain rfl := Option.some.inj hr'
    rfl
  · rename_i hr'
    rw [h] at hr'; cases hr'

theorem names_none {s : Str} (h0 : s ≠ []) (h : (nextName s).2 = none) : names s = [(nextName s).1] := by
  rw [names, if_neg h0]
  split
  · rename_i r' hr'
    rw [h] at hr'; cases hr'
  · rfl

theorem nextName_dot {x y : Str} (h : '.' ∉ x) : nextName (x ++ '.' :: y) = (x, if y = [] then none else some y) := by
  have hf : (x ++ '.' :: y).findIdx? (· == '.') = some x.length := by
    rw [List.findIdx?_eq_some_iff_getElem]
    refine ⟨by simp, by simp, ?_⟩
    intro j hj
    rw [List.getElem_append_left hj]
    simp only [beq_iff_eq]
    intro e
    exact h (e ▸ List.getElem_mem hj)
  unfold nextName
  rw [hf]
  dsimp only
  rw [List.take_left']
  · congr 1
    by_cases hy : y = []
    · subst hy; simp
    · have : 0 < y.length := List.length_pos_iff.2 hy
      rw [if_neg hy, if_neg (by simp; omega)]
      simp
  · rfl

theorem joinDots_ne {L : List Str} (h0 : L ≠ []) (h : ∀ x ∈ L, x ≠ []) : joinDots L ≠ [] := by
  match L, h0 with
  | [a], _ => exact h a (by simp)
  | a :: b :: L, _ => simp [joinDots]

theorem names_join {L : List Str} (h : ∀ x ∈ L, x ≠ [] ∧ '.' ∉ x) : names (joinDots L) = L := by
  match L with
  | [] => exact names_nil
  | [a] => exact names_single (h a (by simp)).2 (h a (by simp)).1
  | a :: b :: L =>
    have hr := names_join (L := b :: L) (fun x hx => h x (by simp [List.mem_cons.1 hx]))
    have hn := nextName_dot (y := joinDots (b :: L)) (h a (by simp)).2
    have hne : joinDots (b :: L) ≠ [] := joinDots_ne (by simp) (fun x hx => (h x (by simp [List.mem_cons.1 hx])).1)
    rw [if_neg hne] at hn
    show names (a ++ '.' :: joinDots (b :: L)) = _
    rw [names_some (by simp) (by rw [hn]), hn, hr]

theorem nextName_first (s : Str) : '.' ∉ (nextName s).1 ∧ ∀ c ∈ (nextName s).1, c ∈ s := by
  unfold nextName
  split
  · rename_i k hk
    obtain ⟨hlt, h1, h2⟩ := List.findIdx?_eq_some_iff_getElem.1 hk
    dsimp only
    refine ⟨?_, fun c hc => List.mem_of_mem_take hc⟩
    intro hc
    obtain ⟨i, hi, e⟩ := List.getElem_of_mem hc
    have hik : i < k := by simp at hi; omega
    have := h2 i hik
    rw [List.getElem_take] at e
    rw [e] at this
    simp at this
  · rename_i hk
    rw [List.findIdx?_eq_none_iff] at hk
    refine ⟨fun hc => ?_, fun c hc => hc⟩
    have := hk _ hc
    simp at this

theorem nextName_rest {s r : Str} (h : (nextName s).2 = some r) : r ≠ [] ∧ ∀ c ∈ r, c ∈ s := by
  unfold nextName at h
  split at h
  · rename_i k hk
    have := (List.findIdx?_eq_some_iff_getElem.1 hk).1
    dsimp only at h
    split at h
    · cases h
    · obtain rfl := Option.some.inj h
      refine ⟨?_, fun c hc => List.mem_of_mem_drop hc⟩
      intro h0
      have := congrArg List.length h0
      simp at this
      omega
  · cases h

theorem names_chars (s : Str) : ∀ x ∈ names s, '.' ∉ x ∧ ∀ c ∈ x, c ∈ s := by
  intro x hx
  by_cases h0 : s = []
  · subst h0; rw [names_nil] at hx; cases hx
  · cases hr : (nextName s).2 with
    | none =>
      rw [names_none h0 hr] at hx
      rw [List.mem_singleton.1 hx]
      exact nextName_first s
    | some r =>
      rw [names_some h0 hr] at hx
      rcases List.mem_cons.1 hx with rfl | hx
      · exact nextName_first s
      · obtain ⟨h1, h2⟩ := names_chars r x hx
        exact ⟨h1, fun c hc => (nextName_rest hr).2 c (h2 c hc)⟩
termination_by s.length
decreasing_by exact nextName_lt hr

theorem names_okP {s : Str} (h : ∀ c ∈ s, c ∈ badChars → c = '.') : OkP (names s) := by
  intro x hx c hc hb
  obtain ⟨h1, h2⟩ := names_chars s x hx
  have := h c (h2 c hc) hb
  exact h1 (this ▸ hc)

/-! ### matching -/

theorem strip_match {L p : List Str} (h : OkP L) : strip L p = some [] ↔ MatchPath L p := by
  induction L generalizing p with
  | nil =>
    cases p with
    | nil => simp [strip, MatchPath]
    | cons b p => simp [strip, MatchPath]
  | cons a L ih =>
    cases p with
    | nil => simp [strip, MatchPath]
    | cons b p =>
      rw [strip, MatchPath, ← patMatches_iff (h a (by simp)), ← ih (fun x hx => h x (by simp [hx]))]
      split
      · rename_i hm; simp [hm]
      · rename_i hm; simp [hm]

theorem covers_match {L p : List Str} (h : OkP L) : covers L p = true ↔ ∃ K, K <+: L ∧ MatchPath K p := by
  constructor
  · intro hc
    induction p generalizing L with
    | nil => exact ⟨[], List.nil_prefix, trivial⟩
    | cons b p ih =>
      cases L with
      | nil => cases hc
      | cons a L =>
        rw [covers, Bool.and_eq_true] at hc
        obtain ⟨K, hK, hm⟩ := ih (fun x hx => h x (by simp [hx])) hc.2
        exact ⟨a :: K, List.cons_prefix_cons.2 ⟨rfl, hK⟩, (patMatches_iff (h a (by simp)) b).1 hc.1, hm⟩
  · rintro ⟨K, hK, hm⟩
    refine covers_of_prefix hK ?_
    rw [strip_match (fun x hx => h x (hK.subset hx))]
    exact hm

theorem plain_concrete {L : List Str} (h : ∀ x ∈ L, PlainName x) : Concrete (names (joinDots L)) ∧ names (joinDots L) = L := by
  have e : names (joinDots L) = L := names_join (fun x hx => ⟨(h x hx).1, fun hc => (h x hx).2 '.' hc (by simp)⟩)
  refine ⟨?_, e⟩
  rw [e]
  intro x hx
  refine ⟨(h x hx).1, ?_⟩
  have h2 := (h x hx).2
  cases hw : hasWild x with
  | false => rfl
  | true =>
    exfalso
    simp only [hasWild, patternSubs, List.any_cons, List.any_nil, Bool.or_false, Bool.or_eq_true,
      List.contains_iff_mem] at hw
    rcases hw with h | h | h | h | h | h | h <;> exact h2 _ h (by simp)

/-! ### runs -/

theorem step_good {s : State} {H : Hist} (hg : ∀ t, Good (s t) (H t)) (o : Op) (h1 : okOp o) (h2 : okRes o (s.step o).2) :
    ∀ t, Good ((s.step o).1 t) (record H o (s.step o).2 t) := by
  have hupd : ∀ (t : Nat) (n : Node) (e : List Ev), Good n e → ∀ t', Good (upd s t n t') (upd H t e t') := by
    intro t n e hn t'
    by_cases h : t' = t
    · subst h; rw [upd_same, upd_same]; exact hn
    · rw [upd_other _ _ h, upd_other _ _ h]; exact hg t'
  have hsame : ∀ t t', Good (upd s t (s t) t') (H t') := by
    intro t t'
    by_cases h : t' = t
    · subst h; rw [upd_same]; exact hg t'
    · rw [upd_other _ _ h]; exact hg t'
  cases o with
  | set t path v req org =>
    have hok := names_okP h1
    simp only [State.step, PTree.set]
    cases hc : PTree.create false (names path) (s t) with
    | none => simpa [State.put, record] using hg
    | some q =>
      obtain ⟨n', x⟩ := q
      cases x with
      | none => exact hupd t _ _ (good_touch (hg t) hok hc)
      | some r => exact hupd t _ _ (good_write (hg t) hok hc)
  | create t path req =>
    have hok := names_okP h1
    simp only [State.step]
    cases hc : PTree.create req (names path) (s t) with
    | none => simpa [State.put, record] using hg
    | some q =>
      obtain ⟨n', x⟩ := q
      exact hupd t _ _ (good_touch (hg t) hok hc)
  | tryGet t path leaf =>
    simp only [State.step]
    cases hc : PTree.tryGet path leaf (s t) with
    | none => simpa [State.put, record] using hg
    | some q =>
      obtain ⟨n', x⟩ := q
      exact hupd t _ _ (good_tryGet (hg t) hc)
  | isRequired t path =>
    simp only [State.step]
    cases hc : PTree.isRequired path (s t) with
    | none => simpa [State.put, record] using hg
    | some b => simpa [State.put, record] using hsame t
  | isRead t path =>
    simp only [State.step]
    cases hc : PTree.isRead path (s t) with
    | none => simpa [State.put, record] using hg
    | some b => simpa [State.put, record] using hsame t
  | unread t => simpa [State.step, record] using hg
  | unrequire t path =>
    simp only [State.step, PTree.unrequire]
    cases hc : PTree.tryGet path false (s t) with
    | none => simpa [State.put, record] using hg
    | some q =>
      obtain ⟨n', x⟩ := q
      have hgood := good_tryGet (hg t) hc
      have e : ∀ a b : Ev, H t ++ [a, b] = (H t ++ [a]) ++ [b] := by intro a b; simp
      cases x with
      | none =>
        refine hupd t _ _ ?_
        rw [e]
        exact good_unreq_none hgood _
      | some r =>
        refine hupd t _ _ ?_
        rw [e]
        have : ∃ K, namesAt r n' = some K := by
          rcases tryGet_cases hc with ⟨_, _, h3⟩ | ⟨_, _, h3, _⟩
          · obtain rfl := Option.some.inj h3
            exact ⟨[], rfl⟩
          · obtain ⟨L, m, h, _⟩ := h3 r rfl
            exact ⟨L, h⟩
        obtain ⟨K, hK⟩ := this
        exact good_unreq hgood _ hK
  | merge t o =>
    simp only [State.step, okRes] at h2 ⊢
    by_cases hm : (PTree.merge (s t) (s o)).2 = true
    · rw [if_pos hm]
      exact hupd t _ _ (good_merge (hg t) (hg o) hm)
    · rw [if_neg hm] at h2; cases h2
  | copy t o =>
    simp only [State.step, PTree.copy]
    by_cases hm : (PTree.merge newRoot (s o)).2 = true
    · rw [if_pos hm]
      exact hupd t _ _ (good_merge good_root (hg o) hm)
    · rw [if_neg hm]
      simpa [State.put, record] using hg
  | assign t o =>
    simp only [State.step, okRes] at h2 ⊢
    have hne : o ≠ t := fun h => h1 h.symm
    rw [upd_same, upd_other _ _ hne] at h2 ⊢
    have hu : ∀ n, upd (upd s t newRoot) t n = upd s t n := by
      intro n; funext i; by_cases h : i = t <;> simp [upd, h]
    rw [hu]
    by_cases hm : (PTree.merge newRoot (s o)).2 = true
    · rw [if_pos hm]
      exact hupd t _ _ (good_merge good_root (hg o) hm)
    · rw [if_neg hm] at h2; cases h2
  | clear t => exact hupd t _ _ good_root

theorem runOps_cons' {σ ο ρ : Type} (step : σ → ο → σ × ρ) (s : σ) (o : ο) (os : List ο) :
    runOps step s (o :: os) = ((runOps step (step s o).1 os).1, (step s o).2 :: (runOps step (step s o).1 os).2) := rfl

theorem run_good {os : List Op} {s : State} {H : Hist} (hg : ∀ t, Good (s t) (H t)) (hl : Legal s os) :
    ∀ t, Good ((runOps State.step s os).1 t) (histOf H os (runOps State.step s os).2 t) := by
  induction os generalizing s H with
  | nil => exact hg
  | cons o os ih =>
    rw [runOps_cons']
    exact ih (step_good hg o hl.1 hl.2.1) hl.2.2

theorem reach {os : List Op} (hl : Legal State.init os) (t : Nat) :
    Good ((runOps State.step State.init os).1 t) (histOf (fun _ => []) os (runOps State.step State.init os).2 t) :=
  run_good (fun _ => good_root) hl t

end Sparta.PTree
