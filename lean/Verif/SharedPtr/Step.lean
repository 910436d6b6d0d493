import Verif.SharedPtr.Rep
namespace Sparta.SharedPtr

theorem map_push (s : State) (l : List (Option (Option Nat))) (v : Option Nat) :
    (l ++ [some v]).map (tr s) = l.map (tr s) ++ [some (v.map (objOf s))] := by simp [tr]

theorem map_set_some (s : State) (l : List (Option (Option Nat))) (i : Nat) (v : Option Nat) :
    (l.set i (some v)).map (tr s) = (l.map (tr s)).set i (some (v.map (objOf s))) := by rw [List.map_set]; rfl

theorem map_set_none (s : State) (l : List (Option (Option Nat))) (i : Nat) :
    (l.set i none).map (tr s) = (l.map (tr s)).set i none := by rw [List.map_set]; rfl

theorem rep_init {m w : Nat} {s : State} (h : init m w = some s) : Rep s (specInit m w) := by
  unfold init at h
  split at h
  · cases h
    constructor <;> try rfl
    · constructor
      · intro c hc; simp [cnt] at hc
      · intro c x hx; simp at hx
      · intro c x hx; simp at hx
      · intro c d x y hx; simp at hx
      · intro o ho; simp at ho
      · intro o ho; simp at ho
      · simp
      · intro c; simp
      · rfl
      · rfl
      · exact Nat.zero_le _
    · intro c x hx; simp at hx
    · exact List.nodup_nil
    · intro o ho; simp [specInit] at ho
  · cases h

/-- a new variable with a new object in a new count -/
theorem rep_newCell {s : State} {t : Spec} (h : Rep s t) (sh ts : List (Option (Option Nat))) (pooled : Bool) (n : Nat)
    (hn : n = if pooled then s.allocated + 1 else s.allocated) (hm : n ≤ s.maxBlocks) (w : Bool)
    (hts : ts = sh.map (tr (newCell s pooled)))
    (hinv : cnt sh = upd (cnt s.shared) s.cells.length 1) :
    Rep { newCell s pooled with allocated := n, warned := w, shared := sh }
      { t with shared := ts, next := t.next + 1, pool := if pooled then t.pool ++ [t.next] else t.pool,
               peak := n, warned := w } := by
  have hz : cnt s.shared s.cells.length = 0 ∧ cnt s.weak s.cells.length = 0 := by
    have := h.inv.held s.cells.length
    constructor
    · apply Nat.eq_zero_of_not_pos; intro hb; have := this (by omega); omega
    · apply Nat.eq_zero_of_not_pos; intro hb; have := this (by omega); omega
  have hi := inv_vars (inv_newCell h.inv pooled n hn hm) s.shared s.weak w
  rw [← hinv] at hi
  refine rep_new (s1 := { newCell s pooled with allocated := n, warned := w }) h s.cells.length
    ⟨1, 0, s.next, false, pooled, false⟩ ?_ rfl ?_ hz rfl rfl rfl rfl sh ts hts hi
  · show (s.cells ++ [_])[s.cells.length]? = _; simp
  · intro d hd
    show (s.cells ++ [_])[d]? = _
    by_cases hlt : d < s.cells.length
    · rw [List.getElem?_append_left hlt]
    · rw [List.getElem?_eq_none (by simp; omega), List.getElem?_eq_none (by omega)]

theorem fresh_zero {s : State} {t : Spec} (h : Rep s t) : cnt s.shared s.cells.length = 0 := by
  apply Nat.eq_zero_of_not_pos; intro hb; have := h.inv.held s.cells.length (by omega); omega

theorem newCell_oth (s : State) (p : Bool) (d : Nat) (hd : d ≠ s.cells.length) : (newCell s p).cells[d]? = s.cells[d]? := by
  show (s.cells ++ [_])[d]? = _
  by_cases hlt : d < s.cells.length
  · rw [List.getElem?_append_left hlt]
  · rw [List.getElem?_eq_none (by simp; omega), List.getElem?_eq_none (by omega)]

theorem newCell_obj (s : State) (p : Bool) : objOf (newCell s p) s.cells.length = s.next := by
  unfold objOf newCell; simp

theorem upd_bump {a : Nat → Nat} {c : Nat} (h : a c = 0) : upd a c 1 = bump a c := by unfold bump; rw [h]

theorem push_newCell {s : State} {t : Spec} (h : Rep s t) (p : Bool) :
    t.shared ++ [some (some t.next)] = (s.shared ++ [some (some s.cells.length)]).map (tr (newCell s p)) := by
  rw [map_push, ← map_tr_new (newCell_oth s p) s.shared (fresh_zero h), ← h.shared, h.next]
  simp [newCell_obj]

theorem rep_alloc (s : State) (t : Spec) (h : Rep s t) :
    Rep (step s .alloc).1 (specStep t .alloc).1 ∧ (step s .alloc).2 = (specStep t .alloc).2 := by
  have hin := inUse_eq h
  have hused := h.inv.used
  have hle := h.inv.le
  rw [← hin] at hused
  unfold step specStep allocate
  dsimp only
  cases hfr : s.free.getLast? with
  | some c =>
    have hne : s.free ≠ [] := by intro e; rw [e] at hfr; cases hfr
    have hlen : 0 < s.free.length := List.length_pos_iff.mpr hne
    have hmem : c ∈ s.free := List.mem_of_getLast? hfr
    obtain ⟨x, hx, hxp, hxf⟩ := (h.inv.freeMem c).mp hmem
    obtain ⟨hi, ha, hb, _, hpn⟩ := inv_reuse h.inv hx hfr
    dsimp only
    rw [hx]
    dsimp only
    rw [if_neg (show ¬ x.pNull = true by rw [hpn]; simp)]
    have c1 : ¬ (inUse t = t.peak) := by rw [h.peak]; omega
    have c2 : inUse t < t.maxBlocks := by rw [h.maxBlocks]; omega
    have c3 : max t.peak (inUse t + 1) = s.allocated := by rw [h.peak]; omega
    simp only [c1, c2, c3, if_true, decide_false, Bool.false_and, Bool.or_false, orUb, Bool.false_eq_true, if_false]
    refine ⟨?_, trivial⟩
    have hoth : ∀ d : Nat, d ≠ c → (s.cells.set c { x with count := 1, obj := s.next, freed := false })[d]? = s.cells[d]? := by
      intro d hd; rw [getElem?_set' hx, if_neg (fun e => hd e.symm)]
    have hself : (s.cells.set c { x with count := 1, obj := s.next, freed := false })[c]? =
        some { x with count := 1, obj := s.next, freed := false } := by rw [getElem?_set' hx, if_pos rfl]
    have hts : t.shared ++ [some (some t.next)] = (s.shared ++ [some (some c)]).map (tr { setCell s c { x with count := 1, obj := s.next, freed := false } with
      free := s.free.dropLast, next := s.next + 1 }) := by
      rw [map_push, ← map_tr_new (s := s) (c := c) hoth s.shared ha, ← h.shared, h.next]
      congr 1
      simp only [Option.map_some]
      congr 2
      congr 1
      symm
      unfold objOf
      show Option.getD (Option.map _ (s.cells.set c _)[c]?) 0 = _
      rw [hself]; rfl
    have := rep_new (s1 := { setCell s c { x with count := 1, obj := s.next, freed := false } with
      free := s.free.dropLast, next := s.next + 1 }) h c _ hself rfl hoth ⟨ha, hb⟩ rfl rfl rfl rfl
      (s.shared ++ [some (some c)]) (t.shared ++ [some (some t.next)]) hts
      (by rw [cnt_push]; show Inv _ (bump _ _) _; rw [← upd_bump ha]; exact hi)
    rw [if_pos (show ({ x with count := 1, obj := s.next, freed := false } : Cell).pooled = true from hxp)] at this
    rw [h.warned]
    exact this
  | none =>
    have hnil : s.free = [] := List.getLast?_eq_none_iff.mp hfr
    have hlen : s.free.length = 0 := by rw [hnil]; rfl
    have c1 : inUse t = t.peak := by rw [h.peak]; omega
    have hwarn : (decide (inUse t = t.peak) && decide (t.peak > t.waterMark) && !t.warned) =
        (decide (s.allocated > s.waterMark) && !s.warned) := by
      rw [h.warned, h.waterMark, h.peak, show inUse t = s.allocated by omega]; simp
    rw [hwarn]
    dsimp only
    by_cases hm : s.allocated < s.maxBlocks
    · have c2 : inUse t < t.maxBlocks := by rw [h.maxBlocks]; omega
      have c3 : max t.peak (inUse t + 1) = s.allocated + 1 := by rw [h.peak]; omega
      have c4 : ¬ (s.allocated ≥ s.maxBlocks) := by omega
      rw [if_neg (by simp [c4]), if_pos hm, if_pos c2, c3]
      dsimp only [orUb]
      refine ⟨?_, ?_⟩
      · have := rep_newCell h (s.shared ++ [some (some s.cells.length)]) (t.shared ++ [some (some t.next)]) true (s.allocated + 1) rfl (by omega)
          (s.warned || (decide (s.allocated > s.waterMark) && !s.warned)) (push_newCell h true)
          (by rw [cnt_push]; exact (upd_bump (fresh_zero h)).symm)
        rw [h.warned]
        exact this
      · simp [c4]
    · have c2 : ¬ (inUse t < t.maxBlocks) := by rw [h.maxBlocks]; omega
      have c3 : s.allocated = s.maxBlocks := by omega
      have c5 : inUse t = s.allocated := by omega
      rw [if_neg c2]
      have e1 : Rep { s with warned := s.warned || (decide (s.allocated > s.waterMark) && !s.warned) }
          { t with warned := s.warned || (decide (s.allocated > s.waterMark) && !s.warned) } := by
        obtain ⟨q1, q2, q3, q4, q5, q6, q7, q8, q9, q10, q11⟩ := h
        exact ⟨inv_vars q1 _ _ _, q2, q3, q4, q5, q6, rfl, q8, q9, q10, q11⟩
      rw [h.warned]
      by_cases hw : s.allocated > s.waterMark
      · have hw' : s.waterMark < s.maxBlocks := by omega
        rw [if_pos (by simp [hw]; omega)]
        dsimp only [orUb]
        exact ⟨e1, by rw [h.waterMark, h.maxBlocks]; simp [hw, hw', c3]⟩
      · have hw' : ¬ s.waterMark < s.maxBlocks := by omega
        rw [if_neg (by simp [hw]), if_neg hm]
        dsimp only [orUb]
        exact ⟨e1, by rw [h.waterMark, h.maxBlocks]; simp [hw, hw', c3]⟩

theorem getP_eq {s : State} {t : Spec} (h : Rep s t) (i : Nat) : getP s i = some (var t.shared i) := by
  unfold getP
  rw [h.shared, var_map]
  cases hv : var s.shared i with
  | none => rfl
  | some c =>
    have hp := cnt_pos_of_var hv
    obtain ⟨x, hx, hg, _, hk⟩ := getCell_live h.inv (show 0 < cnt s.shared c + cnt s.weak c by omega)
    have hpn : x.pNull = false := by
      rw [hk.pNull]; have : cnt s.shared c ≠ 0 := by omega
      simp [this]
    dsimp only
    rw [hg]
    simp [hpn, objOf_eq hx]

theorem rep_query {s : State} {t : Spec} (h : Rep s t) {α : Type} (f : α → Out) (r : Option α) (a : α) (hr : r = some a)
    (o : Out) (ho : f a = o) : Rep (query s f r).1 t ∧ (query s f r).2 = o := by
  subst hr; exact ⟨h, ho⟩

theorem rep_step (s : State) (t : Spec) (o : Op) (h : Rep s t) (hl : legal t o) :
    Rep (step s o).1 (specStep t o).1 ∧ (step s o).2 = (specStep t o).2 := by
  have hsh := h.shared
  have hwk := h.weak
  cases o with
  | make =>
    refine ⟨?_, rfl⟩
    have := rep_newCell h (s.shared ++ [some (some s.cells.length)]) (t.shared ++ [some (some t.next)]) false s.allocated rfl
      h.inv.le s.warned (push_newCell h false) (by rw [cnt_push]; exact (upd_bump (fresh_zero h)).symm)
    rw [← h.peak, ← h.warned] at this
    rw [h.peak, h.warned] at this
    have e : ({ t with shared := t.shared ++ [some (some t.next)], next := t.next + 1 } : Spec) =
        { t with shared := t.shared ++ [some (some t.next)], next := t.next + 1, pool := if false = true then t.pool ++ [t.next] else t.pool,
                 peak := s.allocated, warned := s.warned } := by rw [← h.peak, ← h.warned]; rfl
    show Rep _ ({ t with shared := t.shared ++ [some (some t.next)], next := t.next + 1 } : Spec)
    rw [e]
    exact this
  | makeNull =>
    refine ⟨rep_shared h (same_refl s) _ ?_ _ ?_, rfl⟩
    · rw [cnt_push]; exact h.inv
    · rw [map_push, ← hsh]; rfl
  | alloc => exact rep_alloc s t h
  | copy j =>
    obtain ⟨s1, h1, h2, h3⟩ := incCount?_spec h.inv (var s.shared j) (fun c hc => cnt_pos_of_var hc)
    unfold step specStep
    dsimp only
    rw [h1]
    refine ⟨?_, rfl⟩
    dsimp only [orUb, Option.map_some]
    rw [h2.shared]
    refine rep_shared h h2 _ (by rw [cnt_push]; exact h3) _ ?_
    rw [map_push, ← hsh, hsh, var_map]
  | move j =>
    refine ⟨rep_shared h (same_refl s) _ ?_ _ ?_, rfl⟩
    · replace hl : alive s.shared j := (alive_map s _ _).mp (hsh ▸ hl)
      rw [cnt_push, cnt_set_null hl, bumpO_dropO _ _ (fun c hc => cnt_pos_of_var hc)]
      exact h.inv
    · rw [map_push, map_set_some, ← hsh, hsh, var_map]; rfl
  | destroy i =>
    replace hl : alive s.shared i := (alive_map s _ _).mp (hsh ▸ hl)
    obtain ⟨s1, sh, h1, h2, h3, h4⟩ := unlink_spec h.inv hl
    unfold step specStep
    dsimp only
    rw [h1]
    refine ⟨?_, rfl⟩
    dsimp only [orUb, Option.map_some]
    have e : sh.set i none = s.shared.set i none := by
      rcases h3 with h3 | h3
      · rw [h3]
      · rw [h3, List.set_set]
    rw [e]
    refine rep_shared h h2 _ ?_ _ ?_
    · rw [cnt_set_dead hl, ← cnt_set_null hl]; exact h4
    · rw [map_set_none, ← hsh]
  | assign i j =>
    unfold step specStep
    dsimp only
    by_cases hij : i = j
    · rw [if_pos hij, if_pos hij]; exact ⟨h, rfl⟩
    · rw [if_neg hij, if_neg hij]
      obtain ⟨hli, hlj⟩ := hl
      replace hli : alive s.shared i := (alive_map s _ _).mp (hsh ▸ hli)
      replace hlj : alive s.shared j := (alive_map s _ _).mp (hsh ▸ hlj)
      obtain ⟨s1, sh, h1, h2, h3, h4⟩ := unlink_spec h.inv hli
      rw [h1]
      dsimp only
      have e : var sh j = var s.shared j := by
        rcases h3 with h3 | h3
        · rw [h3]
        · rw [h3, var_set_other hij]
      have e2 : ∀ v, sh.set i v = s.shared.set i v := by
        intro v
        rcases h3 with h3 | h3
        · rw [h3]
        · rw [h3, List.set_set]
      have h4' := inv_vars h4 sh s1.weak s1.warned
      obtain ⟨s2, k1, k2, k3⟩ := incCount?_spec h4' (var s.shared j) (fun c hc =>
        cnt_pos_of_var (i := j) (by rw [var_set_other hij]; exact hc))
      rw [e]
      rw [k1]
      refine ⟨?_, rfl⟩
      dsimp only [orUb, Option.map_some]
      rw [k2.shared]
      dsimp only
      rw [e2]
      refine rep_shared h (s1 := { s2 with shared := s.shared }) ?_ _ ?_ _ ?_
      · exact ⟨rfl, k2.weak.trans h2.weak, k2.next.trans h2.next, k2.allocated.trans h2.allocated, k2.maxBlocks.trans h2.maxBlocks,
          k2.waterMark.trans h2.waterMark, k2.warned.trans h2.warned, fun c => (k2.cells c).trans (h2.cells c)⟩
      · rw [cnt_fill (alive_lt hli)]
        exact inv_vars k3 s.shared s2.weak s2.warned
      · rw [map_set_some, ← hsh, hsh, var_map]
  | moveAssign i j =>
    unfold step specStep
    dsimp only
    by_cases hij : i = j
    · rw [if_pos hij, if_pos hij]; exact ⟨h, rfl⟩
    · rw [if_neg hij, if_neg hij]
      obtain ⟨hli, hlj⟩ := hl
      replace hli : alive s.shared i := (alive_map s _ _).mp (hsh ▸ hli)
      replace hlj : alive s.shared j := (alive_map s _ _).mp (hsh ▸ hlj)
      obtain ⟨s1, sh, h1, h2, h3, h4⟩ := unlink_spec h.inv hli
      rw [h1]
      have e : var sh j = var s.shared j := by
        rcases h3 with h3 | h3
        · rw [h3]
        · rw [h3, var_set_other hij]
      have e2 : ∀ v, sh.set i v = s.shared.set i v := by
        intro v
        rcases h3 with h3 | h3
        · rw [h3]
        · rw [h3, List.set_set]
      refine ⟨?_, rfl⟩
      dsimp only [orUb, Option.map_some]
      rw [e, e2]
      refine rep_shared h h2 _ ?_ _ ?_
      · rw [cnt_set_null ((alive_set_other hij _).mpr hlj), var_set_other hij, cnt_fill (alive_lt hli), dropO_bumpO]
        exact h4
      · rw [map_set_some, map_set_some, ← hsh, hsh, var_map]; rfl
  | reset i =>
    replace hl : alive s.shared i := (alive_map s _ _).mp (hsh ▸ hl)
    obtain ⟨s1, sh, h1, h2, h3, h4⟩ := unlink_spec h.inv hl
    unfold step specStep
    dsimp only
    rw [h1]
    refine ⟨?_, rfl⟩
    dsimp only [orUb, Option.map_some]
    have e : sh.set i (some none) = s.shared.set i (some none) := by
      rcases h3 with h3 | h3
      · rw [h3]
      · rw [h3, List.set_set]
    rw [e]
    refine rep_shared h h2 _ h4 _ ?_
    rw [map_set_some, ← hsh]; rfl
  | resetNew i =>
    replace hl : alive s.shared i := (alive_map s _ _).mp (hsh ▸ hl)
    obtain ⟨s1, sh, h1, h2, h3, h4⟩ := unlink_spec h.inv hl
    unfold step specStep
    dsimp only
    rw [h1]
    refine ⟨?_, rfl⟩
    dsimp only [orUb, Option.map_some]
    have e : ∀ v, sh.set i v = s.shared.set i v := by
      intro v
      rcases h3 with h3 | h3
      · rw [h3]
      · rw [h3, List.set_set]
    -- first the old pointer goes
    have hr := rep_shared h h2 _ h4 (t.shared.set i (some none)) (by rw [map_set_some, ← hsh]; rfl)
    have hz := fresh_zero hr
    have hts : t.shared.set i (some (some t.next)) =
        (s.shared.set i (some (some s1.cells.length))).map (tr (newCell { s1 with shared := s.shared.set i (some none) } false)) := by
      have e3 : s.shared.set i (some (some s1.cells.length)) = (s.shared.set i (some none)).set i (some (some s1.cells.length)) := by
        rw [List.set_set]
      have e4 := hr.shared
      replace e4 : t.shared.set i (some none) = (s.shared.set i (some none)).map (tr { s1 with shared := s.shared.set i (some none) }) := e4
      rw [e3, map_set_some, ← map_tr_new (newCell_oth { s1 with shared := s.shared.set i (some none) } false) (s.shared.set i (some none)) hz, ← e4, List.set_set]
      have e5 : objOf (newCell { s1 with shared := s.shared.set i (some none) } false) s1.cells.length = t.next := by
        rw [newCell_obj { s1 with shared := s.shared.set i (some none) } false]; exact hr.next.symm
      simp [e5]
    have := rep_newCell hr (s.shared.set i (some (some s1.cells.length))) (t.shared.set i (some (some t.next))) false s1.allocated rfl
      h4.le s1.warned hts (by rw [cnt_fill (alive_lt hl)]; exact (upd_bump hz).symm)
    have hp : s1.allocated = t.peak := hr.peak.symm
    have hw : s1.warned = t.warned := hr.warned.symm
    have e6 : ({ t with shared := t.shared.set i (some (some t.next)), next := t.next + 1 } : Spec) =
        { t with shared := t.shared.set i (some (some t.next)), next := t.next + 1, pool := if false = true then t.pool ++ [t.next] else t.pool,
                 peak := s1.allocated, warned := s1.warned } := by rw [hp, hw]; rfl
    rw [e6]
    show Rep ({ newCell { s1 with shared := sh } false with shared := sh.set i (some (some s1.cells.length)) } : State) _
    rw [e]
    exact this
  | weakNull =>
    refine ⟨rep_weak h (same_refl s) _ ?_ _ ?_, rfl⟩
    · rw [cnt_push]; exact h.inv
    · rw [map_push, ← hwk]; rfl
  | watch j =>
    obtain ⟨s1, h1, h2, h3⟩ := incWp?_spec h.inv (var s.shared j) (fun c hc => by have := cnt_pos_of_var hc; omega)
    unfold step specStep
    dsimp only
    rw [h1]
    refine ⟨?_, rfl⟩
    dsimp only [orUb, Option.map_some]
    rw [h2.weak]
    refine rep_weak h h2 _ (by rw [cnt_push]; exact h3) _ ?_
    rw [map_push, ← hwk, hsh, var_map]
  | weakCopy j =>
    obtain ⟨s1, h1, h2, h3⟩ := incWp?_spec h.inv (var s.weak j) (fun c hc => by have := cnt_pos_of_var hc; omega)
    unfold step specStep
    dsimp only
    rw [h1]
    refine ⟨?_, rfl⟩
    dsimp only [orUb, Option.map_some]
    rw [h2.weak]
    refine rep_weak h h2 _ (by rw [cnt_push]; exact h3) _ ?_
    rw [map_push, ← hwk, hwk, var_map]
  | weakMove j =>
    refine ⟨rep_weak h (same_refl s) _ ?_ _ ?_, rfl⟩
    · replace hl : alive s.weak j := (alive_map s _ _).mp (hwk ▸ hl)
      rw [cnt_push, cnt_set_null hl, bumpO_dropO _ _ (fun c hc => cnt_pos_of_var hc)]
      exact h.inv
    · rw [map_push, map_set_some, ← hwk, hwk, var_map]; rfl
  | weakDestroy i =>
    replace hl : alive s.weak i := (alive_map s _ _).mp (hwk ▸ hl)
    obtain ⟨s1, sh, h1, h2, h3, h4⟩ := unlinkWeak_spec h.inv hl
    unfold step specStep
    dsimp only
    rw [h1]
    refine ⟨?_, rfl⟩
    dsimp only [orUb, Option.map_some]
    have e : sh.set i none = s.weak.set i none := by
      rcases h3 with ⟨h3, _⟩ | ⟨h3, _⟩
      · rw [h3]
      · rw [h3, List.set_set]
    rw [e]
    refine rep_weak h h2 _ ?_ _ ?_
    · rw [cnt_set_dead hl, ← cnt_set_null hl]; exact h4
    · rw [map_set_none, ← hwk]
  | weakAssign i j =>
    unfold step specStep
    dsimp only
    obtain ⟨hli, hlj⟩ := hl
    replace hli : alive s.weak i := (alive_map s _ _).mp (hwk ▸ hli)
    replace hlj : alive s.weak j := (alive_map s _ _).mp (hwk ▸ hlj)
    obtain ⟨s1, wk, h1, h2, h3, h4⟩ := unlinkWeak_spec h.inv hli
    rw [h1]
    dsimp only
    have e2 : ∀ v, wk.set i v = s.weak.set i v := by
      intro v
      rcases h3 with ⟨h3, _⟩ | ⟨h3, _⟩
      · rw [h3]
      · rw [h3, List.set_set]
    have hlast : (∃ o, var t.weak i = some o ∧ owners t o = 0 ∧ watchers t o = 1) ↔
        ∃ c, var s.weak i = some c ∧ cnt s.shared c = 0 ∧ cnt s.weak c = 1 := by
      rw [hwk, var_map]
      cases hv : var s.weak i with
      | none => simp
      | some c =>
        obtain ⟨x, hx, _⟩ := getCell_live h.inv (show 0 < cnt s.shared c + cnt s.weak c by have := cnt_pos_of_var hv; omega)
        simp only [Option.map_some, Option.some.injEq, exists_eq_left', objOf_eq hx]
        rw [owners_eq h hx, watchers_eq h hx]
    -- which count is taken
    have hv : var wk j = if i = j ∧ ∃ o, var t.weak i = some o ∧ owners t o = 0 ∧ watchers t o = 1 then none else var s.weak j := by
      rcases h3 with ⟨h3, hn⟩ | ⟨h3, hy⟩
      · rw [if_neg, h3]
        intro hh
        obtain ⟨c, hc, h5⟩ := hlast.mp hh.2
        exact hn c hc h5
      · by_cases hij : i = j
        · subst hij
          rw [if_pos ⟨rfl, hlast.mpr hy⟩, h3, var_set_same (alive_lt hli)]
        · rw [if_neg (fun hh => hij hh.1), h3, var_set_other hij]
    have hpos : ∀ c, var wk j = some c → 0 < cnt s.shared c + cnt (s.weak.set i (some none)) c := by
      intro c hc
      rcases h3 with ⟨h3, hn⟩ | ⟨h3, hy⟩
      · by_cases hij : i = j
        · subst hij
          rw [h3] at hc
          have hh := hn c hc
          have := cnt_pos_of_var hc
          rw [cnt_set_null hli, hc]
          show 0 < cnt s.shared c + drop1 _ c c
          rw [drop1_apply]; simp; omega
        · have : 0 < cnt (s.weak.set i (some none)) c := cnt_pos_of_var (i := j) (by rw [var_set_other hij, ← h3]; exact hc)
          omega
      · have : 0 < cnt (s.weak.set i (some none)) c := cnt_pos_of_var (i := j) (by rw [← h3]; exact hc)
        omega
    have h4' := inv_vars h4 s1.shared wk s1.warned
    obtain ⟨s2, k1, k2, k3⟩ := incWp?_spec h4' (var wk j) hpos
    rw [k1]
    have hgoal : Rep { s2 with weak := s.weak.set i (some (var wk j)) }
        { t with weak := t.weak.set i (some ((var wk j).map (objOf s))) } := by
      refine rep_weak h (s1 := { s2 with weak := s.weak }) ?_ _ ?_ _ ?_
      · exact ⟨k2.shared.trans h2.shared, rfl, k2.next.trans h2.next, k2.allocated.trans h2.allocated, k2.maxBlocks.trans h2.maxBlocks,
          k2.waterMark.trans h2.waterMark, k2.warned.trans h2.warned, fun c => (k2.cells c).trans (h2.cells c)⟩
      · rw [cnt_fill (alive_lt hli)]
        exact inv_vars k3 s2.shared s.weak s2.warned
      · rw [map_set_some, ← hwk]
    dsimp only [orUb, Option.map_some]
    rw [k2.weak]
    dsimp only
    rw [e2]
    by_cases hc : i = j ∧ ∃ o, var t.weak i = some o ∧ owners t o = 0 ∧ watchers t o = 1
    · rw [if_pos hc]
      refine ⟨?_, rfl⟩
      rw [if_pos hc] at hv
      rw [hv] at hgoal ⊢
      exact hgoal
    · rw [if_neg hc]
      refine ⟨?_, rfl⟩
      rw [if_neg hc] at hv
      rw [hv] at hgoal ⊢
      have : var t.weak j = (var s.weak j).map (objOf s) := by rw [hwk, var_map]
      rw [this]
      exact hgoal
  | weakMoveAssign i j =>
    unfold step specStep
    obtain ⟨hli, hlj⟩ := hl
    replace hli : alive s.weak i := (alive_map s _ _).mp (hwk ▸ hli)
    replace hlj : alive s.weak j := (alive_map s _ _).mp (hwk ▸ hlj)
    obtain ⟨s1, sh, h1, h2, h3, h4⟩ := unlinkWeak_spec h.inv hli
    dsimp only
    rw [h1]
    have e2 : ∀ v, sh.set i v = s.weak.set i v := by
      intro v
      rcases h3 with ⟨h3, _⟩ | ⟨h3, _⟩
      · rw [h3]
      · rw [h3, List.set_set]
    refine ⟨?_, rfl⟩
    dsimp only [orUb, Option.map_some]
    rw [e2]
    by_cases hij : i = j
    · subst hij
      rw [List.set_set, List.set_set]
      refine rep_weak h h2 _ h4 _ ?_
      rw [map_set_some, ← hwk]; rfl
    · have e : var sh j = var s.weak j := by
        rcases h3 with ⟨h3, _⟩ | ⟨h3, _⟩
        · rw [h3]
        · rw [h3, var_set_other hij]
      rw [e]
      refine rep_weak h h2 _ ?_ _ ?_
      · rw [cnt_set_null ((alive_set_other hij _).mpr hlj), var_set_other hij, cnt_fill (alive_lt hli), dropO_bumpO]
        exact h4
      · rw [map_set_some, map_set_some, ← hwk, hwk, var_map]; rfl
  | lock j =>
    obtain ⟨hlj, hown⟩ := hl
    have hpos : ∀ c, var s.weak j = some c → 0 < cnt s.shared c := by
      intro c hc
      obtain ⟨x, hx, _⟩ := getCell_live h.inv (show 0 < cnt s.shared c + cnt s.weak c by have := cnt_pos_of_var hc; omega)
      have := hown x.obj (by rw [hwk, var_map, hc]; simp [objOf_eq hx])
      rw [owners_eq h hx] at this
      exact this
    obtain ⟨s1, h1, h2, h3⟩ := incCount?_spec h.inv (var s.weak j) hpos
    unfold step specStep
    dsimp only
    rw [h1]
    refine ⟨?_, rfl⟩
    dsimp only [orUb, Option.map_some]
    rw [h2.shared]
    refine rep_shared h h2 _ (by rw [cnt_push]; exact h3) _ ?_
    rw [map_push, ← hsh, hwk, var_map]
  | get i => exact rep_query h _ _ _ (getP_eq h i) _ rfl
  | isSet i => exact rep_query h _ _ _ (getP_eq h i) _ rfl
  | isNull i => exact rep_query h _ _ _ (getP_eq h i) _ rfl
  | useCount i =>
    refine rep_query h _ _ ((var t.shared i).elim 0 fun o => (owners t o : Int)) ?_ _ ?_
    · unfold useCount
      rw [hsh, var_map]
      cases hv : var s.shared i with
      | none => rfl
      | some c =>
        have hp := cnt_pos_of_var hv
        obtain ⟨x, hx, hg, _, hk⟩ := getCell_live h.inv (show 0 < cnt s.shared c + cnt s.weak c by omega)
        have hne : cnt s.shared c ≠ 0 := by omega
        have hpn : x.pNull = false := by rw [hk.pNull]; simp [hne]
        dsimp only
        rw [hg]
        simp only [Option.map_some, hpn, Bool.false_eq_true, if_false, Option.elim, objOf_eq hx]
        rw [hk.count, if_neg hne, owners_eq h hx]
    · rfl
  | weakUseCount i =>
    refine rep_query h _ _ ((var t.weak i).elim 0 fun o => (owners t o : Int)) ?_ _ ?_
    · unfold weakUseCount
      rw [hwk, var_map]
      cases hv : var s.weak i with
      | none => rfl
      | some c =>
        have hp := cnt_pos_of_var hv
        obtain ⟨x, hx, hg, _, hk⟩ := getCell_live h.inv (show 0 < cnt s.shared c + cnt s.weak c by omega)
        dsimp only
        rw [hg]
        simp only [Option.map_some, Option.elim, objOf_eq hx]
        rw [hk.count, owners_eq h hx]
        by_cases hz : cnt s.shared c = 0
        · simp [hz]
        · rw [if_neg hz, if_neg (by omega)]
    · rfl
  | expired i =>
    refine rep_query h _ _ ((var t.weak i).elim true fun o => decide (owners t o = 0)) ?_ _ rfl
    unfold expired
    rw [hwk, var_map]
    cases hv : var s.weak i with
    | none => rfl
    | some c =>
      have hp := cnt_pos_of_var hv
      obtain ⟨x, hx, hg, _, hk⟩ := getCell_live h.inv (show 0 < cnt s.shared c + cnt s.weak c by omega)
      dsimp only
      rw [hg]
      simp only [Option.map_some, Option.elim, objOf_eq hx]
      rw [hk.count, owners_eq h hx]
      congr 1
      apply decide_eq_decide.mpr
      by_cases hz : cnt s.shared c = 0
      · simp [hz]
      · rw [if_neg hz]; omega
  | destroyed o =>
    refine ⟨h, ?_⟩
    show Out.num (s.log.count o) = .num _
    congr 1
    rw [h.next]
    by_cases ho : o < s.next
    · by_cases hc : ∃ (c : Nat) (x : Cell), s.cells[c]? = some x ∧ x.obj = o
      · obtain ⟨c, x, hx, rfl⟩ := hc
        rw [owners_eq h hx, (h.inv.objs c x hx).2]
        by_cases hz : cnt s.shared c = 0 <;> simp [hz, ho]
      · have hz : owners t o = 0 := by
          apply Nat.eq_zero_of_not_pos
          intro hp
          obtain ⟨c, x, hx, hxo, _⟩ := held_obj h (show 0 < owners t o + watchers t o by omega)
          exact hc ⟨c, x, hx, hxo⟩
        rcases h.inv.past o ho with hh | hh
        · exact absurd hh hc
        · simp [hh, hz, ho]
    · have : s.log.count o = 0 := by
        rw [List.count_eq_zero]; intro hm; exact ho (h.inv.logs o hm)
      simp [this, ho]
  | numFree =>
    refine ⟨h, ?_⟩
    show Out.num (s.free.length) = .num _
    have := h.inv.used
    rw [inUse_eq h, h.peak]
    congr 1
    omega
  | numAllocated =>
    refine ⟨h, ?_⟩
    show Out.num (s.cells.countP (·.pooled)) = .num _
    rw [h.inv.alloc, h.peak]
  | hasOutstanding =>
    refine ⟨h, ?_⟩
    show Out.flag (decide (s.allocated ≠ s.free.length)) = .flag (decide _)
    have := h.inv.used
    rw [inUse_eq h]
    congr 1
    apply decide_eq_decide.mpr
    omega

end Sparta.SharedPtr
