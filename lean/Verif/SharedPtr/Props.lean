import Verif.SharedPtr.Step
namespace Sparta.SharedPtr

/-- the state and what the program should see after a history of calls -/
theorem reached {m w : Nat} {s : State} (h : init m w = some s) (os : List Op) (hl : legalOps specStep legal (specInit m w) os) :
    Rep (runOps step s os).1 (runOps specStep (specInit m w) os).1 ∧
      (runOps step s os).2 = (runOps specStep (specInit m w) os).2 :=
  runOps_simulation_legal step specStep legal Rep rep_step s (specInit m w) (rep_init h) os hl

/-! ### C35 -/

/-- C35: for every history of calls on shared and weak pointers (with `lock` only on weak pointers that are empty or not
expired), every call has the outcome it should have: pointers refer to the object they were given, `use_count` is the number of
owners, and the destructor of an object has run once if nobody owns it and not at all otherwise -/
theorem C35_ownership {m w : Nat} {s : State} (h : init m w = some s) (os : List Op)
    (hl : legalOps specStep legal (specInit m w) os) :
    (runOps step s os).2 = (runOps specStep (specInit m w) os).2 := (reached h os hl).2

/-- C35: the same in terms of the log of destructor calls: no object is destroyed twice, and the destroyed objects are exactly
those that nobody owns any more -/
theorem C35_destroyed_once {m w : Nat} {s : State} (h : init m w = some s) (os : List Op)
    (hl : legalOps specStep legal (specInit m w) os) :
    (runOps step s os).1.log.Nodup ∧
      ∀ o, o ∈ (runOps step s os).1.log ↔
        o < (runOps specStep (specInit m w) os).1.next ∧ owners (runOps specStep (specInit m w) os).1 o = 0 := by
  have hr := (reached h os hl).1
  have key : ∀ o, (runOps step s os).1.log.count o =
      if o < (runOps specStep (specInit m w) os).1.next ∧ owners (runOps specStep (specInit m w) os).1 o = 0 then 1 else 0 := by
    intro o
    have := (rep_step _ _ (.destroyed o) hr trivial).2
    have e : ((runOps step s os).1.log.count o : Int) =
      if o < (runOps specStep (specInit m w) os).1.next ∧ owners (runOps specStep (specInit m w) os).1 o = 0 then 1 else 0 :=
      Out.num.inj this
    split <;> rename_i hc
    · rw [if_pos hc] at e; omega
    · rw [if_neg hc] at e; omega
  refine ⟨?_, fun o => ?_⟩
  · rw [List.nodup_iff_count]
    intro o
    rw [key]; split <;> omega
  · rw [← List.count_pos_iff, key]
    split <;> rename_i hc
    · simp [hc]
    · simp only [hc]; simp

theorem spec_no_ub (t : Spec) (o : Op) : (specStep t o).2 ≠ .ub := by
  cases o <;> simp only [specStep] <;> (try split) <;> simp

/-- C35: such a history never touches a reference count that was deleted -/
theorem C35_no_undefined_behaviour {m w : Nat} {s : State} (h : init m w = some s) (os : List Op)
    (hl : legalOps specStep legal (specInit m w) os) : Out.ub ∉ (runOps step s os).2 := by
  rw [C35_ownership h os hl]
  have : ∀ t, Out.ub ∉ (runOps specStep t os).2 := by
    clear hl
    induction os with
    | nil => intro t; simp [runOps]
    | cons o os ih =>
      intro t
      show Out.ub ∉ (specStep t o).2 :: (runOps specStep (specStep t o).1 os).2
      rw [List.mem_cons]
      rintro (e | e)
      · exact spec_no_ub t o e.symm
      · exact ih _ e
  exact this _

example : init 2 1 ≠ none ∧
    legalOps specStep legal (specInit 2 1) [.make, .copy 0, .useCount 1, .destroy 0, .destroyed 0, .watch 1, .move 1, .lock 0,
      .useCount 2, .reset 2, .destroy 3, .expired 0, .destroyed 0, .alloc, .alloc, .destroy 4, .alloc, .numFree] ∧
    (runOps specStep (specInit 2 1) [.make, .copy 0, .useCount 1, .destroy 0, .destroyed 0, .watch 1, .move 1, .lock 0,
      .useCount 2, .reset 2, .destroy 3, .expired 0, .destroyed 0, .alloc, .alloc, .destroy 4, .alloc, .numFree]).2 =
      [.unit, .unit, .num 2, .unit, .num 0, .unit, .unit, .unit, .num 2, .unit, .unit, .flag true, .num 1,
       .alloc true false false, .alloc true false false, .unit, .alloc true false false, .num 0] := by
  refine ⟨by decide, ?_, by decide⟩
  simp [legalOps, legal, specStep, specInit, alive, var, owners, inUse, watchers]

/-! ### C36 -/

/-- every object that a variable refers to has been made -/
structure Made (t : Spec) : Prop where
  shared : ∀ o, some (some o) ∈ t.shared → o < t.next
  weak : ∀ o, some (some o) ∈ t.weak → o < t.next

theorem mem_of_var {l : List (Option (Option Nat))} {i o : Nat} (h : var l i = some o) : some (some o) ∈ l := by
  have := cnt_pos_of_var h
  exact List.count_pos_iff.mp this

theorem mem_push {l : List (Option (Option Nat))} {v : Option Nat} {o : Nat} (h : some (some o) ∈ l ++ [some v]) :
    some (some o) ∈ l ∨ v = some o := by
  rcases List.mem_append.mp h with h | h
  · exact Or.inl h
  · simp at h; exact Or.inr h.symm

theorem mem_set' {l : List (Option (Option Nat))} {i : Nat} {v : Option (Option Nat)} {o : Nat} (h : some (some o) ∈ l.set i v) :
    some (some o) ∈ l ∨ v = some (some o) := by
  rcases List.mem_or_eq_of_mem_set h with h | h
  · exact Or.inl h
  · exact Or.inr h.symm

/-- a legal call makes no pointer to an object from nothing: after it, an owner of `o` means that `o` was owned before or is new -/
theorem shared_source (t : Spec) (op : Op) (hl : legal t op) (o : Nat) (h : some (some o) ∈ (specStep t op).1.shared) :
    some (some o) ∈ t.shared ∨ (o = t.next ∧ (specStep t op).1.next = t.next + 1) := by
  cases op with
  | make => rcases mem_push h with h | h
            · exact Or.inl h
            · exact Or.inr ⟨(Option.some.inj h).symm, rfl⟩
  | makeNull => rcases mem_push h with h | h
                · exact Or.inl h
                · cases h
  | alloc =>
    simp only [specStep] at h ⊢
    split at h
    · rename_i hc
      rcases mem_push h with h | h
      · exact Or.inl h
      · right; rw [if_pos hc]; exact ⟨(Option.some.inj h).symm, rfl⟩
    · exact Or.inl h
  | copy j => rcases mem_push h with h | h
              · exact Or.inl h
              · exact Or.inl (mem_of_var h)
  | move j => rcases mem_push h with h | h
              · rcases mem_set' h with h | h
                · exact Or.inl h
                · cases h
              · exact Or.inl (mem_of_var h)
  | destroy i => rcases mem_set' h with h | h
                 · exact Or.inl h
                 · cases h
  | assign i j =>
    simp only [specStep] at h
    split at h
    · exact Or.inl h
    · rcases mem_set' h with h | h
      · exact Or.inl h
      · exact Or.inl (mem_of_var (Option.some.inj h))
  | moveAssign i j =>
    simp only [specStep] at h
    split at h
    · exact Or.inl h
    · rcases mem_set' h with h | h
      · rcases mem_set' h with h | h
        · exact Or.inl h
        · exact Or.inl (mem_of_var (Option.some.inj h))
      · cases h
  | reset i => rcases mem_set' h with h | h
               · exact Or.inl h
               · cases h
  | resetNew i => rcases mem_set' h with h | h
                  · exact Or.inl h
                  · exact Or.inr ⟨(Option.some.inj (Option.some.inj h)).symm, rfl⟩
  | lock j => rcases mem_push h with h | h
              · exact Or.inl h
              · exact Or.inl (List.count_pos_iff.mp (hl.2 o h))
  | weakAssign i j => simp only [specStep] at h; split at h <;> exact Or.inl h
  | _ => exact Or.inl h

theorem next_mono (t : Spec) (op : Op) : t.next ≤ (specStep t op).1.next := by
  cases op <;> simp only [specStep] <;> (try split) <;> simp

/-- C36, as far as it holds: once the last owner of an object is gone, in every further history (with `lock` only on weak
pointers that are empty or not expired) nobody owns it again; with C35_ownership, `expired` stays true, `use_count` stays 0 and
the object stays destroyed exactly once.  Missing: `lock` on an expired weak pointer, see the violations below. -/
theorem C36_gone_for_ever_partial (t : Spec) (os : List Op) (hl : legalOps specStep legal t os) (o : Nat) (ho : o < t.next)
    (hz : owners t o = 0) : owners (runOps specStep t os).1 o = 0 := by
  induction os generalizing t with
  | nil => exact hz
  | cons op os ih =>
    refine ih (specStep t op).1 hl.2 (Nat.lt_of_lt_of_le ho (next_mono t op)) ?_
    unfold owners at hz ⊢
    rw [List.count_eq_zero] at hz ⊢
    intro hm
    rcases shared_source t op hl.1 o hm with h | ⟨h, _⟩
    · exact hz h
    · omega

/-- C36: asking an expired weak pointer to an object that did not come from the allocator for a shared pointer gives an empty
one, and when that pointer is destroyed at once everything is as before.  Missing: objects from the allocator, and keeping the
empty pointer while other calls are made. -/
theorem C36_lock_expired_partial {m w : Nat} {s : State} (h : init m w = some s) (os : List Op)
    (hl : legalOps specStep legal (specInit m w) os) (j c : Nat)
    (hc : var (runOps step s os).1.weak j = some c) (x : Cell) (hx : (runOps step s os).1.cells[c]? = some x)
    (hexp : (step (runOps step s os).1 (.expired j)).2 = .flag true) (hp : x.pooled = false) :
    let u := (runOps step s os).1
    let p := u.shared.length
    (step u (.lock j)).2 = .unit ∧
    (step (step u (.lock j)).1 (.get p)).2 = .obj none ∧
    (step (step u (.lock j)).1 (.useCount p)).2 = .num 0 ∧
    (step (step u (.lock j)).1 (.destroy p)).2 = .unit ∧
    (step (step u (.lock j)).1 (.destroy p)).1 = { u with shared := u.shared ++ [none] } := by
  intro u p
  have hr := (reached h os hl).1
  have hpos := cnt_pos_of_var hc
  obtain ⟨y, hy, hg, hf, hk⟩ := getCell_live hr.inv (show 0 < cnt u.shared c + cnt u.weak c by
    have : 0 < cnt u.weak c := hpos
    omega)
  rw [hx] at hy; cases hy
  have hz : cnt u.shared c = 0 := by
    have e := (show (step u (.expired j)).2 = .flag true from hexp)
    unfold step query expired orUb at e
    dsimp only at e
    rw [hc] at e
    dsimp only at e
    rw [hg] at e
    simp only [Option.map_some, Out.flag.injEq, decide_eq_true_eq] at e
    have hcount := hk.count
    by_cases h0 : cnt u.shared c = 0
    · exact h0
    · have hcount' : x.count = (cnt u.shared c : Int) := by
        rw [hcount]; exact if_neg h0
      omega
  have hcount : x.count = -1 := by
    have := hk.count
    rw [this]; exact if_pos hz
  have hnull : x.pNull = true := by
    have := hk.pNull
    rw [hp] at this
    rw [this]
    simp only [Bool.not_false, Bool.true_and, decide_eq_true_eq]
    exact hz
  have hwp : 0 < x.wp := by
    have := hk.wp
    rw [this]
    have : 0 < cnt u.weak c := hpos
    exact Int.natCast_pos.mpr this
  -- the state after `lock`
  have hlock : step u (.lock j) = ({ setCell u c { x with count := 0 } with shared := u.shared ++ [some (some c)] }, .unit) := by
    unfold step incCount? incCount
    dsimp only
    rw [hc]
    dsimp only
    rw [hg]
    dsimp only [orUb, Option.map_some]
    rw [hcount]
    rfl
  have hvar : var (u.shared ++ [some (some c)]) p = some c := by
    unfold var
    rw [List.getD_eq_getElem?_getD, List.getElem?_append_right (Nat.le_refl _)]
    simp
  have hx' : (u.cells.set c { x with count := 0 })[c]? = some { x with count := 0 } := by
    rw [getElem?_set' hx, if_pos rfl]
  have hg' : getCell { setCell u c { x with count := 0 } with shared := u.shared ++ [some (some c)] } c = some { x with count := 0 } := by
    unfold getCell
    show (match (u.cells.set c { x with count := 0 })[c]? with | some x => _ | none => _) = _
    rw [hx']
    simp [hf]
  rw [hlock]
  refine ⟨rfl, ?_, ?_, ?_⟩
  · unfold step query getP
    dsimp only
    rw [hvar]
    dsimp only
    rw [hg']
    simp [orUb, hnull]
  · unfold step query useCount
    dsimp only
    rw [hvar]
    dsimp only
    rw [hg']
    simp [orUb, hnull]
  · have hself : u.cells.set c x = u.cells := by
      apply List.ext_getElem?
      intro d
      rw [getElem?_set' hx]
      by_cases hd : c = d
      · subst hd; rw [if_pos rfl]; exact hx.symm
      · rw [if_neg hd]
    have hrel : release (setCell { setCell u c { x with count := 0 } with shared := u.shared ++ [some (some c)] } c
        { x with count := 0 - 1 }) c = some ({ u with shared := u.shared ++ [some (some c)] }, false) := by
      have hgc : getCell (setCell { setCell u c { x with count := 0 } with shared := u.shared ++ [some (some c)] } c
          { x with count := 0 - 1 }) c = some { x with count := 0 - 1 } := by
        apply getCell_set (x := { x with count := 0 })
        · exact hx'
        · exact hf
      unfold release
      rw [hgc]
      dsimp only
      unfold endObject
      rw [if_neg (show ¬ ((0 : Int) - 1 = 0) by omega)]
      unfold endCell
      rw [if_neg (show ¬ ((0 : Int) - 1 ≤ 0 ∧ x.wp = 0) by omega)]
      have e : ({ x with count := 0 - 1 } : Cell) = x := by
        have : x.count = 0 - 1 := by omega
        rw [← this]
      rw [e]
      unfold setCell
      dsimp only
      rw [List.set_set, hself]
    have hd : unlink { setCell u c { x with count := 0 } with shared := u.shared ++ [some (some c)] } p =
        some { u with shared := u.shared ++ [some (some c)] } := by
      unfold unlink dropCount
      dsimp only
      rw [hvar]
      dsimp only
      rw [hg']
      dsimp only
      rw [hrel]
    unfold step
    dsimp only
    rw [hd]
    refine ⟨rfl, ?_⟩
    dsimp only [orUb, Option.map_some]
    congr 1
    show (u.shared ++ [some (some c)]).set u.shared.length none = _
    rw [List.set_append_right _ _ (Nat.le_refl _)]
    simp

example : legalOps specStep legal (specInit 1 1) [.make, .watch 0, .destroy 0] ∧
    (∀ s, init 1 1 = some s → var (runOps step s [.make, .watch 0, .destroy 0]).1.weak 0 = some 0 ∧
      (runOps step s [.make, .watch 0, .destroy 0]).1.cells[0]? = some ⟨-1, 1, 0, true, false, false⟩ ∧
      (step (runOps step s [.make, .watch 0, .destroy 0]).1 (.expired 0)).2 = .flag true) ∧
    owners (runOps specStep (specInit 1 1) [.make, .watch 0, .destroy 0]).1 0 = 0 := by
  refine ⟨by simp [legalOps, legal, specStep, specInit, alive, var], ?_, by decide⟩
  intro s hs
  have : s = ⟨[], [], [], 0, [], [], 0, 1, 1, false⟩ := by
    have := hs; unfold init at this; simp at this; exact this.symm
  subst this
  decide

/-- run a history from a fresh allocator and give the outputs -/
def outputs (m w : Nat) (os : List Op) : Option (List Out) := (init m w).map fun s => (runOps step s os).2

/-- violation: `lock` on an expired weak pointer to an object from the allocator returns a pointer to the destroyed object -/
theorem C36_resurrection_violated :
    outputs 1 1 [.alloc, .watch 0, .destroy 0, .expired 0, .destroyed 0, .lock 0, .get 1, .isSet 1] =
      some [.alloc true false false, .unit, .unit, .flag true, .num 1, .unit, .obj (some 0), .flag true] := by decide

/-- violation: after two calls of `lock` the expired weak pointer is not expired any more, and the destructor runs again -/
theorem C36_unexpired_violated :
    outputs 1 1 [.alloc, .watch 0, .destroy 0, .expired 0, .lock 0, .lock 0, .expired 0, .destroy 1, .destroyed 0] =
      some [.alloc true false false, .unit, .unit, .flag true, .unit, .unit, .flag false, .unit, .num 2] := by decide

/-- violation: an empty pointer obtained from an expired weak pointer must not outlive it: the reference count is deleted first -/
theorem C36_dangling_violated :
    outputs 1 1 [.make, .watch 0, .destroy 0, .lock 0, .isNull 1, .weakDestroy 0, .destroy 1] =
      some [.unit, .unit, .unit, .unit, .flag true, .unit, .ub] := by decide

/-! ### C37 -/

/-- C37: the block handed out is referred to by no pointer, shared or weak -/
theorem C37_block_not_in_use {m w : Nat} {s : State} (h : init m w = some s) (os : List Op)
    (hl : legalOps specStep legal (specInit m w) os) (s' : State) (c : Nat) (x y : Bool)
    (ha : allocate (runOps step s os).1 = some (s', some c, x, y)) :
    some (some c) ∉ (runOps step s os).1.shared ∧ some (some c) ∉ (runOps step s os).1.weak ∧
      ∃ z, s'.cells[c]? = some z ∧ z.pooled = true ∧ z.obj = (runOps step s os).1.next := by
  have hr := (reached h os hl).1
  generalize hu : (runOps step s os).1 = u at ha hr ⊢
  have key : cnt u.shared c = 0 ∧ cnt u.weak c = 0 ∧ ∃ z, s'.cells[c]? = some z ∧ z.pooled = true ∧ z.obj = u.next := by
    unfold allocate at ha
    cases hfr : u.free.getLast? with
    | some d =>
      rw [hfr] at ha
      dsimp only at ha
      obtain ⟨z, hz, _, _⟩ := (hr.inv.freeMem d).mp (List.mem_of_getLast? hfr)
      obtain ⟨_, h1, h2, hpool, h3⟩ := inv_reuse hr.inv hz hfr
      rw [hz] at ha
      dsimp only at ha
      rw [if_neg (show ¬ z.pNull = true by rw [h3]; simp)] at ha
      simp only [Option.some.injEq, Prod.mk.injEq] at ha
      obtain ⟨ha1, ha2, _⟩ := ha
      subst ha2
      subst ha1
      refine ⟨h1, h2, { z with count := 1, obj := u.next, freed := false }, ?_, hpool, rfl⟩
      show (u.cells.set d _)[d]? = _
      rw [getElem?_set' hz, if_pos rfl]
    | none =>
      rw [hfr] at ha
      dsimp only at ha
      have hz : cnt u.shared u.cells.length = 0 ∧ cnt u.weak u.cells.length = 0 := by
        have := hr.inv.held u.cells.length
        constructor
        · apply Nat.eq_zero_of_not_pos; intro hb; have := this (by omega); omega
        · apply Nat.eq_zero_of_not_pos; intro hb; have := this (by omega); omega
      split at ha
      · simp at ha
      · split at ha
        · simp only [Option.some.injEq, Prod.mk.injEq] at ha
          obtain ⟨ha1, ha2, _⟩ := ha
          subst ha2
          subst ha1
          refine ⟨hz.1, hz.2, ⟨1, 0, u.next, false, true, false⟩, ?_, rfl, rfl⟩
          show (u.cells ++ [_])[u.cells.length]? = _
          simp
        · simp at ha
  obtain ⟨k1, k2, k3⟩ := key
  unfold cnt at k1 k2
  rw [List.count_eq_zero] at k1 k2
  exact ⟨k1, k2, k3⟩

example : ∃ s, init 2 2 = some s ∧ legalOps specStep legal (specInit 2 2) [.alloc, .alloc, .watch 0, .destroy 0, .destroy 1] ∧
    (allocate (runOps step s [.alloc, .alloc, .watch 0, .destroy 0, .destroy 1]).1).map (·.2) = some (some 1, false, false) :=
  ⟨_, rfl, by simp [legalOps, legal, specStep, specInit, alive, owners, inUse, watchers], by decide⟩

/-- C37: the number of blocks ever used, and so the number in use, never exceeds the maximum -/
theorem C37_bounded {m w : Nat} {s : State} (h : init m w = some s) (os : List Op)
    (hl : legalOps specStep legal (specInit m w) os) :
    inUse (runOps specStep (specInit m w) os).1 ≤ numAllocated (runOps step s os).1 ∧ numAllocated (runOps step s os).1 ≤ m := by
  have hr := (reached h os hl).1
  have hm : ∀ t : Spec, (runOps specStep t os).1.maxBlocks = t.maxBlocks := by
    clear hl hr
    induction os with
    | nil => intro t; rfl
    | cons o os ih =>
      intro t
      refine (ih (specStep t o).1).trans ?_
      cases o <;> simp only [specStep] <;> (try split) <;> rfl
  have h1 := hr.inv.used
  have h2 := hr.inv.alloc
  have h3 := hr.inv.le
  rw [← inUse_eq hr] at h1
  rw [← hr.maxBlocks, hm] at h3
  have h3' : (runOps step s os).1.allocated ≤ m := h3
  refine ⟨?_, ?_⟩
  · show _ ≤ List.countP _ _
    omega
  · show List.countP _ _ ≤ m
    omega

/-- C37: `getOutstandingAllocatedObjects` lists exactly the objects from the allocator that somebody owns, each once -/
theorem C37_outstanding {m w : Nat} {s : State} (h : init m w = some s) (os : List Op)
    (hl : legalOps specStep legal (specInit m w) os) :
    (outstanding (runOps step s os).1).Perm
      ((runOps specStep (specInit m w) os).1.pool.filter fun o => decide (0 < owners (runOps specStep (specInit m w) os).1 o)) := by
  have hr := (reached h os hl).1
  generalize (runOps specStep (specInit m w) os).1 = t at hr ⊢
  generalize (runOps step s os).1 = u at hr ⊢
  unfold outstanding
  rw [List.perm_ext_iff_of_nodup]
  · intro o
    rw [List.mem_filter, List.mem_map]
    constructor
    · rintro ⟨x, hx, rfl⟩
      rw [List.mem_filter] at hx
      obtain ⟨hx, hp⟩ := hx
      simp at hp
      obtain ⟨c, hc, hcx⟩ := List.getElem_of_mem hx
      have hcell : u.cells[c]? = some x := by rw [List.getElem?_eq_getElem hc, hcx]
      refine ⟨(hr.pool c x hcell).mp hp.1, ?_⟩
      rw [owners_eq hr hcell]
      have := (hr.inv.cell c x hcell).count
      apply decide_eq_true
      apply Nat.pos_of_ne_zero
      intro hz
      rw [if_pos hz] at this
      omega
    · rintro ⟨ho, hh⟩
      have hh := of_decide_eq_true hh
      obtain ⟨c, x, hx, rfl, hf⟩ := held_obj hr (show 0 < owners t o + watchers t o by omega)
      refine ⟨x, ?_, rfl⟩
      rw [List.mem_filter]
      refine ⟨List.mem_of_getElem? hx, ?_⟩
      rw [owners_eq hr hx] at hh
      have := (hr.inv.cell c x hx).count
      rw [if_neg (by omega)] at this
      simp only [(hr.pool c x hx).mpr ho, Bool.true_and, decide_eq_true_eq]
      omega
  · exact List.Nodup.sublist (List.Sublist.map _ List.filter_sublist) (objs_nodup hr.inv)
  · exact List.Nodup.sublist List.filter_sublist hr.poolNodup

/-- C37: in such a history an allocation fails exactly if all blocks are in use, and the counters of the allocator are as
specified (`specStep`): `getNumAllocated` is the largest number of blocks in use at once so far, `getNumFree` is what of these
is not in use, `hasOutstandingObjects` says whether any block is in use -/
theorem C37_allocator {m w : Nat} {s : State} (h : init m w = some s) (os : List Op)
    (hl : legalOps specStep legal (specInit m w) os) :
    let t := (runOps specStep (specInit m w) os).1
    (∃ ok warn over, (step (runOps step s os).1 .alloc).2 = .alloc ok warn over ∧ (ok = true ↔ inUse t < m)) ∧
    (step (runOps step s os).1 .numAllocated).2 = .num t.peak ∧
    (step (runOps step s os).1 .numFree).2 = .num ((t.peak : Int) - inUse t) ∧
    (step (runOps step s os).1 .hasOutstanding).2 = .flag (decide (0 < inUse t)) := by
  have hr := (reached h os hl).1
  have hm : (runOps specStep (specInit m w) os).1.maxBlocks = m := by
    have : ∀ t : Spec, (runOps specStep t os).1.maxBlocks = t.maxBlocks := by
      clear hl hr
      induction os with
      | nil => intro t; rfl
      | cons o os ih =>
        intro t
        refine (ih (specStep t o).1).trans ?_
        cases o <;> simp only [specStep] <;> (try split) <;> rfl
    exact this _
  refine ⟨?_, (rep_step _ _ .numAllocated hr trivial).2, (rep_step _ _ .numFree hr trivial).2, (rep_step _ _ .hasOutstanding hr trivial).2⟩
  rw [(rep_step _ _ .alloc hr trivial).2]
  simp only [specStep]
  split
  · rename_i hc
    exact ⟨_, _, _, rfl, by rw [hm] at hc; simp [hc]⟩
  · rename_i hc
    exact ⟨_, _, _, rfl, by rw [hm] at hc; simp [hc]⟩

/-- C37: a watermark above the maximum is rejected -/
theorem C37_watermark (m w : Nat) : (init m w).isSome ↔ w ≤ m := by
  unfold init
  split <;> simp_all

/-- violation: with a watermark equal to the maximum the custom over-allocation callback is never called when memory runs out -/
theorem C37_callback_violated (m : Nat) (s : State) (h : init m m = some s) (os : List Op)
    (hl : legalOps specStep legal (specInit m m) os) (warn over : Bool)
    (ha : (step (runOps step s os).1 .alloc).2 = .alloc false warn over) : over = false := by
  have hr := (reached h os hl).1
  have hm : ∀ t : Spec, (runOps specStep t os).1.maxBlocks = t.maxBlocks ∧ (runOps specStep t os).1.waterMark = t.waterMark := by
    clear hl hr ha
    induction os with
    | nil => intro t; exact ⟨rfl, rfl⟩
    | cons o os ih =>
      intro t
      obtain ⟨e1, e2⟩ := ih (specStep t o).1
      refine ⟨e1.trans ?_, e2.trans ?_⟩ <;> cases o <;> simp only [specStep] <;> (try split) <;> rfl
  rw [(rep_step _ _ .alloc hr trivial).2] at ha
  simp only [specStep] at ha
  split at ha
  · simp at ha
  · simp only [Out.alloc.injEq] at ha
    rw [← ha.2.2, (hm _).1, (hm _).2]
    simp [specInit]

example : outputs 1 1 [.alloc, .alloc] = some [.alloc true false false, .alloc false false false] := by decide

example : outputs 2 0 [.alloc, .alloc, .alloc, .destroy 0, .alloc, .alloc] =
    some [.alloc true false false, .alloc true true false, .alloc false false true, .unit, .alloc true false false,
      .alloc false false true] := by decide

/-- violation: if the constructor of an object throws while a block is used again, the block is lost: it is reported as
outstanding although no object is there, and the next allocation fails although nothing is in use -/
theorem C37_throwing_constructor_violated :
    ∃ s, init 1 1 = some s ∧
      let u := allocFail (runOps step s [.alloc, .destroy 0]).1
      u.shared = [none] ∧ (outstanding u).length = 1 ∧ (step u .hasOutstanding).2 = .flag true ∧
      (step u .alloc).2 = .alloc false false false :=
  ⟨_, rfl, by decide⟩

end Sparta.SharedPtr
