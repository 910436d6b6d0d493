import Verif.Buffer.Lemmas
/-! Properties C13-C15 and C69: Buffer. -/
namespace Sparta.Buffer
variable {α : Type}

/-- a Buffer of fixed capacity after some calls -/
def after (cap : Nat) (os : List (Op α)) : Buf α := (runOps Buf.step (Buf.init cap) os).1

theorem sim_init {cap : Nat} (hc : 0 < cap) : Sim (Buf.init cap : Buf α) ⟨[], cap, none⟩ :=
  ⟨[], true, true, Rep.init hc, rfl, rfl, Or.inl ⟨rfl, rfl⟩⟩

theorem legal_fixed (s : Bounded α) (hg : s.grow = none) (os : List (Op α)) : legalOps Bounded.step AtEnd s os := by
  induction os generalizing s with
  | nil => trivial
  | cons o os ih =>
    refine ⟨by cases o <;> simp [AtEnd, hg], ih _ ?_⟩
    have hr : s.room = s := by simp [Bounded.room, hg]
    cases o <;> simp only [Bounded.step, hr] <;> (try split) <;> exact hg

/-- C13: size, contents, free space and exceptions are those of a bounded list -/
theorem C13_sequence (cap : Nat) (hc : 0 < cap) (os : List (Op α)) :
    (runOps Buf.step (Buf.init cap) os).2 = (runOps Bounded.step ⟨[], cap, none⟩ os).2 :=
  (runOps_simulation_legal Buf.step Bounded.step AtEnd Sim (fun _ _ o h ho => h.step o ho) _ _ (sim_init hc) os
    (legal_fixed _ rfl os)).2

example : (runOps Buf.step (Buf.init 3) [.push 1, .push 2, .insert 0 9, .push 4, .erase 1, .read 0, .read 1, .size, .read 2]).2 =
    [.done, .done, .done, .threw, .done, .value 9, .value 2, .num 2, .threw] := by decide +kernel

theorem fixed_rep {cap : Nat} (hc : 0 < cap) (os : List (Op α)) :
    ∃ l a, Rep (after cap os) l true a ∧ (after cap os).inf = false ∧ (after cap os).cap = cap := by
  unfold after
  suffices h : ∀ b : Buf α, (∃ l a, Rep b l true a ∧ b.inf = false ∧ b.cap = cap) →
      ∃ l a, Rep (runOps Buf.step b os).1 l true a ∧ (runOps Buf.step b os).1.inf = false ∧ (runOps Buf.step b os).1.cap = cap from
    h _ ⟨[], true, Rep.init hc, rfl, rfl⟩
  refine fun b h => runOps_invariant Buf.step (fun b => ∃ l a, Rep b l true a ∧ b.inf = false ∧ b.cap = cap) ?_ b h os
  rintro b o ⟨l, a, r, hi, hcap⟩
  cases o with
  | push x =>
    have := r.pushBack (b.prepare_fixed hi) x
    simp only [Buf.step]
    split at this
    · rw [this]; exact ⟨l, a, r, hi, hcap⟩
    · obtain ⟨b', e, r', e1, e2, _⟩ := this
      rw [e]; exact ⟨_, a, r', e1.trans hi, e2.trans hcap⟩
  | insert i x =>
    have := r.insert (b.prepare_fixed hi) i x
    simp only [Buf.step]
    split at this
    · rw [this]; exact ⟨l, a, r, hi, hcap⟩
    · obtain ⟨b', e, r', e1, e2, _⟩ := this
      rw [e]; exact ⟨_, _, r', e1.trans hi, e2.trans hcap⟩
  | erase i =>
    have := r.erase i
    simp only [Buf.step]
    split at this
    · obtain ⟨b', e, r', e1, e2, _⟩ := this
      rw [e]; exact ⟨_, a, r', e1.trans hi, e2.trans hcap⟩
    · rw [this]; exact ⟨l, a, r, hi, hcap⟩
  | clear => exact ⟨[], true, Rep.clear' b r.pos, hi, hcap⟩
  | read i => exact ⟨l, a, r, hi, hcap⟩
  | size => exact ⟨l, a, r, hi, hcap⟩
  | numFree => exact ⟨l, a, r, hi, hcap⟩

/-- C14: live entries have different slots, inside the pool of `2 * cap` slots and inside the validator (`cap` flags), each
with an object in it; while there is room the next free slot exists and is not in use -/
theorem C14_no_alias (cap : Nat) (hc : 0 < cap) (os : List (Op α)) (b : Buf α) (hb : b = after cap os) :
    (∀ i < b.n, ∃ h x, b.map i = some h ∧ b.data h = some x ∧ h < cap) ∧
    (∀ i j, i < b.n → j < b.n → b.map i = b.map j → i = j) ∧
    (b.n < cap → b.free < cap ∧ ∀ i < b.n, b.map i ≠ some b.free) := by
  obtain ⟨l, a, r, hi, hcap⟩ := fixed_rep hc os
  rw [← hb] at r hcap
  have hn := r.n
  refine ⟨?_, ?_, ?_⟩
  · intro i hi
    have hi' : i < l.length := by omega
    refine ⟨l[i].1, l[i].2, ?_, r.data _ (List.getElem_mem _), ?_⟩
    · rw [r.map, List.getElem?_eq_getElem hi']; rfl
    · have := r.lt (h := l[i].1) (List.mem_map.2 ⟨_, List.getElem_mem _, rfl⟩)
      omega
  · intro i j h1 h2 he
    rw [r.map, r.map, List.getElem?_eq_getElem (by omega), List.getElem?_eq_getElem (by omega)] at he
    simp at he
    exact r.slot_inj (List.getElem?_eq_getElem (by omega)) (List.getElem?_eq_getElem (by omega)) he
  · intro h1
    obtain ⟨_, _, _, h3, h4⟩ := r.free (by omega)
    refine ⟨by omega, ?_⟩
    intro i hi he
    rw [r.map, List.getElem?_eq_getElem (by omega)] at he
    simp at he
    exact h3 (List.mem_map.2 ⟨_, List.getElem_mem _, he⟩)

example : (after 3 [.push 1, .push 2, .insert 0 9, .erase 1, .push 7]).n = 3 ∧
    (List.range 3).map (after 3 [.push 1, .push 2, .insert 0 9, .erase 1, .push 7]).map = [some 2, some 1, some 0] := by decide +kernel

/-- C15, for histories that insert only at the end (or by `push_back`): an infinite Buffer behaves like a list whose
capacity grows; growing changes nothing else.  Missing: inserting before the end. -/
theorem C15_growth_partial (cap : Nat) (hc : 0 < cap) (grow : Nat → Nat) (hg : ∀ c, c < grow c) (os : List (Op α))
    (ho : legalOps Bounded.step AtEnd ⟨[], cap, some grow⟩ os) :
    (runOps Buf.step ((Buf.init cap).makeInfinite grow) os).2 = (runOps Bounded.step ⟨[], cap, some grow⟩ os).2 := by
  refine (runOps_simulation_legal Buf.step Bounded.step AtEnd Sim (fun _ _ o h ho => h.step o ho) _ _ ?_ os ho).2
  exact ⟨[], true, true, (Rep.init hc).congr_inf grow, rfl, rfl, Or.inr ⟨rfl, rfl, rfl, hg⟩⟩

/-- C15: so adding at the end never throws. Missing: the same after inserting before the end. -/
theorem C15_never_full_partial (cap : Nat) (hc : 0 < cap) (grow : Nat → Nat) (hg : ∀ c, c < grow c) (os : List (Op α))
    (ho : legalOps Bounded.step AtEnd ⟨[], cap, some grow⟩ os) (x : α) :
    ((runOps Buf.step ((Buf.init cap).makeInfinite grow) os).1.step (.push x)).2 = .done := by
  have hs : Sim ((Buf.init cap : Buf α).makeInfinite grow) ⟨[], cap, some grow⟩ :=
    ⟨[], true, true, (Rep.init hc).congr_inf grow, rfl, rfl, Or.inr ⟨rfl, rfl, rfl, hg⟩⟩
  have h := (runOps_simulation_legal Buf.step Bounded.step AtEnd Sim (fun _ _ o h ho => h.step o ho) _ _ hs os ho).1
  rw [(h.step (.push x) (by simp [AtEnd])).2]
  have hgr : ∀ (os : List (Op α)) (s : Bounded α), s.grow = some grow → (runOps Bounded.step s os).1.grow = some grow := by
    intro os
    induction os with
    | nil => exact fun _ h => h
    | cons o os ih =>
      intro s hs
      refine ih _ ?_
      have hr : s.room.grow = some grow := by unfold Bounded.room; rw [hs]; dsimp only; split <;> first | rfl | exact hs
      cases o <;> simp only [Bounded.step] <;> (try split) <;> first | exact hr | exact hs
  have hs' := hgr os ⟨[], cap, some grow⟩ rfl
  generalize (runOps Bounded.step ⟨[], cap, some grow⟩ os).1 = s at hs'
  simp only [Bounded.step]
  rw [if_neg]
  unfold Bounded.room
  rw [hs']
  dsimp only
  have := hg s.cap
  split
  · show ¬ s.l.length = grow s.cap
    omega
  · assumption

example : (runOps Buf.step ((Buf.init 2).makeInfinite (· + 1)) [.push 1, .push 2, .erase 0, .push 3, .push 4, .push 5,
    .insert 4 6, .read 0, .read 1, .read 2, .read 3, .read 4, .numFree]).2 =
    [.done, .done, .done, .done, .done, .done, .done, .value 2, .value 3, .value 4, .value 5, .value 6, .num 0] := by decide +kernel

example : legalOps Bounded.step AtEnd ⟨[], 2, some (· + 1)⟩ [.push 1, .push 2, .erase 0, .push 3, .push 4, .push 5, .insert 4 6] := by
  simp [legalOps, AtEnd, Bounded.step, Bounded.room]

/-- an insert before the end records the new slot at the wrong place of the address map: growing then changes the contents
(9, 1, 2 becomes 1, 1, 9) -/
theorem C15_growth_violated : (runOps Buf.step ((Buf.init 3).makeInfinite (· + 1)) [.push 1, .push 2, .insert 0 9,
    .read 0, .read 1, .read 2, .push 3, .read 0, .read 1, .read 2]).2 =
    [.done, .done, .done, .value 9, .value 1, .value 2, .done, .value 1, .value 1, .value 9] := by decide +kernel

/-- growing also loses the positions: an iteration from `begin()` gets stuck at the second element -/
theorem C15_iteration_violated : ∃ b : Buf Nat,
    b = (runOps Buf.step ((Buf.init 2).makeInfinite (· + 2)) [.push 1, .push 2, .push 3]).1 ∧ b.n = 3 ∧
    b.incr b.begin = some (some 1) ∧ b.incr (some 1) = some (some 1) := ⟨_, rfl, by decide +kernel⟩

/-! ### C69: iterators -/

/-- the iterator to each entry is valid, knows its position, denotes the entry and steps to its neighbours; an iterator
to a slot not in use is invalid; iteration starts at entry 0 and, backwards from `end()`, at the last one -/
theorem C69_iterators (cap : Nat) (hc : 0 < cap) (h32 : cap < 2 ^ 32) (os : List (Op α)) (b : Buf α) (hb : b = after cap os) :
    (∀ i < b.n, b.itValid (b.map i) = true ∧ b.index (b.map i) = i ∧ b.deref (b.map i) = b.read i ∧ (b.read i).isSome ∧
      b.incr (b.map i) = some (if i + 1 < b.n then b.map (i + 1) else none) ∧
      b.decr (b.map i) = if i = 0 then none else some (b.map (i - 1))) ∧
    (∀ h, b.itValid (some h) = true ↔ ∃ i < b.n, b.map i = some h) ∧
    (∀ i < b.n, b.map i ≠ none) ∧
    (0 < b.n → b.begin = b.map 0 ∧ b.decr none = some (b.map (b.n - 1))) ∧
    (b.n = 0 → b.begin = none) := by
  obtain ⟨l, a, r, hi, hcap⟩ := fixed_rep hc os
  rw [← hb] at r hcap
  have hn := r.n
  have hle := r.le
  have hv : ∀ i < b.n, b.itValid (b.map i) = true ∧ b.index (b.map i) = i := by
    intro i hi
    have hi' : i < l.length := by omega
    rw [r.map, List.getElem?_eq_getElem hi']
    exact ⟨(r.valid _).2 (List.mem_map.2 ⟨_, List.getElem_mem _, rfl⟩), r.pidx rfl i _ (List.getElem?_eq_getElem hi')⟩
  refine ⟨?_, ?_, ?_, ?_, ?_⟩
  · intro i hi
    obtain ⟨h1, h2⟩ := hv i hi
    refine ⟨h1, h2, ?_, ?_, ?_, ?_⟩
    · unfold Buf.deref Buf.read
      rw [if_pos h1, if_pos hi]
    · rw [r.read, List.getElem?_eq_getElem (by simp; omega)]; rfl
    · unfold Buf.incr
      rw [if_pos h1, h2]
    · unfold Buf.decr
      rw [if_pos h1, h2]
      by_cases h0 : i = 0
      · subst h0
        have : u32dec 0 = 4294967295 := rfl
        rw [this, if_neg (by omega), if_neg (by omega)]; rfl
      · have : u32dec i = i - 1 := by unfold u32dec; rw [if_neg h0]
        rw [this, if_pos (by omega), if_neg h0]
  · intro h
    show b.valid h = true ↔ _
    rw [r.valid]
    constructor
    · intro hm
      obtain ⟨e, he, rfl⟩ := List.mem_map.1 hm
      obtain ⟨i, hi'⟩ := List.mem_iff_getElem?.1 he
      refine ⟨i, ?_, by rw [r.map, hi']; rfl⟩
      have := (List.getElem?_eq_some_iff.1 hi').1
      omega
    · rintro ⟨i, hi', he⟩
      rw [r.map, List.getElem?_eq_getElem (by omega)] at he
      simp at he
      exact List.mem_map.2 ⟨_, List.getElem_mem _, he⟩
  · intro i hi he
    rw [r.map, List.getElem?_eq_getElem (by omega)] at he
    cases he
  · intro h0
    constructor
    · unfold Buf.begin; rw [if_pos (by omega)]
    · unfold Buf.decr
      rw [if_neg (by simp [Buf.itValid]), if_pos (by omega)]
  · intro h0
    unfold Buf.begin; rw [if_neg (by omega)]

/-- adding an entry returns an iterator to it that was not valid before -/
theorem C69_new_entry (cap : Nat) (hc : 0 < cap) (os : List (Op α)) (b : Buf α) (hb : b = after cap os) (i : Nat) (x : α)
    (hi : i ≤ b.n) (hroom : b.n < cap) : ∃ b' h, b.insert i x = (b', some h) ∧ b.itValid (some h) = false ∧
      b'.itValid (some h) = true ∧ b'.index (some h) = i ∧ b'.deref (some h) = some x ∧
      (i = b.n → ∃ b'', b.pushBack x = (b'', some h) ∧ b''.itValid (some h) = true ∧ b''.index (some h) = i ∧ b''.deref (some h) = some x) := by
  obtain ⟨l, a, r, hinf, hcap⟩ := fixed_rep hc os
  rw [← hb] at r hcap hinf
  have hn := r.n
  obtain ⟨_, _, _, h3, _⟩ := r.free (by omega)
  have key : ∀ (b' : Buf α) a', Rep b' (l.insertIdx i (b.free, x)) true a' →
      b'.itValid (some b.free) = true ∧ b'.index (some b.free) = i ∧ b'.deref (some b.free) = some x := by
    intro b' a' r'
    have hm : (b.free, x) ∈ l.insertIdx i (b.free, x) := (List.mem_insertIdx (by omega)).2 (Or.inl rfl)
    have hv : b'.itValid (some b.free) = true := (r'.valid _).2 (List.mem_map.2 ⟨_, hm, rfl⟩)
    refine ⟨hv, ?_, ?_⟩
    · exact r'.pidx rfl i (b.free, x) (by rw [List.getElem?_insertIdx_self, if_pos (by omega)])
    · unfold Buf.deref
      rw [if_pos hv]
      exact r'.data _ hm
  have hins := r.insert (b.prepare_fixed hinf) i x
  rw [if_neg (by omega)] at hins
  obtain ⟨b', e, r', _⟩ := hins
  obtain ⟨k1, k2, k3⟩ := key b' _ r'
  refine ⟨b', b.free, e, ?_, k1, k2, k3, ?_⟩
  · cases hv : b.itValid (some b.free) with
    | false => rfl
    | true => exact absurd ((r.valid _).1 hv) h3
  · intro hin
    have hp := r.pushBack (b.prepare_fixed hinf) x
    rw [if_neg (by omega)] at hp
    obtain ⟨b'', e', r'', _⟩ := hp
    rw [show l.length = i by omega] at r''
    exact ⟨b'', e', key b'' _ r''⟩

/-- how the position of entry `i` changes; `none` if it is removed -/
def move (n i : Nat) : Op α → Option Nat
  | .insert j _ => some (if j ≤ n ∧ j ≤ i then i + 1 else i)
  | .erase j => if j = i then none else some (if j < i then i - 1 else i)
  | .clear => none
  | _ => some i

/-- an iterator stays with its entry through any call that does not remove the entry (and does not throw) and becomes
invalid when the entry is removed -/
theorem C69_follows (cap : Nat) (hc : 0 < cap) (os : List (Op α)) (b b' : Buf α) (hb : b = after cap os) (o : Op α)
    (ho : (b.step o).2 ≠ .threw) (hb' : b' = (b.step o).1) (i : Nat) (hi : i < b.n) :
    match move b.n i o with
    | some j => b'.itValid (b.map i) = true ∧ b'.index (b.map i) = j ∧ b'.deref (b.map i) = b.deref (b.map i)
    | none => b'.itValid (b.map i) = false := by
  obtain ⟨l, a, r, hinf, hcap⟩ := fixed_rep hc os
  rw [← hb] at r hcap hinf
  have hn := r.n
  have hil : i < l.length := by omega
  have hmi : b.map i = some l[i].1 := by rw [r.map, List.getElem?_eq_getElem hil]; rfl
  rw [hmi]
  have hder : ∀ (c : Buf α) l' a', Rep c l' true a' → ∀ j, l'[j]? = some l[i] →
      c.itValid (some l[i].1) = true ∧ c.index (some l[i].1) = j ∧ c.deref (some l[i].1) = some l[i].2 := by
    intro c l' a' r' j hj
    have hm := List.mem_of_getElem? hj
    have hv : c.itValid (some l[i].1) = true := (r'.valid _).2 (List.mem_map.2 ⟨_, hm, rfl⟩)
    refine ⟨hv, r'.pidx rfl j _ hj, ?_⟩
    unfold Buf.deref
    rw [if_pos hv]
    exact r'.data _ hm
  have hold := hder b l a r i (List.getElem?_eq_getElem hil)
  rw [hold.2.2]
  subst hb'
  cases o with
  | push x =>
    have hp := r.pushBack (b.prepare_fixed hinf) x
    simp only [Buf.step] at ho ⊢
    split at hp
    · simp [hp] at ho
    · obtain ⟨b'', e, r', _⟩ := hp
      rw [e]
      refine hder b'' _ _ r' i ?_
      rw [List.getElem?_insertIdx_of_lt hil, List.getElem?_eq_getElem hil]
  | insert k x =>
    have hp := r.insert (b.prepare_fixed hinf) k x
    simp only [Buf.step] at ho ⊢
    split at hp
    · simp [hp] at ho
    · obtain ⟨b'', e, r', _⟩ := hp
      rw [e]
      simp only [move]
      refine hder b'' _ _ r' _ ?_
      by_cases hk : k ≤ i
      · rw [if_pos (by omega), List.getElem?_insertIdx_of_gt (by omega), Nat.add_sub_cancel, List.getElem?_eq_getElem hil]
      · rw [if_neg (by omega), List.getElem?_insertIdx_of_lt (by omega), List.getElem?_eq_getElem hil]
  | erase k =>
    have hp := r.erase k
    simp only [Buf.step] at ho ⊢
    split at hp
    · rename_i hk
      obtain ⟨b'', e, r', _⟩ := hp
      rw [e]
      simp only [move]
      by_cases hki : k = i
      · subst hki
        rw [if_pos rfl]
        cases hv : b''.itValid (some l[k].1) with
        | false => rfl
        | true =>
          have hm := (r'.valid _).1 hv
          have hp' : (l[k].1 :: (l.eraseIdx k).map (·.1)).Perm (l.map (·.1)) := (eraseIdx_perm l hk).map _
          exact absurd hm (List.nodup_cons.1 (hp'.symm.nodup r.nodup)).1
      · rw [if_neg hki]
        simp only
        refine hder b'' _ _ r' _ ?_
        by_cases hlt : k < i
        · rw [if_pos hlt, List.getElem?_eraseIdx_of_ge (by omega), show i - 1 + 1 = i by omega, List.getElem?_eq_getElem hil]
        · rw [if_neg hlt, List.getElem?_eraseIdx_of_lt (by omega), List.getElem?_eq_getElem hil]
    · rw [hp] at ho; simp at ho
  | clear => rfl
  | read _ => exact hold
  | size => exact hold
  | numFree => exact hold

/-- erasing through an iterator erases its entry and returns the iterator to the entry after it -/
theorem C69_erase (cap : Nat) (hc : 0 < cap) (os : List (Op α)) (b : Buf α) (hb : b = after cap os) (i : Nat) (hi : i < b.n) :
    ∃ b', b.erase i = some b' ∧ b.eraseIt (b.map i) = some (b', b'.map i) ∧ b'.map i = if i + 1 < b.n then b.map (i + 1) else none := by
  obtain ⟨l, a, r, hinf, hcap⟩ := fixed_rep hc os
  rw [← hb] at r
  have hn := r.n
  have hil : i < l.length := by omega
  have hp := r.erase i
  rw [dif_pos hil] at hp
  obtain ⟨b', e, r', _, _, _, hpx⟩ := hp
  have hmi : b.map i = some l[i].1 := by rw [r.map, List.getElem?_eq_getElem hil]; rfl
  have hidx : b.index (b.map i) = i := by rw [hmi]; exact r.pidx rfl i _ (List.getElem?_eq_getElem hil)
  have hidx' : b'.index (b.map i) = i := by rw [hmi]; exact hpx.trans (r.pidx rfl i _ (List.getElem?_eq_getElem hil))
  refine ⟨b', e, ?_, ?_⟩
  · unfold Buf.eraseIt
    rw [hidx, e]
    show some (b', b'.map (b'.index (b.map i))) = _
    rw [hidx']
  · rw [r'.map, List.getElem?_eraseIdx_of_ge (Nat.le_refl _)]
    split
    · rw [r.map]
    · rw [List.getElem?_eq_none (by omega)]; rfl

/-- inserting through an iterator inserts before its entry: afterwards the new entry is at the old position and the old
entry one further -/
theorem C69_insert (cap : Nat) (hc : 0 < cap) (os : List (Op α)) (b : Buf α) (hb : b = after cap os) (i : Nat) (x : α)
    (hi : i < b.n) (hroom : b.n < cap) : ∃ b' h, b.insertIt (b.map i) x = (b', some h) ∧ b'.map i = some h ∧
      b'.read i = some x ∧ b'.map (i + 1) = b.map i ∧ b'.read (i + 1) = b.read i := by
  obtain ⟨l, a, r, hinf, hcap⟩ := fixed_rep hc os
  rw [← hb] at r hinf hcap
  have hn := r.n
  have hil : i < l.length := by omega
  have hidx : b.index (b.map i) = i := by
    rw [r.map, List.getElem?_eq_getElem hil]; exact r.pidx rfl i _ (List.getElem?_eq_getElem hil)
  have hins := r.insert (b.prepare_fixed hinf) i x
  rw [if_neg (by omega)] at hins
  obtain ⟨b', e, r', _⟩ := hins
  refine ⟨b', b.free, by unfold Buf.insertIt; rw [hidx, e], ?_, ?_, ?_, ?_⟩
  · rw [r'.map, List.getElem?_insertIdx_self, if_pos (by omega)]; rfl
  · rw [r'.read, List.getElem?_map, List.getElem?_insertIdx_self, if_pos (by omega)]; rfl
  · rw [r'.map, List.getElem?_insertIdx_of_gt (by omega), Nat.add_sub_cancel, r.map]
  · rw [r'.read, List.getElem?_map, List.getElem?_insertIdx_of_gt (by omega), Nat.add_sub_cancel, r.read, List.getElem?_map]

example : (after 4 [.push 5, .push 6, .insert 1 7]).n = 3 ∧
    (after 4 [.push 5, .push 6, .insert 1 7]).map 1 = some 2 ∧
    ((after 4 [.push 5, .push 6, .insert 1 7]).step (.erase 0)).1.index (some 2) = 0 := by decide +kernel

/-- against the documented example, an iterator to an erased entry becomes valid again when its slot is used again (here
the entry 5 is erased and 7 added: the iterator to 5 denotes 7), and erasing through a stale iterator removes another
entry instead of throwing -/
theorem C69_stale_violated : ∃ b b' : Buf Nat, b = after 2 [.push 5] ∧ b.deref (some 0) = some 5 ∧
    b' = after 2 [.push 5, .erase 0, .push 7] ∧ b'.deref (some 0) = some 7 ∧
    (∃ b'', (after 2 [.push 5, .push 6, .erase 0]).eraseIt (some 0) = some (b'', none) ∧ b''.n = 0) :=
  ⟨_, _, rfl, by decide +kernel, rfl, by decide +kernel, _, rfl, by decide +kernel⟩

/-- `insert(end(), x)` never works, although there is room: the position of `end()` is the capacity, not the size -/
theorem C69_insert_at_end_violated (cap : Nat) (hc : 0 < cap) (os : List (Op α)) (b : Buf α) (hb : b = after cap os)
    (hroom : b.n < cap) (x : α) : b.insertIt none x = (b, none) := by
  obtain ⟨l, a, r, hinf, hcap⟩ := fixed_rep hc os
  rw [← hb] at r hinf hcap
  unfold Buf.insertIt Buf.insert
  rw [b.prepare_fixed hinf]
  simp only
  rw [if_pos]
  right
  show b.n < b.cap
  omega

example : (after 2 [.push 5]).n < 2 := by decide +kernel

end Sparta.Buffer
