import Verif.Queue.Lemmas
/-! C11, C12: `sparta::Queue`. -/
namespace Sparta.Queue
variable {α : Type}

/-- C11. For every capacity up to 2^30 (so that the storage size fits `uint32_t`) and every sequence of
push / pop / pop_back / clear calls (including calls that throw), exactly the calls the bounded list
rejects throw, and afterwards size, front, back and every indexed read agree with the list; reads outside
`[0,size)` and front/back of an empty queue throw. -/
theorem C11_queue_fifo (n : Nat) (hn : n ≤ 2 ^ 30) (ops : List (Op α)) :
    let q := runOps Q.step (Q.init α n) ops
    let s := runOps Spec.step (Spec.init α n) ops
    q.2 = s.2 ∧ q.1.totalValid = s.1.items.length ∧ q.1.totalValid ≤ n ∧
    (∀ i, q.1.read i = (s.1.items[i]?).map (·.2)) ∧
    q.1.front = s.1.items.head?.map (·.2) ∧ q.1.back = s.1.items.getLast?.map (·.2) := by
  intro q s
  obtain ⟨r, e⟩ := (Rep.init (α := α) n hn).run ops
  have hc : s.1.cap = n := by
    refine runOps_invariant Spec.step (fun t => t.cap = n) ?_ (Spec.init α n) rfl ops
    intro t o h
    cases o <;> simp only [Spec.step] <;> (try split) <;> exact h
  refine ⟨e, r.len, ?_, r.read, r.front, r.back⟩
  have h1 := r.len
  have h2 := r.lenLe
  show (runOps Q.step (Q.init α n) ops).1.totalValid ≤ n
  rw [h1]; exact Nat.le_trans h2 (Nat.le_of_eq hc)

-- hypotheses are met by a real history that wraps, throws and clears
example : (runOps Q.step (Q.init Nat 2)
    [.push 1, .push 2, .push 3, .pop, .push 4, .popBack, .push 5]).2 =
    [true, true, false, true, true, true, true] ∧
    (runOps Q.step (Q.init Nat 2)
    [.push 1, .push 2, .push 3, .pop, .push 4, .popBack, .push 5]).1.read 1 = some 5 := by decide

/-- C12 (part about fewer than 2^32 pushes). The iterator returned by an accepted push of `x` (the k-th
accepted push) is valid after any later history exactly while that element is still in the queue, and then
it dereferences to `x`; when the element has left, dereferencing throws, no matter what has since been
stored in the same place. Missing: histories with 2^32 or more pushes, where the claim is false, see
`C12_queue_iterator_violated`. -/
theorem C12_queue_iterator_partial (n : Nat) (hn : n ≤ 2 ^ 30) (ops1 : List (Op α)) (x : α)
    (q' : Q α) (it : Iter) (hpush : (runOps Q.step (Q.init α n) ops1).1.push x = some (q', it))
    (ops2 : List (Op α))
    (hlt : (runOps Spec.step (Spec.init α n) (ops1 ++ .push x :: ops2)).1.pushes < 2 ^ 32) :
    let k := (runOps Spec.step (Spec.init α n) ops1).1.pushes + 1
    let q := (runOps Q.step q' ops2).1
    let s := (runOps Spec.step (Spec.init α n) (ops1 ++ .push x :: ops2)).1
    (q.iterValid it = true ↔ (k, x) ∈ s.items) ∧
    q.deref it = if q.iterValid it then some x else none := by
  intro k q s
  obtain ⟨r, _⟩ := (Rep.init (α := α) n hn).run ops1
  obtain ⟨hlen, hit, hq', ht⟩ := Tracks.pushed r x hpush
  have r1 := (r.step (.push x)).1
  rw [hq'] at r1
  have hs : s = (runOps Spec.step ((runOps Spec.step (Spec.init α n) ops1).1.step (.push x)).1 ops2).1 := by
    show (runOps Spec.step (Spec.init α n) (ops1 ++ .push x :: ops2)).1 = _
    rw [runOps_append]; rfl
  have r2 := (r1.run ops2).1
  have t2 := ht.run r1 ops2
  rw [← hs] at r2 t2
  have hk : k ≤ s.pushes := t2.2.1
  have hit' : it = ⟨(runOps Q.step (Q.init α n) ops1).1.write, k⟩ := by
    rw [hit, Iter.mk', r.obj, Nat.mod_eq_of_lt]
    exact Nat.lt_of_le_of_lt hk hlt
  -- the element numbered k can only be x
  have huniq : ∀ y, (k, y) ∈ s.items → y = x := by
    have inv : ∀ (os : List (Op α)) (t : Spec α), k ≤ t.pushes → (∀ y, (k, y) ∈ t.items → y = x) →
        ∀ y, (k, y) ∈ (runOps Spec.step t os).1.items → y = x := by
      intro os
      induction os with
      | nil => intro t _ h; exact h
      | cons o os ih =>
        intro t hk h
        refine ih (t.step o).1 (Nat.le_trans hk (Spec.pushes_mono t [o])) ?_
        intro y hy
        cases o with
        | push z =>
          simp only [Spec.step] at hy
          split at hy
          · exact h y hy
          · simp only [List.mem_append, List.mem_singleton, Prod.mk.injEq] at hy
            rcases hy with hy | hy
            · exact h y hy
            · omega
        | pop =>
          simp only [Spec.step] at hy
          split at hy
          · exact h y hy
          · exact h y (List.mem_of_mem_tail hy)
        | popBack =>
          simp only [Spec.step] at hy
          split at hy
          · exact h y hy
          · exact h y (List.dropLast_subset _ hy)
        | clear => simp [Spec.step] at hy
    rw [hs]
    refine inv ops2 _ (by simp [Spec.step, if_neg hlen, k]) ?_
    intro y hy
    simp only [Spec.step, if_neg hlen, List.mem_append, List.mem_singleton, Prod.mk.injEq] at hy
    rcases hy with hy | hy
    · have := r.bound _ hy
      simp only [k] at this; omega
    · exact hy.2
  have hv : q.iterValid it = true ↔ (k, x) ∈ s.items := by
    rw [hit']
    refine (valid_iff r2 t2).trans ⟨?_, fun h => ⟨x, h⟩⟩
    rintro ⟨y, hy⟩
    rw [← huniq y hy]; exact hy
  refine ⟨hv, ?_⟩
  by_cases h : q.iterValid it = true
  · rw [if_pos h, hit']; exact deref_eq r2 t2 x (hv.1 h)
  · rw [if_neg h]; simp [Q.deref, h]

-- an iterator whose slot was reused is detected as stale; the new one is valid
example :
    ((Q.init Nat 1).push 7).map (fun p =>
      ((runOps Q.step p.1 [.popBack, .push 8]).1.iterValid p.2, p.1.deref p.2)) =
    some (false, some 7) := by decide

/-- C12, iteration: starting from `begin()`, `k` increments reach the k-th oldest element, and `size`
increments reach `end()`. -/
theorem C12_queue_iteration_partial (n : Nat) (hn : n ≤ 2 ^ 30) (ops : List (Op α))
    (hlt : (runOps Spec.step (Spec.init α n) ops).1.pushes < 2 ^ 32) (k : Nat) :
    let q := (runOps Q.step (Q.init α n) ops).1
    let s := (runOps Spec.step (Spec.init α n) ops).1
    let it := k.repeat (fun o => o.bind q.incIter) q.begin
    (∀ h : k < s.items.length, it.bind q.deref = some s.items[k].2) ∧
    (k = s.items.length → it.map Iter.phys = some q.endIter.phys ∧ it.bind q.deref = none) := by
  intro q s it
  have r : Rep q s := ((Rep.init (α := α) n hn).run ops).1
  have main : ∀ k (h : k < s.items.length), k.repeat (fun o => o.bind q.incIter) q.begin =
      some ⟨(q.head + k) % q.vectorSize, s.items[k].1⟩ := by
    intro k
    induction k with
    | zero =>
      intro h
      rw [Nat.repeat, Nat.add_zero, Nat.mod_eq_of_lt r.headLt]; exact begin_eq r hlt h
    | succ k ih =>
      intro h
      rw [Nat.repeat, ih (by omega), Option.bind_some, incIter_eq r k _ (by omega), dif_pos h]
  constructor
  · intro h
    show (k.repeat (fun o => o.bind q.incIter) q.begin).bind q.deref = _
    rw [main k h, Option.bind_some]
    exact deref_eq r (Tracks.idx r k h) _ (List.getElem_mem h)
  · intro h
    have hend : it.map Iter.phys = some q.invalidIndex := by
      by_cases h0 : s.items.length = 0
      · have hk : k = 0 := by omega
        have hb : q.begin = some q.endIter := by unfold Q.begin; rw [if_pos (by rw [r.len]; exact h0)]
        show (k.repeat (fun o => o.bind q.incIter) q.begin).map Iter.phys = _
        rw [hk, Nat.repeat, hb]; rfl
      · obtain ⟨j, rfl⟩ : ∃ j, k = j + 1 := ⟨k - 1, by omega⟩
        show (Nat.repeat (fun o => o.bind q.incIter) (j + 1) q.begin).map Iter.phys = _
        rw [Nat.repeat, main j (by omega), Option.bind_some, incIter_eq r j _ (by omega), dif_neg (by omega)]
        rfl
    refine ⟨hend, ?_⟩
    cases hi : it with
    | none => rfl
    | some i =>
      rw [hi] at hend
      simp only [Option.map_some, Option.some.injEq] at hend
      simp [Q.deref, Q.iterValid, hend]

/-- C12, iteration backwards: starting from `end()`, `k + 1` decrements reach the element with `k` younger ones, and
decrementing `begin()` throws. -/
theorem C12_queue_backwards_partial (n : Nat) (hn : n ≤ 2 ^ 30) (ops : List (Op α))
    (hlt : (runOps Spec.step (Spec.init α n) ops).1.pushes < 2 ^ 32) (k : Nat) :
    let q := (runOps Q.step (Q.init α n) ops).1
    let s := (runOps Spec.step (Spec.init α n) ops).1
    let it := (k + 1).repeat (fun o => o.bind q.decIter) (some q.endIter)
    (∀ h : k < s.items.length, it.bind q.deref = some (s.items[s.items.length - 1 - k]'(by omega)).2) ∧
    (0 < s.items.length → q.begin.bind q.decIter = none) := by
  intro q s it
  have r : Rep q s := ((Rep.init (α := α) n hn).run ops).1
  have main : ∀ k (h : k < s.items.length), (k + 1).repeat (fun o => o.bind q.decIter) (some q.endIter) =
      some ⟨(q.head + (s.items.length - 1 - k)) % q.vectorSize, (s.items[s.items.length - 1 - k]'(by omega)).1⟩ := by
    intro k
    induction k with
    | zero =>
      intro h
      have := decEnd_eq r h
      simpa [Nat.repeat] using this
    | succ k ih =>
      intro h
      rw [Nat.repeat, ih (by omega), Option.bind_some, decIter_eq r _ _ (by omega), dif_pos (by omega)]
      congr 2
  constructor
  · intro h
    show ((k + 1).repeat (fun o => o.bind q.decIter) (some q.endIter)).bind q.deref = _
    rw [main k h, Option.bind_some]
    exact deref_eq r (Tracks.idx r _ (by omega)) _ (List.getElem_mem _)
  · intro h
    rw [begin_eq r hlt h, Option.bind_some]
    unfold Q.decIter
    rw [if_pos rfl]

example : let q := (runOps Q.step (Q.init Nat 4) [.push 1, .push 2, .pop, .push 3, .push 4]).1
    ((1).repeat (fun o : Option Iter => o.bind q.decIter) (some q.endIter)).bind q.deref = some 4 ∧
    ((3).repeat (fun o : Option Iter => o.bind q.decIter) (some q.endIter)).bind q.deref = some 2 ∧
    ((4).repeat (fun o : Option Iter => o.bind q.decIter) (some q.endIter)) = none := by decide

/-- the model run by which the 32-bit id wraps: `k` times push then pop on a queue of one entry -/
def churn (k : Nat) : List (Op Nat) := (List.replicate k [Op.push 0, Op.pop]).flatten

/-- C12 is violated by the code for long histories: on a queue with one entry, after 2^32 - 1 push/pop
pairs, the iterator returned by the next (successful) push of 7 is already invalid although 7 is the front
element. -/
theorem C12_queue_iterator_violated (m : Nat) (hm32 : m = 2 ^ 32 - 1) :
    ∃ q' it, (runOps Q.step (Q.init Nat 1) (churn m)).1.push 7 = some (q', it) ∧
      q'.front = some 7 ∧ q'.iterValid it = false ∧ q'.deref it = none := by
  have key : ∀ k, (runOps Spec.step (Spec.init Nat 1) (churn k)).1 = ⟨1, [], k⟩ := by
    intro k
    induction k with
    | zero => rfl
    | succ k ih =>
      have : churn (k + 1) = churn k ++ [Op.push 0, Op.pop] := by
        simp [churn, List.replicate_succ']
      rw [this, runOps_append, ih]; rfl
  obtain ⟨r, _⟩ := (Rep.init (α := Nat) 1 (by omega)).run (churn m)
  rw [key] at r
  generalize (runOps Q.step (Q.init Nat 1) (churn m)).1 = q at r
  obtain ⟨q', h1, h2, h3, r'⟩ := r.push 7 (by simp)
  refine ⟨q', _, h1, by rw [r'.front]; rfl, ?_⟩
  have hw : q.write = q.head := by
    rw [r.write]; simp [Nat.mod_eq_of_lt r.headLt]
  have hm : q'.mem q.head = some ⟨some 7, m + 1⟩ := by
    have := r'.mem 0 (by simp)
    rw [h2, h3, Nat.add_zero, Nat.mod_eq_of_lt r.headLt] at this
    rw [this]; rfl
  have hv : q'.iterValid (Iter.mk' q.write (q.objId + 1)) = false := by
    rw [hw, r.obj]
    simp only [Q.iterValid, Iter.mk', hm]
    split
    · rfl
    · split
      · rfl
      · split
        · have : (m + 1) % 2 ^ 32 = 0 := by omega
          rw [this]; simp
        · rfl
  exact ⟨hv, by simp [Q.deref, hv]⟩

end Sparta.Queue
