import Verif.Array.Lemmas
/-! C16, C17: `sparta::Array`. -/
namespace Sparta.Array
variable {α : Type}

/-- C16. For every size, both array kinds and every history of write, erase and clear: exactly the calls
that are out of range (write) or name an empty position (erase) fail; afterwards validity and contents of
every position are those of the partial map (last write or erase of that position), and numValid is the
number of occupied positions. -/
theorem C16_array_map (aged : Bool) (n : Nat) (ops : List (Op α)) :
    let a := runOps A.step (A.init α aged n) ops
    let s := runOps Spec.step (Spec.init α n) ops
    a.2 = s.2 ∧ (∀ i, a.1.isValid i = (s.1.map i).isSome) ∧ (∀ i, a.1.read i = s.1.map i) ∧
    a.1.numValid = ((List.range n).filter (fun i => (s.1.map i).isSome)).length := by
  intro a s
  obtain ⟨r, e⟩ := (Rep.init (α := α) aged n).run ops
  have hn : s.1.size = n := by
    refine runOps_invariant Spec.step (fun t => t.size = n) ?_ (Spec.init α n) rfl ops
    intro t o h
    cases o <;> simp only [Spec.step] <;> (try split) <;> exact h
  refine ⟨e, r.valid, r.read, ?_⟩
  have := count_filter r.nodup r.mem r.inRange
  have hn' : (runOps Spec.step (Spec.init α n) ops).1.size = n := hn
  rw [hn'] at this
  exact r.count.trans this

example : (runOps A.step (A.init Nat true 3)
    [.write 2 20, .write 0 5, .write 2 21, .erase 0, .erase 1, .write 3 9, .write 1 7]).2 =
    [true, true, true, true, false, false, true] ∧
    (runOps A.step (A.init Nat true 3)
    [.write 2 20, .write 0 5, .write 2 21, .erase 0, .erase 1, .write 3 9, .write 1 7]).1.getOldestIndex 0
     = some 2 := by decide

/-- C17. In an aged array getOldestIndex(k) / getYoungestIndex(k) is the k-th position in age order, for
every k below the number of valid entries, and fails otherwise; getAge(i) is the number of valid entries
older than i. `oldestFirst` orders the occupied positions by the time of their last write. -/
theorem C17_array_age (n : Nat) (ops : List (Op α)) (k : Nat) :
    let a := (runOps A.step (A.init α true n) ops).1
    let s := (runOps Spec.step (Spec.init α n) ops).1
    a.getOldestIndex k = s.oldestFirst[k]? ∧ a.getYoungestIndex k = s.youngestFirst[k]? ∧
    (∀ i, s.oldestFirst[k]? = some i → a.getAge i = some k) ∧
    (∀ i, s.map i = none → a.getAge i = none) := by
  intro a s
  have r : Rep a s := ((Rep.init (α := α) true n).run ops).1
  have ha : a.aged = true := run_aged (Rep.init (α := α) true n) ops
  refine ⟨r.oldest ha k, r.youngest ha k, ?_, ?_⟩
  · intro i hi
    obtain ⟨p, h1, h2⟩ := r.rel ha k i hi
    have hv : a.isValid i = true := by
      unfold A.isValid
      rw [r.valid, ← r.mem]; exact List.mem_reverse.1 (List.mem_of_getElem? hi)
    unfold A.getAge
    rw [if_pos ha, if_pos hv, h1, Option.map_some, h2]
  · intro i hi
    have hv : ¬ a.isValid i = true := by unfold A.isValid; rw [r.valid, hi]; simp
    unfold A.getAge
    rw [if_pos ha, if_neg hv]

/-- C17, pairwise comparison (both array kinds): for two valid entries, isYounger / isOlder tell which
one was written more recently. -/
theorem C17_array_compare (aged : Bool) (n : Nat) (ops : List (Op α)) (k l i j : Nat)
    (hi : (runOps Spec.step (Spec.init α n) ops).1.youngestFirst[k]? = some i)
    (hj : (runOps Spec.step (Spec.init α n) ops).1.youngestFirst[l]? = some j) (hne : k ≠ l) :
    let a := (runOps A.step (A.init α aged n) ops).1
    a.isYounger i j = some (decide (k < l)) ∧ a.isOlder i j = some (decide (l < k)) := by
  intro a
  have r : Rep a _ := ((Rep.init (α := α) aged n).run ops).1
  generalize (runOps Spec.step (Spec.init α n) ops).1 = s at hi hj r
  obtain ⟨hk, ek⟩ := List.getElem?_eq_some_iff.1 hi
  obtain ⟨hl, el⟩ := List.getElem?_eq_some_iff.1 hj
  have hij : i ≠ j := by
    rintro rfl
    exact hne (nodup_getElem_inj r.nodup hk hl (ek.trans el.symm))
  have pos : ∀ m, m ∈ s.youngestFirst → m < a.numEntries ∧ ∃ p, a.mem m = some p := by
    intro m hm
    have hs := (r.mem m).1 hm
    obtain ⟨x, hx⟩ := Option.isSome_iff_exists.1 hs
    obtain ⟨p, h1, _⟩ := r.pos m x hx
    exact ⟨by rw [r.size]; exact r.inRange m hs, p, h1⟩
  obtain ⟨hin, p, hp⟩ := pos i (List.mem_of_getElem? hi)
  obtain ⟨hjn, q, hq⟩ := pos j (List.mem_of_getElem? hj)
  have habs := List.pairwise_iff_getElem.1 r.abs
  unfold A.isYounger A.isOlder
  rw [if_pos ⟨hij, hin, hjn⟩, if_pos ⟨hij, hin, hjn⟩, hp, hq]
  simp only [Option.bind_some, Option.map_some, Option.some.injEq]
  rcases Nat.lt_or_gt_of_ne hne with h | h
  · have := habs k l hk hl h p q (by rw [ek]; exact hp) (by rw [el]; exact hq)
    simp only [h, decide_true, decide_eq_true_eq, decide_eq_decide]
    omega
  · have := habs l k hl hk h q p (by rw [el]; exact hq) (by rw [ek]; exact hp)
    simp only [h, decide_true, decide_eq_true_eq, decide_eq_decide]
    omega

example : (runOps Spec.step (Spec.init Nat 3) [.write 2 20, .write 0 5]).1.youngestFirst[0]? = some 0 ∧
  (runOps Spec.step (Spec.init Nat 3) [.write 2 20, .write 0 5]).1.youngestFirst[1]? = some 2 := by decide

/-- C17, iteration: starting at abegin(), k increments of the aged iterator reach the k-th oldest entry and
numValid increments reach aend(). -/
theorem C17_array_aged_iteration (n : Nat) (ops : List (Op α)) (fuel k : Nat) :
    let a := (runOps A.step (A.init α true n) ops).1
    let s := (runOps Spec.step (Spec.init α n) ops).1
    let it := k.repeat (fun o => o.bind (a.aincr (fuel + 1))) a.abegin
    (∀ h : k < s.oldestFirst.length, it = some s.oldestFirst[k]) ∧
    (k = s.oldestFirst.length → it = some a.invalidEntry) := by
  intro a s it
  have r : Rep a s := ((Rep.init (α := α) true n).run ops).1
  have ha : a.aged = true := run_aged (Rep.init (α := α) true n) ops
  have hlen : s.oldestFirst.length = s.youngestFirst.length := List.length_reverse
  have hnd : s.oldestFirst.Nodup := nodup_reverse r.nodup
  have hb : ∀ h : 0 < s.oldestFirst.length, a.abegin = some s.oldestFirst[0] := by
    intro h
    unfold A.abegin
    rw [if_pos (by rw [r.count]; omega), r.oldest ha, List.getElem?_eq_getElem h]
  have hvalid : ∀ i ∈ s.oldestFirst, a.isValid i = true ∧ i < a.numEntries := by
    intro i hi
    have hs := (r.mem i).1 (List.mem_reverse.1 hi)
    exact ⟨by unfold A.isValid; rw [r.valid]; exact hs, by rw [r.size]; exact r.inRange i hs⟩
  -- one increment
  have hstep : ∀ k (h : k < s.oldestFirst.length), a.aincr (fuel + 1) s.oldestFirst[k] =
      if h' : k + 1 < s.oldestFirst.length then some s.oldestFirst[k + 1] else some a.invalidEntry := by
    intro k h
    have hk : s.youngestFirst.length - 1 - k < s.youngestFirst.length := by omega
    have hel : s.oldestFirst[k] = s.youngestFirst[s.youngestFirst.length - 1 - k] := by
      simp only [Spec.oldestFirst, List.getElem_reverse]
    have hv := hvalid _ (List.getElem_mem h)
    have hnext : a.getNextOldestIndex s.oldestFirst[k] =
        if h' : k + 1 < s.oldestFirst.length then some s.oldestFirst[k + 1] else none := by
      unfold A.getNextOldestIndex
      rw [r.list ha, hel, beforeOrLast_at _ _ _ hk r.nodup]
      by_cases hlast : k + 1 < s.oldestFirst.length
      · rw [dif_neg (by omega), dif_pos hlast]
        simp only [Spec.oldestFirst, List.getElem_reverse]
        congr 2
      · rw [dif_pos (by omega), dif_neg hlast]
    unfold A.aincr
    rw [if_neg (by unfold A.invalidEntry; omega), hnext, hb (by omega)]
    by_cases hlast : k + 1 < s.oldestFirst.length
    · simp only [dif_pos hlast, Option.bind_some]
      have hne : s.oldestFirst[k + 1] ≠ s.oldestFirst[0] := by
        intro e; have := nodup_getElem_inj hnd hlast (by omega) e; omega
      have hv' := hvalid _ (List.getElem_mem hlast)
      rw [if_neg hne, if_pos ⟨by unfold A.invalidEntry; omega, hv'.1⟩]
    · simp only [dif_neg hlast]
      rw [r.oldest ha, List.getElem?_eq_getElem (by omega), Option.bind_some, Option.bind_some, if_pos rfl]
  have main : ∀ k (h : k < s.oldestFirst.length),
      k.repeat (fun o => o.bind (a.aincr (fuel + 1))) a.abegin = some s.oldestFirst[k] := by
    intro k
    induction k with
    | zero => intro h; exact hb h
    | succ k ih =>
      intro h
      rw [Nat.repeat, ih (by omega), Option.bind_some, hstep k (by omega), dif_pos h]
  refine ⟨main k, ?_⟩
  intro h
  by_cases h0 : s.oldestFirst.length = 0
  · have : k = 0 := by omega
    show k.repeat _ _ = _
    rw [this]
    show a.abegin = _
    unfold A.abegin
    rw [if_neg (by rw [r.count]; omega)]
  · obtain ⟨j, rfl⟩ : ∃ j, k = j + 1 := ⟨k - 1, by omega⟩
    show Nat.repeat _ (j + 1) _ = _
    rw [Nat.repeat, main j (by omega), Option.bind_some, hstep j (by omega), dif_neg (by omega)]

end Sparta.Array
