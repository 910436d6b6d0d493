import Verif.FastList.Lemmas
/-! Property C23: FastList. -/
namespace Sparta.FastList
variable {α : Type}

/-- C23: after any history of calls (iterator arguments denoting elements) every call had the outcome of
the plain list, iteration from begin() to end() yields the plain list with every element at its own
position id, ids are pairwise different and below the capacity, size() is the length, and there is room
exactly while size() is below the capacity. The returned position of an insertion was unused before. -/
theorem C23_fastlist (n : Nat) (l : L α) (h : L.init α n = some l) (os : List (Op α))
    (ok : legalOps Spec.step Spec.legal (Spec.init α n) os) :
    let m := (runOps L.step l os).1
    let s := (runOps Spec.step (Spec.init α n) os).1
    (runOps L.step l os).2 = (runOps Spec.step (Spec.init α n) os).2
      ∧ m.contents = s.items.map (fun p => (p.1, some p.2))
      ∧ m.size = s.items.length ∧ m.size ≤ n
      ∧ (s.items.map Prod.fst).Nodup ∧ (∀ p ∈ s.items, p.1 < n)
      ∧ (∀ x, (m.emplaceBack x = none ↔ m.size = n) ∧ (m.emplaceFront x = none ↔ m.size = n)) := by
  intro m s
  have hr := (Rep.init h).run os ok
  have r : Rep m s := hr.1
  have hcap : s.cap = n := by
    have : ∀ (os : List (Op α)) (t : Spec α), (runOps Spec.step t os).1.cap = t.cap := by
      intro os t
      refine runOps_invariant Spec.step (fun u => u.cap = t.cap) ?_ t rfl os
      intro u o hu
      have hi : ∀ i x, (u.insertAt i x).1.cap = u.cap := by
        intro i x; unfold Spec.insertAt; split <;> rfl
      cases o with
      | insert p x => cases p <;> simp only [Spec.step, hi] <;> exact hu
      | pushFront x => simp only [Spec.step, hi]; exact hu
      | pushBack x => simp only [Spec.step, hi]; exact hu
      | popFront => simp only [Spec.step]; split <;> exact hu
      | popBack => simp only [Spec.step]; split <;> exact hu
      | erase k => exact hu
      | clear => exact hu
    exact this os _
  have hlen : s.ids.length = s.items.length := by simp [Spec.ids]
  have hl := r.len
  have key : m.freeHead = none ↔ m.size = n := by
    rw [r.fhead, List.getElem?_eq_none_iff, r.size]
    omega
  refine ⟨hr.2, r.contents, r.size, by rw [r.size]; omega, r.nodup, ?_, fun x => ⟨?_, ?_⟩⟩
  · intro p hp; rw [← hcap]; exact r.lt p.1 (Or.inl (List.mem_map_of_mem hp))
  · rw [← key]; simp [L.emplaceBack]
  · rw [← key]; simp [L.emplaceFront]

/-- C23: no operation disturbs another element: whatever the call, every element that is neither erased nor
cleared by it keeps its position id and value, and an insertion adds exactly its own element at a position
id that was not in use. -/
theorem C23_fastlist_stable (n : Nat) (l : L α) (h : L.init α n = some l) (os : List (Op α)) (o : Op α)
    (ok : legalOps Spec.step Spec.legal (Spec.init α n) (os ++ [o])) :
    let m := (runOps L.step l os).1
    let m' := (m.step o).1
    match o with
    | .pushFront x =>
      (∃ f, (∀ p ∈ m.contents, p.1 ≠ f) ∧ m'.contents = (f, some x) :: m.contents) ∨ m' = m
    | .pushBack x =>
      (∃ f, (∀ p ∈ m.contents, p.1 ≠ f) ∧ m'.contents = m.contents ++ [(f, some x)]) ∨ m' = m
    | .insert pos x =>
      (∃ f a b, (∀ p ∈ m.contents, p.1 ≠ f) ∧ m.contents = a ++ b ∧ m'.contents = a ++ (f, some x) :: b
        ∧ (b.head?.map Prod.fst) = pos) ∨ m' = m
    | .erase k => m'.contents = m.contents.filter (fun p => p.1 ≠ k)
    | .popFront => m'.contents = m.contents.tail
    | .popBack => m'.contents = m.contents.dropLast
    | .clear => m'.contents = [] := by
  intro m m'
  have split : ∀ (a b : List (Op α)) (s : Spec α), legalOps Spec.step Spec.legal s (a ++ b) →
      legalOps Spec.step Spec.legal s a ∧ legalOps Spec.step Spec.legal (runOps Spec.step s a).1 b := by
    intro a
    induction a with
    | nil => intro b s h; exact ⟨trivial, h⟩
    | cons o a ih => intro b s h; obtain ⟨h1, h2⟩ := ih b _ h.2; exact ⟨⟨h.1, h1⟩, h2⟩
  obtain ⟨ok1, ok2⟩ := split os [o] _ ok
  have r : Rep m (runOps Spec.step (Spec.init α n) os).1 := ((Rep.init h).run os ok1).1
  generalize (runOps Spec.step (Spec.init α n) os).1 = s at r ok2
  have r' : Rep m' (s.step o).1 := (r.step o ok2.1).1
  have hc := r.contents
  have hc' := r'.contents
  have hfresh : ∀ f, f ∈ s.free → ∀ p ∈ m.contents, p.1 ≠ f := by
    intro f hf p hp e
    rw [hc] at hp
    obtain ⟨q, hq, rfl⟩ := List.mem_map.1 hp
    exact r.disj f (e ▸ List.mem_map_of_mem hq) hf
  have hlen : s.ids.length = s.items.length := by simp [Spec.ids]
  have hnofree : s.free = [] → m.freeHead = none := by intro h; rw [r.fhead, h]; rfl
  cases o with
  | pushFront x =>
    cases hf : s.free with
    | nil => right; simp [m', L.step, L.emplaceFront, hnofree hf]
    | cons f fs =>
      left
      refine ⟨f, hfresh f (by simp [hf]), ?_⟩
      rw [hc', hc]; simp [Spec.step, Spec.insertAt, hf]
  | pushBack x =>
    cases hf : s.free with
    | nil => right; simp [m', L.step, L.emplaceBack, hnofree hf]
    | cons f fs =>
      left
      refine ⟨f, hfresh f (by simp [hf]), ?_⟩
      rw [hc', hc]; simp [Spec.step, Spec.insertAt, hf, List.insertIdx_length_self]
  | insert pos x =>
    cases hf : s.free with
    | nil => right; cases pos <;> simp [m', L.step, L.emplace, L.emplaceBack, hnofree hf]
    | cons f fs =>
      left
      cases pos with
      | none =>
        refine ⟨f, m.contents, [], hfresh f (by simp [hf]), by simp, ?_, rfl⟩
        rw [hc', hc]; simp [Spec.step, Spec.insertAt, hf, List.insertIdx_length_self]
      | some k =>
        have hp := place_get (s := s) (k := k) ok2.1
        have hlt := (List.getElem?_eq_some_iff.1 hp).1
        refine ⟨f, (s.items.take (s.place k)).map (fun p => (p.1, some p.2)),
          (s.items.drop (s.place k)).map (fun p => (p.1, some p.2)), hfresh f (by simp [hf]), ?_, ?_, ?_⟩
        · rw [hc, ← List.map_append, List.take_append_drop]
        · rw [hc']
          simp only [Spec.step, Spec.insertAt, hf]
          rw [insertIdx_split _ (by omega)]
          simp
        · rw [List.drop_eq_getElem_cons (by omega)]
          simp only [List.map_cons, List.head?_cons, Option.map_some, Option.some.injEq]
          have : s.ids[s.place k]? = some s.items[s.place k].1 := by
            simp [Spec.ids, List.getElem?_eq_getElem (show s.place k < s.items.length by omega)]
          rw [hp] at this
          exact (Option.some.inj this).symm
  | erase k =>
    have hp := place_get (s := s) (k := k) ok2.1
    have hlt := (List.getElem?_eq_some_iff.1 hp).1
    show m'.contents = m.contents.filter (fun p => decide (p.1 ≠ k))
    rw [hc', hc]
    simp only [Spec.step, Spec.removeAt]
    have key : ∀ (l : List (Nat × α)) (i : Nat), (l.map Prod.fst).Nodup → (l.map Prod.fst)[i]? = some k →
        l.eraseIdx i = l.filter (fun p => decide (p.1 ≠ k)) := by
      intro l
      induction l with
      | nil => intro i _ h; simp at h
      | cons p l ih =>
        intro i hn hi
        rw [List.map_cons, List.nodup_cons] at hn
        cases i with
        | zero =>
          simp only [List.map_cons, List.getElem?_cons_zero, Option.some.injEq] at hi
          rw [List.filter_cons_of_neg (by simp [hi]), List.eraseIdx_zero, List.tail_cons]
          symm
          rw [List.filter_eq_self]
          intro q hq
          have : q.1 ≠ p.1 := fun e => hn.1 (e ▸ List.mem_map_of_mem hq)
          rw [hi] at this; simp [this]
        | succ i =>
          simp only [List.map_cons, List.getElem?_cons_succ] at hi
          have : p.1 ≠ k := fun e => hn.1 (e ▸ List.mem_of_getElem? hi)
          rw [List.filter_cons_of_pos (by simp [this]), List.eraseIdx_cons_succ, ih i hn.2 hi]
    rw [key s.items _ r.nodup hp]
    rw [List.filter_map]
    congr 1
  | popFront =>
    show m'.contents = m.contents.tail
    rw [hc', hc]
    simp only [Spec.step]
    split
    · rename_i h0; simp [h0]
    · simp only [Spec.removeAt]
      cases hi : s.items <;> simp
  | popBack =>
    show m'.contents = m.contents.dropLast
    rw [hc', hc]
    simp only [Spec.step]
    split
    · rename_i h0; simp [h0]
    · simp only [Spec.removeAt]
      rw [List.eraseIdx_eq_take_drop_succ, List.drop_eq_nil_of_le (by omega), List.append_nil,
        ← List.map_dropLast, List.dropLast_eq_take]
  | clear =>
    show m'.contents = []
    rw [hc']; simp [Spec.step]

example : legalOps Spec.step Spec.legal (Spec.init Nat 3)
    [.pushBack 5, .pushBack 6, .insert (some 1) 7, .erase 0, .pushFront 8, .popBack] := by
  refine ⟨trivial, trivial, ?_, ?_, trivial, trivial, trivial⟩
  · show (1 : Nat) ∈ _
    decide
  · show (0 : Nat) ∈ _
    decide
example : ∃ l, L.init Nat 3 = some l ∧
    (runOps L.step l [.pushBack 5, .pushBack 6, .insert (some 1) 7, .erase 0, .pushFront 8]).1.contents
      = [(0, some 8), (2, some 7), (1, some 6)] := ⟨_, rfl, by decide⟩

end Sparta.FastList
