import Verif.Array.Spec
/-! Helper lemmas for the Array refinement. -/
namespace Sparta.Array
variable {α : Type}

/-- everything but the relative age is unchanged -/
def SameButRel (o o' : Option (Pos α)) : Prop :=
  (∀ p', o' = some p' → ∃ p, o = some p ∧ p' = { p with ageRelId := p'.ageRelId }) ∧ (o' = none → o = none)

theorem SameButRel.refl (o : Option (Pos α)) : SameButRel o o :=
  ⟨fun p' h => ⟨p', h, rfl⟩, id⟩

theorem updateRel_ok (valid : Nat → Bool) : ∀ (L : List Nat) (mem : Nat → Option (Pos α)) (s : Nat),
    L.Nodup → (∀ i ∈ L, valid i = true) → (∀ i ∈ L, ∃ p, mem i = some p) →
    ∃ m', updateRel valid mem L s = some m' ∧ (∀ i, i ∉ L → m' i = mem i) ∧
      (∀ k i, L[k]? = some i → m' i = (mem i).map (fun p => { p with ageRelId := s + k })) := by
  intro L
  induction L with
  | nil => intro mem s _ _ _; exact ⟨mem, rfl, fun _ _ => rfl, by simp⟩
  | cons x L ih =>
    intro mem s hn hv hm
    obtain ⟨p, hp⟩ := hm x (by simp)
    obtain ⟨hxL, hn'⟩ := List.nodup_cons.1 hn
    obtain ⟨m', h1, h2, h3⟩ := ih (upd mem x (some { p with ageRelId := s })) (s + 1) hn'
      (fun i hi => hv i (by simp [hi])) (by
        intro i hi
        by_cases h : i = x
        · subst h; exact ⟨_, upd_same _ _ _⟩
        · rw [upd_other _ _ h]; exact hm i (by simp [hi]))
    refine ⟨m', ?_, ?_, ?_⟩
    · simp only [updateRel, hv x (by simp), if_true, hp]; exact h1
    · intro i hi
      simp only [List.mem_cons, not_or] at hi
      rw [h2 i hi.2, upd_other _ _ hi.1]
    · intro k i hk
      cases k with
      | zero =>
        simp only [List.getElem?_cons_zero, Option.some.injEq] at hk
        subst hk
        rw [h2 x hxL, upd_same, hp]; simp
      | succ k =>
        simp only [List.getElem?_cons_succ] at hk
        have hne : i ≠ x := by
          rintro rfl
          exact hxL (List.mem_of_getElem? hk)
        rw [h3 k i hk, upd_other _ _ hne]
        have : s + 1 + k = s + (k + 1) := by omega
        rw [this]

structure Rep (a : A α) (s : Spec α) : Prop where
  size : a.numEntries = s.size
  inRange : ∀ i, (s.map i).isSome → i < s.size
  valid : ∀ i, a.valid i = (s.map i).isSome
  pos : ∀ i x, s.map i = some x → ∃ p, a.mem i = some p ∧ p.data = some x ∧
    (a.aged = true → (p.listPointer, i) ∈ a.agedList) ∧ p.ageAbsId < a.nextAgeAbsId
  list : a.aged = true → a.agedList.map (·.2) = s.youngestFirst
  listN : a.aged = false → a.agedList = []
  nodes : (a.agedList.map (·.1)).Nodup
  nodesLt : ∀ e ∈ a.agedList, e.1 < a.nextNode
  nodup : s.youngestFirst.Nodup
  mem : ∀ i, i ∈ s.youngestFirst ↔ (s.map i).isSome
  count : a.numValid = s.youngestFirst.length
  abs : s.youngestFirst.Pairwise (fun i j => ∀ p q, a.mem i = some p → a.mem j = some q →
    q.ageAbsId < p.ageAbsId)
  rel : a.aged = true → ∀ k i, s.oldestFirst[k]? = some i → ∃ p, a.mem i = some p ∧ p.ageRelId = k

theorem Rep.init (aged : Bool) (n : Nat) : Rep (A.init α aged n) (Spec.init α n) where
  size := rfl
  inRange := by intro i h; simp [Spec.init] at h
  valid := by intro i; simp [A.init, Spec.init]
  pos := by intro i x h; simp [Spec.init] at h
  list := by intro _; rfl
  listN := by intro _; rfl
  nodes := by simp [A.init]
  nodesLt := by simp [A.init]
  nodup := by simp [Spec.init]
  mem := by simp [Spec.init]
  count := rfl
  abs := by simp [Spec.init]
  rel := by intro _ k i h; simp [Spec.init, Spec.oldestFirst] at h

/-- erasing the node of index `i` removes `i` from the index list -/
theorem listErase_ok {l : List (Nat × Nat)} {node i : Nat} (hn : (l.map (·.1)).Nodup)
    (hi : (l.map (·.2)).Nodup) (h : (node, i) ∈ l) :
    ∃ l', listErase l node = some l' ∧ l'.map (·.2) = (l.map (·.2)).filter (· ≠ i) ∧
      l'.Sublist l ∧ ∀ e ∈ l, e.2 ≠ i → e ∈ l' := by
  refine ⟨l.filter (fun e => e.1 != node), ?_, ?_, List.filter_sublist, ?_⟩
  · unfold listErase
    rw [if_pos]
    simp only [List.any_eq_true, beq_iff_eq]
    exact ⟨_, h, rfl⟩
  · have key : ∀ e ∈ l, (e.1 = node ↔ e.2 = i) := by
      intro e he
      constructor
      · intro h1
        obtain ⟨a, ha, hea⟩ := List.getElem_of_mem he
        obtain ⟨b, hb, heb⟩ := List.getElem_of_mem h
        have : a = b := by
          refine nodup_getElem_inj hn (by simpa using ha) (by simpa using hb) ?_
          simp [hea, heb, h1]
        subst this
        rw [hea] at heb; rw [heb]
      · intro h1
        obtain ⟨a, ha, hea⟩ := List.getElem_of_mem he
        obtain ⟨b, hb, heb⟩ := List.getElem_of_mem h
        have : a = b := by
          refine nodup_getElem_inj hi (by simpa using ha) (by simpa using hb) ?_
          simp [hea, heb, h1]
        subst this
        rw [hea] at heb; rw [heb]
    rw [List.filter_map]
    congr 1
    apply List.filter_congr
    intro e he
    have := key e he
    simp only [Function.comp]
    by_cases h1 : e.1 = node
    · simp [h1, this.1 h1]
    · have h2 : e.2 ≠ i := fun h => h1 (this.2 h)
      simp [h1, h2]
  · intro e he hne
    rw [List.mem_filter]
    refine ⟨he, ?_⟩
    simp only [bne_iff_ne]
    intro h1
    obtain ⟨a, ha, hea⟩ := List.getElem_of_mem he
    obtain ⟨b, hb, heb⟩ := List.getElem_of_mem h
    have : a = b := by
      refine nodup_getElem_inj hn (by simpa using ha) (by simpa using hb) ?_
      simp [hea, heb, h1]
    subst this
    rw [hea] at heb; rw [heb] at hne; exact hne rfl

theorem length_filter_ne {l : List Nat} (hn : l.Nodup) {i : Nat} (h : i ∈ l) :
    (l.filter (· ≠ i)).length = l.length - 1 := by
  have : l.filter (· ≠ i) = l.erase i := by
    rw [List.Nodup.erase_eq_filter hn]
    apply List.filter_congr
    intro x _
    by_cases h : x = i <;> simp [h]
  rw [this, List.length_erase_of_mem h]

theorem filter_ne_of_not_mem {l : List Nat} {i : Nat} (h : i ∉ l) : l.filter (· ≠ i) = l := by
  rw [List.filter_eq_self]
  intro x hx
  simp only [ne_eq, decide_eq_true_eq]
  rintro rfl; exact h hx

/-- the effect of `overwrite`: index `i` is off the aged list and not counted -/
theorem Rep.overwrite {a : A α} {s : Spec α} (r : Rep a s) (i : Nat) :
    ∃ l, a.overwrite i = some { a with numValid := (s.youngestFirst.filter (· ≠ i)).length, agedList := l } ∧
      (a.aged = true → l.map (·.2) = s.youngestFirst.filter (· ≠ i)) ∧ (a.aged = false → l = []) ∧
      l.Sublist a.agedList ∧ (∀ e ∈ a.agedList, e.2 ≠ i → e ∈ l) := by
  unfold A.overwrite
  by_cases hv : a.valid i = true
  · rw [if_pos hv]
    have hs : (s.map i).isSome := by rw [← r.valid]; exact hv
    obtain ⟨x, hx⟩ := Option.isSome_iff_exists.1 hs
    obtain ⟨p, hp, _, hl, _⟩ := r.pos i x hx
    have hcnt : a.numValid - 1 = (s.youngestFirst.filter (· ≠ i)).length := by
      rw [length_filter_ne r.nodup ((r.mem i).2 hs), r.count]
    cases ha : a.aged
    · simp only [Bool.false_eq_true, if_false]
      refine ⟨a.agedList, by rw [hcnt], by simp, fun _ => r.listN ha, List.Sublist.refl _, fun e he _ => he⟩
    · simp only [if_true]
      obtain ⟨l, h1, h2, h3, h4⟩ := listErase_ok r.nodes (by rw [r.list ha]; exact r.nodup) (hl ha)
      rw [r.list ha] at h2
      refine ⟨l, ?_, fun _ => h2, by simp, h3, h4⟩
      rw [hp, Option.bind_some, h1, Option.map_some, hcnt]
  · rw [if_neg hv]
    have hs : i ∉ s.youngestFirst := by rw [r.mem, ← r.valid]; exact hv
    refine ⟨a.agedList, ?_, ?_, r.listN, List.Sublist.refl _, fun e he _ => he⟩
    · rw [filter_ne_of_not_mem hs, ← r.count]
    · intro ha; rw [filter_ne_of_not_mem hs]; exact r.list ha

theorem Rep.write {a : A α} {s : Spec α} (r : Rep a s) (i : Nat) (x : α) (hi : i < s.size) :
    ∃ a', a.write i x = some a' ∧ Rep a' (s.step (.write i x)).1 ∧ a'.aged = a.aged := by
  obtain ⟨l, ho, hl1, hl2, hl3, hl4⟩ := r.overwrite i
  unfold A.write
  rw [if_pos (by rw [r.size]; exact hi), ho, Option.bind_some]
  simp only [Spec.step, if_pos hi]
  -- facts common to both kinds
  have hno : i ∉ s.youngestFirst.filter (· ≠ i) := by simp
  have hnodup : (i :: s.youngestFirst.filter (· ≠ i)).Nodup :=
    List.nodup_cons.2 ⟨hno, r.nodup.filter _⟩
  have hmem : ∀ j, j ∈ (i :: s.youngestFirst.filter (· ≠ i)) ↔
      ((if j = i then some x else s.map j).isSome = true) := by
    intro j
    by_cases h : j = i
    · simp [h]
    · simp [h, r.mem]
  have hrange : ∀ j, ((if j = i then some x else s.map j).isSome = true) → j < s.size := by
    intro j h
    by_cases hj : j = i
    · subst hj; exact hi
    · rw [if_neg hj] at h; exact r.inRange j h
  have hvalid : ∀ j, upd a.valid i true j = (if j = i then some x else s.map j).isSome := by
    intro j
    by_cases hj : j = i
    · subst hj; simp
    · rw [upd_other _ _ hj, r.valid, if_neg hj]
  have hn1 : (l.map (·.1)).Nodup := r.nodes.sublist (hl3.map _)
  have habsf : (s.youngestFirst.filter (· ≠ i)).Pairwise (fun i j => ∀ p q, a.mem i = some p →
      a.mem j = some q → q.ageAbsId < p.ageAbsId) := r.abs.filter _
  cases ha : a.aged
  · -- NORMAL
    simp only [Bool.false_eq_true, if_false]
    refine ⟨_, rfl, ?_, rfl⟩
    constructor
    · exact r.size
    · exact hrange
    · exact hvalid
    · intro j y hj
      by_cases h : j = i
      · subst h
        simp only [if_true, Option.some.injEq] at hj
        exact ⟨_, upd_same _ _ _, by rw [hj]; rfl, by simp, Nat.lt_succ_self _⟩
      · simp only [if_neg h] at hj
        obtain ⟨p, h1, h2, h3, h4⟩ := r.pos j y hj
        exact ⟨p, (upd_other _ _ h).trans h1, h2, by simp, by simp; omega⟩
    · simp
    · intro _; exact hl2 ha
    · exact hn1
    · intro e he; exact r.nodesLt e (hl3.subset he)
    · exact hnodup
    · exact hmem
    · simp
    · rw [List.pairwise_cons]
      constructor
      · intro j hj p q hp hq
        have hji : j ≠ i := by simp at hj; exact hj.2
        simp only [upd_same, Option.some.injEq] at hp
        simp only [upd_other _ _ hji] at hq
        have hs : (s.map j).isSome := by rw [← r.mem]; exact (List.mem_filter.1 hj).1
        obtain ⟨y, hy⟩ := Option.isSome_iff_exists.1 hs
        obtain ⟨p', h1, _, _, h4⟩ := r.pos j y hy
        rw [h1] at hq; cases hq; subst hp; exact h4
      · refine habsf.imp_of_mem ?_
        intro j k hj hk h p q hp hq
        have hji : j ≠ i := by simp at hj; exact hj.2
        have hki : k ≠ i := by simp at hk; exact hk.2
        simp only [upd_other _ _ hji] at hp
        simp only [upd_other _ _ hki] at hq
        exact h p q hp hq
    · simp
  · -- AGED
    simp only [if_true]
    have hlist := hl1 ha
    have hof : (((a.nextNode, i) :: l).map (·.2)).reverse = (i :: s.youngestFirst.filter (· ≠ i)).reverse := by
      simp [hlist]
    obtain ⟨m', hm1, hm2, hm3⟩ := updateRel_ok (upd a.valid i true)
      ((i :: s.youngestFirst.filter (· ≠ i)).reverse)
      (upd a.mem i (some (newPos x a.nextNode a.nextAgeAbsId)))
      0 (nodup_reverse hnodup)
      (by intro j hj; rw [hvalid, ← hmem]; exact List.mem_reverse.1 hj)
      (by
        intro j hj
        by_cases h : j = i
        · subst h; exact ⟨_, upd_same _ _ _⟩
        · rw [upd_other _ _ h]
          have := (hmem j).1 (List.mem_reverse.1 hj)
          rw [if_neg h] at this
          obtain ⟨y, hy⟩ := Option.isSome_iff_exists.1 this
          obtain ⟨p, h1, _⟩ := r.pos j y hy
          exact ⟨p, h1⟩)
    -- shape of the memory after the write
    have hshape : ∀ j, j ∈ (i :: s.youngestFirst.filter (· ≠ i)) → ∃ k,
        m' j = (upd a.mem i (some (newPos x a.nextNode a.nextAgeAbsId)) j).map (fun p => { p with ageRelId := k }) := by
      intro j hj
      obtain ⟨k, hk⟩ := List.getElem?_of_mem (List.mem_reverse.2 hj)
      exact ⟨0 + k, hm3 k j hk⟩
    have hupd : ∀ (o : Option (Pos α)) k p, o.map (fun p => { p with ageRelId := k }) = some p →
        ∃ q, o = some q ∧ q.data = p.data ∧ q.listPointer = p.listPointer ∧ q.ageAbsId = p.ageAbsId := by
      intro o k p h
      cases o with
      | none => simp at h
      | some q => simp at h; subst h; exact ⟨q, rfl, rfl, rfl, rfl⟩
    refine ⟨_, by simp only [A.oldestFirst, hof, hm1]; rfl, ?_, rfl⟩
    constructor
    · exact r.size
    · exact hrange
    · exact hvalid
    · intro j y hj
      have hjm : j ∈ (i :: s.youngestFirst.filter (· ≠ i)) := by
        rw [hmem]; simp only at hj; rw [hj]; rfl
      obtain ⟨k, hk⟩ := hshape j hjm
      by_cases h : j = i
      · subst h
        simp only [if_true, Option.some.injEq] at hj
        rw [upd_same, Option.map_some] at hk
        exact ⟨_, hk, by rw [hj]; rfl, fun _ => List.mem_cons_self, Nat.lt_succ_self _⟩
      · simp only [if_neg h] at hj
        obtain ⟨p, h1, h2, h3, h4⟩ := r.pos j y hj
        rw [upd_other _ _ h, h1, Option.map_some] at hk
        refine ⟨_, hk, h2, ?_, by simp; omega⟩
        intro _
        exact List.mem_cons_of_mem _ (hl4 _ (h3 ha) h)
    · intro _; simp [hlist]
    · intro h; exact absurd h (by simp)
    · simp only [List.map_cons, List.nodup_cons]
      refine ⟨?_, hn1⟩
      intro h
      obtain ⟨e, he, he'⟩ := List.mem_map.1 h
      have := r.nodesLt e (hl3.subset he)
      omega
    · intro e he
      rcases List.mem_cons.1 he with h | h
      · subst h; simp
      · have := r.nodesLt e (hl3.subset h); simp; omega
    · exact hnodup
    · exact hmem
    · simp
    · rw [List.pairwise_cons]
      constructor
      · intro j hj p q hp hq
        have hji : j ≠ i := by simp at hj; exact hj.2
        obtain ⟨k1, hk1⟩ := hshape i (by simp)
        obtain ⟨k2, hk2⟩ := hshape j (List.mem_cons_of_mem _ hj)
        have hp' := hk1.symm.trans hp
        have hq' := hk2.symm.trans hq
        rw [upd_same] at hp'
        rw [upd_other _ _ hji] at hq'
        obtain ⟨p1, e1, _, _, e2⟩ := hupd _ _ _ hp'
        obtain ⟨q1, f1, _, _, f2⟩ := hupd _ _ _ hq'
        have hs : (s.map j).isSome := by rw [← r.mem]; exact (List.mem_filter.1 hj).1
        obtain ⟨y, hy⟩ := Option.isSome_iff_exists.1 hs
        obtain ⟨p', h1, _, _, h4⟩ := r.pos j y hy
        rw [h1] at f1
        cases f1
        cases e1
        rw [← e2, ← f2]; exact h4
      · refine habsf.imp_of_mem ?_
        intro j k hj hk h p q hp hq
        have hji : j ≠ i := by simp at hj; exact hj.2
        have hki : k ≠ i := by simp at hk; exact hk.2
        obtain ⟨k1, hk1⟩ := hshape j (List.mem_cons_of_mem _ hj)
        obtain ⟨k2, hk2⟩ := hshape k (List.mem_cons_of_mem _ hk)
        have hp' := hk1.symm.trans hp
        have hq' := hk2.symm.trans hq
        rw [upd_other _ _ hji] at hp'
        rw [upd_other _ _ hki] at hq'
        obtain ⟨p1, e1, _, _, e2⟩ := hupd _ _ _ hp'
        obtain ⟨q1, f1, _, _, f2⟩ := hupd _ _ _ hq'
        rw [← e2, ← f2]; exact h p1 q1 e1 f1
    · intro _ k j hk
      have h := hm3 k j hk
      have hjm : j ∈ (i :: s.youngestFirst.filter (· ≠ i)) :=
        List.mem_reverse.1 (List.mem_of_getElem? hk)
      have hne : ∃ p, upd a.mem i (some (newPos x a.nextNode a.nextAgeAbsId)) j = some p := by
        by_cases hj : j = i
        · subst hj; exact ⟨_, upd_same _ _ _⟩
        · rw [upd_other _ _ hj]
          have := (hmem j).1 hjm
          rw [if_neg hj] at this
          obtain ⟨y, hy⟩ := Option.isSome_iff_exists.1 this
          obtain ⟨p, h1, _⟩ := r.pos j y hy
          exact ⟨p, h1⟩
      obtain ⟨p, hp⟩ := hne
      rw [hp, Option.map_some] at h
      exact ⟨_, h, by simp⟩

theorem Rep.erase {a : A α} {s : Spec α} (r : Rep a s) (i : Nat) (hi : (s.map i).isSome) :
    ∃ a', a.erase i = some a' ∧ Rep a' (s.step (.erase i)).1 ∧ a'.aged = a.aged := by
  have hv : a.valid i = true := by rw [r.valid]; exact hi
  have him := (r.mem i).2 hi
  have hcnt : a.numValid - 1 = (s.youngestFirst.filter (· ≠ i)).length := by
    rw [length_filter_ne r.nodup him, r.count]
  have hpos : a.numValid > 0 := by rw [r.count]; exact List.length_pos_of_mem him
  obtain ⟨x, hx⟩ := Option.isSome_iff_exists.1 hi
  obtain ⟨p, hp, _, hl, _⟩ := r.pos i x hx
  unfold A.erase
  rw [if_pos hv, if_pos hpos]
  simp only [Spec.step, if_pos hi]
  have hno : i ∉ s.youngestFirst.filter (· ≠ i) := by simp
  have hnodup : (s.youngestFirst.filter (· ≠ i)).Nodup := r.nodup.filter _
  have hmem : ∀ j, j ∈ (s.youngestFirst.filter (· ≠ i)) ↔
      ((if j = i then none else s.map j).isSome = true) := by
    intro j
    by_cases h : j = i
    · simp [h]
    · simp [h, r.mem]
  have hrange : ∀ j, ((if j = i then none else s.map j).isSome = true) → j < s.size := by
    intro j h
    by_cases hj : j = i
    · subst hj; simp at h
    · rw [if_neg hj] at h; exact r.inRange j h
  have hvalid : ∀ j, upd a.valid i false j = (if j = i then none else s.map j).isSome := by
    intro j
    by_cases hj : j = i
    · subst hj; simp
    · rw [upd_other _ _ hj, r.valid, if_neg hj]
  have habsf : (s.youngestFirst.filter (· ≠ i)).Pairwise (fun i j => ∀ p q, a.mem i = some p →
      a.mem j = some q → q.ageAbsId < p.ageAbsId) := r.abs.filter _
  cases ha : a.aged
  · simp only [Bool.false_eq_true, if_false, Option.map_some]
    refine ⟨_, rfl, ?_, rfl⟩
    constructor
    · exact r.size
    · exact hrange
    · exact hvalid
    · intro j y hj
      by_cases h : j = i
      · subst h; simp at hj
      · simp only [if_neg h] at hj
        obtain ⟨p, h1, h2, h3, h4⟩ := r.pos j y hj
        exact ⟨p, (upd_other _ _ h).trans h1, h2, by simp, h4⟩
    · simp
    · intro _; exact r.listN ha
    · exact r.nodes
    · exact r.nodesLt
    · exact hnodup
    · exact hmem
    · exact hcnt
    · refine habsf.imp_of_mem ?_
      intro j k hj hk h p q hp hq
      have hji : j ≠ i := by simp at hj; exact hj.2
      have hki : k ≠ i := by simp at hk; exact hk.2
      simp only [upd_other _ _ hji] at hp
      simp only [upd_other _ _ hki] at hq
      exact h p q hp hq
    · simp
  · simp only [if_true]
    obtain ⟨l, h1, hlist, h3, h4⟩ := listErase_ok r.nodes (by rw [r.list ha]; exact r.nodup) (hl ha)
    rw [r.list ha] at hlist
    have hof : (l.map (·.2)).reverse = (s.youngestFirst.filter (· ≠ i)).reverse := by rw [hlist]
    obtain ⟨m', hm1, hm2, hm3⟩ := updateRel_ok a.valid
      ((s.youngestFirst.filter (· ≠ i)).reverse) a.mem
      0 (nodup_reverse hnodup)
      (by
        intro j hj
        rw [r.valid, ← r.mem]; exact (List.mem_filter.1 (List.mem_reverse.1 hj)).1)
      (by
        intro j hj
        have := (r.mem j).1 (List.mem_filter.1 (List.mem_reverse.1 hj)).1
        obtain ⟨y, hy⟩ := Option.isSome_iff_exists.1 this
        obtain ⟨p, h1, _⟩ := r.pos j y hy
        exact ⟨p, h1⟩)
    have hshape : ∀ j, j ∈ (s.youngestFirst.filter (· ≠ i)) → ∃ k,
        m' j = (a.mem j).map (fun p => { p with ageRelId := k }) := by
      intro j hj
      obtain ⟨k, hk⟩ := List.getElem?_of_mem (List.mem_reverse.2 hj)
      exact ⟨0 + k, hm3 k j hk⟩
    have hupd : ∀ (o : Option (Pos α)) k p, o.map (fun p => { p with ageRelId := k }) = some p →
        ∃ q, o = some q ∧ q.data = p.data ∧ q.listPointer = p.listPointer ∧ q.ageAbsId = p.ageAbsId := by
      intro o k p h
      cases o with
      | none => simp at h
      | some q => simp at h; subst h; exact ⟨q, rfl, rfl, rfl, rfl⟩
    simp only [hp, Option.bind_some, h1, A.oldestFirst, hof, hm1, Option.map_some]
    refine ⟨_, rfl, ?_, rfl⟩
    constructor
    · exact r.size
    · exact hrange
    · exact hvalid
    · intro j y hj
      by_cases h : j = i
      · subst h; simp at hj
      · have hjm : j ∈ (s.youngestFirst.filter (· ≠ i)) := by
          rw [hmem]; simp only at hj; rw [hj]; rfl
        simp only [if_neg h] at hj
        obtain ⟨k, hk⟩ := hshape j hjm
        obtain ⟨p, g1, g2, g3, g4⟩ := r.pos j y hj
        rw [g1, Option.map_some] at hk
        refine ⟨_, (upd_other _ _ h).trans hk, g2, ?_, g4⟩
        intro _
        exact h4 _ (g3 ha) h
    · intro _; exact hlist
    · intro h; exact absurd h (by simp)
    · exact r.nodes.sublist (h3.map _)
    · intro e he; exact r.nodesLt e (h3.subset he)
    · exact hnodup
    · exact hmem
    · exact hcnt
    · refine habsf.imp_of_mem ?_
      intro j k hj hk h p q hp hq
      have hji : j ≠ i := by simp at hj; exact hj.2
      have hki : k ≠ i := by simp at hk; exact hk.2
      simp only [upd_other _ _ hji] at hp
      simp only [upd_other _ _ hki] at hq
      obtain ⟨k1, hk1⟩ := hshape j hj
      obtain ⟨k2, hk2⟩ := hshape k hk
      obtain ⟨p1, e1, _, _, e2⟩ := hupd _ _ _ (hk1.symm.trans hp)
      obtain ⟨q1, f1, _, _, f2⟩ := hupd _ _ _ (hk2.symm.trans hq)
      rw [← e2, ← f2]; exact h p1 q1 e1 f1
    · intro _ k j hk
      have h := hm3 k j hk
      have hjm : j ∈ (s.youngestFirst.filter (· ≠ i)) :=
        List.mem_reverse.1 (List.mem_of_getElem? hk)
      have hji : j ≠ i := by simp at hjm; exact hjm.2
      obtain ⟨y, hy⟩ := Option.isSome_iff_exists.1 ((r.mem j).1 (List.mem_filter.1 hjm).1)
      obtain ⟨p, h1, _⟩ := r.pos j y hy
      rw [h1, Option.map_some] at h
      exact ⟨_, by simp only [upd_other _ _ hji]; exact h, by simp⟩

theorem Rep.clear {a : A α} {s : Spec α} (r : Rep a s) : Rep a.clear (s.step .clear).1 := by
  simp only [Spec.step]
  constructor
  · exact r.size
  · intro i h; simp at h
  · intro i; simp [A.clear]
  · intro i x h; simp at h
  · intro _; rfl
  · intro _; rfl
  · simp [A.clear]
  · simp [A.clear]
  · simp
  · simp
  · rfl
  · simp
  · intro _ k i h; simp [Spec.oldestFirst] at h

theorem Rep.step {a : A α} {s : Spec α} (r : Rep a s) (o : Op α) :
    Rep (a.step o).1 (s.step o).1 ∧ (a.step o).2 = (s.step o).2 := by
  cases o with
  | write i x =>
    by_cases h : i < s.size
    · obtain ⟨a', h1, h2, _⟩ := r.write i x h
      refine ⟨by simp only [A.step, h1]; exact h2, by simp [A.step, h1, Spec.step, h]⟩
    · have : a.write i x = none := by unfold A.write; rw [if_neg (by rw [r.size]; exact h)]
      simp only [A.step, this, Spec.step, if_neg h]; exact ⟨r, trivial⟩
  | erase i =>
    by_cases h : (s.map i).isSome = true
    · obtain ⟨a', h1, h2, _⟩ := r.erase i h
      refine ⟨by simp only [A.step, h1]; exact h2, by simp [A.step, h1, Spec.step, h]⟩
    · have : a.erase i = none := by unfold A.erase; rw [if_neg (by rw [r.valid]; exact h)]
      simp only [A.step, this, Spec.step, if_neg h]; exact ⟨r, trivial⟩
  | clear => exact ⟨r.clear, rfl⟩

theorem step_aged {a : A α} {s : Spec α} (r : Rep a s) (o : Op α) : (a.step o).1.aged = a.aged := by
  cases o with
  | write i x =>
    by_cases h : i < s.size
    · obtain ⟨a', h1, _, h2⟩ := r.write i x h
      simp only [A.step, h1]; exact h2
    · have : a.write i x = none := by unfold A.write; rw [if_neg (by rw [r.size]; exact h)]
      simp only [A.step, this]
  | erase i =>
    by_cases h : (s.map i).isSome = true
    · obtain ⟨a', h1, _, h2⟩ := r.erase i h
      simp only [A.step, h1]; exact h2
    · have : a.erase i = none := by unfold A.erase; rw [if_neg (by rw [r.valid]; exact h)]
      simp only [A.step, this]
  | clear => rfl

theorem Rep.run {a : A α} {s : Spec α} (r : Rep a s) (os : List (Op α)) :
    Rep (runOps A.step a os).1 (runOps Spec.step s os).1 ∧
      (runOps A.step a os).2 = (runOps Spec.step s os).2 :=
  runOps_simulation _ _ Rep (fun _ _ o h => h.step o) _ _ r os

theorem run_aged {a : A α} {s : Spec α} (r : Rep a s) (os : List (Op α)) :
    (runOps A.step a os).1.aged = a.aged := by
  induction os generalizing a s with
  | nil => rfl
  | cons o os ih => exact (ih (r.step o).1).trans (step_aged r o)

theorem Rep.read {a : A α} {s : Spec α} (r : Rep a s) (i : Nat) : a.read i = s.map i := by
  unfold A.read A.isValid
  rw [r.valid]
  cases h : s.map i with
  | none => simp
  | some x =>
    obtain ⟨p, h1, h2, _⟩ := r.pos i x h
    simp [h1, h2]

theorem Rep.oldest {a : A α} {s : Spec α} (r : Rep a s) (ha : a.aged = true) (k : Nat) :
    a.getOldestIndex k = s.oldestFirst[k]? := by
  unfold A.getOldestIndex
  rw [if_pos ha, r.count]
  have e : s.oldestFirst = a.agedList.reverse.map (·.2) := by
    rw [Spec.oldestFirst, ← r.list ha, List.map_reverse]
  split
  · next h =>
    have hk : k < a.agedList.reverse.length := by
      have := congrArg List.length (r.list ha)
      simp at this ⊢; omega
    rw [e, List.getElem?_map, List.getElem?_eq_getElem hk, Option.bind_some, Option.map_some]
    have hv : a.isValid (a.agedList.reverse[k]).2 = true := by
      unfold A.isValid
      rw [r.valid, ← r.mem, ← r.list ha]
      exact List.mem_map.2 ⟨_, List.mem_reverse.1 (List.getElem_mem hk), rfl⟩
    rw [if_pos hv]
  · next h =>
    rw [Spec.oldestFirst, List.getElem?_eq_none (by simp; omega)]

theorem Rep.youngest {a : A α} {s : Spec α} (r : Rep a s) (ha : a.aged = true) (k : Nat) :
    a.getYoungestIndex k = s.youngestFirst[k]? := by
  unfold A.getYoungestIndex
  rw [if_pos ha, r.count]
  split
  · next h =>
    have hk : k < a.agedList.length := by
      have := congrArg List.length (r.list ha)
      simp at this; omega
    rw [← r.list ha, List.getElem?_map, List.getElem?_eq_getElem hk, Option.bind_some, Option.map_some]
    have hv : a.isValid (a.agedList[k]).2 = true := by
      unfold A.isValid
      rw [r.valid, ← r.mem, ← r.list ha]
      exact List.mem_map.2 ⟨_, List.getElem_mem hk, rfl⟩
    rw [if_pos hv]
  · next h => rw [List.getElem?_eq_none (by omega)]

/-- spec-side membership facts used by the property statements -/
theorem count_filter {s : Spec α} (hn : s.youngestFirst.Nodup)
    (hm : ∀ i, i ∈ s.youngestFirst ↔ (s.map i).isSome = true)
    (hr : ∀ i, (s.map i).isSome → i < s.size) :
    s.youngestFirst.length = ((List.range s.size).filter (fun i => (s.map i).isSome)).length := by
  apply List.Perm.length_eq
  rw [List.perm_ext_iff_of_nodup hn (List.nodup_range.filter _)]
  intro i
  rw [List.mem_filter, List.mem_range, hm]
  exact ⟨fun h => ⟨hr i h, h⟩, fun h => h.2⟩

theorem beforeOrLast_at : ∀ (l : List Nat) (prev : Option Nat) (k : Nat) (hk : k < l.length),
    l.Nodup → beforeOrLast l[k] prev l = if h : k = 0 then prev else some (l[k - 1]'(by omega)) := by
  intro l
  induction l with
  | nil => intro _ k hk; simp at hk
  | cons y ys ih =>
    intro prev k hk hn
    obtain ⟨hny, hn'⟩ := List.nodup_cons.1 hn
    cases k with
    | zero => simp [beforeOrLast]
    | succ k =>
      simp only [List.length_cons] at hk
      have hne : y ≠ ys[k] := by
        rintro rfl; exact hny (List.getElem_mem (by omega))
      simp only [beforeOrLast, List.getElem_cons_succ, if_neg hne]
      rw [ih (some y) k (by omega) hn']
      cases k with
      | zero => simp
      | succ k => simp

end Sparta.Array
