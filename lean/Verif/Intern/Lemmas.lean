import Verif.Intern.Model
/-!
Lemmas about the map of strings.
-/
namespace Sparta.Intern

theorem str_irrefl (a : Str) : ¬ a < a := List.lt_irrefl a
theorem str_trans {a b c : Str} (h : a < b) (g : b < c) : a < c := List.lt_trans h g
theorem str_eq {a b : Str} (h : ¬ a < b) (g : ¬ b < a) : a = b := List.le_antisymm g h

abbrev Sorted (m : List (Str × Nat)) : Prop := m.Pairwise fun a b => a.1 < b.1

theorem lookup_iff : ∀ (m : List (Str × Nat)), Sorted m → ∀ s p, lookup m s = some p ↔ (s, p) ∈ m
  | [], _, s, p => by simp [lookup]
  | (k, q) :: r, hs, s, p => by
    have hs' := List.pairwise_cons.1 hs
    have ih := lookup_iff r hs'.2 s p
    unfold lookup
    by_cases h1 : k < s
    · rw [if_pos h1, ih, List.mem_cons]
      refine ⟨Or.inr, fun h => h.resolve_left ?_⟩
      intro e
      have e1 : s = k := congrArg Prod.fst e
      rw [e1] at h1
      exact str_irrefl _ h1
    · rw [if_neg h1]
      by_cases h2 : s < k
      · rw [if_pos h2]
        refine ⟨fun h => (nomatch h), fun h => ?_⟩
        rcases List.mem_cons.1 h with e | e
        · have e1 : s = k := congrArg Prod.fst e
          rw [e1] at h2
          exact absurd h2 (str_irrefl _)
        · exact absurd (str_trans h2 (hs'.1 _ e)) (str_irrefl _)
      · rw [if_neg h2]
        have e := str_eq h1 h2
        subst e
        rw [List.mem_cons]
        constructor
        · intro h
          exact Or.inl (by rw [Option.some.inj h])
        · rintro (h | h)
          · have e2 : p = q := congrArg Prod.snd h
            rw [e2]
          · exact absurd (hs'.1 _ h) (str_irrefl _)

theorem lookup_none {m : List (Str × Nat)} (hs : Sorted m) {s : Str} : lookup m s = none ↔ ∀ p, (s, p) ∉ m := by
  constructor
  · intro h p hp
    rw [(lookup_iff m hs s p).2 hp] at h
    exact nomatch h
  · intro h
    cases e : lookup m s with
    | none => rfl
    | some p => exact absurd ((lookup_iff m hs s p).1 e) (h p)

theorem mem_emplace (m : List (Str × Nat)) (s : Str) (p : Nat) (h : lookup m s = none) (x : Str × Nat) :
    x ∈ emplace m s p ↔ x = (s, p) ∨ x ∈ m := by
  induction m with
  | nil => simp [emplace]
  | cons e r ih =>
    obtain ⟨k, q⟩ := e
    unfold lookup at h
    unfold emplace
    by_cases h1 : k < s
    · rw [if_pos h1] at h ⊢
      rw [List.mem_cons, ih h, List.mem_cons]
      exact or_left_comm
    · rw [if_neg h1] at h ⊢
      by_cases h2 : s < k
      · rw [if_pos h2, List.mem_cons]
      · rw [if_neg h2] at h
        exact nomatch h

theorem sorted_emplace (m : List (Str × Nat)) (hs : Sorted m) (s : Str) (p : Nat) (h : lookup m s = none) : Sorted (emplace m s p) := by
  induction m with
  | nil => exact List.pairwise_singleton _ _
  | cons e r ih =>
    obtain ⟨k, q⟩ := e
    have hs' := List.pairwise_cons.1 hs
    unfold lookup at h
    unfold emplace
    by_cases h1 : k < s
    · rw [if_pos h1] at h ⊢
      refine List.pairwise_cons.2 ⟨?_, ih hs'.2 h⟩
      intro x hx
      rcases (mem_emplace r s p h x).1 hx with e | e
      · rw [e]; exact h1
      · exact hs'.1 _ e
    · rw [if_neg h1] at h ⊢
      by_cases h2 : s < k
      · rw [if_pos h2]
        refine List.pairwise_cons.2 ⟨?_, hs⟩
        intro x hx
        rcases List.mem_cons.1 hx with e | e
        · rw [e]; exact h2
        · exact str_trans h2 (hs'.1 _ e)
      · rw [if_neg h2] at h
        exact nomatch h

theorem length_emplace (m : List (Str × Nat)) (s : Str) (p : Nat) (h : lookup m s = none) : (emplace m s p).length = m.length + 1 := by
  induction m with
  | nil => rfl
  | cons e r ih =>
    obtain ⟨k, q⟩ := e
    unfold lookup at h
    unfold emplace
    by_cases h1 : k < s
    · rw [if_pos h1] at h ⊢
      rw [List.length_cons, ih h, List.length_cons]
    · rw [if_neg h1] at h ⊢
      by_cases h2 : s < k
      · rw [if_pos h2]; rfl
      · rw [if_neg h2] at h
        exact nomatch h

/-- what holds of every manager -/
structure Inv (c : St) : Prop where
  sorted : Sorted c.map
  range : ∀ x ∈ c.map, x.2 < c.heap.length
  inj : ∀ x ∈ c.map, ∀ y ∈ c.map, x.2 = y.2 → x = y
  len : ∀ x ∈ c.map, x.1.length % 2 ^ 32 ≤ c.maxLen
  bound : c.maxLen < 2 ^ 32
  att : c.maxLen = 0 ∨ ∃ x ∈ c.map, x.1.length % 2 ^ 32 = c.maxLen

/-- a call of `internString` -/
theorem intern_spec (c : St) (hi : Inv c) (s : Str) :
    ∃ p, (c.intern s).2 = some p ∧ (s, p) ∈ (c.intern s).1.map ∧ Inv (c.intern s).1 ∧
      (∀ x, x ∈ (c.intern s).1.map ↔ x = (s, p) ∨ x ∈ c.map) ∧
      (((c.intern s).1 = c) ∨ (p = c.heap.length ∧ (c.intern s).1.heap = c.heap ++ [s] ∧ lookup c.map s = none)) := by
  unfold St.intern St.find
  cases e : lookup c.map s with
  | some p =>
    have hm := (lookup_iff _ hi.sorted s p).1 e
    exact ⟨p, rfl, hm, hi, fun x => ⟨Or.inr, fun h => h.elim (fun h => h ▸ hm) id⟩, Or.inl rfl⟩
  | none =>
    have hm := mem_emplace c.map s c.heap.length e
    have hso := sorted_emplace c.map hi.sorted s c.heap.length e
    dsimp only
    refine ⟨c.heap.length, (lookup_iff _ hso _ _).2 ((hm _).2 (Or.inl rfl)), (hm _).2 (Or.inl rfl), ?_, hm, Or.inr ⟨rfl, rfl, rfl⟩⟩
    refine ⟨hso, ?_, ?_, ?_, ?_, ?_⟩
    · intro x hx
      rw [List.length_append, List.length_singleton]
      rcases (hm x).1 hx with h | h
      · rw [h]; exact Nat.lt_succ_self _
      · have := hi.range x h; omega
    · intro x hx y hy exy
      rcases (hm x).1 hx with h | h <;> rcases (hm y).1 hy with g | g
      · rw [h, g]
      · have := hi.range y g
        rw [← exy, h] at this
        exact absurd this (Nat.lt_irrefl _)
      · have := hi.range x h
        rw [exy, g] at this
        exact absurd this (Nat.lt_irrefl _)
      · exact hi.inj x h y g exy
    · intro x hx
      dsimp only
      rcases (hm x).1 hx with h | h
      · rw [h]; exact Nat.le_max_right _ _
      · exact Nat.le_trans (hi.len x h) (Nat.le_max_left _ _)
    · have := hi.bound
      have := Nat.mod_lt s.length (show 0 < 2 ^ 32 by decide)
      dsimp only
      omega
    · dsimp only
      rcases Nat.le_total c.maxLen (s.length % 2 ^ 32) with h | h
      · rw [Nat.max_eq_right h]
        exact Or.inr ⟨(s, c.heap.length), (hm _).2 (Or.inl rfl), rfl⟩
      · rw [Nat.max_eq_left h]
        exact hi.att.imp id fun ⟨x, hx, e⟩ => ⟨x, (hm x).2 (Or.inr hx), e⟩

theorem inv_mk (heap : List Str) : Inv (St.mk' heap).1 := by
  obtain ⟨_, _, _, h, _⟩ := intern_spec { map := [], maxLen := 0, heap := heap } ⟨List.Pairwise.nil, fun _ h => (nomatch h), fun _ h => (nomatch h), fun _ h => (nomatch h), (show 0 < 2 ^ 32 by decide), Or.inl rfl⟩ []
  exact h

/-- entries and heap after one call -/
theorem step_spec (c : St) (hi : Inv c) (o : Op) :
    Inv (step c o).1 ∧ c.heap.length ≤ (step c o).1.heap.length ∧ (∀ x ∈ c.map, x ∈ (step c o).1.map) ∧
    (∀ x ∈ (step c o).1.map, x ∈ c.map ∨ (o = .intern x.1 ∧ (step c o).2 = .ptr (some x.2))) := by
  have same : ∀ h : List Str, c.heap.length ≤ h.length → Inv { c with heap := h } := fun h hl =>
    ⟨hi.sorted, fun x hx => Nat.lt_of_lt_of_le (hi.range x hx) hl, hi.inj, hi.len, hi.bound, hi.att⟩
  cases o with
  | intern s =>
    obtain ⟨p, h1, h2, h3, h4, h5⟩ := intern_spec c hi s
    refine ⟨h3, ?_, fun x hx => (h4 x).2 (Or.inr hx), ?_⟩
    · show _ ≤ (c.intern s).1.heap.length
      rcases h5 with h | ⟨_, h, _⟩
      · rw [h]; exact Nat.le_refl _
      · rw [h, List.length_append]; exact Nat.le_add_right _ _
    · intro x hx
      rcases (h4 x).1 hx with h | h
      · exact Or.inr (by rw [h]; exact ⟨rfl, congrArg Out.ptr h1⟩)
      · exact Or.inl h
  | alloc s =>
    have hl : c.heap.length ≤ (c.heap ++ [s]).length := by rw [List.length_append]; exact Nat.le_add_right _ _
    exact ⟨same _ hl, hl, fun _ h => h, fun _ h => Or.inl h⟩
  | set p s =>
    by_cases h : p < c.heap.length
    · have e : (step c (.set p s)).1 = { c with heap := c.heap.set p s } := by unfold step; dsimp only; rw [if_pos h]
      have hl : c.heap.length ≤ (c.heap.set p s).length := by rw [List.length_set]; exact Nat.le_refl _
      rw [e]
      exact ⟨same _ hl, hl, fun _ h => h, fun _ h => Or.inl h⟩
    · have e : (step c (.set p s)).1 = c := by unfold step; dsimp only; rw [if_neg h]
      rw [e]
      exact ⟨hi, Nat.le_refl _, fun _ h => h, fun _ h => Or.inl h⟩
  | _ => exact ⟨hi, Nat.le_refl _, fun _ h => h, fun _ h => Or.inl h⟩

/-- the entries after a history are those before and one for each string interned -/
theorem run_spec (os : List Op) : ∀ (c : St), Inv c →
    Inv (runOps step c os).1 ∧ (∀ x ∈ c.map, x ∈ (runOps step c os).1.map) ∧
    (∀ (i : Nat) s, os[i]? = some (.intern s) → ∃ p, (runOps step c os).2[i]? = some (.ptr (some p)) ∧ (s, p) ∈ (runOps step c os).1.map) ∧
    (∀ x ∈ (runOps step c os).1.map, x ∈ c.map ∨ ∃ i : Nat, os[i]? = some (.intern x.1) ∧ (runOps step c os).2[i]? = some (.ptr (some x.2))) := by
  induction os with
  | nil => exact fun c hi => ⟨hi, fun _ h => h, fun i s h => (by simp at h), fun _ h => Or.inl h⟩
  | cons o os ih =>
    intro c hi
    obtain ⟨a1, _, a3, a4⟩ := step_spec c hi o
    obtain ⟨b1, b2, b3, b4⟩ := ih (step c o).1 a1
    refine ⟨b1, fun x hx => b2 x (a3 x hx), ?_, ?_⟩
    · intro i s h
      cases i with
      | zero =>
        have ho : o = .intern s := Option.some.inj h
        subst ho
        obtain ⟨p, h1, h2, _⟩ := intern_spec c hi s
        exact ⟨p, congrArg (fun q => some (Out.ptr q)) h1, b2 _ h2⟩
      | succ i => exact b3 i s h
    · intro x hx
      rcases b4 x hx with h | ⟨i, h1, h2⟩
      · rcases a4 x h with h | ⟨h1, h2⟩
        · exact Or.inl h
        · exact Or.inr ⟨0, congrArg some h1, congrArg some h2⟩
      · exact Or.inr ⟨i + 1, h1, h2⟩

end Sparta.Intern
