import Verif.MemoryMap.Lemmas4

/-!
The second and third phase of `addMapping` on the tree, and the whole insertion.
-/

namespace Sparta.MemoryMap

/-- Attaching a key at a free place keeps a good tree, and the keys get exactly the new one. -/
theorem attach_keys {s : Tree} {F : Frame} {fs : List Frame} (G : Good s (plug .leaf (F :: fs)))
    (k' : Key) (pw : (plug .leaf (F :: fs)).keys.Pairwise KLt)
    (hL : ∀ x ∈ kL (F :: fs), KLt x k') (hR : ∀ x ∈ kR (F :: fs), KLt k' x) :
    ∃ s' t', attach s F.i F.d k' = some (s', s.next) ∧ Good s' t' ∧ (s.next, k') ∈ t'.io ∧
      t'.keys.Pairwise KLt ∧
      (∀ x, x ∈ t'.keys ↔ x ∈ (plug .leaf (F :: fs)).keys ∨ x = k') := by
  obtain ⟨s', t', e1, e2, e3, e4⟩ := attach_spec G k'
  have hkeys : t'.keys = kL (F :: fs) ++ k' :: kR (F :: fs) := by
    show List.map _ _ = _
    rw [e4]; simp [kL, kR]
  have hold : (plug .leaf (F :: fs)).keys = kL (F :: fs) ++ kR (F :: fs) := by
    rw [keys_plug]; simp
  refine ⟨s', t', e1, e2, by rw [e4]; simp, ?_, ?_⟩
  · rw [hkeys]; exact pairwise_insert (hold ▸ pw) hL hR
  · intro x
    rw [hkeys, hold]
    simp only [List.mem_append, List.mem_cons]
    constructor
    · rintro (h | h | h) <;> simp only [h, true_or, or_true]
    · rintro ((h | h) | h) <;> simp only [h, true_or, or_true]

theorem klt_stop_of_low {start stop x} (hlt : start < stop) (h : Low start x) :
    KLt x (.sep stop) := by
  cases x with
  | sep y => simp only [Low, KLt] at *; omega
  | dest m => simp only [Low, KLt] at *; omega

/-- The walk of the second phase below the separator `start`. -/
theorem placeEnd_walk {start stop : Nat} : ∀ (t : T) (fuel : Nat) (fs : List Frame) (s : Tree)
    (n max : Nat), Good s (plug t fs) → t.root = some n → Env (plug t fs).keys start stop →
    (∀ x ∈ kL fs, Low start x) → (∀ x ∈ t.keys, High stop x) →
    (∀ x ∈ kR fs, High stop x ∧ x ≠ .sep stop) → t.io.length < fuel →
    ∃ s' n' t', placeEnd fuel s n max start stop = some (s', n') ∧ Good s' t' ∧
      (n', Key.sep stop) ∈ t'.io ∧ Env t'.keys start stop ∧
      (∀ x, x ∈ t'.keys ↔ x ∈ (plug t fs).keys ∨ x = .sep stop) := by
  intro t
  induction t with
  | leaf => intro _ _ _ _ _ _ h; cases h
  | node i k c l r ihl ihr =>
    intro fuel fs s n max G hn E hL hT hR hfuel
    have : i = n := by simpa [T.root] using hn
    subst this
    obtain ⟨fuel, rfl⟩ : ∃ m, fuel = m + 1 := ⟨fuel - 1, by omega⟩
    have hlen : l.io.length < fuel := by simp [T.io] at hfuel; omega
    have hi : s.h i = ⟨k, c, l.root, r.root, par fs⟩ := G.rep.focus.2.1
    have ho := order_at E.pw
    have hself : k ∈ (plug (.node i k c l r) fs).keys := mem_at.2 (Or.inr (Or.inr (Or.inl rfl)))
    have hwf : ∀ m, k = .dest m → m.start < m.stop := fun m h => (E.wf m (h ▸ hself)).1
    have hlt := E.lt
    have hhi : High stop k := hT k (by rw [keys_node]; simp)
    have hTl : ∀ x ∈ l.keys, High stop x := fun x hx => hT x (by rw [keys_node]; simp [hx])
    have hTr : ∀ x ∈ r.keys, High stop x := fun x hx => hT x (by rw [keys_node]; simp [hx])
    have hkLT : kL (⟨true, i, k, c, r⟩ :: fs) = kL fs := by rw [kL_cons]; simp
    have goL : k ≠ .sep stop → ∀ x ∈ kR (⟨true, i, k, c, r⟩ :: fs), High stop x ∧ x ≠ .sep stop := by
      intro hne x hx
      rw [kR_cons] at hx
      simp only [if_true, List.mem_append, List.mem_cons] at hx
      rcases hx with (rfl | h) | h
      · exact ⟨hhi, hne⟩
      · refine ⟨hTr x h, ?_⟩
        rintro rfl
        have := ho.2 _ (List.mem_append_left _ h)
        cases k with
        | sep y => simp only [KLt, High] at *; omega
        | dest m => have := hwf m rfl; simp only [KLt, High] at *; omega
      · exact hR x h
    cases k with
    | dest m =>
      have hhi' : stop ≤ m.start := hhi
      obtain ⟨j, kj, cj, lj, rj, hr⟩ := left_exists E hhi hL
      have hrr : l.root = some j := by rw [hr]; rfl
      obtain ⟨s', n', t', q⟩ := ihl fuel (⟨true, i, .dest m, c, r⟩ :: fs) s j max G hrr E
        (by rw [hkLT]; exact hL) hTl (goL (by simp)) hlen
      refine ⟨s', n', t', ?_, q.2⟩
      rw [placeEnd, hi]
      simp only [hrr]
      rw [if_pos (by omega)]
      exact q.1
    | sep a =>
      have hhi' : stop ≤ a := hhi
      by_cases ha : a = stop
      · subst ha
        refine ⟨s, i, _, ?_, G, ?_, E, ?_⟩
        · rw [placeEnd, hi]; simp
        · rw [io_plug]; simp [T.io]
        · intro x; exact ⟨Or.inl, fun h => h.elim id (fun h => h ▸ hself)⟩
      · have hR' := goL (by simp [ha])
        cases l with
        | leaf =>
          obtain ⟨s', t', q1, q2, q3, q4, q5⟩ := attach_keys (F := ⟨true, i, .sep a, c, r⟩) (fs := fs) G
            (.sep stop) E.pw
            (by rw [hkLT]; exact fun x hx => klt_stop_of_low hlt (hL x hx))
            (by
              intro x hx
              obtain ⟨h1, h2⟩ := hR' x hx
              cases x with
              | sep y =>
                have : y ≠ stop := fun h => h2 (by rw [h])
                simp only [High, KLt] at *; omega
              | dest m => exact h1)
          have htp := E.tp a hself
          refine ⟨s', s.next, t', ?_, q2, q3, E.insert q4 q5 (Or.inr (Nat.le_refl _)) (by omega), q5⟩
          rw [placeEnd, hi]
          simp only [T.root]
          rw [if_neg ha, if_neg (by omega), if_neg (by omega), if_neg (by omega), if_pos ha]
          exact q1
        | node j kj cj lj rj =>
          obtain ⟨s', n', t', q⟩ := ihl fuel (⟨true, i, .sep a, c, r⟩ :: fs) s j a G rfl E
            (by rw [hkLT]; exact hL) hTl hR' hlen
          refine ⟨s', n', t', ?_, q.2⟩
          rw [placeEnd, hi]
          simp only [T.root]
          rw [if_neg ha, if_neg (by omega), if_neg (by omega), if_neg (by omega)]
          exact q.1

/-- What the second phase leaves: the tree has both separators (or `stop` is the last address) and
`n` is one of them. -/
structure Placed (s : Tree) (t : T) (n start stop : Nat) : Prop where
  good : Good s t
  env : Env t.keys start stop
  hs : Key.sep start ∈ t.keys
  he : Key.sep stop ∈ t.keys ∨ stop = topAddr
  hn : (n, Key.sep stop) ∈ t.io ∨
    ∃ fs c l, t = plug (.node n (.sep start) c l .leaf) fs

/-- The second phase. -/
theorem placeEnd_spec {s : Tree} {n max start stop fuel : Nat} {fs c l r}
    (G : Good s (plug (.node n (.sep start) c l r) fs))
    (E : Env (plug (.node n (.sep start) c l r) fs).keys start stop)
    (hh : r = .leaf → HeadOK (kR fs) max) (hmax : start < max)
    (hfuel : (plug (.node n (.sep start) c l r) fs).io.length < fuel) :
    ∃ s' n' t', placeEnd fuel s n max start stop = some (s', n') ∧ Placed s' t' n' start stop ∧
      (∀ x, x ∈ t'.keys ↔ x ∈ (plug (.node n (.sep start) c l r) fs).keys ∨
        (x = .sep stop ∧ stop ≠ topAddr)) := by
  obtain ⟨fuel, rfl⟩ : ∃ m, fuel = m + 1 := ⟨fuel - 1, by omega⟩
  have hi : s.h n = ⟨.sep start, c, l.root, r.root, par fs⟩ := G.rep.focus.2.1
  have ho := order_at E.pw
  have hlt := E.lt
  have hle := E.le
  have hself : Key.sep start ∈ (plug (.node n (.sep start) c l r) fs).keys :=
    mem_at.2 (Or.inr (Or.inr (Or.inl rfl)))
  have hlow : ∀ x ∈ kL (⟨false, n, .sep start, c, l⟩ :: fs), Low start x := by
    intro x hx
    rw [kL_cons] at hx
    simp only [Bool.false_eq_true, if_false, List.mem_append, List.mem_singleton] at hx
    have key : ∀ x, KLt x (.sep start) → Low start x := fun x hx =>
      low_of_klt (by rintro m h; cases h) (show Low start (.sep start) from Nat.le_refl _) hx
    rcases hx with h | h | rfl
    · exact key x (ho.1 x (List.mem_append_left _ h))
    · exact key x (ho.1 x (List.mem_append_right _ h))
    · exact Nat.le_refl _
  have hkRF : kR (⟨false, n, .sep start, c, l⟩ :: fs) = kR fs := by rw [kR_cons]; simp
  have hhighR : ∀ x ∈ kR fs, High stop x := fun x hx =>
    high_after_start E (mem_at.2 (by simp [hx])) (ho.2 x (List.mem_append_right _ hx))
  cases r with
  | leaf =>
    have hh := hh rfl
    -- the key after `start` is not a destination
    have hnd : ∀ m R, kR fs ≠ .dest m :: R := by
      intro m R he
      have hmm : Key.dest m ∈ kR fs := by rw [he]; simp
      have hmem : Key.dest m ∈ (plug (.node n (.sep start) c l .leaf) fs).keys := mem_at.2 (by simp [hmm])
      obtain ⟨w1, w2, _⟩ := E.wf m hmem
      have hhm : stop ≤ m.start := hhighR _ hmm
      have hpR : (kR fs).Pairwise KLt := by
        have := E.pw; rw [keys_plug] at this
        exact (List.pairwise_append.1 this).2.1
      rw [he, List.pairwise_cons] at hpR
      rcases mem_at.1 w2 with h | h | h | h | h
      · have h := low_of_klt (by rintro m h; cases h) (show Low start (.sep start) from Nat.le_refl _) (ho.1 _ (List.mem_append_left _ h))
        simp only [Low] at h; omega
      · have h := low_of_klt (by rintro m h; cases h) (show Low start (.sep start) from Nat.le_refl _) (ho.1 _ (List.mem_append_right _ h))
        simp only [Low] at h; omega
      · have h : m.start = start := by simpa using h
        omega
      · simp at h
      · rw [he] at h
        rcases List.mem_cons.1 h with h | h
        · cases h
        · have := hpR.1 _ h; simp only [KLt] at this; omega
    by_cases hms : max = stop
    · refine ⟨s, n, _, ?_, ⟨G, E, hself, ?_, Or.inr ⟨fs, c, l, rfl⟩⟩, ?_⟩
      · rw [placeEnd, hi]
        simp only [T.root]
        rw [if_neg (by omega), if_neg (by omega), if_pos trivial, if_neg (by simpa using hms)]
      · subst hms
        cases hk : kR fs with
        | nil => rw [hk] at hh; right; simpa [HeadOK] using hh
        | cons x R =>
          cases x with
          | dest m => exact absurd hk (hnd m R)
          | sep a =>
            rw [hk] at hh
            have ha : max = a := by simpa [HeadOK] using hh
            left; subst ha
            exact mem_at.2 (by simp [hk])
      · intro x
        constructor
        · exact Or.inl
        · rintro (h | ⟨rfl, h⟩)
          · exact h
          · subst hms
            cases hk : kR fs with
            | nil => rw [hk] at hh; exact absurd (by simpa [HeadOK] using hh) h
            | cons x R =>
              cases x with
              | dest m => exact absurd hk (hnd m R)
              | sep a =>
                rw [hk] at hh
                have ha : max = a := by simpa [HeadOK] using hh
                subst ha
                exact mem_at.2 (by simp [hk])
    · have hstop : stop ≠ topAddr := by
        cases hk : kR fs with
        | nil =>
          rw [hk] at hh
          have : max = topAddr := by simpa [HeadOK] using hh
          omega
        | cons x R =>
          cases x with
          | dest m => exact absurd hk (hnd m R)
          | sep a =>
            have hm : Key.sep a ∈ kR fs := by rw [hk]; simp
            have h1 : stop ≤ a := hhighR _ hm
            have h2 := E.tp a (mem_at.2 (by simp [hm]))
            omega
      have hgt : ∀ x ∈ kR fs, KLt (.sep stop) x := by
        intro x hx
        have h1 := hhighR x hx
        cases x with
        | dest m => exact h1
        | sep y =>
          have h1 : stop ≤ y := h1
          have hne : y ≠ stop := by
            rintro rfl
            cases hk : kR fs with
            | nil => rw [hk] at hx; simp at hx
            | cons z R =>
              cases z with
              | dest m => exact absurd hk (hnd m R)
              | sep a =>
                rw [hk] at hh hx
                have ha : max = a := by simpa [HeadOK] using hh
                have h2 : y ≤ a := hhighR (.sep a) (by rw [hk]; simp)
                have hpR : (kR fs).Pairwise KLt := by
                  have := E.pw; rw [keys_plug] at this
                  exact (List.pairwise_append.1 this).2.1
                rw [hk, List.pairwise_cons] at hpR
                rcases List.mem_cons.1 hx with h | h
                · have : y = a := by simpa using h
                  omega
                · have := hpR.1 _ h; simp only [KLt] at this; omega
          simp only [KLt]; omega
      obtain ⟨s', t', q1, q2, q3, q4, q5⟩ := attach_keys (F := ⟨false, n, .sep start, c, l⟩) (fs := fs) G
        (.sep stop) E.pw (fun x hx => klt_stop_of_low hlt (hlow x hx)) (by rw [hkRF]; exact hgt)
      have q5' : ∀ x, x ∈ t'.keys ↔ x ∈ (plug (.node n (.sep start) c l .leaf) fs).keys ∨ x = .sep stop := q5
      refine ⟨s', s.next, t', ?_, ⟨q2, E.insert q4 q5' (Or.inr (Nat.le_refl _)) (by omega),
        (q5' _).2 (Or.inl hself), Or.inl ((q5' _).2 (Or.inr rfl)), Or.inl q3⟩, ?_⟩
      · rw [placeEnd, hi]
        simp only [T.root]
        rw [if_neg (by omega), if_neg (by omega), if_pos trivial, if_pos hms]
        exact q1
      · intro x; rw [q5']
        constructor
        · rintro (h | h)
          · exact Or.inl h
          · exact Or.inr ⟨h, hstop⟩
        · rintro (h | h)
          · exact Or.inl h
          · exact Or.inr h.1
  | node j kj cj lj rj =>
    have hT : ∀ x ∈ (T.node j kj cj lj rj).keys, High stop x := fun x hx =>
      high_after_start E (mem_at.2 (by simp [hx])) (ho.2 x (List.mem_append_left _ hx))
    have hR : ∀ x ∈ kR (⟨false, n, .sep start, c, l⟩ :: fs), High stop x ∧ x ≠ .sep stop := by
      rw [hkRF]
      intro x hx
      refine ⟨hhighR x hx, ?_⟩
      rintro rfl
      -- the root of the right subtree lies before it
      have hroot : kj ∈ (T.node j kj cj lj rj).keys := by rw [keys_node]; simp
      have h1 := hT kj hroot
      have hpw := E.pw
      rw [keys_plug, keys_node] at hpw
      have hkj : KLt kj (.sep stop) :=
        (List.pairwise_append.1 hpw).2.2 kj (by simp [hroot]) _ hx
      have h2 := low_before_stop E (mem_at.2 (by simp [hroot])) hkj
      exact low_high E (mem_at.2 (by simp [hroot])) h2 h1
    have hl2 : (T.node j kj cj lj rj).io.length < fuel := by
      rw [io_plug] at hfuel; simp [T.io] at hfuel ⊢; omega
    obtain ⟨s', n', t', q1, q2, q3, q4, q5⟩ := placeEnd_walk (T.node j kj cj lj rj) fuel
      (⟨false, n, .sep start, c, l⟩ :: fs) s j max G rfl E hlow hT hR hl2
    have q5' : ∀ x, x ∈ t'.keys ↔
        x ∈ (plug (.node n (.sep start) c l (T.node j kj cj lj rj)) fs).keys ∨ x = .sep stop := q5
    have hmem : Key.sep stop ∈ t'.keys := (q5' _).2 (Or.inr rfl)
    have hstop := q4.tp stop hmem
    refine ⟨s', n', t', ?_, ⟨q2, q4, (q5' _).2 (Or.inl hself), Or.inl hmem, Or.inl q3⟩, ?_⟩
    · rw [placeEnd, hi]
      simp only [T.root]
      rw [if_neg (by omega), if_neg (by omega), if_pos trivial, if_pos (by omega)]
      exact q1
    · intro x; rw [q5']
      constructor
      · rintro (h | h)
        · exact Or.inl h
        · exact Or.inr ⟨h, by omega⟩
      · rintro (h | h)
        · exact Or.inl h
        · exact Or.inr h.1

/-- `findSeparatorNode_` finds the separator `start`. -/
theorem findSep_spec {start stop : Nat} : ∀ (t : T) (fuel : Nat) (fs : List Frame) (s : Tree),
    Good s (plug t fs) → Env (plug t fs).keys start stop → Key.sep start ∈ t.keys →
    t.io.length < fuel →
    ∃ n, findSeparatorNode fuel s t.root start = some n ∧ (n, Key.sep start) ∈ t.io := by
  intro t
  induction t with
  | leaf => intro _ _ _ _ _ h; simp at h
  | node i k c l r ihl ihr =>
    intro fuel fs s G E hm hfuel
    obtain ⟨fuel, rfl⟩ : ∃ m, fuel = m + 1 := ⟨fuel - 1, by omega⟩
    have hlen : l.io.length < fuel ∧ r.io.length < fuel := by
      simp [T.io] at hfuel; omega
    have hi : s.h i = ⟨k, c, l.root, r.root, par fs⟩ := G.rep.focus.2.1
    have ho := order_at E.pw
    have hself : k ∈ (plug (.node i k c l r) fs).keys := mem_at.2 (Or.inr (Or.inr (Or.inl rfl)))
    have hlt := E.lt
    rw [keys_node] at hm
    have hm' : Key.sep start ∈ l.keys ∨ Key.sep start = k ∨ Key.sep start ∈ r.keys := by
      simpa using hm
    have goL : Key.sep start ∈ l.keys → ∃ n, findSeparatorNode fuel s l.root start = some n ∧
        (n, Key.sep start) ∈ (T.node i k c l r).io := by
      intro h
      obtain ⟨n, h1, h2⟩ := ihl fuel (⟨true, i, k, c, r⟩ :: fs) s G E h hlen.1
      exact ⟨n, h1, by simp [T.io, h2]⟩
    have goR : Key.sep start ∈ r.keys → ∃ n, findSeparatorNode fuel s r.root start = some n ∧
        (n, Key.sep start) ∈ (T.node i k c l r).io := by
      intro h
      obtain ⟨n, h1, h2⟩ := ihr fuel (⟨false, i, k, c, l⟩ :: fs) s G E h hlen.2
      exact ⟨n, h1, by simp [T.io, h2]⟩
    rw [T.root, findSeparatorNode, hi]
    cases k with
    | dest m =>
      have hw := (E.wf m hself).1
      simp only
      rcases hm' with h | h | h
      · have := ho.1 _ (List.mem_append_right _ h)
        simp only [KLt] at this
        have hcl : stop ≤ m.start := by
          rcases E.cl _ hself with h | h
          · simp only [Low] at h; omega
          · exact h
        rw [if_pos (by omega)]
        exact goL h
      · cases h
      · have := ho.2 _ (List.mem_append_left _ h)
        simp only [KLt] at this
        rw [if_neg (by omega), if_pos (by omega)]
        exact goR h
    | sep a =>
      simp only
      rcases hm' with h | h | h
      · have := ho.1 _ (List.mem_append_right _ h)
        simp only [KLt] at this
        rw [if_neg (by omega), if_neg (by omega)]
        exact goL h
      · have ha : start = a := by simpa using h
        subst ha
        exact ⟨i, by rw [if_pos rfl], by simp [T.io]⟩
      · have := ho.2 _ (List.mem_append_left _ h)
        simp only [KLt] at this
        rw [if_neg (by omega), if_pos (by omega)]
        exact goR h

/-- Two nodes with the same key are the same node. -/
theorem key_unique {L : List (Nat × Key)} {a : Nat} (pw : (L.map (·.2)).Pairwise KLt) {i j : Nat}
    (hi : (i, Key.sep a) ∈ L) (hj : (j, Key.sep a) ∈ L) : i = j := by
  induction L with
  | nil => simp at hi
  | cons x L ih =>
    rw [List.map_cons, List.pairwise_cons] at pw
    have no : x.2 = .sep a → ∀ k, (k, Key.sep a) ∈ L → False := by
      intro hx k hk
      have := pw.1 (.sep a) (List.mem_map_of_mem (f := (·.2)) hk)
      rw [hx] at this
      simp [KLt] at this
    rcases List.mem_cons.1 hi with h1 | h1 <;> rcases List.mem_cons.1 hj with h2 | h2
    · have : (i, Key.sep a) = (j, Key.sep a) := h1.trans h2.symm
      simpa using this
    · exact absurd h2 (no (by rw [← h1]) j)
    · exact absurd h1 (no (by rw [← h2]) i)
    · exact ih pw.2 h1 h2

/-- The third phase: after it the tree holds the destination. -/
theorem placeDest_spec {s : Tree} {t : T} {n : Nat} {m : Mapping} (P : Placed s t n m.start m.stop) :
    ∃ s' t', placeDest s n m = some s' ∧ Good s' t' ∧ t'.keys.Pairwise KLt ∧
      (∀ x, x ∈ t'.keys ↔ x ∈ t.keys ∨ x = .dest m) := by
  obtain ⟨G, E, hs, he, hn⟩ := P
  have hlt := E.lt
  have hle := E.le
  -- attaching the destination where everything before is low and everything after is high
  have att : ∀ (F : Frame) (fs : List Frame), t = plug .leaf (F :: fs) →
      (∀ x ∈ kL (F :: fs), Low m.start x) → (∀ x ∈ kR (F :: fs), High m.stop x) →
      ∃ s' t', attach s F.i F.d (.dest m) = some (s', s.next) ∧ Good s' t' ∧ t'.keys.Pairwise KLt ∧
        (∀ x, x ∈ t'.keys ↔ x ∈ t.keys ∨ x = .dest m) := by
    rintro F fs rfl hL hR
    obtain ⟨s', t', q1, q2, _, q4, q5⟩ := attach_keys G (.dest m) E.pw
      (fun x hx => by have := hL x hx; cases x <;> exact this)
      (fun x hx => by have := hR x hx; cases x <;> exact this)
    exact ⟨s', t', q1, q2, q4, q5⟩
  rcases hn with hn | ⟨fs, c, l, rfl⟩
  · obtain ⟨fs, c, l, r, rfl⟩ := decomp hn
    have hi : s.h n = ⟨.sep m.stop, c, l.root, r.root, par fs⟩ := G.rep.focus.2.1
    have ho := order_at E.pw
    have hself : Key.sep m.stop ∈ (plug (.node n (.sep m.stop) c l r) fs).keys :=
      mem_at.2 (Or.inr (Or.inr (Or.inl rfl)))
    have htop := E.tp _ hself
    have hlowL : ∀ x ∈ kL fs ++ l.keys, Low m.start x := fun x hx =>
      low_before_stop E (mem_at.2 (by rcases List.mem_append.1 hx with h | h <;> simp [h])) (ho.1 x hx)
    have hhighR : ∀ x ∈ r.keys ++ kR fs, High m.stop x := fun x hx =>
      high_of_klt (by rintro m h; cases h) (show High m.stop (.sep m.stop) from Nat.le_refl _) (ho.2 x hx)
    have e0 : placeDest s n m = match l.root with
        | some _ =>
          match findSeparatorNode (s.next + 1) s s.root m.start with
          | none => none
          | some n =>
            match (s.h n).r with
            | some _ => none
            | none => (attach s n false (.dest m)).map (·.1)
        | none => (attach s n true (.dest m)).map (·.1) := by
      rw [placeDest]
      simp only [hi, Node.separator]
      rw [if_neg (by omega), if_pos (Nat.le_refl _)]
      rfl
    rw [e0]
    cases l with
    | leaf =>
      obtain ⟨s', t', q1, q⟩ := att ⟨true, n, .sep m.stop, c, r⟩ fs rfl
        (by rw [kL_cons]; simpa using hlowL)
        (by
          rw [kR_cons]
          intro x hx
          simp only [if_true, List.mem_append, List.mem_cons] at hx
          rcases hx with (rfl | h) | h
          · exact Nat.le_refl _
          · exact hhighR x (by simp [h])
          · exact hhighR x (by simp [h]))
      refine ⟨s', t', ?_, q⟩
      simp only [T.root]
      simp only at q1
      rw [q1]; rfl
    | node j kj cj lj rj =>
      -- the separator `start` is in the left subtree, as its last node
      have hroot : kj ∈ (T.node j kj cj lj rj).keys := by rw [keys_node]; simp
      have hsl : Key.sep m.start ∈ (T.node j kj cj lj rj).keys := by
        rcases mem_at.1 hs with h | h | h | h | h
        · exfalso
          have hpw := E.pw
          rw [keys_plug, keys_node, List.append_assoc] at hpw
          have h1 := (List.pairwise_append.1 hpw).2.2 _ h kj (by simp [hroot])
          have hk : kj ∈ (plug (.node n (.sep m.stop) c (T.node j kj cj lj rj) r) fs).keys :=
            mem_at.2 (Or.inr (Or.inl hroot))
          exact low_high E hk (hlowL kj (List.mem_append_right _ hroot)) (high_after_start E hk h1)
        · exact h
        · have : m.start = m.stop := by simpa using h
          omega
        · have := hhighR _ (List.mem_append_left _ h); simp only [High] at this; omega
        · have := hhighR _ (List.mem_append_right _ h); simp only [High] at this; omega
      obtain ⟨n2, f1, f2⟩ := findSep_spec (plug (.node n (.sep m.stop) c (T.node j kj cj lj rj) r) fs)
        (s.next + 1) [] s G E hs (by rw [G.size]; omega)
      obtain ⟨⟨n3, k3⟩, f3, hk3⟩ := List.mem_map.1 hsl
      simp only at hk3
      subst hk3
      have f3' : (n3, Key.sep m.start) ∈ (plug (.node n (.sep m.stop) c (T.node j kj cj lj rj) r) fs).io := by
        rw [io_plug, show (T.node n (.sep m.stop) c (T.node j kj cj lj rj) r).io =
          (T.node j kj cj lj rj).io ++ (n, .sep m.stop) :: r.io from rfl]
        simp [f3]
      have h23 : n2 = n3 := key_unique E.pw f2 f3'
      subst h23
      obtain ⟨fl, c2, l2, r2, e2⟩ := decomp f3
      have et : plug (.node n (.sep m.stop) c (T.node j kj cj lj rj) r) fs =
          plug (.node n2 (.sep m.start) c2 l2 r2) (fl ++ ⟨true, n, .sep m.stop, c, r⟩ :: fs) := by
        rw [plug_append, ← e2]; rfl
      have E' := E
      have G' := G
      rw [et] at E' G'
      have ho' := order_at E'.pw
      have hr2 : r2 = .leaf := by
        cases r2 with
        | leaf => rfl
        | node a ka ca la ra =>
          exfalso
          have hka : ka ∈ (T.node a ka ca la ra).keys := by rw [keys_node]; simp
          have hm : ka ∈ (T.node j kj cj lj rj).keys := by
            rw [e2]; exact mem_at.2 (by simp [hka])
          have hk : ka ∈ (plug (.node n (.sep m.stop) c (T.node j kj cj lj rj) r) fs).keys :=
            mem_at.2 (Or.inr (Or.inl hm))
          exact low_high E hk (hlowL ka (List.mem_append_right _ hm))
            (high_after_start E hk (ho'.2 ka (List.mem_append_left _ hka)))
      subst hr2
      have hi2 : s.h n2 = ⟨.sep m.start, c2, l2.root, none, _⟩ := G'.rep.focus.2.1
      obtain ⟨s', t', q1, q⟩ := att ⟨false, n2, .sep m.start, c2, l2⟩
        (fl ++ ⟨true, n, .sep m.stop, c, r⟩ :: fs) et
        (by
          intro x hx
          rw [kL_cons] at hx
          simp only [Bool.false_eq_true, if_false, List.mem_append, List.mem_singleton] at hx
          have key : ∀ x, KLt x (.sep m.start) → Low m.start x := fun x hx =>
            low_of_klt (by rintro m h; cases h) (show Low m.start (.sep m.start) from Nat.le_refl _) hx
          rcases hx with h | h | rfl
          · exact key x (ho'.1 x (List.mem_append_left _ h))
          · exact key x (ho'.1 x (List.mem_append_right _ h))
          · exact Nat.le_refl _)
        (by
          intro x hx
          rw [kR_cons] at hx
          simp only [Bool.false_eq_true, if_false, List.nil_append] at hx
          exact high_after_start E' (mem_at.2 (by simp [hx])) (ho'.2 x (List.mem_append_right _ hx)))
      refine ⟨s', t', ?_, q⟩
      simp only at q1
      rw [← G.rep.root] at f1
      simp only [T.root, f1, hi2, q1]; rfl
  · have hi : s.h n = ⟨.sep m.start, c, l.root, none, par fs⟩ := G.rep.focus.2.1
    have ho := order_at E.pw
    obtain ⟨s', t', q1, q⟩ := att ⟨false, n, .sep m.start, c, l⟩ fs rfl
      (by
        intro x hx
        rw [kL_cons] at hx
        simp only [Bool.false_eq_true, if_false, List.mem_append, List.mem_singleton] at hx
        have key : ∀ x, KLt x (.sep m.start) → Low m.start x := fun x hx =>
          low_of_klt (by rintro m h; cases h) (show Low m.start (.sep m.start) from Nat.le_refl _) hx
        rcases hx with h | h | rfl
        · exact key x (ho.1 x (List.mem_append_left _ h))
        · exact key x (ho.1 x (List.mem_append_right _ h))
        · exact Nat.le_refl _)
      (by
        intro x hx
        rw [kR_cons] at hx
        simp only [Bool.false_eq_true, if_false, List.nil_append] at hx
        exact high_after_start E (mem_at.2 (by simp [hx])) (ho.2 x (List.mem_append_right _ hx)))
    refine ⟨s', t', ?_, q⟩
    rw [placeDest]
    simp only [hi, Node.separator]
    rw [if_neg (by omega), if_neg (by omega), if_pos (Nat.le_refl _)]
    simp only at q1
    simp only [q1]; rfl

end Sparta.MemoryMap
