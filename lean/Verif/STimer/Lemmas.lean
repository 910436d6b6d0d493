import Verif.STimer.Spec
/-! # Lemmas about single timers, sums and the histograms -/
namespace Sparta.STimer

/-- The cycles of state `i` not yet in the histograms. -/
def pendS (now last : Nat) (ss : SSet) (i : Nat) : Nat :=
  ss.delta i + (if ss.active = some i then now - (if ss.start > last then ss.start else last) else 0)

def pend (now : Nat) (t : Timer) (k i : Nat) : Nat := pendS now t.last (t.sets k) i

theorem endTimer_delta (now last : Nat) (ss : SSet) (i : Nat) :
    (endTimer now last ss).delta i = pendS now last ss i := by
  unfold endTimer pendS
  cases ha : ss.active with
  | none => simp
  | some a =>
    by_cases hi : i = a
    · subst hi; simp [upd]
    · have : ¬ (some a = some i) := fun h => hi (by cases h; rfl)
      simp [upd, hi, this]

theorem endTimer_active (now last : Nat) (ss : SSet) : (endTimer now last ss).active = ss.active := by
  unfold endTimer; cases h : ss.active <;> simp [h]

theorem endTimer_start (now last : Nat) (ss : SSet) : (endTimer now last ss).start = ss.start := by
  unfold endTimer; cases h : ss.active <;> simp

theorem pendS_tick (now last n : Nat) (ss : SSet) (i : Nat) (hl : last ≤ now)
    (hs : ss.active.isSome → ss.start ≤ now) :
    pendS (now + n) last ss i = pendS now last ss i + (if ss.active = some i then n else 0) := by
  unfold pendS
  by_cases h : ss.active = some i
  · rw [if_pos h, if_pos h, if_pos h]
    have := hs (by rw [h]; rfl)
    split <;> omega
  · rw [if_neg h, if_neg h, if_neg h]

theorem pendS_inactive (now last : Nat) (ss : SSet) (i : Nat) (h : ss.active = none) :
    pendS now last ss i = ss.delta i := by
  unfold pendS; rw [h]; simp

theorem pendS_begun (now last : Nat) (ss : SSet) (i j : Nat) (hl : last ≤ now) (d : Nat → Nat)
    (h1 : ss.active = some j) (h2 : ss.start = now) (h3 : ss.delta = d) :
    pendS now last ss i = d i := by
  unfold pendS; rw [h1, h2, h3]
  split
  · split <;> omega
  · rfl

/-! ## Sums -/

theorem sum_map_add {α : Type} (l : List α) (f g : α → Nat) :
    (l.map fun a => f a + g a).sum = (l.map f).sum + (l.map g).sum := by
  induction l with
  | nil => rfl
  | cons a l ih => simp only [List.map_cons, List.sum_cons, ih]; omega

theorem sum_map_zero {α : Type} (l : List α) (f : α → Nat) (h : ∀ a ∈ l, f a = 0) :
    (l.map f).sum = 0 := by
  induction l with
  | nil => rfl
  | cons a l ih =>
    simp only [List.map_cons, List.sum_cons]
    rw [h a List.mem_cons_self, ih (fun b hb => h b (List.mem_cons_of_mem _ hb))]

theorem sum_map_congr {α : Type} (l : List α) (f g : α → Nat) (h : ∀ a ∈ l, f a = g a) :
    (l.map f).sum = (l.map g).sum := by rw [List.map_congr_left h]

theorem sum_perm {l m : List Nat} (h : l.Perm m) : l.sum = m.sum := by
  induction h with
  | nil => rfl
  | cons a _ ih => simp only [List.sum_cons, ih]
  | swap a b l => simp only [List.sum_cons]; omega
  | trans _ _ ih1 ih2 => exact ih1.trans ih2

/-- A sum over the live handles. -/
theorem sum_live (l : List (Option Nat)) (f : Nat → Nat) :
    ((l.filterMap id).map f).sum
      = ((List.range l.length).map fun h => match l[h]? with | some (some x) => f x | _ => 0).sum := by
  induction l with
  | nil => rfl
  | cons a l ih =>
    rw [List.length_cons, List.range_succ_eq_map, List.map_cons, List.sum_cons, List.map_map]
    have : ((fun h => match (a :: l)[h]? with | some (some x) => f x | _ => 0) ∘ Nat.succ)
        = fun h => match l[h]? with | some (some x) => f x | _ => 0 := by
      funext h; simp
    rw [this, ← ih]
    cases a with
    | none => simp
    | some x => simp

theorem sum_erase (l : List Nat) (f : Nat → Nat) (a : Nat) (h : a ∈ l) :
    (l.map f).sum = f a + ((l.erase a).map f).sum := by
  rw [← List.sum_cons, ← List.map_cons]
  exact sum_perm ((List.perm_cons_erase h).map f)

/-! ## Histograms -/

theorem tally_append (a b : List (Nat × Nat × Nat)) (k i : Nat) :
    tally (a ++ b) k i = tally a k i + tally b k i := by
  unfold tally; rw [List.filter_append, List.map_append, List.sum_append]

theorem tally_class_other (c k i n : Nat) (f : Nat → Nat) (h : c ≠ k) :
    tally ((List.range n).map fun j => (c, j, f j)) k i = 0 := by
  unfold tally
  have : ((List.range n).map fun j => (c, j, f j)).filter (fun e => e.1 == k && e.2.1 == i) = [] := by
    rw [List.filter_eq_nil_iff]
    intro e he
    obtain ⟨j, _, rfl⟩ := List.mem_map.mp he
    simp [h]
  rw [this]; rfl

theorem tally_class_same (k i n : Nat) (f : Nat → Nat) :
    tally ((List.range n).map fun j => (k, j, f j)) k i = if i < n then f i else 0 := by
  induction n with
  | zero => rfl
  | succ n ih =>
    rw [List.range_succ, List.map_append, tally_append, ih]
    by_cases h1 : i < n
    · have : ¬ n = i := by omega
      simp [tally, h1, Nat.lt_succ_of_lt h1, this]
    · by_cases h2 : i = n
      · subst h2; simp [tally]
      · have h3 : ¬ i < n + 1 := by omega
        have : ¬ n = i := by omega
        simp [tally, h1, h3, this]

theorem lookup_of_not_mem (l : List (Nat × Nat)) (k : Nat) (h : k ∉ l.map (·.1)) :
    l.lookup k = none := by
  induction l with
  | nil => rfl
  | cons a l ih =>
    simp only [List.map_cons, List.mem_cons, not_or] at h
    rw [List.lookup_cons, show (k == a.1) = false by simpa using h.1]
    exact ih h.2

theorem tally_samples (classes : List (Nat × Nat)) (t : Timer) (k i : Nat)
    (hn : (classes.map (·.1)).Nodup) :
    tally (samples classes t) k i
      = match classes.lookup k with
        | some n => if i < n then (t.sets k).delta i else 0
        | none => 0 := by
  induction classes with
  | nil => rfl
  | cons c l ih =>
    simp only [List.map_cons, List.nodup_cons] at hn
    have e : samples (c :: l) t
        = (List.range c.2).map (fun i => (c.1, i, (t.sets c.1).delta i)) ++ samples l t := rfl
    rw [e, tally_append, ih hn.2, List.lookup_cons]
    by_cases hk : c.1 = k
    · subst hk
      rw [lookup_of_not_mem l c.1 hn.1, tally_class_same]; simp
    · rw [tally_class_other _ _ _ _ _ hk, show (k == c.1) = false by simpa using fun h => hk h.symm]
      simp

/-! ## The constructor -/

theorem addSets_spec : ∀ (cs acc out : List (Nat × Nat)), addSets acc cs = .ok out →
    (acc.map (·.1)).Nodup →
    (out.map (·.1)).Nodup ∧ out = acc ++ cs.map (fun c => (key c.1, c.2)) := by
  intro cs
  induction cs with
  | nil => intro acc out h hn; simp only [addSets] at h; cases h; exact ⟨hn, by simp⟩
  | cons c cs ih =>
    intro acc out h hn
    simp only [addSets] at h
    split at h
    · cases h
    · rename_i hl
      have hm : key c.1 ∉ acc.map (·.1) := by
        intro hm
        apply hl
        obtain ⟨x, hx, hxk⟩ := List.mem_map.mp hm
        clear h hn hl ih hm
        induction acc with
        | nil => cases hx
        | cons y ys ih2 =>
          rw [List.lookup_cons]
          by_cases hy : key c.1 = y.1
          · simp [hy]
          · rw [show (key c.1 == y.1) = false by simpa using hy]
            rcases List.mem_cons.mp hx with rfl | hx'
            · exact absurd hxk.symm hy
            · exact ih2 hx'
      obtain ⟨h1, h2⟩ := ih _ _ h (by
        rw [List.map_append, List.map_cons, List.map_nil]
        rw [List.nodup_append]
        refine ⟨hn, by simp, ?_⟩
        intro a ha b hb hab
        simp at hb
        exact hm (by rw [← hb, ← hab]; exact ha))
      exact ⟨h1, by rw [h2]; simp⟩

end Sparta.STimer
