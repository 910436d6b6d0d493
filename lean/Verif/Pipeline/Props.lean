import Verif.Pipeline.Lemmas4
/-! Properties C21 (stalls and data movement) and C80 (stage handlers) of the Pipeline. -/
namespace Sparta.Pipeline
variable {α : Type}

/-- state after a history -/
def after (m : PL α) (os : List (Op α)) : PL α := (runOps PL.step m os).1
/-- state of the specification after a history -/
def specAfter (α : Type) (n : Nat) (regd : Nat → Bool) (os : List (Op α)) : Spec α :=
  (runOps Spec.step (Spec.init α n regd) os).1
/-- what the API shows: the items from the last stage to the first, then the appended one -/
def items (n : Nat) (m : PL α) : List α := (List.range n).reverse.filterMap m.pipe.read ++ m.readAppended.toList
/-- exactly the stages up to `k` report being stalled -/
def StalledUpTo (m : PL α) (k : Nat) : Prop := ∀ j, m.isStalledAt j = decide (j ≤ k)
/-- legal histories -/
def Legal (n : Nat) (regd : Nat → Bool) (os : List (Op α)) : Prop :=
  legalOps Spec.step Spec.legal (Spec.init α n regd) os

instance (n : Nat) (regd : Nat → Bool) (os : List (Op α)) : Decidable (Legal n regd os) :=
  inferInstanceAs (Decidable (legalOps _ _ _ os))

theorem run_rep {n : Nat} {regd : Nat → Bool} {m : PL α} (hn : n < 2 ^ 31) (hm : PL.init α n regd = some m)
    (os : List (Op α)) (hl : Legal n regd os) : Rep (after m os) (specAfter α n regd os) :=
  (runOps_simulation_legal PL.step Spec.step Spec.legal Rep rep_step _ _ (rep_init hn hm) os hl).1

theorem spec_ok {n : Nat} {regd : Nat → Bool} {m : PL α} (hm : PL.init α n regd = some m) (os : List (Op α)) :
    SOk (specAfter α n regd os) := by
  refine SOk.run (s := Spec.init α n regd) ⟨?_, fun t ht => by cases ht⟩ os
  unfold PL.init Pipe.P.init at hm
  split at hm
  · assumption
  · cases hm

theorem step_n (s : Spec α) (o : Op α) : (s.step o).1.n = s.n := by
  cases o <;> simp only [Spec.step] <;> (try split) <;> (try split) <;> (try rfl)
  · exact unstall_n s
  · exact flush_n s _
  · exact flush_n s _
  · exact unstall_n s
  · rw [(tick_same _).1, (shift_same s).1]

theorem spec_n (n : Nat) (regd : Nat → Bool) (os : List (Op α)) : (specAfter α n regd os).n = n := by
  unfold specAfter
  suffices h : ∀ s : Spec α, (runOps Spec.step s os).1.n = s.n from h _
  induction os with
  | nil => intro s; rfl
  | cons o os ih => intro s; exact (ih _).trans (step_n s o)

theorem rep_update_step {m : PL α} {s : Spec α} (r : Rep m s) :
    Rep (m.step .update).1 s.shift.tick ∧ (m.step .update).2 = .sched s.shift.fires := rep_step m s .update r trivial

theorem rep_items {m : PL α} {s : Spec α} (r : Rep m s) : items s.n m = s.items := by
  unfold items Spec.items
  have : m.readAppended = s.app := r.d.full.rep.memApp
  rw [this]
  congr 1
  have key : ∀ l : List Nat, (∀ j ∈ l, j < s.n) → l.filterMap m.pipe.read = l.filterMap s.stage := by
    intro l hl
    induction l with
    | nil => rfl
    | cons a l ih =>
      rw [List.filterMap_cons, List.filterMap_cons, r.d.read, if_pos (hl a (List.mem_cons_self ..)),
        ih (fun j hj => hl j (List.mem_cons_of_mem _ hj))]
  exact key _ (fun j hj => List.mem_range.1 (List.mem_reverse.1 hj))

theorem rep_stalledAt {m : PL α} {s : Spec α} (r : Rep m s) (k : Nat) :
    m.isStalledAt k = (match s.stall with | some t => decide (k ≤ t.stage) | none => false) :=
  Res.bool.inj (rep_step m s (.isStalledAt k) r trivial).2

theorem stalledUpTo_spec {m : PL α} {s : Spec α} (r : Rep m s) {k : Nat} (h : StalledUpTo m k) :
    ∃ t, s.stall = some t ∧ t.stage = k := by
  cases e : s.stall with
  | none =>
    have h0 := h 0
    rw [rep_stalledAt r, e] at h0
    simp at h0
  | some t =>
    refine ⟨t, rfl, ?_⟩
    have h1 := h k
    have h2 := h t.stage
    rw [rep_stalledAt r, e] at h1 h2
    simp at h1 h2
    omega

/-- C21: in every legal history the pipeline returns what the specification (a row of stages, an append slot
and a stall) returns: every read, every exception, the handlers scheduled and cancelled. -/
theorem C21_refines {n : Nat} {regd : Nat → Bool} {m : PL α} (hn : n < 2 ^ 31) (hm : PL.init α n regd = some m)
    (os : List (Op α)) (hl : Legal n regd os) :
    (runOps PL.step m os).2 = (runOps Spec.step (Spec.init α n regd) os).2 :=
  (runOps_simulation_legal PL.step Spec.step Spec.legal Rep rep_step _ _ (rep_init hn hm) os hl).2

/-- C21: an update loses, duplicates and reorders nothing: the items (oldest first) are the same afterwards,
except that the item of the last stage leaves unless the last stage is stalled. -/
theorem C21_order {n : Nat} {regd : Nat → Bool} {m : PL α} (hn : n < 2 ^ 31) (hm : PL.init α n regd = some m)
    (os : List (Op α)) (hl : Legal n regd os) :
    items n (after m os) =
      (if (after m os).isStalledAt (n - 1) then [] else ((after m os).pipe.read (n - 1)).toList)
        ++ items n ((after m os).step .update).1 := by
  have r := run_rep hn hm os hl
  have ok := spec_ok hm os
  have hsn := spec_n n regd os
  have r2 := (rep_update_step r).1
  have hn2 : (specAfter α n regd os).shift.tick.n = n := by
    rw [(tick_same _).1, (shift_same _).1, hsn]
  have i1 := rep_items r
  have i2 := rep_items r2
  rw [hsn] at i1
  rw [hn2] at i2
  rw [i1, i2, items_tick, rep_stalledAt r, r.d.read, hsn]
  generalize specAfter α n regd os = s at *
  rw [items_shift s ok.1 (fun t ht => (ok.2 t ht).1), hsn]
  have hpos : 0 < n := by rw [← hsn]; exact ok.1
  rw [if_pos (show n - 1 < n by omega)]
  cases hs : s.stall with
  | none => simp
  | some t =>
    dsimp only
    by_cases h : t.stage < n - 1
    · rw [if_pos (by simpa using h), if_neg (by simp; omega)]
    · rw [if_neg (by simpa using h), if_pos (by simp; omega)]

/-- C21: behind a stall at stage `k` everything advances by one stage, and stage `k + 1` becomes empty. -/
theorem C21_after_stall {n : Nat} {regd : Nat → Bool} {m : PL α} (hn : n < 2 ^ 31) (hm : PL.init α n regd = some m)
    (os : List (Op α)) (hl : Legal n regd os) (k : Nat) (hk : StalledUpTo (after m os) k) :
    (∀ j, k < j → j + 1 < n → ((after m os).step .update).1.pipe.read (j + 1) = (after m os).pipe.read j) ∧
    (k + 1 < n → ((after m os).step .update).1.pipe.read (k + 1) = none) := by
  have r := run_rep hn hm os hl
  have ok := spec_ok hm os
  have hsn := spec_n n regd os
  have r2 := (rep_update_step r).1
  obtain ⟨t, hs, ht⟩ := stalledUpTo_spec r hk
  have hn2 : (specAfter α n regd os).shift.tick.n = n := by rw [(tick_same _).1, (shift_same _).1, hsn]
  have hst2 : (specAfter α n regd os).shift.tick.stage = (specAfter α n regd os).shift.stage := (tick_same _).2.1
  generalize specAfter α n regd os = s at *
  obtain ⟨a, b, c, d, e⟩ := ok.2 t hs
  constructor
  · intro j hj hjn
    rw [r2.d.read, hn2, if_pos hjn, r.d.read, hsn, if_pos (by omega), hst2]
    have hlj : s.leaves t j = true := leaves_after s t (by omega) (by omega)
    cases ho : s.stage j with
    | some x => rw [← ho]; exact shift_move s hs (by simp [Spec.occupied, ho]) hlj
    | none =>
      exact shift_empty s hs (by omega) (Or.inr (leaves_after s t (by omega) (by omega)))
        (Or.inl (by simp [Spec.occupied, ho]))
  · intro hkn
    rw [r2.d.read, hn2, if_pos hkn, hst2]
    refine shift_empty s hs (by omega) (Or.inr (leaves_after s t (by omega) (by omega))) (Or.inr ?_)
    rw [Nat.add_sub_cancel, ← ht, leaves_succ s t (by omega)]
    simp [c]

/-- C21: with a stall that does not crush bubbles, every stage up to the stalling one keeps its item, and
those that were empty stay empty (except that the appended item may enter stage 0). -/
theorem C21_before_stall {n : Nat} {regd : Nat → Bool} {m : PL α} (hn : n < 2 ^ 31) (hm : PL.init α n regd = some m)
    (os : List (Op α)) (hl : Legal n regd os) (t : Stall) (hs : (specAfter α n regd os).stall = some t)
    (hc : t.crush = false) (j : Nat) (hj : j ≤ t.stage) :
    (∀ x, (after m os).pipe.read j = some x → ((after m os).step .update).1.pipe.read j = some x) ∧
    (0 < j → (after m os).pipe.read j = none → ((after m os).step .update).1.pipe.read j = none) := by
  have r := run_rep hn hm os hl
  have ok := spec_ok hm os
  have hsn := spec_n n regd os
  have r2 := (rep_update_step r).1
  have hn2 : (specAfter α n regd os).shift.tick.n = n := by rw [(tick_same _).1, (shift_same _).1, hsn]
  have hst2 : (specAfter α n regd os).shift.tick.stage = (specAfter α n regd os).shift.stage := (tick_same _).2.1
  generalize specAfter α n regd os = s at *
  obtain ⟨a, b, c, d, e⟩ := ok.2 t hs
  have hnl : ∀ i, i ≤ t.stage → s.leaves t i = false := by
    intro i hi
    cases h : s.leaves t i with
    | false => rfl
    | true =>
      obtain ⟨i', h1, h2, h3, h4⟩ := (leaves_iff s t a c hi).1 h
      have := h4 i (Nat.le_refl _) h1
      rw [e hc i hi] at this; cases this
  rw [r2.d.read, hn2, if_pos (show j < n by omega), r.d.read, hsn, if_pos (show j < n by omega), hst2]
  constructor
  · intro x hx
    rw [shift_stay s hs (by omega) (by simp [Spec.occupied, hx]) (hnl j hj), hx]
  · intro h0 hx
    exact shift_empty s hs h0 (Or.inl hx) (Or.inr (hnl _ (by omega)))

/-- C21: with any stall, an item in front of the stalling stage moves up by one exactly when there is an
empty stage ahead of it (not beyond the stalling stage) and neither it nor an item in between is held;
otherwise it stays. -/
theorem C21_bubbles {n : Nat} {regd : Nat → Bool} {m : PL α} (hn : n < 2 ^ 31) (hm : PL.init α n regd = some m)
    (os : List (Op α)) (hl : Legal n regd os) (t : Stall) (hs : (specAfter α n regd os).stall = some t)
    (j : Nat) (hj : j ≤ t.stage) (x : α) (hx : (after m os).pipe.read j = some x) :
    ((∃ i, j < i ∧ i ≤ t.stage ∧ (after m os).pipe.read i = none ∧ ∀ i', j ≤ i' → i' < i → t.held i' = false) →
      ((after m os).step .update).1.pipe.read (j + 1) = some x) ∧
    (¬ (∃ i, j < i ∧ i ≤ t.stage ∧ (after m os).pipe.read i = none ∧ ∀ i', j ≤ i' → i' < i → t.held i' = false) →
      ((after m os).step .update).1.pipe.read j = some x) := by
  have r := run_rep hn hm os hl
  have ok := spec_ok hm os
  have hsn := spec_n n regd os
  have r2 := (rep_update_step r).1
  have hn2 : (specAfter α n regd os).shift.tick.n = n := by rw [(tick_same _).1, (shift_same _).1, hsn]
  have hst2 : (specAfter α n regd os).shift.tick.stage = (specAfter α n regd os).shift.stage := (tick_same _).2.1
  generalize specAfter α n regd os = s at *
  obtain ⟨a, b, c, d, e⟩ := ok.2 t hs
  rw [r.d.read, hsn, if_pos (show j < n by omega)] at hx
  have hiff : (∃ i, j < i ∧ i ≤ t.stage ∧ (after m os).pipe.read i = none ∧ ∀ i', j ≤ i' → i' < i → t.held i' = false)
      ↔ s.leaves t j = true := by
    rw [leaves_iff s t a c hj]
    constructor
    · rintro ⟨i, h1, h2, h3, h4⟩
      rw [r.d.read, hsn, if_pos (show i < n by omega)] at h3
      exact ⟨i, h1, h2, by simp [Spec.occupied, h3], h4⟩
    · rintro ⟨i, h1, h2, h3, h4⟩
      refine ⟨i, h1, h2, ?_, h4⟩
      rw [r.d.read, hsn, if_pos (show i < n by omega)]
      unfold Spec.occupied at h3
      cases h : s.stage i <;> simp_all
  rw [hiff]
  have ho : s.occupied j = true := by simp [Spec.occupied, hx]
  constructor
  · intro h
    have hjn : j + 1 < n := by
      obtain ⟨i, h1, h2, _⟩ := (leaves_iff s t a c hj).1 h
      omega
    rw [r2.d.read, hn2, if_pos hjn, hst2, shift_move s hs ho h, hx]
  · intro h
    have : s.leaves t j = false := by simpa using h
    rw [r2.d.read, hn2, if_pos (by omega), hst2, shift_stay s hs (by omega) ho this, hx]

/-- C21: which stages a stall holds: without crushing all stages up to the stalling one, with crushing those
which had no empty stage between themselves and the stalling one when the stall was requested. -/
theorem C21_held {n : Nat} {regd : Nat → Bool} {m : PL α} (hn : n < 2 ^ 31) (hm : PL.init α n regd = some m)
    (os : List (Op α)) (hl : Legal n regd os) (k c : Nat) (crush suppress : Bool) (hc : 0 < c)
    (hok : ((after m os).step (.stall k c crush suppress)).2 = .ok) :
    StalledUpTo ((after m os).step (.stall k c crush suppress)).1 k ∧
    ∃ t, (specAfter α n regd (os ++ [.stall k c crush suppress])).stall = some t ∧ t.stage = k ∧ t.crush = crush ∧
      ∀ j, t.held j = true ↔ j ≤ k ∧ (crush = true → ∀ i, j ≤ i → i ≤ k → ((after m os).pipe.read i).isSome = true) := by
  have r := run_rep hn hm os hl
  have hsn := spec_n n regd os
  obtain ⟨r2, he⟩ := rep_step _ _ (.stall k c crush suppress) r trivial
  have hsp : specAfter α n regd (os ++ [.stall k c crush suppress]) =
      ((specAfter α n regd os).step (.stall k c crush suppress)).1 := by
    unfold specAfter; rw [runOps_append]; rfl
  rw [hsp]
  generalize specAfter α n regd os = s at *
  rw [he] at hok
  simp only [Spec.step] at hok r2 ⊢
  by_cases hk : k < s.n ∧ s.occupied k = true ∧ s.stall.isNone = true
  · rw [if_pos hk, if_neg (by omega)] at r2
    rw [if_pos hk, if_neg (show ¬ c = 0 by omega)]
    constructor
    · intro j
      rw [rep_stalledAt r2]
    · refine ⟨_, rfl, rfl, rfl, fun j => ?_⟩
      dsimp only
      cases crush with
      | false => rw [heldBy_nocrush]; simp
      | true =>
        rw [heldBy_crush]
        constructor
        · rintro ⟨h1, h2⟩
          refine ⟨h1, fun _ i hi hi2 => ?_⟩
          rw [r.d.read, if_pos (by omega)]
          exact h2 i hi hi2
        · rintro ⟨h1, h2⟩
          refine ⟨h1, fun i hi hi2 => ?_⟩
          have := h2 rfl i hi hi2
          rw [r.d.read, if_pos (by omega)] at this
          exact this
  · rw [if_neg hk] at hok; cases hok

/-- calls that may end a stall early -/
def endsStall (k : Nat) : Op α → Bool
  | .clearStall => true
  | .flushStage j => decide (j = k)
  | .flushAllStages => true
  | _ => false

/-- number of updates in a history -/
def updates : List (Op α) → Nat
  | [] => 0
  | .update :: os => updates os + 1
  | _ :: os => updates os

theorem spec_duration (s : Spec α) (t : Stall) (hs : s.stall = some t) (os : List (Op α))
    (he : ∀ o ∈ os, endsStall t.stage o = false) (hu : updates os < t.cycles) :
    (runOps Spec.step s os).1.stall = some { t with cycles := t.cycles - updates os } := by
  induction os generalizing s t with
  | nil => simp [runOps, updates, hs]
  | cons o os ih =>
    have he1 := he o (List.mem_cons_self ..)
    have he2 : ∀ o ∈ os, endsStall t.stage o = false := fun x hx => he x (List.mem_cons_of_mem _ hx)
    have keep : (s.step o).1.stall = some t → updates (o :: os) = updates os →
        (runOps Spec.step s (o :: os)).1.stall = some { t with cycles := t.cycles - updates (o :: os) } := by
      intro h1 h2
      rw [h2] at hu ⊢
      exact ih (s.step o).1 t h1 he2 hu
    cases o with
    | update =>
      have hu' : updates os + 1 < t.cycles := hu
      have h1 : (s.step .update).1.stall = some { t with cycles := t.cycles - 1 } := by
        show s.shift.tick.stall = _
        unfold Spec.tick
        rw [(shift_same s).2.2.2, hs]
        dsimp only
        rw [if_neg (by omega)]
      have := ih (s.step .update).1 { t with cycles := t.cycles - 1 } h1 he2 (by show updates os < t.cycles - 1; omega)
      show (runOps Spec.step (s.step .update).1 os).1.stall = _
      rw [this]
      show some _ = some _
      congr 2
      show t.cycles - 1 - updates os = t.cycles - (updates os + 1)
      omega
    | append x => refine keep ?_ rfl; simp only [Spec.step]; split <;> exact hs
    | writeStage k x => refine keep ?_ rfl; simp only [Spec.step]; split <;> exact hs
    | invalidateStage k => refine keep ?_ rfl; simp only [Spec.step]; split <;> exact hs
    | activate k => refine keep ?_ rfl; simp only [Spec.step]; split <;> exact hs
    | deactivate k => refine keep ?_ rfl; simp only [Spec.step]; split <;> exact hs
    | stall k c a b => refine keep ?_ rfl; simp only [Spec.step, hs]; simp [hs]
    | clearStall => cases he1
    | flushStage k =>
      refine keep ?_ rfl
      simp only [Spec.step]
      split
      · have : ¬ k = t.stage := by simpa [endsStall] using he1
        unfold Spec.flush
        rw [hs, if_neg (by simpa using fun e => this e.symm)]
        exact hs
      · exact hs
    | flushAllStages => cases he1
    | _ => exact keep hs rfl

/-- C21: a stall lasts exactly the requested number of updates, unless it is cleared or its stage flushed. -/
theorem C21_duration {n : Nat} {regd : Nat → Bool} {m : PL α} (hn : n < 2 ^ 31) (hm : PL.init α n regd = some m)
    (os os2 : List (Op α)) (k c : Nat) (crush suppress : Bool)
    (hl : Legal n regd (os ++ .stall k c crush suppress :: os2)) (hc : 0 < c)
    (hok : ((after m os).step (.stall k c crush suppress)).2 = .ok)
    (he : ∀ o ∈ os2, endsStall k o = false) :
    (updates os2 < c → StalledUpTo (after m (os ++ .stall k c crush suppress :: os2)) k) ∧
    (updates os2 + 1 = c →
      (after m (os ++ .stall k c crush suppress :: os2 ++ [.update])).isStalled = false) := by
  have legal_app : ∀ (a b : List (Op α)) (s : Spec α), legalOps Spec.step Spec.legal s (a ++ b) →
      legalOps Spec.step Spec.legal s a ∧ legalOps Spec.step Spec.legal (runOps Spec.step s a).1 b := by
    intro a b
    induction a with
    | nil => intro s h; exact ⟨trivial, h⟩
    | cons o a ih => intro s h; exact ⟨⟨h.1, (ih _ h.2).1⟩, (ih _ h.2).2⟩
  have hl1 := (legal_app os _ _ hl).1
  obtain ⟨_, t, ht, htk, htc, _⟩ := C21_held hn hm os hl1 k c crush suppress hc hok
  have htcy : t.cycles = c := by
    have hsp : specAfter α n regd (os ++ [.stall k c crush suppress]) =
      ((specAfter α n regd os).step (.stall k c crush suppress)).1 := by
      unfold specAfter; rw [runOps_append]; rfl
    rw [hsp] at ht
    have r := run_rep hn hm os hl1
    have he := (rep_step _ _ (.stall k c crush suppress) r trivial).2
    rw [hok] at he
    simp only [Spec.step] at ht he
    split at ht
    · rw [if_neg (by omega)] at ht
      cases ht; rfl
    · rename_i h; rw [if_neg h] at he; cases he
  have hrun : specAfter α n regd (os ++ .stall k c crush suppress :: os2) =
      (runOps Spec.step (specAfter α n regd (os ++ [.stall k c crush suppress])) os2).1 := by
    unfold specAfter
    rw [← runOps_append]
    simp
  have hd : updates os2 < c → (specAfter α n regd (os ++ .stall k c crush suppress :: os2)).stall =
      some { t with cycles := t.cycles - updates os2 } := by
    intro h
    rw [hrun]
    exact spec_duration _ t ht os2 (by rw [htk]; exact he) (by omega)
  have r := run_rep hn hm _ hl
  constructor
  · intro h j
    rw [rep_stalledAt r, hd h]
    dsimp only
    rw [htk]
  · intro h
    have hd' := hd (by omega)
    have r2 := (rep_update_step r).1
    have : after m (os ++ .stall k c crush suppress :: os2 ++ [.update]) =
        ((after m (os ++ .stall k c crush suppress :: os2)).step .update).1 := by
      unfold after; rw [runOps_append]; rfl
    rw [this, r2.stalled]
    unfold Spec.tick
    rw [(shift_same _).2.2.2, hd']
    dsimp only
    rw [if_pos (by omega), unstall_stall]; rfl

/-! C80: handlers -/

/-- does the user want the handlers of stage `j` to run: the last activate or deactivate call decides -/
def wants (os : List (Op α)) (j : Nat) : Bool :=
  os.foldl (fun b o => match o with
    | .activate k => if k = j then true else b
    | .deactivate k => if k = j then false else b
    | _ => b) true

/-- the handlers of stage `j` are suppressed by the current stall -/
def Spec.muted (s : Spec α) (j : Nat) : Bool :=
  match s.stall with | some t => t.suppress && t.held j | none => false

/-- histories in which the user does not mix their own activation of handlers with stalls: a stall starts
only when the handlers up to its stage are active, and they are not (de)activated during it -/
def Spec.handlerLegal (s : Spec α) (o : Op α) : Prop :=
  s.legal o ∧ match o with
  | .stall k _ _ _ => ∀ j, j ≤ k → s.regd j = true → s.active j = true
  | .activate k => ∀ t, s.stall = some t → t.stage < k
  | .deactivate k => ∀ t, s.stall = some t → t.stage < k
  | _ => True

theorem wants_append (os : List (Op α)) (o : Op α) (j : Nat) : wants (os ++ [o]) j = (match o with
    | .activate k => if k = j then true else wants os j
    | .deactivate k => if k = j then false else wants os j
    | _ => wants os j) := by
  unfold wants
  rw [List.foldl_append]
  cases o <;> rfl

/-- flags of the specification in such histories -/
def ActiveOk (s : Spec α) (w : Nat → Bool) : Prop :=
  (∀ j, j < s.n → s.active j = (s.regd j && w j && !s.muted j)) ∧
  (∀ t, s.stall = some t → ∀ j, j ≤ t.stage → s.regd j = true → w j = true)

theorem ActiveOk.data {s s' : Spec α} {w : Nat → Bool} (h : ActiveOk s w) (h1 : s'.n = s.n) (h2 : s'.active = s.active)
    (h3 : s'.regd = s.regd) (h4 : s'.stall = s.stall) : ActiveOk s' w := by
  unfold ActiveOk Spec.muted at *
  rw [h1, h2, h3, h4]; exact h

theorem muted_le {s : Spec α} (ok : SOk s) {t : Stall} (ht : s.stall = some t) {j : Nat} (h : t.stage < j) :
    s.muted j = false := by
  unfold Spec.muted
  rw [ht]
  simp [(ok.2 t ht).2.2.2.1 j h]

theorem ActiveOk.unstall {s : Spec α} {w : Nat → Bool} (ok : SOk s) (h : ActiveOk s w) : ActiveOk s.unstall w := by
  cases hs : s.stall with
  | none =>
    have : s.unstall = s := by unfold Spec.unstall; rw [hs]
    rw [this]; exact h
  | some t =>
    refine ⟨fun j hj => ?_, fun t' ht' => by rw [unstall_stall] at ht'; cases ht'⟩
    rw [unstall_n] at hj
    have hm : s.unstall.muted j = false := by unfold Spec.muted; rw [unstall_stall]
    rw [hm, unstall_regd]
    have h1 := h.1 j hj
    by_cases hle : j ≤ t.stage
    · have h2 := h.2 t hs j hle
      unfold Spec.unstall
      rw [hs]
      dsimp only
      rw [h1]
      cases hr : s.regd j with
      | false => simp
      | true => rw [h2 hr]; simp [hle]
    · rw [unstall_active s hs (by omega), h1, muted_le ok hs (by omega)]

theorem ActiveOk.step {s : Spec α} {os : List (Op α)} (ok : SOk s) (h : ActiveOk s (wants os)) (o : Op α)
    (hl : s.handlerLegal o) : ActiveOk (s.step o).1 (wants (os ++ [o])) := by
  have hw : ∀ f : Nat → Bool, (∀ j, f j = wants os j) → f = wants os := fun f hf => funext hf
  cases o with
  | activate k =>
    simp only [Spec.step]
    by_cases hk : k < s.n ∧ s.regd k = true
    · rw [if_pos hk]
      refine ⟨fun j hj => ?_, fun t ht j hj hr => ?_⟩
      · show (if j = k then true else s.active j) = _
        rw [wants_append]
        dsimp only
        by_cases e : j = k
        · subst e
          rw [if_pos rfl, if_pos rfl]
          have : s.muted j = false := by
            cases hs : s.stall with
            | none => unfold Spec.muted; rw [hs]
            | some t => exact muted_le ok hs (hl.2 t hs)
          have hm : ({ s with active := fun i => if i = j then true else s.active i } : Spec α).muted j = s.muted j := rfl
          rw [hm, this, hk.2]; rfl
        · rw [if_neg e, if_neg (fun h => e h.symm)]
          exact h.1 j hj
      · rw [wants_append]
        dsimp only
        split
        · rfl
        · exact h.2 t ht j hj hr
    · rw [if_neg hk]
      refine ⟨fun j hj => ?_, fun t ht j hj hr => ?_⟩
      · rw [wants_append]
        dsimp only
        rw [h.1 j hj]
        by_cases e : k = j
        · subst e
          have : s.regd k = false := by
            cases hr : s.regd k with
            | false => rfl
            | true => exact absurd ⟨hj, hr⟩ hk
          rw [this]; rfl
        · rw [if_neg e]
      · rw [wants_append]
        dsimp only
        split
        · rfl
        · exact h.2 t ht j hj hr
  | deactivate k =>
    simp only [Spec.step]
    have hst : ∀ t, s.stall = some t → ∀ j, j ≤ t.stage → s.regd j = true → wants (os ++ [Op.deactivate k]) j = true := by
      intro t ht j hj hr
      rw [wants_append]
      dsimp only
      have := hl.2 t ht
      rw [if_neg (by omega)]
      exact h.2 t ht j hj hr
    by_cases hk : k < s.n ∧ s.regd k = true
    · rw [if_pos hk]
      refine ⟨fun j hj => ?_, hst⟩
      show (if j = k then false else s.active j) = _
      rw [wants_append]
      dsimp only
      by_cases e : j = k
      · subst e
        rw [if_pos rfl, if_pos rfl]; simp
      · rw [if_neg e, if_neg (fun h => e h.symm)]
        exact h.1 j hj
    · rw [if_neg hk]
      refine ⟨fun j hj => ?_, hst⟩
      rw [wants_append]
      dsimp only
      rw [h.1 j hj]
      by_cases e : k = j
      · subst e
        have : s.regd k = false := by
          cases hr : s.regd k with
          | false => rfl
          | true => exact absurd ⟨hj, hr⟩ hk
        rw [this]; rfl
      · rw [if_neg e]
  | stall k c crush suppress =>
    rw [hw (wants (os ++ [Op.stall k c crush suppress])) (fun j => wants_append _ _ _)]
    simp only [Spec.step]
    split
    · rename_i hk
      split
      · exact h
      · have hns : s.stall = none := by cases e : s.stall with
          | none => rfl
          | some t => rw [e] at hk; simp at hk
        refine ⟨fun j hj => ?_, fun t ht j hj hr => ?_⟩
        · have h1 := h.1 j hj
          have hm : s.muted j = false := by unfold Spec.muted; rw [hns]
          rw [hm] at h1
          show (s.active j && !(suppress && s.heldBy k crush j)) = (s.regd j && wants os j && !(suppress && s.heldBy k crush j))
          rw [h1]; simp
        · cases ht
          have ha := hl.2 j hj hr
          have h1 := h.1 j (by have : j ≤ k := hj; omega)
          rw [ha] at h1
          simp only [Bool.true_eq, Bool.and_eq_true] at h1
          exact h1.1.2
    · exact h
  | clearStall =>
    rw [hw (wants (os ++ [Op.clearStall])) (fun j => wants_append _ _ _)]
    simp only [Spec.step]; split
    · exact h.unstall ok
    · exact h
  | flushStage k =>
    rw [hw (wants (os ++ [Op.flushStage k])) (fun j => wants_append _ _ _)]
    simp only [Spec.step]; split
    · unfold Spec.flush
      dsimp only
      split
      · exact (h.unstall ok).data rfl rfl rfl rfl
      · exact h.data rfl rfl rfl rfl
    · exact h
  | flushAllStages =>
    rw [hw (wants (os ++ [Op.flushAllStages])) (fun j => wants_append _ _ _)]
    exact (h.unstall ok).data rfl rfl rfl rfl
  | update =>
    rw [hw (wants (os ++ [Op.update])) (fun j => wants_append _ _ _)]
    obtain ⟨e1, e2, e3, e4⟩ := shift_same s
    have h' := h.data (s' := s.shift) e1 e3 e2 e4
    show ActiveOk s.shift.tick _
    have ok' : SOk s.shift := ok.same e1 (Or.inl e4)
    unfold Spec.tick
    split
    · exact h'
    · rename_i t ht
      split
      · exact h'.unstall ok'
      · refine ⟨fun j hj => ?_, fun t' ht' j hj hr => ?_⟩
        · have h1 := h'.1 j hj
          unfold Spec.muted at h1 ⊢
          rw [ht] at h1
          exact h1
        · cases ht'
          exact h'.2 t ht j hj hr
  | append x =>
    rw [hw (wants (os ++ [Op.append x])) (fun j => wants_append _ _ _)]
    simp only [Spec.step]; split <;> exact h.data rfl rfl rfl rfl
  | writeStage k x =>
    rw [hw (wants (os ++ [Op.writeStage k x])) (fun j => wants_append _ _ _)]
    simp only [Spec.step]; split <;> exact h.data rfl rfl rfl rfl
  | invalidateStage k =>
    rw [hw (wants (os ++ [Op.invalidateStage k])) (fun j => wants_append _ _ _)]
    simp only [Spec.step]; split <;> exact h.data rfl rfl rfl rfl
  | _ =>
    rw [hw (wants (os ++ [_])) (fun j => wants_append _ _ _)]
    exact h.data rfl rfl rfl rfl

theorem active_run (os2 : List (Op α)) : ∀ (os : List (Op α)) (s : Spec α), SOk s → ActiveOk s (wants os) →
    legalOps Spec.step Spec.handlerLegal s os2 →
    ActiveOk (runOps Spec.step s os2).1 (wants (os ++ os2)) := by
  induction os2 with
  | nil => intro os s _ h _; rw [List.append_nil]; exact h
  | cons o os2 ih =>
    intro os s ok h hl
    have := ih (os ++ [o]) (s.step o).1 (ok.step o) (h.step ok o hl.1) hl.2
    rw [List.append_assoc] at this
    exact this

theorem legal_of_handler (os : List (Op α)) : ∀ s : Spec α, legalOps Spec.step Spec.handlerLegal s os →
    legalOps Spec.step Spec.legal s os := by
  induction os with
  | nil => intro s _; trivial
  | cons o os ih => intro s h; exact ⟨h.1.1, ih _ h.2⟩

theorem step_regd (s : Spec α) (o : Op α) : (s.step o).1.regd = s.regd := by
  cases o <;> simp only [Spec.step] <;> (try split) <;> (try split) <;> (try rfl)
  · exact unstall_regd s
  · unfold Spec.flush; dsimp only; split
    · exact unstall_regd s
    · rfl
  · unfold Spec.flush; dsimp only; split
    · exact unstall_regd s
    · rfl
  · exact unstall_regd s
  · rw [(tick_same _).2.2.2, (shift_same s).2.1]

theorem spec_regd (n : Nat) (regd : Nat → Bool) (os : List (Op α)) : (specAfter α n regd os).regd = regd := by
  unfold specAfter
  suffices h : ∀ s : Spec α, (runOps Spec.step s os).1.regd = s.regd from h _
  induction os with
  | nil => intro s; rfl
  | cons o os ih => intro s; exact (ih _).trans (step_regd s o)

/-- C80 (partial: the user does not (de)activate the handlers of stages affected by a stall). An update
schedules, in stage order, the handlers of exactly the stages that hold an item after the movement, have
handlers, are not deactivated by the user and are not suppressed by the stall; each gets the item of its
stage. -/
theorem C80_handlers_partial {n : Nat} {regd : Nat → Bool} {m : PL α} (hn : n < 2 ^ 31)
    (hm : PL.init α n regd = some m) (os : List (Op α))
    (hl : legalOps Spec.step Spec.handlerLegal (Spec.init α n regd) os) :
    ((after m os).step .update).2 = .sched ((List.range n).filterMap fun j =>
      if regd j && wants os j && !(specAfter α n regd os).muted j then
        (((after m os).step .update).1.pipe.read j).map fun x => (j, x) else none) := by
  have hl' := legal_of_handler os _ hl
  have r := run_rep hn hm os hl'
  have hsn := spec_n n regd os
  have hr := spec_regd n regd os
  obtain ⟨r2, hres⟩ := rep_update_step r
  have hok : SOk (Spec.init α n regd) := spec_ok hm []
  have hact := active_run os [] (Spec.init α n regd) hok
    ⟨fun j _ => by simp [Spec.init, wants, Spec.muted], fun t ht => by cases ht⟩ hl
  rw [List.nil_append] at hact
  have hact' : ActiveOk (specAfter α n regd os) (wants os) := hact
  have hn2 : (specAfter α n regd os).shift.tick.n = n := by rw [(tick_same _).1, (shift_same _).1, hsn]
  have hst2 : (specAfter α n regd os).shift.tick.stage = (specAfter α n regd os).shift.stage := (tick_same _).2.1
  rw [hres]
  unfold Spec.fires
  rw [(shift_same _).1, hsn]
  congr 1
  have key : ∀ l : List Nat, (∀ j ∈ l, j < n) →
      l.filterMap (fun j => if (specAfter α n regd os).shift.active j then
        ((specAfter α n regd os).shift.stage j).map fun x => (j, x) else none) =
      l.filterMap (fun j => if regd j && wants os j && !(specAfter α n regd os).muted j then
        (((after m os).step .update).1.pipe.read j).map fun x => (j, x) else none) := by
    intro l hl
    induction l with
    | nil => rfl
    | cons a l ih =>
      have ha := hl a (List.mem_cons_self ..)
      rw [List.filterMap_cons, List.filterMap_cons, ih (fun j hj => hl j (List.mem_cons_of_mem _ hj)),
        (shift_same _).2.2.1, hact'.1 a (by rw [hsn]; exact ha), hr, r2.d.read, hn2, if_pos ha, hst2]
  exact key _ (fun j hj => List.mem_range.1 hj)

/-- C80: the scheduled handlers are exactly those of occupied stages with the code's own activity flags, in
every legal history (no assumption on activation). -/
theorem C80_exact {n : Nat} {regd : Nat → Bool} {m : PL α} (hn : n < 2 ^ 31)
    (hm : PL.init α n regd = some m) (os : List (Op α)) (hl : Legal n regd os) (j : Nat) (x : α) :
    (∃ l, ((after m os).step .update).2 = .sched l ∧
      ((j, x) ∈ l ↔ j < n ∧ (after m os).evOk j = true ∧ ((after m os).step .update).1.pipe.read j = some x)) := by
  have r := run_rep hn hm os hl
  have hsn := spec_n n regd os
  obtain ⟨r2, hres⟩ := rep_update_step r
  have hn2 : (specAfter α n regd os).shift.tick.n = n := by rw [(tick_same _).1, (shift_same _).1, hsn]
  have hst2 : (specAfter α n regd os).shift.tick.stage = (specAfter α n regd os).shift.stage := (tick_same _).2.1
  refine ⟨_, hres, ?_⟩
  unfold Spec.fires
  rw [(shift_same _).1, hsn, List.mem_filterMap]
  constructor
  · rintro ⟨i, hi, h⟩
    have hi' := List.mem_range.1 hi
    split at h
    · rename_i ha
      obtain ⟨y, hy, he⟩ := Option.map_eq_some_iff.1 h
      cases he
      refine ⟨hi', ?_, ?_⟩
      · rw [r.ev _ (by rw [hsn]; exact hi'), ← (shift_same (specAfter α n regd os)).2.2.1]; exact ha
      · rw [r2.d.read, hn2, if_pos hi', hst2]; exact hy
    · cases h
  · rintro ⟨h1, h2, h3⟩
    refine ⟨j, List.mem_range.2 h1, ?_⟩
    rw [r.ev _ (by rw [hsn]; exact h1)] at h2
    rw [r2.d.read, hn2, if_pos h1, hst2] at h3
    rw [(shift_same (specAfter α n regd os)).2.2.1, h2, h3]; rfl

/-! Concrete histories. A 4-stage pipeline with handlers at all stages. -/

def demo (α : Type) : PL α := (PL.init α 4 (fun _ => true)).getD
  ⟨⟨0, 0, fun _ => none, 0, 0, false, false⟩, fun _ => true, fun _ => true, fun _ => true, 0, none, false, false⟩
theorem demo_init (α : Type) : PL.init α 4 (fun _ => true) = some (demo α) := rfl

/-- a stall with a bubble behind it: items 1, 2, 3 in stages 3, 2 and 0 -/
def demoOps : List (Op Nat) :=
  [.append 1, .update, .append 2, .update, .update, .append 3, .update, .append 4, .stall 2 2 false true]

example : Legal 4 (fun _ => true) demoOps := by decide
example : items 4 (after (demo Nat) demoOps) = [1, 2, 3, 4] := by decide
example : StalledUpTo (after (demo Nat) demoOps) 2 := by
  intro j
  show (true && decide (j ≤ 2)) = decide (j ≤ 2)
  simp
example : items 4 ((after (demo Nat) demoOps).step .update).1 = [2, 3, 4] := by decide
example : ((after (demo Nat) demoOps).step .update).2 = .sched [] := by decide
example : (after (demo Nat) demoOps).pipe.read 2 = some 2 ∧
    ((after (demo Nat) demoOps).step .update).1.pipe.read 2 = some 2 := by decide
/-- crushing the bubble -/
example : (((after (demo Nat) (demoOps.dropLast ++ [.stall 2 2 true true])).step .update).1.pipe.read 1 = some 3) ∧
    (((after (demo Nat) (demoOps.dropLast ++ [.stall 2 2 true true])).step .update).1.pipe.read 0 = some 4) ∧
    (((after (demo Nat) (demoOps.dropLast ++ [.stall 2 2 true true])).step .update).2 = .sched [(0, 4), (1, 3)]) := by
  decide
example : updates ([.update, .numValid] : List (Op Nat)) + 1 = 2 ∧
    (after (demo Nat) (demoOps ++ [.update, .numValid])).isStalled = true ∧
    (after (demo Nat) (demoOps ++ [.update, .numValid, .update])).isStalled = false := by decide
example : ((after (demo Nat) demoOps.dropLast).step (.stall 2 2 false true)).2 = .ok := by decide
example : legalOps Spec.step Spec.handlerLegal (Spec.init Nat 4 (fun _ => true))
    [.append 1, .update, .deactivate 1, .update, .activate 1, .stall 1 1 false true] := by
  refine ⟨⟨trivial, trivial⟩, ⟨trivial, trivial⟩, ⟨trivial, fun t h => by cases h⟩, ⟨trivial, trivial⟩,
    ⟨trivial, fun t h => by cases h⟩, ⟨trivial, ?_⟩, trivial⟩
  intro j hj _
  have : j = 0 ∨ j = 1 := by omega
  rcases this with h | h <;> subst h <;> decide

/-- C21: invalidating (rather than flushing) the item of the stalling stage is outside the legal histories for
a reason: with own updates the stall then never ends by itself, however many cycles pass, although only two
cycles were requested. -/
theorem C21_invalidated_stall_violated :
    ∃ os : List (Op Nat), ∀ k, (after (demo Nat) (os ++ List.replicate k .update)).isStalled = true ∧
      Op.stall 0 2 false true ∈ os := by
  refine ⟨[.performOwnUpdates, .append 7, .update, .stall 0 2 false true, .invalidateStage 0, .update], ?_⟩
  intro k
  refine ⟨?_, by simp⟩
  unfold after
  rw [runOps_append]
  have h : ∀ m : PL Nat, m.own = true → m.pending = false → ∀ k, (runOps PL.step m (List.replicate k .update)).1 = m := by
    intro m h1 h2 k
    induction k with
    | zero => rfl
    | succ k ih =>
      rw [List.replicate_succ]
      show (runOps PL.step (m.step .update).1 (List.replicate k .update)).1 = m
      have : (m.step .update).1 = m := by
        simp only [PL.step, h1, if_true, PL.cycle, h2, Bool.false_eq_true, if_false]; rfl
      rw [this]; exact ih
  rw [h]
  · decide
  · decide
  · decide

/-- C80: a handler the user deactivated runs again after a stall, without being activated. -/
theorem C80_reactivated_violated :
    ∃ os : List (Op Nat), Legal 4 (fun _ => true) os ∧ wants os 0 = false ∧
      ((after (demo Nat) os).step .update).2 = .sched [(0, 8), (1, 7)] :=
  ⟨[.deactivate 0, .append 7, .update, .stall 0 1 false true, .update, .append 8], by decide, by decide, by decide⟩

/-- C80: with bubble crushing, an item that is stuck behind a stall runs its handler again every cycle, even
though the stall was requested with suppressed handlers. -/
theorem C80_stuck_item_violated :
    ∃ os : List (Op Nat), Legal 4 (fun _ => true) os ∧ Op.stall 2 9 true true ∈ os ∧
      ((after (demo Nat) os).step .update).2 = .sched [(1, 2)] ∧
      ((after (demo Nat) (os ++ [.update])).step .update).2 = .sched [(1, 2)] ∧
      (after (demo Nat) os).pipe.read 1 = some 2 ∧
      (after (demo Nat) (os ++ [.update, .update])).pipe.read 1 = some 2 :=
  ⟨[.append 1, .update, .update, .append 2, .update, .stall 2 9 true true, .update],
    by decide, by simp, by decide, by decide, by decide, by decide⟩

end Sparta.Pipeline
