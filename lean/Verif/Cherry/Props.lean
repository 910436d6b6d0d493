import Verif.Cherry.Refine
import Verif.Checkpoint.Props
/-!
Theorems about committing checkpoints to a database and loading them from it (C220-C222).
-/
namespace Sparta.Cherry
open Sparta.Checkpoint (Config build CP setMems All2)
open Sparta.ArchData (AD)

/-- the specified device -/
def plain (fs : List Config) : Spec := Spec.init (fs.map fun f => ArchData.Spec.init f.lsb f.fill f.fsz f.size f.inits)

/-- Histories allowed: memories are not cleaned, reset or written through raw pointers once there is a checkpoint,
and no checkpoint is deleted. -/
def Legal (s : Spec) (os : List Op) : Prop := legalOps Spec.step Spec.legal s os

instance (s : Spec) (o : Op) : Decidable (s.legal o) := by
  cases o with
  | base o =>
    cases o with
    | access k o =>
      unfold Spec.legal
      dsimp only
      cases s.ads[k]? <;> dsimp only <;> infer_instance
    | _ => unfold Spec.legal; infer_instance
  | _ => unfold Spec.legal; infer_instance

instance (s : Spec) (os : List Op) : Decidable (Legal s os) := inferInstanceAs (Decidable (legalOps _ _ _ _))

instance (s : LSpec) (o : LOp) : Decidable (s.legal o) := by
  cases o with
  | access k o =>
    unfold LSpec.legal
    dsimp only
    cases s.ads[k]? <;> dsimp only <;> infer_instance
  | _ => unfold LSpec.legal; infer_instance

instance (s : LSpec) (os : List LOp) : Decidable (legalOps LSpec.step LSpec.legal s os) := inferInstance

/-- the relation holds after every allowed history -/
theorem reach {fs : List Config} {ads : List AD} (hk : ∀ f ∈ fs, f.ok) (hb : build fs = some ads) (os : List Op)
    (hl : Legal (plain fs) os) :
    CRep ((fs.map fun f => ArchData.Spec.init f.lsb f.fill f.fsz f.size f.inits).map Checkpoint.cfgOf)
      (runOps Cherry.step (Cherry.init ads) os).1 (runOps Spec.step (plain fs) os).1 ∧
    (runOps Cherry.step (Cherry.init ads) os).2 = (runOps Spec.step (plain fs) os).2 :=
  runOps_simulation_legal Cherry.step Spec.step Spec.legal (CRep _) (fun c s o => crep_step _ c s o) _ _
    (crep_init (Checkpoint.build_rep hk hb)) os hl

/-- C220: for all memories and all allowed histories of accesses, ticks, creations, loads and commits every call
answers as specified: a commit without force saves the current branch up to its last snapshot and keeps what
follows, a forced one saves the whole branch and starts over from a new head; all other checkpoints are discarded;
what is kept still loads as before; and what is listed follows. Missing: histories that are not `Legal`; with
deletions it is false (below). -/
theorem C220_refines_partial {fs : List Config} {ads : List AD} (hk : ∀ f ∈ fs, f.ok) (hb : build fs = some ads)
    (os : List Op) (hl : Legal (plain fs) os) :
    (runOps Cherry.step (Cherry.init ads) os).2 = (runOps Spec.step (plain fs) os).2 :=
  (reach hk hb os hl).2

def demoFs : List Config := [⟨2, 0, 1, true, 16, []⟩]

/-- two branches, snapshots and deltas, commits of both kinds -/
def demoOps : List Op :=
  [.base (.setThreshold 1), .base (.access 0 (.write 1 [5])), .base (.create false), .base (.access 0 (.write 1 [6])), .base (.tick 3),
    .base (.create false), .base (.access 0 (.write 2 [7])), .base (.create false), .base (.load 1), .base (.access 0 (.write 3 [8])),
    .base (.create false), .base (.load 3), .commit false, .base .list, .base (.access 0 (.write 2 [9])), .base (.load 3),
    .base (.access 0 (.read 0 4)), .base (.create false), .commit true, .base .list, .stored]

def demoEnd : Cherry := (runOps Cherry.step (Cherry.init ((build demoFs).getD [])) demoOps).1

example : (∀ f ∈ demoFs, f.ok) ∧ (∃ ads, build demoFs = some ads ∧
    (runOps Cherry.step (Cherry.init ads) demoOps).2 =
      [.base .done, .base (.mem .ok), .base (.created 1 false), .base (.mem .ok), .base .done, .base (.created 2 true),
        .base (.mem .ok), .base (.created 3 false), .base .done, .base (.mem .ok), .base (.created 4 true), .base .done,
        .committed [0, 1], .base (.ids [2, 3]), .base (.mem .ok), .base .done, .base (.mem (.data [0, 6, 7, 0])),
        .base (.created 5 true), .committed [2, 3, 5], .base (.ids [6]), .num 5]) ∧ Legal (plain demoFs) demoOps := by
  refine ⟨?_, ⟨_, rfl, by decide +kernel⟩, by decide +kernel⟩
  intro f hf
  simp only [demoFs, List.mem_cons, List.not_mem_nil, or_false] at hf
  rcases hf with rfl
  exact ⟨by decide, by decide⟩

/-- C220: deleting any checkpoint that is still needed makes every later commit fail, also when it is on another
branch -/
theorem C220_deleted_violated : ∃ (fs : List Config) (ads : List AD) (os : List Op), build fs = some ads ∧
    (runOps Cherry.step (Cherry.init ads) os).2 =
      [.base (.created 1 false), .base (.created 2 true), .base (.created 3 false), .base .done, .base .done, .base (.created 4 false),
        .failed] :=
  ⟨demoFs, _, [.base (.create false), .base (.create true), .base (.create false), .base (.delete 2), .base (.load 1), .base (.create false),
    .commit false], rfl, by decide +kernel⟩

/-- C220: after a forced commit the checkpoints it discarded are still counted: one is listed, two are reported -/
theorem C220_counts_violated : ∃ (fs : List Config) (ads : List AD) (os : List Op), build fs = some ads ∧ Legal (plain fs) os ∧
    (runOps Cherry.step (Cherry.init ads) os).2 =
      [.base (.created 1 true), .base .done, .base (.created 2 false), .committed [0, 2], .base (.ids [3]), .base (.nums 2 2)] :=
  ⟨demoFs, _, [.base (.create true), .base (.load 0), .base (.create false), .commit true, .base .list, .base .counts], rfl,
    by decide +kernel, by decide +kernel⟩

/-! ### ids that were committed -/

/-- the ids reported as committed, in order -/
def savedIds : List Res → List Nat
  | [] => []
  | .committed ids :: l => ids ++ savedIds l
  | _ :: l => savedIds l

/-- every id on a path is that of a checkpoint, and ids are given in order -/
structure Inv (s : Spec) : Prop where
  path : ∀ i k, s.chks i = some k → ∀ j ∈ k.path, ∃ kj, s.chks j = some kj
  lt : ∀ i k, s.chks i = some k → i < s.next

theorem inv_add {s : Spec} (h : Inv s) {snap : Bool} {d : Nat} {p : List Nat} (hp : ∀ j ∈ p, ∃ kj, s.chks j = some kj) :
    Inv (s.add snap d p) := by
  have mono : ∀ j, (∃ kj, s.chks j = some kj) → ∃ kj, (s.add snap d p).chks j = some kj := by
    rintro j ⟨kj, hj⟩
    have := h.lt j kj hj
    exact ⟨kj, by simp only [Spec.add]; rw [upd_other _ _ (by omega)]; exact hj⟩
  constructor
  · intro i k hi j hj
    by_cases e : i = s.next
    · subst e
      simp only [Spec.add, upd_same] at hi
      cases hi
      rcases List.mem_append.1 hj with hj | hj
      · exact mono j (hp j hj)
      · simp at hj
        subst hj
        exact ⟨_, by simp only [Spec.add, upd_same]; rfl⟩
    · simp only [Spec.add] at hi
      rw [upd_other _ _ e] at hi
      exact mono j (h.path i k hi j hj)
  · intro i k hi
    by_cases e : i = s.next
    · subst e; exact Nat.lt_succ_self _
    · simp only [Spec.add] at hi ⊢
      rw [upd_other _ _ e] at hi
      have := h.lt i k hi
      omega

/-- what a step does to the checkpoints and to the list of committed ones -/
structure Moves (s s' : Spec) (ids : List Nat) : Prop where
  inv : Inv s'
  next : s.next ≤ s'.next
  keep : ∀ i k k', s.chks i = some k → s'.chks i = some k' → k'.mems = k.mems ∧ k'.tick = k.tick
  len : s'.committed.length = s.committed.length + ids.length
  old : ∀ p, p < s.committed.length → s'.committed[p]? = s.committed[p]?
  new : ∀ p i k, ids[p]? = some i → s.chks i = some k → s'.committed[s.committed.length + p]? = some (k.tick, k.mems)
  below : ∀ i ∈ ids, i < s'.next
  source : ∀ i ∈ ids, (∃ k, s.chks i = some k) ∨ s.next ≤ i
  fresh : ∀ i k', s'.chks i = some k' → (∃ k, s.chks i = some k) ∨ s.next ≤ i

theorem moves_same {s s' : Spec} (h : Inv s) (h1 : s'.chks = s.chks) (h2 : s'.next = s.next) (h3 : s'.committed = s.committed) : Moves s s' [] := by
  refine ⟨⟨by rw [h1]; exact h.path, by rw [h1, h2]; exact h.lt⟩, by omega, ?_, by rw [h3]; rfl, fun p _ => by rw [h3], fun p i k hp => (by simp at hp), fun i hi => (by cases hi), fun i hi => (by cases hi), ?_⟩
  · intro i k k' a b
    rw [h1, a] at b
    cases b
    exact ⟨rfl, rfl⟩
  · intro i k' a
    rw [h1] at a
    exact Or.inl ⟨k', a⟩

theorem moves_add {s : Spec} (h : Inv s) {snap : Bool} {d : Nat} {p : List Nat} (hp : ∀ j ∈ p, ∃ kj, s.chks j = some kj) :
    Moves s (s.add snap d p) [] := by
  refine ⟨inv_add h hp, Nat.le_succ _, ?_, rfl, fun _ _ => rfl, fun p i k hp => (by simp at hp), fun i hi => (by cases hi), fun i hi => (by cases hi), ?_⟩
  · intro i k k' a b
    have := h.lt i k a
    simp only [Spec.add] at b
    rw [upd_other _ _ (by omega), a] at b
    cases b
    exact ⟨rfl, rfl⟩
  · intro i k' a
    by_cases e : i = s.next
    · exact Or.inr (by omega)
    · simp only [Spec.add] at a
      rw [upd_other _ _ e] at a
      exact Or.inl ⟨k', a⟩

theorem moves_trans {a b c : Spec} {x y : List Nat} (h1 : Moves a b x) (h2 : Moves b c y) (ha : Inv a) :
    Moves a c (x ++ y) := by
  have hmid : ∀ i k k2, a.chks i = some k → c.chks i = some k2 → ∃ k1, b.chks i = some k1 := by
    intro i k k2 p q
    rcases h2.fresh i k2 q with h | h
    · exact h
    · have := ha.lt i k p
      have := h1.next
      omega
  refine ⟨h2.inv, Nat.le_trans h1.next h2.next, ?_, ?_, ?_, ?_, ?_, ?_, ?_⟩
  · intro i k k' p q
    obtain ⟨k1, m⟩ := hmid i k k' p q
    obtain ⟨e1, e2⟩ := h1.keep i k k1 p m
    obtain ⟨e3, e4⟩ := h2.keep i k1 k' m q
    exact ⟨e3.trans e1, e4.trans e2⟩
  · rw [h2.len, h1.len, List.length_append]; omega
  · intro p hp
    rw [h2.old p (by rw [h1.len]; omega), h1.old p hp]
  · intro p i k hp hk
    by_cases hlt' : p < x.length
    · rw [List.getElem?_append_left hlt'] at hp
      rw [h2.old _ (by rw [h1.len]; omega)]
      exact h1.new p i k hp hk
    · rw [List.getElem?_append_right (by omega)] at hp
      rcases h2.source i (List.mem_of_getElem? hp) with ⟨k1, m⟩ | h
      · obtain ⟨e1, e2⟩ := h1.keep i k k1 hk m
        have := h2.new _ i k1 hp m
        rw [e1, e2, h1.len] at this
        rw [← this]
        congr 1
        omega
      · have := ha.lt i k hk
        have := h1.next
        omega
  · intro i hi
    rcases List.mem_append.1 hi with hi | hi
    · exact Nat.lt_of_lt_of_le (h1.below i hi) h2.next
    · exact h2.below i hi
  · intro i hi
    rcases List.mem_append.1 hi with hi | hi
    · exact h1.source i hi
    · rcases h2.source i hi with ⟨k, h⟩ | h
      · exact h1.fresh i k h
      · exact Or.inr (Nat.le_trans h1.next h)
  · intro i k' p
    rcases h2.fresh i k' p with ⟨k, h⟩ | h
    · exact h1.fresh i k h
    · exact Or.inr (Nat.le_trans h1.next h)

theorem mem_recent {snap : Nat → Bool} {l : List Nat} {j : Nat} (h : j ∈ recent snap l) : j ∈ l := by
  cases hl : l with
  | nil => rw [hl] at h; cases h
  | cons a t =>
    obtain ⟨q, r, t', e1, e2, _⟩ := recent_eq (snap := snap) l (by rw [hl]; simp)
    rw [← hl, e1]
    rw [e2] at h
    exact List.mem_append_right _ h

theorem mem_older {snap : Nat → Bool} {l : List Nat} {j : Nat} (h : j ∈ older snap l) : j ∈ l := List.mem_of_mem_take h

theorem moves_commit {s s' : Spec} (h : Inv s) {ids : List Nat} (hids : ∀ j ∈ ids, ∃ kj, s.chks j = some kj)
    (hinv : Inv s') (hnext : s.next ≤ s'.next) (hc : s'.committed = s.committed ++ ids.filterMap s.memsOf)
    (hkeep : ∀ i k k', s.chks i = some k → s'.chks i = some k' → k'.mems = k.mems ∧ k'.tick = k.tick)
    (hfresh : ∀ i k', s'.chks i = some k' → (∃ k, s.chks i = some k) ∨ s.next ≤ i) : Moves s s' ids := by
  obtain ⟨f1, f2⟩ := filterMap_get (f := s.memsOf) ids (fun j hj => by
    obtain ⟨kj, h⟩ := hids j hj
    exact ⟨_, by unfold Spec.memsOf; rw [h]; rfl⟩)
  refine ⟨hinv, hnext, hkeep, by rw [hc, List.length_append, f1], ?_, ?_, ?_, fun i hi => Or.inl (hids i hi), hfresh⟩
  · intro p hp
    rw [hc, List.getElem?_append_left hp]
  · intro p i k hp hk
    rw [hc, List.getElem?_append_right (by omega), Nat.add_sub_cancel_left, f2, hp]
    show s.memsOf i = _
    unfold Spec.memsOf
    rw [hk]
    rfl
  · intro i hi
    obtain ⟨k, hk⟩ := hids i hi
    exact Nat.lt_of_lt_of_le (h.lt i k hk) hnext

theorem moves_create {s : Spec} (h : Inv s) (f : Bool) : Moves s (s.create f).1 [] := by
  unfold Spec.create
  by_cases c1 : s.next = Checkpoint.unidentified
  · rw [if_pos c1]; exact moves_same h rfl rfl rfl
  rw [if_neg c1]
  rcases Option.eq_none_or_eq_some s.current with e | ⟨k, e⟩
  · rw [e]; exact moves_same h rfl rfl rfl
  rw [e]
  dsimp only
  by_cases c2 : s.now < k.tick
  · rw [if_pos c2]; exact moves_same h rfl rfl rfl
  rw [if_neg c2]
  unfold Spec.current at e
  obtain ⟨i, _, hi⟩ := Option.bind_eq_some_iff.1 e
  exact moves_add h (h.path i k hi)

theorem moves_step {s : Spec} (h : Inv s) (o : Op) : Moves s (s.step o).1 (savedIds [(s.step o).2]) := by
  cases o with
  | base o =>
    show Moves s (s.base o).1 []
    cases o with
    | access k o => unfold Spec.base; dsimp only; split <;> exact moves_same h rfl rfl rfl
    | createHead =>
      unfold Spec.base
      dsimp only
      split
      · exact moves_add h (fun j hj => (by cases hj))
      · exact moves_same h rfl rfl rfl
    | create f =>
      show Moves s (Spec.create _ f).1 []
      by_cases c : s.cur = none
      · rw [if_pos c]
        have m := moves_add (snap := true) (d := 0) h (p := []) (fun j hj => (by cases hj))
        exact moves_trans m (moves_create m.inv f) h
      · rw [if_neg c]
        exact moves_create h f
    | load i => unfold Spec.base; dsimp only; split <;> exact moves_same h rfl rfl rfl
    | _ => exact moves_same h rfl rfl rfl
  | stored => exact moves_same h rfl rfl rfl
  | commit force =>
    show Moves s (s.commit force).1 (savedIds [(s.commit force).2])
    unfold Spec.commit
    rcases Option.eq_none_or_eq_some s.current with e | ⟨k, e⟩
    · rw [e]; exact moves_same h rfl rfl rfl
    rw [e]
    unfold Spec.current at e
    obtain ⟨i, _, hi⟩ := Option.bind_eq_some_iff.1 e
    have hp := h.path i k hi
    cases force with
    | true =>
      simp only [if_true]
      show Moves s _ (k.path ++ [])
      rw [List.append_nil]
      have h0 : Inv { s with chks := fun _ => none } := ⟨fun i k h => (by cases h), fun i k h => (by cases h)⟩
      have h1 := inv_add (snap := true) (d := 0) h0 (p := []) (fun j hj => (by cases hj))
      have ho : ∀ i k', (({ s with chks := fun _ => none } : Spec).add true 0 []).chks i = some k' → i = s.next := by
        intro i k' hk
        by_cases e : i = s.next
        · exact e
        · simp only [Spec.add] at hk
          rw [upd_other _ _ e] at hk
          cases hk
      refine moves_commit h hp ⟨h1.path, h1.lt⟩ (Nat.le_succ _) rfl ?_ ?_
      · intro i k k' a b
        have := ho i k' b
        have := h.lt i k a
        omega
      · intro i k' b
        exact Or.inr (Nat.le_of_eq (ho i k' b).symm)
    | false =>
      simp only [Bool.false_eq_true, if_false]
      show Moves s _ (older s.isSnap k.path ++ [])
      rw [List.append_nil]
      generalize hkp : recent s.isSnap k.path = keep
      have hin : ∀ j ∈ keep, ∃ kj, s.chks j = some kj := by
        intro j hj
        rw [← hkp] at hj
        exact hp j (mem_recent hj)
      have hb : ∀ i k', (if i ∈ keep then (s.chks i).map fun c => ({ c with path := c.path.filter (· ∈ keep) } : Chk) else none) = some k' →
          i ∈ keep ∧ ∃ ki, s.chks i = some ki ∧ k' = { ki with path := ki.path.filter (· ∈ keep) } := by
        intro i k' hk
        by_cases c : i ∈ keep
        · rw [if_pos c] at hk
          obtain ⟨ki, e1, e2⟩ := Option.map_eq_some_iff.1 hk
          exact ⟨c, ki, e1, e2.symm⟩
        · rw [if_neg c] at hk; cases hk
      refine moves_commit h (fun j hj => hp j (mem_older hj)) ⟨?_, ?_⟩ (Nat.le_refl _) rfl ?_ ?_
      · intro i k' hk j hj
        obtain ⟨_, ki, _, e⟩ := hb i k' hk
        subst e
        dsimp only at hj
        rw [List.mem_filter] at hj
        have hjk : j ∈ keep := by simpa using hj.2
        obtain ⟨kj, e⟩ := hin j hjk
        exact ⟨_, by dsimp only; rw [if_pos hjk, e]; rfl⟩
      · intro i k' hk
        obtain ⟨_, ki, e, _⟩ := hb i k' hk
        exact h.lt i ki e
      · intro i k1 k' a b
        obtain ⟨_, ki, e1, e2⟩ := hb i k' b
        rw [a] at e1
        cases e1
        subst e2
        exact ⟨rfl, rfl⟩
      · intro i k' b
        obtain ⟨_, ki, e1, _⟩ := hb i k' b
        exact Or.inl ⟨ki, e1⟩

theorem savedIds_cons (r : Res) (l : List Res) : savedIds (r :: l) = savedIds [r] ++ savedIds l := by
  cases r <;> simp [savedIds]

theorem savedIds_append (a b : List Res) : savedIds (a ++ b) = savedIds a ++ savedIds b := by
  induction a with
  | nil => rfl
  | cons r a ih => rw [List.cons_append, savedIds_cons, ih, savedIds_cons r a, List.append_assoc]

theorem moves_run (os : List Op) : ∀ (s : Spec), Inv s → Moves s (runOps Spec.step s os).1 (savedIds (runOps Spec.step s os).2) := by
  induction os with
  | nil => intro s h; exact moves_same h rfl rfl rfl
  | cons o os ih =>
    intro s h
    have h1 := moves_step h o
    have h2 := moves_trans h1 (ih _ h1.inv) h
    show Moves s (runOps Spec.step (s.step o).1 os).1 (savedIds ((s.step o).2 :: (runOps Spec.step (s.step o).1 os).2))
    rw [savedIds_cons]
    exact h2

theorem inv_init (fs : List Config) : Inv (plain fs) := ⟨fun i k h => (by cases h), fun i k h => (by cases h)⟩

theorem legal_append {s : Spec} {a b : List Op} (h : Legal s (a ++ b)) :
    Legal s a ∧ Legal (runOps Spec.step s a).1 b := by
  induction a generalizing s with
  | nil => exact ⟨trivial, h⟩
  | cons o a ih =>
    obtain ⟨h1, h2⟩ := h
    obtain ⟨g1, g2⟩ := ih h2
    exact ⟨⟨h1, g1⟩, g2⟩

theorem created_mems {s : Spec} {f : Bool} {id : Nat} {snap : Bool} (h : (s.step (.base (.create f))).2 = .base (.created id snap)) :
    s.next ≤ id ∧ ∃ k, (s.step (.base (.create f))).1.chks id = some k ∧ k.mems = (s.step (.base (.create f))).1.mems := by
  have h' : (Spec.create (if s.cur = none then s.add true 0 [] else s) f).2 = .created id snap := by
    have h' : Res.base (Spec.create (if s.cur = none then s.add true 0 [] else s) f).2 = .base (.created id snap) := h
    injection h'
  have hn : s.next ≤ (if s.cur = none then s.add true 0 [] else s).next := by
    split
    · exact Nat.le_succ _
    · exact Nat.le_refl _
  show s.next ≤ id ∧ ∃ k, (Spec.create (if s.cur = none then s.add true 0 [] else s) f).1.chks id = some k ∧
    k.mems = (Spec.create (if s.cur = none then s.add true 0 [] else s) f).1.mems
  generalize s.next = b at hn ⊢
  generalize (if s.cur = none then s.add true 0 [] else s) = s at h' hn ⊢
  unfold Spec.create at h' ⊢
  by_cases c1 : s.next = Checkpoint.unidentified
  · rw [if_pos c1] at h'; cases h'
  rw [if_neg c1] at h' ⊢
  rcases Option.eq_none_or_eq_some s.current with e | ⟨k, e⟩
  · rw [e] at h'; cases h'
  rw [e] at h' ⊢
  dsimp only at h' ⊢
  by_cases c2 : s.now < k.tick
  · rw [if_pos c2] at h'; cases h'
  rw [if_neg c2] at h' ⊢
  injection h' with h1 h2
  subst h1
  exact ⟨hn, _, by simp only [Spec.add, upd_same]; rfl, rfl⟩

/-! ### loading -/

/-- C221: a loader opened on the database after the end of the simulation answers, for all histories of loads and
accesses in any order, as if it held the list of committed checkpoints: the number of them is reported, `load` of
an index restores exactly the memories of that checkpoint, and a larger index throws. -/
theorem C221_loader {fs : List Config} {ads ads2 : List AD} (hk : ∀ f ∈ fs, f.ok) (hb : build fs = some ads) (hb2 : build fs = some ads2)
    (os : List Op) (hl : Legal (plain fs) os) (l : Loader)
    (hs : Loader.start (runOps Cherry.step (Cherry.init ads) os).1.teardown ads2 = some l) (los : List LOp)
    (hll : legalOps LSpec.step LSpec.legal ⟨(plain fs).ads, (runOps Spec.step (plain fs) os).1.committed⟩ los) :
    (runOps Loader.step l los).2 = (runOps LSpec.step ⟨(plain fs).ads, (runOps Spec.step (plain fs) os).1.committed⟩ los).2 := by
  obtain ⟨r, _⟩ := reach hk hb os hl
  have ra := Checkpoint.build_rep hk hb2
  have ro := (Checkpoint.rep_init ra).ofs
  obtain ⟨h1, h2⟩ := start_rep r.2 ra ro
  have hne : (runOps Spec.step (plain fs) os).1.committed ≠ [] := by
    intro e; rw [h1 e] at hs; cases hs
  obtain ⟨l', h3, h4⟩ := h2 hne
  rw [hs] at h3
  cases h3
  exact (runOps_simulation_legal Loader.step LSpec.step LSpec.legal (LRep _) (fun c s o => lrep_step _ c s o) _ _ h4 los hll).2

/-- C221: a loader can be opened exactly if a checkpoint was committed -/
theorem C221_start {fs : List Config} {ads ads2 : List AD} (hk : ∀ f ∈ fs, f.ok) (hb : build fs = some ads) (hb2 : build fs = some ads2)
    (os : List Op) (hl : Legal (plain fs) os) :
    Loader.start (runOps Cherry.step (Cherry.init ads) os).1.teardown ads2 = none ↔
      savedIds (runOps Cherry.step (Cherry.init ads) os).2 = [] := by
  obtain ⟨r, e⟩ := reach hk hb os hl
  have ra := Checkpoint.build_rep hk hb2
  have ro := (Checkpoint.rep_init ra).ofs
  obtain ⟨h1, h2⟩ := start_rep r.2 ra ro
  rw [e]
  have m := (moves_run os _ (inv_init fs)).len
  have m0 : (plain fs).committed.length = 0 := rfl
  constructor
  · intro h
    by_cases hc : (runOps Spec.step (plain fs) os).1.committed = []
    · rw [hc] at m
      exact List.length_eq_zero_iff.1 (by simp at m; omega)
    · obtain ⟨l, h3, _⟩ := h2 hc
      rw [h] at h3
      cases h3
  · intro h
    rw [h] at m
    exact h1 (List.length_eq_zero_iff.1 (by simp at m; omega))

/-- C221: whatever happened before a checkpoint was created and after, if it was committed and is the `idx`-th of
all that were, then loading `idx` in a later session works, whatever was loaded and written there before, and
every read of every memory returns what it returned right after the checkpoint was created. -/
theorem C221_restores {fs : List Config} {ads ads2 : List AD} (hk : ∀ f ∈ fs, f.ok) (hb : build fs = some ads) (hb2 : build fs = some ads2)
    (pre mid : List Op) (force snap : Bool) (id idx : Nat) (hl : Legal (plain fs) (pre ++ [.base (.create force)] ++ mid))
    (hc : ((runOps Cherry.step (Cherry.init ads) pre).1.step (.base (.create force))).2 = .base (.created id snap))
    (hi : (savedIds (runOps Cherry.step (Cherry.init ads) (pre ++ [.base (.create force)] ++ mid)).2)[idx]? = some id) (l : Loader)
    (hs : Loader.start (runOps Cherry.step (Cherry.init ads) (pre ++ [.base (.create force)] ++ mid)).1.teardown ads2 = some l) (los : List LOp)
    (hll : legalOps LSpec.step LSpec.legal ⟨(plain fs).ads, (runOps Spec.step (plain fs) (pre ++ [.base (.create force)] ++ mid)).1.committed⟩ los) :
    ((runOps Loader.step l los).1.step (.load idx)).2 = .base .done ∧
    ∀ k a n, n < 2 ^ 63 → (((runOps Loader.step l los).1.step (.load idx)).1.step (.access k (.read a n))).2 =
      ((runOps Cherry.step (Cherry.init ads) (pre ++ [.base (.create force)])).1.step (.base (.access k (.read a n)))).2 := by
  obtain ⟨hl2, hl3⟩ := legal_append hl
  obtain ⟨hl1, _⟩ := legal_append hl2
  obtain ⟨r0, _⟩ := reach hk hb pre hl1
  obtain ⟨r1, e1⟩ := reach hk hb _ hl2
  obtain ⟨r, e⟩ := reach hk hb _ hl
  have ra := Checkpoint.build_rep hk hb2
  have ro := (Checkpoint.rep_init ra).ofs
  obtain ⟨h1, h2⟩ := start_rep r.2 ra ro
  generalize hs0 : (runOps Spec.step (plain fs) pre).1 = s0 at *
  have hc' : (s0.step (.base (.create force))).2 = .base (.created id snap) := by
    rw [← hc]
    have hlc : s0.legal (.base (.create force)) := trivial
    exact (crep_step _ _ _ _ r0 hlc).2.symm
  obtain ⟨g0, kc, g1, g2⟩ := created_mems hc'
  have m0 := moves_run pre _ (inv_init fs)
  rw [hs0] at m0
  have m1 := moves_step m0.inv (.base (.create force))
  have m2 := moves_run mid _ m1.inv
  have hall : runOps Spec.step (plain fs) (pre ++ [.base (.create force)] ++ mid) =
      ((runOps Spec.step (s0.step (.base (.create force))).1 mid).1,
        (runOps Spec.step (plain fs) pre).2 ++ [(s0.step (.base (.create force))).2] ++ (runOps Spec.step (s0.step (.base (.create force))).1 mid).2) := by
    rw [List.append_assoc, Prod.ext_iff]
    constructor
    · rw [runOps_append, hs0]; rfl
    · rw [runOps_append_snd, hs0, List.append_assoc]; rfl
  have hone : (runOps Spec.step (plain fs) (pre ++ [.base (.create force)])).1 = (s0.step (.base (.create force))).1 := by
    rw [runOps_append, hs0]; rfl
  rw [hone] at r1
  rw [e, hall] at hi
  rw [hall] at r h1 h2 hll
  dsimp only at hi r h1 h2 hll
  generalize hs1 : (s0.step (.base (.create force))).1 = s1 at *
  generalize hs2 : (runOps Spec.step s1 mid).1 = s2 at *
  have hcomm : s2.committed[idx]? = some (kc.tick, kc.mems) := by
    rw [savedIds_append, savedIds_append, hc'] at hi
    have hz : savedIds [Res.base (.created id snap)] = [] := rfl
    rw [hz, List.append_nil] at hi
    have hz2 : savedIds [(s0.step (.base (.create force))).2] = [] := by rw [hc']; rfl
    rw [hz2] at m1
    by_cases hlt : idx < (savedIds (runOps Spec.step (plain fs) pre).2).length
    · rw [List.getElem?_append_left hlt] at hi
      have := m0.below id (List.mem_of_getElem? hi)
      omega
    · rw [List.getElem?_append_right (by omega)] at hi
      have := m2.new _ id kc hi g1
      have l0 : s0.committed.length = 0 + _ := m0.len
      have l1 : s1.committed.length = s0.committed.length + 0 := m1.len
      rw [← this]
      congr 1
      omega
  have hne : s2.committed ≠ [] := by
    intro e; rw [e] at hcomm; simp at hcomm
  obtain ⟨l', h3, h4⟩ := h2 hne
  rw [hs] at h3
  cases h3
  have hL : LRep _ _ (runOps LSpec.step ⟨(plain fs).ads, s2.committed⟩ los).1 := (runOps_simulation_legal Loader.step LSpec.step LSpec.legal (LRep _) (fun c s o => lrep_step _ c s o) _ _ h4 los hll).1
  have hkeep : ∀ (os : List LOp) (s : LSpec), (runOps LSpec.step s os).1.committed = s.committed := by
    intro os
    induction os with
    | nil => intro s; rfl
    | cons o os ih =>
      intro s
      show (runOps LSpec.step (s.step o).1 os).1.committed = _
      rw [ih]
      cases o with
      | access k o => unfold LSpec.step; dsimp only; split <;> rfl
      | load i => unfold LSpec.step; dsimp only; split <;> rfl
      | count => rfl
  have hk1 := hkeep los ⟨(plain fs).ads, s2.committed⟩
  generalize (runOps LSpec.step ⟨(plain fs).ads, s2.committed⟩ los).1 = ls at hL hk1
  obtain ⟨q1, q2⟩ := lrep_step _ _ _ (.load idx) hL trivial
  have hst : ls.step (.load idx) = ({ ls with ads := setMems ls.ads kc.mems }, .base .done) := by
    unfold LSpec.step
    dsimp only
    rw [hk1, hcomm]
  rw [hst] at q1 q2
  refine ⟨q2, ?_⟩
  intro k a n hn
  rw [(lrep_step _ _ _ (.access k (.read a n)) q1 (by unfold LSpec.legal; dsimp only; cases (setMems ls.ads kc.mems)[k]? with | none => trivial | some m => exact hn)).2]
  rw [(crep_step _ _ _ (.base (.access k (.read a n))) r1 ⟨by cases s1.ads[k]? with | none => trivial | some m => exact hn, fun h => (by cases h)⟩).2]
  have hsame := Checkpoint.read_same q1.ofs r1.1.ofs (by
    dsimp only
    rw [Checkpoint.setMems_mem _ _ (by rw [g2, Spec.mems, List.length_map, ← r1.1.ofs.length, ← hL.ofs.length]), g2]
    rfl) k a n
  show (LSpec.step _ _).2 = Res.base (Spec.base _ _).2
  unfold LSpec.step Spec.base
  dsimp only at hsame ⊢
  cases hA : (setMems ls.ads kc.mems)[k]? with
  | none =>
    cases hB : s1.ads[k]? with
    | none => rfl
    | some m => rw [hA, hB] at hsame; cases hsame
  | some m =>
    cases hB : s1.ads[k]? with
    | none => rw [hA, hB] at hsame; cases hsame
    | some m' =>
      rw [hA, hB] at hsame
      dsimp only at hsame ⊢
      rw [hsame]

def demoLoads : List LOp := [.count, .load 3, .access 0 (.read 0 4), .load 0, .access 0 (.read 0 4), .access 0 (.write 0 [1]),
  .load 1, .access 0 (.read 0 4), .load 4, .access 0 (.read 0 4), .load 2, .access 0 (.read 0 4), .load 5]

example : ∃ l, Loader.start demoEnd.teardown ((build demoFs).getD []) = some l ∧
    legalOps LSpec.step LSpec.legal ⟨(plain demoFs).ads, (runOps Spec.step (plain demoFs) demoOps).1.committed⟩ demoLoads ∧
    (runOps Loader.step l demoLoads).2 =
      [.num 5, .base .done, .base (.mem (.data [0, 6, 7, 0])), .base .done, .base (.mem (.data [0, 5, 0, 0])), .base (.mem .ok), .base .done,
        .base (.mem (.data [0, 5, 0, 0])), .base .done, .base (.mem (.data [0, 6, 7, 0])), .base .done,
        .base (.mem (.data [0, 6, 0, 0])), .base .threw] :=
  ⟨_, rfl, by decide +kernel, by decide +kernel⟩

example : Legal (plain demoFs) (demoOps.take 5 ++ [.base (.create false)] ++ demoOps.drop 6) ∧
    ((runOps Cherry.step (Cherry.init ((build demoFs).getD [])) (demoOps.take 5)).1.step (.base (.create false))).2 = .base (.created 2 true) ∧
    savedIds (runOps Cherry.step (Cherry.init ((build demoFs).getD [])) (demoOps.take 5 ++ [.base (.create false)] ++ demoOps.drop 6)).2 =
      [0, 1, 2, 3, 5] := by
  refine ⟨by decide +kernel, by decide +kernel, by decide +kernel⟩

/-- C221: a loader opened before the end of the simulation does not see the checkpoints of the last tick, though
they are counted as stored -/
theorem C221_open_violated : ∃ (fs : List Config) (ads : List AD) (os : List Op) (l : Loader), build fs = some ads ∧ Legal (plain fs) os ∧
    (runOps Cherry.step (Cherry.init ads) os).2 =
      [.base (.created 1 false), .base .done, .base (.created 2 false), .committed [0, 1, 2], .num 3] ∧
    Loader.start (runOps Cherry.step (Cherry.init ads) os).1 ads = some l ∧
    (runOps Loader.step l [.count, .load 2]).2 = [.num 2, .base .threw] :=
  ⟨demoFs, _, [.base (.create false), .base (.tick 1), .base (.create false), .commit true, .stored], _, rfl, by decide +kernel,
    by decide +kernel, rfl, by decide +kernel⟩

/-! ### replaying -/

def Replayer.steps (r : Replayer) : Nat → Replayer
  | 0 => r
  | n + 1 => (r.steps n).step.1

/-- C222: a replayer opened after the end of the simulation starts with the memories of the first committed
checkpoint; each step restores the next one and reports true, until the last one: then it reports false and
changes nothing. -/
theorem C222_replay {fs : List Config} {ads ads2 : List AD} (hk : ∀ f ∈ fs, f.ok) (hb : build fs = some ads) (hb2 : build fs = some ads2)
    (os : List Op) (hl : Legal (plain fs) os) (hne : (runOps Spec.step (plain fs) os).1.committed ≠ []) :
    ∃ r, Replayer.start (runOps Cherry.step (Cherry.init ads) os).1.teardown ads2 = some r ∧
      ∀ n c, (runOps Spec.step (plain fs) os).1.committed[n]? = some c →
        (r.steps n).loader.ads.map AD.byteAt = c.2 ∧
        if n + 1 < (runOps Spec.step (plain fs) os).1.committed.length then (r.steps n).step.2 = .yes true
        else (r.steps n).step = (r.steps n, .yes false) := by
  obtain ⟨r, _⟩ := reach hk hb os hl
  have ra := Checkpoint.build_rep hk hb2
  have ro := (Checkpoint.rep_init ra).ofs
  obtain ⟨l, h3, h4⟩ := (start_rep r.2 ra ro).2 hne
  generalize (runOps Spec.step (plain fs) os).1.committed = comm at hne h4
  generalize (fs.map fun f => ArchData.Spec.init f.lsb f.fill f.fsz f.size f.inits) = sp at h4
  cases hcm : comm with
  | nil => exact absurd hcm hne
  | cons c0 cs =>
    rw [← hcm]
    have hc0 : comm[0]? = some c0 := by rw [hcm]; rfl
    obtain ⟨a1, ⟨sp1, a2⟩, a3⟩ := loads h4 hc0
    refine ⟨⟨(l.load 0).1, 1⟩, ?_, ?_⟩
    · unfold Replayer.start
      rw [h3]
      dsimp only
      rw [if_pos a1]
    · have inv : ∀ n c, comm[n]? = some c → ((⟨(l.load 0).1, 1⟩ : Replayer).steps n).next = n + 1 ∧
          (∃ sp', LRep (sp.map Checkpoint.cfgOf) ((⟨(l.load 0).1, 1⟩ : Replayer).steps n).loader ⟨sp', comm⟩) ∧
          ((⟨(l.load 0).1, 1⟩ : Replayer).steps n).loader.ads.map AD.byteAt = c.2 := by
        intro n
        induction n with
        | zero =>
          intro c hc
          rw [hc0] at hc
          cases hc
          exact ⟨rfl, ⟨sp1, a2⟩, a3⟩
        | succ n ih =>
          intro c hc
          have hlt := (List.getElem?_eq_some_iff.1 hc).1
          obtain ⟨i1, ⟨sp2, i2⟩, _⟩ := ih _ (List.getElem?_eq_getElem (by omega))
          obtain ⟨b1, b2, b3⟩ := loads i2 hc
          have hst : ((⟨(l.load 0).1, 1⟩ : Replayer).steps n).step = (⟨(((⟨(l.load 0).1, 1⟩ : Replayer).steps n).loader.load (n + 1)).1, n + 2⟩, .yes true) := by
            unfold Replayer.step
            have hnum : ((⟨(l.load 0).1, 1⟩ : Replayer).steps n).loader.num = comm.length := i2.num
            rw [if_neg (by rw [i1, hnum]; omega), i1]
            generalize ((⟨(l.load 0).1, 1⟩ : Replayer).steps n).loader.load (n + 1) = x at b1
            obtain ⟨x1, x2⟩ := x
            dsimp only at b1
            subst b1
            rfl
          show ((⟨(l.load 0).1, 1⟩ : Replayer).steps n).step.1.next = _ ∧ (∃ sp', LRep (sp.map Checkpoint.cfgOf) ((⟨(l.load 0).1, 1⟩ : Replayer).steps n).step.1.loader ⟨sp', comm⟩) ∧
            ((⟨(l.load 0).1, 1⟩ : Replayer).steps n).step.1.loader.ads.map AD.byteAt = c.2
          rw [hst]
          exact ⟨rfl, b2, b3⟩
      intro n c hc
      obtain ⟨i1, ⟨sp2, i2⟩, i3⟩ := inv n c hc
      refine ⟨i3, ?_⟩
      have hnum : ((⟨(l.load 0).1, 1⟩ : Replayer).steps n).loader.num = comm.length := i2.num
      by_cases hlt : n + 1 < comm.length
      · rw [if_pos hlt]
        obtain ⟨b1, _, _⟩ := loads i2 (List.getElem?_eq_getElem hlt)
        unfold Replayer.step
        rw [if_neg (by rw [i1, hnum]; omega), i1]
        generalize ((⟨(l.load 0).1, 1⟩ : Replayer).steps n).loader.load (n + 1) = x at b1
        obtain ⟨x1, x2⟩ := x
        dsimp only at b1
        subst b1
        rfl
      · rw [if_neg hlt]
        unfold Replayer.step
        rw [if_pos (by rw [i1, hnum]; omega)]

example : ∃ r, Replayer.start demoEnd.teardown ((build demoFs).getD []) = some r ∧
    ((List.range 5).map fun n => ((r.steps n).step.2, (r.steps n).loader.ads.map fun m => m.byteAt 1)) =
      [(.yes true, [5]), (.yes true, [5]), (.yes true, [6]), (.yes true, [6]), (.yes false, [6])] := by
  refine ⟨_, rfl, ?_⟩
  decide +kernel

end Sparta.Cherry
