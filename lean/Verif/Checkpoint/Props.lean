import Verif.Checkpoint.Lemmas2
import Verif.ArchData.Props
/-!
Theorems about checkpoints (C49, C50, C51, C84).
-/
namespace Sparta.Checkpoint
open Sparta.ArchData (AD)

/-- parameters of an ArchData -/
structure Config where
  lsb : Nat
  fill : Nat
  fsz : Nat
  canFree : Bool
  size : Nat
  inits : List (Nat × List UInt8)

def Config.ok (f : Config) : Prop := f.size ≤ 2 ^ 63 ∧ ∀ p ∈ f.inits, p.2.length < 2 ^ 63

/-- the ArchDatas of a device, `none` if a constructor throws -/
def build : List Config → Option (List AD)
  | [] => some []
  | f :: fs =>
    match AD.init f.lsb f.fill f.fsz f.canFree f.size f.inits, build fs with
    | some m, some ms => some (m :: ms)
    | _, _ => none

/-- the specified device -/
def plain (fs : List Config) : Spec := Spec.init (fs.map fun f => ArchData.Spec.init f.lsb f.fill f.fsz f.size f.inits)

/-- Histories allowed: memories are not cleaned, reset or written through raw pointers while there is a
checkpoint; `forgetCurrent` is not called then; deleted ids are not passed to calls again; and while the current
checkpoint is itself deleted, others are deleted only if no checkpoint was ever loaded. -/
def Legal (s : Spec) (os : List Op) : Prop := legalOps Spec.step Spec.legal s os

instance (s : Spec) (o : Op) : Decidable (s.legal o) := by
  cases o with
  | access k o =>
    unfold Spec.legal
    dsimp only
    cases s.ads[k]? <;> dsimp only <;> infer_instance
  | delete id =>
    refine decidable_of_iff (s.usable id = true ∧ (s.loaded = false ∨ (match s.cur with | none => true | some i => s.alive i) = true)) ?_
    unfold Spec.legal
    dsimp only
    cases s.cur with
    | none => simp
    | some i => simp
  | _ => unfold Spec.legal; infer_instance

instance (s : Spec) (os : List Op) : Decidable (Legal s os) := inferInstanceAs (Decidable (legalOps _ _ _ _))

theorem build_rep : ∀ {fs : List Config} {ads : List AD}, (∀ f ∈ fs, f.ok) → build fs = some ads →
    All2 ArchData.Rep ads (fs.map fun f => ArchData.Spec.init f.lsb f.fill f.fsz f.size f.inits)
  | [], ads, _, h => by cases h; trivial
  | f :: fs, ads, hk, h => by
    unfold build at h
    rcases Option.eq_none_or_eq_some (AD.init f.lsb f.fill f.fsz f.canFree f.size f.inits) with e | ⟨m, e⟩
    · rw [e] at h; cases h
    · rcases Option.eq_none_or_eq_some (build fs) with e2 | ⟨ms, e2⟩
      · rw [e, e2] at h; cases h
      · rw [e, e2] at h
        cases h
        have hf := hk f (List.mem_cons_self ..)
        exact ⟨ArchData.rep_init hf.1 hf.2 e, build_rep (fun g hg => hk g (List.mem_cons_of_mem _ hg)) e2⟩

/-- the relation holds after every allowed history -/
theorem reach {fs : List Config} {ads : List AD} (hk : ∀ f ∈ fs, f.ok) (hb : build fs = some ads) (os : List Op)
    (hl : Legal (plain fs) os) :
    Rep ((fs.map fun f => ArchData.Spec.init f.lsb f.fill f.fsz f.size f.inits).map cfgOf)
      (runOps CP.step (CP.init ads) os).1 (runOps Spec.step (plain fs) os).1 ∧
    (runOps CP.step (CP.init ads) os).2 = (runOps Spec.step (plain fs) os).2 :=
  runOps_simulation_legal CP.step Spec.step Spec.legal (Rep _) (fun c s o => rep_step _ c s o) _ _
    (rep_init (build_rep hk hb)) os hl

/-- C49, C50: for all memories and all allowed histories of accesses, ticks, creations, loads and deletions every
call answers as if each checkpoint were a full copy of all memories: reads after loads, which checkpoints exist,
which are snapshots, the ids listed, the counts, and when calls throw. Missing: the histories that are not
`Legal`, for which the theorems below show the property false. -/
theorem C49_refines_partial {fs : List Config} {ads : List AD} (hk : ∀ f ∈ fs, f.ok) (hb : build fs = some ads)
    (os : List Op) (hl : Legal (plain fs) os) :
    (runOps CP.step (CP.init ads) os).2 = (runOps Spec.step (plain fs) os).2 :=
  (reach hk hb os hl).2

def demoFs : List Config := [⟨2, 0, 1, true, 16, []⟩, ⟨3, 0xaabb, 2, false, 64, [(8, [1])]⟩]

/-- three branches, snapshots and deltas, deletions of used and unused ids -/
def demoOps : List Op :=
  [.setThreshold 2, .access 0 (.write 1 [5]), .create false, .access 0 (.write 1 [6]), .access 1 (.write 9 [7]), .tick 3,
    .create false, .access 0 (.write 2 [8]), .create false, .load 1, .access 0 (.read 0 4), .access 1 (.read 8 2),
    .access 1 (.write 8 [9]), .create false, .delete 1, .load 3, .access 0 (.read 0 4), .access 1 (.read 8 2), .delete 2,
    .load 4, .access 0 (.read 0 4), .access 1 (.read 8 2), .has 3, .list, .listAt 3, .counts]

example : (∀ f ∈ demoFs, f.ok) ∧ (∃ ads, build demoFs = some ads ∧
    (runOps CP.step (CP.init ads) demoOps).2 =
      [.done, .mem .ok, .created 1 false, .mem .ok, .mem .ok, .done, .created 2 false, .mem .ok, .created 3 true, .done,
        .mem (.data [0, 5, 0, 0]), .mem (.data [1, 0xaa]), .mem .ok, .created 4 false, .done, .done,
        .mem (.data [0, 6, 8, 0]), .mem (.data [1, 7]), .done, .done, .mem (.data [0, 5, 0, 0]), .mem (.data [9, 0xaa]),
        .yes true, .ids [0, 3, 4], .ids [3], .nums 3 2]) ∧ Legal (plain demoFs) demoOps := by
  refine ⟨?_, ⟨_, rfl, by decide +kernel⟩, by decide +kernel⟩
  intro f hf
  simp only [demoFs, List.mem_cons, List.not_mem_nil, or_false] at hf
  rcases hf with rfl | rfl <;> exact ⟨by decide, by decide⟩

/-! ### direct statements -/

theorem setMems_mem : ∀ (as : List ArchData.Spec) (ms : List (Nat → UInt8)), as.length = ms.length →
    (setMems as ms).map (·.mem) = ms
  | [], [], _ => rfl
  | _ :: as, m :: ms, h => by
    show m :: (setMems as ms).map (·.mem) = _
    rw [setMems_mem as ms (by simpa using h)]

/-- what a read returns follows from the parameters and the bytes -/
theorem read_same : ∀ {cf : List Cfg} {a1 a2 : List ArchData.Spec}, All2 OfS cf a1 → All2 OfS cf a2 →
    a1.map (·.mem) = a2.map (·.mem) → ∀ (k a n : Nat),
    (match a1[k]? with | none => Res.threw | some m => Res.mem (m.step (.read a n)).2) =
      (match a2[k]? with | none => Res.threw | some m => Res.mem (m.step (.read a n)).2)
  | [], [], [], _, _, _, _, _, _ => rfl
  | [], _ :: _, _, h, _, _, _, _, _ => h.elim
  | [], [], _ :: _, _, h, _, _, _, _ => h.elim
  | _ :: _, [], _, h, _, _, _, _, _ => h.elim
  | _ :: _, _ :: _, [], _, h, _, _, _, _ => h.elim
  | f :: cf, x :: a1, y :: a2, h1, h2, e, k, a, n => by
    rw [List.map_cons, List.map_cons] at e
    injection e with e1 e2
    cases k with
    | succ k =>
      simp only [List.getElem?_cons_succ]
      exact read_same h1.2 h2.2 e2 k a n
    | zero =>
      simp only [List.getElem?_cons_zero]
      obtain ⟨⟨p1, p2, p3, p4⟩, _⟩ := h1
      obtain ⟨⟨q1, q2, q3, q4⟩, _⟩ := h2
      unfold ArchData.Spec.step ArchData.Spec.inLine ArchData.Spec.load
      dsimp only at e1 ⊢
      rw [← p1, ← p4, ← q1, ← q4, e1]

theorem read_obs {cf : List Cfg} {c : CP} {s : Spec} (r : Rep cf c s) (k a n : Nat) (hn : n < 2 ^ 63) :
    (c.step (.access k (.read a n))).2 =
      match s.ads[k]? with | none => Res.threw | some m => Res.mem (m.step (.read a n)).2 := by
  rw [(rep_step cf c s (.access k (.read a n)) r ⟨by cases s.ads[k]? with | none => trivial | some m => exact hn, fun h => (by cases h)⟩).2]
  unfold Spec.step
  dsimp only
  cases s.ads[k]? <;> rfl

theorem legal_append {s : Spec} {a b : List Op} (h : Legal s (a ++ b)) :
    Legal s a ∧ Legal (runOps Spec.step s a).1 b := by
  induction a generalizing s with
  | nil => exact ⟨trivial, h⟩
  | cons o a ih =>
    obtain ⟨h1, h2⟩ := h
    obtain ⟨g1, g2⟩ := ih h2
    exact ⟨⟨h1, g1⟩, g2⟩

/-- later calls never change a stored copy -/
theorem chk_stable (id : Nat) (os : List Op) : ∀ (s : Spec) (k : Chk), s.chks[id]? = some k →
    ∃ k', (runOps Spec.step s os).1.chks[id]? = some k' ∧ k'.mems = k.mems ∧ k'.snap = k.snap := by
  induction os with
  | nil => intro s k h; exact ⟨k, h, rfl, rfl⟩
  | cons o os ih =>
    intro s k h
    have hadd : ∀ (s : Spec) k, s.chks[id]? = some k → ∀ b d, (s.add b d).chks[id]? = some k := by
      intro s k h b d
      have := List.getElem?_eq_some_iff.1 h |>.1
      unfold Spec.add
      rw [List.getElem?_append_left this]
      exact h
    have hcreate : ∀ (s : Spec) k, s.chks[id]? = some k → ∀ f, (s.create f).1.chks[id]? = some k := by
      intro s k h f
      unfold Spec.create
      split
      · exact h
      · split
        · exact h
        · split
          · exact h
          · exact hadd s k h _ _
    obtain ⟨k1, h1, h2⟩ : ∃ k', (s.step o).1.chks[id]? = some k' ∧ k'.mems = k.mems ∧ k'.snap = k.snap := by
      cases o with
      | access j o => refine ⟨k, ?_, rfl, rfl⟩; unfold Spec.step; dsimp only; split <;> exact h
      | createHead => refine ⟨k, ?_, rfl, rfl⟩; unfold Spec.step; dsimp only; split; · exact hadd s k h _ _
                      · exact h
      | create f =>
        refine ⟨k, ?_, rfl, rfl⟩
        show (Spec.create _ f).1.chks[id]? = _
        apply hcreate
        split
        · exact hadd s k h _ _
        · exact h
      | load j => refine ⟨k, ?_, rfl, rfl⟩; unfold Spec.step; dsimp only; split <;> exact h
      | delete j =>
        unfold Spec.step
        dsimp only
        rcases Option.eq_none_or_eq_some s.chks[j]? with e | ⟨kj, e⟩
        · rw [e]; exact ⟨k, h, rfl, rfl⟩
        · rw [e]
          dsimp only
          by_cases hij : j = id
          · subst hij
            rw [h] at e
            cases e
            have := List.getElem?_eq_some_iff.1 h |>.1
            exact ⟨{ k with deleted := true }, by rw [List.getElem?_set, if_pos rfl, if_pos this], rfl, rfl⟩
          · exact ⟨k, by rw [List.getElem?_set, if_neg hij]; exact h, rfl, rfl⟩
      | _ => exact ⟨k, h, rfl, rfl⟩
    obtain ⟨k2, h3, h4⟩ := ih _ k1 h1
    exact ⟨k2, h3, h4.1.trans h2.1, h4.2.trans h2.2⟩

theorem created_mems {s : Spec} {f : Bool} {id : Nat} {snap : Bool} (h : (s.step (.create f)).2 = .created id snap) :
    ∃ k, (s.step (.create f)).1.chks[id]? = some k ∧ k.mems = (s.step (.create f)).1.mems ∧ k.snap = snap := by
  have h' : (Spec.create (if s.chks = [] then s.add true 0 else s) f).2 = .created id snap := h
  show ∃ k, (Spec.create (if s.chks = [] then s.add true 0 else s) f).1.chks[id]? = some k ∧
    k.mems = (Spec.create (if s.chks = [] then s.add true 0 else s) f).1.mems ∧ k.snap = snap
  generalize (if s.chks = [] then s.add true 0 else s) = s at h' ⊢
  unfold Spec.create at h' ⊢
  by_cases c1 : s.chks.length = unidentified
  · rw [if_pos c1] at h'; cases h'
  rw [if_neg c1] at h' ⊢
  rcases Option.eq_none_or_eq_some s.current with e | ⟨k, e⟩
  · rw [e] at h'; cases h'
  rw [e] at h' ⊢
  dsimp only at h' ⊢
  by_cases c2 : s.now < k.tick
  · rw [if_pos c2] at h'; cases h'
  rw [if_neg c2] at h' ⊢
  injection h' with h1 h2
  subst h1
  refine ⟨⟨s.mems, s.now, f || decide (k.dist ≥ s.thresh), if (f || decide (k.dist ≥ s.thresh)) = true then 0 else k.dist + 1, false, s.cur⟩, ?_, rfl, h2⟩
  unfold Spec.add
  simp

theorem loaded_mems {s : Spec} {id : Nat} {k : Chk} (hk : s.chks[id]? = some k)
    (hlen : k.mems.length = s.ads.length) : (s.step (.load id)).1.ads.map (·.mem) = k.mems := by
  unfold Spec.step
  dsimp only
  rw [hk]
  exact setMems_mem _ _ hlen.symm

theorem runOps_snoc {σ ο ρ : Type _} (step : σ → ο → σ × ρ) (s : σ) (os : List ο) (o : ο) :
    (runOps step s (os ++ [o])).1 = (step (runOps step s os).1 o).1 := by
  rw [runOps_append]; rfl

/-- C49: whatever happened before a checkpoint was created and whatever is done after (writes, further
checkpoints, loads of other branches, deletions of other checkpoints), loading it makes every read of every
memory return what it returned right after the checkpoint was created. Missing: histories that are not `Legal`. -/
theorem C49_load_restores_partial {fs : List Config} {ads : List AD} (hk : ∀ f ∈ fs, f.ok) (hb : build fs = some ads)
    (pre mid : List Op) (force snap : Bool) (id : Nat)
    (hl : Legal (plain fs) (pre ++ [.create force] ++ mid ++ [.load id]))
    (hc : ((runOps CP.step (CP.init ads) pre).1.step (.create force)).2 = .created id snap)
    (k a n : Nat) (hn : n < 2 ^ 63) :
    ((runOps CP.step (CP.init ads) (pre ++ [.create force] ++ mid ++ [.load id])).1.step (.access k (.read a n))).2 =
      ((runOps CP.step (CP.init ads) (pre ++ [.create force])).1.step (.access k (.read a n))).2 := by
  obtain ⟨hl3, hl4⟩ := legal_append hl
  obtain ⟨hl2, _⟩ := legal_append hl3
  obtain ⟨hl1, _⟩ := legal_append hl2
  have r0 := (reach hk hb pre hl1).1
  have r1 := (reach hk hb _ hl2).1
  have r2 := (reach hk hb _ hl3).1
  have r3 := (reach hk hb _ hl).1
  rw [read_obs r3 k a n hn, read_obs r1 k a n hn]
  apply read_same r3.ofs r1.ofs
  have hc' : ((runOps Spec.step (plain fs) pre).1.step (.create force)).2 = .created id snap := by
    rw [← hc]
    have hlc : (runOps Spec.step (plain fs) pre).1.legal (.create force) := trivial
    exact (rep_step _ _ _ _ r0 hlc).2.symm
  obtain ⟨k1, g1, g2, _⟩ := created_mems hc'
  rw [← runOps_snoc] at g1 g2
  obtain ⟨k2, g3, g4, _⟩ := chk_stable id mid _ k1 g1
  rw [← runOps_append] at g3
  have hlen : k2.mems.length = (runOps Spec.step (plain fs) (pre ++ [.create force] ++ mid)).1.ads.length := by
    rw [g4, g2, Spec.mems, List.length_map, ← r1.ofs.length, ← r2.ofs.length]
  rw [runOps_snoc, loaded_mems g3 hlen, g4, g2]
  rfl

example : Legal (plain demoFs) ([.setThreshold 2, .access 0 (.write 1 [5]), .create false, .access 0 (.write 1 [6])] ++ [.create false] ++
    [.access 0 (.write 2 [8]), .create false, .load 1, .access 1 (.write 8 [9]), .create true, .delete 1, .delete 3] ++ [.load 2]) ∧
    ((runOps CP.step (CP.init ((build demoFs).getD []))
      [.setThreshold 2, .access 0 (.write 1 [5]), .create false, .access 0 (.write 1 [6])]).1.step (.create false)).2 = .created 2 false ∧
    ((runOps CP.step (CP.init ((build demoFs).getD [])) ([.setThreshold 2, .access 0 (.write 1 [5]), .create false, .access 0 (.write 1 [6])] ++ [.create false] ++
    [.access 0 (.write 2 [8]), .create false, .load 1, .access 1 (.write 8 [9]), .create true, .delete 1, .delete 3] ++ [.load 2])).1.step
      (.access 0 (.read 0 4))).2 = .mem (.data [0, 6, 0, 0]) := by
  refine ⟨by decide +kernel, by decide +kernel, by decide +kernel⟩

/-- C50: deleting a checkpoint does not change what loading another one restores, nor whether that works: the
answer of the load and every later read are the same with and without the deletion. Missing: histories that are
not `Legal`. -/
theorem C50_delete_partial {fs : List Config} {ads : List AD} (hk : ∀ f ∈ fs, f.ok) (hb : build fs = some ads)
    (pre : List Op) (x id : Nat) (hx : x ≠ id) (hl : Legal (plain fs) (pre ++ [.delete x] ++ [.load id]))
    (hl' : Legal (plain fs) (pre ++ [.load id])) :
    ((runOps CP.step (CP.init ads) (pre ++ [.delete x])).1.step (.load id)).2 =
      ((runOps CP.step (CP.init ads) pre).1.step (.load id)).2 ∧
    ∀ k a n, n < 2 ^ 63 →
    ((runOps CP.step (CP.init ads) (pre ++ [.delete x] ++ [.load id])).1.step (.access k (.read a n))).2 =
      ((runOps CP.step (CP.init ads) (pre ++ [.load id])).1.step (.access k (.read a n))).2 := by
  obtain ⟨hl2, hl3⟩ := legal_append hl
  obtain ⟨hl1, hl4⟩ := legal_append hl'
  have r1 := (reach hk hb _ hl1).1
  have r2 := (reach hk hb _ hl2).1
  have r3 := (reach hk hb _ hl).1
  have r4 := (reach hk hb _ hl').1
  have hsame : (runOps Spec.step (plain fs) (pre ++ [.delete x])).1.chks[id]? = (runOps Spec.step (plain fs) pre).1.chks[id]? ∧
      (runOps Spec.step (plain fs) (pre ++ [.delete x])).1.ads = (runOps Spec.step (plain fs) pre).1.ads := by
    rw [runOps_snoc]
    unfold Spec.step
    dsimp only
    split
    · exact ⟨rfl, rfl⟩
    · dsimp only
      exact ⟨by rw [List.getElem?_set, if_neg hx], rfl⟩
  constructor
  · rw [(rep_step _ _ _ _ r2 hl3.1).2, (rep_step _ _ _ _ r1 hl4.1).2]
    generalize (runOps Spec.step (plain fs) (pre ++ [.delete x])).1 = s2 at hsame
    generalize (runOps Spec.step (plain fs) pre).1 = s1 at hsame
    unfold Spec.step
    dsimp only
    rw [hsame.1]
    cases s1.chks[id]? <;> rfl
  · intro k a n hn
    rw [read_obs r3 k a n hn, read_obs r4 k a n hn]
    apply read_same r3.ofs r4.ofs
    rw [runOps_snoc Spec.step _ _ (.load id), runOps_snoc Spec.step _ _ (.load id)]
    generalize (runOps Spec.step (plain fs) (pre ++ [.delete x])).1 = s2 at hsame
    generalize (runOps Spec.step (plain fs) pre).1 = s1 at hsame
    unfold Spec.step
    dsimp only
    rw [hsame.1, hsame.2]
    cases s1.chks[id]? with
    | none => dsimp only; rw [hsame.2]
    | some k => rfl

example : Legal (plain demoFs) ([.access 0 (.write 1 [5]), .create false, .access 0 (.write 2 [6]), .create false, .create true] ++
      [.delete 1] ++ [.load 2]) ∧
    Legal (plain demoFs) ([.access 0 (.write 1 [5]), .create false, .access 0 (.write 2 [6]), .create false, .create true] ++ [.load 2]) := by
  refine ⟨by decide +kernel, by decide +kernel⟩

theorem created_snap (id : Nat) (b : Bool) (os : List Op) : ∀ (s : Spec), Res.created id b ∈ (runOps Spec.step s os).2 →
    ∃ k, (runOps Spec.step s os).1.chks[id]? = some k ∧ k.snap = b := by
  induction os with
  | nil => intro s h; cases h
  | cons o os ih =>
    intro s h
    rcases List.mem_cons.1 h with h | h
    · have ho : ∃ f, o = .create f := by
        cases o with
        | create f => exact ⟨f, rfl⟩
        | access j o => dsimp only at h; split at h <;> cases h
        | createHead => dsimp only at h; split at h <;> cases h
        | load j => dsimp only at h; split at h <;> cases h
        | delete j => dsimp only at h; split at h <;> cases h
        | _ => cases h
      obtain ⟨f, rfl⟩ := ho
      obtain ⟨k, h1, _, h2⟩ := created_mems h.symm
      obtain ⟨k', h3, _, h4⟩ := chk_stable id os _ k h1
      exact ⟨k', h3, h4.trans h2⟩
    · exact ih _ h

theorem countP_range_get {α : Type _} (l : List α) (p : α → Bool) :
    (List.range l.length).countP (fun i => match l[i]? with | some k => p k | none => false) = l.countP p := by
  induction l with
  | nil => rfl
  | cons a l ih =>
    rw [List.length_cons, List.range_succ_eq_map, List.countP_cons, List.countP_map, List.countP_cons, ← ih]
    rfl

theorem countP_split {α : Type _} (l : List α) (p q r : α → Bool) (h : ∀ a, r a = (p a || q a)) (h2 : ∀ a, p a = true → q a = false) :
    l.countP p + l.countP q = l.countP r := by
  induction l with
  | nil => rfl
  | cons a l ih =>
    rw [List.countP_cons, List.countP_cons, List.countP_cons, ← ih, h a]
    have := h2 a
    cases hp : p a with
    | true => rw [this hp]; simp; omega
    | false => cases q a <;> simp <;> omega

/-- C50: after every allowed history the reported number of checkpoints is the length of the list of ids, the
reported number of snapshots is the number of ids in it that were created as snapshots (the head, 0, and those
whose creation reported it), and together with the deleted checkpoints that are still counted they are all that
is stored. Missing: histories that are not `Legal`. -/
theorem C50_counts_partial {fs : List Config} {ads : List AD} (hk : ∀ f ∈ fs, f.ok) (hb : build fs = some ads)
    (os : List Op) (hl : Legal (plain fs) os) :
    let c := (runOps CP.step (CP.init ads) os).1
    ∃ isSnap : Nat → Bool, (∀ id b, Res.created id b ∈ (runOps CP.step (CP.init ads) os).2 → isSnap id = b) ∧
      (c.step .counts).2 = .nums c.list.length (c.list.countP isSnap) ∧
      c.dead + c.list.length = (List.range c.next).countP (fun id => (c.chk id).isSome) := by
  obtain ⟨r, e⟩ := reach hk hb os hl
  have hlist : (runOps CP.step (CP.init ads) os).1.list =
      (List.range (runOps Spec.step (plain fs) os).1.chks.length).filter (runOps Spec.step (plain fs) os).1.alive := by
    have hll : (runOps Spec.step (plain fs) os).1.legal .list := trivial
    have := (rep_step _ _ _ .list r hll).2
    injection this
  refine ⟨fun id => match (runOps Spec.step (plain fs) os).1.chks[id]? with | some k => k.snap | none => false, ?_, ?_, ?_⟩
  · intro id b hm
    rw [e] at hm
    obtain ⟨k, h1, h2⟩ := created_snap id b os _ hm
    simp only [h1, h2]
  · show Res.nums _ _ = _
    rw [hlist, r.alive, r.snaps]
    congr 1
    · rw [← List.countP_eq_length_filter, ← countP_range_get]
      apply List.countP_congr
      intro i _
      unfold Spec.alive
      cases (runOps Spec.step (plain fs) os).1.chks[i]? <;> exact Iff.rfl
    · rw [List.countP_filter, ← countP_range_get]
      apply List.countP_congr
      intro i hi
      unfold Spec.alive
      cases (runOps Spec.step (plain fs) os).1.chks[i]? with
      | none => simp
      | some k => simp only [Bool.and_eq_true]; exact And.comm
  · rw [r.dead]
    unfold CP.list
    rw [← List.countP_eq_length_filter]
    apply countP_split
    · intro i
      unfold isDead
      cases (runOps CP.step (CP.init ads) os).1.chk i with
      | none => rfl
      | some n => dsimp only; cases n.deleted <;> rfl
    · intro i
      unfold isDead
      cases (runOps CP.step (CP.init ads) os).1.chk i with
      | none => intro h; cases h
      | some n => intro h; dsimp only at h ⊢; rw [h]; rfl

/-- after `demoOps` one deleted checkpoint is still stored beside the three listed ones -/
example : Legal (plain demoFs) demoOps ∧
    (runOps CP.step (CP.init ((build demoFs).getD [])) demoOps).1.list = [0, 3, 4] ∧
    ((runOps CP.step (CP.init ((build demoFs).getD [])) demoOps).1.step .counts).2 = .nums 3 2 ∧
    (runOps CP.step (CP.init ((build demoFs).getD [])) demoOps).1.dead = 1 := by decide +kernel

/-! ### the threshold -/

def setsThreshold : Op → Bool
  | .setThreshold _ => true
  | _ => false

theorem dist_le (n : Nat) (os : List Op) : ∀ (s : Spec), s.thresh = n → (∀ k ∈ s.chks, k.dist ≤ n) →
    (∀ o ∈ os, setsThreshold o = false) →
    ∀ k ∈ (runOps Spec.step s os).1.chks, k.dist ≤ n := by
  induction os with
  | nil => intro s _ h _; exact h
  | cons o os ih =>
    intro s ht h hn
    refine ih _ ?_ ?_ (fun o ho => hn o (List.mem_cons_of_mem _ ho))
    · have hcreate : ∀ (s : Spec), ∀ f, (s.create f).1.thresh = s.thresh := by
        intro s f
        unfold Spec.create
        split
        · rfl
        · split
          · rfl
          · split <;> rfl
      have ho := hn o (List.mem_cons_self ..)
      cases o with
      | setThreshold m => cases ho
      | create f =>
        show (Spec.create _ f).1.thresh = n
        rw [hcreate]
        split <;> exact ht
      | access j o => dsimp only; split <;> exact ht
      | createHead => dsimp only; split <;> exact ht
      | load j => dsimp only; split <;> exact ht
      | delete j => dsimp only; split <;> exact ht
      | _ => exact ht
    · have hadd0 : ∀ (s : Spec), (∀ k ∈ s.chks, k.dist ≤ n) → ∀ b d, d ≤ n → ∀ k ∈ (s.add b d).chks, k.dist ≤ n := by
        intro s h b d hd k hk
        rcases List.mem_append.1 hk with hk | hk
        · exact h k hk
        · rw [List.mem_singleton.1 hk]; exact hd
      have hcreate : ∀ (s : Spec), s.thresh = n → (∀ k ∈ s.chks, k.dist ≤ n) → ∀ f, ∀ k ∈ (s.create f).1.chks, k.dist ≤ n := by
        intro s ht h f
        unfold Spec.create
        split
        · exact h
        · split
          · exact h
          · rename_i k hcur
            split
            · exact h
            · dsimp only
              apply hadd0 s h
              split
              · omega
              · rename_i hf
                have : ¬ k.dist ≥ s.thresh := by
                  intro hge
                  apply hf
                  simp [hge]
                omega
      cases o with
      | create f =>
        show ∀ k ∈ (Spec.create _ f).1.chks, k.dist ≤ n
        apply hcreate
        · split <;> exact ht
        · split
          · exact hadd0 s h _ _ (by omega)
          · exact h
      | access j o => dsimp only; split <;> exact h
      | createHead =>
        dsimp only; split
        · exact hadd0 s h _ _ (by omega)
        · exact h
      | load j => dsimp only; split <;> exact h
      | delete j =>
        dsimp only
        split
        · exact h
        · rename_i k hk
          intro k' hk'
          dsimp only at hk'
          rcases List.mem_or_eq_of_mem_set hk' with g | g
          · exact h k' g
          · rw [g]; exact h k (List.mem_of_getElem? hk)
      | _ => exact h

/-- C51: with the threshold set to `n` before anything else and not changed, restoring any checkpoint that can be
loaded reads one snapshot and at most `n` deltas after it. Missing: histories that are not `Legal`. -/
theorem C51_threshold_partial {fs : List Config} {ads : List AD} (hk : ∀ f ∈ fs, f.ok) (hb : build fs = some ads)
    (n : Nat) (os : List Op) (hn : ∀ o ∈ os, setsThreshold o = false) (hl : Legal (plain fs) (.setThreshold n :: os))
    (id : Nat) (hid : id ∈ (runOps CP.step (CP.init ads) (.setThreshold n :: os)).1.list) :
    ∃ snap deltas, restoreChain (runOps CP.step (CP.init ads) (.setThreshold n :: os)).1.chk (id + 1) id = some (deltas ++ [snap]) ∧
      snap.snap = true ∧ (∀ d ∈ deltas, d.snap = false) ∧ deltas.length ≤ n := by
  obtain ⟨r, _⟩ := reach hk hb _ hl
  have hll : (runOps Spec.step (plain fs) (.setThreshold n :: os)).1.legal .list := trivial
  have hlist := (rep_step _ _ _ .list r hll).2
  injection hlist with hlist
  rw [hlist] at hid
  obtain ⟨_, ha⟩ := List.mem_filter.1 hid
  unfold Spec.alive at ha
  rcases Option.eq_none_or_eq_some (runOps Spec.step (plain fs) (.setThreshold n :: os)).1.chks[id]? with e | ⟨k, e⟩
  · rw [e] at ha; cases ha
  · rw [e] at ha
    have hd := dist_le n os { plain fs with thresh := n } rfl (fun k hk => by cases hk) hn k (List.mem_of_getElem? e)
    have hh := r.kept id k e (Or.inl (by simpa using ha))
    clear e ha hid hlist hll hl
    generalize (runOps CP.step (CP.init ads) (.setThreshold n :: os)).1.chk = chk at hh
    generalize k.dist = d at hd hh
    suffices H : ∀ cf id mems d, Holds cf chk id mems d → ∀ fuel, id < fuel →
        ∃ snap deltas, restoreChain chk fuel id = some (deltas ++ [snap]) ∧ snap.snap = true ∧ (∀ x ∈ deltas, x.snap = false) ∧
          deltas.length = d by
      obtain ⟨snap, deltas, h1, h2, h3, h4⟩ := H _ _ _ _ hh (id + 1) (by omega)
      exact ⟨snap, deltas, h1, h2, h3, by omega⟩
    intro cf id mems d h
    induction h with
    | @snap id n recss h1 h2 h3 h4 =>
      intro fuel hf
      obtain ⟨fuel, rfl⟩ : ∃ k, fuel = k + 1 := ⟨fuel - 1, by omega⟩
      refine ⟨n, [], ?_, h2, fun x hx => (by cases hx), rfl⟩
      unfold restoreChain; rw [h1]; simp only [h2, if_true]; rfl
    | @delta id p d n recss mems h1 h2 h3 h4 h5 h6 h7 ih =>
      intro fuel hf
      obtain ⟨fuel, rfl⟩ : ∃ k, fuel = k + 1 := ⟨fuel - 1, by omega⟩
      obtain ⟨s, ds, b1, b2, b3, b4⟩ := ih fuel (by omega)
      refine ⟨s, n :: ds, ?_, b2, ?_, by rw [List.length_cons, b4]⟩
      · unfold restoreChain; rw [h1]; simp only [h2, h3, b1, Bool.false_eq_true, if_false, Option.map_some]; rfl
      · intro x hx
        rcases List.mem_cons.1 hx with e | hx
        · rw [e]; exact h2
        · exact b3 x hx

example : Legal (plain demoFs) (.setThreshold 2 :: demoOps.tail) ∧ (∀ o ∈ demoOps.tail, setsThreshold o = false) ∧
    4 ∈ (runOps CP.step (CP.init ((build demoFs).getD [])) (.setThreshold 2 :: demoOps.tail)).1.list := by
  refine ⟨by decide +kernel, by decide +kernel, by decide +kernel⟩

/-! ### the chain -/

theorem chain_spec {chk : Map} {next : Nat} (t : Tree chk next (some 0)) : ∀ (fuel id : Nat) (n : Node), chk id = some n → id < fuel →
    ∃ raw, chainIds chk fuel id = (id :: raw).map (fun i => match chk i with | some m => if m.deleted then unidentified else i | none => i) ∧
      (id :: raw).Pairwise (· > ·) ∧ (id :: raw).getLast? = some 0 ∧ ∀ i ∈ id :: raw, (chk i).isSome := by
  intro fuel
  induction fuel with
  | zero => intro id n _ h; omega
  | succ fuel ih =>
    intro id n hn hlt
    unfold chainIds
    rw [hn]
    dsimp only
    rcases Option.eq_none_or_eq_some n.prev with hp | ⟨p, hp⟩
    · rw [hp]
      have := (t.root id n hn hp).1
      cases this
      refine ⟨[], ?_, by simp, rfl, ?_⟩
      · simp only [List.map_cons, List.map_nil, hn]
      · intro i hi; rw [List.mem_singleton.1 hi, hn]; rfl
    · rw [hp]
      obtain ⟨a1, m, a2, _⟩ := t.prevOk id n p hn hp
      obtain ⟨raw, b1, b2, b3, b4⟩ := ih p m a2 (by omega)
      refine ⟨p :: raw, ?_, ?_, ?_, ?_⟩
      · rw [List.map_cons, ← b1]; simp only [hn]
      · rw [List.pairwise_cons]
        refine ⟨?_, b2⟩
        intro x hx
        rcases List.mem_cons.1 hx with e | hx
        · rw [e]; exact a1
        · have := (List.pairwise_cons.1 b2).1 x hx; omega
      · rw [List.getLast?_cons_cons]; exact b3
      · intro i hi
        rcases List.mem_cons.1 hi with e | hi
        · rw [e, hn]; rfl
        · exact b4 i hi

/-- C84: the chain of a checkpoint is reported from the checkpoint back to the head, always to older ones, with deleted
checkpoints replaced by the unidentified id. The documentation promises the opposite order. -/
theorem C84_chain_partial {fs : List Config} {ads : List AD} (hk : ∀ f ∈ fs, f.ok) (hb : build fs = some ads)
    (os : List Op) (hl : Legal (plain fs) os) (id : Nat) (hid : id ∈ (runOps CP.step (CP.init ads) os).1.list) :
    ∃ raw : List Nat, ((runOps CP.step (CP.init ads) os).1.step (.chain id)).2 =
        .ids ((id :: raw).map fun i => if i ∈ (runOps CP.step (CP.init ads) os).1.list then i else unidentified) ∧
      (id :: raw).Pairwise (· > ·) ∧ (id :: raw).getLast? = some 0 := by
  obtain ⟨r, _⟩ := reach hk hb os hl
  generalize (runOps CP.step (CP.init ads) os).1 = c at r hid
  generalize (runOps Spec.step (plain fs) os).1 = s at r
  have hmem : ∀ i n, c.chk i = some n → (i ∈ c.list ↔ n.deleted = false) := by
    intro i n hn
    unfold CP.list
    rw [List.mem_filter, List.mem_range, hn]
    have := r.tree.lt i n hn
    constructor
    · intro h; simpa using h.2
    · intro h; exact ⟨this, by simpa using h⟩
  have hin : ∃ n, c.chk id = some n := by
    unfold CP.list at hid
    rw [List.mem_filter] at hid
    rcases Option.eq_none_or_eq_some (c.chk id) with h | h
    · rw [h] at hid; cases hid.2
    · exact h
  obtain ⟨n, hn⟩ := hin
  have hne : s.chks.length ≠ 0 := by
    have := r.tree.lt id n hn
    rw [r.next] at this
    omega
  have hh : c.head = some 0 := by rw [r.head, if_neg hne]
  have t := r.tree
  rw [hh] at t
  obtain ⟨raw, h1, h2, h3, h4⟩ := chain_spec t (id + 1) id n hn (by omega)
  refine ⟨raw, ?_, h2, h3⟩
  unfold CP.step
  dsimp only
  rw [hh]
  simp only [hn]
  rw [h1]
  congr 1
  apply List.map_congr_left
  intro i hi
  rcases Option.eq_none_or_eq_some (c.chk i) with h | ⟨m, h⟩
  · have := h4 i hi; rw [h] at this; cases this
  · rw [h]
    dsimp only
    cases hd : m.deleted with
    | true => rw [if_pos rfl, if_neg (fun g => by rw [(hmem i m h).1 g] at hd; cases hd)]
    | false => rw [if_neg (by simp), if_pos ((hmem i m h).2 hd)]

example : Legal (plain demoFs) demoOps ∧ 4 ∈ (runOps CP.step (CP.init ((build demoFs).getD [])) demoOps).1.list ∧
    ((runOps CP.step (CP.init ((build demoFs).getD [])) demoOps).1.step (.chain 4)).2 = .ids [4, unidentified, 0] := by
  refine ⟨by decide +kernel, by decide +kernel, by decide +kernel⟩

/-! ### where the documented behaviour fails -/

/-- one 16-byte memory with 4-byte lines -/
def oneMem : List Config := [⟨2, 0, 1, true, 16, []⟩]

def start : CP := CP.init ((build oneMem).getD [])

/-- C49 fails: cleaning (or resetting) a memory is not seen by the next delta. The checkpoint created after the
clean restores the values from before it. -/
theorem C49_clean_violated :
    (runOps CP.step start [.access 0 (.write 1 [5]), .create false, .access 0 .clean, .create false, .access 0 (.read 0 4),
      .load 2, .access 0 (.read 0 4)]).2 =
      [.mem .ok, .created 1 false, .mem .ok, .created 2 false, .mem (.data [0, 0, 0, 0]), .done, .mem (.data [0, 5, 0, 0])] := by
  decide +kernel

/-- C49 fails: writes through raw line pointers (DMI) are not captured by deltas. -/
theorem C49_raw_write_violated :
    (runOps CP.step start [.access 0 (.write 1 [5]), .create false, .poke 0 1 [6], .create false, .access 0 (.read 0 4),
      .load 2, .access 0 (.read 0 4)]).2 =
      [.mem .ok, .created 1 false, .done, .created 2 false, .mem (.data [0, 6, 0, 0]), .done, .mem (.data [0, 5, 0, 0])] := by
  decide +kernel

/-- C49 fails after `forgetCurrent`: the next checkpoint is a delta from the head, but lines stored in between are
no longer flagged. -/
theorem C49_forget_violated :
    (runOps CP.step start [.createHead, .access 0 (.write 1 [5]), .create false, .forgetCurrent, .create false, .access 0 (.read 0 4),
      .load 2, .access 0 (.read 0 4)]).2 =
      [.done, .mem .ok, .created 1 false, .done, .created 2 false, .mem (.data [0, 5, 0, 0]), .done, .mem (.data [0, 0, 0, 0])] := by
  decide +kernel

/-- C50 fails: when the current checkpoint is deleted while the memory still depends on it, deleting a sibling
frees the deltas it depends on; a checkpoint created afterwards restores wrong bytes. (The documentation says
that deleting the current checkpoint moves the current one back; it does not.) -/
theorem C50_delete_current_violated :
    (runOps CP.step start [.createHead, .access 0 (.write 1 [5]), .create false, .create false, .load 1, .create false,
      .delete 1, .delete 3, .delete 2, .create false, .access 0 (.read 0 4), .load 4, .access 0 (.read 0 4)]).2 =
      [.done, .mem .ok, .created 1 false, .created 2 false, .done, .created 3 false, .done, .done, .done, .created 4 false,
        .mem (.data [0, 5, 0, 0]), .done, .mem (.data [0, 0, 0, 0])] := by
  decide +kernel

/-- Documentation: deleted ids are unknown and the head cannot be deleted (throws). In fact a deleted checkpoint
that others depend on is still found and loaded, and deleting the head succeeds. -/
theorem C50_deleted_found_violated :
    (runOps CP.step start [.createHead, .access 0 (.write 1 [5]), .create false, .create false, .delete 1, .delete 0, .has 1, .has 0,
      .list, .load 1]).2 =
      [.done, .mem .ok, .created 1 false, .created 2 false, .done, .done, .yes true, .yes true, .ids [2], .done] := by
  decide +kernel

/-- Documentation: a threshold of 1 makes every checkpoint a snapshot. In fact they alternate. -/
theorem C51_threshold_one_violated :
    (runOps CP.step start [.setThreshold 1, .create false, .create false, .create false, .create false]).2 =
      [.done, .created 1 false, .created 2 true, .created 3 false, .created 4 true] := by
  decide +kernel

/-- C84 fails: the documentation says that the front of the chain is the head and the back is the checkpoint asked for. -/
theorem C84_order_violated : (runOps CP.step start [.create false, .create false, .chain 2]).2 =
    [.created 1 false, .created 2 false, .ids [2, 1, 0]] := by
  decide +kernel

end Sparta.Checkpoint
