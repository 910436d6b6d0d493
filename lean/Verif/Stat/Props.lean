import Verif.Stat.Windows
/-! Properties of reports (C185-C189). -/
namespace Sparta.Stat
variable {α : Type}

/-! ### windows of reports -/

mutual
/-- a report and all the reports below it -/
def Rep.all : Rep α → List (RepData α)
  | .mk d subs => d :: Reps.all subs
def Reps.all : Reps α → List (RepData α)
  | .nil => []
  | .cons r rest => Rep.all r ++ Reps.all rest
end

/-- a report and the world it is in -/
def repStep (A : Env α) (s : World α × Rep α) : Call α → (World α × Rep α) × Option Err
  | .start => let (r, e) := s.2.start A s.1; ((s.1, r), e)
  | .stop => let (r, e) := s.2.stop A s.1; ((s.1, r), e)
  | .accumulate => ((s.1, s.2.accumulate), none)
  | .world W => ((W, s.2), none)

/-- The window of a report after the calls: what `getStart` and `getEnd` say. -/
def ticks : World α → Nat × Option Nat → List (Call α) → Nat × Option Nat
  | _, t, [] => t
  | V, _, .start :: cs => ticks V (V.now, none) cs
  | V, t, .stop :: cs => ticks V (t.1, some V.now) cs
  | V, t, .accumulate :: cs => ticks V t cs
  | _, t, .world W :: cs => ticks W t cs

theorem eachStat_all {f : Inst α → Inst α × Option Err} (ss : List (String × Inst α)) (h : ∀ p ∈ ss, (f p.2).2 = none) :
    eachStat f ss = (ss.map fun p => (p.1, (f p.2).1), none) := by
  induction ss with
  | nil => rfl
  | cons p ss ih =>
    rcases p with ⟨nm, i⟩
    have h1 := h (nm, i) (List.mem_cons_self ..)
    have h2 := ih fun q hq => h q (List.mem_cons_of_mem _ hq)
    rcases hf : f i with ⟨i', e⟩
    simp only [hf] at h1
    subst h1
    simp only [eachStat, hf, h2, List.map]

/-- what a start does to the data of a report -/
def startData (A : Env α) (W : World α) (d : RepData α) : RepData α :=
  { d with start := W.now, stop := none, stats := d.stats.map fun p => (p.1, (p.2.start A W).1) }

/-- what an end does to the data of a report -/
def stopData (A : Env α) (W : World α) (d : RepData α) : RepData α :=
  { d with stop := some W.now, stats := d.stats.map fun p => (p.1, (p.2.stop A W).1) }

/-- what `accumulateStats` does to the data of a report -/
def accumulateData (d : RepData α) : RepData α :=
  { d with stats := d.stats.map fun p => (p.1, p.2.accumulate) }

mutual
theorem Rep.start_all {A : Env α} {W : World α} : ∀ (r : Rep α), (∀ d ∈ r.all, d.sched = true) →
    (∀ d ∈ r.all, ∀ p ∈ d.stats, (p.2.start A W).2 = none) →
    (r.start A W).2 = none ∧ (r.start A W).1.all = r.all.map (startData A W)
  | .mk d subs, hs, hn => by
    have h1 := hs d (by simp [Rep.all])
    have h2 := eachStat_all (f := Inst.start A W) d.stats (hn d (by simp [Rep.all]))
    have h3 := Reps.start_all (A := A) (W := W) subs (fun e he => hs e (by simp [Rep.all, he]))
      (fun e he => hn e (by simp [Rep.all, he]))
    simp [Rep.start, h1, h2, Rep.all, startData, h3.1]
    exact h3.2
theorem Reps.start_all {A : Env α} {W : World α} : ∀ (r : Reps α), (∀ d ∈ r.all, d.sched = true) →
    (∀ d ∈ r.all, ∀ p ∈ d.stats, (p.2.start A W).2 = none) →
    (r.start A W).2 = none ∧ (r.start A W).1.all = r.all.map (startData A W)
  | .nil, _, _ => by simp [Reps.start, Reps.all]
  | .cons r rest, hs, hn => by
    have h3 := Rep.start_all (A := A) (W := W) r (fun e he => hs e (by simp [Reps.all, he]))
      (fun e he => hn e (by simp [Reps.all, he]))
    have h4 := Reps.start_all (A := A) (W := W) rest (fun e he => hs e (by simp [Reps.all, he]))
      (fun e he => hn e (by simp [Reps.all, he]))
    rcases hr : r.start A W with ⟨r', e⟩
    rw [hr] at h3
    obtain ⟨h5, h6⟩ := h3
    dsimp only at h5 h6
    subst h5
    simp [Reps.start, hr, Reps.all, h4.1, h4.2, h6]
end

mutual
theorem Rep.stop_all {A : Env α} {W : World α} : ∀ (r : Rep α), (∀ d ∈ r.all, d.sched = true) →
    (∀ d ∈ r.all, ∀ p ∈ d.stats, (p.2.stop A W).2 = none) →
    (r.stop A W).2 = none ∧ (r.stop A W).1.all = r.all.map (stopData A W)
  | .mk d subs, hs, hn => by
    have h1 := hs d (by simp [Rep.all])
    have h2 := eachStat_all (f := Inst.stop A W) d.stats (hn d (by simp [Rep.all]))
    have h3 := Reps.stop_all (A := A) (W := W) subs (fun e he => hs e (by simp [Rep.all, he]))
      (fun e he => hn e (by simp [Rep.all, he]))
    simp [Rep.stop, h1, h2, Rep.all, stopData, h3.1]
    exact h3.2
theorem Reps.stop_all {A : Env α} {W : World α} : ∀ (r : Reps α), (∀ d ∈ r.all, d.sched = true) →
    (∀ d ∈ r.all, ∀ p ∈ d.stats, (p.2.stop A W).2 = none) →
    (r.stop A W).2 = none ∧ (r.stop A W).1.all = r.all.map (stopData A W)
  | .nil, _, _ => by simp [Reps.stop, Reps.all]
  | .cons r rest, hs, hn => by
    have h3 := Rep.stop_all (A := A) (W := W) r (fun e he => hs e (by simp [Reps.all, he]))
      (fun e he => hn e (by simp [Reps.all, he]))
    have h4 := Reps.stop_all (A := A) (W := W) rest (fun e he => hs e (by simp [Reps.all, he]))
      (fun e he => hn e (by simp [Reps.all, he]))
    rcases hr : r.stop A W with ⟨r', e⟩
    rw [hr] at h3
    obtain ⟨h5, h6⟩ := h3
    dsimp only at h5 h6
    subst h5
    simp [Reps.stop, hr, Reps.all, h4.1, h4.2, h6]
end

mutual
theorem Rep.accumulate_all : ∀ (r : Rep α), r.accumulate.all = r.all.map accumulateData
  | .mk d subs => by simp [Rep.accumulate, Rep.all, accumulateData, Reps.accumulate_all subs]
theorem Reps.accumulate_all : ∀ (r : Reps α), r.accumulate.all = r.all.map accumulateData
  | .nil => by simp [Reps.accumulate, Reps.all]
  | .cons r rest => by simp [Reps.accumulate, Reps.all, Rep.accumulate_all r, Reps.accumulate_all rest]
end

/-- C185: starting, ending and accumulating a report does so to each of its statistics and to those of all reports below it, as if
each had been called by itself, and keeps their names and order; the window of each report is from the last start to the last end
after it. -/
theorem C185_report (A : Env α) (cs : List (Call α)) (W : World α) (r : Rep α) (hs : ∀ d ∈ r.all, d.sched = true)
    (hn : ∀ d ∈ r.all, ∀ p ∈ d.stats, ∀ x ∈ (runOps (step A) (W, p.2) cs).2, x = none) :
    (∀ x ∈ (runOps (repStep A) (W, r) cs).2, x = none) ∧
      (runOps (repStep A) (W, r) cs).1.2.all = r.all.map fun d =>
        { d with start := (ticks W (d.start, d.stop) cs).1, stop := (ticks W (d.start, d.stop) cs).2
                 stats := d.stats.map fun p => (p.1, (runOps (step A) (W, p.2) cs).1.2) } := by
  induction cs generalizing W r with
  | nil => simp [runOps, ticks]
  | cons c cs ih =>
    cases c with
    | start =>
      obtain ⟨h1, h2⟩ := Rep.start_all (A := A) (W := W) r hs fun d hd p hp =>
        hn d hd p hp _ (by simp only [runOps, step]; exact List.mem_cons_self ..)
      have h3 := ih W (r.start A W).1 (by
        intro d hd; rw [h2] at hd; obtain ⟨d', hd', rfl⟩ := List.mem_map.1 hd; exact hs d' hd') (by
        intro d hd p hp x hx
        rw [h2] at hd
        obtain ⟨d', hd', rfl⟩ := List.mem_map.1 hd
        obtain ⟨p', hp', rfl⟩ := List.mem_map.1 hp
        exact hn d' hd' p' hp' x (by simp only [runOps, step]; exact List.mem_cons_of_mem _ hx))
      simp only [runOps, repStep]
      refine ⟨?_, ?_⟩
      · intro x hx
        rcases List.mem_cons.1 hx with hx | hx
        · rw [hx]; exact h1
        · exact h3.1 x hx
      · rw [h3.2, h2]
        simp [startData, step, ticks, Function.comp_def]
    | stop =>
      obtain ⟨h1, h2⟩ := Rep.stop_all (A := A) (W := W) r hs fun d hd p hp =>
        hn d hd p hp _ (by simp only [runOps, step]; exact List.mem_cons_self ..)
      have h3 := ih W (r.stop A W).1 (by
        intro d hd; rw [h2] at hd; obtain ⟨d', hd', rfl⟩ := List.mem_map.1 hd; exact hs d' hd') (by
        intro d hd p hp x hx
        rw [h2] at hd
        obtain ⟨d', hd', rfl⟩ := List.mem_map.1 hd
        obtain ⟨p', hp', rfl⟩ := List.mem_map.1 hp
        exact hn d' hd' p' hp' x (by simp only [runOps, step]; exact List.mem_cons_of_mem _ hx))
      simp only [runOps, repStep]
      refine ⟨?_, ?_⟩
      · intro x hx
        rcases List.mem_cons.1 hx with hx | hx
        · rw [hx]; exact h1
        · exact h3.1 x hx
      · rw [h3.2, h2]
        simp [stopData, step, ticks, Function.comp_def]
    | accumulate =>
      have h2 := Rep.accumulate_all r
      have h3 := ih W r.accumulate (by
        intro d hd; rw [h2] at hd; obtain ⟨d', hd', rfl⟩ := List.mem_map.1 hd; exact hs d' hd') (by
        intro d hd p hp x hx
        rw [h2] at hd
        obtain ⟨d', hd', rfl⟩ := List.mem_map.1 hd
        obtain ⟨p', hp', rfl⟩ := List.mem_map.1 hp
        exact hn d' hd' p' hp' x (by simp only [runOps, step]; exact List.mem_cons_of_mem _ hx))
      simp only [runOps, repStep]
      refine ⟨?_, ?_⟩
      · intro x hx
        rcases List.mem_cons.1 hx with hx | hx
        · exact hx
        · exact h3.1 x hx
      · rw [h3.2, h2]
        simp [accumulateData, step, ticks, Function.comp_def]
    | world V =>
      have h3 := ih V r hs (by
        intro d hd p hp x hx
        exact hn d hd p hp x (by simp only [runOps, step]; exact List.mem_cons_of_mem _ hx))
      simp only [runOps, repStep]
      refine ⟨?_, ?_⟩
      · intro x hx
        rcases List.mem_cons.1 hx with hx | hx
        · exact hx
        · exact h3.1 x hx
      · rw [h3.2]
        simp [step, ticks]

/-- C185: so every statistic made from a definition says what it means over the window of the report. -/
theorem C185_values (A : Env α) (cs : List (Call α)) (W : World α) (r : Rep α) (D : String × Inst α → Def α)
    (hs : ∀ d ∈ r.all, d.sched = true)
    (hd : ∀ d ∈ r.all, ∀ p ∈ d.stats, ∃ i, instance_ A W (D p) = .ok i ∧ p.2 = i.setContext ∧ (D p).Exists W ∧
      (D p).Clocked W ∧ Steady (D p) W cs) :
    (∀ x ∈ (runOps (repStep A) (W, r) cs).2, x = none) ∧
      (runOps (repStep A) (W, r) cs).1.2.all.map (fun d => d.stats.map fun p => (p.1, p.2.value A (spanOf W cs).now)) =
        r.all.map fun d => d.stats.map fun p =>
          (p.1, .ok (meaning A (spanOf W cs).base ((spanOf W cs).till.getD (spanOf W cs).now) (D p))) := by
  obtain ⟨h1, h2⟩ := C185_report A cs W r hs (by
    intro d hd' p hp x hx
    obtain ⟨i, h3, h4, h5, h6, h7⟩ := hd d hd' p hp
    obtain ⟨j, h8, h9⟩ := C175_no_exception A W (D p) cs h5 h6 h7
    rw [h3] at h8
    cases h8
    rw [h4] at hx
    exact h9 x hx)
  refine ⟨h1, ?_⟩
  rw [h2, List.map_map]
  apply List.map_congr_left
  intro d hd'
  simp only [Function.comp, List.map_map]
  apply List.map_congr_left
  intro p hp
  obtain ⟨i, h3, h4, h5, h6, h7⟩ := hd d hd' p hp
  obtain ⟨s, h8, h9, h10⟩ := C175_window A W (D p) cs h5 h6 h7
  simp only [after, h3, Option.some.injEq] at h8
  rw [← h10, h9, ← h8, ← h4]
  rfl

/-- a report with one statistic and a report below it with another -/
def nested : Option (Rep Int) :=
  match instance_ demo (at_ 0 0) ratio, instance_ demo (at_ 0 0) (.ctr 2) with
  | .ok i, .ok j =>
    some (.mk { (RepData.new (α := Int) true "top") with stats := [("ratio", i.setContext)], names := ["ratio"] }
      (.cons (.mk { (RepData.new (α := Int) true "sub") with stats := [("two", j.setContext)], names := ["two"] } .nil) .nil))
  | _, _ => none

example : (nested.map fun r => (runOps (repStep demo) (at_ 0 0, r) laps3).1.2.all.map fun d => (d.start, d.stop)) =
    some [(10, some 20), (10, some 20)] := by decide +kernel

example : (nested.map fun r => (runOps (repStep demo) (at_ 0 0, r) laps3).1.2.all.map fun d =>
      d.stats.map fun p => p.2.value demo (at_ 25 99)) = some [[.ok 0], [.ok 26]] := by decide +kernel

example : ∀ r, nested = some r → (∀ d ∈ r.all, d.sched = true) ∧ ∀ d ∈ r.all, ∀ p ∈ d.stats, ∃ i,
    instance_ demo (at_ 0 0) ((fun p => if p.1 = "ratio" then ratio else .ctr 2) p) = .ok i ∧ p.2 = i.setContext := by
  intro r hr
  simp only [nested] at hr
  split at hr
  · rename_i i j hi hj
    cases hr
    refine ⟨by simp [Rep.all, Reps.all, RepData.new], ?_⟩
    intro d hd p hp
    simp only [Rep.all, Reps.all, List.append_nil, List.mem_cons, List.not_mem_nil, or_false] at hd
    rcases hd with rfl | rfl
    · simp only [List.mem_singleton] at hp
      subst hp
      exact ⟨i, hi, rfl⟩
    · simp only [List.mem_singleton] at hp
      subst hp
      exact ⟨j, hj, rfl⟩
  · cases hr

/-! ### names of statistics -/

/-- Every statistic can be found by its name: no two have the same name, except that any number may have none. -/
structure RepData.Named (r : RepData α) : Prop where
  unnamed : r.has "" = false
  has : ∀ nm, nm ≠ "" → (r.has nm = true ↔ ∃ i, (nm, i) ∈ r.stats)
  get : ∀ nm i, nm ≠ "" → (r.get nm = .ok i ↔ (nm, i) ∈ r.stats)
  once : ∀ nm, nm ≠ "" → r.stats.countP (fun p => p.1 == nm) ≤ 1

/-- adding something to a report -/
inductive Add (α : Type)
  | inst (i : Inst α) (name : String)
  | node (d : Def α) (name : String)
  | world (W : World α)

def addStep (A : Env α) (s : World α × RepData α) : Add α → (World α × RepData α) × Option Err
  | .inst i nm => let (r, e) := s.2.addInst A s.1 i nm; ((s.1, r), e)
  | .node d nm => let (r, e) := s.2.addNode A s.1 d nm; ((s.1, r), e)
  | .world W => ((W, s.2), none)

/-- the same in terms of the two lists -/
structure Tidy (r : RepData α) : Prop where
  sched : r.sched = true
  blank : "" ∉ r.names
  mem : ∀ nm, nm ≠ "" → (nm ∈ r.names ↔ nm ∈ r.stats.map Prod.fst)
  once : ∀ nm, nm ≠ "" → (r.stats.map Prod.fst).count nm ≤ 1

theorem find_unique (ss : List (String × Inst α)) (nm : String) (h : (ss.map Prod.fst).count nm ≤ 1) (i : Inst α)
    (hi : (nm, i) ∈ ss) : ss.find? (fun p => p.1 == nm) = some (nm, i) := by
  induction ss with
  | nil => cases hi
  | cons p ss ih =>
    by_cases hp : p.1 = nm
    · have h1 : (ss.map Prod.fst).count nm = 0 := by
        simp only [List.map, List.count_cons, hp, beq_self_eq_true, if_true] at h
        omega
      rcases List.mem_cons.1 hi with h2 | h2
      · simp [List.find?, ← h2]
      · exact absurd (List.mem_map.2 ⟨(nm, i), h2, rfl⟩ : nm ∈ ss.map Prod.fst) (List.count_eq_zero.1 h1)
    · rcases List.mem_cons.1 hi with h2 | h2
      · rw [← h2] at hp; exact absurd rfl hp
      · have h3 : (p.1 == nm) = false := by simpa using hp
        simp only [List.find?, h3]
        refine ih ?_ h2
        simp only [List.map, List.count_cons, h3] at h
        simpa using h

theorem Tidy.named {r : RepData α} (h : Tidy r) : r.Named where
  unnamed := by simpa [RepData.has] using h.blank
  has nm hnm := by
    simp only [RepData.has, List.contains_iff_mem, h.mem nm hnm, List.mem_map]
    constructor
    · rintro ⟨⟨a, i⟩, h1, rfl⟩; exact ⟨i, h1⟩
    · rintro ⟨i, h1⟩; exact ⟨_, h1, rfl⟩
  get nm i hnm := by
    have h1 := h.mem nm hnm
    simp only [RepData.get]
    by_cases h2 : nm ∈ r.names
    · obtain ⟨⟨a, j⟩, h3, h4⟩ := List.mem_map.1 (h1.1 h2)
      dsimp only at h4
      subst h4
      have h5 := find_unique r.stats a (h.once a hnm) j h3
      simp only [h5, Bool.not_true, Bool.false_eq_true, if_false, List.contains_iff_mem.2 h2]
      constructor
      · intro h6; cases h6; exact h3
      · intro h6
        have h7 := find_unique r.stats a (h.once a hnm) i h6
        rw [h5] at h7; cases h7; rfl
    · have h3 : r.names.contains nm = false := by simpa using h2
      simp only [h3, Bool.not_false, if_true]
      constructor
      · intro h4; cases h4
      · intro h4; exact absurd (h1.2 (List.mem_map.2 ⟨_, h4, rfl⟩)) h2
  once nm hnm := by
    have := h.once nm hnm
    simpa [List.count, List.countP_map, Function.comp_def] using this

theorem Tidy.new (name : String) : Tidy (RepData.new true name : RepData α) := by
  constructor <;> simp [RepData.new]

theorem addField_tidy {r : RepData α} (h : Tidy r) (i : Inst α) (nm : String) (ht : r.taken nm = false) :
    (r.addField i nm).2 = none ∧ Tidy (r.addField i nm).1 ∧
      (r.addField i nm).1.stats = r.stats ++ [(nm, i.setContext)] := by
  have hs := h.sched
  by_cases hnm : nm = ""
  · subst hnm
    simp only [RepData.addField, hs, Bool.not_true, Bool.false_eq_true, if_false, if_true, Inst.setContext, true_and]
    refine ⟨⟨rfl, h.blank, ?_, ?_⟩, trivial⟩
    · intro a ha
      simp [h.mem a ha, ha]
    · intro a ha
      have := h.once a ha
      have h2 : ("" == a) = false := by simpa using ha
      simp only [List.map_append, List.count_append, List.map, List.count_cons, h2, List.count_nil]
      simpa using this
  · simp only [RepData.addField, hs, Bool.not_true, Bool.false_eq_true, if_false, Inst.setContext, hnm, true_and]
    have hf : nm ∉ r.names := by
      intro h1
      have : r.taken nm = true := by simp [RepData.taken, hnm, h1]
      rw [this] at ht; cases ht
    refine ⟨⟨rfl, ?_, ?_, ?_⟩, trivial⟩
    · simp only [List.mem_cons, not_or]
      exact ⟨fun h => hnm h.symm, h.blank⟩
    · intro a ha
      simp only [List.mem_cons, h.mem a ha, List.map_append, List.mem_append, List.map, List.not_mem_nil, or_false]
      exact Or.comm
    · intro a ha
      have h2 := h.once a ha
      simp only [List.map_append, List.count_append, List.map, List.count_cons, List.count_nil]
      by_cases h3 : nm = a
      · subst h3
        have : (r.stats.map Prod.fst).count nm = 0 := List.count_eq_zero.2 fun h4 => hf ((h.mem nm ha).2 h4)
        simp only [this, beq_self_eq_true, if_true]
        omega
      · have h4 : (nm == a) = false := by simpa using h3
        simp only [h4]
        simpa using h2

theorem addNode_tidy {A : Env α} {W : World α} {r : RepData α} (h : Tidy r) (d : Def α) (nm : String) :
    Tidy (r.addNode A W d nm).1 := by
  simp only [RepData.addNode]
  split
  · exact h
  · rename_i ht
    split
    · exact h
    · exact (addField_tidy h _ nm (by simpa using ht)).2.1

theorem addSubs_tidy {A : Env α} {W : World α} (l : List (String × Nat)) {r : RepData α} (h : Tidy r) :
    Tidy (r.addSubs A W l).1 := by
  induction l generalizing r with
  | nil => exact h
  | cons p l ih =>
    rcases p with ⟨nm, n⟩
    have h1 := addNode_tidy (A := A) (W := W) h (.ctr n) nm
    simp only [RepData.addSubs]
    split
    · rename_i r' e he; rw [he] at h1; exact h1
    · rename_i r' he; rw [he] at h1; exact ih h1

theorem addInst_tidy {A : Env α} {W : World α} {r : RepData α} (h : Tidy r) (i : Inst α) (nm : String) :
    Tidy (r.addInst A W i nm).1 := by
  simp only [RepData.addInst]
  split
  · exact h
  · rename_i ht
    obtain ⟨h1, h2, h3⟩ := addField_tidy h i nm (by simpa using ht)
    split
    · rename_i r' e he; rw [he] at h2; exact h2
    · rename_i r' he; rw [he] at h2; exact addSubs_tidy _ h2

theorem add_tidy {A : Env α} (as : List (Add α)) {W : World α} {r : RepData α} (h : Tidy r) :
    Tidy (runOps (addStep A) (W, r) as).1.2 := by
  induction as generalizing W r with
  | nil => exact h
  | cons a as ih =>
    cases a with
    | inst i nm => exact ih (addInst_tidy h i nm)
    | node d nm => exact ih (addNode_tidy h d nm)
    | world V => exact ih h

/-- the report after some things were added to a new one, whether or not that worked -/
def added (A : Env α) (W : World α) (name : String) (as : List (Add α)) : World α × RepData α :=
  (runOps (addStep A) (W, RepData.new true name) as).1

/-- C186: whatever was added to a report with a scheduler, every statistic with a name is found by its name and no two have the same
name. -/
theorem C186_names (A : Env α) (W : World α) (name : String) (as : List (Add α)) : (added A W name as).2.Named :=
  (add_tidy as (Tidy.new name)).named

/-- C186: adding an instance without sub-statistics under a name that is not used puts it, in the context of the report, after the
others, which are found as before. -/
theorem C186_add (A : Env α) (W : World α) (name : String) (as : List (Add α)) (i : Inst α) (nm : String) (hi : i.subs = [])
    (hn : nm ≠ "") (hu : (added A W name as).2.has nm = false) :
    ∃ r, (added A W name as).2.addInst A (added A W name as).1 i nm = (r, none) ∧
      r.stats = (added A W name as).2.stats ++ [(nm, i.setContext)] ∧ r.get nm = .ok i.setContext ∧
      ∀ a, a ≠ nm → r.get a = (added A W name as).2.get a := by
  have h := add_tidy (A := A) as (W := W) (Tidy.new (α := α) name)
  change Tidy (added A W name as).2 at h
  generalize added A W name as = s at *
  have ht : s.2.taken nm = false := by
    simp only [RepData.has] at hu
    simp only [RepData.taken, hu, Bool.and_false]
  obtain ⟨h1, h2, h3⟩ := addField_tidy h i nm ht
  rcases hf : s.2.addField i nm with ⟨r, e⟩
  rw [hf] at h1 h2 h3
  dsimp only at h1 h2 h3
  subst h1
  refine ⟨r, by simp [RepData.addInst, ht, hf, hi, RepData.addSubs], h3, ?_, ?_⟩
  · exact (h2.named.get nm _ hn).2 (by rw [h3]; simp)
  · intro a ha
    by_cases hb : a = ""
    · subst hb
      have h4 : r.names.contains "" = false := by simpa using h2.blank
      have h5 : s.2.names.contains "" = false := by simpa using h.blank
      simp only [RepData.get, h4, h5, Bool.not_false, if_true]
    · have h4 : a ∈ r.names ↔ a ∈ s.2.names := by
        rw [h2.mem a hb, h.mem a hb, h3]
        simp [ha]
      have h5 : r.names.contains a = s.2.names.contains a := by
        rw [Bool.eq_iff_iff]; simpa using h4
      have h6 : (nm == a) = false := by simpa using fun h => ha h.symm
      simp only [RepData.get, h5, h3, List.find?_append, List.find?, h6, Option.or_none]

/-- C186: a name that is used is refused and nothing changes. -/
theorem C186_duplicate (A : Env α) (W : World α) (name : String) (as : List (Add α)) (i : Inst α) (nm : String) (hn : nm ≠ "")
    (hu : ∃ j, (nm, j) ∈ (added A W name as).2.stats) :
    (added A W name as).2.addInst A (added A W name as).1 i nm = ((added A W name as).2, some .duplicate) ∧
      ∀ d, (added A W name as).2.addNode A (added A W name as).1 d nm = ((added A W name as).2, some .duplicate) := by
  have h := ((C186_names A W name as).has nm hn).2 hu
  have ht : (added A W name as).2.taken nm = true := by
    simp only [RepData.has] at h
    simp only [RepData.taken, h, Bool.and_true]
    simpa using hn
  exact ⟨by simp only [RepData.addInst, ht, if_true], fun d => by simp only [RepData.addNode, ht, if_true]⟩

theorem addSubs_all {A : Env α} {W : World α} (l : List (String × Nat)) {r : RepData α} (h : Tidy r)
    (hn : ∀ p ∈ l, p.1 ≠ "" ∧ p.1 ∉ r.stats.map Prod.fst ∧ W.alive p.2 = true ∧ W.clocked p.2 = true) (hd : (l.map Prod.fst).Nodup) :
    ∃ r' is, r.addSubs A W l = (r', none) ∧ r'.stats = r.stats ++ is ∧
      is.map (fun p => (p.1, Except.ok p.2)) = l.map fun p => (p.1, (instance_ A W (.ctr p.2)).map Inst.setContext) := by
  induction l generalizing r with
  | nil => exact ⟨r, [], rfl, by simp, rfl⟩
  | cons p l ih =>
    rcases p with ⟨nm, n⟩
    obtain ⟨h1, h2, h3, h4⟩ := hn (nm, n) (List.mem_cons_self ..)
    dsimp only at h1 h2 h3 h4
    have ht : r.taken nm = false := by
      have : nm ∉ r.names := fun h5 => h2 ((h.mem nm h1).1 h5)
      simp [RepData.taken, this]
    obtain ⟨i, h5, _⟩ := instance_tracks A W (.ctr n) (fun m hm => by
      simp only [Def.nodes, List.mem_singleton] at hm; rw [hm]; exact h3) (fun m hm => by
      simp only [Def.nodes, List.mem_singleton] at hm; rw [hm]; exact h4)
    obtain ⟨h6, h7, h8⟩ := addField_tidy h i nm ht
    rcases hf : r.addField i nm with ⟨r1, e⟩
    rw [hf] at h6 h7 h8
    dsimp only at h6 h7 h8
    subst h6
    have hd' := List.nodup_cons.1 hd
    obtain ⟨r', is, g1, g2, g3⟩ := ih h7 (by
      intro q hq
      obtain ⟨q1, q2, q3⟩ := hn q (List.mem_cons_of_mem _ hq)
      refine ⟨q1, ?_, q3⟩
      rw [h8]
      simp only [List.map_append, List.mem_append, List.map, List.mem_singleton, not_or]
      exact ⟨q2, fun h9 => hd'.1 (List.mem_map.2 ⟨q, hq, h9⟩)⟩) hd'.2
    refine ⟨r', (nm, i.setContext) :: is, ?_, ?_, ?_⟩
    · simp only [RepData.addSubs, RepData.addNode, ht, Bool.false_eq_true, if_false, h5, hf, g1]
    · rw [g2, h8]; simp
    · simp only [List.map, g3, h5, Except.map]

/-- C186: adding an instance also adds its sub-statistics, each by its name, if those names are not used and their counters exist. -/
theorem C186_subs (A : Env α) (W : World α) (name : String) (as : List (Add α)) (i : Inst α) (nm : String)
    (hu : nm = "" ∨ nm ∉ (added A W name as).2.stats.map Prod.fst)
    (hd : (nm :: i.subs.map Prod.fst).Nodup)
    (hs : ∀ p ∈ i.subs, p.1 ≠ "" ∧ p.1 ∉ (added A W name as).2.stats.map Prod.fst ∧ (added A W name as).1.alive p.2 = true ∧
      (added A W name as).1.clocked p.2 = true) :
    ∃ r is, (added A W name as).2.addInst A (added A W name as).1 i nm = (r, none) ∧
      r.stats = (added A W name as).2.stats ++ (nm, i.setContext) :: is ∧
      is.map (fun p => (p.1, Except.ok p.2)) =
        i.subs.map fun p => (p.1, (instance_ A (added A W name as).1 (.ctr p.2)).map Inst.setContext) := by
  have h := add_tidy (A := A) as (W := W) (Tidy.new (α := α) name)
  change Tidy (added A W name as).2 at h
  generalize added A W name as = s at *
  have ht : s.2.taken nm = false := by
    by_cases hn : nm = ""
    · simp [RepData.taken, hn]
    · have : nm ∉ s.2.names := fun h1 => by
        rcases hu with hu | hu
        · exact hn hu
        · exact hu ((h.mem nm hn).1 h1)
      simp [RepData.taken, this]
  obtain ⟨h1, h2, h3⟩ := addField_tidy h i nm ht
  rcases hf : s.2.addField i nm with ⟨r1, e⟩
  rw [hf] at h1 h2 h3
  dsimp only at h1 h2 h3
  subst h1
  have hd' := List.nodup_cons.1 hd
  obtain ⟨r, is, g1, g2, g3⟩ := addSubs_all (A := A) (W := s.1) i.subs h2 (by
    intro q hq
    obtain ⟨q1, q2, q3⟩ := hs q hq
    refine ⟨q1, ?_, q3⟩
    rw [h3]
    simp only [List.map_append, List.mem_append, List.map, List.mem_singleton, not_or]
    exact ⟨q2, fun h9 => hd'.1 (List.mem_map.2 ⟨q, hq, h9⟩)⟩) hd'.2
  refine ⟨r, is, ?_, by rw [g2, h3]; simp, g3⟩
  simp only [RepData.addInst, ht, Bool.false_eq_true, if_false, hf, g1]

/-- an instance of the counter -/
def ctr1 : Inst Int := { kind := .ctr 1, win := freshWin demo true, body := .empty, subs := [] }

/-- an instance with a sub-statistic -/
def withSub : Inst Int := { ctr1 with subs := [("a", 1)] }

example : (added demo (at_ 0 0) "r" [.inst withSub "x", .node (.ctr 2) "y", .inst ctr1 "a", .inst ctr1 ""]).2.stats.map Prod.fst =
    ["x", "a", "y", ""] := by decide +kernel

example : (added demo (at_ 0 0) "r" [.inst withSub "x"]).2.has "z" = false ∧ ctr1.subs = [] ∧
    (∃ j, ("a", j) ∈ (added demo (at_ 0 0) "r" [.inst withSub "x"]).2.stats) :=
  ⟨by decide +kernel, rfl, _, List.mem_cons_of_mem _ (List.mem_cons_self ..)⟩

example : "x" ∉ (added demo (at_ 0 0) "r" [.inst ctr1 "c"]).2.stats.map Prod.fst ∧ ("x" :: withSub.subs.map Prod.fst).Nodup ∧
    ∀ p ∈ withSub.subs, p.1 ≠ "" ∧ p.1 ∉ (added demo (at_ 0 0) "r" [.inst ctr1 "c"]).2.stats.map Prod.fst := by decide +kernel

/-- C186 fails without a scheduler: the exception comes after the statistic was kept. -/
theorem C186_no_scheduler_violated :
    ((RepData.new false "r").addInst demo (at_ 0 0) ctr1 "x").2 = some .noScheduler ∧
      ((RepData.new false "r").addInst demo (at_ 0 0) ctr1 "x").1.stats.map Prod.fst = ["x"] ∧
      ((RepData.new false "r").addInst demo (at_ 0 0) ctr1 "x").1.has "x" = false := by decide +kernel

/-- C186 fails for an instance one of whose sub-statistics has a name that is used: the exception comes after the instance was added. -/
theorem C186_subs_violated :
    ((added demo (at_ 0 0) "r" [.inst ctr1 "a"]).2.addInst demo (at_ 0 0) withSub "x").2 = some .duplicate ∧
      ((added demo (at_ 0 0) "r" [.inst ctr1 "a"]).2.addInst demo (at_ 0 0) withSub "x").1.stats.map Prod.fst = ["a", "x"] := by
  decide +kernel

/-! ### copies of reports -/

theorem addAll_plain {A : Env α} {W : World α} (ss : List (String × Inst α)) {r : RepData α} (h : Tidy r)
    (hp : ∀ p ∈ ss, p.2.subs = [] ∧ p.2.win.sched = true)
    (hu : ∀ nm, nm ≠ "" → ((r.stats ++ ss).map Prod.fst).count nm ≤ 1) :
    ∃ r', r.addAll A W ss = (r', none) ∧ Tidy r' ∧ r' = { r with stats := r.stats ++ ss, names := r'.names } := by
  induction ss generalizing r with
  | nil => exact ⟨r, rfl, h, by simp⟩
  | cons p ss ih =>
    rcases p with ⟨nm, i⟩
    obtain ⟨h1, h2⟩ := hp (nm, i) (List.mem_cons_self ..)
    dsimp only at h1 h2
    have hi : i.setContext = i := by
      rcases i with ⟨k, ⟨_, _, _, _, _, _⟩, _, _⟩
      simp only at h2
      subst h2
      rfl
    have ht : r.taken nm = false := by
      by_cases hn : nm = ""
      · simp [RepData.taken, hn]
      · have h3 := hu nm hn
        have : nm ∉ r.names := fun h4 => by
          have h5 := List.count_pos_iff.2 ((h.mem nm hn).1 h4)
          simp only [List.map_append, List.count_append, List.map, List.count_cons, beq_self_eq_true, if_true] at h3
          omega
        simp [RepData.taken, this]
    obtain ⟨g1, g2, g3⟩ := addField_tidy h i nm ht
    rcases hf : r.addField i nm with ⟨r1, e⟩
    rw [hf] at g1 g2 g3
    dsimp only at g1 g2 g3
    subst g1
    rw [hi] at g3
    have g4 : r1 = { r with stats := r1.stats, names := r1.names } := by
      simp only [RepData.addField, h.sched, Bool.not_true, Bool.false_eq_true, if_false] at hf
      split at hf <;> cases hf <;> simp [h.sched]
    obtain ⟨r', q1, q2, q3⟩ := ih g2 (fun q hq => hp q (List.mem_cons_of_mem _ hq)) (by
      rw [g3]; simpa using hu)
    refine ⟨r', ?_, q2, ?_⟩
    · simp only [RepData.addAll, RepData.addInst, ht, Bool.false_eq_true, if_false, hf, h1, RepData.addSubs, q1]
    · rw [q3, g4, g3]
      simp

theorem RepData.Named.single {r : RepData α} (h : r.Named) (nm : String) (hn : nm ≠ "") :
    (r.stats.map Prod.fst).count nm ≤ 1 := by
  have := h.once nm hn
  simpa [List.count, List.countP_map, Function.comp_def] using this

/-- C187, partial: a copy of a report whose statistics have no sub-statistics has the same statistics by the same names, the same name
and the same window.  Missing: with sub-statistics it is not so, see `C187_copy_violated`. -/
theorem C187_copy_partial (A : Env α) (W : World α) (r : RepData α) (hs : r.sched = true)
    (hp : ∀ p ∈ r.stats, p.2.subs = [] ∧ p.2.win.sched = true) (hr : r.Named) :
    ∃ c, r.copy A W = (c, none) ∧ c.stats = r.stats ∧ c.name = r.name ∧ c.start = r.start ∧ c.stop = r.stop ∧
      ∀ nm, c.has nm = r.has nm ∧ (nm ≠ "" → ∀ i, c.get nm = .ok i ↔ r.get nm = .ok i) := by
  have h0 : Tidy ({ r with names := [], stats := [] } : RepData α) := by constructor <;> simp [hs]
  obtain ⟨c, h1, h2, h3⟩ := addAll_plain (A := A) (W := W) r.stats h0 hp (by simpa using hr.single)
  have h4 : c.stats = r.stats := by rw [h3]; simp
  refine ⟨c, h1, h4, by rw [h3], by rw [h3], by rw [h3], ?_⟩
  intro nm
  by_cases hn : nm = ""
  · subst hn
    exact ⟨h2.named.unnamed.trans hr.unnamed.symm, fun h => absurd rfl h⟩
  · refine ⟨?_, fun _ i => ?_⟩
    · rw [Bool.eq_iff_iff, h2.named.has nm hn, hr.has nm hn, h4]
    · rw [h2.named.get nm i hn, hr.get nm i hn, h4]

example : let r := (added demo (at_ 0 0) "r" [.inst ctr1 "x", .node (.ctr 2) "y", .inst ctr1 ""]).2
    r.sched = true ∧ (∀ p ∈ r.stats, p.2.subs = [] ∧ p.2.win.sched = true) ∧ r.stats.map Prod.fst = ["x", "y", ""] := by decide +kernel

/-- C187 fails with sub-statistics.  If the instance was added with them, the copy constructor throws; if it was added as a node, the
copy has more statistics than the report. -/
theorem C187_copy_violated :
    ((added demo (at_ 0 0) "r" [.inst withSub "x"]).2.copy demo (at_ 0 0)).2 = some .duplicate ∧
      (added demo (at_ 0 0) "r" [.node ratio "x"]).2.stats.map Prod.fst = ["x"] ∧
      ((added demo (at_ 0 0) "r" [.node ratio "x"]).2.copy demo (at_ 0 0)).2 = none ∧
      ((added demo (at_ 0 0) "r" [.node ratio "x"]).2.copy demo (at_ 0 0)).1.stats.map Prod.fst = ["x", "a", "b"] := by
  decide +kernel

/-- C188, partial: a moved report has the same statistics, name and window.  Missing: they cannot be found by their names, see
`C188_move_violated`. -/
theorem C188_move_partial (r : RepData α) :
    r.moved.stats = r.stats ∧ r.moved.name = r.name ∧ r.moved.start = r.start ∧ r.moved.stop = r.stop := ⟨rfl, rfl, rfl, rfl⟩

example : (added demo (at_ 0 0) "r" [.inst ctr1 "x"]).2.moved.stats.map Prod.fst = ["x"] := by decide +kernel

/-- C188 fails for every report and every name: the moved report finds nothing by its name. -/
theorem C188_move_violated (r : RepData α) (nm : String) : r.moved.has nm = false ∧ r.moved.get nm = .error .missing := by
  simp [RepData.moved, RepData.has, RepData.get]

/-- C188 fails: the same name can be given twice to a moved report, and then it can only be the first that is found. -/
theorem C188_twice_violated :
    ((added demo (at_ 0 0) "r" [.inst ctr1 "x"]).2.moved.addInst demo (at_ 9 4) withSub "x").2 = none ∧
      ((added demo (at_ 0 0) "r" [.inst ctr1 "x"]).2.moved.addInst demo (at_ 9 4) withSub "x").1.stats.map Prod.fst =
        ["x", "x", "a"] := by decide +kernel

/-- the names of the reports -/
theorem addAll_extra {A : Env α} {W : World α} (ss : List (String × Inst α)) (E : List String) {r r' : RepData α}
    (hp : ∀ p ∈ ss, p.2.subs = []) (hE : ∀ p ∈ ss, p.1 ≠ "" → p.1 ∉ E) (h : r.addAll A W ss = (r', none)) :
    ({ r with names := r.names ++ E } : RepData α).addAll A W ss = ({ r' with names := r'.names ++ E }, none) := by
  induction ss generalizing r with
  | nil => cases h; rfl
  | cons p ss ih =>
    rcases p with ⟨nm, i⟩
    have h1 := hp (nm, i) (List.mem_cons_self ..)
    have h2 := hE (nm, i) (List.mem_cons_self ..)
    dsimp only at h1 h2
    have ht : ({ r with names := r.names ++ E } : RepData α).taken nm = r.taken nm := by
      by_cases hn : nm = ""
      · simp [RepData.taken, hn]
      · simp [RepData.taken, h2 hn]
    by_cases hk : r.taken nm = true
    · simp [RepData.addAll, RepData.addInst, hk] at h
    · rw [Bool.not_eq_true] at hk
      by_cases hs : r.sched = true
      · have hx : ({ r with names := r.names ++ E } : RepData α).addField i nm =
            ({ (r.addField i nm).1 with names := (r.addField i nm).1.names ++ E }, none) ∧ (r.addField i nm).2 = none := by
          by_cases hn : nm = "" <;> simp [RepData.addField, hs, hn]
        rcases hf : r.addField i nm with ⟨r1, e⟩
        rw [hf] at hx
        obtain ⟨hx, he⟩ := hx
        dsimp only at hx he
        subst he
        simp only [RepData.addAll, RepData.addInst, hk, Bool.false_eq_true, if_false, hf, h1, RepData.addSubs] at h
        have := ih (fun q hq => hp q (List.mem_cons_of_mem _ hq)) (fun q hq => hE q (List.mem_cons_of_mem _ hq)) h
        simp only [RepData.addAll, RepData.addInst, ht, hk, Bool.false_eq_true, if_false, hx, h1, RepData.addSubs, this]
      · simp [RepData.addAll, RepData.addInst, hk, RepData.addField, hs] at h

theorem assign_disjoint {A : Env α} {W : World α} (l r : RepData α) (hs : r.sched = true)
    (hp : ∀ p ∈ r.stats, p.2.subs = [] ∧ p.2.win.sched = true) (hr : r.Named)
    (hd : ∀ p ∈ r.stats, p.1 ≠ "" → l.has p.1 = false) :
    ∃ c ns, l.assign A W r = (c, none) ∧ c.stats = r.stats ∧ c.name = r.name ∧ c.start = r.start ∧ c.stop = r.stop ∧
      c.names = ns ++ l.names ∧ ∀ nm, nm ≠ "" → (nm ∈ ns ↔ nm ∈ r.stats.map Prod.fst) := by
  have h0 : Tidy ({ l with sched := r.sched, name := r.name, stats := [], names := [] } : RepData α) := by constructor <;> simp [hs]
  obtain ⟨c, h1, h2, h3⟩ := addAll_plain (A := A) (W := W) r.stats h0 hp (by simpa using hr.single)
  have h4 := addAll_extra (A := A) (W := W) r.stats l.names (fun p hp' => (hp p hp').1) (fun p hp' hn => by
    have := hd p hp' hn
    simpa [RepData.has] using this) h1
  have h5 : c.stats = r.stats := by rw [h3]; simp
  refine ⟨{ c with names := c.names ++ l.names, start := r.start, stop := r.stop }, c.names, ?_, h5, by rw [h3], rfl, rfl, rfl, ?_⟩
  · simp only [List.nil_append] at h4
    simp only [RepData.assign, h4]
  · intro nm hn
    rw [← h5]
    exact h2.mem nm hn

/-- C189, partial: after assigning a report whose statistics have no sub-statistics, and none of whose names the other report ever
used, the statistics, the name and the window are the same, and so is what is found by the names.  Missing: other reports, see
`C189_assign_violated`, `C189_self_violated` and `C189_stale_violated`. -/
theorem C189_assign_partial (A : Env α) (W : World α) (l r : RepData α) (hs : r.sched = true)
    (hp : ∀ p ∈ r.stats, p.2.subs = [] ∧ p.2.win.sched = true) (hr : r.Named)
    (hd : ∀ p ∈ r.stats, p.1 ≠ "" → l.has p.1 = false) :
    ∃ c, l.assign A W r = (c, none) ∧ c.stats = r.stats ∧ c.name = r.name ∧ c.start = r.start ∧ c.stop = r.stop ∧
      ∀ nm i, (nm, i) ∈ r.stats → nm ≠ "" → c.has nm = true ∧ c.get nm = .ok i := by
  obtain ⟨c, ns, h1, h2, h3, h4, h5, h6, h7⟩ := assign_disjoint (A := A) (W := W) l r hs hp hr hd
  refine ⟨c, h1, h2, h3, h4, h5, ?_⟩
  intro nm i hi hn
  have h8 : c.names.contains nm = true := by
    have : nm ∈ ns := (h7 nm hn).2 (List.mem_map.2 ⟨_, hi, rfl⟩)
    simp [h6, this]
  refine ⟨h8, ?_⟩
  simp only [RepData.get, h8, Bool.not_true, Bool.false_eq_true, if_false, h2, find_unique r.stats nm (hr.single nm hn) i hi]

/-- C189 fails for every name that only the old report used: the report still says that it has it, and looking it up reads past the
end of the statistics. -/
theorem C189_stale_violated (A : Env α) (W : World α) (l r : RepData α) (hs : r.sched = true)
    (hp : ∀ p ∈ r.stats, p.2.subs = [] ∧ p.2.win.sched = true) (hr : r.Named)
    (hd : ∀ p ∈ r.stats, p.1 ≠ "" → l.has p.1 = false) (nm : String) (hl : l.has nm = true)
    (hn : nm ∉ r.stats.map Prod.fst) :
    ∃ c, l.assign A W r = (c, none) ∧ c.has nm = true ∧ c.get nm = .error .ub := by
  obtain ⟨c, ns, h1, h2, h3, h4, h5, h6, h7⟩ := assign_disjoint (A := A) (W := W) l r hs hp hr hd
  have h8 : c.names.contains nm = true := by
    have : nm ∈ l.names := by simpa [RepData.has] using hl
    simp [h6, this]
  refine ⟨c, h1, h8, ?_⟩
  have h9 : r.stats.find? (fun p => p.1 == nm) = none := by
    rw [List.find?_eq_none]
    intro p hp' h10
    exact hn (List.mem_map.2 ⟨p, hp', by simpa using h10⟩)
  simp only [RepData.get, h8, Bool.not_true, Bool.false_eq_true, if_false, h2, h9]

example : let l := (added demo (at_ 0 0) "l" [.inst ctr1 "x", .inst ctr1 "z"]).2
    let r := (added demo (at_ 0 0) "r" [.inst ctr1 "y", .inst ctr1 ""]).2
    r.sched = true ∧ (∀ p ∈ r.stats, p.2.subs = [] ∧ p.2.win.sched = true) ∧ (∀ p ∈ r.stats, p.1 ≠ "" → l.has p.1 = false) ∧
      l.has "x" = true ∧ "x" ∉ r.stats.map Prod.fst := by decide +kernel

/-- C189 fails for two reports with a name in common: the assignment throws, after the statistics of the one assigned to are gone. -/
theorem C189_assign_violated :
    ((added demo (at_ 0 0) "l" [.inst ctr1 "x"]).2.assign demo (at_ 0 0) (added demo (at_ 0 0) "r" [.inst ctr1 "x"]).2).2 =
        some .duplicate ∧
      ((added demo (at_ 0 0) "l" [.inst ctr1 "x"]).2.assign demo (at_ 0 0) (added demo (at_ 0 0) "r" [.inst ctr1 "x"]).2).1.stats.map
        Prod.fst = [] := by decide +kernel

/-- C189 fails for a report assigned to itself: it loses all its statistics. -/
theorem C189_self_violated (r : RepData α) : r.assignSelf.stats = [] ∧
    ∀ nm, r.has nm = true → r.assignSelf.has nm = true ∧ r.assignSelf.get nm = .error .ub := by
  refine ⟨rfl, fun nm h => ⟨h, ?_⟩⟩
  simp only [RepData.has] at h
  simp [RepData.get, RepData.assignSelf] at h ⊢
  exact h

example : (added demo (at_ 0 0) "l" [.inst ctr1 "x"]).2.has "x" = true := by decide +kernel

end Sparta.Stat
