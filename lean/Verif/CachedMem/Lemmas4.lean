import Verif.CachedMem.Lemmas3

/-!
# The simulation
-/

namespace Sparta.CachedMem

open Sparta.ArchData (AD WF)
open Sparta.MemoryMap (wordSize)
open Sparta.MemIf (Bytes w64 peekLoop)

theorem rep_init {lsb total wm dbs dsize n : Nat} {ids : Nat → Nat} {mem : Nat → UInt8} {s : Sys}
    (h : init lsb total wm dbs dsize n ids mem = some s) (hw : total ≤ 2 ^ 63) (hd : total ≤ dsize)
    (hb : 2 ^ lsb ∣ dbs) : Rep s (Spec.init lsb total wm n ids mem) := by
  unfold init at h
  cases hm : AD.initMemory lsb 0 1 total with
  | none => rw [hm] at h; cases h
  | some m =>
    rw [hm] at h
    dsimp only at h
    by_cases hc : (MemIf.ctorOk (2 ^ lsb) 0 total && MemIf.ctorOk dbs 0 dsize) = true
    · rw [if_pos hc] at h
      obtain rfl := Option.some.inj h
      rw [Bool.and_eq_true] at hc
      obtain ⟨c1, c2⟩ := hc
      unfold MemIf.ctorOk at c1 c2
      simp only [Bool.and_eq_true, decide_eq_true_eq] at c1 c2
      unfold AD.initMemory at hm
      by_cases h1 : total ≠ 0 ∧ total % 2 ^ lsb = 0
      · rw [if_pos h1] at hm
        unfold AD.init at hm
        by_cases h2 : (1 = 1 ∨ 1 = 2 ∨ 1 = 4 ∨ 1 = 8) ∧ 0 < 2 ^ (8 * 1) ∧ lsb ≤ 31
        · rw [if_pos h2] at hm
          obtain rfl := Option.some.inj hm
          refine ⟨⟨c1.1.1.2, Nat.dvd_of_mod_eq_zero c1.2, c1.1.1.1.1, ?_, c2.1.1.2, hb, hd⟩, rfl, rfl, rfl, rfl, rfl, ?_⟩
          · exact Nat.lt_of_le_of_lt hw (Nat.pow_lt_pow_right (by omega) (by omega))
          · intro c _
            refine ⟨⟨⟨⟨h2.1, h2.2.1⟩, h2.2.2, hw, List.nodup_nil, fun i hi => absurd rfl hi⟩, rfl, rfl, fun _ => rfl, ?_⟩, rfl, rfl, ?_,
              List.Pairwise.nil, ?_⟩
            · intro a ha; cases ha
            · intro w hw; cases hw
            · intro w hw; cases hw
        · rw [if_neg h2] at hm; cases hm
      · rw [if_neg h1] at hm; cases hm
    · rw [if_neg hc] at h; cases h

theorem rep_step {s t} (r : Rep s t) (o : Op) (hl : t.legal o) :
    Rep (step s o).1 (t.step o).1 ∧ (step s o).2 = (t.step o).2 := by
  cases o with
  | tryRead c a k =>
    unfold step Spec.step
    dsimp only
    rw [tryRead_eq r hl.1 hl.2]
    cases t.oneBlock a k && t.fits a k <;> exact ⟨r, rfl⟩
  | tryPeek c a k =>
    unfold step Spec.step
    dsimp only
    rw [tryPeek_eq r hl.1 hl.2]
    cases t.fits a k <;> exact ⟨r, rfl⟩
  | tryWrite c a d =>
    unfold step Spec.step
    dsimp only
    unfold tryWrite
    rw [spans_node r hl.2, fits_node r hl.2]
    cases hb : t.oneBlock a d.length with
    | false => exact ⟨r, rfl⟩
    | true =>
      rw [if_neg (by simp)]
      cases hf : t.fits a d.length with
      | false => exact ⟨r, rfl⟩
      | true =>
        rw [if_neg (by simp)]
        have hw := write_eq r hl.1 hl.2.1 (of_decide_eq_true hf) ((oneBlock_iff r hl.2.1).1 hb)
        rw [Bool.true_and, if_pos rfl]
        by_cases hm : (t.caches c).writes.length = t.wm
        · rw [if_pos hm] at hw ⊢
          rw [hw]
          exact ⟨r, rfl⟩
        · rw [if_neg hm] at hw ⊢
          obtain ⟨s', h1, h2⟩ := hw
          rw [h1]
          exact ⟨h2, rfl⟩
  | tryPoke c a d =>
    unfold step Spec.step
    dsimp only
    unfold tryPoke
    rw [fits_node r hl.2.1]
    cases hf : t.fits a d.length with
    | false => exact ⟨r, rfl⟩
    | true =>
      rw [if_pos rfl, MemIf.w64_of_lt hl.2.1.2, if_pos rfl]
      have h1 := hl.2.1.1
      obtain ⟨s', g1, g2⟩ := pokeLoop_eq (d.length + 1) s t a (a + d.length) d r hl.1 (by omega) (of_decide_eq_true hf)
        (by omega) (by omega) (fun j hj => hl.2.2 hf j (List.mem_range.2 hj))
      rw [g1]
      exact ⟨g2, rfl⟩
  | commit c u =>
    unfold step Spec.step
    dsimp only
    cases hw : (t.caches c).writes with
    | nil =>
      have : commit s c u = none := by
        unfold commit
        rw [(r.caches c hl.1).writes, hw]; rfl
      rw [this]
      exact ⟨r, rfl⟩
    | cons w ws =>
      dsimp only
      by_cases e : w.uid = u
      · rw [if_pos e]
        have hh := hl.2 w (by rw [hw]; rfl)
        obtain ⟨s', g1, g2⟩ := commit_eq r hl.1 hw hh
        rw [← e, g1]
        exact ⟨g2, rfl⟩
      · have : commit s c u = none := by
          unfold commit
          rw [(r.caches c hl.1).writes, hw]
          show (if w.uid ≠ u then none else _) = _
          rw [if_pos e]
        rw [this, if_neg e]
        exact ⟨r, rfl⟩
  | drop c u =>
    unfold step Spec.step
    dsimp only
    cases hu : (t.caches c).writes.any (fun w => w.uid == u) with
    | false =>
      have : drop s c u = none := by
        unfold drop
        dsimp only
        rw [(r.caches c hl).writes, report_any_uid, hu, if_pos rfl]
      rw [this]
      exact ⟨r, rfl⟩
    | true =>
      obtain ⟨s', g1, g2⟩ := drop_eq r hl hu
      rw [g1]
      exact ⟨g2, rfl⟩
  | pending c =>
    unfold step Spec.step
    dsimp only
    rw [(r.caches c hl).writes]
    exact ⟨r, rfl⟩
  | pendingFor c a =>
    unfold step Spec.step
    dsimp only
    rw [(r.caches c hl).writes]
    exact ⟨r, rfl⟩
  | last c =>
    unfold step Spec.step
    dsimp only
    rw [(r.caches c hl).writes]
    cases (report t.mem (t.caches c).writes).getLast? <;> exact ⟨r, rfl⟩
  | device a d =>
    obtain ⟨h1, h2, h3, h4⟩ := hl
    unfold step Spec.step
    dsimp only
    obtain ⟨s', g1, g2⟩ := device_eq r (of_decide_eq_true h2) h1.1 ((oneBlock_iff r h1.1).1 h3) h4
    rw [g1, h2]
    exact ⟨g2, rfl⟩

/-- A run from the construction. -/
theorem rep_run {lsb total wm dbs dsize n : Nat} {ids : Nat → Nat} {mem : Nat → UInt8} {s : Sys}
    (h : init lsb total wm dbs dsize n ids mem = some s) (hw : total ≤ 2 ^ 63) (hd : total ≤ dsize)
    (hb : 2 ^ lsb ∣ dbs) {os : List Op} (hl : legalOps Spec.step Spec.legal (Spec.init lsb total wm n ids mem) os) :
    Rep (runOps step s os).1 (runOps Spec.step (Spec.init lsb total wm n ids mem) os).1 ∧
      (runOps step s os).2 = (runOps Spec.step (Spec.init lsb total wm n ids mem) os).2 :=
  runOps_simulation_legal step Spec.step Spec.legal Rep (fun _ _ o r hl => rep_step r o hl) s _ (rep_init h hw hd hb) os hl

end Sparta.CachedMem
