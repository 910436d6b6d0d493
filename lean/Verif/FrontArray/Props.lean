import Verif.FrontArray.Model
import Verif.Array.Lemmas
/-! Property C24: FrontArray. -/
namespace Sparta.FrontArray
open Sparta.Array (A Op Spec Rep)
variable {α : Type}

theorem lowestFree_spec (a : A α) (fuel i : Nat) :
    let r := lowestFree a fuel i
    i ≤ r ∧ r ≤ i + fuel ∧ (∀ j, i ≤ j → j < r → a.isValid j = true) ∧ (r < i + fuel → a.isValid r = false) := by
  induction fuel generalizing i with
  | zero => simp [lowestFree]; omega
  | succ fuel ih =>
    unfold lowestFree
    split
    · rename_i h
      obtain ⟨h1, h2, h3, h4⟩ := ih (i + 1)
      refine ⟨by omega, by omega, ?_, fun h => h4 (by omega)⟩
      intro j hj hj'
      by_cases e : j = i
      · subst e; exact h
      · exact h3 j (by omega) hj'
    · rename_i h
      refine ⟨Nat.le_refl _, by omega, fun j _ _ => by omega, fun _ => by simpa using h⟩

theorem highestFree_spec (a : A α) (k : Nat) :
    match highestFree a k with
    | none => ∀ j, j < k → a.isValid j = true
    | some i => i < k ∧ a.isValid i = false ∧ ∀ j, i < j → j < k → a.isValid j = true := by
  induction k with
  | zero => simp [highestFree]
  | succ k ih =>
    unfold highestFree
    by_cases h : a.isValid k = true
    · rw [if_pos h]
      cases hh : highestFree a k with
      | none =>
        rw [hh] at ih; simp only at ih ⊢
        intro j hj
        by_cases e : j = k
        · subst e; exact h
        · exact ih j (by omega)
      | some i =>
        rw [hh] at ih; simp only at ih ⊢
        refine ⟨by omega, ih.2.1, ?_⟩
        intro j h1 h2
        by_cases e : j = k
        · subst e; exact h
        · exact ih.2.2 j h1 (by omega)
    · rw [if_neg h]
      exact ⟨by omega, by simpa using h, fun j _ _ => by omega⟩

theorem reach {aged : Bool} {n : Nat} (ops : List (Op α)) :
    ∃ s, Rep (runOps A.step (A.init α aged n) ops).1 s ∧ s.size = n := by
  refine ⟨_, ((Rep.init (α := α) aged n).run ops).1, ?_⟩
  refine runOps_invariant Spec.step (fun t => t.size = n) ?_ (Spec.init α n) rfl ops
  intro t o h
  cases o <;> simp only [Spec.step] <;> (try split) <;> exact h

theorem write_obs {a : A α} {s : Spec α} (r : Rep a s) (i : Nat) (x : α) (hi : i < s.size) :
    ∃ a', a.write i x = some a' ∧ ∀ j, a'.read j = if j = i then some x else a.read j := by
  have h := r.step (.write i x)
  simp only [A.step, Spec.step, hi, if_true] at h
  cases hw : a.write i x with
  | none => rw [hw] at h; simp at h
  | some a' =>
    rw [hw] at h
    refine ⟨a', rfl, fun j => ?_⟩
    rw [h.1.read, r.read]

/-- C24, writing: in every reachable array (any history of writes, erases and clears, which includes earlier
writeFront / writeBack calls) writeFront fails exactly when every entry is valid; otherwise it writes the
lowest free position, reports it, and changes nothing else. -/
theorem C24_write_front (aged : Bool) (n : Nat) (ops : List (Op α)) (x : α) :
    let a := (runOps A.step (A.init α aged n) ops).1
    (writeFront a x = none ∧ ∀ j, j < n → a.isValid j = true)
      ∨ ∃ a' i, writeFront a x = some (a', i) ∧ i < n ∧ a.isValid i = false
          ∧ (∀ j, j < i → a.isValid j = true) ∧ ∀ j, a'.read j = if j = i then some x else a.read j := by
  intro a
  obtain ⟨s, r, hs⟩ := reach (α := α) (aged := aged) (n := n) ops
  have hn : a.numEntries = n := by rw [← hs]; exact r.size
  obtain ⟨-, h2, h3, h4⟩ := lowestFree_spec a a.numEntries 0
  generalize hi : lowestFree a a.numEntries 0 = i at h2 h3 h4
  by_cases hlt : i < n
  · right
    obtain ⟨a', hw, hr⟩ := write_obs r i x (by omega)
    refine ⟨a', i, ?_, hlt, h4 (by omega), fun j hj => h3 j (by omega) hj, hr⟩
    have hw' : a.write i x = some a' := hw
    simp only [writeFront, hi]; rw [if_pos (by omega), hw']; rfl
  · left
    refine ⟨by simp only [writeFront, hi]; rw [if_neg (by omega)], fun j hj => h3 j (by omega) (by omega)⟩

/-- C24, writing from the back: the highest free position. -/
theorem C24_write_back (aged : Bool) (n : Nat) (ops : List (Op α)) (x : α) :
    let a := (runOps A.step (A.init α aged n) ops).1
    (writeBack a x = none ∧ ∀ j, j < n → a.isValid j = true)
      ∨ ∃ a' i, writeBack a x = some (a', i) ∧ i < n ∧ a.isValid i = false
          ∧ (∀ j, i < j → j < n → a.isValid j = true) ∧ ∀ j, a'.read j = if j = i then some x else a.read j := by
  intro a
  obtain ⟨s, r, hs⟩ := reach (α := α) (aged := aged) (n := n) ops
  have hn : a.numEntries = n := by rw [← hs]; exact r.size
  have h := highestFree_spec a a.numEntries
  cases hh : highestFree a a.numEntries with
  | none =>
    rw [hh] at h
    left
    exact ⟨by simp [writeBack, hh], fun j hj => h j (by omega)⟩
  | some i =>
    rw [hh] at h
    simp only [hn] at h
    right
    obtain ⟨a', hw, hr⟩ := write_obs r i x (by omega)
    have hw' : a.write i x = some a' := hw
    exact ⟨a', i, by simp [writeBack, hh, hw'], h.1, h.2.1, h.2.2, hr⟩

/-- the valid positions in index order -/
def validPositions (a : A α) : List Nat := (List.range a.numEntries).filter a.isValid

theorem readLoop_good (a : A α) (nth : Nat) (hv : ∀ j, j ≤ nth → a.isValid j = true) (fuel n : Nat)
    (hn : n ≤ nth + 1) (hf : nth + 1 < n + fuel) : readLoop a nth fuel n n = some (nth + 1) := by
  induction fuel generalizing n with
  | zero => omega
  | succ fuel ih =>
    unfold readLoop
    by_cases h : n ≤ nth
    · rw [if_pos h, if_pos (hv n h)]
      exact ih (n + 1) (by omega) (by omega)
    · rw [if_neg h]; congr 1; omega

theorem readLoop_stuck (a : A α) (nth m : Nat) (hm : m ≤ nth) (h : a.isValid m = false)
    (fuel n i : Nat) (hn : n ≤ m) : readLoop a nth fuel n i = none := by
  induction fuel generalizing n i with
  | zero => rfl
  | succ fuel ih =>
    unfold readLoop
    rw [if_pos (by omega)]
    split
    · rename_i hv
      apply ih
      by_cases e : n = m
      · subst e; rw [h] at hv; cases hv
      · omega
    · exact ih n (i + 1) hn

/-- C24, reading, for arrays whose positions 0..nth are all valid: readValid(nth) returns the (nth+1)-th
valid entry in index order (after nth+2 loop tests). Missing: arrays with a free position at or below nth,
where the call never returns, see `C24_read_valid_violated`. -/
theorem C24_read_valid_partial (aged : Bool) (n : Nat) (ops : List (Op α)) (nth fuel : Nat) :
    let a := (runOps A.step (A.init α aged n) ops).1
    (∀ j, j ≤ nth → a.isValid j = true) → nth + 2 ≤ fuel →
    ∃ p x, (validPositions a)[nth]? = some p ∧ a.read p = some x ∧ readValid a nth fuel = .value x := by
  intro a hv hfuel
  obtain ⟨s, r, hs⟩ := reach (α := α) (aged := aged) (n := n) ops
  have r' : Rep a s := r
  have hn : a.numEntries = n := by rw [← hs]; exact r'.size
  have hvn := hv nth (Nat.le_refl _)
  have hsome : (s.map nth).isSome := by rw [← r'.valid]; exact hvn
  have hlt : nth < n := by rw [← hs]; exact r'.inRange nth hsome
  obtain ⟨x, hx⟩ := Option.isSome_iff_exists.1 hsome
  have hread : a.read nth = some x := by rw [r'.read, hx]
  have hcount : nth < a.numValid := by
    rw [r'.count]
    have hsub : (List.range (nth + 1)).Subset s.youngestFirst := by
      intro j hj
      rw [r'.mem, ← r'.valid]
      exact hv j (by have := List.mem_range.1 hj; omega)
    have := List.nodup_range.length_le_of_subset hsub
    simp at this; omega
  refine ⟨nth, x, ?_, hread, ?_⟩
  · unfold validPositions
    have : List.range a.numEntries = List.range (nth + 1) ++ (List.range (n - (nth + 1))).map (nth + 1 + ·) := by
      rw [hn, ← List.range_add]; congr 1; omega
    rw [this, List.filter_append, List.filter_eq_self.2, List.getElem?_append_left (by simp),
      List.getElem?_range (by omega)]
    intro j hj
    exact hv j (by have := List.mem_range.1 hj; omega)
  · unfold readValid
    rw [if_pos ⟨by omega, hcount⟩, readLoop_good a nth hv fuel 0 (by omega) (by omega)]
    simp [hread]

example : ∀ j, j ≤ 1 → (runOps A.step (A.init Nat true 3) [.write 0 7, .write 1 8]).1.isValid j = true := by
  decide

/-- C24 fails for reading: whenever a position at or below nth is free (and nth is accepted), the loop
tests that position for ever; readValid never returns, although nth+1 entries are valid. -/
theorem C24_read_valid_violated (fuel : Nat) :
    let a := (runOps A.step (A.init Nat true 3) [.write 1 8, .write 2 9]).1
    (validPositions a).length = 2 ∧ readValid a 0 fuel = .running := by
  refine ⟨by decide, ?_⟩
  unfold readValid
  rw [if_pos (by decide), readLoop_stuck _ 0 0 (Nat.le_refl _) (by decide) fuel 0 0 (Nat.le_refl _)]

/-- C24: the exact set of failing calls: a free position at or below nth means no result after any number
of iterations. -/
theorem C24_read_valid_stuck (a : A α) (nth m : Nat) (hm : m ≤ nth) (h : a.isValid m = false)
    (h1 : nth < a.numEntries) (h2 : nth < a.numValid) (fuel : Nat) : readValid a nth fuel = .running := by
  unfold readValid
  rw [if_pos ⟨h1, h2⟩, readLoop_stuck a nth m hm h fuel 0 0 (Nat.zero_le _)]

end Sparta.FrontArray
