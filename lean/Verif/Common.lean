/-!
Shared arithmetic lemmas (no model content).
-/
namespace Sparta

/-- position of the `i`-th element of a ring of `V` slots starting at `h`, without `%` -/
theorem ring_add_mod {h i V : Nat} (hh : h < V) (hi : i ≤ V) :
    (h + i) % V = if h + i < V then h + i else h + i - V := by
  split
  · exact Nat.mod_eq_of_lt ‹_›
  · rw [Nat.mod_eq_sub_mod (by omega)]
    exact Nat.mod_eq_of_lt (by omega)

theorem ring_inj {h i j V : Nat} (hh : h < V) (hi : i < V) (hj : j < V)
    (e : (h + i) % V = (h + j) % V) : i = j := by
  rw [ring_add_mod hh (by omega), ring_add_mod hh (by omega)] at e
  split at e <;> split at e <;> omega

/-- masking with a power of two minus one is the remainder -/
theorem land_mask (x k : Nat) : x &&& (2 ^ k - 1) = x % 2 ^ k :=
  Nat.and_two_pow_sub_one_eq_mod x k

/-- Run a state machine over a list of operations, collecting the outputs. -/
def runOps {σ ο ρ : Type _} (step : σ → ο → σ × ρ) : σ → List ο → σ × List ρ
  | s, [] => (s, [])
  | s, o :: os =>
    let (s', r) := step s o
    let (s'', rs) := runOps step s' os
    (s'', r :: rs)

theorem runOps_append {σ ο ρ : Type _} (step : σ → ο → σ × ρ) (s : σ) (a b : List ο) :
    (runOps step s (a ++ b)).1 = (runOps step (runOps step s a).1 b).1 := by
  induction a generalizing s with
  | nil => rfl
  | cons o os ih => simp [runOps, ih]

theorem runOps_append_snd {σ ο ρ : Type _} (step : σ → ο → σ × ρ) (s : σ) (a b : List ο) :
    (runOps step s (a ++ b)).2 = (runOps step s a).2 ++ (runOps step (runOps step s a).1 b).2 := by
  induction a generalizing s with
  | nil => rfl
  | cons o os ih => simp [runOps, ih]

/-- Invariants lift from single steps to whole histories. -/
theorem runOps_invariant {σ ο ρ : Type _} (step : σ → ο → σ × ρ) (P : σ → Prop)
    (hstep : ∀ s o, P s → P (step s o).1) (s : σ) (h : P s) (os : List ο) :
    P (runOps step s os).1 := by
  induction os generalizing s with
  | nil => exact h
  | cons o os ih => exact ih _ (hstep s o h)

/-- Forward simulation: related states stay related and give the same outputs. -/
theorem runOps_simulation {σ τ ο ρ : Type _} (step : σ → ο → σ × ρ) (sstep : τ → ο → τ × ρ)
    (R : σ → τ → Prop)
    (hstep : ∀ s t o, R s t → R (step s o).1 (sstep t o).1 ∧ (step s o).2 = (sstep t o).2)
    (s : σ) (t : τ) (h : R s t) (os : List ο) :
    R (runOps step s os).1 (runOps sstep t os).1 ∧ (runOps step s os).2 = (runOps sstep t os).2 := by
  induction os generalizing s t with
  | nil => exact ⟨h, rfl⟩
  | cons o os ih =>
    obtain ⟨h1, h2⟩ := hstep s t o h
    obtain ⟨h3, h4⟩ := ih _ _ h1
    exact ⟨h3, by simp [runOps, h2, h4]⟩

/-- update of a function at one point (an assignment to an array slot) -/
def upd {β : Type _} (f : Nat → β) (i : Nat) (b : β) : Nat → β := fun j => if j = i then b else f j

@[simp] theorem upd_same {β : Type _} (f : Nat → β) (i : Nat) (b : β) : upd f i b i = b := by simp [upd]
theorem upd_other {β : Type _} (f : Nat → β) {i j : Nat} (b : β) (h : j ≠ i) : upd f i b j = f j := by
  simp [upd, h]

end Sparta

namespace Sparta
theorem nodup_getElem_inj {β : Type _} {l : List β} (hn : l.Nodup) {i j : Nat} (hi : i < l.length)
    (hj : j < l.length) (h : l[i] = l[j]) : i = j := by
  have hp := List.pairwise_iff_getElem.1 hn
  rcases Nat.lt_trichotomy i j with h1 | h1 | h1
  · exact absurd h (hp i j hi hj h1)
  · exact h1
  · exact absurd h.symm (hp j i hj hi h1)

theorem nodup_reverse {β : Type _} {l : List β} (h : l.Nodup) : l.reverse.Nodup := by
  unfold List.Nodup at *
  rw [List.pairwise_reverse]
  exact h.imp (fun h e => h e.symm)

end Sparta

namespace Sparta
/-- `--x` on a `uint32_t` holding `n` (wraps at 0) -/
def u32dec (n : Nat) : Nat := if n = 0 then 4294967295 else n - 1
/-- `++x` on a `uint32_t` holding `n` (wraps at the top) -/
def u32inc (n : Nat) : Nat := if n = 4294967295 then 0 else n + 1
end Sparta

namespace Sparta
/-- every call of the history respects its documented precondition, judged by the specification state -/
def legalOps {τ ο ρ : Type _} (sstep : τ → ο → τ × ρ) (legal : τ → ο → Prop) : τ → List ο → Prop
  | _, [] => True
  | s, o :: os => legal s o ∧ legalOps sstep legal (sstep s o).1 os

/-- Forward simulation for histories that respect preconditions. -/
theorem runOps_simulation_legal {σ τ ο ρ : Type _} (step : σ → ο → σ × ρ) (sstep : τ → ο → τ × ρ)
    (legal : τ → ο → Prop) (R : σ → τ → Prop)
    (hstep : ∀ s t o, R s t → legal t o → R (step s o).1 (sstep t o).1 ∧ (step s o).2 = (sstep t o).2)
    (s : σ) (t : τ) (h : R s t) (os : List ο) (hl : legalOps sstep legal t os) :
    R (runOps step s os).1 (runOps sstep t os).1 ∧ (runOps step s os).2 = (runOps sstep t os).2 := by
  induction os generalizing s t with
  | nil => exact ⟨h, rfl⟩
  | cons o os ih =>
    obtain ⟨h1, h2⟩ := hstep s t o h hl.1
    obtain ⟨h3, h4⟩ := ih _ _ h1 hl.2
    exact ⟨h3, by simp [runOps, h2, h4]⟩
end Sparta

namespace Sparta
instance legalOps.decidable {τ ο ρ : Type _} (sstep : τ → ο → τ × ρ) (legal : τ → ο → Prop)
    [∀ s o, Decidable (legal s o)] : ∀ (s : τ) (os : List ο), Decidable (legalOps sstep legal s os)
  | _, [] => isTrue trivial
  | s, _ :: os => @instDecidableAnd _ _ _ (legalOps.decidable sstep legal (sstep s _).1 os)
end Sparta
