/-! List lemmas missing from the core library (no model content). -/
namespace Sparta

theorem insertIdx_perm {β : Type _} (l : List β) (x : β) {i : Nat} (hi : i ≤ l.length) : (l.insertIdx i x).Perm (x :: l) := by
  induction l generalizing i with
  | nil =>
    have : i = 0 := by simpa using hi
    subst this; exact List.Perm.refl _
  | cons y ys ih =>
    cases i with
    | zero => exact List.Perm.refl _
    | succ i =>
      rw [List.insertIdx_succ_cons]
      exact ((ih (by simpa using hi)).cons y).trans (List.Perm.swap x y ys)

theorem eraseIdx_perm {β : Type _} (l : List β) {i : Nat} (hi : i < l.length) : (l[i] :: l.eraseIdx i).Perm l := by
  induction l generalizing i with
  | nil => simp at hi
  | cons y ys ih =>
    cases i with
    | zero => exact List.Perm.refl _
    | succ i =>
      have hi' : i < ys.length := by simpa using hi
      simp only [List.getElem_cons_succ, List.eraseIdx_cons_succ]
      exact (List.Perm.swap y ys[i] _).trans ((ih hi').cons y)

theorem map_insertIdx {β γ : Type _} (f : β → γ) (l : List β) (x : β) (i : Nat) :
    (l.insertIdx i x).map f = (l.map f).insertIdx i (f x) := by
  induction l generalizing i with
  | nil => cases i <;> simp
  | cons y ys ih => cases i <;> simp [ih]

theorem map_eraseIdx {β γ : Type _} (f : β → γ) (l : List β) (i : Nat) :
    (l.eraseIdx i).map f = (l.map f).eraseIdx i := by
  induction l generalizing i with
  | nil => simp
  | cons y ys ih => cases i <;> simp [ih]

end Sparta
