import Verif.PriorityQueue.Model
/-! Property C22: PriorityQueue. -/
namespace Sparta.PriorityQueue
variable {α : Type}

/-- the C++ requirement on a sorting algorithm -/
structure StrictWeakOrder (lt : α → α → Bool) : Prop where
  irrefl : ∀ a, lt a a = false
  trans : ∀ a b c, lt a b = true → lt b c = true → lt a c = true
  incomp : ∀ a b c, lt a b = false → lt b a = false → lt b c = false → lt c b = false →
    lt a c = false ∧ lt c a = false

/-- sorted by `lt`, and among items that compare equal by the time `t` of their insertion -/
def Ordered (lt : α → α → Bool) (t : α → Nat) (l : List α) : Prop :=
  l.Pairwise (fun a b => lt b a = false ∧ (lt a b = true ∨ t a < t b))

theorem place_perm (lt : α → α → Bool) (x : α) (l : List α) : (place lt x l).Perm (x :: l) := by
  induction l with
  | nil => exact List.Perm.refl _
  | cons y ys ih =>
    unfold place; split
    · exact List.Perm.refl _
    · exact (List.Perm.cons y ih).trans (List.Perm.swap x y ys)

theorem place_ordered {lt : α → α → Bool} (h : StrictWeakOrder lt) {t : α → Nat} {x : α} {l : List α}
    (hl : Ordered lt t l) (ht : ∀ y ∈ l, t y < t x) : Ordered lt t (place lt x l) := by
  induction l with
  | nil => exact List.pairwise_singleton _ _
  | cons y ys ih =>
    have hl' := List.pairwise_cons.1 hl
    unfold place; split
    · rename_i hxy
      refine List.pairwise_cons.2 ⟨?_, hl⟩
      intro z hz
      have asym : ∀ a b, lt a b = true → lt b a = false := by
        intro a b hab
        cases hba : lt b a with
        | false => rfl
        | true => have := h.trans _ _ _ hab hba; rw [h.irrefl] at this; cases this
      have key : lt x z = true := by
        rcases List.mem_cons.1 hz with rfl | hz
        · exact hxy
        · have hzy := (hl'.1 z hz).1
          cases hxz : lt x z with
          | true => rfl
          | false =>
            cases hzx : lt z x with
            | true => have := h.trans _ _ _ hzx hxy; rw [hzy] at this; cases this
            | false =>
              cases hyz : lt y z with
              | true => have := h.trans _ _ _ hxy hyz; rw [hxz] at this; cases this
              | false =>
                have := (h.incomp _ _ _ hxz hzx hzy hyz).1
                rw [hxy] at this; cases this
      exact ⟨asym _ _ key, Or.inl key⟩
    · rename_i hxy
      refine List.pairwise_cons.2 ⟨?_, ih hl'.2 (fun z hz => ht z (List.mem_cons_of_mem _ hz))⟩
      intro z hz
      have hz' := (place_perm lt x ys).mem_iff.1 hz
      rcases List.mem_cons.1 hz' with rfl | hz'
      · exact ⟨by simpa using hxy, Or.inr (ht y (List.mem_cons_self))⟩
      · exact hl'.1 z hz'

theorem cons_eraseIdx_perm (l : List α) (i : Nat) (hi : i < l.length) : (l[i] :: l.eraseIdx i).Perm l := by
  induction l generalizing i with
  | nil => simp at hi
  | cons x xs ih =>
    cases i with
    | zero => exact List.Perm.refl _
    | succ i => exact (List.Perm.swap x _ _).trans (List.Perm.cons x (ih i (by simpa using hi)))

/-- the items inserted by a history, in order -/
def inserted : List (Op α) → List α
  | [] => []
  | .insert x :: os => x :: inserted os
  | _ :: os => inserted os

/-- no item was forced to the front -/
def noForce : List (Op α) → Prop
  | [] => True
  | .forceFront _ :: _ => False
  | _ :: os => noForce os

/-- C22, order: for every strict weak order and every history without forceFront whose items carry
increasing insertion times `t`, the queue is ordered by the comparison and, among items that compare
equal, by insertion time. -/
theorem C22_priority_queue_sorted_stable [DecidableEq α] (lt : α → α → Bool) (h : StrictWeakOrder lt)
    (t : α → Nat) (bound : Nat) (os : List (Op α)) (hf : noForce os)
    (ht : (inserted os).Pairwise (fun a b => t a < t b)) :
    Ordered lt t (runOps (PQ.step lt) (PQ.init α bound) os).1.items := by
  have key : ∀ (os : List (Op α)) (q : PQ α), noForce os →
      (inserted os).Pairwise (fun a b => t a < t b) →
      Ordered lt t q.items → (∀ x ∈ q.items, ∀ y ∈ inserted os, t x < t y) →
      Ordered lt t (runOps (PQ.step lt) q os).1.items := by
    intro os
    induction os with
    | nil => intro q _ _ h _; exact h
    | cons o os ih =>
      intro q hf ht hq hlt
      have sub : ∀ (l : List α), l.Sublist q.items → inserted (o :: os) = inserted os → noForce os →
          Ordered lt t (runOps (PQ.step lt) { q with items := l } os).1.items := by
        intro l hl e hf'
        exact ih _ hf' (e ▸ ht) (hq.sublist hl) (fun x hx y hy => hlt x (hl.subset hx) y (e ▸ hy))
      have same : inserted (o :: os) = inserted os → noForce os →
          Ordered lt t (runOps (PQ.step lt) q os).1.items := sub q.items (List.Sublist.refl _)
      cases o with
      | insert x =>
        have ht' := List.pairwise_cons.1 ht
        show Ordered lt t (runOps (PQ.step lt) (q.step lt (.insert x)).1 os).1.items
        simp only [PQ.step, PQ.insert]
        by_cases hr : q.room = true
        · simp only [hr, if_true]
          refine ih _ hf ht'.2 (place_ordered h hq (fun y hy => hlt y hy x List.mem_cons_self)) ?_
          intro y hy z hz
          rcases List.mem_cons.1 ((place_perm lt x q.items).mem_iff.1 hy) with rfl | hy
          · exact ht'.1 z hz
          · exact hlt y hy z (List.mem_cons_of_mem _ hz)
        · simp only [hr]
          exact ih _ hf ht'.2 hq (fun y hy z hz => hlt y hy z (List.mem_cons_of_mem _ hz))
      | pop =>
        show Ordered lt t (runOps (PQ.step lt) (q.step lt .pop).1 os).1.items
        simp only [PQ.step, PQ.pop]
        cases hi : q.items with
        | nil => exact same rfl hf
        | cons y l => exact sub l (by rw [hi]; exact List.sublist_cons_self y l) rfl hf
      | remove x => exact sub _ List.filter_sublist rfl hf
      | erase i => exact sub _ (List.eraseIdx_sublist ..) rfl hf
      | clear => exact sub _ (List.nil_sublist _) rfl hf
      | forceFront x => exact hf.elim
  exact key os _ hf ht List.Pairwise.nil (fun x hx => by cases hx)

/-- C22, contents: every call changes the multiset of items by exactly its own item. In a bounded queue an
insertion throws exactly when the queue is full. -/
theorem C22_priority_queue_contents [DecidableEq α] (lt : α → α → Bool) (bound : Nat) (os : List (Op α)) :
    let q := (runOps (PQ.step lt) (PQ.init α bound) os).1
    (∀ x, (∃ q', q.insert lt x = some q' ∧ q'.items.Perm (x :: q.items))
        ∨ (q.insert lt x = none ∧ bound ≠ 0 ∧ q.items.length = bound))
      ∧ (∀ x, (∃ q', q.forceFront x = some q' ∧ q'.items = x :: q.items)
        ∨ (q.forceFront x = none ∧ bound ≠ 0 ∧ q.items.length = bound))
      ∧ ((∃ q' x, q.pop = some q' ∧ q.top = some x ∧ q.items = x :: q'.items) ∨ (q.pop = none ∧ q.items = []))
      ∧ (∀ x y, (q.remove x).items.count y = if y = x then 0 else q.items.count y)
      ∧ (∀ i (hi : i < q.items.length), (q.items[i] :: (q.erase i).items).Perm q.items) := by
  intro q
  have hb : q.bound = bound ∧ (bound ≠ 0 → q.items.length ≤ bound) := by
    refine runOps_invariant (PQ.step lt) (fun q => q.bound = bound ∧ (bound ≠ 0 → q.items.length ≤ bound)) ?_ _
      ⟨rfl, fun _ => Nat.zero_le _⟩ os
    intro q o ⟨h1, h2⟩
    have sub : ∀ l : List α, l.length ≤ q.items.length →
        ({ q with items := l } : PQ α).bound = bound ∧ (bound ≠ 0 → l.length ≤ bound) :=
      fun l hl => ⟨h1, fun h => Nat.le_trans hl (h2 h)⟩
    cases o with
    | insert x =>
      simp only [PQ.step, PQ.insert]
      by_cases hr : q.room = true
      · simp only [hr, if_true]
        refine ⟨h1, fun h => ?_⟩
        rw [(place_perm lt x q.items).length_eq, List.length_cons]
        simp only [PQ.room, h1, Bool.or_eq_true, decide_eq_true_eq, h, false_or] at hr
        exact hr
      · simp only [hr]; exact ⟨h1, h2⟩
    | pop =>
      simp only [PQ.step, PQ.pop]
      cases hi : q.items with
      | nil => simp only; exact ⟨h1, fun h => by rw [hi]; exact Nat.zero_le _⟩
      | cons y l => exact sub l (by rw [hi]; simp)
    | remove x => exact sub _ (List.length_filter_le ..)
    | erase i => exact sub _ (List.eraseIdx_sublist ..).length_le
    | clear => exact sub _ (Nat.zero_le _)
    | forceFront x =>
      simp only [PQ.step, PQ.forceFront]
      by_cases hr : q.room = true
      · simp only [hr, if_true]
        refine ⟨h1, fun h => ?_⟩
        simp only [PQ.room, h1, Bool.or_eq_true, decide_eq_true_eq, h, false_or] at hr
        exact hr
      · simp only [hr]; exact ⟨h1, h2⟩
  have hroom : q.room = true ∨ (q.room = false ∧ bound ≠ 0 ∧ q.items.length = bound) := by
    cases hr : q.room with
    | true => exact Or.inl rfl
    | false =>
      right
      simp only [PQ.room, hb.1, Bool.or_eq_false_iff, decide_eq_false_iff_not] at hr
      refine ⟨rfl, hr.1, ?_⟩
      have := hb.2 hr.1
      omega
  refine ⟨?_, ?_, ?_, ?_, ?_⟩
  · intro x
    rcases hroom with hr | ⟨hr, h1, h2⟩
    · left; exact ⟨_, by simp [PQ.insert, hr]; rfl, place_perm lt x q.items⟩
    · right; exact ⟨by simp [PQ.insert, hr], h1, h2⟩
  · intro x
    rcases hroom with hr | ⟨hr, h1, h2⟩
    · left; exact ⟨_, by simp [PQ.forceFront, hr]; rfl, rfl⟩
    · right; exact ⟨by simp [PQ.forceFront, hr], h1, h2⟩
  · cases hi : q.items with
    | nil => right; exact ⟨by simp [PQ.pop, hi], rfl⟩
    | cons x l => left; exact ⟨{ q with items := l }, x, by simp [PQ.pop, hi], by simp [PQ.top, hi], rfl⟩
  · intro x y
    simp only [PQ.remove]
    by_cases h : y = x
    · subst h; simp [List.count_eq_zero]
    · simp only [h, if_false]; rw [List.count_filter]; simp [h]
  · intro i hi
    exact cons_eraseIdx_perm _ i hi

/-- hypotheses are met: order by the first component only, the second is the insertion time -/
example : StrictWeakOrder (fun a b : Nat × Nat => decide (a.1 < b.1)) where
  irrefl := by simp
  trans := by simp; omega
  incomp := by simp; omega
example : (runOps (PQ.step (fun a b : Nat × Nat => decide (a.1 < b.1))) (PQ.init _ 0)
    [.insert (5, 0), .insert (3, 1), .insert (5, 2), .insert (3, 3), .pop]).1.items
      = [(3, 3), (5, 0), (5, 2)] := by decide

end Sparta.PriorityQueue
