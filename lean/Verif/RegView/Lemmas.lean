import Verif.RegView.Spec
namespace Sparta.RegView

theorem upd_upd {β : Type _} (f : Nat → β) (k : Nat) (a b : β) : upd (upd f k a) k b = upd f k b := by
  funext j
  unfold upd
  split <;> rfl

theorem upd_self {β : Type _} (f : Nat → β) (k : Nat) : upd f k (f k) = f := by
  funext j
  unfold upd
  split
  · rename_i h; rw [h]
  · rfl

/-- how an object keeps what it is said to have -/
def ORel (bufs : Nat → List Nat) (o : Obj) (x : SObj) : Prop :=
  o.store.length = 8 ∧ o.n = x.size ∧ match x with
  | .gone _ => o.loc = .null ∧ o.rem = .null
  | .own v => o.loc = o.rem ∧ ((o.n ≤ 8 ∧ o.loc = .store ∧ o.store.take o.n = v) ∨ (8 < o.n ∧ o.loc = .alt ∧ o.alt = some v))
  | .view b n => o.loc = .null ∧ o.rem = .ext b ∧ n ≤ (bufs b).length
  | .window b n => o.loc = .ext b ∧ o.rem = .ext b ∧ n ≤ (bufs b).length

def PRel (bufs : Nat → List Nat) : Option Obj → Option SObj → Prop
  | none, none => True
  | some o, some x => ORel bufs o x
  | _, _ => False

def Rel (m : Mem) (s : SMem) : Prop := m.bufs = s.bufs ∧ m.next = s.next ∧ ∀ k, PRel m.bufs (m.objs k) (s.objs k)

theorem ORel.bufs {b b' : Nat → List Nat} (h : ∀ i, (b i).length = (b' i).length) {o x} (r : ORel b o x) : ORel b' o x := by
  obtain ⟨h1, h2, h3⟩ := r
  refine ⟨h1, h2, ?_⟩
  cases x with
  | gone n => exact h3
  | own v => exact h3
  | view c n => exact ⟨h3.1, h3.2.1, by rw [← h c]; exact h3.2.2⟩
  | window c n => exact ⟨h3.1, h3.2.1, by rw [← h c]; exact h3.2.2⟩

theorem PRel.bufs {b b' : Nat → List Nat} (h : ∀ i, (b i).length = (b' i).length) {o x} (r : PRel b o x) : PRel b' o x := by
  cases o <;> cases x <;> first | exact r | exact ORel.bufs h r

theorem Rel.none_iff {m s} (R : Rel m s) {k} (h : m.objs k = none) : s.objs k = none := by
  have := R.2.2 k
  rw [h] at this
  cases e : s.objs k with
  | none => rfl
  | some x => rw [e] at this; cases this

theorem Rel.obj {m s} (R : Rel m s) {k o} (h : m.objs k = some o) : ∃ x, s.objs k = some x ∧ ORel m.bufs o x := by
  have := R.2.2 k
  rw [h] at this
  cases e : s.objs k with
  | none => rw [e] at this; cases this
  | some x => rw [e] at this; exact ⟨x, rfl, this⟩

theorem Rel.store {m s} (R : Rel m s) {k o x} (h : ORel m.bufs o x) :
    Rel { m with objs := upd m.objs k (Option.some o) } { s with objs := upd s.objs k (Option.some x) } := by
  refine ⟨R.1, R.2.1, fun j => ?_⟩
  by_cases hj : j = k
  · subst hj; simp only [upd_same]; exact h
  · simp only [upd_other _ _ hj]; exact R.2.2 j

theorem Rel.add {m s} (R : Rel m s) {o x} (h : ORel m.bufs o x) : Rel (m.add o) (s.add x) := by
  obtain ⟨h1, h2, h3⟩ := R.store (k := m.next) h
  refine ⟨h1, ?_, ?_⟩
  · show m.next + 1 = s.next + 1
    rw [R.2.1]
  · intro k
    have := h3 k
    unfold SMem.add
    rw [← R.2.1]
    exact this

/-- what an object shows -/
theorem Rel.shows {m s} (R : Rel m s) {k o} (h : m.objs k = some o) : value m o = s.val k := by
  obtain ⟨x, hx, h1, h2, h3⟩ := R.obj h
  unfold RegView.value SMem.val
  rw [hx]
  cases x with
  | gone n => simp [h3.2, region]
  | own v =>
    obtain ⟨e, h4 | h4⟩ := h3
    · rw [← e, h4.2.1]
      simp only [region]
      rw [if_neg (by omega), h4.2.2]
    · rw [← e, h4.2.1]
      simp only [region, h4.2.2]
      rw [if_neg (by simp only [SObj.size] at h2; omega), List.take_of_length_le (by simp only [SObj.size] at h2; omega)]
  | view b n =>
    simp only [SObj.size] at h2
    rw [h3.2.1]
    simp only [region]
    rw [if_neg (by omega), h2, R.1]
  | window b n =>
    simp only [SObj.size] at h2
    rw [h3.2.1]
    simp only [region]
    rw [if_neg (by omega), h2, R.1]

theorem Rel.val_none {m s} (R : Rel m s) {k} (h : m.objs k = none) : s.val k = none := by
  unfold SMem.val
  rw [R.none_iff h]

/-- what an object shows has its size -/
theorem Rel.val_length {m s} (R : Rel m s) {k o v} (h : m.objs k = some o) (hv : s.val k = some v) : v.length = o.n := by
  rw [← R.shows h] at hv
  unfold RegView.value at hv
  split at hv
  · cases hv
  · split at hv
    · cases hv
    · injection hv with e
      rw [← e, List.length_take]
      omega

/-- a view gets a value of its own -/
def SMem.conv (s : SMem) (k : Nat) : SMem :=
  match s.objs k with
  | some (.view b n) => { s with objs := upd s.objs k (some (.own ((s.bufs b).take n))) }
  | _ => s

theorem conv_val (s : SMem) (k j : Nat) : (s.conv k).val j = s.val j := by
  unfold SMem.conv
  split
  · rename_i b n h
    unfold SMem.val
    dsimp only
    by_cases hj : j = k
    · subst hj; rw [upd_same, h]
    · rw [upd_other _ _ hj]
  · rfl

theorem conv_assign (s : SMem) (k : Nat) (v : List Nat) : (s.conv k).assign k v = s.assign k v := by
  unfold SMem.conv
  split
  · rename_i b n h
    unfold SMem.assign
    dsimp only
    rw [upd_same, h]
    simp only [upd_upd]
  · rfl

theorem overwrite_zero (l d : List Nat) : overwrite l 0 d = d ++ l.drop d.length := by
  simp [overwrite]

theorem convert_rel {m s} (R : Rel m s) {k o v} (h : m.objs k = some o) (hv : s.val k = some v) :
    ∃ o', convert m o = some o' ∧ o'.n = o.n ∧ Rel { m with objs := upd m.objs k (some o') } (s.conv k) ∧
      (∃ y, (s.conv k).objs k = some y ∧ ORel m.bufs o' y ∧ ((∃ w, y = .own w) ∨ ∃ b n, y = .window b n)) ∧ isWindow ((s.conv k).objs k) = isWindow (s.objs k) := by
  obtain ⟨x, hx, h1, h2, h3⟩ := R.obj h
  have keep : o.loc ≠ .null → convert m o = some o := fun h => by unfold convert; rw [if_pos h]
  have same : { m with objs := upd m.objs k (some o) } = m := by rw [← h, upd_self]
  cases x with
  | gone n => unfold SMem.val at hv; rw [hx] at hv; cases hv
  | own w =>
    have hc : s.conv k = s := by unfold SMem.conv; rw [hx]
    have hne : o.loc ≠ .null := by rcases h3.2 with h4 | h4 <;> (rw [h4.2.1]; simp)
    refine ⟨o, keep hne, rfl, by rw [same, hc]; exact R, by rw [hc]; exact ⟨_, hx, ⟨h1, h2, h3⟩, Or.inl ⟨w, rfl⟩⟩, by rw [hc]⟩
  | window b n =>
    have hc : s.conv k = s := by unfold SMem.conv; rw [hx]
    have hne : o.loc ≠ .null := by rw [h3.1]; simp
    refine ⟨o, keep hne, rfl, by rw [same, hc]; exact R, by rw [hc]; exact ⟨_, hx, ⟨h1, h2, h3⟩, Or.inr ⟨b, n, rfl⟩⟩, by rw [hc]⟩
  | view b n =>
    simp only [SObj.size] at h2
    have hc : s.conv k = { s with objs := upd s.objs k (some (.own ((s.bufs b).take n))) } := by unfold SMem.conv; rw [hx]
    have hlen : ((m.bufs b).take o.n).length = o.n := by rw [List.length_take]; omega
    have hconv : ∃ o', convert m o = some o' ∧ o'.n = o.n ∧ ORel m.bufs o' (.own ((s.bufs b).take n)) := by
      unfold convert
      rw [if_neg (by rw [h3.1]; simp), h3.2.1]
      simp only [region]
      rw [if_neg (by omega)]
      by_cases h8 : o.n ≤ 8
      · rw [if_pos h8]
        refine ⟨_, rfl, rfl, ?_, ?_, rfl, Or.inl ⟨h8, rfl, ?_⟩⟩
        · simp only [overwrite_zero, List.length_append, hlen, List.length_drop, h1]; omega
        · simp only [SObj.size]; rw [← R.1, ← h2, hlen]
        · simp only [overwrite_zero]
          rw [List.take_append_of_le_length (by omega), List.take_of_length_le (by omega), R.1, h2]
      · rw [if_neg h8]
        refine ⟨_, rfl, rfl, h1, ?_, rfl, Or.inr ⟨by simpa using h8, rfl, by rw [R.1, h2]⟩⟩
        simp only [SObj.size]; rw [← R.1, ← h2, hlen]
    obtain ⟨o', e1, e2, e3⟩ := hconv
    refine ⟨o', e1, e2, ?_, ?_, ?_⟩
    · rw [hc]; exact R.store e3
    · rw [hc]; exact ⟨_, upd_same _ _ _, e3, Or.inl ⟨_, rfl⟩⟩
    · rw [hc, hx]; dsimp only; rw [upd_same]; rfl

/-- other bytes in an object that has a value or works on data -/
theorem put_rel {m s} (R : Rel m s) {k o y} (hy : s.objs k = some y) (ho : ORel m.bufs o y)
    (hy' : (∃ w, y = .own w) ∨ ∃ b n, y = .window b n) :
    ∃ r, region m o o.loc = some r ∧ o.n ≤ r.length ∧ s.val k = some (r.take o.n) ∧ (o.n ≤ 8 → isWindow (s.objs k) = false → r.length = 8) ∧
      ∀ r', r'.length = r.length → (isWindow (s.objs k) = true → r'.drop o.n = r.drop o.n) →
        Rel (put m k o r') (s.assign k (r'.take o.n)) := by
  obtain ⟨h1, h2, h3⟩ := ho
  rcases hy' with ⟨w, rfl⟩ | ⟨b, n, rfl⟩
  · simp only [SObj.size] at h2
    obtain ⟨e, h4 | h4⟩ := h3
    · refine ⟨o.store, by rw [h4.2.1]; rfl, by omega, by unfold SMem.val; rw [hy, h4.2.2], fun _ _ => h1, ?_⟩
      intro r' hr' _
      unfold RegView.put SMem.assign
      rw [h4.2.1, hy]
      refine R.store ⟨by show r'.length = 8; omega, ?_, by rw [← e, h4.2.1], Or.inl ⟨h4.1, rfl, rfl⟩⟩
      simp only [SObj.size, List.length_take]
      omega
    · refine ⟨w, by rw [h4.2.1]; simp [region, h4.2.2], by omega, by unfold SMem.val; rw [hy, List.take_of_length_le (by omega)], by omega, ?_⟩
      intro r' hr' _
      unfold RegView.put SMem.assign
      rw [h4.2.1, hy]
      refine R.store ⟨h1, ?_, by rw [← e, h4.2.1], Or.inr ⟨h4.1, rfl, ?_⟩⟩
      · simp only [SObj.size, List.length_take]; omega
      · simp only
        rw [List.take_of_length_le (by omega)]
  · simp only [SObj.size] at h2
    refine ⟨m.bufs b, by rw [h3.1]; rfl, by omega, by unfold SMem.val; rw [hy, h2, R.1], fun _ h => (by rw [hy] at h; cases h), ?_⟩
    intro r' hr' hw
    have hw' := hw (by rw [hy]; rfl)
    unfold RegView.put SMem.assign
    rw [h3.1, hy]
    have e : r'.take o.n ++ (s.bufs b).drop n = r' := by
      rw [← R.1, ← h2, ← hw', List.take_append_drop]
    have hl : ∀ i, (m.bufs i).length = (upd m.bufs b r' i).length := by
      intro i
      by_cases hi : i = b
      · subst hi; rw [upd_same, hr']
      · rw [upd_other _ _ hi]
    refine ⟨?_, R.2.1, ?_⟩
    · show upd m.bufs b r' = upd s.bufs b _
      rw [e, R.1]
    · intro j
      show PRel (upd m.bufs b r') (upd m.objs k (some o) j) (s.objs j)
      by_cases hj : j = k
      · subst hj
        rw [upd_same, hy]
        exact ORel.bufs hl ⟨h1, h2, h3⟩
      · rw [upd_other _ _ hj]
        exact (R.2.2 j).bufs hl

/-- the methods that write -/
theorem modify_rel {m s} (R : Rel m s) (k : Nat) (f : Mem → Obj → List Nat → Option (List Nat)) (g : List Nat → List Nat)
    (hf : ∀ o v, m.objs k = some o → s.val k = some v → ∀ m1 o1 r, o1.n = o.n → Rel m1 (s.conv k) → m1.objs k = some o1 → r.take o.n = v → o.n ≤ r.length →
      (o.n ≤ 8 → isWindow (s.objs k) = false → r.length = 8) →
      ∃ r', f m1 o1 r = some r' ∧ r'.length = r.length ∧ r'.take o.n = g v ∧ (isWindow (s.objs k) = true → r'.drop o.n = r.drop o.n)) :
    Rel (modify m k f).1 (s.change k g).1 ∧ (modify m k f).2 = (s.change k g).2 := by
  unfold modify SMem.change
  cases ho : m.objs k with
  | none => rw [R.val_none ho]; exact ⟨R, rfl⟩
  | some o =>
    dsimp only
    cases hv : s.val k with
    | none =>
      have h1 := R.shows ho
      rw [hv] at h1
      obtain ⟨x, hx, h2, h3, h4⟩ := R.obj ho
      cases x with
      | gone n =>
        have : convert m o = none := by unfold convert; simp [h4.1, h4.2, region]
        rw [this]
        exact ⟨R, rfl⟩
      | _ => unfold SMem.val at hv; rw [hx] at hv; cases hv
    | some v =>
      obtain ⟨o', e1, e2, e3, ⟨y, e4, e5, e6⟩, e7⟩ := convert_rel R ho hv
      obtain ⟨r, f1, f2, f3, f4, f5⟩ := put_rel e3 e4 e5 e6
      have f1' : region m o' o'.loc = some r := f1
      rw [e1]
      dsimp only
      rw [f1']
      dsimp only
      rw [conv_val, hv] at f3
      injection f3 with f3
      obtain ⟨r', g1, g2, g3, g4⟩ := hf o v ho hv _ o' r e2 e3 (upd_same _ _ _) (by rw [← e2]; exact f3.symm) (by omega) (by rw [← e2, ← e7]; exact f4)
      rw [g1]
      have := f5 r' g2 (by rw [e7, e2]; exact g4)
      rw [e2, g3, conv_assign] at this
      refine ⟨?_, rfl⟩
      have e : put { m with objs := upd m.objs k (some o') } k o' r' = put m k o' r' := by
        have : o'.loc ≠ .null := by
          rcases e6 with ⟨w, rfl⟩ | ⟨b, n, rfl⟩
          · rcases e5.2.2.2 with h | h <;> (rw [h.2.1]; simp)
          · rw [e5.2.2.1]; simp
        unfold put
        cases hl : o'.loc with
        | null => exact absurd hl this
        | _ => simp only [upd_upd]
      rw [e] at this
      exact this

end Sparta.RegView
