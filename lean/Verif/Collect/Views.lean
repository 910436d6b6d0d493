import Verif.Collect.Ticks
/-!
What the users see over longer runs.
-/
namespace Sparta.Collect

theorem Legal.eq {v w : View} {ops : List Op} (h : Legal v ops w) : w = ops.foldl View.step v := by
  induction h with
  | nil v => rfl
  | cons _ _ ih => exact ih

theorem Legal.split {v w : View} {a b : List Op} (h : Legal v (a ++ b) w) :
    Legal v a (a.foldl View.step v) ∧ Legal (a.foldl View.step v) b w := by
  induction a generalizing v with
  | nil => exact ⟨.nil v, h⟩
  | cons op a ih =>
    cases h with
    | cons h1 h2 => exact ⟨.cons h1 (ih h2).1, (ih h2).2⟩

theorem Legal.join {u v w : View} {a b : List Op} (h1 : Legal u a v) (h2 : Legal v b w) : Legal u (a ++ b) w := by
  induction h1 with
  | nil v => exact h2
  | cons h _ ih => exact .cons h (ih h2)

theorem autos_same (v : View) : v.autos.active = v.active ∧ v.autos.H = v.H ∧ v.autos.on = v.on ∧ v.autos.now = v.now ∧
    v.autos.path = v.path ∧ v.autos.pic = v.pic ∧ v.autos.auto = v.auto ∧ v.autos.closes = v.closes ∧ v.autos.var = v.var := by
  simp only [View.autos]
  split <;> exact ⟨rfl, rfl, rfl, rfl, rfl, rfl, rfl, rfl, rfl⟩

theorem autos_cur (v : View) (i : Nat) : v.autos.cur i = if v.now ∈ v.pend ∧ i ∈ v.on ∧ v.auto i = true then (v.var i).getD [] else v.cur i := by
  simp only [View.autos]
  by_cases h : v.now ∈ v.pend
  · by_cases h2 : i ∈ v.on ∧ v.auto i = true
    · simp [h, h2, View.update, View.fetch]
    · simp [h, View.update, View.fetch, h2]
  · simp [h]

theorem next_same (v : View) : (v.step .next).active = v.active ∧ (v.step .next).H = v.H ∧ (v.step .next).on = v.on ∧
    (v.step .next).now = v.now + 1 ∧ (v.step .next).path = v.path ∧ (v.step .next).auto = v.auto ∧ (v.step .next).var = v.var ∧
    (v.step .next).closes = v.closes.filter (fun p => p.2 ≠ v.now + 1) := by
  obtain ⟨a1, a2, a3, a4, a5, a6, a7, a8, a9⟩ := autos_same v
  simp only [View.step, View.ends, View.keep, View.update]
  exact ⟨a1, a2, a3, by rw [a4], a5, a7, a9, by simp only [a8, a4]⟩

theorem next_pic (v : View) (p i t : Nat) : (v.step .next).pic p i t =
    if v.active = true ∧ p = v.path ∧ t = v.now then v.autos.cur i else v.pic p i t := by
  obtain ⟨a1, a2, a3, a4, a5, a6, a7, a8, a9⟩ := autos_same v
  simp only [View.step, View.ends, View.keep, View.update, a1, a4, a5, a6]
  by_cases ha : v.active = true
  · by_cases hp : p = v.path
    · subst hp
      simp [ha]
    · simp [ha, hp, upd_other]
  · simp [ha]

theorem next_cur (v : View) (i : Nat) : (v.step .next).cur i = if (i, v.now + 1) ∈ v.closes then [] else v.autos.cur i := by
  obtain ⟨a1, a2, a3, a4, a5, a6, a7, a8, a9⟩ := autos_same v
  simp only [View.step, View.ends, View.keep, View.update, a4, a8, empties]
  by_cases h : (i, v.now + 1) ∈ v.closes
  · rw [if_pos (by
      rw [List.mem_map]
      exact ⟨(i, v.now + 1), by simp [h], rfl⟩), if_pos h]; rfl
  · rw [if_neg (by
      intro h2
      rw [List.mem_map] at h2
      obtain ⟨⟨a, b⟩, h3, h4⟩ := h2
      simp at h3 h4
      obtain ⟨h3, h5⟩ := h3
      subst h4 h5
      exact h h3), if_neg h]; rfl

theorem step_params (v : View) (op : Op) : (v.step op).auto = v.auto ∧ (v.step op).pair = v.pair ∧ (v.step op).H = v.H := by
  cases op with
  | collect j w => simp only [View.step]; split <;> exact ⟨rfl, rfl, rfl⟩
  | collectFor j w d => simp only [View.step]; split <;> exact ⟨rfl, rfl, rfl⟩
  | «initialize» j w => simp only [View.step]; split <;> exact ⟨rfl, rfl, rfl⟩
  | start is => simp only [View.step, View.begin]; split <;> exact ⟨rfl, rfl, rfl⟩
  | next =>
    simp only [View.step, View.ends, View.keep, View.update, View.autos]
    split <;> exact ⟨rfl, rfl, rfl⟩
  | _ => exact ⟨rfl, rfl, rfl⟩

theorem Legal.params {v w : View} {ops : List Op} (h : Legal v ops w) : w.auto = v.auto ∧ w.pair = v.pair ∧ w.H = v.H := by
  induction h with
  | nil v => exact ⟨rfl, rfl, rfl⟩
  | @cons v w op ops _ _ ih =>
    obtain ⟨h1, h2, h3⟩ := step_params v op
    rw [ih.1, ih.2.1, ih.2.2]
    exact ⟨h1, h2, h3⟩

/-- before the current tick nothing changes, unless the file is opened anew -/
theorem past_step (p : Nat) (v : View) (op : Op) (h : ∀ is, op = .start is → v.active = true ∨ v.path ≠ p) (i t : Nat) (ht : t < v.now) :
    (v.step op).pic p i t = v.pic p i t ∧ v.now ≤ (v.step op).now := by
  cases op with
  | collect j w => simp only [View.step]; split <;> exact ⟨rfl, Nat.le_refl _⟩
  | collectFor j w d => simp only [View.step]; split <;> exact ⟨rfl, Nat.le_refl _⟩
  | collectAll b n xs => exact ⟨rfl, Nat.le_refl _⟩
  | close j => exact ⟨rfl, Nat.le_refl _⟩
  | «initialize» j w => simp only [View.step]; split <;> exact ⟨rfl, Nat.le_refl _⟩
  | assign j x => exact ⟨rfl, Nat.le_refl _⟩
  | start is =>
    simp only [View.step, View.begin]
    split
    · exact ⟨rfl, Nat.le_refl _⟩
    · rename_i ha
      refine ⟨?_, Nat.le_refl _⟩
      show upd v.pic v.path _ p i t = _
      rw [upd_other _ _ (fun e => (h is rfl).resolve_left ha e.symm)]
  | stop is => exact ⟨rfl, Nat.le_refl _⟩
  | stopAll => exact ⟨rfl, Nat.le_refl _⟩
  | destroy =>
    refine ⟨?_, Nat.le_refl _⟩
    show upd v.pic v.path _ p i t = _
    by_cases e : p = v.path
    · subst e
      rw [upd_same, if_neg (by omega)]
    · rw [upd_other _ _ e]
  | reactivate q => exact ⟨rfl, Nat.le_refl _⟩
  | next =>
    rw [next_pic, if_neg (by omega), (next_same v).2.2.2.1]
    exact ⟨rfl, Nat.le_succ _⟩

theorem past_run (p : Nat) {v w : View} {ops : List Op} (hl : Legal v ops w) (hk : Kept p v ops) (i t : Nat) (ht : t < v.now) :
    w.pic p i t = v.pic p i t := by
  induction hl with
  | nil v => rfl
  | @cons v w op ops h _ ih =>
    have h1 := past_step p v op (fun is e => hk [] is ops (by rw [e]; rfl)) i t ht
    rw [ih ?_ (by omega), h1.1]
    intro a is b e
    exact hk (op :: a) is b (by rw [e]; rfl)

/-- `i` is collected into the file `p` -/
structure Held (i p : Nat) (v : View) : Prop where
  on : i ∈ v.on
  act : v.active = true
  path : v.path = p

theorem single_ne {i j : Nat} (h : j ≠ i) (v : View) (w : Val) : (v.update (single j w)).cur i = v.cur i := by
  simp [View.update, single, Ne.symm h]

/-- a call that does not concern `i` -/
theorem spare_step {i p : Nat} {v : View} (op : Op) (hl : v.legal op) (hs : spares i op) (hop : op ≠ .next) (h : Held i p v) :
    Held i p (v.step op) ∧ (v.step op).cur i = v.cur i ∧ (v.step op).now = v.now ∧ (v.step op).auto = v.auto ∧
      (v.step op).closes.filter (fun x => x.1 = i) = v.closes.filter (fun x => x.1 = i) ∧ (∀ t ∈ v.pend, t ∈ (v.step op).pend) := by
  obtain ⟨h1, h2, h3⟩ := h
  cases op with
  | collect j w =>
    have hs : j ≠ i := hs
    simp only [View.step]
    split
    · exact ⟨⟨h1, h2, h3⟩, single_ne hs v w, rfl, rfl, rfl, fun _ h => h⟩
    · exact ⟨⟨h1, h2, h3⟩, rfl, rfl, rfl, rfl, fun _ h => h⟩
  | collectFor j w d =>
    have hs : j ≠ i := hs
    simp only [View.step]
    split
    · refine ⟨⟨h1, h2, h3⟩, single_ne hs v w, rfl, rfl, ?_, fun _ h => h⟩
      show (v.closes ++ _).filter _ = _
      rw [List.filter_append]
      split
      · simp
      · simp [hs]
    · exact ⟨⟨h1, h2, h3⟩, rfl, rfl, rfl, rfl, fun _ h => h⟩
  | collectAll b n xs =>
    refine ⟨⟨h1, h2, h3⟩, ?_, rfl, rfl, rfl, fun _ h => h⟩
    have hs : i < b ∨ b + n ≤ i := hs
    show ((if i ∈ v.on ∧ b ≤ i ∧ i < b + n then _ else none : Option Val)).getD (v.cur i) = v.cur i
    rw [if_neg (by omega)]; rfl
  | close j => exact ⟨⟨h1, h2, h3⟩, single_ne hs v [], rfl, rfl, rfl, fun _ h => h⟩
  | «initialize» j w =>
    have hs : j ≠ i := hs
    simp only [View.step]
    split
    · exact ⟨⟨h1, h2, h3⟩, single_ne hs v w, rfl, rfl, rfl, fun _ h => h⟩
    · exact ⟨⟨h1, h2, h3⟩, rfl, rfl, rfl, rfl, fun _ h => h⟩
  | assign j x => exact ⟨⟨h1, h2, h3⟩, rfl, rfl, rfl, rfl, fun _ h => h⟩
  | start is =>
    have e : v.begin = v := by simp [View.begin, h2]
    show Held i p { v.begin with on := is ++ v.on, stale := _, pend := _ } ∧ v.begin.cur i = v.cur i ∧ v.begin.now = v.now ∧
      v.begin.auto = v.auto ∧ v.begin.closes.filter _ = _ ∧ ∀ t ∈ v.pend, t ∈ _ ++ v.pend
    rw [e]
    exact ⟨⟨List.mem_append_right _ h1, h2, h3⟩, rfl, rfl, rfl, rfl, fun _ h => List.mem_append_right _ h⟩
  | stop is =>
    have hs : i ∉ is := hs
    refine ⟨⟨?_, ?_, h3⟩, ?_, rfl, rfl, rfl, fun _ h => h⟩
    · show i ∈ v.on.filter _
      rw [List.mem_filter]; exact ⟨h1, by simp [hs]⟩
    · show v.on.any _ = true
      rw [List.any_eq_true]; exact ⟨i, h1, by simp [hs]⟩
    · show (empties is i).getD (v.cur i) = v.cur i
      simp [empties, hs]
  | stopAll => exact absurd hs id
  | destroy => exact absurd hs id
  | reactivate q =>
    have hl : v.active = false := hl
    rw [h2] at hl; cases hl
  | next => exact absurd rfl hop

/-- the value `w` up to the tick `e`, then none -/
structure Timed (i p : Nat) (w : Val) (t0 e : Nat) (v : View) : Prop where
  held : Held i p v
  auto : v.auto i = false
  le : t0 ≤ v.now
  now : v.now < e ∧ v.cur i = w ∧ v.closes.filter (fun x => x.1 = i) = [(i, e)] ∨
    e ≤ v.now ∧ v.cur i = [] ∧ v.closes.filter (fun x => x.1 = i) = []
  pic : ∀ t, t0 ≤ t → t < v.now → v.pic p i t = if t < e then w else []

theorem mem_filter_fst {l : List (Nat × Nat)} {i t : Nat} : (i, t) ∈ l ↔ (i, t) ∈ l.filter (fun x => x.1 = i) := by
  simp [List.mem_filter]

theorem Timed.step {i p t0 e : Nat} {w : Val} {v : View} (T : Timed i p w t0 e v) (op : Op) (hl : v.legal op) (hs : spares i op) :
    Timed i p w t0 e (v.step op) := by
  by_cases hop : op = .next
  · subst hop
    obtain ⟨n1, n2, n3, n4, n5, n6, n7, n8⟩ := next_same v
    have ha : v.autos.cur i = v.cur i := by rw [autos_cur, T.auto]; simp
    refine ⟨⟨by rw [n3]; exact T.held.on, by rw [n1]; exact T.held.act, by rw [n5]; exact T.held.path⟩, by rw [n6]; exact T.auto,
      by rw [n4]; exact Nat.le_succ_of_le T.le, ?_, ?_⟩
    · rw [n4, next_cur, n8, ha]
      have hf : (v.closes.filter (fun p => p.2 ≠ v.now + 1)).filter (fun x => x.1 = i) =
          (v.closes.filter (fun x => x.1 = i)).filter (fun p => p.2 ≠ v.now + 1) := by
        rw [List.filter_filter, List.filter_filter]
        apply List.filter_congr
        intro x _
        exact Bool.and_comm _ _
      rw [hf]
      simp only [mem_filter_fst (l := v.closes) (i := i)]
      rcases T.now with ⟨h1, h2, h3⟩ | ⟨h1, h2, h3⟩
      · rw [h3]
        by_cases he : e = v.now + 1
        · subst he
          right
          simp
        · left
          refine ⟨by omega, ?_, ?_⟩
          · rw [if_neg (by simp; omega)]; exact h2
          · simp [he]
      · right
        rw [h3]
        exact ⟨by omega, by simp [h2], rfl⟩
    · intro t h1 h2
      rw [next_pic, ha]
      rw [n4] at h2
      by_cases ht : t = v.now
      · rw [if_pos ⟨T.held.act, T.held.path.symm, ht⟩]
        subst ht
        rcases T.now with ⟨h3, h4, _⟩ | ⟨h3, h4, _⟩
        · rw [if_pos h3]; exact h4
        · rw [if_neg (by omega)]; exact h4
      · rw [if_neg (by omega)]
        exact T.pic t h1 (by omega)
  · obtain ⟨h1, h2, h3, h4, h5, _⟩ := spare_step op hl hs hop T.held
    refine ⟨h1, by rw [h4]; exact T.auto, by rw [h3]; exact T.le, by rw [h3, h2, h5]; exact T.now, ?_⟩
    intro t h6 h7
    rw [h3] at h7
    rw [(past_step p v op (fun is e => .inl T.held.act) i t h7).1]
    exact T.pic t h6 h7

theorem Timed.run {i p t0 e : Nat} {w : Val} {u v : View} {ops : List Op} (T : Timed i p w t0 e u) (hl : Legal u ops v)
    (hs : ∀ op ∈ ops, spares i op) : Timed i p w t0 e v := by
  induction hl with
  | nil v => exact T
  | cons h _ ih => exact ih (T.step _ h (hs _ (by simp))) (fun o ho => hs o (by simp [ho]))

/-- automatic collection of `i` goes on -/
theorem ready_run {i p : Nat} {u v : View} {ops : List Op} (hl : Legal u ops v) (hs : ∀ op ∈ ops, spares i op) (hh : Held i p u)
    (ha : u.auto i = true) (hp : u.now ∈ u.pend ∨ u.now + 1 ∈ u.pend ∧ Op.next ∈ ops) : Held i p v ∧ v.auto i = true ∧ v.now ∈ v.pend := by
  induction hl with
  | nil v =>
    refine ⟨hh, ha, ?_⟩
    rcases hp with h | ⟨_, h⟩
    · exact h
    · cases h
  | @cons v w op ops h _ ih =>
    by_cases hop : op = .next
    · subst hop
      obtain ⟨n1, n2, n3, n4, n5, n6, n7, n8⟩ := next_same v
      refine ih (fun o ho => hs o (by simp [ho])) ⟨by rw [n3]; exact hh.on, by rw [n1]; exact hh.act, by rw [n5]; exact hh.path⟩
        (by rw [n6]; exact ha) (.inl ?_)
      rw [n4]
      show v.now + 1 ∈ v.autos.pend
      simp only [View.autos]
      split
      · rename_i h1
        have : v.on.any v.auto = true := by rw [List.any_eq_true]; exact ⟨i, hh.on, ha⟩
        simp [this]
      · rename_i h1
        exact (hp.resolve_left h1).1
    · obtain ⟨h1, h2, h3, h4, h5, h6⟩ := spare_step op h (hs op (by simp)) hop hh
      refine ih (fun o ho => hs o (by simp [ho])) h1 (by rw [h4]; exact ha) ?_
      rw [h3]
      rcases hp with h7 | ⟨h7, h8⟩
      · exact .inl (h6 _ h7)
      · refine .inr ⟨h6 _ h7, ?_⟩
        rcases List.mem_cons.1 h8 with h9 | h9
        · exact absurd h9.symm hop
        · exact h9

/-- continued records -/
def Conts (s : Sys) (v : View) : Prop :=
  ∀ p, ∀ x ∈ records (s.disk p), x.cont = true → x.stop < v.now ∧ x.stop % v.H = 0 ∧ v.pic p x.loc x.stop = x.val

theorem start_records (s : Sys) (is : List Nat) (h : s.active = false) : records ((s.start is).disk s.path) = [] := by
  have key : ∀ (l : List Nat) (x : Sys), (l.foldl Sys.startOne x).disk = x.disk := by
    intro l
    induction l with
    | nil => intro x; rfl
    | cons i l ih => intro x; rw [List.foldl_cons, ih, (startOne_core x i).disk]
  simp only [Sys.start, h, key, Bool.false_eq_true, if_false, Sys.activate, upd_same, records_replicate]

theorem Conts.step {s : Sys} {v : View} (I : Inv s v) (C : Conts s v) (op : Op) (hl : v.legal op) :
    Conts (Collect.step s op).1 (v.step op) := by
  by_cases hop : op = .next
  · subst hop
    obtain ⟨s', h1, _, h2⟩ := I.next hl
    have e : (Collect.step s .next).1 = s' := by show s.next.1 = s'; rw [h1]
    rw [e]
    obtain ⟨n1, n2, n3, n4, n5, n6, n7, n8⟩ := next_same v
    intro p x hx hc
    rw [n4, n2, next_pic]
    rcases h2 p x hx hc with h3 | ⟨h3, h4, h5, h6, h7⟩
    · obtain ⟨c1, c2, c3⟩ := C p x h3 hc
      rw [if_neg (by omega)]
      exact ⟨by omega, c2, c3⟩
    · rw [if_pos ⟨h4, h3, h5⟩, h5]
      exact ⟨Nat.lt_succ_self _, h7, h6.symm⟩
  · have hsame : Same s (Collect.step s op).1 :=
      (Same.calm s).call s op hop (fun _ _ p x hx _ => hx) (fun p x hx _ => hx)
    have hH : (v.step op).H = v.H ∧ (v.step op).now = v.now := by
      cases op with
      | collect j w => simp only [View.step]; split <;> exact ⟨rfl, rfl⟩
      | collectFor j w d => simp only [View.step]; split <;> exact ⟨rfl, rfl⟩
      | «initialize» j w => simp only [View.step]; split <;> exact ⟨rfl, rfl⟩
      | start is => simp only [View.step, View.begin]; split <;> exact ⟨rfl, rfl⟩
      | next => exact absurd rfl hop
      | _ => exact ⟨rfl, rfl⟩
    intro p x hx hc
    obtain ⟨c1, c2, c3⟩ := C p x (hsame p x hx hc) hc
    rw [hH.1, hH.2]
    refine ⟨c1, c2, ?_⟩
    rw [(past_step p v op ?_ x.loc x.stop c1).1]
    · exact c3
    · intro is e
      subst e
      by_cases ha : v.active = true
      · exact .inl ha
      · right
        intro e
        obtain ⟨r, R, _⟩ := I
        have hx : x ∈ records ((s.start is).disk p) := hx
        rw [← e, ← R.path, start_records s is (by rw [R.active]; simpa using ha)] at hx
        cases hx

theorem Conts.run {s : Sys} {v w : View} {ops : List Op} (I : Inv s v) (C : Conts s v) (hl : Legal v ops w) :
    Conts (runOps Collect.step s ops).1 w := by
  induction hl generalizing s with
  | nil v => exact C
  | @cons v w op ops h _ ih =>
    obtain ⟨s1, h1, I1⟩ := I.step _ h
    have C1 := C.step I op h
    rw [h1] at C1
    have := ih I1 C1
    simpa only [runOps, h1] using this

end Sparta.Collect
