import Verif.RegView.Lemmas
namespace Sparta.RegView

theorem zeros_rel (bufs : Nat → List Nat) (n : Nat) : ORel bufs (zeros n) (.own (List.replicate n 0)) := by
  unfold zeros
  by_cases h : 8 < n
  · rw [if_pos h]
    exact ⟨by simp, by simp [SObj.size], rfl, Or.inr ⟨h, rfl, rfl⟩⟩
  · rw [if_neg h]
    exact ⟨by simp, by simp [SObj.size], rfl, Or.inl ⟨by simpa using h, rfl, by simp only [List.take_replicate]; congr 1; omega⟩⟩

theorem set_rel {m s} (R : Rel m s) (k : Nat) (d : List Nat) (hl : legal s (.set k d)) :
    Rel (m.set k d).1 (s.change k (fun v => d.take v.length ++ v.drop d.length)).1 ∧
      (m.set k d).2 = (s.change k (fun v => d.take v.length ++ v.drop d.length)).2 := by
  unfold Mem.set
  refine modify_rel R k _ _ ?_
  intro o v ho hv m1 o1 r e1 R1 h1 h2 h3 h4
  obtain ⟨x, hx, _, hn, _⟩ := R.obj ho
  have hvl := R.val_length ho hv
  rcases hl x hx with h | ⟨h5, h6, h7⟩
  · have hd : d.length ≤ o.n := by omega
    rw [if_neg (by omega), overwrite_zero]
    refine ⟨_, rfl, by simp; omega, ?_, fun _ => ?_⟩
    · rw [List.take_append, List.take_of_length_le hd, hvl, ← h2, List.drop_take, List.take_of_length_le hd]
    · rw [List.drop_append, List.drop_of_length_le hd, List.nil_append, List.drop_drop]
      congr 1; omega
  · have h8 := h4 (by omega) h7
    rw [if_neg (by omega), overwrite_zero]
    refine ⟨_, rfl, by simp; omega, ?_, fun h => ?_⟩
    · rw [List.take_append, hvl, ← h2, List.drop_take]
    · rw [h7] at h; cases h

theorem zipWith_length_eq (a b : List Nat) (h : a.length = b.length) : (List.zipWith (· ||| ·) a b).length = a.length := by
  simp [h]

theorem step_rel (m : Mem) (s : SMem) (op : Op) (R : Rel m s) (hl : legal s op) :
    Rel (step m op).1 (sstep s op).1 ∧ (step m op).2 = (sstep s op).2 := by
  cases op with
  | alloc n => exact ⟨R.add (zeros_rel _ n), rfl⟩
  | allocData n d =>
    simp only [step, sstep]
    by_cases h : n < d.length
    · rw [if_pos h, if_pos h]; exact ⟨R, rfl⟩
    · rw [if_neg h, if_neg h]
      have R1 := R.add (zeros_rel m.bufs n)
      have ho : (s.add (.own (List.replicate n 0))).objs m.next = some (.own (List.replicate n 0)) := by
        unfold SMem.add; rw [R.2.1]; exact upd_same _ _ _
      have := set_rel R1 m.next d (by
        intro o h1
        rw [ho] at h1
        injection h1 with h1
        subst h1
        left
        simp [SObj.size]
        omega)
      have e : (s.add (.own (List.replicate n 0))).change m.next (fun v => d.take v.length ++ v.drop d.length) =
          (s.add (.own (d ++ List.replicate (n - d.length) 0)), .done) := by
        unfold SMem.change SMem.val
        rw [ho]
        dsimp only
        unfold SMem.assign
        rw [ho]
        dsimp only
        unfold SMem.add
        rw [R.2.1]
        dsimp only
        rw [upd_upd, List.length_replicate, List.take_of_length_le (by omega), List.drop_replicate]
      rw [e] at this
      exact this
  | viewMut b n junk => exact ⟨R.add ⟨hl.2, rfl, rfl, rfl, by rw [R.1]; exact hl.1⟩, rfl⟩
  | viewConst b n junk => exact ⟨R.add ⟨hl.2, rfl, rfl, rfl, by rw [R.1]; exact hl.1⟩, rfl⟩
  | nil junk => exact ⟨R.add ⟨hl, rfl, rfl, rfl⟩, rfl⟩
  | copy k junk =>
    simp only [step, sstep]
    cases ho : m.objs k with
    | none => rw [R.none_iff ho]; exact ⟨R, rfl⟩
    | some o =>
      obtain ⟨x, hx, h1, h2, h3⟩ := R.obj ho
      rw [hx]
      dsimp only
      cases x with
      | gone n =>
        rw [if_neg (by rw [h3.1]; simp)]
        refine ⟨R.add ⟨?_, h2, ?_, ?_⟩, rfl⟩
        · simp only [copyOf]; split
          · exact h1
          · exact hl.1
        · simp [copyOf, h3.1]
        · simp [copyOf, h3.1, h3.2]
      | own v =>
        simp only [SObj.size] at h2
        obtain ⟨e, h4 | h4⟩ := h3
        · rw [if_neg (by omega)]
          refine ⟨R.add ⟨?_, h2, ?_, Or.inl ⟨h4.1, ?_, ?_⟩⟩, rfl⟩
          · simp only [copyOf, if_pos h4.1]; exact h1
          · simp [copyOf, ← e]
          · simp [copyOf, h4.1, h4.2.1]
          · simp [copyOf, h4.1, h4.2.2]
        · rw [if_pos ⟨h4.1, by rw [h4.2.1]; simp⟩, h4.2.1]
          simp only [region, h4.2.2]
          rw [if_neg (by omega)]
          refine ⟨R.add ⟨?_, h2, ?_, Or.inr ⟨h4.1, ?_, ?_⟩⟩, rfl⟩
          · simp only [copyOf, if_neg (show ¬ o.n ≤ 8 by omega)]; exact hl.1
          · simp [copyOf, ← e]
          · simp only [copyOf, h4.2.1]
            rw [if_neg (by omega), if_neg (by simp)]
          · simp only
            rw [List.take_of_length_le (by omega)]
      | view b n =>
        simp only [SObj.size] at h2
        rw [if_neg (by rw [h3.1]; simp)]
        refine ⟨R.add ⟨?_, h2, ?_, ?_, h3.2.2⟩, rfl⟩
        · simp only [copyOf]; split
          · exact h1
          · exact hl.1
        · simp [copyOf, h3.1]
        · simp [copyOf, h3.1, h3.2.1]
      | window b n =>
        simp only [SObj.size] at h2
        have h8 : 8 < n := hl.2 (by rw [hx]; rfl) _ hx
        rw [if_pos ⟨by omega, by rw [h3.1]; simp⟩, h3.1]
        simp only [region]
        rw [if_neg (by omega)]
        refine ⟨R.add ⟨?_, ?_, ?_, Or.inr ⟨by simp [copyOf]; omega, ?_, ?_⟩⟩, rfl⟩
        · simp only [copyOf, if_neg (show ¬ o.n ≤ 8 by omega)]; exact hl.1
        · simp only [copyOf, SObj.size, List.length_take]; rw [← R.1]; omega
        · simp [copyOf, h3.1, h3.2.1]
        · simp only [copyOf, h3.1]
          rw [if_neg (by omega), if_neg (by simp)]
        · simp only
          rw [R.1, h2]
  | move k junk =>
    simp only [step, sstep]
    cases ho : m.objs k with
    | none => rw [R.none_iff ho]; exact ⟨R, rfl⟩
    | some o =>
      obtain ⟨x, hx, h1, h2, h3⟩ := R.obj ho
      rw [hx]
      dsimp only
      have R1 := R.store (k := k) (o := moved o) (x := .gone x.size) ⟨h1, h2, rfl, rfl⟩
      refine ⟨R1.add ⟨?_, h2, ?_⟩, rfl⟩
      · simp only [moveOf]; split
        · exact h1
        · exact hl.1
      · cases x with
        | gone n => exact ⟨by simp [moveOf, h3.1], by simp [moveOf, h3.1, h3.2]⟩
        | own v =>
          simp only [SObj.size] at h2
          obtain ⟨e, h4 | h4⟩ := h3
          · refine ⟨by simp [moveOf, ← e], Or.inl ⟨h4.1, ?_, ?_⟩⟩
            · simp [moveOf, h4.1, h4.2.1]
            · simp [moveOf, h4.1, h4.2.2]
          · have h9 : ¬ o.n ≤ 8 := by omega
            refine ⟨by simp [moveOf, ← e], Or.inr ⟨h4.1, ?_, ?_⟩⟩
            · simp [moveOf, h9, h4.2.1, h4.2.2]
            · simp [moveOf, h9, h4.2.1, h4.2.2]
        | view b n =>
          exact ⟨by simp [moveOf, h3.1], by simp [moveOf, h3.1, h3.2.1], h3.2.2⟩
        | window b n => exact absurd hl.2 (by rw [hx]; simp [isWindow])
  | set k d => exact set_rel R k d hl
  | fill k x =>
    refine modify_rel R k _ _ ?_
    intro o v ho hv m1 o1 r e1 R1 h1 h2 h3 h4
    have hvl := R.val_length ho hv
    rw [if_neg (by omega), overwrite_zero, e1]
    refine ⟨_, rfl, by simp; omega, ?_, fun _ => ?_⟩
    · rw [List.take_append_of_le_length (by simp), List.take_of_length_le (by simp), hvl]
    · rw [List.drop_append_of_le_length (by simp), List.drop_of_length_le (by simp), List.nil_append, List.length_replicate]
  | orAssign k j =>
    simp only [step, sstep]
    cases hj : s.val j with
    | none =>
      -- nothing to read
      dsimp only
      cases ho : m.objs k with
      | none => unfold modify; rw [ho]; exact ⟨R, rfl⟩
      | some o =>
        cases hv : s.val k with
        | none =>
          have := modify_rel R k (fun _ _ _ => none) id (fun o v _ h => by rw [hv] at h; cases h)
          have h2 : ∀ f, modify m k f = (m, .ub) := by
            intro f
            obtain ⟨x, hx, _, _, h4⟩ := R.obj ho
            cases x with
            | gone n =>
              have : convert m o = none := by unfold convert; simp [h4.1, h4.2, region]
              unfold modify; rw [ho]; simp only [this]
            | _ => unfold SMem.val at hv; rw [hx] at hv; cases hv
          rw [h2]; exact ⟨R, rfl⟩
        | some v =>
          obtain ⟨o', e1, e2, e3, ⟨y, e4, e5, e6⟩, e7⟩ := convert_rel R ho hv
          obtain ⟨r, f1, f2, _⟩ := put_rel e3 e4 e5 e6
          have f1' : region m o' o'.loc = some r := f1
          have hjo : ∀ p, (upd m.objs k (some o')) j = some p → region { m with objs := upd m.objs k (some o') } p p.rem = none ∧ s.objs j = some (.gone p.n) := by
            intro p hp
            obtain ⟨x, hx, g1, g2, g3⟩ := e3.obj hp
            have hv' := conv_val s k j
            rw [hj] at hv'
            unfold SMem.val at hv'
            rw [hx] at hv'
            have hjk : j ≠ k := by rintro rfl; rw [hj] at hv; cases hv
            have hs : s.objs j = some x := by
              rw [← hx]; unfold SMem.conv; split
              · dsimp only; rw [upd_other _ _ hjk]
              · rfl
            cases x with
            | gone n => simp only [SObj.size] at g2; exact ⟨by rw [g3.2]; rfl, by rw [hs, g2]⟩
            | _ => cases hv'
          unfold modify
          rw [ho]
          simp only [e1, f1']
          by_cases hc : 8 < o'.n ∧ o'.n % 8 ≠ 0
          · rw [if_pos hc]; exact ⟨R, rfl⟩
          · rw [if_neg hc]
            cases hp : upd m.objs k (some o') j with
            | none =>
              obtain ⟨x, hx, _, hn, _⟩ := R.obj ho
              obtain ⟨w1, _⟩ := hl x hx
              rw [if_neg (by omega)]; exact ⟨R, rfl⟩
            | some p =>
              obtain ⟨q1, q2⟩ := hjo p hp
              obtain ⟨x, hx, _, hn, _⟩ := R.obj ho
              obtain ⟨w2, w1⟩ := hl x hx
              rw [if_neg (by omega)]
              dsimp only
              rw [q1]; exact ⟨R, rfl⟩
    | some w =>
      dsimp only
      refine modify_rel R k _ _ ?_
      intro o v ho hv m1 o1 r e1 R1 h1 h2 h3 h4
      obtain ⟨x, hx, _, hn, _⟩ := R.obj ho
      cases hpj : m.objs j with
      | none => rw [R.val_none hpj] at hj; cases hj
      | some p =>
        obtain ⟨y, hy, _, hn2, _⟩ := R.obj hpj
        obtain ⟨w2, w1⟩ := hl x hx
        have w1 := w1 y hy
        have hwl := R.val_length hpj hj
        rw [if_neg (by omega), if_neg (by omega)]
        have hv1 : (s.conv k).val j = some w := by rw [conv_val, hj]
        cases hp1 : m1.objs j with
        | none => rw [R1.val_none hp1] at hv1; cases hv1
        | some p1 =>
          have hl1 := R1.val_length hp1 hv1
          rw [← R1.shows hp1] at hv1
          unfold value at hv1
          dsimp only
          cases hq : region m1 p1 p1.rem with
          | none => rw [hq] at hv1; cases hv1
          | some q =>
            rw [hq] at hv1
            dsimp only at hv1 ⊢
            by_cases hq1 : q.length < p1.n
            · rw [if_pos hq1] at hv1; cases hv1
            · rw [if_neg hq1] at hv1
              injection hv1 with hv1
              have hvl := R.val_length ho hv
              have hz : (List.zipWith (· ||| ·) v w).length = o.n := by rw [zipWith_length_eq _ _ (by omega), hvl]
              rw [if_neg (by omega), e1, h2, show q.take o.n = w by rw [← hv1]; congr 1; omega, overwrite_zero]
              refine ⟨_, rfl, by rw [List.length_append, List.length_drop, hz]; omega, ?_, fun _ => ?_⟩
              · rw [List.take_append_of_le_length (by omega), List.take_of_length_le (by omega)]
              · rw [List.drop_append_of_le_length (by omega), List.drop_of_length_le (by omega), List.nil_append, hz]
  | poke k i x =>
    refine modify_rel R k _ _ ?_
    intro o v ho hv m1 o1 r e1 R1 h1 h2 h3 h4
    obtain ⟨y, hy, _, hn, _⟩ := R.obj ho
    have hi := hl y hy
    have hvl := R.val_length ho hv
    have e : overwrite r i [x] = r.set i x := by
      rw [List.set_eq_take_append_cons_drop, if_pos (by omega)]
      simp [overwrite]
    rw [if_neg (by omega), e]
    refine ⟨_, rfl, by simp, ?_, fun _ => ?_⟩
    · rw [List.take_set, h2]
    · rw [List.drop_set, if_pos (by omega)]
  | get k =>
    simp only [step, sstep]
    cases ho : m.objs k with
    | none => rw [R.val_none ho]; exact ⟨R, rfl⟩
    | some o => dsimp only; rw [R.shows ho]; cases s.val k <;> exact ⟨R, rfl⟩
  | size k =>
    simp only [step, sstep]
    cases ho : m.objs k with
    | none => rw [R.none_iff ho]; exact ⟨R, rfl⟩
    | some o =>
      obtain ⟨x, hx, _, hn, _⟩ := R.obj ho
      rw [hx]; dsimp only; rw [hn]; exact ⟨R, rfl⟩
  | equal k j =>
    simp only [step, sstep]
    obtain ⟨h1, h2⟩ := hl
    cases ho : m.objs k with
    | none => rw [R.val_none ho] at h1; cases h1
    | some o =>
      cases hp : m.objs j with
      | none => rw [R.val_none hp] at h2; cases h2
      | some p =>
        dsimp only
        rw [R.shows ho, R.shows hp]
        cases hv : s.val k with
        | none => rw [hv] at h1; cases h1
        | some v =>
          cases hw : s.val j with
          | none => rw [hw] at h2; cases h2
          | some w =>
            have l1 := R.val_length ho hv
            have l2 := R.val_length hp hw
            dsimp only
            by_cases he : o.n ≠ p.n
            · rw [if_pos he]
              refine ⟨R, ?_⟩
              have : v ≠ w := by rintro rfl; omega
              simp [this]
            · rw [if_neg he]; exact ⟨R, rfl⟩
  | pokeBuf b i x =>
    simp only [step, sstep]
    rw [R.1]
    by_cases h : (s.bufs b).length ≤ i
    · rw [if_pos h, if_pos h]; exact ⟨R, rfl⟩
    · rw [if_neg h, if_neg h]
      have e : overwrite (s.bufs b) i [x] = (s.bufs b).set i x := by
        rw [List.set_eq_take_append_cons_drop, if_pos (by omega)]
        simp [overwrite]
      rw [e]
      refine ⟨⟨rfl, R.2.1, fun k => ?_⟩, rfl⟩
      refine (R.2.2 k).bufs ?_
      intro c
      show (m.bufs c).length = (upd s.bufs b _ c).length
      rw [R.1]
      by_cases hc : c = b
      · subst hc; rw [upd_same, List.length_set]
      · rw [upd_other _ _ hc]
  | getBuf b => exact ⟨R, by simp only [step, sstep]; rw [R.1]⟩

end Sparta.RegView
