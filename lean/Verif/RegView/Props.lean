import Verif.RegView.Sim
/-! C228 - C230: views, copies and moves of `RegisterBits` -/
namespace Sparta.RegView

/-- after some calls -/
def after (bufs : Nat → List Nat) (ops : List Op) : Mem := (runOps step (init bufs) ops).1

theorem after_rel (bufs : Nat → List Nat) (ops : List Op) (hl : legalOps sstep legal (sinit bufs) ops) :
    Rel (after bufs ops) (runOps sstep (sinit bufs) ops).1 ∧ (runOps step (init bufs) ops).2 = (runOps sstep (sinit bufs) ops).2 :=
  runOps_simulation_legal step sstep legal Rel (fun m s o R h => step_rel m s o R h) (init bufs) (sinit bufs) ⟨rfl, rfl, fun _ => trivial⟩ ops hl

/-- two buffers: sixteen bytes and four bytes -/
def demoBufs : Nat → List Nat
  | 0 => [1, 2, 3, 4, 5, 6, 7, 8, 9, 10, 11, 12, 13, 14, 15, 16]
  | _ => [20, 21, 22, 23]

def junk : List Nat := [90, 91, 92, 93, 94, 95, 96, 97]

/-! ### C228 -/

/-- For all buffers and all sequences of legal calls all results are those of the description: objects with own values, views that get an
own value when they are first written, and windows that write the data.  Missing: copies of windows of up to 8 bytes, and moves of
windows. -/
theorem C228_refines_partial (bufs : Nat → List Nat) (ops : List Op) (hl : legalOps sstep legal (sinit bufs) ops) :
    (runOps step (init bufs) ops).2 = (runOps sstep (sinit bufs) ops).2 := (after_rel bufs ops hl).2

/-- a view is written; the data changes; both are seen -/
def demo : List Op :=
  [.viewConst 0 4 junk, .pokeBuf 0 1 77, .get 0, .copy 0 junk, .set 0 [5, 6], .pokeBuf 0 2 78, .get 0, .get 1, .viewMut 0 16 junk, .copy 2 junk, .fill 2 9,
    .get 3, .getBuf 0, .move 3 junk, .size 3, .allocData 4 [1], .orAssign 5 1, .get 5, .equal 0 1]

theorem demo_legal : legalOps sstep legal (sinit demoBufs) demo := by
  simp [demo, legalOps, legal, sstep, sinit, SMem.add, SMem.val, SMem.change, SMem.assign, SObj.size, upd, demoBufs, junk, isWindow]

example : (runOps step (init demoBufs) demo).2 =
    [.done, .done, .bytes [1, 77, 3, 4], .done, .done, .done, .bytes [5, 6, 3, 4], .bytes [1, 77, 78, 4], .done, .done, .done,
      .bytes [1, 77, 78, 4, 5, 6, 7, 8, 9, 10, 11, 12, 13, 14, 15, 16], .bytes (List.replicate 16 9), .done, .num 16, .done, .done, .bytes [9, 9, 9, 9], .bool false] := by
  rw [C228_refines_partial _ _ demo_legal]
  decide

/-- the calls that make `b` writable, or write it -/
def touches (b : Nat) : Op → Bool
  | .viewMut c _ _ => c == b
  | .pokeBuf c _ _ => c == b
  | _ => false

theorem modify_bufs (b : Nat) (m : Mem) (k : Nat) (f : Mem → Obj → List Nat → Option (List Nat)) (h : ∀ j o, m.objs j = some o → o.loc ≠ .ext b) :
    (modify m k f).1.bufs b = m.bufs b ∧ ∀ j o, (modify m k f).1.objs j = some o → o.loc ≠ .ext b := by
  unfold modify
  cases ho : m.objs k with
  | none => exact ⟨rfl, h⟩
  | some o =>
    dsimp only
    cases hc : convert m o with
    | none => exact ⟨rfl, h⟩
    | some o' =>
      have hne : o'.loc ≠ .ext b := by
        unfold convert at hc
        split at hc
        · injection hc with e; rw [← e]; exact h k o ho
        · split at hc
          · cases hc
          · split at hc
            · cases hc
            · split at hc <;> (injection hc with e; rw [← e]; simp)
      dsimp only
      cases region m o' o'.loc with
      | none => exact ⟨rfl, h⟩
      | some r =>
        dsimp only
        cases f { m with objs := upd m.objs k (some o') } o' r with
        | none => exact ⟨rfl, h⟩
        | some r' =>
          dsimp only
          have key : ∀ x : Obj, x.loc ≠ .ext b → ∀ j o, upd m.objs k (some x) j = some o → o.loc ≠ .ext b := by
            intro x hx j o hj
            by_cases e : j = k
            · subst e; rw [upd_same] at hj; injection hj with hj; rw [← hj]; exact hx
            · rw [upd_other _ _ e] at hj; exact h j o hj
          unfold put
          cases hl : o'.loc with
          | null => exact ⟨rfl, h⟩
          | ext c =>
            have hbc : b ≠ c := by rintro rfl; exact hne hl
            exact ⟨upd_other _ _ hbc, key _ hne⟩
          | store => exact ⟨rfl, key _ (by simp)⟩
          | alt => exact ⟨rfl, key _ (by simp)⟩

theorem add_loc (b : Nat) (m : Mem) (x : Obj) (h : ∀ j o, m.objs j = some o → o.loc ≠ .ext b) (hx : x.loc ≠ .ext b) :
    ∀ j o, (m.add x).objs j = some o → o.loc ≠ .ext b := by
  intro j o hj
  unfold Mem.add at hj
  dsimp only at hj
  by_cases e : j = m.next
  · subst e; rw [upd_same] at hj; injection hj with hj; rw [← hj]; exact hx
  · rw [upd_other _ _ e] at hj; exact h j o hj

theorem step_bufs (b : Nat) (m : Mem) (op : Op) (ht : touches b op = false) (h : ∀ j o, m.objs j = some o → o.loc ≠ .ext b) :
    (step m op).1.bufs b = m.bufs b ∧ ∀ j o, (step m op).1.objs j = some o → o.loc ≠ .ext b := by
  cases op with
  | alloc n => exact ⟨rfl, add_loc b m _ h (by unfold zeros; split <;> simp)⟩
  | allocData n d =>
    simp only [step]
    split
    · exact ⟨rfl, h⟩
    · exact modify_bufs b (m.add (zeros n)) _ _ (add_loc b m _ h (by unfold zeros; split <;> simp))
  | viewMut c n j =>
    simp only [touches, beq_eq_false_iff_ne] at ht
    exact ⟨rfl, add_loc b m _ h (by simpa using ht)⟩
  | viewConst c n j => exact ⟨rfl, add_loc b m _ h (by simp)⟩
  | nil j => exact ⟨rfl, add_loc b m _ h (by simp)⟩
  | copy k j =>
    simp only [step]
    cases m.objs k with
    | none => exact ⟨rfl, h⟩
    | some o =>
      have hp : (copyOf o j).loc ≠ .ext b := by unfold copyOf; dsimp only; repeat' split; all_goals simp
      dsimp only
      split
      · split
        · exact ⟨rfl, h⟩
        · split
          · exact ⟨rfl, h⟩
          · exact ⟨rfl, add_loc b m _ h hp⟩
      · exact ⟨rfl, add_loc b m _ h hp⟩
  | move k j =>
    simp only [step]
    cases m.objs k with
    | none => exact ⟨rfl, h⟩
    | some o =>
      have hp : (moveOf o j).loc ≠ .ext b := by 
        unfold moveOf
        dsimp only
        by_cases h1 : o.n ≤ 8 <;> by_cases h2 : o.loc = .null <;> by_cases h3 : o.alt = none <;> simp [h1, h2, h3]
      refine ⟨rfl, add_loc b _ _ ?_ hp⟩
      intro i x hi
      dsimp only at hi
      by_cases e : i = k
      · subst e; rw [upd_same] at hi; injection hi with hi; rw [← hi]; simp [moved]
      · rw [upd_other _ _ e] at hi; exact h i x hi
  | set k d => exact modify_bufs b m _ _ h
  | fill k v => exact modify_bufs b m _ _ h
  | orAssign k j => exact modify_bufs b m _ _ h
  | poke k i v => exact modify_bufs b m _ _ h
  | get k =>
    simp only [step]
    repeat' split
    all_goals exact ⟨rfl, h⟩
  | size k =>
    simp only [step]
    split <;> exact ⟨rfl, h⟩
  | equal k j =>
    simp only [step]
    repeat' split
    all_goals exact ⟨rfl, h⟩
  | pokeBuf c i v =>
    simp only [touches, beq_eq_false_iff_ne] at ht
    simp only [step]
    split
    · exact ⟨rfl, h⟩
    · exact ⟨upd_other _ _ (Ne.symm ht), h⟩
  | getBuf c => exact ⟨rfl, h⟩

/-- Data that was only handed over as constant is never changed by an object, whatever is called. -/
theorem C228_constant_data (bufs : Nat → List Nat) (b : Nat) (ops : List Op) (ht : ∀ op ∈ ops, touches b op = false) :
    (after bufs ops).bufs b = bufs b := by
  suffices ∀ m : Mem, (∀ j o, m.objs j = some o → o.loc ≠ .ext b) → (runOps step m ops).1.bufs b = m.bufs b from
    this (init bufs) (fun _ _ h => by cases h)
  induction ops with
  | nil => intro m _; rfl
  | cons op ops ih =>
    intro m h
    obtain ⟨h1, h2⟩ := step_bufs b m op (ht op (by simp)) h
    show (runOps step (step m op).1 ops).1.bufs b = _
    rw [ih (fun o ho => ht o (by simp [ho])) _ h2, h1]

example : (after demoBufs [.viewConst 1 4 junk, .set 0 [1, 2], .poke 0 3 5, .copy 0 junk, .fill 1 0]).bufs 1 = [20, 21, 22, 23] :=
  C228_constant_data demoBufs 1 _ (by decide)

/-- Violated: "The class will view into this data until it's requested to modify it. When it's modified, the data will be copied": data
that was handed over by a pointer that is not constant is changed in place. -/
theorem C228_in_place_violated : (runOps step (init demoBufs) [.viewMut 1 4 junk, .set 0 [1, 2], .getBuf 1]).2 = [.done, .done, .bytes [1, 2, 22, 23]] := by
  decide

/-- Violated: setting more bytes than the object has changes the data that follows. -/
theorem C228_wide_violated : (runOps step (init demoBufs) [.viewMut 0 4 junk, .set 0 [0, 0, 0, 0, 0, 0, 0, 0], .getBuf 0]).2 =
    [.done, .done, .bytes [0, 0, 0, 0, 0, 0, 0, 0, 9, 10, 11, 12, 13, 14, 15, 16]] := by
  decide

/-! ### C229 -/

/-- the calls that write an object -/
def writes (k : Nat) : Op → Bool
  | .set j _ => j == k
  | .fill j _ => j == k
  | .orAssign j _ => j == k
  | .poke j _ _ => j == k
  | .move j _ => j == k
  | _ => false

/-- objects get new numbers -/
def Fresh (m : Mem) : Prop := ∀ k, m.next ≤ k → m.objs k = none

theorem modify_frame (m : Mem) (k : Nat) (f : Mem → Obj → List Nat → Option (List Nat)) :
    (modify m k f).1.next = m.next ∧ (∀ j, j ≠ k → (modify m k f).1.objs j = m.objs j) ∧ ((m.objs k).isSome = false → (modify m k f).1.objs k = m.objs k) := by
  unfold modify
  cases ho : m.objs k with
  | none => simp [ho]
  | some o =>
    dsimp only
    refine ⟨?_, ?_, fun h => by cases h⟩
    · repeat' split
      all_goals first | rfl | (unfold put; split <;> rfl)
    · intro j hj
      repeat' split
      all_goals first | rfl | (unfold put; split <;> first | rfl | exact upd_other _ _ hj)

theorem modify_fresh (m : Mem) (F : Fresh m) (k : Nat) (f : Mem → Obj → List Nat → Option (List Nat)) : Fresh (modify m k f).1 := by
  obtain ⟨h1, h2, h3⟩ := modify_frame m k f
  intro j hj
  rw [h1] at hj
  by_cases e : j = k
  · subst e; rw [h3 (by rw [F j hj]; rfl), F j hj]
  · rw [h2 j e, F j hj]

theorem add_fresh (m : Mem) (F : Fresh m) (o : Obj) : Fresh (m.add o) := by
  intro k hk
  simp only [Mem.add] at hk ⊢
  rw [upd_other _ _ (by omega)]
  exact F k (by omega)

theorem add_old (m : Mem) (F : Fresh m) (o : Obj) {k x} (h : m.objs k = some x) : (m.add o).objs k = some x := by
  have : k ≠ m.next := by rintro rfl; rw [F _ (Nat.le_refl _)] at h; cases h
  simp only [Mem.add]
  rw [upd_other _ _ this, h]

theorem step_frame (m : Mem) (F : Fresh m) (op : Op) :
    Fresh (step m op).1 ∧ ∀ k x, writes k op = false → m.objs k = some x → (step m op).1.objs k = some x := by
  have hmod : ∀ k f, (∀ j x, (k == j) = false → m.objs j = some x → (modify m k f).1.objs j = some x) := by
    intro k f j x hj hx
    rw [(modify_frame m k f).2.1 j (by rintro rfl; simp at hj), hx]
  cases op with
  | alloc n => exact ⟨add_fresh m F _, fun k x _ h => add_old m F _ h⟩
  | allocData n d =>
    simp only [step]
    split
    · exact ⟨F, fun k x _ h => h⟩
    · refine ⟨modify_fresh _ (add_fresh m F _) _ _, fun k x _ h => ?_⟩
      have hk : k ≠ m.next := by rintro rfl; rw [F _ (Nat.le_refl _)] at h; cases h
      unfold Mem.set
      rw [(modify_frame _ m.next _).2.1 k hk]
      exact add_old m F _ h
  | viewMut b n j => exact ⟨add_fresh m F _, fun k x _ h => add_old m F _ h⟩
  | viewConst b n j => exact ⟨add_fresh m F _, fun k x _ h => add_old m F _ h⟩
  | nil j => exact ⟨add_fresh m F _, fun k x _ h => add_old m F _ h⟩
  | copy i j =>
    simp only [step]
    repeat' split
    all_goals first | exact ⟨F, fun k x _ h => h⟩ | exact ⟨add_fresh m F _, fun k x _ h => add_old m F _ h⟩
  | move i j =>
    simp only [step]
    split
    · exact ⟨F, fun k x _ h => h⟩
    · rename_i o ho
      have F1 : Fresh { m with objs := upd m.objs i (some (moved o)) } := by
        intro k hk
        have : k ≠ i := by rintro rfl; rw [F _ hk] at ho; cases ho
        show upd _ _ _ k = none
        rw [upd_other _ _ this]
        exact F k hk
      refine ⟨add_fresh _ F1 _, fun k x hw h => add_old _ F1 _ ?_⟩
      show upd _ _ _ k = some x
      rw [upd_other _ _ (by rintro rfl; simp [writes] at hw), h]
  | set i d => exact ⟨modify_fresh m F _ _, fun k x hw h => hmod i _ k x hw h⟩
  | fill i d => exact ⟨modify_fresh m F _ _, fun k x hw h => hmod i _ k x hw h⟩
  | orAssign i j => exact ⟨modify_fresh m F _ _, fun k x hw h => hmod i _ k x hw h⟩
  | poke i d v => exact ⟨modify_fresh m F _ _, fun k x hw h => hmod i _ k x hw h⟩
  | get i =>
    simp only [step]
    repeat' split
    all_goals exact ⟨F, fun k x _ h => h⟩
  | size i =>
    simp only [step]
    split <;> exact ⟨F, fun k x _ h => h⟩
  | equal i j =>
    simp only [step]
    repeat' split
    all_goals exact ⟨F, fun k x _ h => h⟩
  | pokeBuf b i v =>
    simp only [step]
    split
    · exact ⟨F, fun k x _ h => h⟩
    · exact ⟨F, fun k x _ h => h⟩
  | getBuf b => exact ⟨F, fun k x _ h => h⟩

theorem run_frame (m : Mem) (F : Fresh m) (ops : List Op) :
    Fresh (runOps step m ops).1 ∧ ∀ k x, (∀ op ∈ ops, writes k op = false) → m.objs k = some x → (runOps step m ops).1.objs k = some x := by
  induction ops generalizing m with
  | nil => exact ⟨F, fun k x _ h => h⟩
  | cons op ops ih =>
    obtain ⟨h1, h2⟩ := step_frame m F op
    obtain ⟨h3, h4⟩ := ih _ h1
    exact ⟨h3, fun k x hw h => h4 k x (fun o ho => hw o (by simp [ho])) (h2 k x (hw op (by simp)) h)⟩

theorem init_fresh (bufs : Nat → List Nat) : Fresh (init bufs) := fun _ _ => rfl

/-- A copy shows what the original shows, and the original still shows it.  Missing: windows of up to 8 bytes. -/
theorem C229_copy_partial (bufs : Nat → List Nat) (ops : List Op) (k : Nat) (jk : List Nat) (hl : legalOps sstep legal (sinit bufs) (ops ++ [.copy k jk]))
    (v : List Nat) (hv : (step (after bufs ops) (.get k)).2 = .bytes v) :
    (step (after bufs ops) (.copy k jk)).2 = .done ∧ (step (step (after bufs ops) (.copy k jk)).1 (.get (after bufs ops).next)).2 = .bytes v ∧
      (step (step (after bufs ops) (.copy k jk)).1 (.get k)).2 = .bytes v := by
  have hsplit : ∀ (s : SMem) (a b : List Op), legalOps sstep legal s (a ++ b) → legalOps sstep legal s a ∧ legalOps sstep legal (runOps sstep s a).1 b := by
    intro s a b
    induction a generalizing s with
    | nil => intro h; exact ⟨trivial, h⟩
    | cons o a ih => intro h; obtain ⟨h1, h2⟩ := ih _ h.2; exact ⟨⟨h.1, h1⟩, h2⟩
  obtain ⟨l1, l2, _⟩ := hsplit _ _ _ hl
  obtain ⟨R, _⟩ := after_rel bufs ops l1
  generalize (runOps sstep (sinit bufs) ops).1 = s at *
  have F : Fresh (after bufs ops) := (run_frame _ (init_fresh bufs) ops).1
  generalize after bufs ops = m at *
  obtain ⟨R1, e1⟩ := step_rel m s _ R l2
  have hget : ∀ (m : Mem) (s : SMem) (k : Nat), Rel m s → (step m (.get k)).2 = .bytes v → s.val k = some v := by
    intro m s k R h
    rw [(step_rel m s (.get k) R trivial).2] at h
    simp only [sstep] at h
    cases e : s.val k with
    | none => rw [e] at h; cases h
    | some w => rw [e] at h; injection h with h; rw [h]
  have hget' : ∀ (m : Mem) (s : SMem) (k : Nat), Rel m s → s.val k = some v → (step m (.get k)).2 = .bytes v := by
    intro m s k R h
    rw [(step_rel m s (.get k) R trivial).2]
    simp only [sstep, h]
  have hval := hget m s k R hv
  have hk : k ≠ s.next := by
    rintro rfl
    have := R.none_iff (F s.next (by rw [R.2.1]; exact Nat.le_refl _))
    unfold SMem.val at hval
    rw [this] at hval
    cases hval
  have hs : (sstep s (.copy k jk)).2 = .done ∧ (sstep s (.copy k jk)).1.val s.next = some v ∧ (sstep s (.copy k jk)).1.val k = some v := by
    have hadd : ∀ x, (s.add x).val k = s.val k := by
      intro x
      unfold SMem.add SMem.val
      dsimp only
      rw [upd_other _ _ hk]
    simp only [sstep]
    cases hx : s.objs k with
    | none => unfold SMem.val at hval; rw [hx] at hval; cases hval
    | some x =>
      have hnew : (s.add x).val s.next = s.val k := by
        unfold SMem.add SMem.val
        dsimp only
        rw [upd_same, hx]
      cases x with
      | window b n =>
        refine ⟨rfl, ?_, by rw [hadd]; exact hval⟩
        unfold SMem.val at hval ⊢
        rw [hx] at hval
        unfold SMem.add
        dsimp only
        rw [upd_same]
        exact hval
      | _ => exact ⟨rfl, by rw [hnew]; exact hval, by rw [hadd]; exact hval⟩
  refine ⟨by rw [e1]; exact hs.1, ?_, hget' _ _ _ R1 hs.2.2⟩
  rw [R.2.1]
  exact hget' _ _ _ R1 hs.2.1

/-- An object with a value of its own (made with a size, copied from such an object, or written after it was made from constant data)
shows this value until it is written itself: no write to another object, to its copies or to any data changes it. -/
theorem C229_independent (bufs : Nat → List Nat) (ops more : List Op) (k : Nat) (v : List Nat) (hl : legalOps sstep legal (sinit bufs) ops)
    (hv : (runOps sstep (sinit bufs) ops).1.objs k = some (.own v)) (hw : ∀ op ∈ more, writes k op = false) :
    (step (after bufs (ops ++ more)) (.get k)).2 = .bytes v := by
  obtain ⟨R, _⟩ := after_rel bufs ops hl
  have F : Fresh (after bufs ops) := (run_frame _ (init_fresh bufs) ops).1
  have e : after bufs (ops ++ more) = (runOps step (after bufs ops) more).1 := runOps_append step _ _ _
  rw [e]
  generalize after bufs ops = m at *
  cases ho : m.objs k with
  | none => rw [R.none_iff ho] at hv; cases hv
  | some o =>
    obtain ⟨x, hx, r1, r2, r3⟩ := R.obj ho
    rw [hv] at hx
    injection hx with hx
    subst hx
    have h2 := (run_frame m F more).2 k o hw ho
    have h3 := R.shows ho
    unfold SMem.val at h3
    rw [hv] at h3
    have h4 : value (runOps step m more).1 o = value m o := by
      obtain ⟨e, h4 | h4⟩ := r3
      · unfold value; rw [← e, h4.2.1]; rfl
      · unfold value; rw [← e, h4.2.1]; rfl
    simp only [step, h2, h4, h3]

example : (step (after demoBufs ([.viewConst 1 4 junk, .copy 0 junk, .fill 1 3] ++ [.pokeBuf 1 0 9, .copy 1 junk, .fill 2 4, .move 2 junk, .set 3 [1, 1]])) (.get 1)).2 =
    .bytes [3, 3, 3, 3] :=
  C229_independent demoBufs _ _ 1 [3, 3, 3, 3] (by simp [legalOps, legal, sstep, sinit, SMem.add, SMem.val, SMem.change, SMem.assign, SObj.size, upd, demoBufs, junk, isWindow]) (by decide) (by decide)

example : (step (after demoBufs [.viewMut 0 16 junk]) (.get 0)).2 = .bytes (demoBufs 0) ∧
    legalOps sstep legal (sinit demoBufs) ([.viewMut 0 16 junk] ++ [.copy 0 junk]) :=
  ⟨by decide, by simp [legalOps, legal, sstep, sinit, SMem.add, SObj.size, upd, demoBufs, junk, isWindow]⟩

/-- Violated: a copy of an object that works on up to 8 bytes of data shows what was in memory before, not the data. -/
theorem C229_window_violated : (runOps step (init demoBufs) [.viewMut 1 4 junk, .get 0, .copy 0 junk, .get 1, .equal 0 1]).2 =
    [.done, .bytes [20, 21, 22, 23], .done, .bytes [90, 91, 92, 93], .bool false] := by decide

/-! ### C230 -/

/-- The new object shows what the original showed; the original has nothing any more but keeps its size.  Missing: windows. -/
theorem C230_move_partial (bufs : Nat → List Nat) (ops : List Op) (k : Nat) (jk : List Nat) (hl : legalOps sstep legal (sinit bufs) ops)
    (hw : isWindow ((runOps sstep (sinit bufs) ops).1.objs k) = false) (hj : jk.length = 8)
    (v : List Nat) (hv : (step (after bufs ops) (.get k)).2 = .bytes v) :
    (step (after bufs ops) (.move k jk)).2 = .done ∧ (step (step (after bufs ops) (.move k jk)).1 (.get (after bufs ops).next)).2 = .bytes v ∧
      (step (step (after bufs ops) (.move k jk)).1 (.get k)).2 = .ub ∧ (step (step (after bufs ops) (.move k jk)).1 (.size k)).2 = .num v.length := by
  obtain ⟨R, _⟩ := after_rel bufs ops hl
  generalize (runOps sstep (sinit bufs) ops).1 = s at *
  have F : Fresh (after bufs ops) := (run_frame _ (init_fresh bufs) ops).1
  generalize after bufs ops = m at *
  obtain ⟨R1, e1⟩ := step_rel m s (.move k jk) R ⟨hj, hw⟩
  cases ho : m.objs k with
  | none => simp [step, ho] at hv
  | some o =>
    have hval : s.val k = some v := by
      rw [← R.shows ho]
      simp only [step, ho] at hv
      cases e : value m o with
      | none => rw [e] at hv; cases hv
      | some w => rw [e] at hv; injection hv with h; rw [h]
    have hlen := R.val_length ho hval
    obtain ⟨x, hx, _, hn, _⟩ := R.obj ho
    have hk : k ≠ s.next := by
      rintro rfl
      rw [F s.next (by rw [R.2.1]; exact Nat.le_refl _)] at ho
      cases ho
    have hs : sstep s (.move k jk) = (({ s with objs := upd s.objs k (some (.gone x.size)) }).add x, .done) := by
      simp only [sstep, hx]
    rw [hs] at R1 e1
    refine ⟨e1, ?_, ?_, ?_⟩
    · rw [(step_rel _ _ (.get m.next) R1 trivial).2, R.2.1]
      have : (SMem.add { s with objs := upd s.objs k (some (.gone x.size)) } x).val s.next = some v := by
        rw [← hval]
        unfold SMem.val SMem.add
        dsimp only
        rw [upd_same, hx]
      simp only [sstep, this]
    · rw [(step_rel _ _ (.get k) R1 trivial).2]
      have : (SMem.add { s with objs := upd s.objs k (some (.gone x.size)) } x).val k = none := by
        unfold SMem.val SMem.add
        dsimp only
        rw [upd_other _ _ hk, upd_same]
      simp only [sstep, this]
    · rw [(step_rel _ _ (.size k) R1 trivial).2]
      have : (SMem.add { s with objs := upd s.objs k (some (.gone x.size)) } x).objs k = some (.gone x.size) := by
        unfold SMem.add
        dsimp only
        rw [upd_other _ _ hk, upd_same]
      simp only [sstep, this]
      rw [hlen, hn]
      rfl

example : legalOps sstep legal (sinit demoBufs) [.allocData 16 [1, 2, 3]] ∧ isWindow ((runOps sstep (sinit demoBufs) [.allocData 16 [1, 2, 3]]).1.objs 0) = false ∧
    (step (after demoBufs [.allocData 16 [1, 2, 3]]) (.get 0)).2 = .bytes ([1, 2, 3] ++ List.replicate 13 0) :=
  ⟨⟨trivial, trivial⟩, by decide, by decide⟩

/-- Violated: an object that works on data loses it when it is moved: with more than 8 bytes there is nothing to read, otherwise the new
object shows what was in memory before. -/
theorem C230_window_violated :
    (runOps step (init demoBufs) [.viewMut 0 16 junk, .move 0 junk, .get 1]).2 = [.done, .done, .ub] ∧
    (runOps step (init demoBufs) [.viewMut 1 4 junk, .move 0 junk, .get 1]).2 = [.done, .done, .bytes [90, 91, 92, 93]] := by decide

end Sparta.RegView
