import Verif.Argos.Bytes
/-! What the files hold after some transactions and indexes were written. -/
namespace Sparta.Argos

/-- the lines of the text files -/
structure Log where
  maps : List (Nat × Nat)
  kinds : List (Nat × List Field)
  strs : List ((Nat × Nat × Nat) × Text)

def mapText (p : Nat × Nat) : Text := dec p.1 ++ [dec p.2].flatMap (fun x => 58 :: x)

def Field.tokens (f : Field) : List Text := [f.name, if f.num then dec f.size else dec 0, if f.num then dec 0 else dec 1]

def dataText (p : Nat × List Field) : Text := dec p.1 ++ (dec p.2.length :: p.2.flatMap Field.tokens).flatMap (fun x => 58 :: x)

def dispText (p : Nat × List Field) : Text := dec p.1 ++ (p.2.map (fun f => dec f.fmt)).flatMap (fun x => 58 :: x)

def strText (p : (Nat × Nat × Nat) × Text) : Text := dec p.1.1 ++ [dec p.1.2.1, dec p.1.2.2, p.2].flatMap (fun x => 58 :: x)

structure Wrote (S : Schema) (o : Out) (L : Log) : Prop where
  map : o.files.map = L.maps.flatMap (fun x => mapText x ++ [10])
  data : o.files.data = L.kinds.flatMap (fun x => dataText x ++ [10])
  disp : o.files.disp = L.kinds.flatMap (fun x => dispText x ++ [10])
  strs : o.files.strs = L.strs.flatMap (fun x => strText x ++ [10])
  locs : o.st.locs = L.maps.map Prod.fst
  pids : o.st.pids = L.kinds.map Prod.fst
  keys : o.st.keys = L.strs.map Prod.fst
  nd1 : (L.maps.map Prod.fst).Nodup
  nd2 : (L.kinds.map Prod.fst).Nodup
  nd3 : (L.strs.map Prod.fst).Nodup
  kind : ∀ p ∈ L.maps, p.2 = S.kind p.1
  shape : ∀ p ∈ L.kinds, p.2.map Field.shape = S.shape p.1 ∧ ∀ f ∈ p.2, plainText f.name
  label : ∀ p ∈ L.strs, p.2 = S.label p.1.1 p.1.2.1 p.1.2.2 ∧ plainText p.2

theorem nodup_snoc {α : Type} (l : List α) (a : α) (hn : l.Nodup) (h : a ∉ l) : (l ++ [a]).Nodup := by
  rw [List.nodup_append]
  refine ⟨hn, by simp, ?_⟩
  intro x hx y hy e
  rw [List.mem_singleton] at hy
  exact h (hy ▸ e ▸ hx)

theorem Wrote.putLoc {S : Schema} {o : Out} {L : Log} (w : Wrote S o L) (loc pid : Nat) (h : pid = S.kind loc) :
    ∃ L', Wrote S (o.putLoc loc pid) L' ∧ loc ∈ (o.putLoc loc pid).st.locs ∧ ∀ x ∈ o.st.locs, x ∈ (o.putLoc loc pid).st.locs := by
  unfold Out.putLoc
  by_cases hl : loc ∈ o.st.locs
  · rw [if_pos hl]
    exact ⟨L, w, hl, fun _ h => h⟩
  · rw [if_neg hl]
    refine ⟨{ L with maps := L.maps ++ [(loc, pid)] }, ⟨?_, w.data, w.disp, w.strs, ?_, w.pids, w.keys, ?_, w.nd2, w.nd3, ?_, w.shape, w.label⟩,
      by simp, fun x hx => List.mem_append_left _ hx⟩
    · simp [w.map, mapText]
    · simp [w.locs]
    · rw [List.map_append]
      exact nodup_snoc _ _ w.nd1 (by rw [← w.locs]; exact hl)
    · intro p hp
      rcases List.mem_append.mp hp with hp | hp
      · exact w.kind p hp
      · rw [List.mem_singleton] at hp
        rw [hp]
        exact h

theorem dataLine_eq (pid : Nat) (fs : List Field) : dataLine pid fs = dataText (pid, fs) ++ [10] := by
  unfold dataLine dataText
  have : (fs.flatMap Field.tokens).flatMap (fun x => 58 :: x) = fs.flatMap Field.dataText := by
    rw [List.flatMap_assoc]
    congr 1
    funext f
    unfold Field.tokens Field.dataText
    cases f.num <;> simp
  simp [this]

theorem dispLine_eq (pid : Nat) (fs : List Field) : dispLine pid fs = dispText (pid, fs) ++ [10] := by
  unfold dispLine dispText
  simp [List.flatMap_map]

theorem Wrote.putPair {S : Schema} {o : Out} {L : Log} (w : Wrote S o L) (pid : Nat) (fs : List Field) (h : fs.map Field.shape = S.shape pid)
    (hp : ∀ f ∈ fs, plainText f.name) :
    ∃ L', Wrote S (o.putPair pid fs) L' ∧ pid ∈ (o.putPair pid fs).st.pids ∧ ∀ x ∈ o.st.pids, x ∈ (o.putPair pid fs).st.pids := by
  unfold Out.putPair
  by_cases hl : pid ∈ o.st.pids
  · rw [if_pos hl]
    exact ⟨L, w, hl, fun _ h => h⟩
  · rw [if_neg hl]
    refine ⟨{ L with kinds := L.kinds ++ [(pid, fs)] }, ⟨w.map, ?_, ?_, w.strs, w.locs, ?_, w.keys, w.nd1, ?_, w.nd3, w.kind, ?_, w.label⟩,
      by simp, fun x hx => List.mem_append_left _ hx⟩
    · simp [w.data, dataLine_eq]
    · simp [w.disp, dispLine_eq]
    · simp [w.pids]
    · rw [List.map_append]
      exact nodup_snoc _ _ w.nd2 (by rw [← w.pids]; exact hl)
    · intro p hq
      rcases List.mem_append.mp hq with hq | hq
      · exact w.shape p hq
      · rw [List.mem_singleton] at hq
        rw [hq]
        exact ⟨h, hp⟩

theorem Wrote.putStr {S : Schema} {o : Out} {L : Log} (w : Wrote S o L) (pid i : Nat) (f : Field) (h : f.ok S pid i) :
    ∃ L', Wrote S (o.putStr pid i f) L' ∧ (f.num = true → f.str ≠ [] → (pid, i, f.val) ∈ (o.putStr pid i f).st.keys) ∧
      ∀ x ∈ o.st.keys, x ∈ (o.putStr pid i f).st.keys := by
  unfold Out.putStr
  by_cases hl : f.num = true ∧ f.str ≠ [] ∧ (pid, i, f.val) ∉ o.st.keys
  · rw [if_pos hl]
    obtain ⟨h1, h2, h3⟩ := hl
    refine ⟨{ L with strs := L.strs ++ [((pid, i, f.val), f.str)] }, ⟨w.map, w.data, w.disp, ?_, w.locs, w.pids, ?_, w.nd1, w.nd2, ?_, w.kind, w.shape, ?_⟩,
      by simp, fun x hx => List.mem_append_left _ hx⟩
    · simp [w.strs, strText]
    · simp [w.keys]
    · rw [List.map_append]
      exact nodup_snoc _ _ w.nd3 (by rw [← w.keys]; exact h3)
    · intro p hq
      rcases List.mem_append.mp hq with hq | hq
      · exact w.label p hq
      · rw [List.mem_singleton] at hq
        rw [hq]
        obtain ⟨_, _, h4, h5⟩ := h.2.1 h1
        exact ⟨h4, h5 h2⟩
  · rw [if_neg hl]
    refine ⟨L, w, fun h1 h2 => ?_, fun _ h => h⟩
    by_cases h3 : (pid, i, f.val) ∈ o.st.keys
    · exact h3
    · exact absurd ⟨h1, h2, h3⟩ hl

theorem Wrote.putStrs {S : Schema} {o : Out} {L : Log} (w : Wrote S o L) (pid i : Nat) (fs : List Field) (h : fieldsOk S pid i fs) :
    ∃ L', Wrote S (o.putStrs pid i fs) L' ∧
      (∀ (j : Nat) f, fs[j]? = some f → f.num = true → f.str ≠ [] → (pid, i + j, f.val) ∈ (o.putStrs pid i fs).st.keys) ∧
      ∀ x ∈ o.st.keys, x ∈ (o.putStrs pid i fs).st.keys := by
  induction fs generalizing o L i with
  | nil => exact ⟨L, w, fun j f h => by simp at h, fun _ h => h⟩
  | cons f fs ih =>
    obtain ⟨L1, w1, h1, h2⟩ := w.putStr pid i f h.1
    obtain ⟨L2, w2, h3, h4⟩ := ih w1 (i + 1) h.2
    refine ⟨L2, w2, ?_, fun x hx => h4 x (h2 x hx)⟩
    intro j g hg hn hs
    cases j with
    | zero =>
      simp only [List.getElem?_cons_zero, Option.some.injEq] at hg
      subst hg
      exact h4 _ (h1 hn hs)
    | succ j =>
      rw [List.getElem?_cons_succ] at hg
      have := h3 j g hg hn hs
      rw [show i + (j + 1) = i + 1 + j by omega]
      exact this

theorem putStr_same (o : Out) (pid i : Nat) (f : Field) : (o.putStr pid i f).files.recs = o.files.recs ∧ (o.putStr pid i f).files.idx = o.files.idx ∧
    (o.putStr pid i f).st.locs = o.st.locs ∧ (o.putStr pid i f).st.pids = o.st.pids := by
  unfold Out.putStr
  split <;> simp

theorem putStrs_same (o : Out) (pid i : Nat) (fs : List Field) : (o.putStrs pid i fs).files.recs = o.files.recs ∧
    (o.putStrs pid i fs).files.idx = o.files.idx ∧ (o.putStrs pid i fs).st.locs = o.st.locs ∧ (o.putStrs pid i fs).st.pids = o.st.pids := by
  induction fs generalizing o i with
  | nil => exact ⟨rfl, rfl, rfl, rfl⟩
  | cons f fs ih =>
    obtain ⟨h1, h2, h3, h4⟩ := ih (o.putStr pid i f) (i + 1)
    obtain ⟨g1, g2, g3, g4⟩ := putStr_same o pid i f
    exact ⟨h1.trans g1, h2.trans g2, h3.trans g3, h4.trans g4⟩

theorem putPair_same (o : Out) (pid : Nat) (fs : List Field) : (o.putPair pid fs).files.recs = o.files.recs ∧
    (o.putPair pid fs).files.idx = o.files.idx ∧ (o.putPair pid fs).st.locs = o.st.locs ∧ (o.putPair pid fs).st.keys = o.st.keys := by
  unfold Out.putPair
  split <;> simp

theorem putLoc_same (o : Out) (loc pid : Nat) : (o.putLoc loc pid).files.recs = o.files.recs ∧
    (o.putLoc loc pid).files.idx = o.files.idx ∧ (o.putLoc loc pid).st.pids = o.st.pids ∧ (o.putLoc loc pid).st.keys = o.st.keys := by
  unfold Out.putLoc
  split <;> simp

theorem write_recs (o : Out) (r : Rec) : (o.write r).files.recs = o.files.recs ++ r.bytes ∧ (o.write r).files.idx = o.files.idx ∧
    (o.write r).last = o.files.recs.length := by
  cases r with
  | pair h pid fs =>
    have h1 := putStrs_same ((o.putLoc h.loc pid).putPair pid fs) pid 0 fs
    have h2 := putPair_same (o.putLoc h.loc pid) pid fs
    have h3 := putLoc_same o h.loc pid
    simp [Out.write, Out.put, h1, h2, h3]
  | _ => simp [Out.write, Out.put]

/-- the transaction is known to the text files -/
def Known (st : Statics) : Rec → Prop
  | .pair h pid fs => h.loc ∈ st.locs ∧ pid ∈ st.pids ∧ ∀ (j : Nat) f, fs[j]? = some f → f.num = true → f.str ≠ [] → (pid, j, f.val) ∈ st.keys
  | _ => True

def Statics.sub (a b : Statics) : Prop := (∀ x ∈ a.locs, x ∈ b.locs) ∧ (∀ x ∈ a.pids, x ∈ b.pids) ∧ ∀ x ∈ a.keys, x ∈ b.keys

theorem Known.mono {a b : Statics} {r : Rec} (h : Known a r) (s : a.sub b) : Known b r := by
  cases r with
  | pair h' pid fs => exact ⟨s.1 _ h.1, s.2.1 _ h.2.1, fun j f h1 h2 h3 => s.2.2 _ (h.2.2 j f h1 h2 h3)⟩
  | _ => trivial

theorem fieldsOk_plain {S : Schema} {pid i : Nat} {fs : List Field} (h : fieldsOk S pid i fs) : ∀ f ∈ fs, plainText f.name := by
  induction fs generalizing i with
  | nil => intro f hf; cases hf
  | cons g fs ih =>
    intro f hf
    rcases List.mem_cons.mp hf with e | hf
    · rw [e]; exact h.1.1
    · exact ih h.2 f hf

theorem Wrote.write {S : Schema} {o : Out} {L : Log} (w : Wrote S o L) (r : Rec) (h : r.ok S) :
    ∃ L', Wrote S (o.write r) L' ∧ Known (o.write r).st r ∧ o.st.sub (o.write r).st := by
  cases r with
  | pair h' pid fs =>
    obtain ⟨_, h1, h2, h3⟩ := h
    obtain ⟨L1, w1, a1, b1⟩ := w.putLoc h'.loc pid h1
    obtain ⟨L2, w2, a2, b2⟩ := w1.putPair pid fs h2 (fieldsOk_plain h3)
    obtain ⟨L3, w3, a3, b3⟩ := w2.putStrs pid 0 fs h3
    have e1 := putStrs_same ((o.putLoc h'.loc pid).putPair pid fs) pid 0 fs
    have e2 := putPair_same (o.putLoc h'.loc pid) pid fs
    have e3 := putLoc_same o h'.loc pid
    refine ⟨L3, ⟨w3.map, w3.data, w3.disp, w3.strs, w3.locs, w3.pids, w3.keys, w3.nd1, w3.nd2, w3.nd3, w3.kind, w3.shape, w3.label⟩, ⟨?_, ?_, ?_⟩, ⟨?_, ?_, ?_⟩⟩
    · show h'.loc ∈ (Out.putStrs _ pid 0 fs).st.locs
      rw [e1.2.2.1, e2.2.2.1]; exact a1
    · show pid ∈ (Out.putStrs _ pid 0 fs).st.pids
      rw [e1.2.2.2]; exact a2
    · intro j f hj hn hs
      have := a3 j f hj hn hs
      rw [Nat.zero_add] at this
      exact this
    · intro x hx
      show x ∈ (Out.putStrs _ pid 0 fs).st.locs
      rw [e1.2.2.1, e2.2.2.1]; exact b1 x hx
    · intro x hx
      show x ∈ (Out.putStrs _ pid 0 fs).st.pids
      rw [e1.2.2.2]; exact b2 x (by rw [e3.2.2.1]; exact hx)
    · intro x hx
      exact b3 x (by rw [e2.2.2.2, e3.2.2.2]; exact hx)
  | _ =>
    exact ⟨L, ⟨w.map, w.data, w.disp, w.strs, w.locs, w.pids, w.keys, w.nd1, w.nd2, w.nd3, w.kind, w.shape, w.label⟩, trivial,
      ⟨fun _ h => h, fun _ h => h, fun _ h => h⟩⟩

theorem Statics.sub_refl (a : Statics) : a.sub a := ⟨fun _ h => h, fun _ h => h, fun _ h => h⟩

theorem Statics.sub_trans {a b c : Statics} (h : a.sub b) (g : b.sub c) : a.sub c :=
  ⟨fun x hx => g.1 x (h.1 x hx), fun x hx => g.2.1 x (h.2.1 x hx), fun x hx => g.2.2 x (h.2.2 x hx)⟩

theorem Wrote.run {S : Schema} {o : Out} {L : Log} (w : Wrote S o L) (ops : List Op) (h : ∀ r ∈ recsOf ops, r.ok S) :
    ∃ L', Wrote S (o.run ops) L' ∧ (∀ r ∈ recsOf ops, Known (o.run ops).st r) ∧ o.st.sub (o.run ops).st := by
  induction ops generalizing o L with
  | nil => exact ⟨L, w, fun r hr => (by cases hr), Statics.sub_refl _⟩
  | cons op ops ih =>
    cases op with
    | index =>
      have w1 : Wrote S o.index L := ⟨w.map, w.data, w.disp, w.strs, w.locs, w.pids, w.keys, w.nd1, w.nd2, w.nd3, w.kind, w.shape, w.label⟩
      exact ih w1 h
    | record r =>
      obtain ⟨L1, w1, k1, s1⟩ := w.write r (h r (by simp [recsOf]))
      obtain ⟨L2, w2, k2, s2⟩ := ih w1 (fun x hx => h x (by simp [recsOf, hx]))
      refine ⟨L2, w2, ?_, Statics.sub_trans s1 s2⟩
      intro x hx
      simp only [recsOf, List.mem_cons] at hx
      rcases hx with e | hx
      · rw [e]; exact k1.mono s2
      · exact k2 x hx

/-- the positions at the indexes, when the file has `p` bytes -/
def marks : Nat → List Op → List Nat
  | _, [] => []
  | p, .record r :: ops => marks (p + r.bytes.length) ops
  | p, .index :: ops => p :: marks p ops

theorem run_recs (o : Out) (ops : List Op) : (o.run ops).files.recs = o.files.recs ++ (recsOf ops).flatMap Rec.bytes := by
  induction ops generalizing o with
  | nil => simp [Out.run, recsOf]
  | cons op ops ih =>
    have : o.run (op :: ops) = (o.step op).run ops := rfl
    rw [this, ih]
    cases op with
    | index => rfl
    | record r => simp [Out.step, (write_recs o r).1, recsOf]

theorem run_idx (o : Out) (ops : List Op) : (o.run ops).files.idx = o.files.idx ++ (marks o.files.recs.length ops).flatMap (le 8) := by
  induction ops generalizing o with
  | nil => simp [Out.run, marks]
  | cons op ops ih =>
    have : o.run (op :: ops) = (o.step op).run ops := rfl
    rw [this, ih]
    cases op with
    | index => simp [Out.step, Out.index, marks]
    | record r => simp [Out.step, write_recs o r, marks]

theorem run_last (o : Out) (ops : List Op) : (o.run ops).last =
    if recsOf ops = [] then o.last else o.files.recs.length + size (recsOf ops).dropLast := by
  induction ops generalizing o with
  | nil => simp [Out.run, recsOf]
  | cons op ops ih =>
    have : o.run (op :: ops) = (o.step op).run ops := rfl
    rw [this, ih]
    cases op with
    | index => rfl
    | record r =>
      by_cases h : recsOf ops = []
      · simp [Out.step, write_recs o r, recsOf, h, size]
      · rw [if_neg h, if_neg (by simp [recsOf])]
        show _ = _ + size (r :: recsOf ops).dropLast
        rw [List.dropLast_cons_of_ne_nil h]
        simp [Out.step, write_recs o r, size]
        omega

theorem marks_get (p k : Nat) (ops : List Op) : (marks p ops)[k]? = if k < (marks p ops).length then some (p + size (before k ops)) else none := by
  induction ops generalizing p k with
  | nil => simp [marks]
  | cons op ops ih =>
    cases op with
    | record r =>
      simp only [marks]
      rw [ih]
      cases k <;> simp [before, size, Nat.add_assoc]
    | index =>
      cases k with
      | zero => simp [marks, before, size]
      | succ k =>
        simp only [marks, List.getElem?_cons_succ, before, List.length_cons]
        rw [ih]
        simp

theorem before_all (p k : Nat) (ops : List Op) (h : (marks p ops).length ≤ k) : before k ops = recsOf ops := by
  induction ops generalizing p k with
  | nil => simp [before, recsOf]
  | cons op ops ih =>
    cases op with
    | record r =>
      simp only [recsOf]
      cases k <;> (simp only [before]; rw [ih (p + r.bytes.length)]; exact h)
    | index =>
      cases k with
      | zero => simp [marks] at h
      | succ k =>
        simp only [before, recsOf]
        exact ih p k (by simpa [marks] using h)

theorem flatMap_length (rs : List Rec) : (rs.flatMap Rec.bytes).length = size rs := by
  unfold size
  rw [List.length_flatMap]

end Sparta.Argos
