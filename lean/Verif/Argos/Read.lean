import Verif.Argos.Parse
/-! Reading transactions. -/
namespace Sparta.Argos

theorem Hdr.bytes_length (h : Hdr) : h.bytes.length = 48 := by
  simp [Hdr.bytes, length_le]

theorem readHdr_bytes (h : Hdr) (t : Nat) (ok : h.ok t) (b : List Nat) : readHdr (h.bytes ++ b) = some h := by
  obtain ⟨h1, h2, h3, h4, h5, h6, h7, h8, _⟩ := ok
  unfold readHdr
  rw [if_neg (by rw [List.length_append, Hdr.bytes_length]; omega)]
  have e : ∀ n, (le 8 n).length = 8 := fun n => length_le 8 n
  have p8 : (256 : Nat) ^ 8 = 2 ^ 64 := by decide
  have p4 : (256 : Nat) ^ 4 = 2 ^ 32 := by decide
  have p2 : (256 : Nat) ^ 2 = 2 ^ 16 := by decide
  unfold Hdr.bytes
  simp only [List.append_assoc]
  congr 1
  have q0 : ∀ x, word (le 8 h.start ++ x) 0 8 = h.start := fun x => word_le 8 _ x (by rw [p8]; exact h1)
  have q1 : ∀ x, word (le 8 h.stop ++ x) 0 8 = h.stop := fun x => word_le 8 _ x (by rw [p8]; exact h2)
  have q2 : ∀ x, word (le 8 h.parent ++ x) 0 8 = h.parent := fun x => word_le 8 _ x (by rw [p8]; exact h3)
  have q3 : ∀ x, word (le 8 h.id ++ x) 0 8 = h.id := fun x => word_le 8 _ x (by rw [p8]; exact h4)
  have q4 : ∀ x, word (le 8 h.display ++ x) 0 8 = h.display := fun x => word_le 8 _ x (by rw [p8]; exact h5)
  have q5 : ∀ x, word (le 4 h.loc ++ x) 0 4 = h.loc := fun x => word_le 4 _ x (by rw [p4]; exact h6)
  have q6 : ∀ x, word (le 2 h.flags ++ x) 0 2 = h.flags := fun x => word_le 2 _ x (by rw [p2]; exact h7)
  have q7 : ∀ x, word (le 2 h.proc ++ x) 0 2 = h.proc := fun x => word_le 2 _ x (by rw [p2]; exact h8)
  have s8 : ∀ v x p n, word (le 8 v ++ x) (8 + p) n = word x p n := fun v x p n => word_skip _ _ 8 p n (length_le 8 v)
  have s4 : ∀ v x p n, word (le 4 v ++ x) (4 + p) n = word x p n := fun v x p n => word_skip _ _ 4 p n (length_le 4 v)
  have s2 : ∀ v x p n, word (le 2 v ++ x) (2 + p) n = word x p n := fun v x p n => word_skip _ _ 2 p n (length_le 2 v)
  rw [q0, show (46 : Nat) = 8 + (8 + (8 + (8 + (8 + (4 + (2 + 0)))))) from rfl, show (44 : Nat) = 8 + (8 + (8 + (8 + (8 + (4 + 0))))) from rfl,
    show (40 : Nat) = 8 + (8 + (8 + (8 + (8 + 0)))) from rfl, show (32 : Nat) = 8 + (8 + (8 + (8 + 0))) from rfl,
    show (24 : Nat) = 8 + (8 + (8 + 0)) from rfl, show (16 : Nat) = 8 + (8 + 0) from rfl,
    show word (le 8 h.start ++ (le 8 h.stop ++ (le 8 h.parent ++ (le 8 h.id ++ (le 8 h.display ++ (le 4 h.loc ++ (le 2 h.flags ++ (le 2 h.proc ++ b)))))))) 8 8 =
      h.stop from by rw [show (8 : Nat) = 8 + 0 from rfl, s8]; exact q1 _]
  simp only [s8, s4, s2, q2, q3, q4, q5, q6, q7]

theorem fields_read (S : Schema) (labels : List ((Nat × Nat × Nat) × Text)) (pid : Nat) (fmts : List Nat) (i : Nat) (fs : List Field) (rest : List Nat)
    (h : fieldsOk S pid i fs)
    (hl : ∀ (j : Nat) f, fs[j]? = some f → f.num = true → labels.lookup (pid, i + j, f.val) = if f.str = [] then none else some f.str)
    (hf : ∀ (j : Nat) f, fs[j]? = some f → fmts[i + j]? = some f.fmt) :
    readFields labels pid fmts i (fs.map Field.triple) (fs.flatMap Field.bytes ++ rest) = .ok (fs.map Field.value, fs.map Field.text, rest) := by
  induction fs generalizing i with
  | nil => simp [readFields]
  | cons f fs ih =>
    have ih' := ih (i + 1) h.2
      (fun j g hg hn => by have := hl (j + 1) g (by simpa using hg) hn; rwa [show i + (j + 1) = i + 1 + j by omega] at this)
      (fun j g hg => by have := hf (j + 1) g (by simpa using hg); rwa [show i + (j + 1) = i + 1 + j by omega] at this)
    have hl0 := hl 0 f (by simp)
    have hf0 := hf 0 f (by simp)
    rw [Nat.add_zero] at hl0 hf0
    rw [List.map_cons, List.flatMap_cons, List.append_assoc, List.map_cons, List.map_cons]
    unfold Field.triple
    rw [readFields]
    cases hn : f.num with
    | true =>
      obtain ⟨h1, h2, _, _⟩ := h.1.2.1 hn
      have hb : f.bytes = le f.size f.val := by unfold Field.bytes; rw [hn]; rfl
      rw [hb]
      simp only [if_true]
      rw [if_neg (by omega), if_neg (by rw [List.length_append, length_le]; omega), take_skip _ _ _ (length_le _ _), drop_skip _ _ _ (length_le _ _),
        unle_le _ _ h2, hl0 hn]
      by_cases hs : f.str = []
      · rw [if_pos hs]
        dsimp only
        rw [hf0]
        dsimp only
        rw [show (fun f : Field => (f.name, if f.num = true then f.size else 0, if f.num = true then 0 else 1)) = Field.triple from rfl, ih']
        simp [Field.value, Field.text, hn, hs]
      · rw [if_neg hs]
        dsimp only
        rw [show (fun f : Field => (f.name, if f.num = true then f.size else 0, if f.num = true then 0 else 1)) = Field.triple from rfl, ih']
        simp [Field.value, Field.text, hn, hs]
    | false =>
      have h1 := h.1.2.2 hn
      have hb : f.bytes = le 2 f.str.length ++ f.str := by
        unfold Field.bytes
        rw [hn, Nat.mod_eq_of_lt h1, List.take_of_length_le (Nat.le_refl _)]
        rfl
      have hw : ∀ x, word (le 2 f.str.length ++ x) 0 2 = f.str.length := fun x => word_le 2 _ _ (by rw [show 256 ^ 2 = 65536 from rfl]; exact h1)
      rw [hb]
      simp only [if_false, Bool.false_eq_true, Nat.one_ne_zero, if_true]
      rw [List.append_assoc, hw, if_neg (by simp [length_le]), drop_skip' _ _ 2 _ (length_le _ _), drop_skip _ _ _ rfl, drop_skip _ _ 2 (length_le _ _),
        take_skip _ _ _ rfl, show (fun f : Field => (f.name, if f.num = true then f.size else 0, if f.num = true then 0 else 1)) = Field.triple from rfl, ih']
      simp [Field.value, Field.text, hn, W]

/-- the reader knows what it needs for the transaction -/
def Ready (R : Reader) : Rec → Prop
  | .pair h pid fs => R.locs.lookup h.loc = some pid ∧
      (∃ gs : List Field, gs.map Field.shape = fs.map Field.shape ∧ R.descs.lookup pid = some (desc gs (gs.map (fun f => f.fmt)))) ∧
      ∀ (j : Nat) f, fs[j]? = some f → f.num = true → R.labels.lookup (pid, j, f.val) = if f.str = [] then none else some f.str
  | _ => True

def tripleOf (x : Text × Nat × Bool × Nat) : Text × Nat × Nat := (x.1, x.2.1, if x.2.2.1 then 0 else 1)

theorem desc_shape (fs gs : List Field) (h : gs.map Field.shape = fs.map Field.shape) :
    desc gs (gs.map (fun f => f.fmt)) = desc fs (fs.map (fun f => f.fmt)) := by
  have t : ∀ l : List Field, l.map Field.triple = (l.map Field.shape).map tripleOf := by
    intro l; rw [List.map_map]; rfl
  have f : ∀ l : List Field, l.map (fun f => f.fmt) = (l.map Field.shape).map (fun x => x.2.2.2) := by
    intro l; rw [List.map_map]; rfl
  have n : gs.length = fs.length := by
    have := congrArg List.length h
    simpa using this
  unfold desc
  rw [t gs, f gs, h, n, ← t, ← f]

theorem record_read (S : Schema) (R : Reader) (s e : Nat) (r : Rec) (rest : List Nat) (ok : r.ok S) (rd : Ready R r) :
    R.readRecord s e (r.bytes ++ rest) = .ok (if r.outside s e then none else some r.shown, rest) := by
  have p8 : (256 : Nat) ^ 8 = 2 ^ 64 := by decide
  have p4 : (256 : Nat) ^ 4 = 2 ^ 32 := by decide
  cases r with
  | annot h t =>
    obtain ⟨hh, ht⟩ := ok
    have hb : (Rec.annot h t).bytes ++ rest = h.bytes ++ (le 2 t.length ++ (t ++ rest)) := by
      simp only [Rec.bytes]
      rw [Nat.mod_eq_of_lt ht, List.take_of_length_le (Nat.le_refl _)]
      simp
    have hw : word (h.bytes ++ (le 2 t.length ++ (t ++ rest))) 48 2 = t.length := by
      have := word_skip h.bytes (le 2 t.length ++ (t ++ rest)) 48 0 2 h.bytes_length
      rw [Nat.add_zero] at this
      rw [this]
      exact word_le 2 _ _ (by rw [show 256 ^ 2 = 65536 from rfl]; exact ht)
    unfold Reader.readRecord
    rw [hb, readHdr_bytes h 1 hh]
    dsimp only
    rw [if_pos hh.2.2.2.2.2.2.2.2, hw, if_neg (by simp [Hdr.bytes_length, length_le]; omega)]
    have d50 : (h.bytes ++ (le 2 t.length ++ (t ++ rest))).drop 50 = t ++ rest := by
      rw [show 50 = 48 + 2 from rfl, drop_skip' _ _ 48 2 h.bytes_length, drop_skip _ _ 2 (length_le _ _)]
    rw [← List.drop_drop, d50, take_skip _ _ _ rfl, drop_skip _ _ _ rfl]
    simp [Rec.outside, Rec.shown]
  | inst h op va ra =>
    obtain ⟨hh, h1, h2, h3⟩ := ok
    have hb : (Rec.inst h op va ra).bytes ++ rest = h.bytes ++ (le 4 op ++ (le 4 0 ++ (le 8 va ++ (le 8 ra ++ rest)))) := by
      simp [Rec.bytes]
    unfold Reader.readRecord
    rw [hb, readHdr_bytes h 2 hh]
    dsimp only
    have hf := hh.2.2.2.2.2.2.2.2
    rw [if_neg (by omega), if_pos hf, if_neg (by simp [Hdr.bytes_length, length_le]; omega)]
    rw [show word (h.bytes ++ (le 4 op ++ (le 4 0 ++ (le 8 va ++ (le 8 ra ++ rest))))) 48 4 = op from by
        rw [show (48 : Nat) = 48 + 0 from rfl, word_skip _ _ 48 0 4 h.bytes_length, word_le 4 _ _ (by rw [p4]; exact h1)],
      show word (h.bytes ++ (le 4 op ++ (le 4 0 ++ (le 8 va ++ (le 8 ra ++ rest))))) 56 8 = va from by
        rw [show (56 : Nat) = 48 + (4 + (4 + 0)) from rfl, word_skip _ _ 48 _ 8 h.bytes_length, word_skip _ _ 4 _ 8 (length_le _ _),
          word_skip _ _ 4 _ 8 (length_le _ _), word_le 8 _ _ (by rw [p8]; exact h2)],
      show word (h.bytes ++ (le 4 op ++ (le 4 0 ++ (le 8 va ++ (le 8 ra ++ rest))))) 64 8 = ra from by
        rw [show (64 : Nat) = 48 + (4 + (4 + (8 + 0))) from rfl, word_skip _ _ 48 _ 8 h.bytes_length, word_skip _ _ 4 _ 8 (length_le _ _),
          word_skip _ _ 4 _ 8 (length_le _ _), word_skip _ _ 8 _ 8 (length_le _ _), word_le 8 _ _ (by rw [p8]; exact h3)],
      show (h.bytes ++ (le 4 op ++ (le 4 0 ++ (le 8 va ++ (le 8 ra ++ rest))))).drop 72 = rest from by
        rw [show (72 : Nat) = 48 + (4 + (4 + (8 + 8))) from rfl, drop_skip' _ _ 48 _ h.bytes_length, drop_skip' _ _ 4 _ (length_le _ _),
          drop_skip' _ _ 4 _ (length_le _ _), drop_skip' _ _ 8 _ (length_le _ _), drop_skip _ _ 8 (length_le _ _)]]
    rfl
  | mem h va ra =>
    obtain ⟨hh, h2, h3⟩ := ok
    have hb : (Rec.mem h va ra).bytes ++ rest = h.bytes ++ (le 8 va ++ (le 8 ra ++ rest)) := by
      simp [Rec.bytes]
    unfold Reader.readRecord
    rw [hb, readHdr_bytes h 3 hh]
    dsimp only
    have hf := hh.2.2.2.2.2.2.2.2
    rw [if_neg (by omega), if_neg (by omega), if_pos hf, if_neg (by simp [Hdr.bytes_length, length_le]; omega)]
    rw [show word (h.bytes ++ (le 8 va ++ (le 8 ra ++ rest))) 48 8 = va from by
        rw [show (48 : Nat) = 48 + 0 from rfl, word_skip _ _ 48 _ 8 h.bytes_length, word_le 8 _ _ (by rw [p8]; exact h2)],
      show word (h.bytes ++ (le 8 va ++ (le 8 ra ++ rest))) 56 8 = ra from by
        rw [show (56 : Nat) = 48 + (8 + 0) from rfl, word_skip _ _ 48 _ 8 h.bytes_length, word_skip _ _ 8 _ 8 (length_le _ _),
          word_le 8 _ _ (by rw [p8]; exact h3)],
      show (h.bytes ++ (le 8 va ++ (le 8 ra ++ rest))).drop 64 = rest from by
        rw [show (64 : Nat) = 48 + (8 + 8) from rfl, drop_skip' _ _ 48 _ h.bytes_length, drop_skip' _ _ 8 _ (length_le _ _),
          drop_skip _ _ 8 (length_le _ _)]]
    rfl
  | pair h pid fs =>
    obtain ⟨hh, h1, h2, h3⟩ := ok
    obtain ⟨r1, ⟨gs, r2, r3⟩, r4⟩ := rd
    have hb : (Rec.pair h pid fs).bytes ++ rest = h.bytes ++ (fs.flatMap Field.bytes ++ rest) := by
      simp [Rec.bytes]
    unfold Reader.readRecord
    rw [hb, readHdr_bytes h 4 hh]
    dsimp only
    have hf := hh.2.2.2.2.2.2.2.2
    rw [if_neg (by omega), if_neg (by omega), if_neg (by omega), if_pos hf, r1]
    dsimp only
    rw [r3, desc_shape fs gs r2]
    dsimp only [desc]
    rw [if_neg (by simp), List.take_of_length_le (by simp), drop_skip _ _ 48 h.bytes_length,
      fields_read S R.labels pid _ 0 fs rest h3 (fun j f hj hn => by rw [Nat.zero_add]; exact r4 j f hj hn)
        (fun j f hj => by rw [Nat.zero_add, List.getElem?_map, hj]; rfl)]
    dsimp only
    simp only [List.map_map, Rec.outside, Rec.shown, Bool.false_eq_true, if_false]
    rfl

theorem bytes_pos (r : Rec) : 48 ≤ r.bytes.length := by
  cases r <;> simp [Rec.bytes, Hdr.bytes_length, length_le] <;> omega

/-- what the callbacks get for some transactions -/
def shownIn (s e : Nat) (rs : List Rec) : List Shown := (rs.filter (fun r => !r.outside s e)).map Rec.shown

theorem records_read (S : Schema) (R : Reader) (s e endPos fuel : Nat) (rs : List Rec) (rest : List Nat) (ok : ∀ r ∈ rs, r.ok S) (rd : ∀ r ∈ rs, Ready R r)
    (hend : endPos + rest.length = R.files.recs.length) (hlen : size rs + rest.length ≤ R.files.recs.length) (hfuel : rs.length < fuel) :
    R.readRecords endPos s e fuel (rs.flatMap Rec.bytes ++ rest) = .ok (shownIn s e rs) := by
  induction rs generalizing fuel with
  | nil =>
    cases fuel with
    | zero => simp at hfuel
    | succ fuel =>
      rw [Reader.readRecords, if_neg (by simp; omega)]
      rfl
  | cons r rs ih =>
    cases fuel with
    | zero => simp at hfuel
    | succ fuel =>
      have hr := bytes_pos r
      have hsz : size (r :: rs) = r.bytes.length + size rs := by simp [size]
      rw [Reader.readRecords, if_pos (by rw [List.length_append, flatMap_length, hsz]; omega), List.flatMap_cons, List.append_assoc,
        record_read S R s e r _ (ok r List.mem_cons_self) (rd r List.mem_cons_self)]
      dsimp only
      rw [ih fuel (fun x hx => ok x (List.mem_cons_of_mem _ hx)) (fun x hx => rd x (List.mem_cons_of_mem _ hx)) (by omega) (by simp at hfuel; omega)]
      dsimp only
      unfold shownIn
      cases ho : r.outside s e <;> simp [ho]

theorem records_none (R : Reader) (s e endPos fuel : Nat) (b : List Nat) (h : endPos ≤ R.files.recs.length - b.length) :
    R.readRecords endPos s e fuel b = .ok [] := by
  cases fuel with
  | zero => rfl
  | succ fuel => rw [Reader.readRecords, if_neg (by omega)]

end Sparta.Argos
